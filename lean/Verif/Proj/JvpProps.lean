import Verif.Proj.Jvp
import Verif.Proj.Sparse
import Mathlib.Analysis.Calculus.FDeriv.Prod
import Mathlib.Analysis.Calculus.FDeriv.Mul
import Mathlib.Analysis.Calculus.FDeriv.Pi
import Mathlib.Analysis.Calculus.Deriv.Inv
import Mathlib.Algebra.BigOperators.Field

/-!
# Property C63: the custom derivative rules of the simplex projections are the derivatives
-/

set_option autoImplicit false
set_option linter.unusedSectionVars false
set_option linter.unusedVariables false

namespace Jaxopt.Proj

open Filter Topology

/-- Two thresholds with the same mass give the same point. -/
theorem relu_threshold_unique {ι : Type*} (T : Finset ι) (y : ι → ℝ) {τ τ' : ℝ}
    (h : ∑ i ∈ T, relu (y i - τ) = ∑ i ∈ T, relu (y i - τ')) : ∀ i ∈ T, relu (y i - τ) = relu (y i - τ') := by
  rcases le_total τ τ' with hle | hle
  · have := (Finset.sum_eq_sum_iff_of_le (s := T) (f := fun i => relu (y i - τ')) (g := fun i => relu (y i - τ))
      fun i _ => max_le_max (by linarith) le_rfl).mp h.symm
    exact fun i hi => (this i hi).symm
  · exact (Finset.sum_eq_sum_iff_of_le (s := T) (f := fun i => relu (y i - τ)) (g := fun i => relu (y i - τ'))
      fun i _ => max_le_max (by linarith) le_rfl).mp h

/-- What the two unit projections have in common: a threshold on the `k` largest coordinates. -/
def IsThreshold {n : ℕ} (k : ℕ) (P : (Fin n → ℝ) → Fin n → ℝ) : Prop :=
  ∀ y, ∃ (T : Finset (Fin n)) (τ : ℝ), T.card = k ∧ (∀ i j, i ∉ T → j ∈ T → y i ≤ y j) ∧
    (∀ i, P y i = if i ∈ T then relu (y i - τ) else 0) ∧ ∑ i ∈ T, relu (y i - τ) = 1

theorem isThreshold_simplex {n : ℕ} (hn : 0 < n) : IsThreshold n (projectionUnitSimplex (K := ℝ) (n := n)) := by
  intro y
  obtain ⟨τ, h1, h2⟩ := unitSimplex_threshold hn y
  exact ⟨Finset.univ, τ, by simp, fun i j hi => absurd (Finset.mem_univ i) hi, fun i => by rw [h1]; simp, h2⟩

theorem isThreshold_sparse {n : ℕ} (k : ℕ) (hk1 : 1 ≤ k) (hk : k ≤ n) :
    IsThreshold k (fun y : Fin n → ℝ => projectionUnitSparseSimplex y k) := by
  intro y
  obtain ⟨τ, h1, h2⟩ := sparse_threshold y k hk1 hk
  obtain ⟨hnd, hlen, _, htop⟩ := topK_spec y k hk
  refine ⟨(topK y k).toFinset, τ, by rw [List.toFinset_card_of_nodup hnd, hlen], fun i j hi hj => ?_, fun i => ?_, h2⟩
  · exact htop i j (by simpa using hi) (by simpa using hj)
  · simp only [h1, List.mem_toFinset]

/-- No coordinate outside the support of `p` ties with the support: the `k`-th largest coordinate is well separated and, if the cardinality constraint
is not active, no coordinate sits exactly at the threshold. -/
def NoTie {n : ℕ} (k : ℕ) (x p : Fin n → ℝ) : Prop :=
  (∀ i j, 0 < p i → p j = 0 → x j < x i) ∧
    ((Finset.univ.filter fun i => 0 < p i).card < k → ∀ i j, 0 < p i → p j = 0 → x j < x i - p i)

/-- The affine map a thresholding agrees with near a point with support `S`. -/
noncomputable def affinePiece {n : ℕ} (S : Finset (Fin n)) (y : Fin n → ℝ) : Fin n → ℝ :=
  fun i => if i ∈ S then y i - (∑ j ∈ S, y j - 1) / S.card else 0

theorem threshold_eventually {n : ℕ} {k : ℕ} {P : (Fin n → ℝ) → Fin n → ℝ} (hP : IsThreshold k P) (x : Fin n → ℝ)
    (hx : NoTie k x (P x)) :
    (Finset.univ.filter fun i => 0 < P x i).Nonempty ∧
      ∀ᶠ y in 𝓝 x, P y = affinePiece (Finset.univ.filter fun i => 0 < P x i) y := by
  obtain ⟨T, τ, hcard, htop, hPx, hsum⟩ := hP x
  set S := Finset.univ.filter fun i => 0 < P x i with hS
  have hmemS : ∀ i, i ∈ S ↔ 0 < P x i := fun i => by simp [hS]
  have hnn : ∀ i, 0 ≤ P x i := fun i => by
    rw [hPx]; split_ifs
    · exact le_max_right _ _
    · exact le_rfl
  have hST : S ⊆ T := fun i hi => by
    by_contra hc
    have := (hmemS i).mp hi
    rw [hPx, if_neg hc] at this
    exact lt_irrefl _ this
  have hPS : ∀ i ∈ S, P x i = x i - τ := fun i hi => by
    have h0 := (hmemS i).mp hi
    rw [hPx, if_pos (hST hi)] at h0 ⊢
    unfold relu at h0 ⊢
    rcases le_total (x i - τ) 0 with h | h
    · rw [max_eq_right h] at h0; exact absurd h0 (lt_irrefl _)
    · exact max_eq_left h
  have hzero : ∀ j, j ∉ S → P x j = 0 := fun j hj =>
    le_antisymm (not_lt.mp fun h => hj ((hmemS j).mpr h)) (hnn j)
  have hSsum : ∑ i ∈ S, (x i - τ) = 1 := by
    rw [← hsum]
    rw [← Finset.sum_subset hST (f := fun i => relu (x i - τ)) fun j hjT hjS => ?_]
    · refine Finset.sum_congr rfl fun i hi => ?_
      have h := hPS i hi
      rw [hPx, if_pos (hST hi)] at h
      exact h.symm
    · have := hzero j hjS
      rwa [hPx, if_pos hjT] at this
  have hne : S.Nonempty := by
    by_contra hc
    rw [Finset.not_nonempty_iff_eq_empty] at hc
    rw [hc, Finset.sum_empty] at hSsum
    exact absurd hSsum (by norm_num)
  refine ⟨hne, ?_⟩
  have hc0 : (S.card : ℝ) ≠ 0 := Nat.cast_ne_zero.mpr (Finset.card_ne_zero.mpr hne)
  set t : (Fin n → ℝ) → ℝ := fun y => (∑ j ∈ S, y j - 1) / S.card with ht
  have htx : t x = τ := by
    rw [Finset.sum_sub_distrib, Finset.sum_const, nsmul_eq_mul] at hSsum
    rw [ht]
    have : ∑ j ∈ S, x j - 1 = S.card * τ := by linarith
    simp only [this]
    exact mul_div_cancel_left₀ _ hc0
  have htc : Continuous t := by
    refine Continuous.div_const (Continuous.sub (continuous_finsetSum _ fun j _ => continuous_apply j) continuous_const) _
  have e1 : ∀ᶠ y in 𝓝 x, ∀ i, i ∈ S → t y < y i := by
    refine eventually_all.mpr fun i => ?_
    by_cases hi : i ∈ S
    · have : t x < x i := by rw [htx]; have := (hmemS i).mp hi; rw [hPS i hi] at this; linarith
      filter_upwards [htc.continuousAt.eventually_lt (continuous_apply i).continuousAt this] with y hy _
      exact hy
    · exact Eventually.of_forall fun y h => absurd h hi
  have e2 : ∀ᶠ y in 𝓝 x, ∀ i j, i ∈ S → j ∉ S → y j < y i := by
    refine eventually_all.mpr fun i => eventually_all.mpr fun j => ?_
    by_cases hi : i ∈ S
    · by_cases hj : j ∈ S
      · exact Eventually.of_forall fun y _ h => absurd hj h
      · have := hx.1 i j ((hmemS i).mp hi) (hzero j hj)
        filter_upwards [(continuous_apply j).continuousAt.eventually_lt (continuous_apply i).continuousAt this] with y hy _ _
        exact hy
    · exact Eventually.of_forall fun y h => absurd h hi
  have e3 : ∀ᶠ y in 𝓝 x, S.card < k → ∀ j, j ∉ S → y j < t y := by
    by_cases hk : S.card < k
    · have : ∀ᶠ y in 𝓝 x, ∀ j, j ∉ S → y j < t y := by
        refine eventually_all.mpr fun j => ?_
        by_cases hj : j ∈ S
        · exact Eventually.of_forall fun y h => absurd hj h
        · obtain ⟨i, hi⟩ := hne
          have h := hx.2 hk i j ((hmemS i).mp hi) (hzero j hj)
          have : x j < t x := by rw [htx]; rw [hPS i hi] at h; linarith
          filter_upwards [(continuous_apply j).continuousAt.eventually_lt htc.continuousAt this] with y hy _
          exact hy
      filter_upwards [this] with y hy _ using hy
    · exact Eventually.of_forall fun y h => absurd h hk
  filter_upwards [e1, e2, e3] with y h1 h2 h3
  obtain ⟨U, σ, hUcard, hUtop, hPy, hUsum⟩ := hP y
  have hScard : S.card ≤ k := hcard ▸ Finset.card_le_card hST
  have hSU : S ⊆ U := by
    intro i hi
    by_contra hiU
    have hUS : U ⊆ S.erase i := by
      intro j hj
      rw [Finset.mem_erase]
      refine ⟨fun h => hiU (h ▸ hj), ?_⟩
      by_contra hjS
      exact absurd (hUtop i j hiU hj) (not_le.mpr (h2 i j hi hjS))
    have := Finset.card_le_card hUS
    rw [Finset.card_erase_of_mem hi, hUcard] at this
    have := Finset.card_pos.mpr ⟨i, hi⟩
    omega
  have hout : ∀ j ∈ U, j ∉ S → y j ≤ t y := by
    intro j hjU hjS
    rcases Nat.lt_or_ge S.card k with hlt | hge
    · exact le_of_lt (h3 hlt j hjS)
    · have : S = U := Finset.eq_of_subset_of_card_le hSU (by omega)
      exact absurd (this ▸ hjU) hjS
  have hUt : ∑ i ∈ U, relu (y i - t y) = 1 := by
    rw [← Finset.sum_subset hSU (f := fun i => relu (y i - t y)) fun j hjU hjS => max_eq_right (by linarith [hout j hjU hjS])]
    have hr : ∀ i ∈ S, relu (y i - t y) = y i - t y := fun i hi => max_eq_left (by linarith [h1 i hi])
    rw [Finset.sum_congr rfl hr]
    rw [Finset.sum_sub_distrib, Finset.sum_const, nsmul_eq_mul, ht]
    simp only
    rw [mul_div_cancel₀ _ hc0]
    ring
  have huniq := relu_threshold_unique U y (hUsum.trans hUt.symm)
  funext i
  rw [hPy]
  unfold affinePiece
  by_cases hi : i ∈ S
  · rw [if_pos (hSU hi), if_pos hi, huniq i (hSU hi)]
    exact max_eq_left (by linarith [h1 i hi])
  · rw [if_neg hi]
    by_cases hiU : i ∈ U
    · rw [if_pos hiU, huniq i hiU]
      exact max_eq_right (by linarith [hout i hiU hi])
    · rw [if_neg hiU]

theorem affinePiece_hasFDerivAt {n : ℕ} (p x : Fin n → ℝ) :
    ∃ L : (Fin n → ℝ) →L[ℝ] (Fin n → ℝ), (∀ v, L v = supportTangent p v) ∧
      HasFDerivAt (affinePiece (Finset.univ.filter fun i => 0 < p i)) L x := by
  set S := Finset.univ.filter fun i => 0 < p i with hS
  have hmemS : ∀ i, i ∈ S ↔ 0 < p i := fun i => by simp [hS]
  let D : Fin n → ((Fin n → ℝ) →L[ℝ] ℝ) := fun i =>
    if i ∈ S then ContinuousLinearMap.proj i - (S.card : ℝ)⁻¹ • ∑ j ∈ S, ContinuousLinearMap.proj (R := ℝ) (φ := fun _ : Fin n => ℝ) j else 0
  refine ⟨ContinuousLinearMap.pi D, fun v => ?_, ?_⟩
  · funext i
    have hsum : ∑ j, (if 0 < p j then (1 : ℝ) else 0) * v j = ∑ j ∈ S, v j := by
      rw [hS, Finset.sum_filter]
      exact Finset.sum_congr rfl fun j _ => by split_ifs <;> simp
    simp only [ContinuousLinearMap.coe_pi', supportTangent, D, hsum, ← hS]
    by_cases hi : i ∈ S
    · rw [if_pos hi, if_pos ((hmemS i).mp hi)]
      simp [ContinuousLinearMap.sum_apply, div_eq_inv_mul]
    · rw [if_neg hi, if_neg fun h => hi ((hmemS i).mpr h)]
      simp
  · rw [hasFDerivAt_pi]
    intro i
    by_cases hi : i ∈ S
    · simp only [affinePiece, D, if_pos hi]
      have hs : HasFDerivAt (fun y : Fin n → ℝ => ∑ j ∈ S, y j) (∑ j ∈ S, ContinuousLinearMap.proj (R := ℝ) (φ := fun _ : Fin n => ℝ) j) x :=
        HasFDerivAt.fun_sum fun j _ => hasFDerivAt_apply j x
      have := (hasFDerivAt_apply (𝕜 := ℝ) i x).fun_sub ((hs.sub_const 1).const_mul (S.card : ℝ)⁻¹)
      refine this.congr_of_eventuallyEq (Eventually.of_forall fun y => ?_)
      simp only [div_eq_inv_mul]
    · simp only [affinePiece, D, if_neg hi]
      exact hasFDerivAt_const _ _

theorem threshold_hasFDerivAt {n : ℕ} {k : ℕ} {P : (Fin n → ℝ) → Fin n → ℝ} (hP : IsThreshold k P) (x : Fin n → ℝ)
    (hx : NoTie k x (P x)) :
    ∃ L : (Fin n → ℝ) →L[ℝ] (Fin n → ℝ), (∀ v, L v = supportTangent (P x) v) ∧ HasFDerivAt P L x := by
  obtain ⟨_, hev⟩ := threshold_eventually hP x hx
  obtain ⟨L, hL, hd⟩ := affinePiece_hasFDerivAt (P x) x
  exact ⟨L, hL, hd.congr_of_eventuallyEq hev⟩

theorem scaled_hasFDerivAt {n : ℕ} {P : (Fin n → ℝ) → Fin n → ℝ} {x : Fin n → ℝ} {value : ℝ} (hv : value ≠ 0)
    {L : (Fin n → ℝ) →L[ℝ] (Fin n → ℝ)} (hL : HasFDerivAt P L (fun i => x i / value)) :
    ∃ M : ((Fin n → ℝ) × ℝ) →L[ℝ] (Fin n → ℝ),
      (∀ w, M w = fun i => w.2 * P (fun i => x i / value) i + value * L (fun i => w.1 i / value - x i * w.2 / value ^ 2) i) ∧
      HasFDerivAt (fun q : (Fin n → ℝ) × ℝ => fun i => q.2 * P (fun i => q.1 i / q.2) i) M (x, value) := by
  have hinv : HasFDerivAt (fun q : (Fin n → ℝ) × ℝ => q.2⁻¹) ((-(value ^ 2)⁻¹) • ContinuousLinearMap.snd ℝ (Fin n → ℝ) ℝ) (x, value) := by
    have h1 : HasDerivAt (fun s : ℝ => s⁻¹) (-(value ^ 2)⁻¹) value := hasDerivAt_inv hv
    exact h1.comp_hasFDerivAt (x, value) (hasFDerivAt_snd (𝕜 := ℝ) (p := (x, value)))
  have hz := hinv.fun_smul (hasFDerivAt_fst (𝕜 := ℝ) (p := (x, value)))
  have e : ∀ q : (Fin n → ℝ) × ℝ, q.2⁻¹ • q.1 = fun i => q.1 i / q.2 := fun q => by
    funext i; simp [div_eq_inv_mul]
  simp only [e] at hz
  have hc : HasFDerivAt (fun q : (Fin n → ℝ) × ℝ => P (fun i => q.1 i / q.2)) _ (x, value) := HasFDerivAt.comp (x, value) (g := P) hL hz
  have hfin := (hasFDerivAt_snd (𝕜 := ℝ) (p := (x, value))).fun_smul hc
  refine ⟨_, fun w => ?_, hfin⟩
  funext i
  simp only [ContinuousLinearMap.add_apply, ContinuousLinearMap.smul_apply, ContinuousLinearMap.smulRight_apply, Pi.add_apply, Pi.smul_apply,
    smul_eq_mul, ContinuousLinearMap.comp_apply, ContinuousLinearMap.coe_snd', ContinuousLinearMap.coe_fst']
  rw [add_comm]
  congr 2
  have : (value⁻¹ • w.1 + (-(value ^ 2)⁻¹ * w.2) • x) = fun i => w.1 i / value - x i * w.2 / value ^ 2 := by
    funext j
    simp only [Pi.add_apply, Pi.smul_apply, smul_eq_mul]
    field_simp
    ring
  rw [← this]

theorem supportTangent_sum {n : ℕ} (p v : Fin n → ℝ) (hp : (Finset.univ.filter fun i => 0 < p i).Nonempty) :
    ∑ i, supportTangent p v i = 0 := by
  have hc0 : ((Finset.univ.filter fun i => 0 < p i).card : ℝ) ≠ 0 := Nat.cast_ne_zero.mpr (Finset.card_ne_zero.mpr hp)
  simp only [supportTangent]
  rw [Finset.sum_sub_distrib, ← Finset.mul_sum]
  have : ∑ i, (if 0 < p i then (1 : ℝ) else 0) = (Finset.univ.filter fun i => 0 < p i).card := by
    rw [Finset.sum_boole]
  rw [this, div_mul_cancel₀ _ hc0, sub_self]

theorem supportTangent_zero {n : ℕ} (p v : Fin n → ℝ) {i : Fin n} (hi : p i = 0) : supportTangent p v i = 0 := by
  simp [supportTangent, hi]

/-- The part common to both projections: differentiability of `value * P(x / value)`. -/
theorem scaled_jvp {n k : ℕ} {P : (Fin n → ℝ) → Fin n → ℝ} (hP : IsThreshold k P) (x : Fin n → ℝ) (value : ℝ) (hv : 0 < value)
    (hx : NoTie k x (fun i => value * P (fun j => x j / value) i)) :
    let J := scaledJvp (fun z zDot => (P z, supportTangent (P z) zDot)) x value
    ∃ L : ((Fin n → ℝ) × ℝ) →L[ℝ] (Fin n → ℝ),
      HasFDerivAt (fun q : (Fin n → ℝ) × ℝ => fun i => q.2 * P (fun j => q.1 j / q.2) i) L (x, value) ∧
      ∀ xDot valueDot, (J xDot valueDot).1 = (fun i => value * P (fun j => x j / value) i) ∧ (J xDot valueDot).2 = L (xDot, valueDot) ∧
        ∑ i, (J xDot valueDot).2 i = valueDot ∧ ∀ i, value * P (fun j => x j / value) i = 0 → (J xDot valueDot).2 i = 0 := by
  intro J
  set z : Fin n → ℝ := fun j => x j / value with hz
  have hpos : ∀ i, 0 < value * P z i ↔ 0 < P z i := fun i => by
    constructor
    · intro h; exact pos_of_mul_pos_right h hv.le
    · exact mul_pos hv
  have hzero : ∀ i, value * P z i = 0 ↔ P z i = 0 := fun i => by simp [hv.ne']
  have hxz : ∀ i, x i = value * z i := fun i => by rw [hz]; simp only; rw [mul_div_cancel₀ _ hv.ne']
  have hnt : NoTie k z (P z) := by
    obtain ⟨h1, h2⟩ := hx
    simp only [hpos, hzero] at h1 h2
    refine ⟨fun i j hi hj => ?_, fun hc i j hi hj => ?_⟩
    · have := h1 i j hi hj
      rw [hxz i, hxz j] at this
      exact lt_of_mul_lt_mul_left this hv.le
    · have := h2 hc i j hi hj
      rw [hxz i, hxz j, ← mul_sub] at this
      exact lt_of_mul_lt_mul_left this hv.le
  obtain ⟨hne, _⟩ := threshold_eventually hP z hnt
  obtain ⟨L, hL, hd⟩ := threshold_hasFDerivAt hP z hnt
  obtain ⟨M, hM, hMd⟩ := scaled_hasFDerivAt hv.ne' hd
  obtain ⟨T, τ, _, _, hPz, hTs⟩ := hP z
  have hsum : ∑ i, P z i = 1 := by
    rw [← hTs, ← Finset.sum_subset (Finset.subset_univ T) fun i _ hi => by rw [hPz, if_neg hi]]
    exact Finset.sum_congr rfl fun i hi => by rw [hPz, if_pos hi]
  refine ⟨M, hMd, fun xDot valueDot => ⟨rfl, ?_, ?_, fun i hi => ?_⟩⟩
  · rw [hM]; simp only [hL]; rfl
  · change ∑ i, (valueDot * P z i + value * supportTangent (P z) _ i) = valueDot
    rw [Finset.sum_add_distrib, ← Finset.mul_sum, ← Finset.mul_sum, supportTangent_sum _ _ hne, hsum]
    ring
  · change valueDot * P z i + value * supportTangent (P z) _ i = 0
    rw [supportTangent_zero _ _ ((hzero i).mp hi), (hzero i).mp hi]
    ring

/-- **C63**: wherever no coordinate sits exactly at the threshold, `projection_simplex` is differentiable in the point and in `value`, and `jax.jvp`
returns the projection and its derivative.  The tangent sums to the tangent of `value` and vanishes off the support. -/
theorem C63_simplex {n : ℕ} (hn : 0 < n) (x : Fin n → ℝ) (value : ℝ) (hv : 0 < value)
    (hx : ∀ i j, 0 < projectionSimplex x value i → projectionSimplex x value j = 0 → x j < x i - projectionSimplex x value i) :
    ∃ L : ((Fin n → ℝ) × ℝ) →L[ℝ] (Fin n → ℝ),
      HasFDerivAt (fun q : (Fin n → ℝ) × ℝ => projectionSimplex q.1 q.2) L (x, value) ∧
      ∀ xDot valueDot, projectionSimplexJvp x value xDot valueDot = (projectionSimplex x value, L (xDot, valueDot)) ∧
        ∑ i, L (xDot, valueDot) i = valueDot ∧ ∀ i, projectionSimplex x value i = 0 → L (xDot, valueDot) i = 0 := by
  obtain ⟨L, hd, h⟩ := scaled_jvp (isThreshold_simplex hn) x value hv
    ⟨fun i j hi hj => lt_trans (hx i j hi hj) (sub_lt_self _ hi), fun _ => hx⟩
  refine ⟨L, hd, fun xDot valueDot => ?_⟩
  obtain ⟨h1, h2, h3, h4⟩ := h xDot valueDot
  rw [h2] at h3 h4
  exact ⟨Prod.ext h1 h2, h3, h4⟩

/-- **C63**: the same for `projection_sparse_simplex` (exact `top_k`), wherever the support is strictly separated from the other coordinates and, if
fewer than `max_nz` coordinates are used, no coordinate sits at the threshold. -/
theorem C63_sparse_simplex {n : ℕ} (k : ℕ) (hk1 : 1 ≤ k) (hk : k ≤ n) (x : Fin n → ℝ) (value : ℝ) (hv : 0 < value)
    (hx : ∀ i j, 0 < projectionSparseSimplex x k value i → projectionSparseSimplex x k value j = 0 → x j < x i)
    (hx' : (Finset.univ.filter fun i => 0 < projectionSparseSimplex x k value i).card < k → ∀ i j,
      0 < projectionSparseSimplex x k value i → projectionSparseSimplex x k value j = 0 → x j < x i - projectionSparseSimplex x k value i) :
    ∃ L : ((Fin n → ℝ) × ℝ) →L[ℝ] (Fin n → ℝ),
      HasFDerivAt (fun q : (Fin n → ℝ) × ℝ => projectionSparseSimplex q.1 k q.2) L (x, value) ∧
      ∀ xDot valueDot, projectionSparseSimplexJvp k x value xDot valueDot = (projectionSparseSimplex x k value, L (xDot, valueDot)) ∧
        ∑ i, L (xDot, valueDot) i = valueDot ∧ ∀ i, projectionSparseSimplex x k value i = 0 → L (xDot, valueDot) i = 0 := by
  obtain ⟨L, hd, h⟩ := scaled_jvp (isThreshold_sparse k hk1 hk) x value hv ⟨hx, hx'⟩
  refine ⟨L, hd, fun xDot valueDot => ?_⟩
  obtain ⟨h1, h2, h3, h4⟩ := h xDot valueDot
  rw [h2] at h3 h4
  exact ⟨Prod.ext h1 h2, h3, h4⟩

/-- A point with a coordinate off the support, computed over the rationals. -/
example : projectionSimplex ![(3 : ℚ), 2, -1] 3 = ![2, 1, 0] ∧
    projectionSimplexJvp ![(3 : ℚ), 2, -1] 3 ![1, 0, 5] 1 = (![2, 1, 0], ![1, 0, 0]) ∧
    projectionSparseSimplexJvp 1 ![(3 : ℚ), 2, -1] 3 ![1, 4, 5] 1 = (![3, 0, 0], ![1, 0, 0]) := by
  decide +kernel

/-- The theorem applies at a point whose projection has a zero coordinate. -/
example : ∃ L : ((Fin 2 → ℝ) × ℝ) →L[ℝ] (Fin 2 → ℝ),
    HasFDerivAt (fun q : (Fin 2 → ℝ) × ℝ => projectionSimplex q.1 q.2) L (![3, 0], 1) := by
  have hp : projectionSimplex ![(3 : ℝ), 0] 1 = ![1, 0] := by
    obtain ⟨τ, h1, h2⟩ := unitSimplex_threshold (n := 2) (by norm_num) ![(3 : ℝ), 0]
    rw [Fin.sum_univ_two] at h2
    simp only [Matrix.cons_val_zero, Matrix.cons_val_one, relu] at h2
    have hτ : τ = 2 := by
      rcases max_cases (3 - τ) 0 with ⟨e1, g1⟩ | ⟨e1, g1⟩ <;> rcases max_cases (0 - τ) 0 with ⟨e2, g2⟩ | ⟨e2, g2⟩ <;>
        rw [e1, e2] at h2 <;> linarith
    funext i
    simp only [projectionSimplex, div_one, one_mul]
    rw [h1, hτ]
    fin_cases i <;> norm_num [relu]
  obtain ⟨L, h, _⟩ := C63_simplex (n := 2) (by norm_num) ![3, 0] 1 one_pos (by
    rw [hp]
    intro i j hi hj
    fin_cases i <;> fin_cases j <;> simp at hi hj ⊢ <;> norm_num)
  exact ⟨L, h⟩

end Jaxopt.Proj
