import Verif.Prox.BoxSectionAD
import Verif.Prox.AutodiffProps
import Verif.Proj.Sparse

/-!
# C134: the derivative of `projection_box_section`
-/

set_option autoImplicit false
set_option linter.unusedSectionVars false
set_option linter.unusedVariables false

namespace Jaxopt.ProxAD

open Jaxopt.Proj Jaxopt.Loss Jaxopt.Loss.Dual Filter Topology

/-! ## The rule of `jnp.clip` -/

/-- The tangent of `clip` is a combination of the three tangents. -/
theorem clip_tan (y p q : ℝ) : ∃ μ ν ρ : ℝ, 0 ≤ μ ∧ (p < y → y < q → μ = 1) ∧
    ∀ y' p' q', (Dual.clip ⟨y, y'⟩ ⟨p, p'⟩ ⟨q, q'⟩).tan = μ * y' + ν * p' + ρ * q' := by
  refine ⟨(if y = max y p then (if p = max y p then 1 / 2 else 1) else 0) * (if max y p = min (max y p) q then (if q = min (max y p) q then 1 / 2 else 1) else 0),
    (if p = max y p then (if y = max y p then 1 / 2 else 1) else 0) * (if max y p = min (max y p) q then (if q = min (max y p) q then 1 / 2 else 1) else 0),
    (if q = min (max y p) q then (if max y p = min (max y p) q then 1 / 2 else 1) else 0), ?_, fun h1 h2 => ?_, fun y' p' q' => ?_⟩
  · refine mul_nonneg ?_ ?_ <;> (split <;> [(split <;> norm_num); norm_num])
  · rw [max_eq_left h1.le, min_eq_left h2.le]
    simp [h1.ne, h2.ne']
  · simp only [Dual.clip, Dual.minimum, Dual.maximum]
    ring

theorem clip_tan_free {y p q : Dual ℝ} (h1 : p.val < y.val) (h2 : y.val < q.val) : (Dual.clip y p q).tan = y.tan := by
  have e : ∀ m z, m = max y.val p.val → z = min m q.val → (Dual.clip y p q).tan =
      (y.tan * (if y.val = m then (if p.val = m then 1 / 2 else 1) else 0) + p.tan * (if p.val = m then (if y.val = m then 1 / 2 else 1) else 0)) *
          (if m = z then (if q.val = z then 1 / 2 else 1) else 0) +
        q.tan * (if q.val = z then (if m = z then 1 / 2 else 1) else 0) := by
    rintro m z rfl rfl; rfl
  rw [e y.val y.val (max_eq_left h1.le).symm (min_eq_left h2.le).symm]
  simp [h1.ne, h2.ne']

theorem clip_tan_low {y p q : Dual ℝ} (h1 : y.val < p.val) (h2 : p.val < q.val ∨ p.val = q.val ∧ p.tan = q.tan) : (Dual.clip y p q).tan = p.tan := by
  have e : ∀ m z, m = max y.val p.val → z = min m q.val → (Dual.clip y p q).tan =
      (y.tan * (if y.val = m then (if p.val = m then 1 / 2 else 1) else 0) + p.tan * (if p.val = m then (if y.val = m then 1 / 2 else 1) else 0)) *
          (if m = z then (if q.val = z then 1 / 2 else 1) else 0) +
        q.tan * (if q.val = z then (if m = z then 1 / 2 else 1) else 0) := by
    rintro m z rfl rfl; rfl
  rcases h2 with h2 | ⟨h2, h3⟩
  · rw [e p.val p.val (max_eq_right h1.le).symm (min_eq_left h2.le).symm]
    simp [h1.ne, h2.ne']
  · rw [e p.val p.val (max_eq_right h1.le).symm (by rw [h2, min_self])]
    rw [← h3, ← h2]
    simp [h1.ne]
    ring

theorem clip_tan_up {y p q : Dual ℝ} (h1 : q.val < y.val) (h2 : p.val ≤ q.val) : (Dual.clip y p q).tan = q.tan := by
  have e : ∀ m z, m = max y.val p.val → z = min m q.val → (Dual.clip y p q).tan =
      (y.tan * (if y.val = m then (if p.val = m then 1 / 2 else 1) else 0) + p.tan * (if p.val = m then (if y.val = m then 1 / 2 else 1) else 0)) *
          (if m = z then (if q.val = z then 1 / 2 else 1) else 0) +
        q.tan * (if q.val = z then (if m = z then 1 / 2 else 1) else 0) := by
    rintro m z rfl rfl; rfl
  rw [e y.val q.val (max_eq_left (by linarith)).symm (min_eq_right h1.le).symm]
  simp [h1.ne']

/-! ## The tangent of the dual variable -/

section
variable {n : ℕ} {x alpha beta w : Fin n → Dual ℝ} {c : Dual ℝ} {τ : ℝ}

/-- The coefficient of the scalar system. -/
theorem boxSec_linear (x alpha beta w : Fin n → Dual ℝ) (c : Dual ℝ) (τ : ℝ) :
    ∃ a : ℝ, (boxSecFunD ⟨τ, 1⟩ (fun i => const (x i).val) (fun i => const (alpha i).val) (fun i => const (beta i).val) (fun i => const (w i).val)
        (const c.val)).tan = a ∧
      (∀ d, (boxSecFunD ⟨τ, d⟩ x alpha beta w c).tan = (boxSecFunD ⟨τ, 0⟩ x alpha beta w c).tan + d * a) ∧
      ((∀ i, 0 < (w i).val) → (∃ i, (alpha i).val < (w i).val * τ + (x i).val ∧ (w i).val * τ + (x i).val < (beta i).val) → 0 < a) := by
  choose μ ν ρ h0 h1 h2 using fun i => clip_tan ((w i).val * τ + (x i).val) (alpha i).val (beta i).val
  have hc : ∀ (i : Fin n) (d : ℝ), (Dual.clip (add (mul (w i) ⟨τ, d⟩) (x i)) (alpha i) (beta i)).tan =
      μ i * ((w i).tan * τ + (w i).val * d + (x i).tan) + ν i * (alpha i).tan + ρ i * (beta i).tan := fun i d => h2 i _ _ _
  have hc1 : ∀ i : Fin n, (Dual.clip (add (mul (const (w i).val) ⟨τ, 1⟩) (const (x i).val)) (const (alpha i).val) (const (beta i).val)).tan =
      μ i * (0 * τ + (w i).val * 1 + 0) + ν i * 0 + ρ i * 0 := fun i => h2 i _ _ _
  have hv : ∀ (i : Fin n) (d : ℝ), (Dual.clip (add (mul (w i) ⟨τ, d⟩) (x i)) (alpha i) (beta i)).val =
      Proj.clip ((w i).val * τ + (x i).val) (alpha i).val (beta i).val := fun i d => rfl
  have ht : ∀ d, (boxSecFunD ⟨τ, d⟩ x alpha beta w c).tan = ∑ i, ((w i).tan * Proj.clip ((w i).val * τ + (x i).val) (alpha i).val (beta i).val +
      (w i).val * (μ i * ((w i).tan * τ + (w i).val * d + (x i).tan) + ν i * (alpha i).tan + ρ i * (beta i).tan)) - c.tan := fun d => by
    show ∑ i, ((w i).tan * (Dual.clip (add (mul (w i) ⟨τ, d⟩) (x i)) (alpha i) (beta i)).val +
      (w i).val * (Dual.clip (add (mul (w i) ⟨τ, d⟩) (x i)) (alpha i) (beta i)).tan) - c.tan = _
    simp only [hc, hv]
  refine ⟨∑ i, (w i).val * (μ i * (w i).val), ?_, fun d => ?_, fun hw hf => ?_⟩
  · show ∑ i, (0 * _ + (w i).val * (Dual.clip (add (mul (const (w i).val) ⟨τ, 1⟩) (const (x i).val)) (const (alpha i).val) (const (beta i).val)).tan) - 0 = _
    rw [sub_zero]
    exact Finset.sum_congr rfl fun i _ => by rw [hc1]; ring
  · rw [ht, ht, Finset.mul_sum, sub_add_eq_add_sub, ← Finset.sum_add_distrib]
    congr 1
    exact Finset.sum_congr rfl fun i _ => by ring
  · obtain ⟨i, g1, g2⟩ := hf
    refine Finset.sum_pos' (fun j _ => mul_nonneg (hw j).le (mul_nonneg (h0 j) (hw j).le)) ⟨i, Finset.mem_univ i, ?_⟩
    rw [h1 i g1 g2, one_mul]
    exact mul_pos (hw i) (hw i)

/-- The tangent of the dual variable is the only one for which the tangent of the optimality function is zero. -/
theorem boxSecTauDot_unique (hw : ∀ i, 0 < (w i).val) (hf : ∃ i, (alpha i).val < (w i).val * τ + (x i).val ∧ (w i).val * τ + (x i).val < (beta i).val)
    (d : ℝ) : (boxSecFunD ⟨τ, d⟩ x alpha beta w c).tan = 0 ↔ d = boxSecTauDot τ x alpha beta w c := by
  obtain ⟨a, h1, h2, h3⟩ := boxSec_linear x alpha beta w c τ
  have ha := (h3 hw hf).ne'
  have e : boxSecTauDot τ x alpha beta w c = -(boxSecFunD ⟨τ, 0⟩ x alpha beta w c).tan / a := by
    simp only [boxSecTauDot]
    rw [h1, if_neg ha]
  rw [h2, e, eq_div_iff ha]
  constructor <;> intro h <;> linarith

/-- C134.  At every point with a free coordinate, kinks included, the tangent of the output is tangent to the hyperplane. -/
theorem C134_tangent (hw : ∀ i, 0 < (w i).val) (hf : ∃ i, (alpha i).val < (w i).val * τ + (x i).val ∧ (w i).val * τ + (x i).val < (beta i).val) :
    ∑ i, (mul (w i) (boxSectionD τ x alpha beta w c i)).tan = c.tan := by
  have := (boxSecTauDot_unique (c := c) hw hf _).mpr rfl
  exact sub_eq_zero.mp this

end

/-! ## The derivative -/

section
variable {n : ℕ} {X A B W : Fin n → ℝ → ℝ} {C : ℝ → ℝ} {x alpha beta w : Fin n → Dual ℝ} {c : Dual ℝ} {τ : ℝ}

/-- Two curves that touch and do not cross have the same slope. -/
theorem touch {a b : ℝ → ℝ} {p q : Dual ℝ} (ha : Tracks a p) (hb : Tracks b q) (h : ∀ᶠ t in 𝓝 (0 : ℝ), a t ≤ b t) :
    p.val < q.val ∨ p.val = q.val ∧ p.tan = q.tan := by
  have h0 : p.val ≤ q.val := by rw [← ha.1, ← hb.1]; exact h.self_of_nhds
  rcases lt_or_eq_of_le h0 with h1 | h1
  · exact Or.inl h1
  · refine Or.inr ⟨h1, ?_⟩
    have hd : HasDerivAt (fun t => b t - a t) (q.tan - p.tan) 0 := hb.2.sub ha.2
    have hmin : IsLocalMin (fun t => b t - a t) 0 := by
      filter_upwards [h] with t ht
      show b 0 - a 0 ≤ b t - a t
      rw [ha.1, hb.1, h1, sub_self]
      linarith
    linarith [hmin.hasDerivAt_eq_zero hd]

/-- C134.  If the weights are positive, the bounds stay ordered, some coordinate of the solution is strictly between its bounds and no coordinate is on
a kink, then the closest point of the box section exists and is unique for nearby data, and differentiating `projection_box_section` gives its derivative in
the point, the bounds, the weights and the offset. -/
theorem C134_box_section (hX : ∀ i, Tracks (X i) (x i)) (hA : ∀ i, Tracks (A i) (alpha i)) (hB : ∀ i, Tracks (B i) (beta i))
    (hW : ∀ i, Tracks (W i) (w i)) (hC : Tracks C c) (hw : ∀ i, 0 < (w i).val) (hAB : ∀ᶠ t in 𝓝 (0 : ℝ), ∀ i, A i t ≤ B i t)
    (hroot : boxSecFun (fun i => (x i).val) (fun i => (alpha i).val) (fun i => (beta i).val) (fun i => (w i).val) c.val τ = 0)
    (hf : ∃ i, (alpha i).val < (w i).val * τ + (x i).val ∧ (w i).val * τ + (x i).val < (beta i).val)
    (hk : ∀ i, (w i).val * τ + (x i).val ≠ (alpha i).val ∧ (w i).val * τ + (x i).val ≠ (beta i).val) :
    ∃ P : ℝ → Fin n → ℝ, (∀ᶠ t in 𝓝 (0 : ℝ), IsUniqueProj (BoxSection (fun i => A i t) (fun i => B i t) (fun i => W i t) (C t)) (fun i => X i t) (P t)) ∧
      ∀ i, Tracks (fun t => P t i) (boxSectionD τ x alpha beta w c i) := by
  classical
  have hAB' : ∀ i, ∀ᶠ t in 𝓝 (0 : ℝ), A i t ≤ B i t := fun i => hAB.mono fun t ht => ht i
  have hab : ∀ i, (alpha i).val < (beta i).val ∨ (alpha i).val = (beta i).val ∧ (alpha i).tan = (beta i).tan := fun i => touch (hA i) (hB i) (hAB' i)
  have hle : ∀ i, (alpha i).val ≤ (beta i).val := fun i => (hab i).elim le_of_lt fun h => h.1.le
  -- the free coordinates, the coordinates on the lower bound
  set S := Finset.univ.filter fun i => (alpha i).val < (w i).val * τ + (x i).val ∧ (w i).val * τ + (x i).val < (beta i).val with hS
  -- value of a coordinate that is not free
  let V : Fin n → ℝ → ℝ := fun i => if (w i).val * τ + (x i).val < (alpha i).val then A i else B i
  have hVd : ∀ i, DifferentiableAt ℝ (V i) 0 := fun i => by
    show DifferentiableAt ℝ (if (w i).val * τ + (x i).val < (alpha i).val then A i else B i) 0
    split
    · exact (hA i).2.differentiableAt
    · exact (hB i).2.differentiableAt
  let N : ℝ → ℝ := fun t => C t - ∑ i ∈ S, W i t * X i t - ∑ i ∈ Finset.univ.filter (fun i => i ∉ S), W i t * V i t
  let D : ℝ → ℝ := fun t => ∑ i ∈ S, W i t * W i t
  have hD0 : D 0 ≠ 0 := by
    obtain ⟨i, hi⟩ := hf
    have : 0 < ∑ i ∈ S, W i 0 * W i 0 := by
      refine Finset.sum_pos' (fun j _ => mul_self_nonneg _) ⟨i, Finset.mem_filter.mpr ⟨Finset.mem_univ i, hi⟩, ?_⟩
      rw [(hW i).1]
      exact mul_pos (hw i) (hw i)
    exact this.ne'
  have hNd : DifferentiableAt ℝ N 0 := by
    refine (hC.2.differentiableAt.sub ?_).sub ?_
    · exact DifferentiableAt.fun_sum fun i _ => (hW i).2.differentiableAt.mul (hX i).2.differentiableAt
    · exact DifferentiableAt.fun_sum fun i _ => (hW i).2.differentiableAt.mul (hVd i)
  have hDd : DifferentiableAt ℝ D 0 := DifferentiableAt.fun_sum fun i _ => (hW i).2.differentiableAt.mul (hW i).2.differentiableAt
  let T : ℝ → ℝ := fun t => N t / D t
  have hTd : DifferentiableAt ℝ T 0 := hNd.div hDd hD0
  -- the sum over all coordinates, split into free and other ones
  have hsplit : ∀ (t u : ℝ), (∀ i ∈ S, Proj.clip (W i t * u + X i t) (A i t) (B i t) = W i t * u + X i t) →
      (∀ i, i ∉ S → Proj.clip (W i t * u + X i t) (A i t) (B i t) = V i t) →
      boxSecFun (fun i => X i t) (fun i => A i t) (fun i => B i t) (fun i => W i t) (C t) u = D t * u - N t := fun t u g1 g2 => by
    unfold boxSecFun
    rw [← Finset.sum_filter_add_sum_filter_not Finset.univ (fun i => i ∈ S)]
    have e1 : Finset.univ.filter (fun i => i ∈ S) = S := by ext i; simp
    have e2 : ∑ i ∈ S, W i t * Proj.clip (W i t * u + X i t) (A i t) (B i t) = ∑ i ∈ S, W i t * (W i t * u + X i t) :=
      Finset.sum_congr rfl fun i hi => by rw [g1 i hi]
    have e3 : ∑ i ∈ Finset.univ.filter (fun i => i ∉ S), W i t * Proj.clip (W i t * u + X i t) (A i t) (B i t) =
        ∑ i ∈ Finset.univ.filter (fun i => i ∉ S), W i t * V i t :=
      Finset.sum_congr rfl fun i hi => by rw [g2 i (Finset.mem_filter.mp hi).2]
    rw [e1, e2, e3]
    simp only [N, D, mul_add, Finset.sum_add_distrib, Finset.sum_mul, ← mul_assoc]
    ring
  have hlow : ∀ i, i ∉ S → (w i).val * τ + (x i).val < (alpha i).val ∨ (beta i).val < (w i).val * τ + (x i).val := fun i hi => by
    by_contra hcon
    push Not at hcon
    exact hi (Finset.mem_filter.mpr ⟨Finset.mem_univ i, lt_of_le_of_ne hcon.1 (hk i).1.symm, lt_of_le_of_ne hcon.2 (hk i).2⟩)
  have hT0 : T 0 = τ := by
    have h0 := hsplit 0 τ (fun i hi => ?_) fun i hi => ?_
    · have e : boxSecFun (fun i => X i 0) (fun i => A i 0) (fun i => B i 0) (fun i => W i 0) (C 0) τ = 0 := by
        simp only [(hX _).1, (hA _).1, (hB _).1, (hW _).1, hC.1]; exact hroot
      rw [e] at h0
      show N 0 / D 0 = τ
      rw [div_eq_iff hD0]
      linarith
    · obtain ⟨-, g1, g2⟩ := Finset.mem_filter.mp hi
      rw [(hX i).1, (hA i).1, (hB i).1, (hW i).1, Proj.clip, max_eq_left g1.le, min_eq_left g2.le]
    · rcases hlow i hi with g | g
      · have : V i 0 = (alpha i).val := by show (if _ then A i else B i) 0 = _; rw [if_pos g]; exact (hA i).1
        rw [this, (hX i).1, (hA i).1, (hB i).1, (hW i).1, Proj.clip, max_eq_right g.le, min_eq_left (hle i)]
      · have : V i 0 = (beta i).val := by
          show (if _ then A i else B i) 0 = _; rw [if_neg (by linarith [hle i])]; exact (hB i).1
        rw [this, (hX i).1, (hA i).1, (hB i).1, (hW i).1, Proj.clip, max_eq_left (by linarith [hle i]), min_eq_right g.le]
  have hTt : Tracks T ⟨τ, deriv T 0⟩ := ⟨hT0, hTd.hasDerivAt⟩
  have hY : ∀ i, Tracks (fun t => W i t * T t + X i t) (add (mul (w i) ⟨τ, deriv T 0⟩) (x i)) := fun i => tracks_add (tracks_mul (hW i) hTt) (hX i)
  have hclip : ∀ i, Tracks (fun t => Proj.clip (W i t * T t + X i t) (A i t) (B i t)) (Dual.clip (add (mul (w i) ⟨τ, deriv T 0⟩) (x i)) (alpha i) (beta i)) :=
    fun i => tracks_clip (hY i) (hA i) (hB i) (hab i) (hk i).1 (hk i).2
  -- the curve consists of roots
  have hzero : ∀ᶠ t in 𝓝 (0 : ℝ), boxSecFun (fun i => X i t) (fun i => A i t) (fun i => B i t) (fun i => W i t) (C t) (T t) = 0 := by
    have hfree : ∀ᶠ t in 𝓝 (0 : ℝ), ∀ i, i ∈ S → Proj.clip (W i t * T t + X i t) (A i t) (B i t) = W i t * T t + X i t := by
      refine eventually_all.mpr fun i => ?_
      by_cases hi : i ∈ S
      · obtain ⟨-, g1, g2⟩ := Finset.mem_filter.mp hi
        filter_upwards [eventually_lt (hA i) (hY i) g1, eventually_lt (hY i) (hB i) g2] with t h1 h2 _
        rw [Proj.clip, max_eq_left h1.le, min_eq_left h2.le]
      · exact Eventually.of_forall fun t h => absurd h hi
    have hother : ∀ᶠ t in 𝓝 (0 : ℝ), ∀ i, i ∉ S → Proj.clip (W i t * T t + X i t) (A i t) (B i t) = V i t := by
      refine eventually_all.mpr fun i => ?_
      by_cases hi : i ∈ S
      · exact Eventually.of_forall fun t h => absurd hi h
      · rcases hlow i hi with g | g
        · filter_upwards [eventually_lt (hY i) (hA i) g, hAB' i] with t h1 h2 _
          have : V i t = A i t := by show (if _ then A i else B i) t = _; rw [if_pos g]
          rw [this, Proj.clip, max_eq_right h1.le, min_eq_left h2]
        · filter_upwards [eventually_lt (hB i) (hY i) g, hAB' i] with t h1 h2 _
          have : V i t = B i t := by show (if _ then A i else B i) t = _; rw [if_neg (by linarith [hle i])]
          rw [this, Proj.clip, max_eq_left (by linarith), min_eq_right h1.le]
    have hDne : ∀ᶠ t in 𝓝 (0 : ℝ), D t ≠ 0 := hDd.continuousAt.eventually_ne hD0
    filter_upwards [hfree, hother, hDne] with t h1 h2 h3
    rw [hsplit t (T t) h1 h2]
    show D t * (N t / D t) - N t = 0
    rw [mul_div_cancel₀ _ h3, sub_self]
  -- the tangent of the curve is the computed one
  have htan : deriv T 0 = boxSecTauDot τ x alpha beta w c := by
    refine (boxSecTauDot_unique hw hf _).mp ?_
    have h1 : Tracks (fun t => ∑ i, W i t * Proj.clip (W i t * T t + X i t) (A i t) (B i t) - C t) (boxSecFunD ⟨τ, deriv T 0⟩ x alpha beta w c) :=
      tracks_sub (tracks_dot hW hclip) hC
    exact h1.2.unique ((hasDerivAt_const (0 : ℝ) (0 : ℝ)).congr_of_eventuallyEq hzero)
  refine ⟨fun t i => Proj.clip (W i t * T t + X i t) (A i t) (B i t), ?_, fun i => ?_⟩
  · filter_upwards [hzero, hAB] with t h1 h2
    exact C13_exact_root _ _ _ _ _ _ h2 h1
  · have := hclip i
    rw [htan] at this
    exact this

/-- C134.  If the weights do not move, the tangent computed from an approximate dual variable in the same piece is the exact one: the error of the bisection
does not reach the derivative. -/
theorem C134_inexact {σ : ℝ} (hAB : ∀ i, (alpha i).val < (beta i).val ∨ (alpha i).val = (beta i).val ∧ (alpha i).tan = (beta i).tan)
    (hw : ∀ i, (w i).tan = 0)
    (hpiece : ∀ i, ((w i).val * τ + (x i).val < (alpha i).val ∧ (w i).val * σ + (x i).val < (alpha i).val) ∨
      ((beta i).val < (w i).val * τ + (x i).val ∧ (beta i).val < (w i).val * σ + (x i).val) ∨
      (((alpha i).val < (w i).val * τ + (x i).val ∧ (w i).val * τ + (x i).val < (beta i).val) ∧
        (alpha i).val < (w i).val * σ + (x i).val ∧ (w i).val * σ + (x i).val < (beta i).val)) (i : Fin n) :
    (boxSectionD σ x alpha beta w c i).tan = (boxSectionD τ x alpha beta w c i).tan := by
  have hle : ∀ i, (alpha i).val ≤ (beta i).val := fun i => (hAB i).elim le_of_lt fun h => h.1.le
  have key : ∀ d i, (Dual.clip (add (mul (w i) ⟨σ, d⟩) (x i)) (alpha i) (beta i)).tan = (Dual.clip (add (mul (w i) ⟨τ, d⟩) (x i)) (alpha i) (beta i)).tan := fun d i => by
    rcases hpiece i with ⟨h1, h2⟩ | ⟨h1, h2⟩ | ⟨⟨h1, h1'⟩, h2, h2'⟩
    · rw [clip_tan_low h2 (hAB i), clip_tan_low h1 (hAB i)]
    · rw [clip_tan_up h2 (hle i), clip_tan_up h1 (hle i)]
    · rw [clip_tan_free h2 h2', clip_tan_free h1 h1']
      show (w i).tan * σ + (w i).val * d + (x i).tan = (w i).tan * τ + (w i).val * d + (x i).tan
      rw [hw i]; ring
  have keyc : ∀ i, (Dual.clip (add (mul (const (w i).val) ⟨σ, 1⟩) (const (x i).val)) (const (alpha i).val) (const (beta i).val)).tan =
      (Dual.clip (add (mul (const (w i).val) ⟨τ, 1⟩) (const (x i).val)) (const (alpha i).val) (const (beta i).val)).tan := fun i => by
    have hAB'' : (const (alpha i).val).val < (const (beta i).val).val ∨ (const (alpha i).val).val = (const (beta i).val).val ∧ (const (alpha i).val).tan = (const (beta i).val).tan :=
      (hAB i).imp id fun h => ⟨h.1, rfl⟩
    rcases hpiece i with ⟨h1, h2⟩ | ⟨h1, h2⟩ | ⟨⟨h1, h1'⟩, h2, h2'⟩
    · rw [clip_tan_low (y := add (mul (const (w i).val) ⟨σ, 1⟩) (const (x i).val)) (p := const (alpha i).val) h2 hAB'', clip_tan_low (y := add (mul (const (w i).val) ⟨τ, 1⟩) (const (x i).val)) (p := const (alpha i).val) h1 hAB'']
    · rw [clip_tan_up (y := add (mul (const (w i).val) ⟨σ, 1⟩) (const (x i).val)) (p := const (alpha i).val) (q := const (beta i).val) h2 (hle i), clip_tan_up (y := add (mul (const (w i).val) ⟨τ, 1⟩) (const (x i).val)) (p := const (alpha i).val) (q := const (beta i).val) h1 (hle i)]
    · rw [clip_tan_free (y := add (mul (const (w i).val) ⟨σ, 1⟩) (const (x i).val)) (p := const (alpha i).val) (q := const (beta i).val) h2 h2',
        clip_tan_free (y := add (mul (const (w i).val) ⟨τ, 1⟩) (const (x i).val)) (p := const (alpha i).val) (q := const (beta i).val) h1 h1']
      show 0 * σ + (w i).val * 1 + 0 = 0 * τ + (w i).val * 1 + 0
      ring
  have hF : ∀ d, (boxSecFunD ⟨σ, d⟩ x alpha beta w c).tan = (boxSecFunD ⟨τ, d⟩ x alpha beta w c).tan := fun d => by
    show ∑ i, ((w i).tan * _ + (w i).val * (Dual.clip (add (mul (w i) ⟨σ, d⟩) (x i)) (alpha i) (beta i)).tan) - c.tan =
      ∑ i, ((w i).tan * _ + (w i).val * (Dual.clip (add (mul (w i) ⟨τ, d⟩) (x i)) (alpha i) (beta i)).tan) - c.tan
    simp only [key, hw, zero_mul]
  have hFc : (boxSecFunD ⟨σ, 1⟩ (fun i => const (x i).val) (fun i => const (alpha i).val) (fun i => const (beta i).val) (fun i => const (w i).val) (const c.val)).tan =
      (boxSecFunD ⟨τ, 1⟩ (fun i => const (x i).val) (fun i => const (alpha i).val) (fun i => const (beta i).val) (fun i => const (w i).val) (const c.val)).tan := by
    show ∑ i, (0 * _ + (w i).val * (Dual.clip (add (mul (const (w i).val) ⟨σ, 1⟩) (const (x i).val)) (const (alpha i).val) (const (beta i).val)).tan) - 0 =
      ∑ i, (0 * _ + (w i).val * (Dual.clip (add (mul (const (w i).val) ⟨τ, 1⟩) (const (x i).val)) (const (alpha i).val) (const (beta i).val)).tan) - 0
    simp only [keyc, zero_mul]
  have hdot : boxSecTauDot σ x alpha beta w c = boxSecTauDot τ x alpha beta w c := by
    simp only [boxSecTauDot]
    rw [hF 0, hFc]
  unfold boxSectionD
  rw [hdot, key]

/-- C134.  At a vertex, every coordinate strictly beyond one of its bounds, moving only the point leaves the closest point where it is, and the computed
tangent is zero. -/
theorem C134_vertex (hX : ∀ i, Tracks (X i) (x i)) {α β ω : Fin n → ℝ} {γ : ℝ} (hab : ∀ i, α i ≤ β i)
    (hroot : boxSecFun (fun i => (x i).val) α β ω γ τ = 0) (hv : ∀ i, ω i * τ + (x i).val < α i ∨ β i < ω i * τ + (x i).val) :
    ∃ P : Fin n → ℝ, (∀ᶠ t in 𝓝 (0 : ℝ), IsUniqueProj (BoxSection α β ω γ) (fun i => X i t) P) ∧
      ∀ i, boxSectionD τ x (fun i => const (α i)) (fun i => const (β i)) (fun i => const (ω i)) (const γ) i = const (P i) := by
  refine ⟨fun i => Proj.clip (ω i * τ + (x i).val) (α i) (β i), ?_, fun i => ?_⟩
  · have h : ∀ᶠ t in 𝓝 (0 : ℝ), ∀ i, Proj.clip (ω i * τ + X i t) (α i) (β i) = Proj.clip (ω i * τ + (x i).val) (α i) (β i) := by
      refine eventually_all.mpr fun i => ?_
      have hc : Filter.Tendsto (fun t => ω i * τ + X i t) (𝓝 0) (𝓝 (ω i * τ + (x i).val)) := by
        have := (hX i).2.continuousAt.tendsto
        rw [(hX i).1] at this
        exact this.const_add _
      rcases hv i with g | g
      · filter_upwards [hc.eventually (gt_mem_nhds g)] with t ht
        rw [Proj.clip, Proj.clip, max_eq_right ht.le, max_eq_right g.le]
      · filter_upwards [hc.eventually (lt_mem_nhds g)] with t ht
        rw [Proj.clip, Proj.clip, max_eq_left (by linarith [hab i]), min_eq_right ht.le, max_eq_left (by linarith [hab i]), min_eq_right g.le]
    filter_upwards [h] with t ht
    have h0 : boxSecFun (fun i => X i t) α β ω γ τ = 0 := by
      rw [← hroot]
      unfold boxSecFun
      simp only [ht]
    have := C13_exact_root (fun i => X i t) α β ω γ τ hab h0
    have e : boxSecPoint (fun i => X i t) α β ω τ = fun i => Proj.clip (ω i * τ + (x i).val) (α i) (β i) := funext fun i => ht i
    rwa [e] at this
  · have hab' : (const (α i) : Dual ℝ).val < (const (β i)).val ∨ (const (α i) : Dual ℝ).val = (const (β i)).val ∧ (const (α i) : Dual ℝ).tan = (const (β i)).tan :=
      (lt_or_eq_of_le (hab i)).imp id fun h => ⟨h, rfl⟩
    have ht : (boxSectionD τ x (fun i => const (α i)) (fun i => const (β i)) (fun i => const (ω i)) (const γ) i).tan = 0 := by
      unfold boxSectionD
      rcases hv i with g | g
      · exact clip_tan_low g hab'
      · exact clip_tan_up g (hab i)
    have hv : (boxSectionD τ x (fun i => const (α i)) (fun i => const (β i)) (fun i => const (ω i)) (const γ) i).val =
        Proj.clip (ω i * τ + (x i).val) (α i) (β i) := rfl
    show _ = const (Proj.clip (ω i * τ + (x i).val) (α i) (β i))
    rw [← hv]
    clear hv
    generalize boxSectionD τ x (fun i => const (α i)) (fun i => const (β i)) (fun i => const (ω i)) (const γ) i = z at ht
    cases z
    exact congrArg _ ht

/-- C134, the limit of the claim.  At a vertex the derivative in the offset is lost.  The closest point to `(5, -5)` in the box `[0, 1]²` cut by
`x₁ + x₂ = 1 + t` is `(1, t)` for `t` in `[0, 1]` and `(1 + t, 0)` for `t` in `[-1, 0]`; both one-sided derivatives add up to one, but the computed tangents
are zero, whichever root the bisection returns (its first midpoint is `1 / 2`). -/
theorem C134_vertex_offset_false :
    boxSecFun ![(5 : ℝ), -5] ![0, 0] ![1, 1] ![1, 1] 1 (1 / 2) = 0 ∧
    (∀ τ : ℝ, -4 < τ → τ < 5 → ∀ i, (boxSectionD τ ![⟨5, 0⟩, ⟨-5, 0⟩] ![⟨0, 0⟩, ⟨0, 0⟩] ![⟨1, 0⟩, ⟨1, 0⟩] ![⟨1, 0⟩, ⟨1, 0⟩] ⟨1, 1⟩ i).tan = 0) ∧
    (∀ t : ℝ, 0 ≤ t → t ≤ 1 → IsUniqueProj (BoxSection ![(0 : ℝ), 0] ![1, 1] ![1, 1] (1 + t)) ![5, -5] ![1, t]) ∧
    ∀ t : ℝ, -1 ≤ t → t ≤ 0 → IsUniqueProj (BoxSection ![(0 : ℝ), 0] ![1, 1] ![1, 1] (1 + t)) ![5, -5] ![1 + t, 0] := by
  have hab : ∀ i : Fin 2, (![(0 : ℝ), 0] : Fin 2 → ℝ) i ≤ ![1, 1] i := fun i => by fin_cases i <;> simp
  refine ⟨?_, ?_, fun t h0 h1 => ?_, fun t h0 h1 => ?_⟩
  · unfold boxSecFun
    rw [Fin.sum_univ_two]
    show 1 * Proj.clip (1 * (1 / 2 : ℝ) + 5) 0 1 + 1 * Proj.clip (1 * (1 / 2 : ℝ) + -5) 0 1 - 1 = 0
    norm_num [Proj.clip]
  · intro τ g1 g2
    have h1 : ∀ y : Dual ℝ, 1 < y.val → (Dual.clip y ⟨0, 0⟩ ⟨1, 0⟩).tan = 0 := fun y hy => clip_tan_up hy (by norm_num)
    have h2 : ∀ y : Dual ℝ, y.val < 0 → (Dual.clip y ⟨0, 0⟩ ⟨1, 0⟩).tan = 0 := fun y hy =>
      clip_tan_low hy (Or.inl (by norm_num))
    have e1 := h1 (add (mul ⟨1, 0⟩ ⟨τ, boxSecTauDot τ ![⟨5, 0⟩, ⟨-5, 0⟩] ![⟨0, 0⟩, ⟨0, 0⟩] ![⟨1, 0⟩, ⟨1, 0⟩] ![⟨1, 0⟩, ⟨1, 0⟩] ⟨1, 1⟩⟩) ⟨5, 0⟩)
      (by show 1 < 1 * τ + 5; linarith)
    have e2 := h2 (add (mul ⟨1, 0⟩ ⟨τ, boxSecTauDot τ ![⟨5, 0⟩, ⟨-5, 0⟩] ![⟨0, 0⟩, ⟨0, 0⟩] ![⟨1, 0⟩, ⟨1, 0⟩] ![⟨1, 0⟩, ⟨1, 0⟩] ⟨1, 1⟩⟩) ⟨-5, 0⟩)
      (by show 1 * τ + -5 < 0; linarith)
    exact Fin.forall_fin_two.mpr ⟨e1, e2⟩
  · have c1 : Proj.clip (1 * (t + 5) + 5) 0 1 = 1 := by rw [Proj.clip, max_eq_left (by linarith), min_eq_right (by linarith)]
    have c2 : Proj.clip (1 * (t + 5) + -5) 0 1 = t := by rw [Proj.clip, max_eq_left (by linarith), min_eq_left (by linarith)]; ring
    have hr : boxSecFun ![(5 : ℝ), -5] ![0, 0] ![1, 1] ![1, 1] (1 + t) (t + 5) = 0 := by
      unfold boxSecFun
      rw [Fin.sum_univ_two]
      show 1 * Proj.clip (1 * (t + 5) + 5) 0 1 + 1 * Proj.clip (1 * (t + 5) + -5) 0 1 - (1 + t) = 0
      rw [c1, c2]; ring
    have := C13_exact_root ![(5 : ℝ), -5] ![0, 0] ![1, 1] ![1, 1] (1 + t) (t + 5) hab hr
    have e : boxSecPoint ![(5 : ℝ), -5] ![0, 0] ![1, 1] ![1, 1] (t + 5) = ![1, t] := funext (Fin.forall_fin_two.mpr ⟨c1, c2⟩)
    rwa [e] at this
  · have c1 : Proj.clip (1 * (t - 4) + 5) 0 1 = 1 + t := by rw [Proj.clip, max_eq_left (by linarith), min_eq_left (by linarith)]; ring
    have c2 : Proj.clip (1 * (t - 4) + -5) 0 1 = 0 := by rw [Proj.clip, max_eq_right (by linarith), min_eq_left (by linarith)]
    have hr : boxSecFun ![(5 : ℝ), -5] ![0, 0] ![1, 1] ![1, 1] (1 + t) (t - 4) = 0 := by
      unfold boxSecFun
      rw [Fin.sum_univ_two]
      show 1 * Proj.clip (1 * (t - 4) + 5) 0 1 + 1 * Proj.clip (1 * (t - 4) + -5) 0 1 - (1 + t) = 0
      rw [c1, c2]; ring
    have := C13_exact_root ![(5 : ℝ), -5] ![0, 0] ![1, 1] ![1, 1] (1 + t) (t - 4) hab hr
    have e : boxSecPoint ![(5 : ℝ), -5] ![0, 0] ![1, 1] ![1, 1] (t - 4) = ![1 + t, 0] := funext (Fin.forall_fin_two.mpr ⟨c1, c2⟩)
    rwa [e] at this

end

/-- Not vacuous: in the box `[-1, 2]²` cut by `x₁ + x₂ = 1` the closest point to `(1 + t, 0)` is `(1 + t / 2, -t / 2)`; the computed tangents are these
halves. -/
example : boxSecFun ![(1 : ℝ), 0] ![-1, -1] ![2, 2] ![1, 1] 1 0 = 0 ∧
    boxSectionD (0 : ℝ) ![⟨1, 1⟩, ⟨0, 0⟩] ![⟨-1, 0⟩, ⟨-1, 0⟩] ![⟨2, 0⟩, ⟨2, 0⟩] ![⟨1, 0⟩, ⟨1, 0⟩] ⟨1, 0⟩ 0 = ⟨1, 1 / 2⟩ ∧
    boxSectionD (0 : ℝ) ![⟨1, 1⟩, ⟨0, 0⟩] ![⟨-1, 0⟩, ⟨-1, 0⟩] ![⟨2, 0⟩, ⟨2, 0⟩] ![⟨1, 0⟩, ⟨1, 0⟩] ⟨1, 0⟩ 1 = ⟨0, -1 / 2⟩ := by
  refine ⟨by simp [boxSecFun, Fin.sum_univ_two, Proj.clip], ?_, ?_⟩ <;>
  · simp [boxSectionD, boxSecTauDot, boxSecFunD, Dual.dot, Dual.clip, Dual.minimum, Dual.maximum, Dual.add, Dual.mul, Dual.sub, Dual.const, Fin.sum_univ_two]
    norm_num

end Jaxopt.ProxAD
