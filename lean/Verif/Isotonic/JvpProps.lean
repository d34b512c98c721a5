import Verif.Isotonic.Jvp
import Verif.Isotonic.Props
import Mathlib.Analysis.Calculus.FDeriv.Prod
import Mathlib.Analysis.Calculus.FDeriv.Mul
import Mathlib.Analysis.Calculus.FDeriv.Pi
import Mathlib.Analysis.Calculus.Deriv.Comp
import Mathlib.Analysis.Calculus.Deriv.Add
import Mathlib.Algebra.BigOperators.Field
import Mathlib.Data.List.GetD

/-!
# Property C64: the derivative rule of isotonic regression
-/

set_option autoImplicit false
set_option linter.unusedSectionVars false
set_option linter.unusedVariables false

namespace Jaxopt.Isotonic

open Finset

/-! ## The rule computes block averages -/

section blocks

variable {K : Type*} [Field K] [LinearOrder K] [IsStrictOrderedRing K]

/-- In a sorted list, the entry at `r` is at most `a` iff `r` is less than the number of entries at most `a`. -/
theorem sorted_getElem_le_iff {α : Type*} [LinearOrder α] (a : α) : ∀ (l : List α), l.Pairwise (· ≤ ·) → ∀ (r : ℕ) (hr : r < l.length),
    l[r] ≤ a ↔ r < l.countP (fun b => decide (b ≤ a))
  | [], _, r, hr => by simp at hr
  | b :: l, h, r, hr => by
    rw [List.pairwise_cons] at h
    by_cases hb : b ≤ a
    · rw [List.countP_cons_of_pos (by simpa using hb)]
      cases r with
      | zero => simp [hb]
      | succ r =>
        simp only [List.getElem_cons_succ]
        rw [sorted_getElem_le_iff a l h.2 r (by simpa using hr)]
        omega
    · have h0 : (b :: l).countP (fun b => decide (b ≤ a)) = 0 := by
        rw [List.countP_eq_zero]
        intro c hc
        rw [decide_eq_true_iff]
        rcases List.mem_cons.mp hc with e | e
        · rw [e]; exact hb
        · exact fun hca => hb (le_trans (h.1 c e) hca)
      rw [h0]
      refine ⟨fun hle => absurd ?_ hb, fun h => absurd h (Nat.not_lt_zero _)⟩
      cases r with
      | zero => exact hle
      | succ r => exact le_trans (h.1 _ (List.getElem_mem (by simpa using hr))) hle

/-- Number of block starts among `0..j`. -/
def startCount (x : ℕ → K) (eps : K) (j : ℕ) : ℕ := ((range (j + 1)).filter fun t => jvpMask x eps t = false).card

theorem indsStart_length (n : ℕ) (x : ℕ → K) (eps : K) : (indsStart n x eps).length = n := by
  simp [indsStart]

theorem indsStart_count {n j : ℕ} (hj : j < n) (x : ℕ → K) (eps : K) :
    (indsStart n x eps).countP (fun b => decide (b ≤ (j : WithTop ℕ))) = startCount x eps j := by
  unfold indsStart startCount
  rw [(List.perm_insertionSort _ _).countP_eq, List.countP_map]
  have : (range (j + 1)).filter (fun t => jvpMask x eps t = false) =
      ((List.range n).filter (fun t => decide (jvpMask x eps t = false ∧ t ≤ j))).toFinset := by
    ext t
    simp only [mem_filter, mem_range, List.mem_toFinset, List.mem_filter, List.mem_range, decide_eq_true_eq]
    exact ⟨fun h => ⟨by omega, h.2, by omega⟩, fun h => ⟨by omega, h.2.1⟩⟩
  rw [this, List.toFinset_card_of_nodup (List.nodup_range.filter _), ← List.countP_eq_length_filter]
  refine List.countP_congr fun t _ => ?_
  simp only [Function.comp, decide_eq_true_eq]
  by_cases h : jvpMask x eps t = false
  · simp [h]
  · simp [h]

theorem jvpMask_zero (x : ℕ → K) (eps : K) : jvpMask x eps 0 = false := rfl

theorem jvpMask_succ (x : ℕ → K) (eps : K) (t : ℕ) : jvpMask x eps (t + 1) = false ↔ ¬ |x (t + 1) - x t| ≤ eps := by
  rw [← decide_eq_false_iff_not]; rfl

theorem startCount_pos (x : ℕ → K) (eps : K) (j : ℕ) : 0 < startCount x eps j :=
  card_pos.mpr ⟨0, by rw [mem_filter]; exact ⟨by simp, jvpMask_zero x eps⟩⟩

theorem startCount_le (x : ℕ → K) (eps : K) (j : ℕ) : startCount x eps j ≤ j + 1 :=
  (card_filter_le _ _).trans (by simp)

theorem cumOneHot_eq {n r j : ℕ} (hr : r < n) (hj : j < n) (x : ℕ → K) (eps : K) :
    cumOneHot (K := K) (indsStart n x eps) r j = if r < startCount x eps j then 1 else 0 := by
  have hlen : r < (indsStart n x eps).length := by rw [indsStart_length]; exact hr
  have hsorted : (indsStart n x eps).Pairwise (· ≤ ·) := List.pairwise_insertionSort _ _
  have key := sorted_getElem_le_iff (j : WithTop ℕ) _ hsorted r hlen
  rw [indsStart_count hj] at key
  unfold cumOneHot oneHot
  rw [List.getD_eq_getElem _ _ hlen]
  generalize (indsStart n x eps)[r] = s at key
  by_cases h : r < startCount x eps j
  · rw [if_pos h]
    have hs := key.mpr h
    cases s with
    | top => exact absurd hs (by simp)
    | coe s =>
      have hs' : s ≤ j := WithTop.coe_le_coe.mp hs
      rw [sum_eq_single s]
      · exact if_pos rfl
      · exact fun k _ hk => if_neg fun e => hk (WithTop.coe_injective e).symm
      · exact fun hk => absurd (mem_range.mpr (by omega)) hk
  · rw [if_neg h]
    refine sum_eq_zero fun k hk => if_neg fun e => h (key.mp ?_)
    rw [e]
    have := mem_range.mp hk
    exact_mod_cast (by omega : k ≤ j)

theorem blockRows_eq {n r j : ℕ} (hr : r < n) (hj : j < n) (x : ℕ → K) (eps : K) :
    blockRows (K := K) n (indsStart n x eps) r j = if startCount x eps j = r + 1 then 1 else 0 := by
  unfold blockRows
  have hle := startCount_le x eps j
  split_ifs with h1 h2 h2
  · rw [cumOneHot_eq hr hj, cumOneHot_eq h1 hj, if_pos (by omega), if_neg (by omega), sub_zero]
  · rw [cumOneHot_eq hr hj, cumOneHot_eq h1 hj]
    by_cases h : r < startCount x eps j
    · rw [if_pos h, if_pos (by omega), sub_self]
    · rw [if_neg h, if_neg (by omega), sub_self]
  · rw [cumOneHot_eq hr hj, if_pos (by omega)]
  · rw [cumOneHot_eq hr hj, if_neg (by omega)]

/-- Indices connected to `j` by steps of at most `eps`. -/
def run (n : ℕ) (x : ℕ → K) (eps : K) (j : ℕ) : Finset ℕ :=
  (range n).filter fun k => ∀ t, min j k ≤ t → t < max j k → |x (t + 1) - x t| ≤ eps

theorem startCount_eq_iff_of_le (x : ℕ → K) (eps : K) {a b : ℕ} (hab : a ≤ b) :
    startCount x eps a = startCount x eps b ↔ ∀ t, a ≤ t → t < b → |x (t + 1) - x t| ≤ eps := by
  unfold startCount
  have hsub : (range (a + 1)).filter (fun t => jvpMask x eps t = false) ⊆ (range (b + 1)).filter (fun t => jvpMask x eps t = false) :=
    filter_subset_filter _ (range_mono (by omega))
  constructor
  · intro h t h1 h2
    have heq := eq_of_subset_of_card_le hsub h.ge
    by_contra hc
    have : t + 1 ∈ (range (b + 1)).filter (fun t => jvpMask x eps t = false) := by
      rw [mem_filter, mem_range]
      exact ⟨by omega, (jvpMask_succ x eps t).mpr hc⟩
    rw [← heq, mem_filter, mem_range] at this
    omega
  · intro h
    refine congrArg card (Subset.antisymm hsub fun t ht => ?_)
    simp only [mem_filter, mem_range] at ht ⊢
    refine ⟨?_, ht.2⟩
    by_contra hc
    obtain ⟨s, rfl⟩ : ∃ s, t = s + 1 := ⟨t - 1, by omega⟩
    exact (jvpMask_succ x eps s).mp ht.2 (h s (by omega) (by omega))

theorem startCount_eq_iff (x : ℕ → K) (eps : K) (a b : ℕ) :
    startCount x eps b = startCount x eps a ↔ ∀ t, min a b ≤ t → t < max a b → |x (t + 1) - x t| ≤ eps := by
  rcases le_total a b with h | h
  · rw [min_eq_left h, max_eq_right h, eq_comm, startCount_eq_iff_of_le x eps h]
  · rw [min_eq_right h, max_eq_left h, startCount_eq_iff_of_le x eps h]

theorem jvpPavWith_eq (n : ℕ) (eps delta : K) (x vector : ℕ → K) {j : ℕ} (hj : j < n) :
    jvpPavWith n eps delta x vector j = (∑ k ∈ run n x eps j, vector k) / ((run n x eps j).card + delta) := by
  have hrow : ∀ r < n, ∀ f : ℕ → K, ∑ k ∈ range n, blockRows (K := K) n (indsStart n x eps) r k * f k =
      ∑ k ∈ (range n).filter (fun k => startCount x eps k = r + 1), f k := by
    intro r hr f
    rw [sum_filter]
    refine sum_congr rfl fun k hk => ?_
    rw [blockRows_eq hr (mem_range.mp hk)]
    split_ifs <;> simp
  have hcard : ∀ r < n, ∑ k ∈ range n, blockRows (K := K) n (indsStart n x eps) r k =
      (((range n).filter (fun k => startCount x eps k = r + 1)).card : K) := by
    intro r hr
    have := hrow r hr fun _ => 1
    simp only [mul_one] at this
    rw [this]; simp
  have hpos := startCount_pos x eps j
  have hle := startCount_le x eps j
  have hrun : run n x eps j = (range n).filter (fun k => startCount x eps k = startCount x eps j - 1 + 1) := by
    unfold run
    refine filter_congr fun k _ => ?_
    rw [← startCount_eq_iff, Nat.sub_add_cancel hpos]
  unfold jvpPavWith
  rw [sum_eq_single (startCount x eps j - 1)]
  · rw [hrow _ (by omega), hcard _ (by omega), blockRows_eq (by omega) hj, if_pos (by omega), one_mul, ← hrun]
  · intro r hr hne
    rw [blockRows_eq (mem_range.mp hr) hj, if_neg (by omega), zero_mul, zero_div]
  · intro h
    rw [mem_range] at h
    omega

end blocks

/-! ## The solution is locally a block average -/

section deriv

open Filter Topology

theorem Cert.unique {K : Type*} [Field K] [LinearOrder K] [IsStrictOrderedRing K] {n : ℕ} {y v w : ℕ → K} (hv : Cert y v n) (hw : Cert y w n) :
    ∀ j < n, v j = w j := by
  have h1 := hv.le hw.anti
  have h2 := hv.orth id
  have h3 := hw.le hv.anti
  have h4 := hw.orth id
  simp only [id] at h2 h4
  have h5 : ∑ j ∈ range n, (v j - w j) ^ 2 = 0 := by
    refine le_antisymm ?_ (sum_nonneg fun j _ => sq_nonneg _)
    have : ∑ j ∈ range n, (v j - w j) ^ 2 = ∑ j ∈ range n, (y j - v j) * w j - ∑ j ∈ range n, (y j - v j) * v j
        + (∑ j ∈ range n, (y j - w j) * v j - ∑ j ∈ range n, (y j - w j) * w j) := by
      rw [← sum_sub_distrib, ← sum_sub_distrib, ← sum_add_distrib]
      exact sum_congr rfl fun j _ => by ring
    rw [this]; linarith
  intro j hj
  have := (sum_eq_zero_iff_of_nonneg fun j _ => sq_nonneg _).mp h5 j (mem_range.mpr hj)
  exact sub_eq_zero.mp (pow_eq_zero_iff (by norm_num) |>.mp this)

/-- The indices where `v` has the value `v j`. -/
noncomputable def level (n : ℕ) (v : ℕ → ℝ) (j : ℕ) : Finset ℕ := (range n).filter fun k => v k = v j

/-- Average of `Y` over the level set of `v` at `j`. -/
noncomputable def levelAvg (n : ℕ) (v Y : ℕ → ℝ) (j : ℕ) : ℝ := (∑ k ∈ level n v j, Y k) / (level n v j).card

theorem level_congr {n : ℕ} {v : ℕ → ℝ} {j k : ℕ} (h : v k = v j) : level n v k = level n v j := by
  unfold level; rw [h]

theorem level_card_ne {n j : ℕ} (hj : j < n) (v : ℕ → ℝ) : ((level n v j).card : ℝ) ≠ 0 :=
  Nat.cast_ne_zero.mpr (card_ne_zero.mpr ⟨j, by simp [level, hj]⟩)

theorem level_sum (n : ℕ) (v Y : ℕ → ℝ) {j : ℕ} (hj : j < n) : ∑ k ∈ level n v j, (Y k - levelAvg n v Y k) = 0 := by
  rw [sum_sub_distrib]
  have : ∀ k ∈ level n v j, levelAvg n v Y k = levelAvg n v Y j := fun k hk => by
    unfold levelAvg; rw [level_congr (mem_filter.mp hk).2]
  rw [sum_congr rfl this, sum_const, nsmul_eq_mul, levelAvg, mul_div_cancel₀ _ (level_card_ne hj v), sub_self]

theorem anti_of_step {n : ℕ} {v : ℕ → ℝ} (h : ∀ j, j + 1 < n → v (j + 1) ≤ v j) {a b : ℕ} (hab : a ≤ b) (hb : b < n) : v b ≤ v a := by
  induction b, hab using Nat.le_induction with
  | base => exact le_refl _
  | succ b hab ih => exact le_trans (h b hb) (ih (by omega))

theorem boundary_sum {n : ℕ} {v : ℕ → ℝ} (hanti : ∀ j, j + 1 < n → v (j + 1) ≤ v j) (Y : ℕ → ℝ) {m : ℕ} (hm : m ≤ n)
    (hb : m < n → 0 < m → v m ≠ v (m - 1)) : ∑ k ∈ range m, (Y k - levelAvg n v Y k) = 0 := by
  rw [← sum_fiberwise_of_maps_to (s := range m) (t := (range m).image v) (g := v) fun k hk => mem_image_of_mem _ hk]
  refine sum_eq_zero fun c hc => ?_
  obtain ⟨k0, hk0, rfl⟩ := mem_image.mp hc
  have hk0m := mem_range.mp hk0
  have : (range m).filter (fun k => v k = v k0) = level n v k0 := by
    unfold level
    ext k
    simp only [mem_filter, mem_range]
    refine ⟨fun h => ⟨by omega, h.2⟩, fun h => ⟨?_, h.2⟩⟩
    by_contra hk
    have hmn : m < n := by omega
    have h1 : v m < v (m - 1) := by
      refine lt_of_le_of_ne ?_ (hb hmn (by omega))
      have := hanti (m - 1) (by omega)
      rwa [Nat.sub_add_cancel (by omega)] at this
    have h2 := anti_of_step hanti (a := m) (b := k) (by omega) h.1
    have h3 := anti_of_step hanti (a := k0) (b := m - 1) (by omega) (by omega)
    linarith [h.2]
  rw [this]
  exact level_sum n v Y (by omega)

theorem Cert.levelAvg_eq {n : ℕ} {Y v : ℕ → ℝ} (h : Cert Y v n) {j : ℕ} (hj : j < n) : levelAvg n v Y j = v j := by
  have h1 := h.orth fun c => if c = v j then 1 else 0
  simp only [mul_ite, mul_one, mul_zero] at h1
  rw [← sum_filter] at h1
  change ∑ k ∈ level n v j, (Y k - v k) = 0 at h1
  have h2 : ∑ k ∈ level n v j, v k = ∑ k ∈ level n v j, v j := sum_congr rfl fun k hk => (mem_filter.mp hk).2
  rw [sum_sub_distrib, h2, sum_const, nsmul_eq_mul, sub_eq_zero] at h1
  unfold levelAvg
  rw [h1, mul_div_cancel_left₀ _ (level_card_ne hj v)]

theorem levelAvg_continuous (n : ℕ) (v : ℕ → ℝ) (j : ℕ) : Continuous fun Y => levelAvg n v Y j :=
  (continuous_finsetSum _ fun k _ => continuous_apply k).div_const _

/-- If no constraint is degenerate, the block averages are certified for all nearby data. -/
theorem cert_eventually {n : ℕ} {Y v : ℕ → ℝ} (h : Cert Y v n)
    (hdual : ∀ j, j + 1 < n → v (j + 1) = v j → ∑ i ∈ range (j + 1), (Y i - v i) ≠ 0) :
    ∀ᶠ Z in 𝓝 Y, Cert Z (levelAvg n v Z) n := by
  have e1 : ∀ᶠ Z in 𝓝 Y, ∀ j : Fin n, ∀ hj : j.val + 1 < n, v (j + 1) ≠ v j → levelAvg n v Z (j + 1) < levelAvg n v Z j := by
    refine eventually_all.mpr fun j => ?_
    by_cases hj : j.val + 1 < n
    · by_cases hne : v (j + 1) ≠ v j
      · have hlt : levelAvg n v Y (j + 1) < levelAvg n v Y j := by
          rw [h.levelAvg_eq hj, h.levelAvg_eq j.2]
          exact lt_of_le_of_ne (h.anti j hj) hne
        filter_upwards [(levelAvg_continuous n v (j + 1)).continuousAt.eventually_lt (levelAvg_continuous n v j).continuousAt hlt] with Z hZ _ _
        exact hZ
      · exact Eventually.of_forall fun Z _ h => absurd h hne
    · exact Eventually.of_forall fun Z h => absurd h hj
  have e2 : ∀ᶠ Z in 𝓝 Y, ∀ j : Fin n, ∀ hj : j.val + 1 < n, v (j + 1) = v j → ∑ i ∈ range (j + 1), (Z i - levelAvg n v Z i) < 0 := by
    refine eventually_all.mpr fun j => ?_
    by_cases hj : j.val + 1 < n
    · by_cases he : v (j + 1) = v j
      · have hlt : ∑ i ∈ range (j + 1), (Y i - levelAvg n v Y i) < 0 := by
          rw [sum_congr rfl fun i hi => by rw [h.levelAvg_eq (by have := mem_range.mp hi; omega)]]
          exact lt_of_le_of_ne (h.pre _ (by omega)) (hdual j hj he)
        have hc : Continuous fun Z : ℕ → ℝ => ∑ i ∈ range (j + 1), (Z i - levelAvg n v Z i) :=
          continuous_finsetSum _ fun i _ => (continuous_apply i).sub (levelAvg_continuous n v i)
        filter_upwards [hc.continuousAt.eventually_lt continuousAt_const hlt] with Z hZ _ _
        exact hZ
      · exact Eventually.of_forall fun Z _ h => absurd h he
    · exact Eventually.of_forall fun Z h => absurd h hj
  filter_upwards [e1, e2] with Z h1 h2
  have hbd : ∀ m, m ≤ n → (m < n → 0 < m → v m ≠ v (m - 1)) → ∑ k ∈ range m, (Z k - levelAvg n v Z k) = 0 :=
    fun m hm hb => boundary_sum h.anti Z hm hb
  refine ⟨fun j hj => ?_, fun m hm => ?_, hbd n le_rfl fun h => absurd h (lt_irrefl _), fun j hj hne => ?_⟩
  · by_cases he : v (j + 1) = v j
    · unfold levelAvg; rw [level_congr he]
    · exact le_of_lt (h1 ⟨j, by omega⟩ hj he)
  · by_cases hcase : m < n ∧ 0 < m ∧ v m = v (m - 1)
    · obtain ⟨c1, c2, c3⟩ := hcase
      have := h2 ⟨m - 1, by omega⟩ (by simp only; omega) (by simp only [Nat.sub_add_cancel c2]; exact c3)
      simp only [Nat.sub_add_cancel c2] at this
      exact le_of_lt this
    · exact le_of_eq (hbd m hm fun c1 c2 c3 => hcase ⟨c1, c2, c3⟩)
  · refine hbd (j + 1) (by omega) fun _ _ he => hne ?_
    rw [Nat.add_sub_cancel] at he
    unfold levelAvg; rw [level_congr he]

/-- With gaps larger than `eps` between different values, the runs of the rule are the level sets. -/
theorem run_eq_level {n : ℕ} {v : ℕ → ℝ} {eps : ℝ} (heps : 0 ≤ eps) (hanti : ∀ j, j + 1 < n → v (j + 1) ≤ v j)
    (hsep : ∀ j, j + 1 < n → v (j + 1) ≠ v j → eps < |v (j + 1) - v j|) {j : ℕ} (hj : j < n) : run n v eps j = level n v j := by
  unfold run level
  refine filter_congr fun k hk => ?_
  have hkn := mem_range.mp hk
  have main : ∀ a b, a ≤ b → b < n → ((∀ t, a ≤ t → t < b → |v (t + 1) - v t| ≤ eps) ↔ v b = v a) := by
    intro a b hab hb
    constructor
    · intro h
      induction b, hab using Nat.le_induction with
      | base => rfl
      | succ b hab ih =>
        rw [← ih (by omega) fun t h1 h2 => h t h1 (by omega)]
        by_contra hne
        exact absurd (h b hab (by omega)) (not_le.mpr (hsep b hb hne))
    · intro he t h1 h2
      have g1 := anti_of_step hanti h1 (by omega : t < n)
      have g2 := hanti t (by omega)
      have g3 := anti_of_step hanti (by omega : t + 1 ≤ b) hb
      have : v (t + 1) = v t := by linarith
      rw [this, sub_self, abs_zero]; exact heps
  rcases le_total j k with h | h
  · rw [min_eq_left h, max_eq_right h, main j k h hkn]
  · rw [min_eq_right h, max_eq_left h, main k j h hj, eq_comm]

/-- Derivative of `jnp.clip` away from the bounds. -/
theorem clipInf_hasDerivAt {x : ℝ} {lo hi : Option ℝ} (hl : ∀ l ∈ lo, x ≠ l) (hh : ∀ h ∈ hi, x ≠ h) :
    ∃ d, HasDerivAt (fun x => clipInf x lo hi) d x ∧ ∀ t, clipTangent x lo hi t = d * t := by
  have hup : ∀ h : ℝ, x ≠ h → ∃ d, HasDerivAt (fun x => min x h) d x ∧ ∀ t : ℝ, (if x < h then t else if x = h then t / 2 else 0) = d * t := by
    intro h hne
    rcases lt_or_gt_of_ne hne with c | c
    · refine ⟨1, (hasDerivAt_id x).congr_of_eventuallyEq ?_, fun t => by rw [if_pos c, one_mul]⟩
      filter_upwards [eventually_lt_nhds c] with z hz using min_eq_left hz.le
    · refine ⟨0, (hasDerivAt_const x h).congr_of_eventuallyEq ?_, fun t => by rw [if_neg c.not_gt, if_neg hne, zero_mul]⟩
      filter_upwards [eventually_gt_nhds c] with z hz using min_eq_right hz.le
  cases lo with
  | none =>
    cases hi with
    | none => exact ⟨1, hasDerivAt_id x, fun t => by simp [clipTangent]⟩
    | some h => simpa [clipInf, clipTangent] using hup h (hh h rfl)
  | some l =>
    have hne := hl l rfl
    rcases lt_or_gt_of_ne hne with c | c
    · refine ⟨0, (hasDerivAt_const x (clipInf l none hi)).congr_of_eventuallyEq ?_, fun t => ?_⟩
      · filter_upwards [eventually_lt_nhds c] with z hz
        simp only [clipInf, max_eq_right hz.le]
      · cases hi with
        | none => simp [clipTangent, c.not_gt, hne]
        | some h => simp [clipTangent, c.not_gt, hne]
    · have hev : ∀ᶠ z in 𝓝 x, clipInf z (some l) hi = clipInf z none hi := by
        filter_upwards [eventually_gt_nhds c] with z hz
        simp only [clipInf, max_eq_left (le_of_lt hz)]
      cases hi with
      | none =>
        refine ⟨1, (hasDerivAt_id x).congr_of_eventuallyEq ?_, fun t => by simp [clipTangent, c]⟩
        filter_upwards [hev] with z hz
        rw [hz]; rfl
      | some h =>
        obtain ⟨d, hd, ht⟩ := hup h (hh h rfl)
        refine ⟨d, hd.congr_of_eventuallyEq ?_, fun t => ?_⟩
        · filter_upwards [hev] with z hz
          rw [hz]; rfl
        · rw [← ht]
          simp only [clipTangent, max_eq_left c.le, if_pos c]

theorem sum_filter_fin (n : ℕ) (P : ℕ → Prop) [DecidablePred P] (f : ℕ → ℝ) :
    ∑ k ∈ (range n).filter P, f k = ∑ k ∈ univ.filter (fun k : Fin n => P k), f k := by
  rw [sum_filter, sum_filter, ← Fin.sum_univ_eq_sum_range (fun k => if P k then f k else 0)]

theorem card_filter_fin (n : ℕ) (P : ℕ → Prop) [DecidablePred P] :
    ((range n).filter P).card = (univ.filter (fun k : Fin n => P k)).card := by
  have := sum_filter_fin n P fun _ => 1
  simp only [sum_const, nsmul_eq_mul, mul_one] at this
  exact_mod_cast this

/-- **C64**: the rule `_jvp_isotonic_l2_jax_pav` sums the tangent over the run of entries of the solution that are connected to `j` by steps of at
most `1e-8`, and divides by the size of the run plus `1e-8`. -/
theorem C64_blocks (n : ℕ) (x vector : ℕ → ℝ) {j : ℕ} (hj : j < n) :
    let B := (range n).filter fun k => ∀ t, min j k ≤ t → t < max j k → |x (t + 1) - x t| ≤ 1 / 10 ^ 8
    jvpPav n x vector j = (∑ k ∈ B, vector k) / (B.card + 1 / 10 ^ 8) :=
  jvpPavWith_eq n _ _ x vector hj

/-- **C64**: let `s` be the unclipped solution.  If different neighbouring values of `s` are more than `1e-8` apart, the multiplier of every active
ordering constraint is non-zero and no value of `s` sits at a bound, then `isotonic_l2_pav` is differentiable at `y`, and the tangent returned by
`jax.jvp` is the derivative divided by `1 + 1e-8 / c`, where `c` is the size of the block. -/
theorem C64_derivative {n : ℕ} (y : Fin n → ℝ) (yMin yMax : Option ℝ) (increasing : Bool) (s : Fin n → ℝ)
    (hs : isotonicL2Pav y none none increasing = some s)
    (hsep : ∀ i j : Fin n, i.val + 1 = j.val → s i ≠ s j → 1 / 10 ^ 8 < |s j - s i|)
    (hdual : ∀ i j : Fin n, i.val + 1 = j.val → s i = s j → ∑ k ∈ univ.filter (· ≤ i), (y k - s k) ≠ 0)
    (hlo : ∀ l ∈ yMin, ∀ i, s i ≠ l) (hhi : ∀ u ∈ yMax, ∀ i, s i ≠ u) :
    ∃ (f : (Fin n → ℝ) → Fin n → ℝ) (L : (Fin n → ℝ) →L[ℝ] (Fin n → ℝ)),
      (∀ y', isotonicL2Pav y' yMin yMax increasing = some (f y')) ∧ HasFDerivAt f L y ∧
      ∀ yDot, ∃ t, isotonicL2PavJvp y yMin yMax increasing yDot = some (f y, t) ∧
        ∀ i, t i * (1 + 1 / 10 ^ 8 / (univ.filter fun k => s k = s i).card) = L yDot i := by
  set sign : ℝ := if increasing then -1 else 1 with hsign
  have hs2 : sign * sign = 1 := by rw [hsign]; split_ifs <;> norm_num
  have hsne : sign ≠ 0 := fun h => by rw [h] at hs2; norm_num at hs2
  set ext : (Fin n → ℝ) → ℕ → ℝ := fun y j => if h : j < n then y ⟨j, h⟩ * sign else 0 with hext
  have hexti : ∀ y (i : Fin n), ext y i = y i * sign := fun y i => by simp [hext]
  have hextc : Continuous ext := by
    refine continuous_pi fun j => ?_
    by_cases h : j < n
    · simp only [hext, dif_pos h]; exact (continuous_apply _).mul_const _
    · simp only [hext, dif_neg h]; exact continuous_const
  choose g hg hgc using fun y' => pavNumba_cert n (ext y')
  have hsol : ∀ (lo hi : Option ℝ) (y' : Fin n → ℝ), isotonicL2Pav y' lo hi increasing = some fun i : Fin n => clipInf (g y' i * sign) lo hi := by
    intro lo hi y'
    have := hg y'
    simp only [hext] at this
    simp only [isotonicL2Pav, ← hsign, this]
  set v := g y with hv
  have hcert := hgc y
  rw [← hv] at hcert
  have hsv : ∀ i : Fin n, s i = v i * sign := by
    intro i
    rw [hsol] at hs
    exact (congrFun (Option.some.inj hs) i).symm
  have hvs : ∀ i : Fin n, v i = s i * sign := fun i => by rw [hsv, mul_assoc, hs2, mul_one]
  have hiff : ∀ i k : Fin n, v k = v i ↔ s k = s i := fun i k => by
    rw [hsv, hsv]; exact ⟨fun h => by rw [h], fun h => mul_right_cancel₀ hsne h⟩
  have habs : |sign| = 1 := by rw [hsign]; split_ifs <;> norm_num
  -- locally the solution is the block average
  have hd' : ∀ j, j + 1 < n → v (j + 1) = v j → ∑ i ∈ range (j + 1), (ext y i - v i) ≠ 0 := by
    intro j hj he
    have h := hdual ⟨j, by omega⟩ ⟨j + 1, hj⟩ rfl ((hiff ⟨j + 1, hj⟩ ⟨j, by omega⟩).mp he.symm)
    intro h0
    apply h
    have e1 : range (j + 1) = (range n).filter fun k => k ≤ j := by ext k; simp only [mem_filter, mem_range]; omega
    rw [e1, sum_filter_fin] at h0
    have e2 : ∑ k ∈ univ.filter (fun k : Fin n => (k : ℕ) ≤ j), (ext y k - v k) = sign * ∑ k ∈ univ.filter (· ≤ (⟨j, by omega⟩ : Fin n)), (y k - s k) := by
      rw [mul_sum]
      refine sum_congr (filter_congr fun k _ => by rw [Fin.le_def]) fun k _ => ?_
      rw [hexti, hvs]; ring
    rw [e2] at h0
    exact (mul_eq_zero.mp h0).resolve_left hsne
  have hev : ∀ᶠ y' in 𝓝 y, ∀ i : Fin n, g y' i = levelAvg n v (ext y') i := by
    filter_upwards [hextc.continuousAt.eventually (cert_eventually hcert hd')] with y' hy' i
    exact (hgc y').unique hy' i i.2
  have hlevel : ∀ (w : Fin n → ℝ) (i : Fin n), levelAvg n v (ext w) i * sign
      = (∑ k ∈ univ.filter (fun k => s k = s i), w k) / (univ.filter fun k => s k = s i).card := by
    intro w i
    unfold levelAvg level
    rw [sum_filter_fin, card_filter_fin]
    simp only [hiff, hexti]
    rw [← sum_mul, div_mul_eq_mul_div, mul_assoc, hs2, mul_one]
  have hclip : ∀ i : Fin n, ∃ d, HasDerivAt (fun x => clipInf x yMin yMax) d (s i) ∧ ∀ t, clipTangent (s i) yMin yMax t = d * t := fun i =>
    clipInf_hasDerivAt (fun l hl => hlo l hl i) (fun u hu => hhi u hu i)
  choose d hd ht using hclip
  let M : Fin n → ((Fin n → ℝ) →L[ℝ] ℝ) := fun i =>
    ((univ.filter fun k => s k = s i).card : ℝ)⁻¹ • ∑ k ∈ univ.filter (fun k => s k = s i), ContinuousLinearMap.proj (R := ℝ) (φ := fun _ : Fin n => ℝ) k
  have hM : ∀ i w, M i w = (∑ k ∈ univ.filter (fun k => s k = s i), w k) / (univ.filter fun k => s k = s i).card := by
    intro i w
    simp [M, div_eq_inv_mul]
  refine ⟨fun y' i => clipInf (g y' i * sign) yMin yMax, ContinuousLinearMap.pi fun i => d i • M i, hsol yMin yMax, ?_, ?_⟩
  · rw [hasFDerivAt_pi]
    intro i
    have hMi : M i y = s i := by
      rw [hM, ← hlevel, hcert.levelAvg_eq i.2, hsv]
    have h1 : HasFDerivAt (fun w => M i w) (M i) y := (M i).hasFDerivAt
    have h2 := HasDerivAt.comp_hasFDerivAt (h₂ := fun x => clipInf x yMin yMax) y (by rw [hMi]; exact hd i) h1
    refine h2.congr_of_eventuallyEq ?_
    filter_upwards [hev] with y' hy'
    simp only [Function.comp]
    rw [hM, ← hlevel, hy']
  · intro yDot
    have hy := hg y
    rw [← hv] at hy
    simp only [hext] at hy
    refine ⟨fun i => clipTangent (v i * sign) yMin yMax (jvpPav n v (ext yDot) i * sign), ?_, fun i => ?_⟩
    · simp only [isotonicL2PavJvp, ← hsign, hy, hext]
      rfl
    · have hrun : run n v eps8 i = level n v i := by
        refine run_eq_level (by unfold eps8; positivity) hcert.anti (fun j hj hne => ?_) i.2
        have := hsep ⟨j, by omega⟩ ⟨j + 1, hj⟩ rfl (fun h => hne ((hiff ⟨j, by omega⟩ ⟨j + 1, hj⟩).mpr h.symm))
        rw [hsv, hsv, ← sub_mul, abs_mul, habs, mul_one] at this
        exact this
      have hc : ((univ.filter fun k => s k = s i).card : ℝ) ≠ 0 :=
        Nat.cast_ne_zero.mpr (card_ne_zero.mpr ⟨i, mem_filter.mpr ⟨mem_univ i, rfl⟩⟩)
      have hc0 : (0 : ℝ) ≤ (univ.filter fun k => s k = s i).card := Nat.cast_nonneg _
      have hj : jvpPav n v (ext yDot) i * sign
          = (∑ k ∈ univ.filter (fun k => s k = s i), yDot k) / ((univ.filter fun k => s k = s i).card + 1 / 10 ^ 8) := by
        unfold jvpPav
        rw [jvpPavWith_eq n _ _ _ _ i.2, hrun]
        unfold level
        rw [sum_filter_fin, card_filter_fin]
        simp only [hiff, hexti]
        rw [← sum_mul, div_mul_eq_mul_div, mul_assoc, hs2, mul_one]
        rfl
      simp only
      rw [hj, ← hsv, ht, ContinuousLinearMap.coe_pi']
      simp only [ContinuousLinearMap.smul_apply, smul_eq_mul, hM]
      have halg : ∀ c δ S e : ℝ, 0 ≤ c → c ≠ 0 → 0 < δ → e * (S / (c + δ)) * (1 + δ / c) = e * (S / c) := by
        intro c δ S e h0 h1 h2
        have : c + δ ≠ 0 := by linarith
        field_simp
      exact halg _ _ _ _ hc0 hc (by norm_num)

/-- A solution with a block of two and a block of one; the rule, computed over the rationals, for an increasing fit clipped at `5`. -/
example : isotonicL2PavJvp ![(2 : ℚ), 1, 7] none (some 5) true ![1, 0, 1] =
    some (![3 / 2, 3 / 2, 5], ![1 / (2 + 1 / 10 ^ 8), 1 / (2 + 1 / 10 ^ 8), 0]) := by
  decide +kernel

/-- The hypotheses of `C64_derivative` hold at `(2, 1)`, whose increasing fit is one block. -/
example : ∃ (f : (Fin 2 → ℝ) → Fin 2 → ℝ) (L : (Fin 2 → ℝ) →L[ℝ] (Fin 2 → ℝ)),
    (∀ y', isotonicL2Pav y' none (some 5) true = some (f y')) ∧ HasFDerivAt f L ![2, 1] := by
  have hs : isotonicL2Pav ![(2 : ℝ), 1] none none true = some ![3 / 2, 3 / 2] := by
    obtain ⟨v, hv, hu⟩ := C17_isotonic ![(2 : ℝ), 1] none none true (by simp)
    rw [hv]
    refine congrArg some (hu.eq (Proj.IsUniqueProj.isProj ?_)).symm
    apply Proj.isUniqueProj_of_vi
    · refine ⟨?_, by simp, by simp⟩
      rw [if_pos rfl]
      intro a b _
      fin_cases a <;> fin_cases b <;> simp
    · rintro z ⟨hz, -, -⟩
      rw [if_pos rfl] at hz
      have := hz (show (0 : Fin 2) ≤ 1 by decide)
      rw [Fin.sum_univ_two]
      simp only [Matrix.cons_val_zero, Matrix.cons_val_one]
      linarith
  obtain ⟨f, L, h1, h2, _⟩ := C64_derivative ![2, 1] none (some 5) true _ hs
    (by intro i j _ h; exfalso; apply h; fin_cases i <;> fin_cases j <;> rfl)
    (by
      intro i j hij _
      have hi : i = 0 := by
        have := j.2
        ext; simp only [Fin.val_zero]; omega
      subst hi
      have : (univ.filter fun k : Fin 2 => k ≤ 0) = {0} := by decide
      rw [this, sum_singleton]
      norm_num)
    (by simp)
    (by
      intro u hu i
      have : u = 5 := by simpa using hu.symm
      subst this
      fin_cases i <;> norm_num)
  exact ⟨f, L, h1, h2⟩

end deriv

end Jaxopt.Isotonic
