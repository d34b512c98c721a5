import Verif.Prox.Model
import Verif.Proj.Props
import Mathlib.Tactic.Positivity

/-!
# Properties C14-C16: proximal operators
-/

set_option autoImplicit false
set_option linter.unusedSectionVars false
set_option linter.unusedVariables false

namespace Jaxopt.Prox

open Jaxopt.Proj

/-- `p` is the unique minimiser of `obj` over `C`. -/
def IsUniqueMin {V K : Type*} [LT K] (C : Set V) (obj : V → K) (p : V) : Prop :=
  p ∈ C ∧ ∀ y ∈ C, y ≠ p → obj p < obj y

section coord
variable {K ι : Type*} [Field K] [LinearOrder K] [IsStrictOrderedRing K] [Fintype ι]

theorem sum_lt_of_coord {φ : ι → K → K} {C : ι → Set K} {p y : ι → K}
    (h : ∀ i, ∀ z ∈ C i, z ≠ p i → φ i (p i) < φ i z) (hy : ∀ i, y i ∈ C i) (hne : y ≠ p) :
    ∑ i, φ i (p i) < ∑ i, φ i (y i) := by
  obtain ⟨j, hj⟩ := Function.ne_iff.mp hne
  refine Finset.sum_lt_sum (fun i _ => ?_) ⟨j, Finset.mem_univ _, h j _ (hy j) hj⟩
  by_cases hi : y i = p i
  · rw [hi]
  · exact le_of_lt (h i _ (hy i) hi)

/-- Scalar fact behind all soft-thresholding operators. -/
theorem soft_coord (x t μ y : K) (ht : 0 ≤ t) (hμ : 0 ≤ μ) (hne : y ≠ sgn x * relu (|x| - t) / (1 + μ)) :
    (1 / 2) * (x - sgn x * relu (|x| - t) / (1 + μ)) ^ 2 + t * |sgn x * relu (|x| - t) / (1 + μ)|
      + (1 / 2) * μ * (sgn x * relu (|x| - t) / (1 + μ)) ^ 2
    < (1 / 2) * (x - y) ^ 2 + t * |y| + (1 / 2) * μ * y ^ 2 := by
  have h1 : 0 < 1 + μ := by linarith
  have hy1 : y ≤ |y| := le_abs_self y
  have hy2 : -y ≤ |y| := neg_le_abs y
  rcases le_or_gt |x| t with h | h
  · have e : sgn x * relu (|x| - t) / (1 + μ) = 0 := by
      unfold relu; rw [max_eq_right (by linarith)]; simp
    rw [e] at hne ⊢
    have hpos : 0 < y ^ 2 := by positivity
    have hxy : x * y ≤ t * |y| := by
      calc x * y ≤ |x * y| := le_abs_self _
        _ = |x| * |y| := abs_mul _ _
        _ ≤ t * |y| := mul_le_mul_of_nonneg_right h (abs_nonneg _)
    have := mul_nonneg hμ (sq_nonneg y)
    simp only [abs_zero]
    nlinarith
  · have e0 : relu (|x| - t) = |x| - t := max_eq_left (by linarith)
    rw [e0] at hne ⊢
    rcases le_total 0 x with hx | hx
    · rw [abs_of_nonneg hx] at hne h ⊢
      have hx0 : 0 < x := lt_of_le_of_lt ht h
      have e : sgn x = 1 := by simp [sgn, hx0]
      rw [e, one_mul] at hne ⊢
      set p := (x - t) / (1 + μ) with hp
      have hpx : (1 + μ) * p = x - t := by rw [hp]; field_simp
      have hp0 : 0 ≤ p := div_nonneg (by linarith) (le_of_lt h1)
      rw [abs_of_nonneg hp0]
      have hpos : 0 < (y - p) ^ 2 := by
        have : y - p ≠ 0 := sub_ne_zero.mpr hne
        positivity
      have hty : t * y ≤ t * |y| := mul_le_mul_of_nonneg_left hy1 ht
      have hm : 0 < (1 + μ) * (y - p) ^ 2 := mul_pos h1 hpos
      have hcross : ((1 + μ) * p) * (y - p) = (x - t) * (y - p) := by rw [hpx]
      nlinarith
    · rw [abs_of_nonpos hx] at hne h ⊢
      have hx0 : x < 0 := by linarith
      have e : sgn x = -1 := by simp [sgn, hx0, not_lt.mpr hx]
      rw [e] at hne ⊢
      set p := -1 * (-x - t) / (1 + μ) with hp
      have hpx : (1 + μ) * p = x + t := by rw [hp]; field_simp; ring
      have hp0 : p ≤ 0 := by
        rw [hp]; apply div_nonpos_of_nonpos_of_nonneg <;> linarith
      rw [abs_of_nonpos hp0]
      have hpos : 0 < (y - p) ^ 2 := by
        have : y - p ≠ 0 := sub_ne_zero.mpr hne
        positivity
      have hty : t * (-y) ≤ t * |y| := mul_le_mul_of_nonneg_left hy2 ht
      have hm : 0 < (1 + μ) * (y - p) ^ 2 := mul_pos h1 hpos
      have hcross : ((1 + μ) * p) * (y - p) = (x + t) * (y - p) := by rw [hpx]
      nlinarith

/-! ## C14 -/

/-- **C14**: `prox_lasso` is the unique minimiser of `½||x-y||² + scaling Σ l1reg_i |y_i|`. -/
theorem C14_lasso (x l1reg : ι → K) (scaling : K) (h : ∀ i, 0 ≤ scaling * l1reg i) :
    IsUniqueMin Set.univ (fun y => (1 / 2) * ∑ i, (x i - y i) ^ 2 + scaling * ∑ i, l1reg i * |y i|)
      (proxLasso x l1reg scaling) := by
  refine ⟨Set.mem_univ _, fun y _ hne => ?_⟩
  have e : ∀ z : ι → K, (1 / 2) * ∑ i, (x i - z i) ^ 2 + scaling * ∑ i, l1reg i * |z i|
      = ∑ i, ((1 / 2) * (x i - z i) ^ 2 + scaling * l1reg i * |z i|) := by
    intro z; rw [Finset.mul_sum, Finset.mul_sum, ← Finset.sum_add_distrib]
    exact Finset.sum_congr rfl fun i _ => by ring
  show _ < _
  simp only [e]
  refine sum_lt_of_coord (φ := fun i z => (1 / 2) * (x i - z) ^ 2 + scaling * l1reg i * |z|) (C := fun _ => Set.univ)
    (fun i z _ hz => ?_) (fun _ => Set.mem_univ _) hne
  have := soft_coord (x i) (scaling * l1reg i) 0 z (h i) (le_refl _) (by
    simpa [proxLasso, mul_comm] using hz)
  simpa [proxLasso, mul_comm (l1reg i)] using this

/-- **C14**: `prox_non_negative_lasso` is the unique minimiser of the same objective over `y ≥ 0`. -/
theorem C14_non_negative_lasso (x : ι → K) (l1reg scaling : K) :
    IsUniqueMin {y : ι → K | ∀ i, 0 ≤ y i}
      (fun y => (1 / 2) * ∑ i, (x i - y i) ^ 2 + scaling * l1reg * ∑ i, |y i|)
      (proxNonNegativeLasso x l1reg scaling) := by
  refine ⟨fun i => relu_nonneg _, fun y hy hne => ?_⟩
  have e : ∀ z : ι → K, (1 / 2) * ∑ i, (x i - z i) ^ 2 + scaling * l1reg * ∑ i, |z i|
      = ∑ i, ((1 / 2) * (x i - z i) ^ 2 + scaling * l1reg * |z i|) := by
    intro z; rw [Finset.mul_sum, Finset.mul_sum, ← Finset.sum_add_distrib]
  show _ < _
  simp only [e]
  refine sum_lt_of_coord (φ := fun i z => (1 / 2) * (x i - z) ^ 2 + scaling * l1reg * |z|) (C := fun _ => {z | 0 ≤ z})
    (fun i z hz hne => ?_) hy hne
  have hz : 0 ≤ z := hz
  have hp0 : 0 ≤ proxNonNegativeLasso x l1reg scaling i := relu_nonneg _
  simp only [abs_of_nonneg hz, abs_of_nonneg hp0]
  have hpos : 0 < (z - proxNonNegativeLasso x l1reg scaling i) ^ 2 := by
    have : z - proxNonNegativeLasso x l1reg scaling i ≠ 0 := sub_ne_zero.mpr hne
    positivity
  have hcases : (x i - l1reg * scaling ≤ 0 ∧ proxNonNegativeLasso x l1reg scaling i = 0) ∨
      proxNonNegativeLasso x l1reg scaling i = x i - l1reg * scaling := by
    unfold proxNonNegativeLasso relu
    rcases le_total (x i - l1reg * scaling) 0 with h | h
    · left; exact ⟨h, max_eq_right h⟩
    · right; exact max_eq_left h
  rcases hcases with ⟨h1, h2⟩ | h2
  · rw [h2] at hpos ⊢
    have := mul_nonneg (neg_nonneg.mpr h1) hz
    nlinarith
  · rw [h2] at hpos ⊢
    nlinarith

/-- **C14**: `prox_elastic_net` is the unique minimiser of
`½||x-y||² + scaling Σ lam_i (|y_i| + gam_i ½ y_i²)`. -/
theorem C14_elastic_net (x lam gam : ι → K) (scaling : K) (h : ∀ i, 0 ≤ scaling * lam i) (hg : ∀ i, 0 ≤ gam i) :
    IsUniqueMin Set.univ
      (fun y => (1 / 2) * ∑ i, (x i - y i) ^ 2 + scaling * ∑ i, lam i * (|y i| + gam i * (1 / 2) * y i ^ 2))
      (proxElasticNet x lam gam scaling) := by
  refine ⟨Set.mem_univ _, fun y _ hne => ?_⟩
  have e : ∀ z : ι → K, (1 / 2) * ∑ i, (x i - z i) ^ 2 + scaling * ∑ i, lam i * (|z i| + gam i * (1 / 2) * z i ^ 2)
      = ∑ i, ((1 / 2) * (x i - z i) ^ 2 + scaling * lam i * |z i| + (1 / 2) * (scaling * lam i * gam i) * z i ^ 2) := by
    intro z; rw [Finset.mul_sum, Finset.mul_sum, ← Finset.sum_add_distrib]
    exact Finset.sum_congr rfl fun i _ => by ring
  show _ < _
  simp only [e]
  refine sum_lt_of_coord (φ := fun i z => (1 / 2) * (x i - z) ^ 2 + scaling * lam i * |z|
      + (1 / 2) * (scaling * lam i * gam i) * z ^ 2) (C := fun _ => Set.univ)
    (fun i z _ hz => ?_) (fun _ => Set.mem_univ _) hne
  exact soft_coord (x i) (scaling * lam i) (scaling * lam i * gam i) z (h i) (mul_nonneg (h i) (hg i)) hz

/-- **C14**: `prox_none` is the unique minimiser of `½||x-y||²`. -/
theorem C14_none (x : ι → K) :
    IsUniqueMin Set.univ (fun y => (1 / 2) * ∑ i, (x i - y i) ^ 2) (proxNone x) := by
  refine ⟨Set.mem_univ _, fun y _ hne => ?_⟩
  have : 0 < sqDist x y := sqDist_pos hne.symm
  unfold sqDist at this
  simp [proxNone]
  linarith

/-- Scalar and sign cases of the model. -/
example : proxLasso ![(3 : ℚ), -1 / 2, -4] (fun _ => 1) 2 = ![1, 0, -2] ∧
    proxElasticNet ![(3 : ℚ), -4] (fun _ => 1) (fun _ => 1) 1 = ![1, -3 / 2] := by
  constructor <;> decide +kernel

/-! ## C16 -/

/-- **C16** (what does hold): `prox_ridge` is the unique minimiser of `½||x-y||² + ½·scaling·l2reg·||y||²`.  The
documentation has no factor ½ in the second term: see `C16_ridge_documented_iff` and `C16_ridge_false`. -/
theorem C16_ridge_partial (x : ι → K) (l2reg scaling : K) (h : 0 ≤ scaling * l2reg) :
    IsUniqueMin Set.univ (fun y => (1 / 2) * ∑ i, (x i - y i) ^ 2 + (1 / 2) * (scaling * l2reg) * ∑ i, y i ^ 2)
      (proxRidge x l2reg scaling) := by
  refine ⟨Set.mem_univ _, fun y _ hne => ?_⟩
  have e : ∀ z : ι → K, (1 / 2) * ∑ i, (x i - z i) ^ 2 + (1 / 2) * (scaling * l2reg) * ∑ i, z i ^ 2
      = ∑ i, ((1 / 2) * (x i - z i) ^ 2 + (1 / 2) * (scaling * l2reg) * z i ^ 2) := by
    intro z; rw [Finset.mul_sum, Finset.mul_sum, ← Finset.sum_add_distrib]
  show _ < _
  simp only [e]
  refine sum_lt_of_coord (φ := fun i z => (1 / 2) * (x i - z) ^ 2 + (1 / 2) * (scaling * l2reg) * z ^ 2)
    (C := fun _ => Set.univ) (fun i z _ hz => ?_) (fun _ => Set.mem_univ _) hne
  have h1 : 0 < 1 + scaling * l2reg := by linarith
  have hp : (1 + scaling * l2reg) * proxRidge x l2reg scaling i = x i := by
    unfold proxRidge; field_simp
  set p := proxRidge x l2reg scaling i
  have hpos : 0 < (1 + scaling * l2reg) * (z - p) ^ 2 := by
    have : z - p ≠ 0 := sub_ne_zero.mpr hz
    positivity
  rw [← hp]
  nlinarith

/-- **C16** (what does hold): `prox_non_negative_ridge`, same objective with factor ½, over `y ≥ 0`. -/
theorem C16_non_negative_ridge_partial (x : ι → K) (l2reg scaling : K) (h : 0 ≤ l2reg * scaling) :
    IsUniqueMin {y : ι → K | ∀ i, 0 ≤ y i}
      (fun y => (1 / 2) * ∑ i, (x i - y i) ^ 2 + (1 / 2) * (l2reg * scaling) * ∑ i, y i ^ 2)
      (proxNonNegativeRidge x l2reg scaling) := by
  refine ⟨fun i => relu_nonneg _, fun y hy hne => ?_⟩
  have e : ∀ z : ι → K, (1 / 2) * ∑ i, (x i - z i) ^ 2 + (1 / 2) * (l2reg * scaling) * ∑ i, z i ^ 2
      = ∑ i, ((1 / 2) * (x i - z i) ^ 2 + (1 / 2) * (l2reg * scaling) * z i ^ 2) := by
    intro z; rw [Finset.mul_sum, Finset.mul_sum, ← Finset.sum_add_distrib]
  show _ < _
  simp only [e]
  refine sum_lt_of_coord (φ := fun i z => (1 / 2) * (x i - z) ^ 2 + (1 / 2) * (l2reg * scaling) * z ^ 2)
    (C := fun _ => {z | 0 ≤ z}) (fun i z hz hne => ?_) hy hne
  have hz : 0 ≤ z := hz
  have h1 : 0 < 1 + l2reg * scaling := by linarith
  set p := proxNonNegativeRidge x l2reg scaling i with hpdef
  have hpos : 0 < (1 + l2reg * scaling) * (z - p) ^ 2 := by
    have : z - p ≠ 0 := sub_ne_zero.mpr hne
    positivity
  have hcases : (x i ≤ 0 ∧ p = 0) ∨ (1 + l2reg * scaling) * p = x i := by
    have hq : (1 + l2reg * scaling) * ((1 / (1 + l2reg * scaling)) * x i) = x i := by field_simp
    rw [hpdef]; unfold proxNonNegativeRidge relu
    rcases le_total ((1 / (1 + l2reg * scaling)) * x i) 0 with h' | h'
    · left
      refine ⟨?_, max_eq_right h'⟩
      rw [← hq]; exact mul_nonpos_of_nonneg_of_nonpos (le_of_lt h1) h'
    · right
      rw [max_eq_left h', hq]
  rcases hcases with ⟨h2, h3⟩ | h2
  · rw [h3] at hpos ⊢
    have := mul_nonneg (neg_nonneg.mpr h2) hz
    nlinarith
  · rw [← h2]
    nlinarith

/-- The documented objective is minimised by the output of `prox_ridge` only in the trivial cases: no regularisation or
zero input. -/
theorem C16_ridge_documented_iff (x : ι → K) (l2reg scaling : K) (h : 0 ≤ scaling * l2reg) :
    (∀ y : ι → K, (1 / 2) * ∑ i, (x i - proxRidge x l2reg scaling i) ^ 2
        + scaling * l2reg * ∑ i, proxRidge x l2reg scaling i ^ 2
      ≤ (1 / 2) * ∑ i, (x i - y i) ^ 2 + scaling * l2reg * ∑ i, y i ^ 2) ↔
    (scaling * l2reg = 0 ∨ x = 0) := by
  set c := scaling * l2reg with hc
  have h1 : 0 < 1 + c := by linarith
  have h2 : 0 < 1 + 2 * c := by linarith
  have e : ∀ z : ι → K, (1 / 2) * ∑ i, (x i - z i) ^ 2 + c * ∑ i, z i ^ 2
      = ∑ i, ((1 / 2) * (x i - z i) ^ 2 + c * z i ^ 2) := by
    intro z; rw [Finset.mul_sum, Finset.mul_sum, ← Finset.sum_add_distrib]
  constructor
  · intro hmin
    by_contra hcon
    simp only [not_or] at hcon
    have hy := hmin (fun i => x i / (1 + 2 * c))
    rw [e, e] at hy
    have hlt : ∑ i, ((1 / 2) * (x i - x i / (1 + 2 * c)) ^ 2 + c * (x i / (1 + 2 * c)) ^ 2)
        < ∑ i, ((1 / 2) * (x i - proxRidge x l2reg scaling i) ^ 2 + c * proxRidge x l2reg scaling i ^ 2) := by
      have key : ∀ i, ((1 / 2) * (x i - proxRidge x l2reg scaling i) ^ 2 + c * proxRidge x l2reg scaling i ^ 2)
          = ((1 / 2) * (x i - x i / (1 + 2 * c)) ^ 2 + c * (x i / (1 + 2 * c)) ^ 2)
            + (1 / 2) * (1 + 2 * c) * (x i * c / ((1 + c) * (1 + 2 * c))) ^ 2 := by
        intro i
        simp only [proxRidge, ← hc]
        field_simp
        ring
      obtain ⟨j, hj⟩ := Function.ne_iff.mp hcon.2
      have hj : x j ≠ 0 := hj
      refine Finset.sum_lt_sum (fun i _ => ?_) ⟨j, Finset.mem_univ _, ?_⟩
      · rw [key]; have : 0 ≤ (1 / 2) * (1 + 2 * c) * (x i * c / ((1 + c) * (1 + 2 * c))) ^ 2 := by positivity
        linarith
      · rw [key]
        have hc0 := hcon.1
        have : 0 < (1 / 2) * (1 + 2 * c) * (x j * c / ((1 + c) * (1 + 2 * c))) ^ 2 := by positivity
        linarith
    linarith
  · rintro (h0 | h0) y
    · have : ∀ i, proxRidge x l2reg scaling i = x i := fun i => by simp [proxRidge, ← hc, h0]
      simp only [this, h0]
      simp
      exact Finset.sum_nonneg fun i _ => sq_nonneg _
    · subst h0
      have : ∀ i, proxRidge (0 : ι → K) l2reg scaling i = 0 := fun i => by simp [proxRidge]
      simp only [this]
      have hs : 0 ≤ ∑ i, y i ^ 2 := Finset.sum_nonneg fun i _ => sq_nonneg (y i)
      have hcs := mul_nonneg h hs
      simp
      nlinarith

/-- **C16 is false as documented**: concrete witness, `x = 1`, `l2reg = scaling = 1`; the output `1/2` has documented
objective `3/8`, the point `1/3` has `1/3`. -/
theorem C16_ridge_false : ¬ ∀ (x y : Fin 1 → ℚ) (l2reg scaling : ℚ), 0 ≤ scaling * l2reg →
    (1 / 2) * ∑ i, (x i - proxRidge x l2reg scaling i) ^ 2 + scaling * l2reg * ∑ i, proxRidge x l2reg scaling i ^ 2
      ≤ (1 / 2) * ∑ i, (x i - y i) ^ 2 + scaling * l2reg * ∑ i, y i ^ 2 := by
  intro h
  have := h (fun _ => 1) (fun _ => 1 / 3) 1 1 (by norm_num)
  norm_num [proxRidge] at this

/-- **C16 is false as documented** for `prox_non_negative_ridge` too. -/
theorem C16_non_negative_ridge_false : ¬ ∀ (x y : Fin 1 → ℚ) (l2reg scaling : ℚ), 0 ≤ scaling * l2reg → (∀ i, 0 ≤ y i) →
    (1 / 2) * ∑ i, (x i - proxNonNegativeRidge x l2reg scaling i) ^ 2
      + scaling * l2reg * ∑ i, proxNonNegativeRidge x l2reg scaling i ^ 2
      ≤ (1 / 2) * ∑ i, (x i - y i) ^ 2 + scaling * l2reg * ∑ i, y i ^ 2 := by
  intro h
  have := h (fun _ => 1) (fun _ => 1 / 3) 1 1 (by norm_num) (fun _ => by norm_num)
  norm_num [proxNonNegativeRidge, relu] at this

end coord

/-! ## C15 -/

section space
variable {E : Type*} [NormedAddCommGroup E] [InnerProductSpace ℝ E]

/-- **C15**: `prox_group_lasso` is the unique minimiser of `½||x-y||² + scaling·l2reg·||y||`, for every `x` including
zero. -/
theorem C15_group_lasso (x : E) (l2reg scaling : ℝ) (h : 0 ≤ scaling * l2reg) :
    IsUniqueMin Set.univ (fun y : E => (1 / 2) * ‖x - y‖ ^ 2 + scaling * l2reg * ‖y‖)
      (proxGroupLasso x l2reg scaling) := by
  refine ⟨Set.mem_univ _, fun y _ hne => ?_⟩
  show _ < _
  set t := scaling * l2reg with ht
  have hcases : (‖x‖ ≤ t ∧ proxGroupLasso x l2reg scaling = 0) ∨
      (t ≤ ‖x‖ ∧ 0 < ‖x‖ ∧ proxGroupLasso x l2reg scaling = (1 - t / ‖x‖) • x) := by
    simp only [proxGroupLasso]
    split_ifs with h1 h2
    · left; rw [h1]; exact ⟨h, by simp⟩
    · right
      have hx : 0 < ‖x‖ := lt_of_le_of_ne (norm_nonneg _) (Ne.symm h1)
      have : l2reg * scaling / ‖x‖ ≤ 1 := by linarith
      rw [div_le_one hx] at this
      refine ⟨by rw [ht]; linarith, hx, by rw [ht, mul_comm scaling]⟩
    · left
      have hx : 0 < ‖x‖ := lt_of_le_of_ne (norm_nonneg _) (Ne.symm h1)
      have : 1 < l2reg * scaling / ‖x‖ := by linarith
      rw [one_lt_div hx] at this
      exact ⟨by rw [ht]; linarith, by simp⟩
  rcases hcases with ⟨h1, h2⟩ | ⟨h1, hx, h2⟩
  · rw [h2] at hne ⊢
    have hy : 0 < ‖y‖ := norm_pos_iff.mpr hne
    have hin : inner ℝ x y ≤ t * ‖y‖ :=
      le_trans (real_inner_le_norm x y) (mul_le_mul_of_nonneg_right h1 (norm_nonneg _))
    show (1 / 2) * ‖x - 0‖ ^ 2 + t * ‖(0 : E)‖ < (1 / 2) * ‖x - y‖ ^ 2 + t * ‖y‖
    rw [norm_sub_sq_real x y, norm_sub_sq_real x 0]
    simp only [inner_zero_right, norm_zero]
    nlinarith
  · set p := proxGroupLasso x l2reg scaling with hp
    have hf : 0 ≤ 1 - t / ‖x‖ := by
      rw [sub_nonneg, div_le_one hx]; exact h1
    have hpn : ‖p‖ = ‖x‖ - t := by
      rw [h2, norm_smul, Real.norm_of_nonneg hf]; field_simp
    have hxp : x - p = (t / ‖x‖) • x := by
      rw [h2, sub_smul, one_smul]; abel
    have hd : 0 < ‖y - p‖ ^ 2 := by
      have : 0 < ‖y - p‖ := norm_pos_iff.mpr (sub_ne_zero.mpr hne)
      positivity
    have e1 : ‖x - y‖ ^ 2 = ‖x - p‖ ^ 2 - 2 * inner ℝ (x - p) (y - p) + ‖y - p‖ ^ 2 := by
      rw [← norm_sub_sq_real]; congr 2; abel
    have e2 : inner ℝ (x - p) (y - p) = t / ‖x‖ * inner ℝ x y - t * ‖p‖ := by
      rw [hxp, inner_smul_left, inner_sub_right, mul_sub, hpn, h2, inner_smul_right, real_inner_self_eq_norm_sq]
      simp only [conj_trivial]
      field_simp
    have e3 : t / ‖x‖ * inner ℝ x y ≤ t * ‖y‖ := by
      have := mul_le_mul_of_nonneg_left (real_inner_le_norm x y) (div_nonneg h (norm_nonneg x))
      have e : t / ‖x‖ * (‖x‖ * ‖y‖) = t * ‖y‖ := by field_simp
      linarith
    nlinarith

/-- Non-vacuity in `E = ℝ`: shrinking `3` by `1`. -/
example : proxGroupLasso (3 : ℝ) 1 1 = 2 ∧ proxGroupLasso (0 : ℝ) 1 1 = 0 := by
  constructor <;> norm_num [proxGroupLasso]

end space

end Jaxopt.Prox
