import Mathlib.Algebra.BigOperators.Fin
import Mathlib.Algebra.Order.BigOperators.Ring.Finset
import Mathlib.Algebra.Order.Field.Basic
import Mathlib.Tactic.Linarith
import Mathlib.Tactic.Ring

/-!
# Specification: Euclidean projections

`sqDist`, `IsProj` and `IsUniqueProj` are what the docstrings of `projection.py` promise:
`argmin_p ||x - p||²` subject to `p ∈ C`.
-/

set_option autoImplicit false
set_option linter.unusedSectionVars false
set_option linter.unusedVariables false

namespace Jaxopt.Proj

variable {K ι : Type*} [Field K] [LinearOrder K] [IsStrictOrderedRing K] [Fintype ι]

/-- `||x - y||²`. -/
def sqDist (x y : ι → K) : K := ∑ i, (x i - y i) ^ 2

/-- `p` is a closest point of `C` to `x`. -/
def IsProj (C : Set (ι → K)) (x p : ι → K) : Prop := p ∈ C ∧ ∀ y ∈ C, sqDist x p ≤ sqDist x y

/-- `p` is the unique closest point of `C` to `x`. -/
def IsUniqueProj (C : Set (ι → K)) (x p : ι → K) : Prop :=
  p ∈ C ∧ ∀ y ∈ C, y ≠ p → sqDist x p < sqDist x y

theorem IsUniqueProj.isProj {C : Set (ι → K)} {x p : ι → K} (h : IsUniqueProj C x p) : IsProj C x p := by
  refine ⟨h.1, fun y hy => ?_⟩
  by_cases hyp : y = p
  · rw [hyp]
  · exact le_of_lt (h.2 y hy hyp)

omit [LinearOrder K] [IsStrictOrderedRing K] in
theorem sqDist_expand (x p y : ι → K) :
    sqDist x y = sqDist x p + sqDist p y - 2 * ∑ i, (x i - p i) * (y i - p i) := by
  simp only [sqDist, Finset.mul_sum, ← Finset.sum_add_distrib, ← Finset.sum_sub_distrib]
  refine Finset.sum_congr rfl fun i _ => by ring

theorem sqDist_nonneg (x y : ι → K) : 0 ≤ sqDist x y := Finset.sum_nonneg fun i _ => sq_nonneg _

theorem sqDist_pos {x y : ι → K} (h : x ≠ y) : 0 < sqDist x y := by
  obtain ⟨i, hi⟩ := Function.ne_iff.mp h
  refine Finset.sum_pos' (fun i _ => sq_nonneg _) ⟨i, Finset.mem_univ _, ?_⟩
  exact pow_pos_of_ne_zero_sq (sub_ne_zero.mpr hi)
where
  pow_pos_of_ne_zero_sq {a : K} (h : a ≠ 0) : 0 < a ^ 2 := by positivity

/-- The variational inequality is sufficient. -/
theorem isUniqueProj_of_vi {C : Set (ι → K)} {x p : ι → K} (hp : p ∈ C)
    (h : ∀ y ∈ C, ∑ i, (x i - p i) * (y i - p i) ≤ 0) : IsUniqueProj C x p := by
  refine ⟨hp, fun y hy hne => ?_⟩
  have h1 := h y hy
  have h2 := sqDist_pos (K := K) hne.symm
  rw [sqDist_expand x p y]
  linarith

theorem IsUniqueProj.eq {C : Set (ι → K)} {x p q : ι → K} (h : IsUniqueProj C x p) (hq : IsProj C x q) : q = p := by
  by_contra hne
  exact absurd (hq.2 p h.1) (not_le.mpr (h.2 q hq.1 hne))

end Jaxopt.Proj
