import Verif.Num.Vdot
import Verif.Num.Smooth
import Mathlib.Analysis.Convex.Deriv
import Mathlib.Analysis.Convex.Function
import Mathlib.Analysis.InnerProductSpace.Basic

/-!
# First-order facts about convex functions
-/

set_option autoImplicit false
set_option linter.unusedSectionVars false

namespace Jaxopt

/-- A real inner product satisfies the laws of `tree_vdot`. -/
theorem isVdot_inner {E : Type*} [NormedAddCommGroup E] [InnerProductSpace ℝ E] :
    IsVdot (K := ℝ) (E := E) (fun x y => inner ℝ x y) where
  add_left := fun x y z => inner_add_left x y z
  smul_left := fun a x z => by rw [inner_smul_left]; rfl
  symm := fun x y => real_inner_comm y x
  pos := fun x hx => by
    rw [real_inner_self_eq_norm_sq]; positivity

/-- The gradient inequality of a differentiable convex function. -/
theorem convex_grad_le {E : Type*} [NormedAddCommGroup E] [InnerProductSpace ℝ E] [CompleteSpace E] {f : E → ℝ} {g : E → E}
    (hf : ConvexOn ℝ Set.univ f) (hg : ∀ x, HasGradientAt f (g x) x) (x y : E) :
    f x + inner ℝ (y - x) (g x) ≤ f y := by
  set d := y - x with hd
  have h1 : HasDerivAt (fun t : ℝ => x + t • d) d 0 := by
    simpa using ((hasDerivAt_id (0 : ℝ)).smul_const d).const_add x
  have h0 : HasGradientAt f (g x) (x + (0 : ℝ) • d) := by simpa using hg x
  have h2 := (h0.hasFDerivAt).comp_hasDerivAt (0 : ℝ) h1
  have e : (InnerProductSpace.toDual ℝ E) (g x) d = inner ℝ (g x) d := InnerProductSpace.toDual_apply_apply
  rw [e] at h2
  have hc : ConvexOn ℝ Set.univ (fun t : ℝ => f (x + t • d)) := by
    refine ⟨convex_univ, fun a _ b _ p q hp hq hpq => ?_⟩
    have := hf.2 (Set.mem_univ (x + a • d)) (Set.mem_univ (x + b • d)) hp hq hpq
    have e2 : p • (x + a • d) + q • (x + b • d) = x + (p • a + q • b) • d := by
      rw [smul_add, smul_add, smul_smul, smul_smul, smul_eq_mul, smul_eq_mul, add_smul]
      have : p • x + q • x = x := by rw [← add_smul, hpq, one_smul]
      rw [show p • x + (p * a) • d + (q • x + (q * b) • d) = (p • x + q • x) + ((p * a) • d + (q * b) • d) by abel, this]
    rw [e2] at this
    exact this
  have := hc.le_slope_of_hasDerivAt (Set.mem_univ 0) (Set.mem_univ 1) zero_lt_one h2
  simp only [slope_def_field, one_smul, zero_smul, add_zero, sub_zero, div_one] at this
  have hxy : x + d = y := by rw [hd]; abel
  rw [hxy] at this
  rw [real_inner_comm]
  linarith

end Jaxopt
