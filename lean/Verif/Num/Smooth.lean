import Mathlib.Analysis.Calculus.Gradient.Basic
import Mathlib.Analysis.Calculus.Deriv.MeanValue
import Mathlib.Analysis.InnerProductSpace.Calculus

/-!
# Descent lemma

A function with `L`-Lipschitz gradient lies below its quadratic upper model.
-/

set_option autoImplicit false
set_option linter.unusedSectionVars false

namespace Jaxopt

variable {E : Type*} [NormedAddCommGroup E] [InnerProductSpace ℝ E] [CompleteSpace E]

/-- `f` has gradient `g` everywhere and `g` is `L`-Lipschitz. -/
structure LSmooth (f : E → ℝ) (g : E → E) (L : ℝ) : Prop where
  grad : ∀ x, HasGradientAt f (g x) x
  lip : ∀ x y, ‖g x - g y‖ ≤ L * ‖x - y‖

theorem LSmooth.deriv_line {f : E → ℝ} {g : E → E} {L : ℝ} (h : LSmooth f g L) (x d : E) (t : ℝ) :
    HasDerivAt (fun t : ℝ => f (x + t • d)) (inner ℝ (g (x + t • d)) d) t := by
  have h1 : HasDerivAt (fun t : ℝ => x + t • d) d t := by
    simpa using ((hasDerivAt_id t).smul_const d).const_add x
  have h2 := ((h.grad (x + t • d)).hasFDerivAt).comp_hasDerivAt t h1
  have e : (InnerProductSpace.toDual ℝ E) (g (x + t • d)) d = inner ℝ (g (x + t • d)) d :=
    InnerProductSpace.toDual_apply_apply
  rw [e] at h2
  exact h2

/-- The descent lemma. -/
theorem LSmooth.descent {f : E → ℝ} {g : E → E} {L : ℝ} (h : LSmooth f g L) (x y : E) :
    f y ≤ f x + inner ℝ (g x) (y - x) + L / 2 * ‖y - x‖ ^ 2 := by
  set d := y - x with hd
  have hderiv : ∀ t : ℝ, HasDerivAt (fun t : ℝ => f (x + t • d) - t * inner ℝ (g x) d - L / 2 * ‖d‖ ^ 2 * t ^ 2)
      (inner ℝ (g (x + t • d)) d - inner ℝ (g x) d - L * ‖d‖ ^ 2 * t) t := by
    intro t
    have h1 := h.deriv_line x d t
    have h2 : HasDerivAt (fun t : ℝ => t * inner ℝ (g x) d) (inner ℝ (g x) d) t := by
      simpa using (hasDerivAt_id t).mul_const (inner ℝ (g x) d)
    have h3 : HasDerivAt (fun t : ℝ => L / 2 * ‖d‖ ^ 2 * t ^ 2) (L * ‖d‖ ^ 2 * t) t := by
      have := (hasDerivAt_pow 2 t).const_mul (L / 2 * ‖d‖ ^ 2)
      have e : L / 2 * ‖d‖ ^ 2 * ((2 : ℕ) * t ^ (2 - 1)) = L * ‖d‖ ^ 2 * t := by
        norm_num; ring
      rw [e] at this
      exact this
    exact (h1.sub h2).sub h3
  have hle : ∀ t : ℝ, 0 ≤ t → inner ℝ (g (x + t • d)) d - inner ℝ (g x) d - L * ‖d‖ ^ 2 * t ≤ 0 := by
    intro t ht
    rw [← inner_sub_left]
    have h1 := real_inner_le_norm (g (x + t • d) - g x) d
    have h2 := h.lip (x + t • d) x
    rw [add_sub_cancel_left, norm_smul, Real.norm_of_nonneg ht] at h2
    have h3 := mul_le_mul_of_nonneg_right h2 (norm_nonneg d)
    nlinarith
  have hanti : AntitoneOn (fun t : ℝ => f (x + t • d) - t * inner ℝ (g x) d - L / 2 * ‖d‖ ^ 2 * t ^ 2) (Set.Ici 0) := by
    refine antitoneOn_of_deriv_nonpos (convex_Ici 0) (fun t _ => (hderiv t).continuousAt.continuousWithinAt)
      (fun t _ => (hderiv t).differentiableAt.differentiableWithinAt) ?_
    intro t ht
    rw [(hderiv t).deriv]
    rw [interior_Ici] at ht
    exact hle t (le_of_lt ht)
  have := hanti (Set.mem_Ici.mpr (le_refl 0)) (Set.mem_Ici.mpr zero_le_one) zero_le_one
  simp only [one_smul, zero_smul, add_zero, one_mul, zero_mul, sub_zero] at this
  have hxy : x + d = y := by rw [hd]; abel
  rw [hxy] at this
  norm_num at this
  linarith

end Jaxopt
