import Verif.QuasiNewton.LbfgsRateProps
import Verif.LineSearch.ZoomLiveProps

/-!
# Sums of squared hinges

`μ/2 |x|² + Σ w_i/2 max(⟨a_i, x⟩ - b_i, 0)²`: a family of smooth strongly convex functions with prescribed values and gradients at
finitely many points.  Used by the counterexamples.
-/

set_option autoImplicit false
set_option linter.unusedSectionVars false
set_option linter.unusedVariables false

namespace Jaxopt.QuasiNewton

open Jaxopt.LineSearch

variable {V : Type*} [NormedAddCommGroup V] [InnerProductSpace ℝ V] [CompleteSpace V] {ι : Type*} [Fintype ι]

/-- The function. -/
noncomputable def hinges (μ : ℝ) (w : ι → ℝ) (a : ι → V) (b : ι → ℝ) (x : V) : ℝ :=
  μ / 2 * ‖x‖ ^ 2 + ∑ i, w i / 2 * (max (inner ℝ (a i) x - b i) 0) ^ 2

/-- Its gradient. -/
noncomputable def hingesGrad (μ : ℝ) (w : ι → ℝ) (a : ι → V) (b : ι → ℝ) (x : V) : V :=
  μ • x + ∑ i, (w i * max (inner ℝ (a i) x - b i) 0) • a i

theorem hinges_grad (μ : ℝ) (w : ι → ℝ) (a : ι → V) (b : ι → ℝ) (x : V) :
    HasGradientAt (hinges μ w a b) (hingesGrad μ w a b x) x := by
  rw [hasGradientAt_iff_hasFDerivAt]
  have h1 := ((hasStrictFDerivAt_norm_sq x).hasFDerivAt).const_mul (μ / 2)
  have h2 : ∀ i, HasFDerivAt (fun x => w i / 2 * (max (inner ℝ (a i) x - b i) 0) ^ 2)
      ((w i / 2) • ((2 * max (inner ℝ (a i) x - b i) 0) • (innerSL ℝ (a i)))) x := by
    intro i
    have e : HasFDerivAt (fun x => inner ℝ (a i) x - b i) (innerSL ℝ (a i)) x :=
      ((innerSL ℝ (a i)).hasFDerivAt).sub_const (b i)
    exact ((hasDerivAt_posPart_sq _).comp_hasFDerivAt x e).const_mul _
  have h3 := h1.add (HasFDerivAt.fun_sum fun i (_ : i ∈ Finset.univ) => h2 i)
  refine h3.congr_fderiv ?_
  ext v
  simp only [hingesGrad, map_add, map_smul, map_sum, ContinuousLinearMap.add_apply, ContinuousLinearMap.smul_apply,
    ContinuousLinearMap.sum_apply, innerSL_apply_apply, InnerProductSpace.toDual_apply_apply, smul_eq_mul, nsmul_eq_mul,
    inner_add_left, sum_inner, real_inner_smul_left]
  congr 1
  · simp; ring
  · exact Finset.sum_congr rfl fun i _ => by ring

theorem posPart_sub_le (s t : ℝ) : |max s 0 - max t 0| ≤ |s - t| := by
  have := abs_max_sub_max_le_abs s t 0
  exact this

theorem hinges_lip (μ : ℝ) (hμ : 0 ≤ μ) (w : ι → ℝ) (hw : ∀ i, 0 ≤ w i) (a : ι → V) (b : ι → ℝ) (x y : V) :
    ‖hingesGrad μ w a b x - hingesGrad μ w a b y‖ ≤ (μ + ∑ i, w i * ‖a i‖ ^ 2) * ‖x - y‖ := by
  have e : hingesGrad μ w a b x - hingesGrad μ w a b y = μ • (x - y) +
      ∑ i, (w i * (max (inner ℝ (a i) x - b i) 0 - max (inner ℝ (a i) y - b i) 0)) • a i := by
    unfold hingesGrad
    rw [add_sub_add_comm, ← smul_sub, ← Finset.sum_sub_distrib]
    congr 1
    exact Finset.sum_congr rfl fun i _ => by rw [← sub_smul, mul_sub]
  rw [e, add_mul, Finset.sum_mul]
  refine (norm_add_le _ _).trans (add_le_add ?_ ((norm_sum_le _ _).trans (Finset.sum_le_sum fun i _ => ?_)))
  · rw [norm_smul, Real.norm_eq_abs, abs_of_nonneg hμ]
  · rw [norm_smul, Real.norm_eq_abs, abs_mul, abs_of_nonneg (hw i)]
    have h1 := posPart_sub_le (inner ℝ (a i) x - b i) (inner ℝ (a i) y - b i)
    have h2 : |inner ℝ (a i) x - b i - (inner ℝ (a i) y - b i)| ≤ ‖a i‖ * ‖x - y‖ := by
      rw [sub_sub_sub_cancel_right, ← inner_sub_right]
      exact abs_real_inner_le_norm _ _
    have h3 := mul_le_mul_of_nonneg_left (h1.trans h2) (hw i)
    nlinarith [norm_nonneg (a i)]

theorem hinges_smooth (μ : ℝ) (hμ : 0 ≤ μ) (w : ι → ℝ) (hw : ∀ i, 0 ≤ w i) (a : ι → V) (b : ι → ℝ) :
    LSmooth (hinges μ w a b) (hingesGrad μ w a b) (μ + ∑ i, w i * ‖a i‖ ^ 2) :=
  ⟨hinges_grad μ w a b, hinges_lip μ hμ w hw a b⟩

theorem posPart_sq_convex (s t : ℝ) : (max s 0) ^ 2 + 2 * max s 0 * (t - s) ≤ (max t 0) ^ 2 := by
  rcases le_total s 0 with hs | hs <;> rcases le_total t 0 with ht | ht
  · simp [max_eq_right hs, max_eq_right ht]
  · rw [max_eq_right hs, max_eq_left ht]; nlinarith [sq_nonneg t]
  · rw [max_eq_left hs, max_eq_right ht]; nlinarith
  · rw [max_eq_left hs, max_eq_left ht]; nlinarith [sq_nonneg (t - s)]

theorem hinges_convex (μ : ℝ) (w : ι → ℝ) (hw : ∀ i, 0 ≤ w i) (a : ι → V) (b : ι → ℝ) :
    StrongConvexWith (hinges μ w a b) (hingesGrad μ w a b) μ := by
  intro x y
  unfold hinges hingesGrad
  rw [inner_add_left, real_inner_smul_left, sum_inner]
  have h1 : μ / 2 * ‖x‖ ^ 2 + μ * inner ℝ x (y - x) + μ / 2 * ‖y - x‖ ^ 2 = μ / 2 * ‖y‖ ^ 2 := by
    rw [inner_sub_right, real_inner_self_eq_norm_sq, norm_sub_sq_real, real_inner_comm x y]; ring
  have h2 : ∑ i, w i / 2 * (max (inner ℝ (a i) x - b i) 0) ^ 2 +
      ∑ i, inner ℝ ((w i * max (inner ℝ (a i) x - b i) 0) • a i) (y - x) ≤ ∑ i, w i / 2 * (max (inner ℝ (a i) y - b i) 0) ^ 2 := by
    rw [← Finset.sum_add_distrib]
    refine Finset.sum_le_sum fun i _ => ?_
    rw [real_inner_smul_left, inner_sub_right]
    have := mul_le_mul_of_nonneg_left (posPart_sq_convex (inner ℝ (a i) x - b i) (inner ℝ (a i) y - b i)) (hw i)
    nlinarith
  linarith

/-- At a point where exactly the hinge `j` is active. -/
theorem hinges_at (μ : ℝ) (w : ι → ℝ) (a : ι → V) (b : ι → ℝ) (x : V) (j : ι) (τ : ℝ) (hτ : 0 ≤ τ)
    (hj : inner ℝ (a j) x - b j = τ) (hw : w j * τ = 1) (hi : ∀ i, i ≠ j → inner ℝ (a i) x ≤ b i) :
    hinges μ w a b x = μ / 2 * ‖x‖ ^ 2 + τ / 2 ∧ hingesGrad μ w a b x = μ • x + a j := by
  classical
  have e : ∀ i, i ≠ j → max (inner ℝ (a i) x - b i) 0 = 0 := fun i h => max_eq_right (by linarith [hi i h])
  have ej : max (inner ℝ (a j) x - b j) 0 = τ := by rw [hj, max_eq_left hτ]
  constructor
  · unfold hinges
    rw [Finset.sum_eq_single j (fun i _ h => by rw [e i h]; ring) (fun h => absurd (Finset.mem_univ j) h), ej]
    have : w j / 2 * τ ^ 2 = (w j * τ) * τ / 2 := by ring
    rw [this, hw, one_mul]
  · unfold hingesGrad
    rw [Finset.sum_eq_single j (fun i _ h => by rw [e i h]; simp) (fun h => absurd (Finset.mem_univ j) h), ej, hw, one_smul]

end Jaxopt.QuasiNewton
