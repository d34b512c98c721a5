import Verif.Prox.Reverse
import Verif.Prox.Model
import Verif.Proj.ModelE
import Mathlib.Analysis.InnerProductSpace.Calculus
import Mathlib.Analysis.InnerProductSpace.PiL2
import Mathlib.Analysis.SpecialFunctions.Sqrt
import Mathlib.Analysis.Calculus.FDeriv.Mul
import Mathlib.Analysis.Calculus.Deriv.Inv
import Mathlib.Analysis.Calculus.Deriv.Add
import Mathlib.Tactic.FieldSimp
import Mathlib.Tactic.Ring
import Mathlib.Tactic.FinCases
import Mathlib.Tactic.NormNum

/-!
# C115: automatic differentiation of the operators that divide by a norm
-/

set_option autoImplicit false
set_option linter.unusedSectionVars false
set_option linter.unusedVariables false

namespace Jaxopt.Reverse

open Jaxopt.Prox Jaxopt.Proj

/-! ### Derivatives -/

section deriv
variable {E : Type*} [NormedAddCommGroup E] [InnerProductSpace ℝ E]

/-- Derivative of `z ↦ (a + b / ‖z‖) • z`. -/
noncomputable def scaledD (a b : ℝ) (x : E) : E →L[ℝ] E :=
  (a + b / ‖x‖) • ContinuousLinearMap.id ℝ E + (-(b / ‖x‖ ^ 3)) • (innerSL ℝ x).smulRight x

theorem norm_hasFDerivAt {x : E} (hx : x ≠ 0) : HasFDerivAt (fun z : E => ‖z‖) ((1 / ‖x‖) • innerSL ℝ x) x := by
  have h1 : HasFDerivAt (fun z : E => ‖z‖ ^ 2) (2 • (innerSL ℝ x).comp (ContinuousLinearMap.id ℝ E)) x := (hasFDerivAt_id x).norm_sq
  have h2 := h1.sqrt (pow_ne_zero 2 (norm_ne_zero_iff.mpr hx))
  have e : (fun z : E => Real.sqrt (‖z‖ ^ 2)) = fun z => ‖z‖ := funext fun z => Real.sqrt_sq (norm_nonneg z)
  rw [e] at h2
  convert h2 using 1
  ext v
  simp [Real.sqrt_sq (norm_nonneg x)]
  field_simp

theorem scaled_hasFDerivAt (a b : ℝ) {x : E} (hx : x ≠ 0) : HasFDerivAt (fun z : E => (a + b / ‖z‖) • z) (scaledD a b x) x := by
  have hn : ‖x‖ ≠ 0 := norm_ne_zero_iff.mpr hx
  have h1 := ((hasDerivAt_inv hn).comp_hasFDerivAt x (norm_hasFDerivAt hx)).const_mul b
  have h2 := (h1.const_add a).smul (hasFDerivAt_id x)
  have e : (fun z : E => (a + b / ‖z‖) • z) = fun z => (a + b * (‖z‖)⁻¹) • id z := by
    funext z; rw [div_eq_mul_inv]; rfl
  rw [e]
  refine h2.congr_fderiv (ContinuousLinearMap.ext fun v => ?_)
  simp only [scaledD, ContinuousLinearMap.add_apply, ContinuousLinearMap.smul_apply, ContinuousLinearMap.smulRight_apply, id_eq,
    ContinuousLinearMap.id_apply, innerSL_apply_apply, smul_eq_mul, smul_smul, div_eq_mul_inv]
  congr 2
  field_simp

theorem scaledD_symm (a b : ℝ) (x u v : E) : inner ℝ (scaledD a b x u) v = inner ℝ u (scaledD a b x v) := by
  simp only [scaledD, ContinuousLinearMap.add_apply, ContinuousLinearMap.smul_apply, ContinuousLinearMap.smulRight_apply,
    ContinuousLinearMap.id_apply, innerSL_apply_apply, inner_add_left, inner_add_right, real_inner_smul_left, real_inner_smul_right]
  rw [real_inner_comm x u]; ring

end deriv

/-! ### Statements -/

section
variable {ι : Type*} [Fintype ι]

/-- The forward pass computes the directional derivatives of `f` at `x`, all finite. -/
def ForwardCorrect (f : EuclideanSpace ℝ ι → EuclideanSpace ℝ ι) (x : EuclideanSpace ℝ ι)
    (jvp : (ι → ℝ) → ι → Ext ℝ) : Prop :=
  ∃ D : EuclideanSpace ℝ ι →L[ℝ] EuclideanSpace ℝ ι, HasFDerivAt f D x ∧ ∀ t : EuclideanSpace ℝ ι, ∀ i, jvp t.ofLp i = .fin (D t i)

/-- The reverse pass computes the adjoint of the derivative of `f` at `x`, all finite. -/
def ReverseCorrect (f : EuclideanSpace ℝ ι → EuclideanSpace ℝ ι) (x : EuclideanSpace ℝ ι)
    (vjp : (ι → ℝ) → ι → Ext ℝ) : Prop :=
  ∃ D : EuclideanSpace ℝ ι →L[ℝ] EuclideanSpace ℝ ι, HasFDerivAt f D x ∧ ∀ ct : EuclideanSpace ℝ ι, ∃ w : EuclideanSpace ℝ ι, (∀ i, vjp ct.ofLp i = .fin (w i)) ∧ ∀ v, inner ℝ w v = inner ℝ ct (D v)

/-! ### Closed forms -/

theorem l2Norm_eq (x : EuclideanSpace ℝ ι) : l2Norm x.ofLp = ‖x‖ := by
  rw [EuclideanSpace.norm_eq]; simp [l2Norm]

theorem inner_eq (x y : EuclideanSpace ℝ ι) : inner ℝ x y = ∑ i, x i * y i := by
  simp [PiLp.inner_apply, mul_comm]

theorem ctScalar_eq (x ct : EuclideanSpace ℝ ι) : ctScalar x.ofLp ct.ofLp = inner ℝ x ct := by
  rw [inner_eq]; exact Finset.sum_congr rfl fun i _ => mul_comm _ _

theorem scaledD_coord (a b : ℝ) (x v : EuclideanSpace ℝ ι) (i : ι) :
    scaledD a b x v i = (a + b / ‖x‖) * v i - b / ‖x‖ ^ 3 * inner ℝ x v * x i := by
  simp [scaledD]; ring

theorem quot_of_ne {a b : ℝ} (h : b ≠ 0) : Ext.quot a b = .fin (a / b) := if_neg h

theorem mul_fin (a b : ℝ) : Ext.times (.fin a) (.fin b) = .fin (a * b) := rfl

variable {x : EuclideanSpace ℝ ι}

theorem jvpNorm_of_ne (hx : x ≠ 0) (t : EuclideanSpace ℝ ι) : jvpNorm x.ofLp t.ofLp = .fin (inner ℝ x t / ‖x‖) := by
  have hn : ‖x‖ ≠ 0 := norm_ne_zero_iff.mpr hx
  simp only [jvpNorm, l2Norm_eq]
  rw [quot_of_ne hn, mul_fin, inner_eq]
  congr 1
  simp only [mul_assoc, ← Finset.mul_sum]; ring

theorem vjpNorm_of_ne (hx : x ≠ 0) (c : ℝ) (i : ι) : vjpNorm x.ofLp (.fin c) i = .fin (c / ‖x‖ * x i) := by
  have hn : ‖x‖ ≠ 0 := norm_ne_zero_iff.mpr hx
  simp only [vjpNorm, l2Norm_eq]
  rw [quot_of_ne hn, mul_fin, mul_fin]
  congr 1; ring

theorem jvpQuot_of_ne {n : ℝ} (hn : n ≠ 0) (l t : ℝ) : jvpQuot l n (.fin t) = .fin (-(l / n ^ 2 * t)) := by
  simp only [jvpQuot, Ext.neg]
  rw [quot_of_ne (pow_ne_zero 2 hn), mul_fin, mul_fin]
  congr 1; ring

theorem vjpQuot_of_ne {n : ℝ} (hn : n ≠ 0) (l t : ℝ) : vjpQuot l n (.fin t) = .fin (-(l / n ^ 2 * t)) := by
  simp only [vjpQuot]
  rw [quot_of_ne (pow_ne_zero 2 hn), mul_fin, mul_fin]
  simp only [Ext.neg]
  congr 1; ring

/-! ### The sphere -/

theorem sphere_jvp (hx : x ≠ 0) (v : ℝ) (t : EuclideanSpace ℝ ι) (i : ι) : L2Sphere.jvp x.ofLp v t.ofLp i = .fin (scaledD 0 v x t i) := by
  have hn : ‖x‖ ≠ 0 := norm_ne_zero_iff.mpr hx
  simp only [L2Sphere.jvp, l2Norm_eq, jvpNorm_of_ne hx, jvpQuot_of_ne hn, quot_of_ne hn, mul_fin, Ext.add, scaledD_coord]
  congr 1; field_simp; ring

theorem sphere_vjp (hx : x ≠ 0) (v : ℝ) (ct : EuclideanSpace ℝ ι) (i : ι) : L2Sphere.vjp x.ofLp v ct.ofLp i = .fin (scaledD 0 v x ct i) := by
  have hn : ‖x‖ ≠ 0 := norm_ne_zero_iff.mpr hx
  simp only [L2Sphere.vjp, l2Norm_eq, ctScalar_eq, vjpNorm_of_ne hx, vjpQuot_of_ne hn, quot_of_ne hn, mul_fin, Ext.add, scaledD_coord]
  congr 1; field_simp; ring

theorem sphere_hasFDerivAt (hx : x ≠ 0) (v : ℝ) : HasFDerivAt (fun z : EuclideanSpace ℝ ι => projectionL2Sphere z v) (scaledD 0 v x) x := by
  have := scaled_hasFDerivAt 0 v hx
  simpa [projectionL2Sphere] using this

/-! ### The ball -/

theorem ball_jvp (hx : x ≠ 0) (v : ℝ) (t : EuclideanSpace ℝ ι) (i : ι) :
    L2Ball.jvp x.ofLp v t.ofLp i = .fin (if ‖x‖ ≤ v then t i else scaledD 0 v x t i) := by
  simp only [L2Ball.jvp, l2Norm_eq]
  by_cases h : ‖x‖ ≤ v
  · rw [if_pos h, if_pos h]
  · rw [if_neg h, if_neg h, sphere_jvp hx]

theorem ball_vjp (hx : x ≠ 0) (v : ℝ) (ct : EuclideanSpace ℝ ι) (i : ι) :
    L2Ball.vjp x.ofLp v ct.ofLp i = .fin (if ‖x‖ ≤ v then ct i else scaledD 0 v x ct i) := by
  have hn : ‖x‖ ≠ 0 := norm_ne_zero_iff.mpr hx
  simp only [L2Ball.vjp, l2Norm_eq]
  by_cases h : ‖x‖ ≤ v
  · rw [if_pos h, if_pos h, if_pos h, vjpQuot_of_ne hn, vjpNorm_of_ne hx]
    simp [Ext.add]
  · rw [if_neg h, if_neg h, if_neg h, ← sphere_vjp hx]
    simp only [L2Sphere.vjp, l2Norm_eq]

theorem ball_inside {v : ℝ} (h : ‖x‖ < v) :
    HasFDerivAt (fun z : EuclideanSpace ℝ ι => projectionL2Ball z v) (ContinuousLinearMap.id ℝ _) x := by
  refine (hasFDerivAt_id x).congr_of_eventuallyEq ?_
  filter_upwards [(isOpen_lt continuous_norm continuous_const).mem_nhds h] with z hz
  exact if_pos (le_of_lt hz)

theorem ball_outside {v : ℝ} (hx : x ≠ 0) (h : v < ‖x‖) :
    HasFDerivAt (fun z : EuclideanSpace ℝ ι => projectionL2Ball z v) (scaledD 0 v x) x := by
  refine (sphere_hasFDerivAt hx v).congr_of_eventuallyEq ?_
  filter_upwards [(isOpen_lt continuous_const continuous_norm).mem_nhds h] with z hz
  exact if_neg (not_le.mpr hz)

/-! ### The group lasso -/

theorem active_of_ne (hx : x ≠ 0) (l s : ℝ) : GroupLasso.active x.ofLp l s = decide (l * s ≤ ‖x‖) := by
  have hn : 0 < ‖x‖ := norm_pos_iff.mpr hx
  simp only [GroupLasso.active, GroupLasso.factor, l2Norm_eq, quot_of_ne hn.ne', Ext.sub, Ext.neg, Ext.add, Ext.le]
  congr 1
  rw [← sub_eq_add_neg, sub_nonneg, div_le_one hn]

theorem factor_of_ne (hx : x ≠ 0) (l s : ℝ) :
    GroupLasso.factor' x.ofLp l s = .fin (if l * s ≤ ‖x‖ then 1 - l * s / ‖x‖ else 0) := by
  have hn : 0 < ‖x‖ := norm_pos_iff.mpr hx
  rw [GroupLasso.factor', active_of_ne hx]
  by_cases h : l * s ≤ ‖x‖
  · simp [h, GroupLasso.factor, l2Norm_eq, quot_of_ne hn.ne', Ext.sub, Ext.neg, Ext.add, sub_eq_add_neg]
  · simp [h]

theorem groupLasso_of_ne (hx : x ≠ 0) (l s : ℝ) : proxGroupLasso x l s = (if l * s ≤ ‖x‖ then 1 - l * s / ‖x‖ else 0) • x := by
  have hn : 0 < ‖x‖ := norm_pos_iff.mpr hx
  simp only [proxGroupLasso, if_neg hn.ne', ge_iff_le, sub_nonneg, div_le_one hn]

theorem lasso_jvp (hx : x ≠ 0) (l s : ℝ) (t : EuclideanSpace ℝ ι) (i : ι) :
    GroupLasso.jvp x.ofLp l s t.ofLp i = .fin (if l * s ≤ ‖x‖ then scaledD 1 (-(l * s)) x t i else 0) := by
  have hn : ‖x‖ ≠ 0 := norm_ne_zero_iff.mpr hx
  simp only [GroupLasso.jvp, active_of_ne hx, factor_of_ne hx, l2Norm_eq, jvpNorm_of_ne hx, jvpQuot_of_ne hn, Ext.neg]
  by_cases h : l * s ≤ ‖x‖
  · simp only [h, decide_true, if_true, mul_fin, Ext.add, scaledD_coord]
    congr 1; field_simp; ring
  · simp [h, mul_fin, Ext.add]

theorem lasso_vjp (hx : x ≠ 0) (l s : ℝ) (ct : EuclideanSpace ℝ ι) (i : ι) :
    GroupLasso.vjp x.ofLp l s ct.ofLp i = .fin (if l * s ≤ ‖x‖ then scaledD 1 (-(l * s)) x ct i else 0) := by
  have hn : ‖x‖ ≠ 0 := norm_ne_zero_iff.mpr hx
  simp only [GroupLasso.vjp, active_of_ne hx, factor_of_ne hx, l2Norm_eq, ctScalar_eq, vjpQuot_of_ne hn, vjpNorm_of_ne hx]
  by_cases h : l * s ≤ ‖x‖
  · simp only [h, decide_true, if_true, mul_fin, Ext.add, scaledD_coord]
    congr 1; field_simp; ring
  · simp [h, mul_fin, Ext.add]

theorem lasso_outside {l s : ℝ} (hx : x ≠ 0) (h : l * s < ‖x‖) :
    HasFDerivAt (fun z : EuclideanSpace ℝ ι => proxGroupLasso z l s) (scaledD 1 (-(l * s)) x) x := by
  refine (scaled_hasFDerivAt 1 (-(l * s)) hx).congr_of_eventuallyEq ?_
  filter_upwards [(isOpen_lt continuous_const continuous_norm).mem_nhds h, isOpen_ne.mem_nhds hx] with z hz hz0
  rw [groupLasso_of_ne hz0, if_pos (le_of_lt hz), neg_div, ← sub_eq_add_neg]

theorem lasso_inside {l s : ℝ} (h : ‖x‖ < l * s) :
    HasFDerivAt (fun z : EuclideanSpace ℝ ι => proxGroupLasso z l s)
      (0 : EuclideanSpace ℝ ι →L[ℝ] EuclideanSpace ℝ ι) x := by
  refine (hasFDerivAt_const (0 : EuclideanSpace ℝ ι) x).congr_of_eventuallyEq ?_
  filter_upwards [(isOpen_lt continuous_norm continuous_const).mem_nhds h] with z hz
  by_cases hz0 : z = 0
  · simp [proxGroupLasso, hz0]
  · rw [groupLasso_of_ne hz0, if_neg (not_le.mpr hz), zero_smul]

theorem l2Norm_zero : l2Norm (0 : ι → ℝ) = 0 := by simp [l2Norm]

theorem ctScalar_zero (ct : ι → ℝ) : ctScalar 0 ct = 0 := by simp [ctScalar]

theorem vjpQuot_zero (l : ℝ) : vjpQuot l 0 (.fin 0) = .nan := by
  have h1 : Ext.quot 1 ((0 : ℝ) ^ 2) = .pinf := by simp [Ext.quot]
  have h2 : Ext.times (.fin 0) .pinf = .nan := by simp [Ext.times, Ext.smul]
  rw [vjpQuot, h1, h2]; rfl

theorem vjpNorm_nan (x : ι → ℝ) (i : ι) : vjpNorm x .nan i = .nan := rfl

theorem nan_add (a : Ext ℝ) : Ext.add .nan a = .nan := rfl

/-! ### Property theorems -/

/-- **C115, values.**  The values of the three operators are those of the models of C10 and C15: for the group lasso at every point when the penalty is not
negative, for the two projections at every non-zero point. -/
theorem C115_values (x : EuclideanSpace ℝ ι) (v l s : ℝ) :
    (0 ≤ l * s → ∀ i, GroupLasso.value x.ofLp l s i = .fin (proxGroupLasso x l s i)) ∧
    (x ≠ 0 → ∀ i, L2Sphere.value x.ofLp v i = .fin (projectionL2Sphere x v i)) ∧
    (0 ≤ v → ∀ i, L2Ball.value x.ofLp v i = .fin (projectionL2Ball x v i)) := by
  have hs : x ≠ 0 → ∀ i, L2Sphere.value x.ofLp v i = .fin (projectionL2Sphere x v i) := by
    intro hx i
    simp [L2Sphere.value, l2Norm_eq, quot_of_ne (norm_ne_zero_iff.mpr hx), mul_fin, projectionL2Sphere]
  refine ⟨fun h i => ?_, hs, fun hv i => ?_⟩
  · by_cases hx : x = 0
    · subst hx
      rcases h.lt_or_eq with h | h
      · simp [GroupLasso.value, GroupLasso.factor', GroupLasso.active, GroupLasso.factor, l2Norm, Ext.quot, h, Ext.sub, Ext.neg, Ext.add, Ext.le,
          mul_fin, proxGroupLasso]
      · simp [GroupLasso.value, GroupLasso.factor', GroupLasso.active, GroupLasso.factor, l2Norm, Ext.quot, ← h, Ext.sub, Ext.neg, Ext.add, Ext.le,
          mul_fin, proxGroupLasso]
    · rw [groupLasso_of_ne hx, GroupLasso.value, factor_of_ne hx, mul_fin]; rfl
  · simp only [L2Ball.value, l2Norm_eq, projectionL2Ball]
    by_cases h : ‖x‖ ≤ v
    · rw [if_pos h, if_pos h]
    · rw [if_neg h, if_neg h]
      exact hs (fun h0 => h (by rw [h0, norm_zero]; exact hv)) i

/-- **C115, sphere.**  Away from the origin both passes of `projection_l2_sphere` are the derivative. -/
theorem C115_sphere (x : EuclideanSpace ℝ ι) (v : ℝ) (hx : x ≠ 0) :
    ForwardCorrect (fun z => projectionL2Sphere z v) x (L2Sphere.jvp x.ofLp v) ∧
    ReverseCorrect (fun z => projectionL2Sphere z v) x (L2Sphere.vjp x.ofLp v) :=
  ⟨⟨_, sphere_hasFDerivAt hx v, sphere_jvp hx v⟩,
    ⟨_, sphere_hasFDerivAt hx v, fun ct => ⟨scaledD 0 v x ct, sphere_vjp hx v ct, scaledD_symm 0 v x ct⟩⟩⟩

/-- **C115, ball.**  Away from the origin and from the sphere both passes of `projection_l2_ball` are the derivative. -/
theorem C115_ball (x : EuclideanSpace ℝ ι) (v : ℝ) (hx : x ≠ 0) (hb : ‖x‖ ≠ v) :
    ForwardCorrect (fun z => projectionL2Ball z v) x (L2Ball.jvp x.ofLp v) ∧
    ReverseCorrect (fun z => projectionL2Ball z v) x (L2Ball.vjp x.ofLp v) := by
  rcases lt_or_gt_of_ne hb with h | h
  · refine ⟨⟨_, ball_inside h, fun t i => ?_⟩, ⟨_, ball_inside h, fun ct => ⟨ct, fun i => ?_, fun w => rfl⟩⟩⟩
    · rw [ball_jvp hx, if_pos h.le]; rfl
    · rw [ball_vjp hx, if_pos h.le]
  · refine ⟨⟨_, ball_outside hx h, fun t i => ?_⟩, ⟨_, ball_outside hx h, fun ct => ⟨scaledD 0 v x ct, fun i => ?_, scaledD_symm 0 v x ct⟩⟩⟩
    · rw [ball_jvp hx, if_neg (not_le.mpr h)]
    · rw [ball_vjp hx, if_neg (not_le.mpr h)]

/-- **C115, group lasso.**  Away from the origin and from the threshold both passes of `prox_group_lasso` are the derivative. -/
theorem C115_group_lasso (x : EuclideanSpace ℝ ι) (l s : ℝ) (hx : x ≠ 0) (hb : ‖x‖ ≠ l * s) :
    ForwardCorrect (fun z => proxGroupLasso z l s) x (GroupLasso.jvp x.ofLp l s) ∧
    ReverseCorrect (fun z => proxGroupLasso z l s) x (GroupLasso.vjp x.ofLp l s) := by
  rcases lt_or_gt_of_ne hb with h | h
  · refine ⟨⟨_, lasso_inside h, fun t i => ?_⟩, ⟨_, lasso_inside h, fun ct => ⟨0, fun i => ?_, fun w => by simp⟩⟩⟩
    · rw [lasso_jvp hx, if_neg (not_le.mpr h)]; rfl
    · rw [lasso_vjp hx, if_neg (not_le.mpr h)]; rfl
  · refine ⟨⟨_, lasso_outside hx h, fun t i => ?_⟩,
      ⟨_, lasso_outside hx h, fun ct => ⟨scaledD 1 (-(l * s)) x ct, fun i => ?_, scaledD_symm 1 (-(l * s)) x ct⟩⟩⟩
    · rw [lasso_jvp hx, if_pos h.le]
    · rw [lasso_vjp hx, if_pos h.le]

/-- **C115, group lasso, penalty.**  The derivative with respect to `l2reg`. -/
theorem C115_group_lasso_penalty (x : EuclideanSpace ℝ ι) (l s : ℝ) (hx : x ≠ 0) (hb : ‖x‖ ≠ l * s) :
    ∃ d : EuclideanSpace ℝ ι, HasDerivAt (fun r => proxGroupLasso x r s) d l ∧
      (∀ t i, GroupLasso.jvpReg x.ofLp l s t i = .fin (t * d i)) ∧
      ∀ ct : EuclideanSpace ℝ ι, GroupLasso.vjpReg x.ofLp l s ct.ofLp = .fin (inner ℝ ct d) := by
  have hn : ‖x‖ ≠ 0 := norm_ne_zero_iff.mpr hx
  have hc : Continuous fun r : ℝ => r * s := continuous_id.mul continuous_const
  rcases lt_or_gt_of_ne hb with h | h
  · refine ⟨0, ?_, fun t i => ?_, fun ct => ?_⟩
    · refine (hasDerivAt_const l (0 : EuclideanSpace ℝ ι)).congr_of_eventuallyEq ?_
      filter_upwards [(isOpen_lt continuous_const hc).mem_nhds h] with r hr
      rw [groupLasso_of_ne hx, if_neg (not_le.mpr hr), zero_smul]
    · simp [GroupLasso.jvpReg, active_of_ne hx, not_le.mpr h, mul_fin]
    · simp [GroupLasso.vjpReg, active_of_ne hx, not_le.mpr h, l2Norm_eq, quot_of_ne hn, mul_fin]
  · refine ⟨(-(s / ‖x‖)) • x, ?_, fun t i => ?_, fun ct => ?_⟩
    · have h1 : HasDerivAt (fun r : ℝ => 1 - r * s / ‖x‖) (-(s / ‖x‖)) l := by
        have h2 : HasDerivAt (fun r : ℝ => 1 - r * (s / ‖x‖)) (-(1 * (s / ‖x‖))) l := HasDerivAt.const_sub 1 ((hasDerivAt_id l).mul_const (s / ‖x‖))
        rw [one_mul] at h2
        simpa only [mul_div_assoc] using h2
      refine (h1.smul_const x).congr_of_eventuallyEq ?_
      filter_upwards [(isOpen_lt hc continuous_const).mem_nhds h] with r hr
      rw [groupLasso_of_ne hx, if_pos (le_of_lt hr)]
    · simp only [GroupLasso.jvpReg, active_of_ne hx, h.le, decide_true, if_true, l2Norm_eq, quot_of_ne hn, Ext.neg, mul_fin]
      simp; ring
    · simp only [GroupLasso.vjpReg, active_of_ne hx, h.le, decide_true, if_true, l2Norm_eq, quot_of_ne hn, mul_fin, ctScalar_eq,
        real_inner_smul_right, real_inner_comm x ct]
      congr 1; ring

/-- **C115, transposes.**  Away from the origin (on the kinks as well) the reverse passes are finite and are the transposes of the forward passes. -/
theorem C115_transpose (x t ct : EuclideanSpace ℝ ι) (v l s : ℝ) (hx : x ≠ 0) :
    (∃ a b : EuclideanSpace ℝ ι, (∀ i, L2Sphere.jvp x.ofLp v t.ofLp i = .fin (a i)) ∧ (∀ i, L2Sphere.vjp x.ofLp v ct.ofLp i = .fin (b i)) ∧
      inner ℝ b t = inner ℝ ct a) ∧
    (∃ a b : EuclideanSpace ℝ ι, (∀ i, L2Ball.jvp x.ofLp v t.ofLp i = .fin (a i)) ∧ (∀ i, L2Ball.vjp x.ofLp v ct.ofLp i = .fin (b i)) ∧
      inner ℝ b t = inner ℝ ct a) ∧
    (∃ a b : EuclideanSpace ℝ ι, (∀ i, GroupLasso.jvp x.ofLp l s t.ofLp i = .fin (a i)) ∧ (∀ i, GroupLasso.vjp x.ofLp l s ct.ofLp i = .fin (b i)) ∧
      inner ℝ b t = inner ℝ ct a) := by
  refine ⟨⟨_, _, sphere_jvp hx v t, sphere_vjp hx v ct, scaledD_symm 0 v x ct t⟩, ?_, ?_⟩
  · by_cases h : ‖x‖ ≤ v
    · exact ⟨t, ct, fun i => by rw [ball_jvp hx, if_pos h], fun i => by rw [ball_vjp hx, if_pos h], rfl⟩
    · exact ⟨scaledD 0 v x t, scaledD 0 v x ct, fun i => by rw [ball_jvp hx, if_neg h], fun i => by rw [ball_vjp hx, if_neg h],
        scaledD_symm 0 v x ct t⟩
  · by_cases h : l * s ≤ ‖x‖
    · exact ⟨scaledD 1 (-(l * s)) x t, scaledD 1 (-(l * s)) x ct, fun i => by rw [lasso_jvp hx, if_pos h],
        fun i => by rw [lasso_vjp hx, if_pos h], scaledD_symm 1 (-(l * s)) x ct t⟩
    · exact ⟨0, 0, fun i => by rw [lasso_jvp hx, if_neg h]; rfl, fun i => by rw [lasso_vjp hx, if_neg h]; rfl, by simp⟩

/-- **C115, forward passes at the origin.**  For a positive radius or penalty the forward passes of the ball and of the group lasso are still the derivative. -/
theorem C115_origin_forward (v l s : ℝ) (hv : 0 < v) (hl : 0 < l * s) :
    ForwardCorrect (fun z : EuclideanSpace ℝ ι => projectionL2Ball z v) 0 (L2Ball.jvp (0 : EuclideanSpace ℝ ι).ofLp v) ∧
    ForwardCorrect (fun z : EuclideanSpace ℝ ι => proxGroupLasso z l s) 0 (GroupLasso.jvp (0 : EuclideanSpace ℝ ι).ofLp l s) := by
  have h0 : ‖(0 : EuclideanSpace ℝ ι)‖ = 0 := norm_zero
  refine ⟨⟨_, ball_inside (by rw [h0]; exact hv), fun t i => ?_⟩, ⟨_, lasso_inside (by rw [h0]; exact hl), fun t i => ?_⟩⟩
  · simp only [L2Ball.jvp, l2Norm_eq, h0, hv.le, if_true]; rfl
  · simp [GroupLasso.jvp, GroupLasso.factor', GroupLasso.active, GroupLasso.factor, l2Norm_zero, Ext.quot, hl, Ext.sub, Ext.neg, Ext.add, Ext.le, mul_fin]

/-- **C115, reverse passes at the origin.**  The reverse passes of all three operators return NaN in every coordinate at the origin, for every cotangent
(the zero cotangent too), although the ball projection and the group lasso have a derivative there.  The derivative with respect to the penalty is NaN too. -/
theorem C115_origin_reverse (v l s : ℝ) (hv : 0 < v) (hl : 0 < l * s) (ct : ι → ℝ) :
    (∀ i, L2Sphere.vjp (0 : EuclideanSpace ℝ ι).ofLp v ct i = .nan) ∧
    (∀ i, L2Ball.vjp (0 : EuclideanSpace ℝ ι).ofLp v ct i = .nan) ∧
    (∀ i, GroupLasso.vjp (0 : EuclideanSpace ℝ ι).ofLp l s ct i = .nan) ∧
    GroupLasso.vjpReg (0 : EuclideanSpace ℝ ι).ofLp l s ct = .nan := by
  have h0 : ‖(0 : EuclideanSpace ℝ ι)‖ = 0 := norm_zero
  refine ⟨fun i => ?_, fun i => ?_, fun i => ?_, ?_⟩
  · simp [L2Sphere.vjp, ctScalar_zero, l2Norm_zero, vjpQuot_zero, vjpNorm_nan, nan_add]
  · simp [L2Ball.vjp, l2Norm_zero, hv.le, vjpQuot_zero, vjpNorm_nan, nan_add]
  · simp [GroupLasso.vjp, ctScalar_zero, l2Norm_zero, vjpQuot_zero, vjpNorm_nan, nan_add]
  · simp [GroupLasso.vjpReg, ctScalar_zero, l2Norm_zero, Ext.quot, Ext.times]

/-- **C115, reverse passes are wrong at the origin.** -/
theorem C115_reverse_false [Nonempty ι] :
    (¬ ∀ (x : EuclideanSpace ℝ ι) (v : ℝ), 0 < v → DifferentiableAt ℝ (fun z => projectionL2Ball z v) x →
      ReverseCorrect (fun z => projectionL2Ball z v) x (L2Ball.vjp x.ofLp v)) ∧
    (¬ ∀ (x : EuclideanSpace ℝ ι) (l s : ℝ), 0 < l * s → DifferentiableAt ℝ (fun z => proxGroupLasso z l s) x →
      ReverseCorrect (fun z => proxGroupLasso z l s) x (GroupLasso.vjp x.ofLp l s)) := by
  have h0 : ‖(0 : EuclideanSpace ℝ ι)‖ = 0 := norm_zero
  obtain ⟨i⟩ := ‹Nonempty ι›
  have key := C115_origin_reverse (ι := ι) 1 1 1 one_pos (by norm_num) 0
  constructor <;> intro h
  · obtain ⟨D, -, hD⟩ := h 0 1 one_pos (ball_inside (by rw [h0]; exact one_pos)).differentiableAt
    obtain ⟨w, hw, -⟩ := hD 0
    have := (key.2.1 i).symm.trans (hw i)
    simp at this
  · obtain ⟨D, -, hD⟩ := h 0 1 1 (by norm_num) (lasso_inside (by rw [h0]; norm_num)).differentiableAt
    obtain ⟨w, hw, -⟩ := hD 0
    have := (key.2.2.1 i).symm.trans (hw i)
    simp at this

/-- **C115, no penalty.**  With `l2reg = 0` the operator is the identity, and at the origin the forward pass returns zero instead of the tangent. -/
theorem C115_unpenalised_false (s : ℝ) :
    (∀ z : EuclideanSpace ℝ ι, proxGroupLasso z 0 s = z) ∧
    (∀ t i, GroupLasso.jvp (0 : EuclideanSpace ℝ ι).ofLp 0 s t i = .fin 0) ∧
    ∀ ct i, GroupLasso.vjp (0 : EuclideanSpace ℝ ι).ofLp 0 s ct i = .nan := by
  have h0 : ‖(0 : EuclideanSpace ℝ ι)‖ = 0 := norm_zero
  refine ⟨fun z => ?_, fun t i => ?_, fun ct i => ?_⟩
  · by_cases hz : z = 0
    · simp [proxGroupLasso, hz]
    · simp [proxGroupLasso, hz]
  · simp [GroupLasso.jvp, GroupLasso.factor', GroupLasso.active, GroupLasso.factor, l2Norm_zero, Ext.quot, Ext.sub, Ext.neg, Ext.add, Ext.le, mul_fin]
  · simp [GroupLasso.vjp, ctScalar_zero, l2Norm_zero, vjpQuot_zero, vjpNorm_nan, nan_add]

end

/-! ### Examples -/

/-- A point outside the unit ball: the reverse pass of the ball projection sends `(1, 0)` to the tangential part of it, divided by the norm. -/
example : ∀ i, L2Ball.vjp (!₂[(3 : ℝ), 4]).ofLp 1 (!₂[(1 : ℝ), 0]).ofLp i = .fin (!₂[(16 / 125 : ℝ), -12 / 125] i) := by
  have hn : ‖(!₂[(3 : ℝ), 4] : EuclideanSpace ℝ (Fin 2))‖ = 5 := by
    rw [EuclideanSpace.norm_eq, show (∑ i, ‖(!₂[(3 : ℝ), 4] : EuclideanSpace ℝ (Fin 2)) i‖ ^ 2) = 5 ^ 2 by simp [Fin.sum_univ_two]; norm_num]
    exact Real.sqrt_sq (by norm_num)
  have hx : (!₂[(3 : ℝ), 4] : EuclideanSpace ℝ (Fin 2)) ≠ 0 := norm_ne_zero_iff.mp (by rw [hn]; norm_num)
  intro i
  rw [ball_vjp hx, hn, if_neg (by norm_num), scaledD_coord, hn, inner_eq]
  congr 1
  fin_cases i <;> simp [Fin.sum_univ_two] <;> norm_num

/-- A single group of two zero coefficients: the value and the forward derivative are finite, the reverse derivative is NaN. -/
example : (∀ i, GroupLasso.value (0 : EuclideanSpace ℝ (Fin 2)).ofLp 1 1 i = .fin 0) ∧
    ∀ i, GroupLasso.vjp (0 : EuclideanSpace ℝ (Fin 2)).ofLp 1 1 (fun _ => 1) i = .nan :=
  ⟨fun i => by rw [(C115_values 0 1 1 1).1 (by norm_num)]; simp [proxGroupLasso], (C115_origin_reverse 1 1 1 one_pos (by norm_num) _).2.2.1⟩

end Jaxopt.Reverse
