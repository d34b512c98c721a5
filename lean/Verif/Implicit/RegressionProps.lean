import Verif.Implicit.RegressionRoot
import Verif.Implicit.ProxProps

/-!
# Property C128: implicit derivatives of lasso regression and of box-constrained quadratic programs
-/

set_option autoImplicit false
set_option linter.unusedSectionVars false
set_option linter.unusedVariables false

namespace Jaxopt.Implicit

open Jaxopt.ProxGrad Jaxopt.BlockCD Jaxopt.QP Jaxopt.Prox Jaxopt.Proj ContinuousLinearMap Filter Topology

variable {ι : Type*} [Fintype ι] [DecidableEq ι]
variable {P : ι → Type*} [∀ i, NormedAddCommGroup (P i)] [∀ i, InnerProductSpace ℝ (P i)] [∀ i, CompleteSpace (P i)]
variable {m n : ℕ}

theorem convexOn_of_gradIneq {f : (Fin n → ℝ) → ℝ} {grad : (Fin n → ℝ) → Fin n → ℝ} (h : GradIneq dot f grad) : ConvexOn ℝ Set.univ f := by
  refine ⟨convex_univ, fun x _ y _ a b ha hb hab => ?_⟩
  have h1 := mul_le_mul_of_nonneg_left (h (a • x + b • y) x) ha
  have h2 := mul_le_mul_of_nonneg_left (h (a • x + b • y) y) hb
  have e : a * dot (x - (a • x + b • y)) (grad (a • x + b • y)) + b * dot (y - (a • x + b • y)) (grad (a • x + b • y)) = 0 := by
    simp only [dot, Finset.mul_sum, ← Finset.sum_add_distrib]
    refine Finset.sum_eq_zero fun i _ => ?_
    simp only [Pi.sub_apply, Pi.add_apply, Pi.smul_apply, smul_eq_mul]
    obtain rfl : b = 1 - a := by linarith
    ring
  simp only [smul_eq_mul]
  have e2 : (a + b) * f (a • x + b • y) = f (a • x + b • y) := by rw [hab, one_mul]
  linarith

/-- Options that no optimality function reads. -/
noncomputable def anyPG : PG ℝ (Fin n → ℝ) :=
  ⟨fun _ => 0, fun x => x, fun x _ => x, dot, fun x => Real.sqrt (dot x x), Real.sqrt, 0, .const 1, 99, 15, 1 / 1000, false, 1 / 2, true, true⟩

/-! ## Least squares -/

section leastSquares
variable {X : (∀ i, P i) → Matrix (Fin m) (Fin n) ℝ} {y : (∀ i, P i) → Fin m → ℝ}

theorem lsFamily_grad (x : Fin n → ℝ) (θ : ∀ i, P i) (j : Fin n) :
    (lsFamily X y).grad x θ j = ∑ i, X θ i j * (1 / (m : ℝ) * (∑ k, X θ i k * x k - y θ i)) := by
  simp [lsFamily, Composite.gradAt, rmatvecElement, leastSquares, matvec]

theorem lsFamily_line (x d : Fin n → ℝ) (θ : ∀ i, P i) (t : ℝ) :
    (lsFamily X y).f (x + t • d) θ = (lsFamily X y).f x θ + t * ∑ j, d j * (lsFamily X y).grad x θ j +
      t ^ 2 * (1 / (2 * (m : ℝ)) * ∑ i, (∑ k, X θ i k * d k) ^ 2) := by
  have e1 : ∀ w, (lsFamily X y).f w θ = 1 / 2 * ((∑ i, (∑ k, X θ i k * w k - y θ i) ^ 2) / (m : ℝ)) := by
    intro w
    simp [lsFamily, Composite.call, leastSquares, matvec, sq]
  have e2 : ∑ j, d j * (lsFamily X y).grad x θ j = 1 / (m : ℝ) * ∑ i, (∑ k, X θ i k * d k) * (∑ k, X θ i k * x k - y θ i) := by
    simp only [lsFamily_grad]
    rw [sum_swap (fun i j => X θ i j) d, Finset.mul_sum]
    exact Finset.sum_congr rfl fun i _ => by ring
  rw [e1, e1, e2]
  have e3 : ∑ i, (∑ k, X θ i k * (x + t • d) k - y θ i) ^ 2 = ∑ i, (∑ k, X θ i k * x k - y θ i) ^ 2 +
      2 * t * ∑ i, (∑ k, X θ i k * d k) * (∑ k, X θ i k * x k - y θ i) + t ^ 2 * ∑ i, (∑ k, X θ i k * d k) ^ 2 := by
    rw [Finset.mul_sum, Finset.mul_sum, ← Finset.sum_add_distrib, ← Finset.sum_add_distrib]
    refine Finset.sum_congr rfl fun i _ => ?_
    rw [sum_line]
    ring
  rw [e3]
  rcases eq_or_ne (m : ℝ) 0 with h | h
  · rw [h]; simp
  · field_simp

theorem lsFamily_convexNear (θ0 : ∀ i, P i) : (lsFamily X y).ConvexNear θ0 := by
  refine Eventually.of_forall fun θ => ⟨fun x d => ?_, convexOn_of_gradIneq (grad := fun x => (lsFamily X y).grad x θ) fun x w => ?_⟩
  · simp only [lsFamily_line]
    have h1 : HasDerivAt (fun t : ℝ => t ^ 2) 0 0 := by simpa using hasDerivAt_pow 2 (0 : ℝ)
    have h2 := (hasDerivAt_affine ((lsFamily X y).f x θ) (∑ j, d j * (lsFamily X y).grad x θ j)).add
      (h1.mul_const (1 / (2 * (m : ℝ)) * ∑ i, (∑ k, X θ i k * d k) ^ 2))
    exact h2.congr_deriv (by ring)
  · have h1 := lsFamily_line (X := X) (y := y) x (w - x) θ 1
    simp only [one_smul, add_sub_cancel, one_mul, one_pow] at h1
    have h2 : 0 ≤ 1 / (2 * (m : ℝ)) * ∑ i, (∑ k, X θ i k * (w - x) k) ^ 2 := by positivity
    simp only [dot]
    linarith

theorem lsFamily_c2 {θ0 : ∀ i, P i} (hX : ∀ i j, ContDiffAt ℝ 1 (fun θ => X θ i j) θ0) (hy : ∀ i, ContDiffAt ℝ 1 (fun θ => y θ i) θ0)
    (x0 : Fin n → ℝ) : (lsFamily X y).C2At x0 θ0 (Matrix.of fun j k => 1 / (m : ℝ) * ∑ i, X θ0 i j * X θ0 i k) := by
  refine ⟨?_, fun j d => ?_⟩
  · rw [contDiffAt_pi]
    intro j
    simp only [lsFamily_grad]
    have hXc : ∀ i j, ContDiffAt ℝ 1 (fun v : (∀ i, P i) × (Fin n → ℝ) => X v.1 i j) (θ0, x0) := fun i j =>
      ContDiffAt.comp (g := fun θ => X θ i j) (θ0, x0) (hX i j) contDiffAt_fst
    have hyc : ∀ i, ContDiffAt ℝ 1 (fun v : (∀ i, P i) × (Fin n → ℝ) => y v.1 i) (θ0, x0) := fun i =>
      ContDiffAt.comp (g := fun θ => y θ i) (θ0, x0) (hy i) contDiffAt_fst
    have hxc : ∀ k, ContDiffAt ℝ 1 (fun v : (∀ i, P i) × (Fin n → ℝ) => v.2 k) (θ0, x0) := fun k =>
      contDiffAt_pi.mp contDiffAt_snd k
    exact ContDiffAt.sum fun i _ => (hXc i j).mul (contDiffAt_const.mul ((ContDiffAt.sum fun k _ => (hXc i k).mul (hxc k)).sub (hyc i)))
  · simp only [lsFamily_grad, sum_line]
    have e : ∀ t : ℝ, ∑ i, X θ0 i j * (1 / (m : ℝ) * (∑ k, X θ0 i k * x0 k + t * ∑ k, X θ0 i k * d k - y θ0 i)) =
        ∑ i, X θ0 i j * (1 / (m : ℝ) * (∑ k, X θ0 i k * x0 k - y θ0 i)) + t * ∑ k, (1 / (m : ℝ) * ∑ i, X θ0 i j * X θ0 i k) * d k := by
      intro t
      have e1 : ∑ k, (1 / (m : ℝ) * ∑ i, X θ0 i j * X θ0 i k) * d k = ∑ i, X θ0 i j * (1 / (m : ℝ) * ∑ k, X θ0 i k * d k) := by
        simp only [Finset.mul_sum, Finset.sum_mul]
        rw [Finset.sum_comm]
        exact Finset.sum_congr rfl fun i _ => Finset.sum_congr rfl fun k _ => by ring
      rw [e1, Finset.mul_sum, ← Finset.sum_add_distrib]
      exact Finset.sum_congr rfl fun i _ => by ring
    simp only [e]
    exact hasDerivAt_affine _ _

theorem ls_curv (M : Matrix (Fin m) (Fin n) ℝ) (d : Fin n → ℝ) :
    ∑ j, d j * ∑ k, (Matrix.of fun j k => 1 / (m : ℝ) * ∑ i, M i j * M i k) j k * d k = 1 / (m : ℝ) * ∑ i, (∑ k, M i k * d k) ^ 2 := by
  have e1 : ∀ j, ∑ k, (Matrix.of fun j k => 1 / (m : ℝ) * ∑ i, M i j * M i k) j k * d k = ∑ i, M i j * (1 / (m : ℝ) * ∑ k, M i k * d k) := by
    intro j
    simp only [Matrix.of_apply, Finset.mul_sum, Finset.sum_mul]
    rw [Finset.sum_comm]
    exact Finset.sum_congr rfl fun i _ => Finset.sum_congr rfl fun k _ => by ring
  simp only [e1]
  rw [sum_swap (fun i j => M i j) d, Finset.mul_sum]
  exact Finset.sum_congr rfl fun i _ => by ring

theorem ls_curv_pos (M : Matrix (Fin m) (Fin n) ℝ) (d : Fin n → ℝ) (h : ∃ i, ∑ k, M i k * d k ≠ 0) :
    0 < ∑ j, d j * ∑ k, (Matrix.of fun j k => 1 / (m : ℝ) * ∑ i, M i j * M i k) j k * d k := by
  rw [ls_curv]
  obtain ⟨i, hi⟩ := h
  have hm : (0 : ℝ) < m := by exact_mod_cast i.pos
  refine mul_pos (by positivity) (lt_of_lt_of_le (by positivity : 0 < (∑ k, M i k * d k) ^ 2) ?_)
  exact Finset.single_le_sum (f := fun i => (∑ k, M i k * d k) ^ 2) (fun i _ => sq_nonneg _) (Finset.mem_univ i)

/-- The residual correlations of lasso regression. -/
noncomputable def correlation (X : Matrix (Fin m) (Fin n) ℝ) (y : Fin m → ℝ) (w : Fin n → ℝ) (j : Fin n) : ℝ :=
  1 / (m : ℝ) * ∑ i, X i j * (∑ k, X i k * w k - y i)

theorem lsFamily_grad_eq (x : Fin n → ℝ) (θ : ∀ i, P i) (j : Fin n) : (lsFamily X y).grad x θ j = correlation (X θ) (y θ) x j := by
  rw [lsFamily_grad, correlation, Finset.mul_sum]
  exact Finset.sum_congr rfl fun i _ => by ring

theorem lsFamily_f (hm : 1 ≤ m) (x : Fin n → ℝ) (θ : ∀ i, P i) : (lsFamily X y).f x θ = halfMeanSq (X θ) (y θ) x :=
  leastSquares_value hm (X θ) (y θ) x

/-- **C128, lasso regression with `ProximalGradient`**: the data matrix, the targets and the weights depend on parameters.  If the columns of the support are
independent and the residual correlations are strictly below the weights elsewhere, the lasso solution is unique and differentiable near `θ0`, keeps its support and signs,
and the implicit derivatives are its derivatives. -/
theorem C128_lasso (hm : 1 ≤ m) {l : (∀ i, P i) → Fin n → ℝ} {o : PG ℝ (Fin n → ℝ)} {x0 : Fin n → ℝ} {θ0 : ∀ i, P i} (hX : ∀ i j, ContDiffAt ℝ 1 (fun θ => X θ i j) θ0)
    (hy : ∀ i, ContDiffAt ℝ 1 (fun θ => y θ i) θ0) (hl : ∀ j, ContDiffAt ℝ 1 (fun θ => l θ j) θ0) (hnn : ∀ᶠ θ in 𝓝 θ0, ∀ j, 0 ≤ l θ j)
    (hmin : ∀ w, halfMeanSq (X θ0) (y θ0) x0 + ∑ j, l θ0 j * |x0 j| ≤ halfMeanSq (X θ0) (y θ0) w + ∑ j, l θ0 j * |w j|)
    (hstrict : ∀ j, x0 j = 0 → |correlation (X θ0) (y θ0) x0 j| < l θ0 j)
    (hindep : ∀ d : Fin n → ℝ, (∀ j, x0 j = 0 → d j = 0) → (∀ i, ∑ k, X θ0 i k * d k = 0) → d = 0) :
    Differentiates ((lsFamily X y).proxRoot (lassoProx l) o) (fun _ => Set.univ) (fun θ w => halfMeanSq (X θ) (y θ) w + ∑ j, l θ j * |w j|) x0 θ0
      fun _ w => SameSigns w x0 := by
  have h := C127_lasso (o := o) (lsFamily_convexNear (X := X) (y := y) θ0) (lsFamily_c2 hX hy x0) hl hnn
    ⟨trivial, fun w _ => by simpa only [lsFamily_f hm] using hmin w⟩ (fun j hj => by rw [lsFamily_grad_eq]; exact hstrict j hj)
    (fun d hd0 hd => ls_curv_pos _ d (by
      by_contra hc
      push Not at hc
      exact hd0 (hindep d hd hc)))
  simpa only [lsFamily_f hm] using h

theorem blockCDRoot_eq (o : BCD ℝ ℝ m n) (o' : PG ℝ (Fin n → ℝ)) (l : (∀ i, P i) → ℝ) :
    blockCDRoot (lassoBCD o X y l) = (lsFamily X y).proxRoot (lassoProx fun θ _ => l θ) o' := by
  funext s θ
  ext j
  rw [proxRoot_apply]
  show lassoBlockProx (l θ) (s j - (lassoBCD o X y l θ).gradFun s.ofLp j) 1 - s j = _
  have e : (lassoBCD o X y l θ).gradFun s.ofLp j = (lsFamily X y).grad s.ofLp θ j := by
    simp [BCD.gradFun, lassoBCD, leastSquares, lsFamily, Composite.gradAt]
  rw [e]
  rfl

/-- **C128, lasso regression with `BlockCoordinateDescent`**. -/
theorem C128_block_cd (hm : 1 ≤ m) {l : (∀ i, P i) → ℝ} {o : BCD ℝ ℝ m n} {x0 : Fin n → ℝ} {θ0 : ∀ i, P i} (hX : ∀ i j, ContDiffAt ℝ 1 (fun θ => X θ i j) θ0)
    (hy : ∀ i, ContDiffAt ℝ 1 (fun θ => y θ i) θ0) (hl : ContDiffAt ℝ 1 l θ0) (hnn : ∀ᶠ θ in 𝓝 θ0, 0 ≤ l θ)
    (hmin : ∀ w, halfMeanSq (X θ0) (y θ0) x0 + l θ0 * ∑ j, |x0 j| ≤ halfMeanSq (X θ0) (y θ0) w + l θ0 * ∑ j, |w j|)
    (hstrict : ∀ j, x0 j = 0 → |correlation (X θ0) (y θ0) x0 j| < l θ0)
    (hindep : ∀ d : Fin n → ℝ, (∀ j, x0 j = 0 → d j = 0) → (∀ i, ∑ k, X θ0 i k * d k = 0) → d = 0) :
    Differentiates (blockCDRoot (lassoBCD o X y l)) (fun _ => Set.univ) (fun θ w => halfMeanSq (X θ) (y θ) w + l θ * ∑ j, |w j|) x0 θ0
      fun _ w => SameSigns w x0 := by
  rw [blockCDRoot_eq o anyPG l]
  have h := C128_lasso (o := anyPG) hm (l := fun θ _ => l θ) hX hy (fun _ => hl) (hnn.mono fun θ h _ => h)
    (by simpa only [← Finset.mul_sum] using hmin) hstrict hindep
  simpa only [← Finset.mul_sum] using h

end leastSquares

/-! ## Logistic regression -/

theorem hasDerivAt_of_quadUpper {f : (Fin n → ℝ) → ℝ} {grad : (Fin n → ℝ) → Fin n → ℝ} {L : ℝ} (h1 : QuadUpper dot f grad L) (h2 : GradIneq dot f grad)
    (x d : Fin n → ℝ) : HasDerivAt (fun t : ℝ => f (x + t • d)) (∑ i, d i * grad x i) 0 := by
  have e : ∀ t : ℝ, dot (x + t • d - x) (grad x) = t * ∑ i, d i * grad x i := fun t => by
    simp only [dot, add_sub_cancel_left, Pi.smul_apply, smul_eq_mul, Finset.mul_sum, mul_assoc]
  have e2 : ∀ t : ℝ, dot (x + t • d - x) (x + t • d - x) = t ^ 2 * dot d d := fun t => by
    simp only [dot, add_sub_cancel_left, Pi.smul_apply, smul_eq_mul, Finset.mul_sum]
    exact Finset.sum_congr rfl fun i _ => by ring
  rw [hasDerivAt_iff_isLittleO_nhds_zero]
  have hO : (fun t : ℝ => f (x + (0 + t) • d) - f (x + (0 : ℝ) • d) - t • ∑ i, d i * grad x i) =O[𝓝 0] fun t : ℝ => t ^ 2 := by
    refine Asymptotics.IsBigO.of_bound (|L / 2 * dot d d|) (Eventually.of_forall fun t => ?_)
    have h3 := h1 x (x + t • d)
    have h4 := h2 x (x + t • d)
    rw [e] at h3 h4
    rw [e2] at h3
    simp only [zero_add, zero_smul, add_zero, smul_eq_mul, Real.norm_eq_abs]
    rw [← abs_mul]
    rw [abs_of_nonneg (by linarith)]
    refine le_trans ?_ (le_abs_self _)
    linarith
  refine hO.trans_isLittleO ?_
  simpa using (Asymptotics.isLittleO_pow_id one_lt_two : (fun t : ℝ => t ^ 2) =o[𝓝 0] fun t => t)

/-- The slope of the logistic curve. -/
noncomputable def expitSlope (p : ℝ) : ℝ := expit p * (1 - expit p)

theorem expitSlope_pos (p : ℝ) : 0 < expitSlope p := by
  have h := Real.exp_pos (-p)
  have e : expitSlope p = Real.exp (-p) / (1 + Real.exp (-p)) ^ 2 := by
    simp only [expitSlope, expit]
    field_simp
    ring
  rw [e]
  positivity

theorem hasDerivAt_expit (p : ℝ) : HasDerivAt expit (expitSlope p) p := by
  have h0 : (1 + Real.exp (-p)) ≠ 0 := by positivity
  have h1 : HasDerivAt (fun p : ℝ => 1 + Real.exp (-p)) (-Real.exp (-p)) p := by
    have := ((Real.hasDerivAt_exp (-p)).comp p (hasDerivAt_neg' p)).const_add 1
    refine this.congr_deriv ?_
    ring
  have h2 := h1.inv h0
  have e : expit = fun p => (1 + Real.exp (-p))⁻¹ := by funext q; simp [expit]
  rw [e]
  refine h2.congr_deriv ?_
  simp only [expitSlope, expit]
  field_simp
  ring

theorem contDiff_expit : ContDiff ℝ 1 expit := by
  have e : expit = fun p => (1 + Real.exp (-p))⁻¹ := by funext q; simp [expit]
  rw [e]
  exact (contDiff_const.add (Real.contDiff_exp.comp contDiff_neg)).inv fun p => (add_pos one_pos (Real.exp_pos (-p))).ne'

theorem expit_neg (p : ℝ) : -expit (-p) = expit p - 1 := by
  simp only [expit, neg_neg, Real.exp_neg]
  have := Real.exp_pos p
  field_simp
  ring

section logreg
variable {X : (∀ i, P i) → Matrix (Fin m) (Fin n) ℝ} {y : Fin m → Bool}

/-- The gradient of the logistic loss. -/
noncomputable def logisticGrad (X : Matrix (Fin m) (Fin n) ℝ) (y : Fin m → Bool) (w : Fin n → ℝ) (j : Fin n) : ℝ :=
  1 / (m : ℝ) * ∑ i, X i j * (expit (∑ k, X i k * w k) - if y i then 1 else 0)

theorem logregFamily_grad (x : Fin n → ℝ) (θ : ∀ i, P i) (j : Fin n) : (logregFamily X y).grad x θ j = logisticGrad (X θ) y x j := by
  simp only [logregFamily, Composite.gradAt, rmatvecElement, binaryLogreg, matvec, smul_eq_mul, Option.getD_none, Pi.zero_apply, add_zero, logisticGrad, Finset.mul_sum]
  refine Finset.sum_congr rfl fun i _ => ?_
  cases y i
  · simp only [Bool.false_eq_true, if_false]; ring
  · simp only [if_true, expit_neg]; ring

theorem logregFamily_convexNear (θ0 : ∀ i, P i) : (logregFamily X y).ConvexNear θ0 := by
  refine Eventually.of_forall fun θ => ?_
  obtain ⟨q1, q2⟩ := smooth_of_sandwich (by positivity) (binaryLogreg_sandwich (X θ) y)
  exact ⟨fun x d => hasDerivAt_of_quadUpper q1 q2 x d, convexOn_of_gradIneq q2⟩

/-- The Hessian of the logistic loss. -/
noncomputable def logisticHess (X : Matrix (Fin m) (Fin n) ℝ) (w : Fin n → ℝ) : Matrix (Fin n) (Fin n) ℝ :=
  Matrix.of fun j k => 1 / (m : ℝ) * ∑ i, X i j * (expitSlope (∑ k, X i k * w k) * X i k)

theorem logregFamily_c2 {θ0 : ∀ i, P i} (hX : ∀ i j, ContDiffAt ℝ 1 (fun θ => X θ i j) θ0) (x0 : Fin n → ℝ) :
    (logregFamily X y).C2At x0 θ0 (logisticHess (X θ0) x0) := by
  refine ⟨?_, fun j d => ?_⟩
  · rw [contDiffAt_pi]
    intro j
    simp only [logregFamily_grad, logisticGrad]
    have hXc : ∀ i j, ContDiffAt ℝ 1 (fun v : (∀ i, P i) × (Fin n → ℝ) => X v.1 i j) (θ0, x0) := fun i j =>
      ContDiffAt.comp (g := fun θ => X θ i j) (θ0, x0) (hX i j) contDiffAt_fst
    have hxc : ∀ k, ContDiffAt ℝ 1 (fun v : (∀ i, P i) × (Fin n → ℝ) => v.2 k) (θ0, x0) := fun k =>
      contDiffAt_pi.mp contDiffAt_snd k
    have hp : ∀ i, ContDiffAt ℝ 1 (fun v : (∀ i, P i) × (Fin n → ℝ) => ∑ k, X v.1 i k * v.2 k) (θ0, x0) := fun i =>
      ContDiffAt.sum fun k _ => (hXc i k).mul (hxc k)
    exact contDiffAt_const.mul (ContDiffAt.sum fun i _ => (hXc i j).mul
      ((ContDiffAt.comp (g := expit) (θ0, x0) contDiff_expit.contDiffAt (hp i)).sub contDiffAt_const))
  · simp only [logregFamily_grad, logisticGrad, sum_line]
    have h1 : ∀ i, HasDerivAt (fun t : ℝ => X θ0 i j * (expit (∑ k, X θ0 i k * x0 k + t * ∑ k, X θ0 i k * d k) - if y i then 1 else 0))
        (X θ0 i j * (expitSlope (∑ k, X θ0 i k * x0 k) * ∑ k, X θ0 i k * d k)) 0 := by
      intro i
      have h2 : HasDerivAt expit (expitSlope (∑ k, X θ0 i k * x0 k)) (∑ k, X θ0 i k * x0 k + 0 * ∑ k, X θ0 i k * d k) := by
        rw [zero_mul, add_zero]; exact hasDerivAt_expit _
      exact ((h2.comp (0 : ℝ) (hasDerivAt_affine _ _)).sub_const _).const_mul (X θ0 i j)
    have h3 := (HasDerivAt.fun_sum (u := Finset.univ) fun i _ => h1 i).const_mul (1 / (m : ℝ))
    refine h3.congr_deriv ?_
    simp only [logisticHess, Matrix.of_apply, Finset.mul_sum, Finset.sum_mul]
    rw [Finset.sum_comm]
    exact Finset.sum_congr rfl fun k _ => Finset.sum_congr rfl fun i _ => by ring

theorem logistic_curv_pos (M : Matrix (Fin m) (Fin n) ℝ) (w d : Fin n → ℝ) (h : ∃ i, ∑ k, M i k * d k ≠ 0) :
    0 < ∑ j, d j * ∑ k, logisticHess M w j k * d k := by
  have e1 : ∀ j, ∑ k, logisticHess M w j k * d k = ∑ i, M i j * (1 / (m : ℝ) * (expitSlope (∑ k, M i k * w k) * ∑ k, M i k * d k)) := by
    intro j
    simp only [logisticHess, Matrix.of_apply, Finset.mul_sum, Finset.sum_mul]
    rw [Finset.sum_comm]
    exact Finset.sum_congr rfl fun i _ => Finset.sum_congr rfl fun k _ => by ring
  simp only [e1]
  rw [sum_swap (fun i j => M i j) d]
  obtain ⟨i, hi⟩ := h
  have hm : (0 : ℝ) < m := by exact_mod_cast i.pos
  have e2 : ∀ i, (∑ k, M i k * d k) * (1 / (m : ℝ) * (expitSlope (∑ k, M i k * w k) * ∑ k, M i k * d k)) =
      1 / (m : ℝ) * expitSlope (∑ k, M i k * w k) * (∑ k, M i k * d k) ^ 2 := fun i => by ring
  simp only [e2]
  refine Finset.sum_pos' (fun i _ => ?_) ⟨i, Finset.mem_univ i, ?_⟩
  · have := expitSlope_pos (∑ k, M i k * w k)
    positivity
  · have := expitSlope_pos (∑ k, M i k * w k)
    positivity

/-- **C128, sparse logistic regression with `ProximalGradient`**: the data matrix and the weights depend on parameters. -/
theorem C128_logreg (hm : 1 ≤ m) {l : (∀ i, P i) → Fin n → ℝ} {o : PG ℝ (Fin n → ℝ)} {x0 : Fin n → ℝ} {θ0 : ∀ i, P i} (hX : ∀ i j, ContDiffAt ℝ 1 (fun θ => X θ i j) θ0)
    (hl : ∀ j, ContDiffAt ℝ 1 (fun θ => l θ j) θ0) (hnn : ∀ᶠ θ in 𝓝 θ0, ∀ j, 0 ≤ l θ j)
    (hmin : ∀ w, logisticLoss (X θ0) y x0 + ∑ j, l θ0 j * |x0 j| ≤ logisticLoss (X θ0) y w + ∑ j, l θ0 j * |w j|)
    (hstrict : ∀ j, x0 j = 0 → |logisticGrad (X θ0) y x0 j| < l θ0 j)
    (hindep : ∀ d : Fin n → ℝ, (∀ j, x0 j = 0 → d j = 0) → (∀ i, ∑ k, X θ0 i k * d k = 0) → d = 0) :
    Differentiates ((logregFamily X y).proxRoot (lassoProx l) o) (fun _ => Set.univ) (fun θ w => logisticLoss (X θ) y w + ∑ j, l θ j * |w j|) x0 θ0
      fun _ w => SameSigns w x0 := by
  have hf : ∀ (x : Fin n → ℝ) (θ : ∀ i, P i), (logregFamily X y).f x θ = logisticLoss (X θ) y x := fun x θ => C67_binary_value hm (X θ) y x
  have h := C127_lasso (o := o) (logregFamily_convexNear (X := X) (y := y) θ0) (logregFamily_c2 hX x0) hl hnn
    ⟨trivial, fun w _ => by simpa only [hf] using hmin w⟩ (fun j hj => by rw [logregFamily_grad]; exact hstrict j hj)
    (fun d hd0 hd => logistic_curv_pos _ _ d (by
      by_contra hc
      push Not at hc
      exact hd0 (hindep d hd hc)))
  simpa only [hf] using h

end logreg

/-! ## Quadratic programs with bounds -/

section boxCD
variable {Q : (∀ i, P i) → Matrix (Fin n) (Fin n) ℝ} {c l u : (∀ i, P i) → Fin n → ℝ} {x0 : Fin n → ℝ} {θ0 : ∀ i, P i}

/-- The objective of `BoxCDQP`. -/
noncomputable def quadObj (Q : Matrix (Fin n) (Fin n) ℝ) (c x : Fin n → ℝ) : ℝ := 1 / 2 * ∑ j, x j * ∑ k, Q j k * x k + ∑ j, c j * x j

/-- The quadratic objective with the gradient `Qx + c` used by `BoxCDQP`. -/
noncomputable def quadFamily (Q : (∀ i, P i) → Matrix (Fin n) (Fin n) ℝ) (c : (∀ i, P i) → Fin n → ℝ) : SmoothFamily n (∀ i, P i) :=
  ⟨fun x θ => quadObj (Q θ) (c θ) x, fun x θ => (Q θ).mulVec x + c θ⟩

theorem quadFamily_grad (x : Fin n → ℝ) (θ : ∀ i, P i) (j : Fin n) : (quadFamily Q c).grad x θ j = ∑ k, Q θ j k * x k + c θ j := rfl

theorem quadObj_add (Q : Matrix (Fin n) (Fin n) ℝ) (c : Fin n → ℝ) (hs : ∀ j k, Q j k = Q k j) (x d : Fin n → ℝ) :
    quadObj Q c (x + d) = quadObj Q c x + ∑ j, d j * (∑ k, Q j k * x k + c j) + 1 / 2 * ∑ j, d j * ∑ k, Q j k * d k := by
  have h := obj_sub (n := Fin n) (m := Empty) (k := Empty) (Θ := Unit) ⟨fun _ => Q, fun _ => c, fun _ => 0, fun _ => 0, fun _ => 0, fun _ => 0⟩ () x d
  simp only [QPFamily.obj, nlp_grad] at h
  have e : ∀ j, ∑ k, 1 / 2 * (Q j k + Q k j) * x k = ∑ k, Q j k * x k := fun j => Finset.sum_congr rfl fun k _ => by rw [← hs j k]; ring
  simp only [e] at h
  exact h

theorem quadFamily_convexNear (hs : ∀ᶠ θ in 𝓝 θ0, ∀ j k, Q θ j k = Q θ k j)
    (hpsd : ∀ᶠ θ in 𝓝 θ0, ∀ d : Fin n → ℝ, 0 ≤ ∑ j, d j * ∑ k, Q θ j k * d k) : (quadFamily Q c).ConvexNear θ0 := by
  filter_upwards [hs, hpsd] with θ h1 h2
  refine ⟨fun x d => ?_, convexOn_of_gradIneq (grad := fun x => (quadFamily Q c).grad x θ) fun x w => ?_⟩
  · have e : ∀ t : ℝ, (quadFamily Q c).f (x + t • d) θ = (quadFamily Q c).f x θ + t * ∑ j, d j * (quadFamily Q c).grad x θ j +
        t ^ 2 * (1 / 2 * ∑ j, d j * ∑ k, Q θ j k * d k) := by
      intro t
      show quadObj (Q θ) (c θ) (x + t • d) = quadObj (Q θ) (c θ) x + _ + _
      rw [quadObj_add _ _ h1]
      have e1 : ∑ j, (t • d) j * (∑ k, Q θ j k * x k + c θ j) = t * ∑ j, d j * (quadFamily Q c).grad x θ j := by
        rw [Finset.mul_sum]
        exact Finset.sum_congr rfl fun j _ => by rw [quadFamily_grad]; simp only [Pi.smul_apply, smul_eq_mul]; ring
      have e2 : ∑ j, (t • d) j * ∑ k, Q θ j k * (t • d) k = t ^ 2 * ∑ j, d j * ∑ k, Q θ j k * d k := by
        rw [Finset.mul_sum]
        refine Finset.sum_congr rfl fun j _ => ?_
        simp only [Pi.smul_apply, smul_eq_mul, Finset.mul_sum]
        exact Finset.sum_congr rfl fun k _ => by ring
      rw [e1, e2]
      ring
    simp only [e]
    have h3 : HasDerivAt (fun t : ℝ => t ^ 2) 0 0 := by simpa using hasDerivAt_pow 2 (0 : ℝ)
    have h4 := (hasDerivAt_affine ((quadFamily Q c).f x θ) (∑ j, d j * (quadFamily Q c).grad x θ j)).add
      (h3.mul_const (1 / 2 * ∑ j, d j * ∑ k, Q θ j k * d k))
    exact h4.congr_deriv (by ring)
  · have h3 := quadObj_add (Q θ) (c θ) h1 x (w - x)
    rw [add_sub_cancel] at h3
    have h4 := h2 (w - x)
    show quadObj (Q θ) (c θ) x + dot (w - x) ((quadFamily Q c).grad x θ) ≤ quadObj (Q θ) (c θ) w
    have e : dot (w - x) ((quadFamily Q c).grad x θ) = ∑ j, (w - x) j * (∑ k, Q θ j k * x k + c θ j) := rfl
    rw [e]
    linarith

theorem quadFamily_c2 (hQ : ∀ j k, ContDiffAt ℝ 1 (fun θ => Q θ j k) θ0) (hc : ∀ j, ContDiffAt ℝ 1 (fun θ => c θ j) θ0) (x0 : Fin n → ℝ) :
    (quadFamily Q c).C2At x0 θ0 (Q θ0) := by
  refine ⟨?_, fun j d => ?_⟩
  · rw [contDiffAt_pi]
    intro j
    simp only [quadFamily_grad]
    have hQc : ∀ i j, ContDiffAt ℝ 1 (fun v : (∀ i, P i) × (Fin n → ℝ) => Q v.1 i j) (θ0, x0) := fun i j =>
      ContDiffAt.comp (g := fun θ => Q θ i j) (θ0, x0) (hQ i j) contDiffAt_fst
    have hcc : ∀ i, ContDiffAt ℝ 1 (fun v : (∀ i, P i) × (Fin n → ℝ) => c v.1 i) (θ0, x0) := fun i =>
      ContDiffAt.comp (g := fun θ => c θ i) (θ0, x0) (hc i) contDiffAt_fst
    have hxc : ∀ k, ContDiffAt ℝ 1 (fun v : (∀ i, P i) × (Fin n → ℝ) => v.2 k) (θ0, x0) := fun k =>
      contDiffAt_pi.mp contDiffAt_snd k
    exact (ContDiffAt.sum fun k _ => (hQc j k).mul (hxc k)).add (hcc j)
  · simp only [quadFamily_grad, sum_line]
    exact (hasDerivAt_affine _ _).add_const (c θ0 j)

/-- **C128, `BoxCDQP`**: the matrix, the linear term and the bounds depend on parameters. -/
theorem C128_box_cd {o : BoxCDQP ℝ n} (hQ : ∀ j k, ContDiffAt ℝ 1 (fun θ => Q θ j k) θ0) (hc : ∀ j, ContDiffAt ℝ 1 (fun θ => c θ j) θ0)
    (hl : ∀ j, ContDiffAt ℝ 1 (fun θ => l θ j) θ0) (hu : ∀ j, ContDiffAt ℝ 1 (fun θ => u θ j) θ0) (hb : ∀ᶠ θ in 𝓝 θ0, ∀ j, l θ j ≤ u θ j)
    (hs : ∀ᶠ θ in 𝓝 θ0, ∀ j k, Q θ j k = Q θ k j) (hpsd : ∀ᶠ θ in 𝓝 θ0, ∀ d : Fin n → ℝ, 0 ≤ ∑ j, d j * ∑ k, Q θ j k * d k)
    (hmin : IsMin {x | ∀ j, l θ0 j ≤ x j ∧ x j ≤ u θ0 j} (quadObj (Q θ0) (c θ0)) x0)
    (hstrict : ∀ j, (l θ0 j < x0 j ∧ x0 j < u θ0 j) ∨ ∑ k, Q θ0 j k * x0 k + c θ0 j ≠ 0)
    (hcurv : ∀ d : Fin n → ℝ, d ≠ 0 → (∀ j, ∑ k, Q θ0 j k * x0 k + c θ0 j ≠ 0 → d j = 0) → 0 < ∑ j, d j * ∑ k, Q θ0 j k * d k) :
    Differentiates (boxCDRoot (boxCD o Q c l u)) (fun θ => {x | ∀ j, l θ j ≤ x j ∧ x j ≤ u θ j}) (fun θ x => quadObj (Q θ) (c θ) x) x0 θ0
      fun θ x => ∀ j, (0 < ∑ k, Q θ0 j k * x0 k + c θ0 j → x j = l θ j) ∧ (∑ k, Q θ0 j k * x0 k + c θ0 j < 0 → x j = u θ j) ∧
        (∑ k, Q θ0 j k * x0 k + c θ0 j = 0 → l θ j < x j ∧ x j < u θ j) :=
  C127_box (o := anyPG) (D := quadFamily Q c) (quadFamily_convexNear hs hpsd) (quadFamily_c2 hQ hc x0) hl hu hb hmin hstrict hcurv

end boxCD

/-! ## Examples -/

/-- Two samples, two features, targets and weight as parameters `θ = (y_0, y_1, l)`: at `θ = (3, 1/2, 1/2)` the lasso solution is `(2, 0)`, and `BlockCoordinateDescent`
is differentiated correctly there. -/
example (o : BCD ℝ ℝ 2 2) : Differentiates (P := fun _ : Fin 3 => ℝ)
    (blockCDRoot (lassoBCD o (fun _ => (1 : Matrix (Fin 2) (Fin 2) ℝ)) (fun θ => ![θ 0, θ 1]) fun θ => θ 2)) (fun _ => Set.univ)
    (fun θ w => halfMeanSq (1 : Matrix (Fin 2) (Fin 2) ℝ) ![θ 0, θ 1] w + θ 2 * ∑ j, |w j|) ![2, 0] ![3, 1 / 2, 1 / 2] fun _ w => SameSigns w ![2, 0] := by
  have hproj : ∀ i : Fin 3, ContDiff ℝ 1 (fun θ : ∀ _ : Fin 3, ℝ => θ i) := fun i => by fun_prop
  refine C128_block_cd (P := fun _ : Fin 3 => ℝ) (X := fun _ => (1 : Matrix (Fin 2) (Fin 2) ℝ)) (y := fun θ => ![θ 0, θ 1]) (l := fun θ => θ 2) (by norm_num)
    (fun _ _ => contDiffAt_const) (fun i => ?_) (hproj 2).contDiffAt ?_ (fun w => ?_) (fun j hj => ?_) fun d _ hd => ?_
  · fin_cases i
    · exact (hproj 0).contDiffAt
    · exact (hproj 1).contDiffAt
  · have hc : ContinuousAt (fun θ : ∀ _ : Fin 3, ℝ => θ 2) ![3, 1 / 2, 1 / 2] := (continuous_apply (2 : Fin 3)).continuousAt
    filter_upwards [hc.eventually (lt_mem_nhds (show (0 : ℝ) < (![3, 1 / 2, 1 / 2] : Fin 3 → ℝ) 2 by simp))] with θ h
    exact h.le
  · simp [halfMeanSq, Fin.sum_univ_two, Matrix.one_apply]
    nlinarith [le_abs_self (w 0), abs_nonneg (w 1), le_abs_self (w 1), sq_nonneg (w 0 - 2), sq_nonneg (w 1)]
  · fin_cases j
    · simp at hj
    · simp [correlation, Matrix.one_apply]
      norm_num
  · funext j
    have := hd j
    simpa [Matrix.one_apply] using this

/-- One sample, one feature, feature and weight as parameters: at feature `1` and weight `1/4` the solution of sparse logistic regression is `log 3`. -/
example (o : PG ℝ (Fin 1 → ℝ)) : Differentiates (P := fun _ : Fin 2 => ℝ)
    ((logregFamily (fun θ => Matrix.of fun (_ _ : Fin 1) => θ 0) fun _ => true).proxRoot (lassoProx fun θ _ => θ 1) o) (fun _ => Set.univ)
    (fun θ w => logisticLoss (Matrix.of fun (_ _ : Fin 1) => θ 0) (fun _ => true) w + ∑ j, θ 1 * |w j|) (fun _ => Real.log 3) ![1, 1 / 4]
    fun _ w => SameSigns w fun _ => Real.log 3 := by
  have hproj : ∀ i : Fin 2, ContDiff ℝ 1 (fun θ : ∀ _ : Fin 2, ℝ => θ i) := fun i => by fun_prop
  have h3 : 0 < Real.log 3 := Real.log_pos (by norm_num)
  have hg : ∀ j, logisticGrad (Matrix.of fun (_ _ : Fin 1) => (1 : ℝ)) (fun _ => true) (fun _ => Real.log 3) j = -(1 / 4) := by
    intro j
    simp [logisticGrad, expit, Real.exp_neg, Real.exp_log (show (0 : ℝ) < 3 by norm_num)]
    norm_num
  refine C128_logreg (P := fun _ : Fin 2 => ℝ) (X := fun θ => Matrix.of fun (_ _ : Fin 1) => θ 0) (l := fun θ _ => θ 1) le_rfl
    (fun _ _ => (hproj 0).contDiffAt) (fun _ => (hproj 1).contDiffAt) ?_ (fun w => ?_) (fun j hj => absurd hj h3.ne') fun d _ hd => ?_
  · have hc : ContinuousAt (fun θ : ∀ _ : Fin 2, ℝ => θ 1) ![1, 1 / 4] := (continuous_apply (1 : Fin 2)).continuousAt
    filter_upwards [hc.eventually (lt_mem_nhds (show (0 : ℝ) < (![1, 1 / 4] : Fin 2 → ℝ) 1 by simp))] with θ h _
    exact h.le
  · have h1 := (smooth_of_sandwich (by positivity) (binaryLogreg_sandwich (Matrix.of fun (_ _ : Fin 1) => (1 : ℝ)) fun _ => true)).2 (fun _ => Real.log 3) w
    rw [C67_binary_value le_rfl, C67_binary_value le_rfl] at h1
    change logisticLoss _ _ _ + _ ≤ logisticLoss _ _ _ at h1
    have h2 := hg 0
    have e : (binaryLogreg (Matrix.of fun (_ _ : Fin 1) => (1 : ℝ)) fun _ => true).gradAt (fun _ => Real.log 3) 0 = -(1 / 4) := by
      rw [← h2]
      exact logregFamily_grad (P := fun _ : Fin 2 => ℝ) (X := fun _ => Matrix.of fun (_ _ : Fin 1) => (1 : ℝ)) (y := fun _ => true) (fun _ => Real.log 3) ![1, 1 / 4] 0
    simp only [dot, Fin.sum_univ_one, Pi.sub_apply] at h1
    rw [e] at h1
    simp only [Fin.sum_univ_one, Matrix.cons_val_zero, Matrix.cons_val_one, abs_of_pos h3]
    have := le_abs_self (w 0)
    linarith
  · funext j
    have := hd j
    rw [Subsingleton.elim j 0] at this ⊢
    simpa using this

/-- `min ½‖x‖² - θ_0 x_0 - θ_1 x_1` with `0 ≤ x ≤ θ_2`: at `θ = (3, 1/2, 1)` the solution is `(1, 1/2)`. -/
example (o : BoxCDQP ℝ 2) : ∃ near, Differentiates (P := fun _ : Fin 3 => ℝ) (boxCDRoot (boxCD o (fun _ => 1) (fun θ => ![-θ 0, -θ 1]) (fun _ _ => 0) fun θ _ => θ 2))
    (fun θ => {x | ∀ j, 0 ≤ x j ∧ x j ≤ θ 2}) (fun θ x => quadObj 1 ![-θ 0, -θ 1] x) ![1, 1 / 2] ![3, 1 / 2, 1] near := by
  have hproj : ∀ i : Fin 3, ContDiff ℝ 1 (fun θ : ∀ _ : Fin 3, ℝ => θ i) := fun i => by fun_prop
  refine ⟨_, C128_box_cd (P := fun _ : Fin 3 => ℝ) (Q := fun _ => 1) (c := fun θ => ![-θ 0, -θ 1]) (l := fun _ _ => 0) (u := fun θ _ => θ 2)
    (fun _ _ => contDiffAt_const) (fun j => ?_) (fun _ => contDiffAt_const) (fun _ => (hproj 2).contDiffAt) ?_
    (Eventually.of_forall fun θ j k => by simp only [Matrix.one_apply, eq_comm]) (Eventually.of_forall fun θ d => ?_) ⟨fun j => ?_, fun y hy => ?_⟩ (fun j => ?_) fun d hd _ => ?_⟩
  · fin_cases j
    · exact (hproj 0).neg.contDiffAt
    · exact (hproj 1).neg.contDiffAt
  · have hc : ContinuousAt (fun θ : ∀ _ : Fin 3, ℝ => θ 2) ![3, 1 / 2, 1] := (continuous_apply (2 : Fin 3)).continuousAt
    filter_upwards [hc.eventually (lt_mem_nhds (show (0 : ℝ) < (![3, 1 / 2, 1] : Fin 3 → ℝ) 2 by simp))] with θ h j
    exact h.le
  · simp only [Matrix.one_apply, ite_mul, one_mul, zero_mul, Finset.sum_ite_eq, Finset.mem_univ, if_true]
    exact Finset.sum_nonneg fun j _ => mul_self_nonneg _
  · fin_cases j
    · simp
    · constructor <;> simp
      norm_num
  · have h0 := (hy 0).2
    simp at h0
    simp [quadObj, Fin.sum_univ_two, Matrix.one_apply]
    nlinarith [sq_nonneg (y 1 - 1 / 2)]
  · fin_cases j
    · right
      simp [Fin.sum_univ_two, Matrix.one_apply]
      norm_num
    · left
      constructor <;> simp
      norm_num
  · exact exFamily_curv d hd

end Jaxopt.Implicit
