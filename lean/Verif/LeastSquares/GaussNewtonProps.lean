import Verif.LeastSquares.GaussNewton
import Mathlib.Analysis.InnerProductSpace.Adjoint
import Mathlib.Analysis.InnerProductSpace.Calculus
import Mathlib.Analysis.Calculus.Gradient.Basic
import Mathlib.Tactic.LinearCombination
import Mathlib.Tactic.Abel

/-!
# Property C43: Gauss-Newton
-/

set_option autoImplicit false
set_option linter.unusedSectionVars false
set_option linter.unusedVariables false

namespace Jaxopt.LeastSquares

open Jaxopt.Base

/-! ## Specification -/

section
variable {K E F A : Type*} [Field K] [LinearOrder K] [IsStrictOrderedRing K] [AddCommGroup E] [Module K E] [AddCommGroup F] [Module K F]

/-- What is used of automatic differentiation: the Jacobian is linear and the vector-Jacobian product is its adjoint. -/
structure AutoDiff (vdotE : E → E → K) (vdotF : F → F → K) (jvp : E → E → F) (vjp : E → F → E) : Prop where
  add : ∀ x u v, jvp x (u + v) = jvp x u + jvp x v
  smul : ∀ x (a : K) u, jvp x (a • u) = a • jvp x u
  adjoint : ∀ x u w, vdotF (jvp x u) w = vdotE u (vjp x w)

/-- `y` minimises the squared distance of `r` to the range of the linear map `J`. -/
def LeastSquaresSol (vdotF : F → F → K) (J : E → F) (r : F) (d : E) : Prop := ∀ u, vdotF (r - J d) (r - J d) ≤ vdotF (r - J u) (r - J u)

theorem AutoDiff.zero {vdotE : E → E → K} {vdotF : F → F → K} {jvp : E → E → F} {vjp : E → F → E} (h : AutoDiff vdotE vdotF jvp vjp)
    (x : E) : jvp x 0 = 0 := by
  have := h.smul x 0 0
  simpa using this

theorem AutoDiff.sub {vdotE : E → E → K} {vdotF : F → F → K} {jvp : E → E → F} {vjp : E → F → E} (h : AutoDiff vdotE vdotF jvp vjp)
    (x u v : E) : jvp x (u - v) = jvp x u - jvp x v := by
  have := h.add x (u - v) v
  rw [sub_add_cancel] at this
  rw [this, add_sub_cancel_right]

/-- Solutions of the normal equations are least-squares solutions. -/
theorem normal_eq_sol {vdotE : E → E → K} {vdotF : F → F → K} {jvp : E → E → F} {vjp : E → F → E} (hE : IsVdot vdotE) (hF : IsVdot vdotF)
    (h : AutoDiff vdotE vdotF jvp vjp) {x d : E} {r : F} (hd : vjp x (jvp x d) = vjp x r) :
    (∀ u, vdotF (jvp x u) (jvp x d - r) = 0) ∧ LeastSquaresSol vdotF (jvp x) r d := by
  have horth : ∀ u, vdotF (jvp x u) (jvp x d - r) = 0 := by
    intro u
    rw [hF.sub_right, h.adjoint, h.adjoint, hd, sub_self]
  refine ⟨horth, fun u => ?_⟩
  have e : r - jvp x u = (r - jvp x d) + jvp x (d - u) := by
    rw [h.sub]; abel
  have e2 : vdotF (jvp x (d - u)) (r - jvp x d) = 0 := by
    have := horth (d - u)
    rw [← neg_sub r, hF.neg_right] at this
    linarith
  rw [e, hF.add_left, hF.add_right, hF.add_right, hF.symm (r - jvp x d) (jvp x (d - u)), e2]
  have := hF.nonneg (jvp x (d - u))
  linarith

namespace GN

variable {vdotE : E → E → K} {vdotF : F → F → K}

/-- The cost: half the sum of the squared residuals. -/
def cost (vdotF : F → F → K) (f : E → F) (x : E) : K := vdotF (f x) (f x) / 2

theorem fnAux_fst (R : Residual E F A) (x : E) : (R.fnAux x).1 = R.fn x := by
  cases R <;> rfl

/-- **C43**: with an exact inner solve the step of every update solves the normal equations of the linearised problem, hence
minimises the linearised cost; the new parameters are the old ones minus the step. -/
theorem C43_normal_equations (S : GN K E F A) (hE : IsVdot vdotE) (hF : IsVdot vdotF) (had : AutoDiff vdotE vdotF S.jvp S.vjp)
    (p : E × GNState K E F A)
    (hsolve : S.jtjOp p.1 (S.solve (S.jtjOp p.1) (S.optimalityFun p.1)) = S.optimalityFun p.1) :
    let q := S.update p
    q.1 = p.1 - q.2.delta ∧
    S.vjp p.1 (S.jvp p.1 q.2.delta) = S.vjp p.1 (S.residualFun.fn p.1) ∧
    LeastSquaresSol vdotF (S.jvp p.1) (S.residualFun.fn p.1) q.2.delta := by
  intro q
  have hd : S.vjp p.1 (S.jvp p.1 q.2.delta) = S.vjp p.1 (S.residualFun.fn p.1) := by
    have : q.2.delta = S.solve (S.jtjOp p.1) (S.optimalityFun p.1) := by
      simp only [q, update, fnAux_fst]; rfl
    rw [this]; exact hsolve
  exact ⟨rfl, hd, (normal_eq_sol hE hF had hd).2⟩

/-- **C43**: one update solves any affine least-squares problem, from any state. -/
theorem C43_affine (S : GN K E F A) (hE : IsVdot vdotE) (hF : IsVdot vdotF) (had : AutoDiff vdotE vdotF S.jvp S.vjp)
    (haff : ∀ x d, S.residualFun.fn (x + d) = S.residualFun.fn x + S.jvp x d) (p : E × GNState K E F A)
    (hsolve : S.jtjOp p.1 (S.solve (S.jtjOp p.1) (S.optimalityFun p.1)) = S.optimalityFun p.1) (y : E) :
    cost vdotF S.residualFun.fn (S.update p).1 ≤ cost vdotF S.residualFun.fn y := by
  obtain ⟨h1, -, h3⟩ := C43_normal_equations S hE hF had p hsolve
  unfold cost
  set d := (S.update p).2.delta
  have key : ∀ u, S.residualFun.fn (p.1 - u) = S.residualFun.fn p.1 - S.jvp p.1 u := by
    intro u
    have := haff p.1 (-u)
    rw [← sub_eq_add_neg] at this
    rw [this]
    have hneg : S.jvp p.1 (-u) = - S.jvp p.1 u := by
      have := had.sub p.1 0 u
      rwa [had.zero, zero_sub, zero_sub] at this
    rw [hneg, sub_eq_add_neg]
  have e1 : S.residualFun.fn (S.update p).1 = S.residualFun.fn p.1 - S.jvp p.1 d := by rw [h1, key]
  have e2 : S.residualFun.fn y = S.residualFun.fn p.1 - S.jvp p.1 (p.1 - y) := by
    rw [← key, sub_sub_cancel]
  have := h3 (p.1 - y)
  rw [e1, e2]
  linarith

/-- **C43**: an update that reports `error = 0` (with an exact solve) leaves the parameters unchanged and they are stationary. -/
theorem C43_error_zero (S : GN K E F A) (hF : IsVdot vdotF) (hE : IsVdot vdotE) (had : AutoDiff vdotE vdotF S.jvp S.vjp)
    (hnorm : ∀ x, S.norm x = 0 → x = 0) (p : E × GNState K E F A)
    (hsolve : S.jtjOp p.1 (S.solve (S.jtjOp p.1) (S.optimalityFun p.1)) = S.optimalityFun p.1)
    (herr : (S.update p).2.error = .fin 0) :
    (S.update p).1 = p.1 ∧ S.optimalityFun (S.update p).1 = 0 ∧ (S.update p).2.gradient = 0 := by
  have hd : (S.update p).2.delta = S.solve (S.jtjOp p.1) (S.optimalityFun p.1) := by
    simp only [update, fnAux_fst]; rfl
  have hg : (S.update p).2.gradient = S.optimalityFun p.1 := by
    simp only [update, fnAux_fst]; rfl
  have h0 : (S.update p).2.delta = 0 := by
    refine hnorm _ ?_
    have : (S.update p).2.error = .fin (S.norm (S.update p).2.delta) := rfl
    rw [this] at herr
    injection herr
  have h1 : (S.update p).1 = p.1 := by
    have : (S.update p).1 = p.1 - (S.update p).2.delta := rfl
    rw [this, h0, sub_zero]
  have h2 : S.optimalityFun p.1 = 0 := by
    rw [hd] at h0
    rw [← hsolve, h0]
    unfold jtjOp
    rw [had.zero]
    refine hE.eq_zero ?_
    rw [← had.adjoint, hF.zero_right]
  exact ⟨h1, by rw [h1, h2], by rw [hg, h2]⟩

/-- **C43**: the reported value (and residual, gradient, auxiliary output) belongs to the previous parameters; at the start to the
initial ones. -/
theorem C43_value (S : GN K E F A) (hsq : ∀ r, S.sumSq r = vdotF r r) (p : E × GNState K E F A) :
    (S.update p).2.value = cost vdotF S.residualFun.fn p.1 ∧ (S.update p).2.residual = S.residualFun.fn p.1 ∧
    (S.update p).2.gradient = S.optimalityFun p.1 ∧ (S.initState p.1).value = cost vdotF S.residualFun.fn p.1 ∧
    (S.initState p.1).residual = S.residualFun.fn p.1 := by
  refine ⟨?_, ?_, ?_, ?_, ?_⟩
  · simp only [update, fnAux_fst, hsq, cost]; ring
  · simp only [update, fnAux_fst]
  · simp only [update, fnAux_fst]; rfl
  · simp only [initState, fnAux_fst, hsq, cost]; ring
  · simp only [initState, fnAux_fst]

/-- **C43**, for a run: with `tol = 0` and an exact inner solve, a run that stops before its budget ends at a stationary point. -/
theorem C43_run (S : GN K E F A) (hF : IsVdot vdotF) (hE : IsVdot vdotE) (had : AutoDiff vdotE vdotF S.jvp S.vjp)
    (hnorm : ∀ x, S.norm x = 0 → x = 0) (hnn : ∀ x, 0 ≤ S.norm x) (htol : S.tol = 0)
    (hsolve : ∀ x, S.jtjOp x (S.solve (S.jtjOp x) (S.optimalityFun x)) = S.optimalityFun x) (hm : 1 ≤ S.maxiter) {x0 : E}
    {r : E × GNState K E F A} (h : S.run x0 = .ok r) : (r.2.iterNum = S.maxiter) ∨ S.optimalityFun r.1 = 0 := by
  obtain ⟨k, h1, h2, h3, -, h5⟩ := runS_spec hm h
  have hiter : ∀ k, (S.update^[k] (x0, S.initState x0)).2.iterNum = k := by
    intro k
    induction k with
    | zero => rfl
    | succ k ih =>
      rw [Function.iterate_succ_apply']
      change (S.update^[k] (x0, S.initState x0)).2.iterNum + 1 = k + 1
      rw [ih]
  rcases h5 with h5 | h5
  · left; rw [h3, hiter, h5]
  · right
    obtain ⟨k, rfl⟩ : ∃ j, k = j + 1 := ⟨k - 1, by omega⟩
    rw [Function.iterate_succ_apply'] at h3 h5
    set p := S.update^[k] (x0, S.initState x0)
    have herr : (S.update p).2.error = .fin 0 := by
      have e : (S.update p).2.error = .fin (S.norm (S.update p).2.delta) := rfl
      unfold cont at h5
      rw [e, htol] at h5
      rw [e]
      congr 1
      have : ¬ 0 < S.norm (S.update p).2.delta := by simpa [Ext.gt, Ext.lt] using h5
      exact le_antisymm (not_lt.mp this) (hnn _)
    rw [h3]
    exact (C43_error_zero S hF hE had hnorm p (hsolve _) herr).2.1

end GN
end

/-! ## The assumptions hold for true derivatives -/

section
variable {E F : Type*} [NormedAddCommGroup E] [InnerProductSpace ℝ E] [FiniteDimensional ℝ E]
  [NormedAddCommGroup F] [InnerProductSpace ℝ F] [FiniteDimensional ℝ F]

/-- The normal equations always have a solution, so an exact solver exists for every problem. -/
theorem C43_solvable (J : E →ₗ[ℝ] F) (r : F) : ∃ d, LinearMap.adjoint J (J d) = LinearMap.adjoint J r := by
  have hr : J.adjoint r ∈ LinearMap.range (J.adjoint ∘ₗ J) := by
    have h1 : LinearMap.range (J.adjoint ∘ₗ J) = (LinearMap.ker (J.adjoint ∘ₗ J))ᗮ := by
      have hs : LinearMap.adjoint (J.adjoint ∘ₗ J) = J.adjoint ∘ₗ J := by
        rw [LinearMap.adjoint_comp, LinearMap.adjoint_adjoint]
      have := LinearMap.orthogonal_ker (J.adjoint ∘ₗ J)
      rw [hs] at this
      exact this.symm
    rw [h1, Submodule.mem_orthogonal]
    intro u hu
    have hJu : J u = 0 := by
      have h2 : J.adjoint (J u) = 0 := hu
      have h3 : inner ℝ (J u) (J u) = (0 : ℝ) := by
        rw [← LinearMap.adjoint_inner_left, h2, inner_zero_left]
      exact inner_self_eq_zero.mp h3
    rw [LinearMap.adjoint_inner_right, hJu, inner_zero_left]
  obtain ⟨d, hd⟩ := hr
  exact ⟨d, hd⟩

/-- If `J` is the Fréchet derivative of the residual function, `J` adjoint times the residual is the gradient of the cost. -/
theorem C43_gradient {f : E → F} {J : E →L[ℝ] F} {x : E} (h : HasFDerivAt f J x) :
    HasGradientAt (fun y => ‖f y‖ ^ 2 / 2) (ContinuousLinearMap.adjoint J (f x)) x := by
  have h1 : HasFDerivAt (fun y => ‖f y‖ ^ 2) (2 • (innerSL ℝ (f x)).comp J) x := h.norm_sq
  have h2 : HasFDerivAt (fun y => ‖f y‖ ^ 2 / 2) ((2 : ℝ)⁻¹ • (2 • (innerSL ℝ (f x)).comp J)) x := by
    have := h1.const_mul (2 : ℝ)⁻¹
    refine this.congr_of_eventuallyEq (Filter.Eventually.of_forall fun y => ?_)
    simp only
    ring
  have h3 : InnerProductSpace.toDual ℝ E (ContinuousLinearMap.adjoint J (f x)) = (2 : ℝ)⁻¹ • (2 • (innerSL ℝ (f x)).comp J) := by
    ext u
    simp [InnerProductSpace.toDual_apply_apply, ContinuousLinearMap.adjoint_inner_left]
  unfold HasGradientAt HasGradientAtFilter
  rw [h3]
  exact h2

end

/-! ## Non-vacuity -/

/-- Two unknowns, one residual: `r(x, y) = x + 2 y - 3`, with an exact solver for the rank-one normal equations. -/
def exGN : GN ℚ (ℚ × ℚ) ℚ Unit where
  residualFun := .noAux fun p => p.1 + 2 * p.2 - 3
  jvp := fun _ v => v.1 + 2 * v.2
  vjp := fun _ w => (w, 2 * w)
  solve := fun op b => (b.1 / 5, b.2 / 5)
  sumSq := fun r => r * r
  norm := fun p => |p.1| + |p.2|
  maxiter := 5
  tol := 0
  unroll := false
  jit := true

example : (exGN.update ((1, 5), exGN.initState (1, 5))).1 = (-3 / 5, 9 / 5) := by decide +kernel
example : exGN.residualFun.fn (exGN.update ((1, 5), exGN.initState (1, 5))).1 = 0 := by decide +kernel
example : (exGN.update ((1, 5), exGN.initState (1, 5))).2.value = 32 := by decide +kernel

example (p : ℚ × ℚ) : exGN.jtjOp p (exGN.solve (exGN.jtjOp p) (exGN.optimalityFun p)) = exGN.optimalityFun p := by
  obtain ⟨a, b⟩ := p
  refine Prod.ext ?_ ?_
  · simp only [exGN, GN.jtjOp, GN.optimalityFun, GN.jtOp, Residual.fn]; ring
  · simp only [exGN, GN.jtjOp, GN.optimalityFun, GN.jtOp, Residual.fn]; ring

example : AutoDiff (fun x y : ℚ × ℚ => x.1 * y.1 + x.2 * y.2) (fun x y : ℚ => x * y) exGN.jvp exGN.vjp where
  add := by intro x u v; simp only [exGN, Prod.fst_add, Prod.snd_add]; ring
  smul := by intro x a u; simp only [exGN, Prod.smul_fst, Prod.smul_snd, smul_eq_mul]; ring
  adjoint := by intro x u w; simp only [exGN]; ring

end Jaxopt.LeastSquares
