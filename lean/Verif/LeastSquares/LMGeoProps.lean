import Verif.LeastSquares.LMSetup
import Verif.LeastSquares.LMProps
import Mathlib.Data.Rat.Sqrt

/-!
# Property C79: geodesic acceleration and configuration of Levenberg-Marquardt
-/

set_option autoImplicit false
set_option linter.unusedSectionVars false
set_option linter.unusedVariables false

namespace Jaxopt.LeastSquares

open Jaxopt.Base

section
variable {K E F M A : Type*} [Field K] [LinearOrder K] [IsStrictOrderedRing K] [AddCommGroup E] [Module K E] [AddCommGroup F] [Module K F]
  [AddCommGroup M] [Module K M] [AddCommGroup A] [Module K A]

/-! ## Specification -/

/-- The assumptions: exact arithmetic, true Jacobian, exact solutions of the damped normal equations for every right-hand side, geodesic
acceleration. -/
structure LMGeoSpec (S : LM K E F M A) (vdotE : E → E → K) (vdotF : F → F → K) : Prop where
  ar : S.ar = exactArith K
  hE : IsVdot vdotE
  hF : IsVdot vdotF
  dot : ∀ x y, S.dot x y = vdotE x y
  sumSq : ∀ r, S.sumSq r = vdotF r r
  ad : AutoDiff vdotE vdotF S.jvp S.vjp
  mat : ∀ x r, S.jacT (S.jacFun x) r = S.vjp x r
  exactMat : ∀ x mu r, 0 < mu → S.jtjOp x (S.solveMat (S.jacFun x) mu (S.vjp x r) r) + mu • S.solveMat (S.jacFun x) mu (S.vjp x r) r =
    S.vjp x r
  exactAcc : ∀ x mu r, 0 < mu → S.jtjOp x (S.accMat (S.jacFun x) mu r) + mu • S.accMat (S.jacFun x) mu r = S.vjp x r
  exactFn : ∀ x mu b i, 0 < mu → S.jtjOp x (S.solverFn (S.jtjOp x) b mu i) + mu • S.solverFn (S.jtjOp x) b mu i = b
  geodesic : S.geodesic = true

/-- `d` minimises `‖r - J d‖² + mu ‖d‖²`. -/
def DampedSol (vdotE : E → E → K) (vdotF : F → F → K) (J : E → F) (mu : K) (r : F) (d : E) : Prop :=
  ∀ u, vdotF (r - J d) (r - J d) + mu * vdotE d d ≤ vdotF (r - J u) (r - J u) + mu * vdotE u u

/-- Solutions of the damped normal equations solve the damped least-squares problem. -/
theorem damped_sol {vdotE : E → E → K} {vdotF : F → F → K} {jvp : E → E → F} {vjp : E → F → E} (hE : IsVdot vdotE) (hF : IsVdot vdotF)
    (h : AutoDiff vdotE vdotF jvp vjp) {x d : E} {r : F} {mu : K} (hmu : 0 ≤ mu) (hd : vjp x (jvp x d) + mu • d = vjp x r) :
    DampedSol vdotE vdotF (jvp x) mu r d := by
  intro u
  have e : r - jvp x u = (r - jvp x d) + jvp x (d - u) := by rw [h.sub]; abel
  have e2 : vdotF (jvp x (d - u)) (r - jvp x d) = mu * vdotE (d - u) d := by
    rw [hF.sub_right, h.adjoint, h.adjoint, ← hd, hE.add_right, hE.smul_right]; ring
  have e3 : u = d + -(d - u) := by abel
  have e4 : vdotE u u = vdotE d d - 2 * vdotE (d - u) d + vdotE (d - u) (d - u) := by
    conv_lhs => rw [e3]
    rw [hE.add_left, hE.add_right, hE.add_right, hE.neg_left, hE.neg_left, hE.neg_right, hE.neg_right, hE.symm d (d - u)]
    ring
  rw [e, hF.add_left, hF.add_right, hF.add_right, hF.symm (r - jvp x d) (jvp x (d - u)), e2, e4]
  have h1 := hF.nonneg (jvp x (d - u))
  have h2 := mul_nonneg hmu (hE.nonneg (d - u))
  linarith

variable {S : LM K E F M A} {vdotE : E → E → K} {vdotF : F → F → K}

/-! ## The step -/

theorem geo_velocity (h : LMGeoSpec S vdotE vdotF) {p : E × LMState K E F M A} (hi : LMInv S vdotF p) :
    S.jtjOp p.1 (S.velocity p.1 p.2) + p.2.dampingFactor • S.velocity p.1 p.2 = p.2.gradient := by
  unfold LM.velocity
  rw [hi.jac]
  by_cases hm : S.materializeJac
  · rw [if_pos hm]
    simp only
    rw [hi.gradient, hi.residual]
    exact h.exactMat p.1 _ _ hi.damping
  · rw [if_neg hm]
    exact h.exactFn p.1 _ _ _ hi.damping

theorem geo_acceleration (h : LMGeoSpec S vdotE vdotF) {p : E × LMState K E F M A} (hi : LMInv S vdotF p) (v : E) :
    S.jtjOp p.1 (S.acceleration p.1 p.2 v) + p.2.dampingFactor • S.acceleration p.1 p.2 v = S.vjp p.1 (S.d2fvv p.1 v v) := by
  unfold LM.acceleration
  rw [hi.jac]
  by_cases hm : S.materializeJac
  · rw [if_pos hm]
    exact h.exactAcc p.1 _ _ hi.damping
  · rw [if_neg hm]
    exact h.exactFn p.1 _ _ _ hi.damping

/-- The step of the geodesic variant. -/
def geoStep (S : LM K E F M A) (p : E × LMState K E F M A) : E :=
  -(S.velocity p.1 p.2 + (1 / 2 : K) • S.acceleration p.1 p.2 (S.velocity p.1 p.2))

/-- The denominator of the gain ratio. -/
def geoDenom (S : LM K E F M A) (vdotE : E → E → K) (p : E × LMState K E F M A) : K :=
  vdotE (geoStep S p) (p.2.dampingFactor • geoStep S p - p.2.gradient) / 2

/-- The trial point is accepted. -/
def geoMet (S : LM K E F M A) (vdotE : E → E → K) (vdotF : F → F → K) (p : E × LMState K E F M A) : Prop :=
  0 < (lmCost S vdotF p.1 - lmCost S vdotF (p.1 + geoStep S p)) / geoDenom S vdotE p ∧
    S.norm (S.acceleration p.1 p.2 (S.velocity p.1 p.2)) / S.norm (S.velocity p.1 p.2) ≤ S.contributionRatioThreshold

/-- The update in closed form. -/
theorem geo_update (h : LMGeoSpec S vdotE vdotF) {p : E × LMState K E F M A} (hi : LMInv S vdotF p) :
    let rho := (lmCost S vdotF p.1 - lmCost S vdotF (p.1 + geoStep S p)) / geoDenom S vdotE p
    let q := S.update p
    q.2.delta = geoStep S p ∧ q.2.error = S.norm q.2.gradient ∧ q.2.value = vdotF q.2.residual q.2.residual / 2 ∧
    ((geoMet S vdotE vdotF p ∧ q.1 = p.1 + geoStep S p ∧ q.2.residual = (S.residualFun q.1).1 ∧ q.2.aux = (S.residualFun q.1).2 ∧
      q.2.gradient = S.vjp q.1 (S.residualFun q.1).1 ∧ q.2.jac = (if S.materializeJac then some (S.jacFun q.1) else none) ∧
      q.2.dampingFactor = p.2.dampingFactor * max (1 / 3) (1 - (2 * rho - 1) ^ 3) ∧ q.2.increaseFactor = 2) ∨
    (¬geoMet S vdotE vdotF p ∧ q.1 = p.1 ∧ q.2.residual = p.2.residual ∧ q.2.aux = p.2.aux ∧ q.2.gradient = p.2.gradient ∧ q.2.jac = p.2.jac ∧
      q.2.dampingFactor = min (p.2.dampingFactor * p.2.increaseFactor) (2 ^ 32) ∧
      q.2.increaseFactor = min (2 * p.2.increaseFactor) (2 ^ 32))) := by
  intro rho q
  set v := S.velocity p.1 p.2 with hv
  set a := S.acceleration p.1 p.2 v with ha
  set d := geoStep S p with hd
  have hlit : S.ar.lit (1 / 2) = (1 / 2 : K) := by rw [h.ar]; simp only [exactArith]; push_cast; rfl
  have hstep : -(v + S.ar.lit (1 / 2) • a) = d := by rw [hlit]; rfl
  set diff := S.ar.sub (S.ar.div (S.norm a) (S.norm v)) S.contributionRatioThreshold with hdiff
  set b : Branch K E F M A := ⟨p.1, p.2.dampingFactor, p.2.increaseFactor, p.2.residual, p.2.gradient, p.2.jac, p.2.aux⟩ with hb
  have hrho : S.ar.div (S.ar.sub p.2.value (S.ar.mul (S.ar.lit (1 / 2)) (S.sumSq (S.residualFun (p.1 + d)).1)))
      (S.ar.mul (S.ar.lit (1 / 2)) (S.dot d (p.2.dampingFactor • d - p.2.gradient))) = rho := by
    rw [hlit, h.ar, h.sumSq, h.dot, hi.value]
    simp only [exactArith, rho, geoDenom, lmCost]
    have e1 : (1 : K) / 2 * vdotF (S.residualFun (p.1 + d)).1 (S.residualFun (p.1 + d)).1 =
      vdotF (S.residualFun (p.1 + d)).1 (S.residualFun (p.1 + d)).1 / 2 := by ring
    have e2 : (1 : K) / 2 * vdotE d (p.2.dampingFactor • d - p.2.gradient) = vdotE d (p.2.dampingFactor • d - p.2.gradient) / 2 := by ring
    rw [e1, e2]
  have hq : S.updateStateUsingDeltaParams p.2.value d diff b = S.updateStateUsingGainRatio rho diff b (p.1 + d) := by
    unfold LM.updateStateUsingDeltaParams
    simp only [hb]
    rw [hrho]
  have hmet : (S.ar.gt rho (S.ar.lit 0) && S.ar.le diff (S.ar.lit 0)) = true ↔ geoMet S vdotE vdotF p := by
    rw [hdiff, h.ar]
    simp only [exactArith, Rat.cast_zero, Bool.and_eq_true, decide_eq_true_eq, geoMet, sub_nonpos]
    exact Iff.rfl
  set met := (S.ar.gt rho (S.ar.lit 0) && S.ar.le diff (S.ar.lit 0)) with hmetdef
  have hupd : q = ((S.updateStateUsingGainRatio rho diff b (p.1 + d)).params,
      { iterNum := p.2.iterNum + 1
        dampingFactor := (S.updateStateUsingGainRatio rho diff b (p.1 + d)).dampingFactor
        increaseFactor := (S.updateStateUsingGainRatio rho diff b (p.1 + d)).increaseFactor
        error := S.norm (S.updateStateUsingGainRatio rho diff b (p.1 + d)).gradient
        residual := (S.updateStateUsingGainRatio rho diff b (p.1 + d)).residual
        value := S.ar.mul (S.ar.lit (1 / 2)) (S.sumSq (S.updateStateUsingGainRatio rho diff b (p.1 + d)).residual)
        delta := d
        gradient := (S.updateStateUsingGainRatio rho diff b (p.1 + d)).gradient
        jac := (S.updateStateUsingGainRatio rho diff b (p.1 + d)).jac
        aux := (S.updateStateUsingGainRatio rho diff b (p.1 + d)).aux }) := by
    rw [← hq]
    simp only [q, LM.update, h.geodesic, if_true, ← hv, ← ha, hstep]
    rfl
  have hval : q.2.value = vdotF q.2.residual q.2.residual / 2 := by
    rw [hupd]
    simp only
    rw [hlit, h.ar, h.sumSq]
    simp only [exactArith]
    ring
  refine ⟨by rw [hupd], by rw [hupd], hval, ?_⟩
  have u1 : q.1 = (S.updateStateUsingGainRatio rho diff b (p.1 + d)).params := by rw [hupd]
  have u2 : q.2.residual = (S.updateStateUsingGainRatio rho diff b (p.1 + d)).residual := by rw [hupd]
  have u3 : q.2.gradient = (S.updateStateUsingGainRatio rho diff b (p.1 + d)).gradient := by rw [hupd]
  have u4 : q.2.jac = (S.updateStateUsingGainRatio rho diff b (p.1 + d)).jac := by rw [hupd]
  have u5 : q.2.aux = (S.updateStateUsingGainRatio rho diff b (p.1 + d)).aux := by rw [hupd]
  have u6 : q.2.dampingFactor = (S.updateStateUsingGainRatio rho diff b (p.1 + d)).dampingFactor := by rw [hupd]
  have u7 : q.2.increaseFactor = (S.updateStateUsingGainRatio rho diff b (p.1 + d)).increaseFactor := by rw [hupd]
  clear hupd
  unfold LM.updateStateUsingGainRatio at u1 u2 u3 u4 u5 u6 u7
  simp only [← hmetdef] at u1 u2 u3 u4 u5 u6 u7
  have hjac : p.2.jac = if S.materializeJac then some (S.jacFun p.1) else none := hi.jac
  by_cases hr : geoMet S vdotE vdotF p
  · left
    rw [hmet.mpr hr] at u1 u2 u3 u4 u5 u6 u7
    simp only [select_true h.ar, selectS_true h.ar] at u1 u2 u3 u4 u5 u6 u7
    have hx : q.1 = p.1 + d := u1
    simp only [LM.testTrue, LM.testFalse, ← hx] at u2 u3 u4 u5 u6 u7
    refine ⟨hr, hx, u2, u5, ?_, ?_, ?_, ?_⟩
    · rw [u3]
      by_cases hm : S.materializeJac
      · simp only [hm, if_true]; exact h.mat _ _
      · simp only [hm]; rfl
    · rw [u4]
      simp only [hb, hjac]
      by_cases hm : S.materializeJac <;> simp [hm]
    · rw [u6, h.ar]
      simp only [exactArith, hb]
      push_cast
      congr 3
      ring
    · rw [u7, h.ar]; simp [exactArith]
  · right
    have hfalse : met = false := by
      rcases hm : met with _ | _
      · rfl
      · exact absurd (hmet.mp hm) hr
    rw [hfalse] at u1 u2 u3 u4 u5 u6 u7
    simp only [select_false h.ar, selectS_false h.ar] at u1 u2 u3 u4 u5 u6 u7
    simp only [LM.testTrue, LM.testFalse, LM.factorMax] at u1 u2 u3 u4 u5 u6 u7
    refine ⟨hr, u1, u2, u5, u3, ?_, ?_, ?_⟩
    · rw [u4]
      simp only [hb, hjac]
      by_cases hm : S.materializeJac <;> simp [hm]
    · rw [u6, h.ar]; simp [exactArith, hb]
    · rw [u7, h.ar]; simp [exactArith, hb]

/-- **C79, the step**: the velocity solves the damped linearised problem, the acceleration the damped problem for the second directional
derivative of the residual along the velocity, and the step is minus the velocity minus half the acceleration; the state keeps describing
the current point. -/
theorem C79_step (h : LMGeoSpec S vdotE vdotF) {p : E × LMState K E F M A} (hi : LMInv S vdotF p) :
    ∃ v a, DampedSol vdotE vdotF (S.jvp p.1) p.2.dampingFactor (S.residualFun p.1).1 v ∧
      DampedSol vdotE vdotF (S.jvp p.1) p.2.dampingFactor (S.d2fvv p.1 v v) a ∧
      (S.update p).2.delta = -v - (1 / 2 : K) • a ∧ LMInv S vdotF (S.update p) ∧
      ((S.update p).1 = p.1 ∨ (S.update p).1 = p.1 - v - (1 / 2 : K) • a) ∧
      ((S.update p).1 ≠ p.1 → S.norm a / S.norm v ≤ S.contributionRatioThreshold) := by
  obtain ⟨h1, h2, h3, h4⟩ := geo_update h hi
  have hstep : geoStep S p = -S.velocity p.1 p.2 - (1 / 2 : K) • S.acceleration p.1 p.2 (S.velocity p.1 p.2) := by
    unfold geoStep; abel
  refine ⟨S.velocity p.1 p.2, S.acceleration p.1 p.2 (S.velocity p.1 p.2), ?_, ?_, ?_, ?_, ?_, ?_⟩
  · refine damped_sol h.hE h.hF h.ad hi.damping.le ?_
    have := geo_velocity h hi
    rw [hi.gradient] at this
    exact this
  · exact damped_sol h.hE h.hF h.ad hi.damping.le (geo_acceleration h hi _)
  · rw [h1, hstep]
  · have hd := hi.damping
    rcases h4 with ⟨c0, c1, c2, c3, c4, c5, c6, c7⟩ | ⟨c0, c1, c2, c3, c4, c5, c6, c7⟩
    · obtain ⟨b1, b2⟩ := multiplier_bounds c0.1
      refine ⟨c2, c3, c4, ?_, h2, c5, ?_, ?_, ?_⟩
      · rw [h3, c2]; rfl
      · rw [c6]; exact mul_pos hd (lt_of_lt_of_le (by norm_num) b1)
      · rw [c7]
      · rw [c7]; norm_num
    · have hlow := hi.incLow
      have hmul : p.2.dampingFactor < p.2.dampingFactor * p.2.increaseFactor := by nlinarith
      refine ⟨?_, ?_, ?_, ?_, h2, ?_, ?_, ?_, ?_⟩
      · rw [c2, c1]; exact hi.residual
      · rw [c3, c1]; exact hi.aux
      · rw [c4, c1]; exact hi.gradient
      · rw [h3, c2, c1, hi.residual]; rfl
      · rw [c5, c1]; exact hi.jac
      · rw [c6]; exact lt_min (lt_trans hd hmul) (by norm_num)
      · rw [c7]; exact le_min (by linarith) (by norm_num)
      · rw [c7]; exact min_le_right _ _
  · rcases h4 with ⟨c0, c1, -⟩ | ⟨c0, c1, -⟩
    · right; rw [c1, hstep]; abel
    · exact Or.inl c1
  · intro hne
    rcases h4 with ⟨c0, -⟩ | ⟨c0, c1, -⟩
    · exact c0.2
    · exact absurd c1 hne

/-- **C79, order of the step**: for a residual function that is quadratic around the current point, the residual at the trial point is the
residual of the linear system of the velocity plus half that of the acceleration, up to terms of third order in the velocity
(`B(v, a)/2 + B(a, a)/8`): the second-order term of the undamped Gauss-Newton step cancels. -/
theorem C79_third_order (p : E × LMState K E F M A) (B : E → E → F)
    (hadd : ∀ u v w, B (u + v) w = B u w + B v w) (hsmul : ∀ (c : K) u w, B (c • u) w = c • B u w) (hsymm : ∀ u w, B u w = B w u)
    (hB : ∀ u, S.d2fvv p.1 u u = B u u) (hlin : ∀ u v, S.jvp p.1 (u + v) = S.jvp p.1 u + S.jvp p.1 v)
    (hlin' : ∀ (c : K) u, S.jvp p.1 (c • u) = c • S.jvp p.1 u)
    (hquad : ∀ d, (S.residualFun (p.1 + d)).1 = (S.residualFun p.1).1 + S.jvp p.1 d + (1 / 2 : K) • B d d) :
    let v := S.velocity p.1 p.2
    let a := S.acceleration p.1 p.2 v
    (S.residualFun (p.1 + geoStep S p)).1 = ((S.residualFun p.1).1 - S.jvp p.1 v) + (1 / 2 : K) • (S.d2fvv p.1 v v - S.jvp p.1 a) +
      ((1 / 2 : K) • B v a + (1 / 8 : K) • B a a) := by
  intro v a
  have e : geoStep S p = (-1 : K) • (v + (1 / 2 : K) • a) := by rw [neg_one_smul]; rfl
  have hsmul' : ∀ (c : K) u w, B u (c • w) = c • B u w := fun c u w => by rw [hsymm, hsmul, hsymm]
  have hadd' : ∀ u v w, B u (v + w) = B u v + B u w := fun u v w => by rw [hsymm, hadd, hsymm v, hsymm w]
  rw [hquad, e, hlin', hlin, hlin', hsmul, hsmul', hadd, hadd', hadd', hsmul, hsmul, hsmul', hsmul', hB, hsymm a v]
  module

/-- **C79, decrease** (partial): if the denominator of the gain ratio is positive, a trial point is accepted exactly if it has lower cost
and the acceleration is small enough.  Missing: without geodesic acceleration the denominator is always positive, with it the denominator can
be negative, and then the test is inverted (`C79_increase_false`, `C79_reject_false`). -/
theorem C79_decrease_partial (h : LMGeoSpec S vdotE vdotF) {p : E × LMState K E F M A} (hi : LMInv S vdotF p)
    (hden : 0 < geoDenom S vdotE p) :
    ((S.update p).1 ≠ p.1 → lmCost S vdotF (S.update p).1 < lmCost S vdotF p.1) ∧
    lmCost S vdotF (S.update p).1 ≤ lmCost S vdotF p.1 ∧
    (lmCost S vdotF (p.1 + (S.update p).2.delta) < lmCost S vdotF p.1 →
      S.norm (S.acceleration p.1 p.2 (S.velocity p.1 p.2)) / S.norm (S.velocity p.1 p.2) ≤ S.contributionRatioThreshold →
      (S.update p).1 = p.1 + (S.update p).2.delta) := by
  obtain ⟨h1, -, -, h4⟩ := geo_update h hi
  have hpos : ∀ {t : K}, 0 < t / geoDenom S vdotE p ↔ 0 < t := fun {t} => div_pos_iff_of_pos_right hden
  rcases h4 with ⟨c0, c1, -⟩ | ⟨c0, c1, -⟩
  · have hlt : lmCost S vdotF (S.update p).1 < lmCost S vdotF p.1 := by
      rw [c1]; exact sub_pos.mp (hpos.mp c0.1)
    exact ⟨fun _ => hlt, hlt.le, fun _ _ => by rw [h1]; exact c1⟩
  · refine ⟨fun hne => absurd c1 hne, by rw [c1], fun hlt hr => ?_⟩
    rw [h1] at hlt
    exact absurd ⟨hpos.mpr (sub_pos.mpr hlt), hr⟩ c0

/-- **C79, the warm start has the wrong sign**: without geodesic acceleration and with a callable linear solver, the initial point that the
solver receives in the next iteration is minus the solution that it returned in this one. -/
theorem C79_warm_start_false (hg : S.geodesic = false) (hm : S.materializeJac = false) (hc : S.solver = .callable)
    {p : E × LMState K E F M A} (hj : p.2.jac = none) :
    ∃ sol, sol = S.solverFn (S.jtjOp p.1) p.2.gradient p.2.dampingFactor (some p.2.delta) ∧
      S.velocity p.1 p.2 = sol ∧
      S.velocity (S.update p).1 (S.update p).2 = S.solverFn (S.jtjOp (S.update p).1) (S.update p).2.gradient (S.update p).2.dampingFactor
        (some (-sol)) := by
  have hv : S.velocity p.1 p.2 = S.solverFn (S.jtjOp p.1) p.2.gradient p.2.dampingFactor (some p.2.delta) := by
    unfold LM.velocity
    rw [hj]
    simp only [hc, if_true]
  refine ⟨_, rfl, hv, ?_⟩
  have hdelta : (S.update p).2.delta = -S.velocity p.1 p.2 := by
    simp only [LM.update, hg, Bool.false_eq_true, if_false]
  have hjac : (S.update p).2.jac = none := by
    simp only [LM.update, LM.updateStateUsingDeltaParams, LM.updateStateUsingGainRatio, LM.testTrue, LM.testFalse, hm, Bool.false_eq_true,
      if_false]
  rw [← hv, ← hdelta]
  conv_lhs => unfold LM.velocity
  rw [hjac]
  simp only [hc, if_true]

end

/-! ## Configuration -/

/-- **C79, configuration** (partial): without `jac_fun` a configuration is accepted exactly if the solver is a callable or one of the four
names, and not QR in matrix-free mode; the Jacobian (and, with geodesic acceleration, the second derivative) is materialised exactly if
`materialize_jac` is set, and comes from `jax.jacfwd`.  Missing: `jac_fun` (`C79_jac_fun_false`). -/
theorem C79_config_partial (a : LMArgs) (hj : a.jacFunGiven = false) :
    ((∃ u, constructLM a = .ok u) ↔
      (a.solver = .callable ∨ ∃ s, a.solver = .name s ∧ s ∈ ["cholesky", "lu", "qr", "inv"]) ∧
        ¬(a.materializeJac = false ∧ a.solver = .name "qr")) ∧
    ∀ u, constructLM a = .ok u → u.jac = (if a.materializeJac then some .jacfwd else none) ∧
      u.hess = (if a.materializeJac && a.geodesic then some .jacfwd else none) := by
  obtain ⟨sol, mat, geo, jf⟩ := a
  simp only at hj
  subst hj
  have hsol : (∃ f, solverFnOf sol = .ok f) ↔ (sol = .callable ∨ ∃ s, sol = .name s ∧ s ∈ ["cholesky", "lu", "qr", "inv"]) := by
    cases sol with
    | callable => simp [solverFnOf]
    | name s =>
      simp only [solverFnOf]
      by_cases h1 : s = "cholesky"
      · simp [h1]
      by_cases h2 : s = "lu"
      · simp [h2]
      by_cases h3 : s = "qr"
      · simp [h3]
      by_cases h4 : s = "inv"
      · simp [h4]
      · simp [h1, h2, h3, h4]
  rw [← hsol]
  unfold constructLM postInitLM
  cases hf : solverFnOf sol with
  | error e => simp
  | ok f =>
    cases mat
    · by_cases hq : sol = .name "qr"
      · simp [hq]
      · simp [hq, initUses]
    · cases geo <;> simp [initUses]

/-- **C79, `jac_fun` is never used**: with `materialize_jac=True`, where the documentation promises that the Jacobian is obtained from it,
construction succeeds but `init_state` raises (the attribute `_jac_fun` is not set); otherwise it is ignored. -/
theorem C79_jac_fun_false (a : LMArgs) (hj : a.jacFunGiven = true) :
    (a.materializeJac = true → (∃ f, solverFnOf a.solver = .ok f) →
      (∃ s, postInitLM a = .ok s) ∧ constructLM a = .error "AttributeError: _jac_fun") ∧
    ∀ u, constructLM a = .ok u → u.jac = none := by
  obtain ⟨sol, mat, geo, jf⟩ := a
  simp only at hj
  subst hj
  unfold constructLM postInitLM
  cases hf : solverFnOf sol with
  | error e => simp
  | ok f =>
    cases mat
    · by_cases hq : sol = .name "qr"
      · simp [hq]
      · simp only [Bool.false_eq_true, if_false, if_neg hq, initUses]
        constructor
        · intro h; cases h
        · intro u hu; cases hu; rfl
    · simp [initUses]

/-! ## Witnesses -/

/-- Two unknowns and the residuals `r₀ = R₀ + x₀ + d x₀³`, `r₁ = R₁ + 10 x₁ + c/2 x₀²`, default attributes apart from `geodesic=True`. -/
def exGeo (R0 R1 c d : ℚ) : LM ℚ (ℚ × ℚ) (ℚ × ℚ) Unit Unit where
  ar := exactArith ℚ
  residualFun := fun x => ((R0 + x.1 + d * x.1 ^ 3, R1 + 10 * x.2 + c / 2 * x.1 ^ 2), ())
  jvp := fun x v => ((1 + 3 * d * x.1 ^ 2) * v.1, c * x.1 * v.1 + 10 * v.2)
  vjp := fun x w => ((1 + 3 * d * x.1 ^ 2) * w.1 + c * x.1 * w.2, 10 * w.2)
  d2fvv := fun x u v => (6 * d * x.1 * u.1 * v.1, c * u.1 * v.1)
  jacFun := fun _ => ()
  jacT := fun _ r => r
  maxDiag := fun x => max ((1 + 3 * d * x.1 ^ 2) ^ 2 + (c * x.1) ^ 2) 100
  solverFn := fun op b ridge _ =>
    -- Cramer's rule for the damped normal equations
    let m := (op (1, 0)).1 + ridge
    let o := (op (1, 0)).2
    let o' := (op (0, 1)).1
    let k := (op (0, 1)).2 + ridge
    ((b.1 * k - o' * b.2) / (m * k - o * o'), (m * b.2 - o * b.1) / (m * k - o * o'))
  solveMat := fun _ _ g _ => g
  accMat := fun _ _ r => r
  dot := fun x y => x.1 * y.1 + x.2 * y.2
  sumSq := fun r => r.1 * r.1 + r.2 * r.2
  norm := fun x => Rat.sqrt (x.1 * x.1 + x.2 * x.2)
  infNorm := fun x => max |x.1| |x.2|
  zero := 0
  solver := .callable
  materializeJac := false
  geodesic := true
  contributionRatioThreshold := 3 / 4
  dampingParameter := 1 / 1000000
  stopCriterion := .gradL2Norm
  tol := 1 / 1000
  xtol := 1 / 1000
  gtol := 1 / 1000
  maxiter := 30
  unroll := false
  jit := true

/-- The data of the witnesses: at `0` the velocity is `(24, 7)` and the acceleration `(0, -18)`. -/
def exGeoW (d : ℚ) : LM ℚ (ℚ × ℚ) (ℚ × ℚ) Unit Unit :=
  exGeo (24 * (10001 / 10000)) (7 * (1000001 / 100000)) (-18 * (1000001 / 100000) / 576) d

/-- **C79 is false, increase**: with geodesic acceleration an accepted step can increase the cost.  The velocity and the acceleration are
exact, and the acceleration is within the threshold, but the denominator of the gain ratio is negative. -/
theorem C79_increase_false : let S := exGeoW 1
    let p := ((0, 0), S.initState (0, 0))
    S.velocity p.1 p.2 = (24, 7) ∧ S.acceleration p.1 p.2 (24, 7) = (0, -18) ∧ S.norm (24, 7) = 25 ∧ S.norm (0, -18) = 18 ∧
    (S.update p).1 = (-24, 2) ∧ p.2.value < (S.update p).2.value ∧ S.cont p = true := by
  decide +kernel

/-- **C79 is false, rejection**: on a quadratic residual function a step that decreases the cost from `2738` to less than
`1/1000` is rejected. -/
theorem C79_reject_false : let S := exGeoW 0
    let p := ((0, 0), S.initState (0, 0))
    S.velocity p.1 p.2 = (24, 7) ∧ S.acceleration p.1 p.2 (24, 7) = (0, -18) ∧ (S.update p).2.delta = (-24, 2) ∧
    2738 < p.2.value ∧ S.sumSq (S.residualFun (-24, 2)).1 / 2 < 1 / 1000 ∧ (S.update p).1 = (0, 0) := by
  decide +kernel

/-! ## Non-vacuity -/

/-- The one-dimensional example of C44 with geodesic acceleration. -/
def exGeo1 (c mu : ℚ) : LM ℚ ℚ ℚ ℚ Unit := { exLM c mu with geodesic := true }

/-- The assumptions hold for it. -/
theorem exGeo1_spec (c mu : ℚ) : LMGeoSpec (exGeo1 c mu) (fun x y => x * y) (fun x y => x * y) where
  ar := rfl
  hE := IsVdot.mul
  hF := IsVdot.mul
  dot := fun _ _ => rfl
  sumSq := fun _ => rfl
  ad := (exLM_spec c mu).ad
  mat := fun _ _ => rfl
  exactMat := by
    intro x mu' r hmu
    simp only [exGeo1, exLM, LM.jtjOp, smul_eq_mul]
    set j := 1 + 2 * c * (x - 1)
    have hne : j * j + mu' ≠ 0 := by nlinarith [mul_self_nonneg j]
    field_simp
  exactAcc := by
    intro x mu' r hmu
    simp only [exGeo1, exLM, LM.jtjOp, smul_eq_mul]
    set j := 1 + 2 * c * (x - 1)
    have hne : j * j + mu' ≠ 0 := by nlinarith [mul_self_nonneg j]
    field_simp
  exactFn := by
    intro x mu' b i hmu
    simp only [exGeo1, exLM, LM.jtjOp, smul_eq_mul, mul_one]
    set j := 1 + 2 * c * (x - 1)
    have hne : j * j + mu' ≠ 0 := by nlinarith [mul_self_nonneg j]
    field_simp
  geodesic := rfl

/-- An accepted step with velocity `1/2` and acceleration `1/16`. -/
example : (exGeo1 (1 / 4) 1).velocity 1 ((exGeo1 (1 / 4) 1).initState 1) = 1 / 2 ∧
    (exGeo1 (1 / 4) 1).acceleration 1 ((exGeo1 (1 / 4) 1).initState 1) (1 / 2) = 1 / 16 ∧
    0 < geoDenom (exGeo1 (1 / 4) 1) (fun x y => x * y) (1, (exGeo1 (1 / 4) 1).initState 1) ∧
    ((exGeo1 (1 / 4) 1).update (1, (exGeo1 (1 / 4) 1).initState 1)).1 = 1 - 1 / 2 - 1 / 32 := by
  decide +kernel

example : constructLM ⟨.name "qr", true, true, false⟩ = .ok ⟨some .jacfwd, some .jacfwd⟩ := rfl
example : constructLM ⟨.name "cholesky", true, false, true⟩ = .error "AttributeError: _jac_fun" := rfl

end Jaxopt.LeastSquares
