import Verif.LeastSquares.LM
import Verif.LeastSquares.GaussNewtonProps
import Verif.Base.Util
import Mathlib.Algebra.Order.Ring.Rat
import Mathlib.Algebra.Module.PUnit
import Mathlib.Tactic.NormNum

/-!
# Property C44: Levenberg-Marquardt never increases the cost
-/

set_option autoImplicit false
set_option linter.unusedSectionVars false
set_option linter.unusedVariables false

namespace Jaxopt.LeastSquares

open Jaxopt.Base

section
variable {K E F M A : Type*} [Field K] [LinearOrder K] [IsStrictOrderedRing K] [AddCommGroup E] [Module K E] [AddCommGroup F] [Module K F]
  [AddCommGroup M] [Module K M] [AddCommGroup A] [Module K A]

/-! ## Specification -/

/-- The assumptions of the property: exact arithmetic, true Jacobian, exact solution of the damped normal equations, no geodesic term. -/
structure LMSpec (S : LM K E F M A) (vdotE : E → E → K) (vdotF : F → F → K) : Prop where
  ar : S.ar = exactArith K
  hE : IsVdot vdotE
  hF : IsVdot vdotF
  dot : ∀ x y, S.dot x y = vdotE x y
  sumSq : ∀ r, S.sumSq r = vdotF r r
  ad : AutoDiff vdotE vdotF S.jvp S.vjp
  mat : ∀ x r, S.jacT (S.jacFun x) r = S.vjp x r
  exactMat : ∀ x mu, 0 < mu → S.jtjOp x (S.solveMat (S.jacFun x) mu (S.vjp x (S.residualFun x).1) (S.residualFun x).1) +
      mu • S.solveMat (S.jacFun x) mu (S.vjp x (S.residualFun x).1) (S.residualFun x).1 = S.vjp x (S.residualFun x).1
  exactFn : ∀ x mu i, 0 < mu → S.jtjOp x (S.solverFn (S.jtjOp x) (S.vjp x (S.residualFun x).1) mu i) +
      mu • S.solverFn (S.jtjOp x) (S.vjp x (S.residualFun x).1) mu i = S.vjp x (S.residualFun x).1
  geodesic : S.geodesic = false

/-- The cost of a point. -/
def lmCost (S : LM K E F M A) (vdotF : F → F → K) (x : E) : K := vdotF (S.residualFun x).1 (S.residualFun x).1 / 2

/-- The state describes the current parameters, the damping is positive and the increase factor between 2 and 2^32. -/
structure LMInv (S : LM K E F M A) (vdotF : F → F → K) (p : E × LMState K E F M A) : Prop where
  residual : p.2.residual = (S.residualFun p.1).1
  aux : p.2.aux = (S.residualFun p.1).2
  gradient : p.2.gradient = S.vjp p.1 (S.residualFun p.1).1
  value : p.2.value = lmCost S vdotF p.1
  error : p.2.error = S.norm p.2.gradient
  jac : p.2.jac = if S.materializeJac then some (S.jacFun p.1) else none
  damping : 0 < p.2.dampingFactor
  incLow : 2 ≤ p.2.increaseFactor
  incHigh : p.2.increaseFactor ≤ 2 ^ 32

variable {S : LM K E F M A} {vdotE : E → E → K} {vdotF : F → F → K}

/-! ## The select by multiplication is exact when all values are finite -/

theorem select_true {V : Type*} [AddCommGroup V] [Module K V] (hS : S.ar = exactArith K) (x y : V) : S.select true x y = x := by
  unfold LM.select
  rw [hS]
  simp [exactArith]

theorem select_false {V : Type*} [AddCommGroup V] [Module K V] (hS : S.ar = exactArith K) (x y : V) : S.select false x y = y := by
  unfold LM.select
  rw [hS]
  simp [exactArith]

theorem selectS_true (hS : S.ar = exactArith K) (x y : K) : S.selectS true x y = x := by
  unfold LM.selectS
  rw [hS]
  simp [exactArith]

theorem selectS_false (hS : S.ar = exactArith K) (x y : K) : S.selectS false x y = y := by
  unfold LM.selectS
  rw [hS]
  simp [exactArith]

/-- The velocity solves the damped normal equations. -/
theorem velocity_exact (h : LMSpec S vdotE vdotF) {p : E × LMState K E F M A} (hi : LMInv S vdotF p) :
    S.jtjOp p.1 (S.velocity p.1 p.2) + p.2.dampingFactor • S.velocity p.1 p.2 = p.2.gradient := by
  unfold LM.velocity
  rw [hi.jac]
  by_cases hm : S.materializeJac
  · rw [if_pos hm]
    simp only
    rw [hi.gradient, hi.residual]
    exact h.exactMat p.1 _ hi.damping
  · rw [if_neg hm]
    simp only
    rw [hi.gradient]
    exact h.exactFn p.1 _ _ hi.damping

/-- The gain-ratio denominator in terms of the velocity. -/
theorem denom_eq (h : LMSpec S vdotE vdotF) {p : E × LMState K E F M A} (hi : LMInv S vdotF p) :
    vdotE (-S.velocity p.1 p.2) (p.2.dampingFactor • -S.velocity p.1 p.2 - p.2.gradient) =
      2 * p.2.dampingFactor * vdotE (S.velocity p.1 p.2) (S.velocity p.1 p.2) +
        vdotF (S.jvp p.1 (S.velocity p.1 p.2)) (S.jvp p.1 (S.velocity p.1 p.2)) := by
  have e := velocity_exact h hi
  set v := S.velocity p.1 p.2
  have e2 : vdotE v p.2.gradient = vdotF (S.jvp p.1 v) (S.jvp p.1 v) + p.2.dampingFactor * vdotE v v := by
    rw [← e, h.hE.add_right, h.hE.smul_right]
    unfold LM.jtjOp
    rw [h.ad.adjoint]
  rw [h.hE.sub_right, h.hE.smul_right, h.hE.neg_left, h.hE.neg_right, h.hE.neg_left, e2]
  ring

/-- The gain ratio that `update` computes. -/
def gainRatio (S : LM K E F M A) (vdotE : E → E → K) (vdotF : F → F → K) (p : E × LMState K E F M A) : K :=
  let v := S.velocity p.1 p.2
  (lmCost S vdotF p.1 - lmCost S vdotF (p.1 - v)) / (vdotE (-v) (p.2.dampingFactor • -v - p.2.gradient) / 2)

/-- The update in closed form. -/
theorem update_closed (h : LMSpec S vdotE vdotF) {p : E × LMState K E F M A} (hi : LMInv S vdotF p) :
    let v := S.velocity p.1 p.2
    let rho := gainRatio S vdotE vdotF p
    let q := S.update p
    (0 < rho ∧ q.1 = p.1 - v ∧ q.2.residual = (S.residualFun q.1).1 ∧ q.2.aux = (S.residualFun q.1).2 ∧
      q.2.gradient = S.vjp q.1 (S.residualFun q.1).1 ∧ q.2.jac = (if S.materializeJac then some (S.jacFun q.1) else none) ∧
      q.2.dampingFactor = p.2.dampingFactor * max (1 / 3) (1 - (2 * rho - 1) ^ 3) ∧ q.2.increaseFactor = 2 ∧ q.2.delta = -v) ∨
    (rho ≤ 0 ∧ q.1 = p.1 ∧ q.2.residual = p.2.residual ∧ q.2.aux = p.2.aux ∧ q.2.gradient = p.2.gradient ∧ q.2.jac = p.2.jac ∧
      q.2.dampingFactor = min (p.2.dampingFactor * p.2.increaseFactor) (2 ^ 32) ∧
      q.2.increaseFactor = min (2 * p.2.increaseFactor) (2 ^ 32) ∧ q.2.delta = -v) := by
  intro v rho q
  have hdelta : q.2.delta = -v := by
    simp only [q, LM.update, h.geodesic, Bool.false_eq_true, if_false]
    rfl
  have hrho : S.ar.div (S.ar.sub p.2.value (S.ar.mul (S.ar.lit (1 / 2)) (S.sumSq (S.residualFun (p.1 + -v)).1)))
      (S.ar.mul (S.ar.lit (1 / 2)) (S.dot (-v) (p.2.dampingFactor • -v - p.2.gradient))) = rho := by
    rw [h.ar, h.sumSq, h.dot, hi.value]
    simp only [exactArith, rho, gainRatio, lmCost, ← sub_eq_add_neg]
    push_cast
    have e1 : (1 : K) / 2 * vdotF (S.residualFun (p.1 - v)).1 (S.residualFun (p.1 - v)).1 =
      vdotF (S.residualFun (p.1 - v)).1 (S.residualFun (p.1 - v)).1 / 2 := by ring
    have e2 : (1 : K) / 2 * vdotE (-v) (p.2.dampingFactor • -v - p.2.gradient) = vdotE (-v) (p.2.dampingFactor • -v - p.2.gradient) / 2 := by ring
    rw [e1, e2]
  have hmet : (S.ar.gt rho (S.ar.lit 0) && S.ar.le (S.ar.lit 0) (S.ar.lit 0)) = decide (0 < rho) := by
    rw [h.ar]; simp [exactArith]
  have hjac : p.2.jac = if S.materializeJac then some (S.jacFun p.1) else none := hi.jac
  have hq : S.updateStateUsingDeltaParams p.2.value (-v) (S.ar.lit 0)
      ⟨p.1, p.2.dampingFactor, p.2.increaseFactor, p.2.residual, p.2.gradient, p.2.jac, p.2.aux⟩ =
      S.updateStateUsingGainRatio rho (S.ar.lit 0) ⟨p.1, p.2.dampingFactor, p.2.increaseFactor, p.2.residual, p.2.gradient, p.2.jac, p.2.aux⟩
        (p.1 + -v) := by
    unfold LM.updateStateUsingDeltaParams
    simp only
    rw [hrho]
  have hupd : q.1 = (S.updateStateUsingGainRatio rho (S.ar.lit 0)
        ⟨p.1, p.2.dampingFactor, p.2.increaseFactor, p.2.residual, p.2.gradient, p.2.jac, p.2.aux⟩ (p.1 + -v)).params ∧
      q.2.residual = (S.updateStateUsingGainRatio rho (S.ar.lit 0)
        ⟨p.1, p.2.dampingFactor, p.2.increaseFactor, p.2.residual, p.2.gradient, p.2.jac, p.2.aux⟩ (p.1 + -v)).residual ∧
      q.2.gradient = (S.updateStateUsingGainRatio rho (S.ar.lit 0)
        ⟨p.1, p.2.dampingFactor, p.2.increaseFactor, p.2.residual, p.2.gradient, p.2.jac, p.2.aux⟩ (p.1 + -v)).gradient ∧
      q.2.jac = (S.updateStateUsingGainRatio rho (S.ar.lit 0)
        ⟨p.1, p.2.dampingFactor, p.2.increaseFactor, p.2.residual, p.2.gradient, p.2.jac, p.2.aux⟩ (p.1 + -v)).jac ∧
      q.2.aux = (S.updateStateUsingGainRatio rho (S.ar.lit 0)
        ⟨p.1, p.2.dampingFactor, p.2.increaseFactor, p.2.residual, p.2.gradient, p.2.jac, p.2.aux⟩ (p.1 + -v)).aux ∧
      q.2.dampingFactor = (S.updateStateUsingGainRatio rho (S.ar.lit 0)
        ⟨p.1, p.2.dampingFactor, p.2.increaseFactor, p.2.residual, p.2.gradient, p.2.jac, p.2.aux⟩ (p.1 + -v)).dampingFactor ∧
      q.2.increaseFactor = (S.updateStateUsingGainRatio rho (S.ar.lit 0)
        ⟨p.1, p.2.dampingFactor, p.2.increaseFactor, p.2.residual, p.2.gradient, p.2.jac, p.2.aux⟩ (p.1 + -v)).increaseFactor := by
    rw [← hq]
    simp only [q, LM.update, h.geodesic, Bool.false_eq_true, if_false]
    exact ⟨rfl, rfl, rfl, rfl, rfl, rfl, rfl⟩
  obtain ⟨u1, u2, u3, u4, u5, u6, u7⟩ := hupd
  unfold LM.updateStateUsingGainRatio at u1 u2 u3 u4 u5 u6 u7
  simp only [hmet] at u1 u2 u3 u4 u5 u6 u7
  by_cases hr : 0 < rho
  · left
    simp only [hr, decide_true, select_true h.ar, selectS_true h.ar] at u1 u2 u3 u4 u5 u6 u7
    have hx : q.1 = p.1 - v := by rw [u1, sub_eq_add_neg]; rfl
    have hx' : p.1 + -v = q.1 := by rw [hx, sub_eq_add_neg]
    simp only [LM.testTrue, LM.testFalse, hx'] at u2 u3 u4 u5 u6 u7
    refine ⟨hr, hx, u2, u5, ?_, ?_, ?_, ?_, hdelta⟩
    · rw [u3]
      by_cases hm : S.materializeJac
      · simp only [hm, if_true]; exact h.mat _ _
      · simp only [hm]; rfl
    · rw [u4, hjac]
      by_cases hm : S.materializeJac <;> simp [hm]
    · rw [u6, h.ar]
      simp only [exactArith]
      push_cast
      congr 3
      ring
    · rw [u7, h.ar]; simp [exactArith]
  · right
    simp only [hr, decide_false, select_false h.ar, selectS_false h.ar] at u1 u2 u3 u4 u5 u6 u7
    simp only [LM.testTrue, LM.testFalse, LM.factorMax] at u1 u2 u3 u4 u5 u6 u7
    refine ⟨not_lt.mp hr, u1, u2, u5, u3, ?_, ?_, ?_, hdelta⟩
    · rw [u4, hjac]
      by_cases hm : S.materializeJac <;> simp [hm]
    · rw [u6, h.ar]; simp [exactArith]
    · rw [u7, h.ar]; simp [exactArith]

theorem value_eq (h : LMSpec S vdotE vdotF) (p : E × LMState K E F M A) :
    (S.update p).2.value = vdotF (S.update p).2.residual (S.update p).2.residual / 2 := by
  have : (S.update p).2.value = S.ar.mul (S.ar.lit (1 / 2)) (S.sumSq (S.update p).2.residual) := rfl
  rw [this, h.ar, h.sumSq]
  simp only [exactArith]
  push_cast
  ring

/-- The gain ratio is positive exactly if the trial point has a strictly lower cost. -/
theorem gainRatio_pos_iff (h : LMSpec S vdotE vdotF) {p : E × LMState K E F M A} (hi : LMInv S vdotF p) :
    0 < gainRatio S vdotE vdotF p ↔ lmCost S vdotF (p.1 - S.velocity p.1 p.2) < lmCost S vdotF p.1 := by
  unfold gainRatio
  simp only
  rw [denom_eq h hi]
  set v := S.velocity p.1 p.2
  by_cases hv : v = 0
  · rw [hv, sub_zero, h.hE.zero_left, h.ad.zero, h.hF.zero_left]
    simp
  · have h1 : 0 < vdotE v v := h.hE.pos v hv
    have h2 := h.hF.nonneg (S.jvp p.1 v)
    have h3 : 0 < (2 * p.2.dampingFactor * vdotE v v + vdotF (S.jvp p.1 v) (S.jvp p.1 v)) / 2 := by
      have := mul_pos hi.damping h1
      nlinarith
    rw [div_pos_iff_of_pos_right h3, sub_pos]

/-- The damping multiplier of an accepted step lies in `[1/3, 2)`. -/
theorem multiplier_bounds {rho : K} (hr : 0 < rho) : 1 / 3 ≤ max (1 / 3) (1 - (2 * rho - 1) ^ 3) ∧ max (1 / 3) (1 - (2 * rho - 1) ^ 3) < 2 := by
  refine ⟨le_max_left _ _, max_lt (by norm_num) ?_⟩
  have : (2 * rho - 1) ^ 3 + 1 = 2 * rho * ((2 * rho - 1) ^ 2 - (2 * rho - 1) + 1) := by ring
  have h2 : 0 < (2 * rho - 1) ^ 2 - (2 * rho - 1) + 1 := by nlinarith [sq_nonneg (2 * rho - 1 - 1 / 2)]
  have h3 := mul_pos (mul_pos (by norm_num : (0 : K) < 2) hr) h2
  linarith

/-- **C44**, one update (finite residuals).  Either the cost strictly decreases, the state describes the new point, and the damping is
adapted by a factor in `[1/3, 2)`; or parameters, residual, gradient and value are unchanged and the damping is raised, as long as it is
below its cap.  The trial point is accepted exactly if its cost is lower.
Partial: non-finite trial residuals (`C44_nonfinite_false`) and the cap (`C44_raise_false`, `C44_bounded_false`). -/
theorem C44_update_partial (h : LMSpec S vdotE vdotF) {p : E × LMState K E F M A} (hi : LMInv S vdotF p) :
    let q := S.update p
    let trial := p.1 - S.velocity p.1 p.2
    LMInv S vdotF q ∧
    ((lmCost S vdotF trial < lmCost S vdotF p.1 ∧ q.1 = trial ∧ lmCost S vdotF q.1 < lmCost S vdotF p.1 ∧
        p.2.dampingFactor / 3 ≤ q.2.dampingFactor ∧ q.2.dampingFactor < 2 * p.2.dampingFactor ∧ q.2.increaseFactor = 2) ∨
      (lmCost S vdotF p.1 ≤ lmCost S vdotF trial ∧ q.1 = p.1 ∧ q.2.residual = p.2.residual ∧ q.2.gradient = p.2.gradient ∧
        q.2.value = p.2.value ∧ (p.2.dampingFactor < 2 ^ 32 → p.2.dampingFactor < q.2.dampingFactor) ∧ q.2.dampingFactor ≤ 2 ^ 32)) := by
  intro q trial
  have hval : q.2.value = vdotF q.2.residual q.2.residual / 2 := value_eq h p
  have herr : q.2.error = S.norm q.2.gradient := rfl
  have hiff := gainRatio_pos_iff h hi
  rcases update_closed h hi with ⟨c0, c1, c2, c3, c4, c5, c6, c7, c8⟩ | ⟨c0, c1, c2, c3, c4, c5, c6, c7, c8⟩
  · obtain ⟨b1, b2⟩ := multiplier_bounds c0
    have hd := hi.damping
    refine ⟨⟨c2, c3, c4, ?_, herr, c5, ?_, ?_, ?_⟩, Or.inl ⟨hiff.mp c0, c1, ?_, ?_, ?_, c7⟩⟩
    · rw [hval, c2]; rfl
    · rw [c6]; exact mul_pos hd (lt_of_lt_of_le (by norm_num) b1)
    · rw [c7]
    · rw [c7]; norm_num
    · rw [c1]; exact hiff.mp c0
    · rw [c6]; have := mul_le_mul_of_nonneg_left b1 hd.le; linarith
    · rw [c6]; have := mul_lt_mul_of_pos_left b2 hd; linarith
  · have hd := hi.damping
    have hlow := hi.incLow
    have hmul : p.2.dampingFactor < p.2.dampingFactor * p.2.increaseFactor := by nlinarith
    refine ⟨⟨?_, ?_, ?_, ?_, herr, ?_, ?_, ?_, ?_⟩, Or.inr ⟨?_, c1, c2, c4, ?_, ?_, ?_⟩⟩
    · rw [c2, c1]; exact hi.residual
    · rw [c3, c1]; exact hi.aux
    · rw [c4, c1]; exact hi.gradient
    · rw [hval, c2, c1, hi.residual]; rfl
    · rw [c5, c1]; exact hi.jac
    · rw [c6]; exact lt_min (lt_trans hd hmul) (by norm_num)
    · rw [c7]; exact le_min (by linarith) (by norm_num)
    · rw [c7]; exact min_le_right _ _
    · have : ¬ lmCost S vdotF trial < lmCost S vdotF p.1 := fun hc => absurd (hiff.mpr hc) (not_lt.mpr c0)
      exact not_lt.mp this
    · rw [hval, c2, hi.value, hi.residual]; rfl
    · intro hlt; rw [c6]; exact lt_min hmul hlt
    · rw [c6]; exact min_le_right _ _

/-- The initial state satisfies the invariant. -/
theorem init_inv (h : LMSpec S vdotE vdotF) {x0 : E} (hd : 0 < S.dampingParameter) (hm : 0 < S.maxDiag x0) :
    LMInv S vdotF (x0, S.initState x0) := by
  refine ⟨rfl, rfl, ?_, ?_, rfl, rfl, ?_, ?_, ?_⟩
  · simp only [LM.initState]
    by_cases hmm : S.materializeJac
    · simp only [hmm, if_true]; exact h.mat _ _
    · simp only [hmm]; rfl
  · simp only [LM.initState]
    rw [h.ar, h.sumSq]
    simp only [exactArith, lmCost]
    push_cast
    ring
  · simp only [LM.initState]
    rw [h.ar]
    exact mul_pos hd hm
  · simp only [LM.initState]
    rw [h.ar]
    simp [exactArith]
  · simp only [LM.initState]
    rw [h.ar]
    simp only [exactArith]
    norm_num

/-- **C44**, all histories: from any consistent start, after every number of updates the state describes the parameters, the damping is
positive, and the cost has not increased. -/
theorem C44_history (h : LMSpec S vdotE vdotF) {p : E × LMState K E F M A} (hi : LMInv S vdotF p) (k : ℕ) :
    LMInv S vdotF (S.update^[k] p) ∧
    ∀ j ≤ k, lmCost S vdotF (S.update^[k] p).1 ≤ lmCost S vdotF (S.update^[j] p).1 := by
  induction k with
  | zero => exact ⟨hi, fun j hj => by rw [Nat.le_zero.mp hj]⟩
  | succ k ih =>
    rw [Function.iterate_succ_apply']
    obtain ⟨h1, h2⟩ := C44_update_partial h ih.1
    have hle : lmCost S vdotF (S.update (S.update^[k] p)).1 ≤ lmCost S vdotF (S.update^[k] p).1 := by
      rcases h2 with ⟨-, -, h2, -⟩ | ⟨-, h2, -⟩
      · exact h2.le
      · rw [h2]
    refine ⟨h1, fun j hj => ?_⟩
    rcases Nat.lt_or_ge j (k + 1) with hj' | hj'
    · exact le_trans hle (ih.2 j (by omega))
    · have : j = k + 1 := by omega
      rw [this, Function.iterate_succ_apply']

/-- **C44**, damping along a history: positive, and at most doubled by a step. -/
theorem C44_damping_partial (h : LMSpec S vdotE vdotF) {p : E × LMState K E F M A} (hi : LMInv S vdotF p) (k : ℕ) :
    0 < (S.update^[k] p).2.dampingFactor ∧ (S.update^[k] p).2.dampingFactor ≤ 2 ^ k * max p.2.dampingFactor (2 ^ 32) := by
  refine ⟨(C44_history h hi k).1.damping, ?_⟩
  induction k with
  | zero => simp
  | succ k ih =>
    rw [Function.iterate_succ_apply']
    obtain ⟨-, h2⟩ := C44_update_partial h (C44_history h hi k).1
    have hmax : (2 : K) ^ 32 ≤ max p.2.dampingFactor (2 ^ 32) := le_max_right _ _
    have hpos : (0 : K) < max p.2.dampingFactor (2 ^ 32) := lt_of_lt_of_le (by norm_num) hmax
    rcases h2 with ⟨-, -, -, -, h3, -⟩ | ⟨-, -, -, -, -, -, h3⟩
    · rw [pow_succ]; linarith
    · refine le_trans h3 (le_trans hmax ?_)
      have : (1 : K) ≤ 2 ^ (k + 1) := one_le_pow₀ (by norm_num)
      nlinarith

/-- **C44**, a run: with positive damping the returned parameters have cost at most that of the initial ones, and the reported value,
residual and gradient belong to the returned parameters. -/
theorem C44_run (h : LMSpec S vdotE vdotF) (hm : 1 ≤ S.maxiter) {x0 : E} (hd : 0 < S.dampingParameter) (hdiag : 0 < S.maxDiag x0)
    {r : E × LMState K E F M A} (hr : S.run x0 = .ok r) :
    lmCost S vdotF r.1 ≤ lmCost S vdotF x0 ∧ r.2.value = lmCost S vdotF r.1 ∧ r.2.residual = (S.residualFun r.1).1 ∧
    r.2.gradient = S.vjp r.1 (S.residualFun r.1).1 ∧ 0 < r.2.dampingFactor := by
  unfold LM.run at hr
  cases hp : S.postInit with
  | error e => rw [hp] at hr; cases hr
  | ok u =>
    rw [hp] at hr
    obtain ⟨k, h1, h2, h3, -, -⟩ := runS_spec hm hr
    obtain ⟨hinv, hcost⟩ := C44_history h (init_inv h hd hdiag) k
    rw [← h3] at hinv hcost
    exact ⟨hcost 0 (Nat.zero_le _), hinv.value, hinv.residual, hinv.gradient, hinv.damping⟩

/-- **C44**, accepted configurations: construction and run succeed exactly when the QR solver is not combined with
`materialize_jac=False`, and the loop is compiled or unrolled. -/
theorem C44_accepted (S : LM K E F M A) (hm : 1 ≤ S.maxiter) (x0 : E) :
    (∃ r, S.run x0 = .ok r) ↔ (S.solver = .qr → S.materializeJac = true) ∧ (S.unroll = true ∨ S.jit = true) := by
  unfold LM.run LM.postInit
  by_cases hq : S.solver = .qr ∧ S.materializeJac = false
  · simp [hq.1, hq.2, Except.bind]
  · have hc : (!S.materializeJac && S.solver == .qr) = false := by
      cases hm' : S.materializeJac
      · simp only [hm', and_true] at hq
        simp [hq]
      · simp
    have h1 : S.solver = .qr → S.materializeJac = true := fun h => by
      cases hm' : S.materializeJac
      · exact absurd ⟨h, hm'⟩ hq
      · rfl
    simp only [hc, Bool.false_eq_true, if_false, Except.bind]
    constructor
    · rintro ⟨r, hr⟩
      refine ⟨h1, ?_⟩
      by_contra hb
      simp only [not_or, Bool.not_eq_true] at hb
      have e : ((S.maxiter : Int) - 1) = ((S.maxiter - 1 : ℕ) : Int) := by omega
      rw [hb.1, hb.2] at hr
      rcases C01_loop_backends_agree S.cont S.update (S.update (x0, S.initState x0)) (S.maxiter - 1) false false with
        ⟨_, _, er, he⟩ | ⟨h, _⟩
      · simp only [runS, e, he] at hr; cases hr
      · simp at h
    · rintro ⟨_, hb⟩
      exact runS_ok _ _ _ _ hm hb

/-- **C44**, the stopping test: if the loop stops, the documented condition holds: under 'madsen-nielsen',
`‖grad‖_inf ≤ gtol` or `‖delta‖ ≤ xtol (‖params‖ + xtol)`; under 'grad-l2-norm', the gradient norm at the current parameters is at most
`tol`.  Partial: the converse of the first fails (`C44_criterion_false`). -/
theorem C44_stop_partial (h : LMSpec S vdotE vdotF) {p : E × LMState K E F M A} (hi : LMInv S vdotF p) (hx : 0 ≤ S.xtol)
    (hstop : S.cont p = false) :
    (S.stopCriterion = .madsenNielsen ∧
      (S.infNorm (S.vjp p.1 (S.residualFun p.1).1) ≤ S.gtol ∨ S.norm p.2.delta ≤ S.xtol * (S.norm p.1 + S.xtol))) ∨
    (S.stopCriterion = .gradL2Norm ∧ S.norm (S.vjp p.1 (S.residualFun p.1).1) ≤ S.tol) := by
  unfold LM.cont at hstop
  cases hc : S.stopCriterion with
  | madsenNielsen =>
    left
    rw [hc, h.ar] at hstop
    simp only [exactArith, Bool.and_eq_false_iff, decide_eq_false_iff_not, not_lt] at hstop
    refine ⟨rfl, ?_⟩
    rw [← hi.gradient]
    rcases hstop with hs | hs
    · left; exact hs
    · right; nlinarith
  | gradL2Norm =>
    right
    rw [hc, h.ar] at hstop
    simp only [exactArith, decide_eq_false_iff_not, not_lt] at hstop
    rw [hi.error, hi.gradient] at hstop
    exact ⟨rfl, hstop⟩

end

/-! ## Witnesses -/

/-- One unknown, one residual `r(x) = 1 + (x - 1) + c (x - 1)^2` with its true derivative, damping parameter `mu`, matrix-free. -/
def exLM (c mu : ℚ) : LM ℚ ℚ ℚ ℚ Unit where
  ar := exactArith ℚ
  residualFun := fun x => (1 + (x - 1) + c * ((x - 1) * (x - 1)), ())
  jvp := fun x v => (1 + 2 * c * (x - 1)) * v
  vjp := fun x w => (1 + 2 * c * (x - 1)) * w
  d2fvv := fun x u v => 2 * c * u * v
  jacFun := fun x => 1 + 2 * c * (x - 1)
  jacT := fun J r => J * r
  maxDiag := fun x => (1 + 2 * c * (x - 1)) * (1 + 2 * c * (x - 1))
  solverFn := fun op b ridge _ => b / (op 1 + ridge)
  solveMat := fun J mu g _ => g / (J * J + mu)
  accMat := fun J mu r => J * r / (J * J + mu)
  dot := fun x y => x * y
  sumSq := fun r => r * r
  norm := fun x => |x|
  infNorm := fun x => |x|
  zero := 0
  solver := .callable
  materializeJac := false
  geodesic := false
  contributionRatioThreshold := 3 / 4
  dampingParameter := mu
  stopCriterion := .madsenNielsen
  tol := 1 / 1000
  xtol := 1 / 1000
  gtol := 1 / 1000
  maxiter := 10
  unroll := false
  jit := true

/-- The damping is not bounded by `damping_factor_max`: an accepted step with a small gain ratio raises it above. -/
theorem C44_bounded_false : ∃ (S : LM ℚ ℚ ℚ ℚ Unit) (x0 : ℚ), S.ar = exactArith ℚ ∧ S.geodesic = false ∧
    (S.initState x0).dampingFactor ≤ S.factorMax ∧ S.factorMax < (S.update (x0, S.initState x0)).2.dampingFactor := by
  refine ⟨exLM ((1 + 2 ^ 32) * (3 / 4)) (2 ^ 32), 1, rfl, rfl, ?_, ?_⟩
  · decide +kernel
  · decide +kernel

/-- A rejected step does not raise the damping once it has reached `damping_factor_max`. -/
theorem C44_raise_false : ∃ (S : LM ℚ ℚ ℚ ℚ Unit) (x0 : ℚ), S.ar = exactArith ℚ ∧ S.geodesic = false ∧
    (S.update (x0, S.initState x0)).1 = x0 ∧
    (S.update (x0, S.initState x0)).2.dampingFactor = (S.initState x0).dampingFactor := by
  refine ⟨exLM (2 * (1 + 2 ^ 32)) (2 ^ 32), 1, rfl, rfl, ?_, ?_⟩
  · decide +kernel
  · decide +kernel

/-- The 'madsen-nielsen' test uses `‖params‖ - xtol` where the documentation says `‖params‖ + xtol`: it continues although the documented
condition holds, here with zero parameters and a zero step. -/
theorem C44_criterion_false : ∃ (S : LM ℚ ℚ ℚ ℚ Unit) (p : ℚ × LMState ℚ ℚ ℚ ℚ Unit), S.ar = exactArith ℚ ∧
    S.stopCriterion = .madsenNielsen ∧ 0 < S.xtol ∧ S.norm p.2.delta ≤ S.xtol * (S.norm p.1 + S.xtol) ∧ S.cont p = true := by
  refine ⟨exLM 0 1, (0, { (exLM 0 1).initState 0 with gradient := 1 }), rfl, rfl, ?_, ?_, ?_⟩ <;> decide +kernel

section
/-- Componentwise IEEE operations for one-dimensional parameters. -/
local instance : Add (Ext ℚ) := ⟨Ext.add⟩
local instance : Neg (Ext ℚ) := ⟨Ext.neg⟩
local instance : Sub (Ext ℚ) := ⟨Ext.sub⟩
local instance : SMul (Ext ℚ) (Ext ℚ) := ⟨Ext.mul⟩
local instance : SMul (Ext ℚ) Unit := ⟨fun _ _ => ()⟩

/-- One unknown, the residual is `x + 1` for `x ≥ 0` and NaN for negative `x` (a residual with a limited domain). -/
def exLMNan : LM (Ext ℚ) (Ext ℚ) (Ext ℚ) Unit Unit where
  ar := ieeeArith ℚ
  residualFun := fun x => (if Ext.le (.fin 0) x then Ext.add x (.fin 1) else .nan, ())
  jvp := fun x v => v
  vjp := fun x w => w
  d2fvv := fun _ _ _ => .fin 0
  jacFun := fun _ => ()
  jacT := fun _ r => r
  maxDiag := fun _ => .fin 1
  solverFn := fun op b ridge _ => Ext.div b (Ext.add (.fin 1) ridge)
  solveMat := fun _ _ _ _ => .nan
  accMat := fun _ _ _ => .nan
  dot := Ext.mul
  sumSq := fun r => Ext.mul r r
  norm := Ext.abs
  infNorm := Ext.abs
  zero := .fin 0
  solver := .callable
  materializeJac := false
  geodesic := false
  contributionRatioThreshold := .fin (3 / 4)
  dampingParameter := .fin (1 / 1000)
  stopCriterion := .gradL2Norm
  tol := .fin (1 / 1000)
  xtol := .fin (1 / 1000)
  gtol := .fin (1 / 1000)
  maxiter := 10
  unroll := false
  jit := true

/-- A non-finite trial residual: the step is rejected, but the selection by multiplication turns residual, gradient, value and damping
into NaN (`0 * nan = nan`); the stopping test then ends the run. -/
theorem C44_nonfinite_false : ∃ (S : LM (Ext ℚ) (Ext ℚ) (Ext ℚ) Unit Unit) (x0 : Ext ℚ), S.ar = ieeeArith ℚ ∧ S.geodesic = false ∧
    (S.initState x0).residual = .fin (5 / 4) ∧ (S.initState x0).gradient = .fin (5 / 4) ∧
    (S.initState x0).dampingFactor = .fin (1 / 1000) ∧
    (S.update (x0, S.initState x0)).1 = x0 ∧ (S.update (x0, S.initState x0)).2.residual = .nan ∧
    (S.update (x0, S.initState x0)).2.gradient = .nan ∧ (S.update (x0, S.initState x0)).2.dampingFactor = .nan ∧
    S.cont (S.update (x0, S.initState x0)) = false := by
  refine ⟨exLMNan, .fin (1 / 4), rfl, rfl, ?_, ?_, ?_, ?_, ?_, ?_, ?_, ?_⟩ <;> decide +kernel

end

/-! ## Non-vacuity -/

/-- The assumptions hold for the example. -/
theorem exLM_spec (c mu : ℚ) : LMSpec (exLM c mu) (fun x y => x * y) (fun x y => x * y) where
  ar := rfl
  hE := IsVdot.mul
  hF := IsVdot.mul
  dot := fun _ _ => rfl
  sumSq := fun _ => rfl
  ad := ⟨fun x u v => by simp only [exLM]; ring, fun x a u => by simp only [exLM, smul_eq_mul]; ring, fun x u w => by simp only [exLM]; ring⟩
  mat := fun _ _ => rfl
  exactMat := by
    intro x mu' hmu
    simp only [exLM, LM.jtjOp, smul_eq_mul]
    set j := 1 + 2 * c * (x - 1)
    have hne : j * j + mu' ≠ 0 := by nlinarith [mul_self_nonneg j]
    field_simp
  exactFn := by
    intro x mu' i hmu
    simp only [exLM, LM.jtjOp, smul_eq_mul, mul_one]
    set j := 1 + 2 * c * (x - 1)
    have hne : j * j + mu' ≠ 0 := by nlinarith [mul_self_nonneg j]
    field_simp
  geodesic := rfl

/-- An accepted step: the cost drops from 1/2 to 1/8. -/
example : (((exLM 0 1).update (1, (exLM 0 1).initState 1))).1 = 1 / 2 ∧ ((exLM 0 1).update (1, (exLM 0 1).initState 1)).2.value = 1 / 8 := by
  decide +kernel

end Jaxopt.LeastSquares
