import Verif.Base.RunS
import Verif.Num.ExtArith
import Mathlib.Data.Rat.Cast.Order
import Mathlib.Algebra.Order.Field.Basic
import Mathlib.Tactic.TypeStar

/-!
# Model of `jaxopt/_src/levenberg_marquardt.py`

The model is parametrised by the scalar arithmetic `ar : Arith R`, because `update_state_using_gain_ratio` selects between two results by
multiplying with 0 and 1, which matters when a residual is not finite: `exactArith` is exact arithmetic in an ordered field, `ieeeArith`
is arithmetic with infinities and NaN.  `jvp`, `vjp` and `d2fvv` are `jax.jvp`, `jax.vjp` of the residual function and `_d2fvv_op`.
The fields `jt`, `jtj` and `hess_res` of the state are recomputed where they are used (from `jac`, respectively from the
parameters) instead of being carried.  `verbose` is left out.
-/

set_option autoImplicit false
set_option linter.unusedSectionVars false
set_option linter.unusedVariables false

namespace Jaxopt

namespace Ext

variable {K : Type*}

/-- IEEE multiplication. -/
def mul [Mul K] [Zero K] [LT K] [DecidableRel (α := K) (· < ·)] : Ext K → Ext K → Ext K
  | nan, _ => nan
  | fin x, b => smul x b
  | a, fin y => smul y a
  | _, nan => nan
  | pinf, pinf => pinf
  | pinf, ninf => ninf
  | ninf, pinf => ninf
  | ninf, ninf => pinf

/-- IEEE division (the sign of a zero denominator is taken to be positive). -/
def div [Field K] [LT K] [DecidableEq K] [DecidableRel (α := K) (· < ·)] : Ext K → Ext K → Ext K
  | nan, _ => nan
  | _, nan => nan
  | fin x, fin y => if y = 0 then (if x = 0 then nan else if 0 < x then pinf else ninf) else fin (x / y)
  | fin _, _ => fin 0
  | pinf, fin y => if y < 0 then ninf else pinf
  | ninf, fin y => if y < 0 then pinf else ninf
  | _, _ => nan

end Ext

namespace LeastSquares

open Jaxopt.Base

/-- Scalar arithmetic. -/
structure Arith (R : Type*) where
  add : R → R → R
  sub : R → R → R
  mul : R → R → R
  div : R → R → R
  max : R → R → R
  min : R → R → R
  lit : ℚ → R
  gt : R → R → Bool
  le : R → R → Bool

/-- Exact arithmetic in an ordered field. -/
def exactArith (K : Type*) [Field K] [LinearOrder K] : Arith K where
  add := (· + ·)
  sub := (· - ·)
  mul := (· * ·)
  div := (· / ·)
  max := Max.max
  min := Min.min
  lit := fun q => (q : K)
  gt := fun a b => decide (b < a)
  le := fun a b => decide (a ≤ b)

/-- Arithmetic with infinities and NaN. -/
def ieeeArith (K : Type*) [Field K] [LinearOrder K] : Arith (Ext K) where
  add := Ext.add
  sub := Ext.sub
  mul := Ext.mul
  div := Ext.div
  max := Ext.max
  min := Ext.min
  lit := fun q => .fin (q : K)
  gt := Ext.gt
  le := Ext.le

/-- `solver`, levenberg_marquardt.py line 154. -/
inductive SolverKind where
  | callable | cholesky | lu | qr | inv
  deriving DecidableEq

/-- `stop_criterion`, levenberg_marquardt.py line 149; any other string raises `NotImplementedError`. -/
inductive StopCriterion where
  | gradL2Norm | madsenNielsen
  deriving DecidableEq

/-- Attributes of `LevenbergMarquardt`, levenberg_marquardt.py lines 143-165.  `residualFun` is `_fun_with_aux`.
`jacFun` is `_jac_fun`, `jacT J r` is `J.T @ r`.  `maxDiag x` is `max(diag(J^T J))` at `x`.  `solverFn op b ridge init` is
`self.solver_fn`; `solveMat J mu g r` is the velocity of the branches `materialize_jac=True` (lines 370-392; `r` is the residual, used
by 'qr' only) and `accMat J mu rpp` the acceleration (lines 394-408). -/
structure LM (R E F M A : Type*) where
  ar : Arith R
  residualFun : E → F × A
  jvp : E → E → F
  vjp : E → F → E
  d2fvv : E → E → E → F
  jacFun : E → M
  jacT : M → F → E
  maxDiag : E → R
  solverFn : (E → E) → E → R → Option E → E
  solveMat : M → R → E → F → E
  accMat : M → R → F → E
  dot : E → E → R
  sumSq : F → R
  norm : E → R
  infNorm : E → R
  zero : E
  solver : SolverKind
  materializeJac : Bool
  geodesic : Bool
  contributionRatioThreshold : R
  dampingParameter : R
  stopCriterion : StopCriterion
  tol : R
  xtol : R
  gtol : R
  maxiter : ℕ
  unroll : Bool
  jit : Bool

/-- `LevenbergMarquardtState`, levenberg_marquardt.py lines 40-54. -/
structure LMState (R E F M A : Type*) where
  iterNum : ℕ
  dampingFactor : R
  increaseFactor : R
  residual : F
  value : R
  delta : E
  error : R
  gradient : E
  jac : Option M
  aux : A

/-- The tuple that `update_state_using_gain_ratio` returns. -/
structure Branch (R E F M A : Type*) where
  params : E
  dampingFactor : R
  increaseFactor : R
  residual : F
  gradient : E
  jac : Option M
  aux : A

namespace LM

variable {R E F M A : Type*} [Add E] [Neg E] [Sub E] [SMul R E] [Add F] [SMul R F] [Add M] [SMul R M] [Add A] [SMul R A]

/-- `damping_factor_max`, `increase_factor_max`, levenberg_marquardt.py lines 486-487. -/
def factorMax (S : LM R E F M A) : R := S.ar.lit (2 ^ 32)

/-- `_jtj_op`, levenberg_marquardt.py lines 523-529. -/
def jtjOp (S : LM R E F M A) (x v : E) : E := S.vjp x (S.jvp x v)

/-- `_cond_fun`, levenberg_marquardt.py lines 169-182. -/
def cont (S : LM R E F M A) (p : E × LMState R E F M A) : Bool :=
  match S.stopCriterion with
  | .madsenNielsen =>
    let treeMulTerm := S.ar.mul S.xtol (S.ar.sub (S.norm p.1) S.xtol)
    S.ar.gt (S.infNorm p.2.gradient) S.gtol && S.ar.gt (S.norm p.2.delta) treeMulTerm
  | .gradL2Norm => S.ar.gt p.2.error S.tol

/-- `init_state`, levenberg_marquardt.py lines 184-233. -/
def initState (S : LM R E F M A) (x0 : E) : LMState R E F M A :=
  let ra := S.residualFun x0
  let jac := if S.materializeJac then some (S.jacFun x0) else none
  let gradient := match jac with
    | some J => S.jacT J ra.1
    | none => S.vjp x0 ra.1
  { iterNum := 0
    dampingFactor := S.ar.mul S.dampingParameter (S.maxDiag x0)
    increaseFactor := S.ar.lit 2
    error := S.norm gradient
    residual := ra.1
    value := S.ar.mul (S.ar.lit (1 / 2)) (S.sumSq ra.1)
    delta := S.zero
    gradient := gradient
    jac := jac
    aux := ra.2 }

/-- `gain_ratio_test_true_func`, levenberg_marquardt.py lines 243-277. -/
def testTrue (S : LM R E F M A) (gainRatio : R) (b : Branch R E F M A) (updated : E) : Branch R E F M A :=
  let ra := S.residualFun updated
  let jac := if S.materializeJac then some (S.jacFun updated) else none
  let gradient := match jac with
    | some J => S.jacT J ra.1
    | none => S.vjp updated ra.1
  let t := S.ar.sub (S.ar.mul (S.ar.lit 2) gainRatio) (S.ar.lit 1)
  { params := updated
    dampingFactor := S.ar.mul b.dampingFactor (S.ar.max (S.ar.lit (1 / 3)) (S.ar.sub (S.ar.lit 1) (S.ar.mul (S.ar.mul t t) t)))
    increaseFactor := S.ar.lit 2
    residual := ra.1
    gradient := gradient
    jac := jac
    aux := ra.2 }

/-- `gain_ratio_test_false_func`, levenberg_marquardt.py lines 279-284. -/
def testFalse (S : LM R E F M A) (b : Branch R E F M A) : Branch R E F M A :=
  { b with
    dampingFactor := S.ar.min (S.ar.mul b.dampingFactor b.increaseFactor) S.factorMax
    increaseFactor := S.ar.min (S.ar.mul (S.ar.lit 2) b.increaseFactor) S.factorMax }

/-- `gain_ratio_test_is_met * x + (1.0 - gain_ratio_test_is_met) * y`, levenberg_marquardt.py lines 298-307, on vectors. -/
def select {V : Type*} [Add V] [SMul R V] (S : LM R E F M A) (met : Bool) (x y : V) : V :=
  let c := S.ar.lit (if met then 1 else 0)
  c • x + S.ar.sub (S.ar.lit 1) c • y

/-- The same on scalars. -/
def selectS (S : LM R E F M A) (met : Bool) (x y : R) : R :=
  let c := S.ar.lit (if met then 1 else 0)
  S.ar.add (S.ar.mul c x) (S.ar.mul (S.ar.sub (S.ar.lit 1) c) y)

/-- `update_state_using_gain_ratio`, levenberg_marquardt.py lines 235-309. -/
def updateStateUsingGainRatio (S : LM R E F M A) (gainRatio contributionRatioDiff : R) (b : Branch R E F M A) (updated : E) :
    Branch R E F M A :=
  let met := S.ar.gt gainRatio (S.ar.lit 0) && S.ar.le contributionRatioDiff (S.ar.lit 0)
  let x := S.testTrue gainRatio b updated
  let y := S.testFalse b
  { params := S.select met x.params y.params
    dampingFactor := S.selectS met x.dampingFactor y.dampingFactor
    increaseFactor := S.selectS met x.increaseFactor y.increaseFactor
    residual := S.select met x.residual y.residual
    gradient := S.select met x.gradient y.gradient
    jac := match x.jac, y.jac with
      | some J, some J' => some (S.select met J J')
      | _, _ => none
    aux := S.select met x.aux y.aux }

/-- `update_state_using_delta_params`, levenberg_marquardt.py lines 311-349. -/
def updateStateUsingDeltaParams (S : LM R E F M A) (lossCurr : R) (delta : E) (contributionRatioDiff : R) (b : Branch R E F M A) :
    Branch R E F M A :=
  let updated := b.params + delta
  let residualNext := (S.residualFun updated).1
  let gainRatioDenom := S.ar.mul (S.ar.lit (1 / 2)) (S.dot delta (b.dampingFactor • delta - b.gradient))
  let lossNext := S.ar.mul (S.ar.lit (1 / 2)) (S.sumSq residualNext)
  let gainRatio := S.ar.div (S.ar.sub lossCurr lossNext) gainRatioDenom
  S.updateStateUsingGainRatio gainRatio contributionRatioDiff b updated

/-- The velocity, levenberg_marquardt.py lines 370-392 and 542-548. -/
def velocity (S : LM R E F M A) (x : E) (s : LMState R E F M A) : E :=
  match s.jac with
  | some J => S.solveMat J s.dampingFactor s.gradient s.residual
  | none => S.solverFn (S.jtjOp x) s.gradient s.dampingFactor (if S.solver = .callable then some s.delta else none)

/-- The acceleration, levenberg_marquardt.py lines 394-408 and 549-556. -/
def acceleration (S : LM R E F M A) (x : E) (s : LMState R E F M A) (v : E) : E :=
  let rpp := S.d2fvv x v v
  match s.jac with
  | some J => S.accMat J s.dampingFactor rpp
  | none => S.solverFn (S.jtjOp x) (S.vjp x rpp) s.dampingFactor none

/-- `update`, levenberg_marquardt.py lines 351-460. -/
def update (S : LM R E F M A) (p : E × LMState R E F M A) : E × LMState R E F M A :=
  let s := p.2
  let v := S.velocity p.1 s
  let step := if S.geodesic then v + S.ar.lit (1 / 2) • S.acceleration p.1 s v else v
  let diff := if S.geodesic then
      S.ar.sub (S.ar.div (S.norm (S.acceleration p.1 s v)) (S.norm v)) S.contributionRatioThreshold
    else S.ar.lit 0
  let delta := -step
  let b := S.updateStateUsingDeltaParams s.value delta diff
    ⟨p.1, s.dampingFactor, s.increaseFactor, s.residual, s.gradient, s.jac, s.aux⟩
  (b.params,
    { iterNum := s.iterNum + 1
      dampingFactor := b.dampingFactor
      increaseFactor := b.increaseFactor
      error := S.norm b.gradient
      residual := b.residual
      value := S.ar.mul (S.ar.lit (1 / 2)) (S.sumSq b.residual)
      delta := delta
      gradient := b.gradient
      jac := b.jac
      aux := b.aux })

/-- The consistency check of `__post_init__`, levenberg_marquardt.py lines 501-504 (the warning for the direct solvers is left out). -/
def postInit (S : LM R E F M A) : Except String Unit :=
  if !S.materializeJac && S.solver == .qr then
    .error "ValueError: QR factorization solver is inconsistent with materialize_jac=False"
  else .ok ()

/-- Construction followed by `run`, base.py lines 296-332. -/
def run (S : LM R E F M A) (x0 : E) : Except String (E × LMState R E F M A) :=
  S.postInit.bind fun _ => runS S.initState S.update S.cont S.maxiter S.unroll S.jit x0

end LM

end LeastSquares

end Jaxopt
