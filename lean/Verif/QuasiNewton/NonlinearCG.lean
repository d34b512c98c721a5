import Verif.QuasiNewton.Lbfgs
import Verif.Proj.Model

/-!
# Model of `jaxopt/_src/nonlinear_cg.py`

Real parameters (`tree_conj` is the identity).  The line search `runLs` is an arbitrary function of the initial step, the parameters,
the value, the gradient and the optional direction; `aux`, the evaluation counters and `verbose` are left out.
-/

set_option autoImplicit false
set_option linter.unusedSectionVars false
set_option linter.unusedVariables false

namespace Jaxopt.QuasiNewton

open Jaxopt.Base

variable {K E V : Type*} [Field K] [LinearOrder K] [AddCommGroup E] [Module K E]

/-- The values of the attribute `method`. -/
inductive CGMethod where
  | polakRibiere | fletcherReeves | hestenesStiefel
  deriving DecidableEq

/-- The string comparison of `update`, lines 230-253. -/
def CGMethod.ofString (s : String) : Except String CGMethod :=
  if s = "polak-ribiere" then .ok .polakRibiere
  else if s = "fletcher-reeves" then .ok .fletcherReeves
  else if s = "hestenes-stiefel" then .ok .hestenesStiefel
  else .error "method argument should be either 'polak-ribiere', 'fletcher-reeves', or 'hestenes-stiefel'."

/-- The local constant `eps = 1e-6`, line 193. -/
def cgEps : K := 1 / 1000000

/-- `jnp.where(a >= eps, a, eps)`, lines 233, 240 and 247. -/
def clipEps (a : K) : K := if cgEps ≤ a then a else cgEps

/-- `new_beta`, lines 230-250. -/
def cgBeta (vdot : E → E → K) (m : CGMethod) (grad newGrad d : E) : K :=
  match m with
  | .polakRibiere =>
    let gTg := clipEps (vdot grad grad)
    Jaxopt.Proj.relu (vdot (newGrad - grad) newGrad / gTg)
  | .fletcherReeves =>
    let gTg := clipEps (vdot grad grad)
    Jaxopt.Proj.relu (vdot newGrad newGrad / gTg)
  | .hestenesStiefel =>
    let gradDiff := newGrad - grad
    let dTg := clipEps (vdot gradDiff d)
    Jaxopt.Proj.relu (vdot gradDiff newGrad / dTg)

/-- Attributes of `NonlinearCG`, lines 114-138.  `initStep` is `_init_stepsize` (`LineSearch.initStepsize`) with the attributes of the
solver. -/
structure NCG (K E V : Type*) where
  f : E → V
  grad : E → E
  vdot : E → E → K
  norm : E → K
  method : CGMethod
  linesearch : String
  maxStepsize : K
  initStep : K → K
  tol : K
  maxiter : ℕ
  unroll : Bool
  jit : Bool
  runLs : K → E → V → E → Option E → LsOut K E V

/-- `NonlinearCGState`, lines 35-48. -/
structure NCGState (K E V : Type*) where
  iterNum : ℕ
  stepsize : K
  error : Ext K
  value : V
  grad : E
  descentDirection : E

namespace NCG

/-- `init_state`, lines 140-174. -/
def initState (S : NCG K E V) (x0 : E) : NCGState K E V :=
  ⟨0, S.maxStepsize, .pinf, S.f x0, S.grad x0, (-1 : K) • S.grad x0⟩

/-- The call of the line search, lines 198-221. -/
def lineSearch (S : NCG K E V) (p : E × NCGState K E V) : LsOut K E V :=
  let lsDir := if S.linesearch = "backtracking" then none else some p.2.descentDirection
  S.runLs (S.initStep p.2.stepsize) p.1 p.2.value p.2.grad lsDir

/-- `update`, lines 176-283. -/
def update (S : NCG K E V) (p : E × NCGState K E V) : E × NCGState K E V :=
  let st := p.2
  let o := S.lineSearch p
  let beta := cgBeta S.vdot S.method st.grad o.grad st.descentDirection
  let d := (-1 : K) • o.grad + beta • st.descentDirection
  (o.params, ⟨st.iterNum + 1, o.stepsize, .fin (S.norm st.grad), o.value, o.grad, d⟩)

/-- `_cond_fun`, base.py lines 264-266. -/
def cont (S : NCG K E V) (p : E × NCGState K E V) : Bool := Ext.gt p.2.error (.fin S.tol)

/-- `run`, base.py lines 296-332. -/
def run (S : NCG K E V) (x0 : E) : Except String (E × NCGState K E V) :=
  runS S.initState S.update S.cont S.maxiter S.unroll S.jit x0

end NCG

end Jaxopt.QuasiNewton
