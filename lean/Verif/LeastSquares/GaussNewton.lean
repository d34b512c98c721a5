import Verif.Base.RunS
import Verif.Num.Ext
import Verif.Num.Vdot

/-!
# Model of `jaxopt/_src/gauss_newton.py`

`jvp` and `vjp` are `jax.jvp` and `jax.vjp` of the residual function at a point, `solve` is `linear_solve.solve_cg`, `sumSq` is
`jnp.sum(jnp.square(·))` and `norm` is `tree_l2_norm` (tree_util.py lines 138-155).  `verbose` is left out.
-/

set_option autoImplicit false
set_option linter.unusedSectionVars false
set_option linter.unusedVariables false

namespace Jaxopt.LeastSquares

open Jaxopt.Base

variable {K E F A : Type*}

/-- The user's `residual_fun`, with or without auxiliary output. -/
inductive Residual (E F A : Type*) where
  | noAux (f : E → F)
  | withAux (f : E → F × A)

/-- `_fun`, `__post_init__`, gauss_newton.py lines 138-147. -/
def Residual.fn : Residual E F A → E → F
  | .noAux f => f
  | .withAux f => fun x => (f x).1

/-- `_fun_with_aux`, `__post_init__`, gauss_newton.py lines 138-147. -/
def Residual.fnAux : Residual E F A → E → F × Option A
  | .noAux f => fun x => (f x, none)
  | .withAux f => fun x => ((f x).1, some (f x).2)

/-- Attributes of `GaussNewton`, gauss_newton.py lines 65-73. -/
structure GN (K E F A : Type*) where
  residualFun : Residual E F A
  jvp : E → E → F
  vjp : E → F → E
  solve : (E → E) → E → E
  sumSq : F → K
  norm : E → K
  maxiter : ℕ
  tol : K
  unroll : Bool
  jit : Bool

/-- `GaussNewtonState`, gauss_newton.py lines 33-41. -/
structure GNState (K E F A : Type*) where
  iterNum : ℕ
  error : Ext K
  residual : F
  value : K
  delta : E
  gradient : E
  aux : Option A

namespace GN

/-- `_jt_op`, gauss_newton.py lines 160-163. -/
def jtOp (S : GN K E F A) (x : E) (r : F) : E := S.vjp x r

/-- `_jtj_op`, gauss_newton.py lines 154-158. -/
def jtjOp (S : GN K E F A) (x v : E) : E := S.vjp x (S.jvp x v)

/-- `optimality_fun`, gauss_newton.py lines 149-152. -/
def optimalityFun (S : GN K E F A) (x : E) : E := S.jtOp x (S.residualFun.fn x)

/-- `init_state`, gauss_newton.py lines 75-99. -/
def initState [Field K] (S : GN K E F A) (x0 : E) : GNState K E F A :=
  let ra := S.residualFun.fnAux x0
  ⟨0, .pinf, ra.1, 1 / 2 * S.sumSq ra.1, x0, S.jtOp x0 ra.1, ra.2⟩

/-- `update`, gauss_newton.py lines 101-136. -/
def update [Field K] [Sub E] (S : GN K E F A) (p : E × GNState K E F A) : E × GNState K E F A :=
  let ra := S.residualFun.fnAux p.1
  let gradient := S.jtOp p.1 ra.1
  let delta := S.solve (S.jtjOp p.1) gradient
  (p.1 - delta, ⟨p.2.iterNum + 1, .fin (S.norm delta), ra.1, 1 / 2 * S.sumSq ra.1, delta, gradient, ra.2⟩)

/-- `_cond_fun`, base.py lines 264-266. -/
def cont [LinearOrder K] (S : GN K E F A) (p : E × GNState K E F A) : Bool := Ext.gt p.2.error (.fin S.tol)

/-- `run`, base.py lines 296-332. -/
def run [Field K] [LinearOrder K] [Sub E] (S : GN K E F A) (x0 : E) : Except String (E × GNState K E F A) :=
  runS S.initState S.update S.cont S.maxiter S.unroll S.jit x0

end GN

end Jaxopt.LeastSquares
