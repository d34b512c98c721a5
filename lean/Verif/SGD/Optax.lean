import Verif.Base.RunS
import Verif.Base.Funs
import Verif.Num.ExtArith
import Mathlib.Algebra.Module.Defs

/-!
# Model of `jaxopt/_src/optax_wrapper.py` (`OptaxSolver`)

An Optax `GradientTransformation` is a pair of functions.  Values and gradients are finite; dtypes and `verbose` are not modelled.
`E` is the space of the parameters (pytrees), `σ` the state of the transformation, `A` the auxiliary data.
-/

set_option autoImplicit false
set_option linter.unusedSectionVars false
set_option linter.unusedVariables false

namespace Jaxopt.SGD

open Jaxopt.Base

variable {K E σ A : Type*} [Field K] [LinearOrder K] [AddCommGroup E] [Module K E]

/-- `optax.GradientTransformation`: `init(params)` and `update(grad, state, params)`, which returns the update and the new state. -/
structure GradTransform (E σ : Type*) where
  init : E → σ
  update : E → σ → E → E × σ

/-- `OptaxState`, lines 32-38. -/
structure OptaxState (K σ A : Type*) where
  iterNum : ℕ
  value : Ext K
  error : Ext K
  internalState : σ
  aux : Option A

/-- Attributes of `OptaxSolver`, lines 81-91; `norm` is `tree_l2_norm`. -/
structure Optax (K E σ A : Type*) where
  fun_ : UserFun E K E A
  opt : GradTransform E σ
  preUpdate : Option (E × OptaxState K σ A → E × OptaxState K σ A)
  maxiter : ℕ
  tol : K
  jit : Bool
  unroll : Bool
  norm : E → K

namespace Optax

/-- `init_state`, lines 93-116. -/
def initState (s : Optax K E σ A) (x : E) : OptaxState K σ A :=
  let optState := s.opt.init x
  let va := (makeFunsWithAux s.fun_).1 x
  ⟨0, .pinf, .pinf, optState, va.2⟩

/-- `update`, lines 122-160, with `_apply_updates`, lines 118-120. -/
def update (s : Optax K E σ A) (p : E × OptaxState K σ A) : E × OptaxState K σ A :=
  let q := match s.preUpdate with
    | some pre => pre p
    | none => p
  let vag := (makeFunsWithAux s.fun_).2.2 q.1
  let d := s.opt.update vag.2 q.2.internalState q.1
  let params := q.1 + d.1
  (params, ⟨q.2.iterNum + 1, .fin vag.1.1, .fin (s.norm vag.2), d.2, vag.1.2⟩)

/-- `_cond_fun`, base.py lines 264-266. -/
def cont (s : Optax K E σ A) (p : E × OptaxState K σ A) : Bool := Ext.gt p.2.error (.fin s.tol)

/-- `run`, base.py lines 296-332. -/
def run (s : Optax K E σ A) (x0 : E) : Except String (E × OptaxState K σ A) :=
  runS s.initState s.update s.cont s.maxiter s.unroll s.jit x0

/-- `optimality_fun`, lines 162-164. -/
def optimalityFun (s : Optax K E σ A) (x : E) : E := ((makeFunsWithAux s.fun_).2.1 x).1

end Optax

/-- `optax.sgd(learning_rate)`. -/
def sgd (lr : K) : GradTransform E Unit where
  init _ := ()
  update g _ _ := ((-lr) • g, ())

end Jaxopt.SGD
