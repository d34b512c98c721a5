import Verif.Base.RunS
import Verif.Num.Ext
import Verif.Prox.Model
import Verif.QuasiNewton.Lbfgs
import Mathlib.Algebra.Module.Basic
import Mathlib.Tactic.TypeStar

/-!
# Model of `jaxopt/_src/proximal_gradient.py`, `projected_gradient.py` and `gradient_descent.py`

`hyperparams_prox`, `args` and `kwargs` are constant during a run and absorbed in `prox`, `f` and `grad`.  `vdot` stands for
`tree_vdot`, `norm` for `tree_l2_norm`, `sqrt` for `jnp.sqrt`.  `aux` and `verbose` are left out.
The line search loop uses the Python back-end of `while_loop`; the other accepted back-ends give the same result
(`Jaxopt.Base.C01_same_result`), and `unroll=False, jit=False` makes `run` raise in any case.
-/

set_option autoImplicit false
set_option linter.unusedSectionVars false
set_option linter.unusedVariables false

namespace Jaxopt.ProxGrad

open Jaxopt.Base Jaxopt.Loop
open Jaxopt.QuasiNewton (Stepsize)

variable {K E : Type*} [Field K] [LinearOrder K] [AddCommGroup E] [Module K E]

/-- Attributes of `ProximalGradient`, proximal_gradient.py lines 145-162; `eps` is the machine epsilon of line 57. -/
structure PG (K E : Type*) where
  f : E → K
  grad : E → E
  prox : E → K → E
  vdot : E → E → K
  norm : E → K
  sqrt : K → K
  eps : K
  stepsize : Stepsize K
  maxiter : ℕ
  maxls : ℕ
  tol : K
  acceleration : Bool
  decreaseFactor : K
  unroll : Bool
  jit : Bool

/-- `ProxGradState`, proximal_gradient.py lines 84-91.  Without acceleration `velocity` is `None` in the code; here it is
carried along and never read. -/
structure PGState (K E : Type*) where
  iterNum : ℕ
  stepsize : K
  error : Ext K
  velocity : E
  t : K

namespace PG

/-- `_prox_grad`, lines 208-210. -/
def proxGrad (S : PG K E) (x g : E) (stepsize : K) : E :=
  let update := x + (-stepsize) • g
  S.prox update stepsize

/-- `cond_fun` of `fista_line_search`, lines 59-68. -/
def lsCond (S : PG K E) (x : E) (val : K) (g : E) (p : E × K) : Bool :=
  let diff := p.1 - x
  let sqdist := S.vdot diff diff
  let funDecrease := p.2 * (S.f p.1 - val)
  let condition := p.2 * S.vdot diff g + 1 / 2 * sqdist
  decide (funDecrease > condition + S.eps)

/-- `body_fun` of `fista_line_search`, lines 70-74. -/
def lsBody (S : PG K E) (x g : E) (p : E × K) : E × K :=
  let s := p.2 * S.decreaseFactor
  (S.proxGrad x g s, s)

/-- `fista_line_search`, lines 41-81. -/
def fistaLineSearch (S : PG K E) (x : E) (val : K) (g : E) (stepsize : K) : E × K :=
  whileLoopPython (S.lsCond x val g) (S.lsBody x g) (S.proxGrad x g stepsize, stepsize) S.maxls

/-- `_iter`, lines 212-241. -/
def iter (S : PG K E) (iterNum : ℕ) (x : E) (val : K) (g : E) (stepsize : K) : E × K :=
  match S.stepsize with
  | .const a =>
    if a ≤ 0 then
      let r := S.fistaLineSearch x val g stepsize
      (r.1, if r.2 ≤ 1 / 1000000 then 1 else r.2 / S.decreaseFactor)
    else (S.proxGrad x g a, a)
  | .fn a => (S.proxGrad x g (a iterNum), a iterNum)

/-- `_error`, lines 204-206. -/
def errorOf (S : PG K E) (diff : E) (stepsize : K) : K := S.norm diff / stepsize

/-- `init_state`, lines 164-202. -/
def initState (S : PG K E) (x0 : E) : PGState K E := ⟨0, 1, .pinf, x0, 1⟩

/-- `_update`, lines 243-256. -/
def updatePlain (S : PG K E) (p : E × PGState K E) : E × PGState K E :=
  let x := p.1
  let r := S.iter p.2.iterNum x (S.f x) (S.grad x) p.2.stepsize
  (r.1, ⟨p.2.iterNum + 1, r.2, .fin (S.errorOf (r.1 - x) r.2), p.2.velocity, 1⟩)

/-- `_update_accel`, lines 258-285. -/
def updateAccel (S : PG K E) (p : E × PGState K E) : E × PGState K E :=
  let x := p.1
  let y := p.2.velocity
  let t := p.2.t
  let r := S.iter p.2.iterNum y (S.f y) (S.grad y) p.2.stepsize
  let t' := 1 / 2 * (1 + S.sqrt (1 + 4 * (t * t)))
  let diff := r.1 - x
  let y' := r.1 + ((t - 1) / t') • diff
  (r.1, ⟨p.2.iterNum + 1, r.2, .fin (S.errorOf diff r.2), y', t'⟩)

/-- `update`, lines 287-305. -/
def update (S : PG K E) (p : E × PGState K E) : E × PGState K E :=
  if S.acceleration then S.updateAccel p else S.updatePlain p

/-- `_cond_fun`, base.py lines 264-266. -/
def cont (S : PG K E) (p : E × PGState K E) : Bool := Ext.gt p.2.error (.fin S.tol)

/-- `run`, base.py lines 296-332. -/
def run (S : PG K E) (x0 : E) : Except String (E × PGState K E) :=
  runS S.initState S.update S.cont S.maxiter S.unroll S.jit x0

/-- `_fixed_point_fun`, lines 307-309. -/
def fixedPointFun (S : PG K E) (sol : E) : E := S.prox (sol - S.grad sol) 1

/-- `optimality_fun`, lines 311-314. -/
def optimalityFun (S : PG K E) (sol : E) : E := S.fixedPointFun sol - sol

/-- `GradientDescent`, gradient_descent.py: the prox is `prox_none` (proximal_gradient.py line 146). -/
def gradientDescent (S : PG K E) : PG K E := { S with prox := fun x _ => x }

/-- `ProjectedGradient.__post_init__`, projected_gradient.py lines 143-161. -/
def projected (S : PG K E) (projection : E → Unit → E) : PG K E :=
  { S with prox := fun x s => Jaxopt.Prox.makeProxFromProjection projection x () s }

end PG

end Jaxopt.ProxGrad
