import Verif.LineSearch.Backtracking
import Verif.LineSearch.Zoom
import Verif.LineSearch.HagerZhang

/-!
# Model of `_setup_linesearch` (`jaxopt/_src/linesearch_util.py` lines 24-78)

How `LBFGS`, `BFGS`, `NonlinearCG`, `LBFGSB` and `Broyden` create their line search from the arguments `linesearch`, `maxls` and
`max_stepsize` (lbfgs.py lines 436-456, bfgs.py lines 287-307, nonlinear_cg.py lines 299-319).  The attributes that are not passed have the
default values of the three classes.  `has_aux`, `verbose` and the deprecated arguments, which are not passed, are left out.
-/

set_option autoImplicit false
set_option linter.unusedSectionVars false
set_option linter.unusedVariables false

namespace Jaxopt.LineSearch

/-- The objective as the line searches use it: value, gradient, inner product; the interpolation formulas of the zoom line search and what
the Hager-Zhang line search finds at a non-finite stepsize, with a bound on the iterations of its inner loops. -/
structure LineObj (K E : Type*) where
  f : E → Ext K
  grad : E → E
  vdot : E → E → K
  cubicmin : K → Ext K → Ext K → K → Ext K → K → Ext K → Ext K
  quadmin : K → Ext K → Ext K → K → Ext K → Ext K
  offLine : Ext K → Ext K × Ext K
  fuel : ℕ

/-- The objects that can be line searches (`base.IterativeLineSearch`). -/
inductive LsSolver (K E : Type*)
  | backtracking (ls : Backtracking K E)
  | zoom (ls : Zoom K E)
  | hagerZhang (ls : HZ K E)

/-- The argument `linesearch`. -/
inductive LsArg (K E : Type*)
  | name (s : String)
  | solver (ls : LsSolver K E)
  | other

variable {K E : Type*} [Field K] [LinearOrder K]

/-- `BacktrackingLineSearch(fun, maxiter=maxls, max_stepsize=max_stepsize, jit, unroll)`: linesearch_util.py lines 37-48, defaults of
backtracking_linesearch.py lines 83-98. -/
def defaultBacktracking (O : LineObj K E) (maxls : ℕ) (maxStepsize : K) (unroll jit : Bool) : Backtracking K E where
  f := O.f
  grad := O.grad
  vdot := O.vdot
  maxiter := maxls
  tol := 0
  condition := .strongWolfe
  c1 := 1 / 10000
  c2 := 9 / 10
  decreaseFactor := 4 / 5
  maxStepsize := maxStepsize
  unroll := unroll
  jit := jit

/-- `ZoomLineSearch(fun, maxiter=maxls, max_stepsize=max_stepsize, jit, unroll)`: linesearch_util.py lines 48-58, defaults of
zoom_linesearch.py lines 231-249, `__post_init__` lines 886-887. -/
def defaultZoom (O : LineObj K E) (maxls : ℕ) (maxStepsize : K) (unroll jit : Bool) : Zoom K E where
  f := O.f
  grad := O.grad
  vdot := fun x y => .fin (O.vdot x y)
  c1 := 1 / 10000
  c2 := 9 / 10
  c3 := 1 / 1000000
  relTolCubic := 1 / 5
  relTolQuad := 1 / 10
  intervalThreshold := 1 / 1000000
  increaseFactor := 2
  tol := 0
  maxiter := maxls
  maxStepsize := Zoom.resolveMaxStepsize maxls (some maxStepsize)
  cubicmin := O.cubicmin
  quadmin := O.quadmin
  unroll := unroll
  jit := jit

/-- `HagerZhangLineSearch(fun, maxiter=maxls, jit, unroll)`: linesearch_util.py lines 59-69, defaults of hager_zhang_linesearch.py lines
95-112; `max_stepsize` is not passed. -/
def defaultHagerZhang (O : LineObj K E) (maxls : ℕ) (unroll jit : Bool) : HZ K E where
  f := O.f
  grad := O.grad
  vdot := fun x y => .fin (O.vdot x y)
  offLine := O.offLine
  c1 := 1 / 10
  c2 := 9 / 10
  expansion := 5
  shrinkage := 33 / 50
  awThreshold := 1 / 1000000
  tol := 0
  maxiter := maxls
  fuel := O.fuel
  unroll := unroll
  jit := jit

/-- `_setup_linesearch`, lines 24-78. -/
def setupLinesearch (O : LineObj K E) (linesearch : LsArg K E) (maxls : ℕ) (maxStepsize : K) (unroll jit : Bool) :
    Except String (LsSolver K E) :=
  match linesearch with
  | .name s =>
    if s = "backtracking" then .ok (.backtracking (defaultBacktracking O maxls maxStepsize unroll jit))
    else if s = "zoom" then .ok (.zoom (defaultZoom O maxls maxStepsize unroll jit))
    else if s = "hager-zhang" then .ok (.hagerZhang (defaultHagerZhang O maxls unroll jit))
    else .error s!"Linesearch {s} not available/tested."
  | .solver ls => .ok ls
  | .other => .error "Linesearch not available/tested."

/-- What the callers use of a search: step, parameters, value, gradient, failure. -/
structure LsRes (K E : Type*) where
  stepsize : K
  params : E
  value : Ext K
  grad : E
  failed : Bool

variable [AddCommGroup E] [Module K E]

/-- `linesearch.run(init_stepsize, params, value, grad, descent_direction)` as the solvers call it (lbfgs.py lines 343-351); `none` while an
inner loop of the Hager-Zhang search has not ended. -/
def LsSolver.run (ls : LsSolver K E) (init : K) (x : E) (value : Ext K) (grad d : E) : Except String (Option (LsRes K E)) :=
  match ls with
  | .backtracking ls => (ls.run init x (some value) (some grad) (some d)).map fun r =>
      some ⟨r.1, r.2.params, r.2.value, r.2.grad, r.2.failed⟩
  | .zoom ls => (ls.run init x (some value) (some grad) (some d)).map fun r =>
      some ⟨r.1, r.2.params, r.2.value, r.2.grad, r.2.failed⟩
  | .hagerZhang ls => (ls.run init x (some value) (some grad) (some d)).map fun r =>
      r.2.map fun st => ⟨r.1, st.params, st.value, st.grad, st.failed⟩

end Jaxopt.LineSearch
