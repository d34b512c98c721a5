import Verif.QuasiNewton.Broyden
import Verif.LineSearch.Backtracking

/-!
# Model of the line search of `jaxopt/_src/broyden.py`

The search minimises the squared norm of the residual.  Its gradient is a parameter (the code uses `jax.value_and_grad`,
line 321).  The value given to `ls.run` (line 339: the residual, not its squared norm) is ignored because no gradient is given
(backtracking_linesearch.py lines 130-135).
-/

set_option autoImplicit false
set_option linter.unusedSectionVars false
set_option linter.unusedVariables false

namespace Jaxopt.QuasiNewton.Broyden

open Jaxopt.Base Jaxopt.LineSearch

variable {K E L : Type*} [Field K] [LinearOrder K] [AddCommGroup E] [Module K E] [Fintype L]

/-- The line search built by `update`, lines 316-332: objective `‖f‖²`, `tol=1e-2`, and the default `c1`, `c2` of
`BacktrackingLineSearch`. -/
def lineSearch (f grad : (L → E) → (L → E)) (ldot : E → E → K) (maxls : ℕ) (decreaseFactor maxStepsize : K)
    (condition : Condition) (unroll jit : Bool) : Backtracking K (L → E) where
  f := fun x => .fin (leafVdot ldot (f x) (f x))
  grad := grad
  vdot := leafVdot ldot
  maxiter := maxls
  tol := 1 / 100
  condition := condition
  c1 := 1 / 10000
  c2 := 9 / 10
  decreaseFactor := decreaseFactor
  maxStepsize := maxStepsize
  unroll := unroll
  jit := jit

/-- Lines 338-346: `new_value` is the residual at the point returned by the search (kept in `aux`).  The search raises only for
`unroll=False, jit=False`; nothing is claimed for that case. -/
def runBacktracking (f : (L → E) → (L → E)) (ls : Backtracking K (L → E)) (init : K) (x value dir : L → E) :
    BrLsOut K (L → E) :=
  match ls.run init x none none (some dir) with
  | .ok (s, st) => ⟨s, st.params, f st.params, st.failed⟩
  | .error _ => ⟨0, x, value, true⟩

end Jaxopt.QuasiNewton.Broyden
