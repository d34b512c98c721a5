import Verif.LineSearch.Zoom

/-!
# Messages of the zoom line search

What `ZoomLineSearch` prints with `verbose=True`, in the order of printing.  The values interpolated into the texts are kept; the table
printed by `log_info` is not.
-/

set_option autoImplicit false
set_option linter.unusedSectionVars false
set_option linter.unusedVariables false

namespace Jaxopt.LineSearch

open Jaxopt.Base

/-- The texts, zoom_linesearch.py lines 42-58 and 826-878. -/
inductive Msg (K : Type*)
  /-- "NaN or Inf values encountered in function values." -/
  | nanInf
  /-- "No interval satisfying curvature condition. ..." followed by "Returning stepsize with sufficient decrease but curvature condition not
  satisfied." (lines 428-433) -/
  | intervalNotFound
  /-- "Length of searched interval has been reduced below threshold." -/
  | tooSmall
  /-- "Returning stepsize with sufficient decrease but curvature condition not satisfied." -/
  | curvature
  /-- "Linesearch failed, no stepsize satisfying sufficient decrease found." -/
  | noStepsize
  /-- "The linesearch failed because the provided direction is not a descent direction. The slope ..." -/
  | notDescent (slope : Ext K)
  /-- "Consider augmenting the maximal number of linesearch iterations." -/
  | moreIterations
  /-- "Computed stepsize (=...) is below machine precision" -/
  | belowEps (stepsize : K)
  /-- "Very large absolute slope at stepsize=0." -/
  | largeSlope
  /-- "Cannot even make a step without getting Inf or Nan. The linesearch won't make a step and the optimizer is stuck." -/
  | outside
  /-- "Making an unsafe step, not decreasing enough the objective. Convergence of the solver is compromised as it does not reduce values." -/
  | unsafeStep

namespace Zoom

variable {K E : Type*} [Field K] [LinearOrder K] [AddCommGroup E] [Module K E]

/-- `_cond_print`, lines 130-131. -/
def condPrint (b : Bool) (m : Msg K) : List (Msg K) := if b then [m] else []

/-- `isnan(value) | isinf(value)` at the step tried by an update, lines 348-350 and 537-539. -/
def isValueNan (ls : Zoom K E) (z : K × ZState K E) : Bool :=
  let v := ls.f (z.2.params + (ls.rawUpdate z).1 • z.2.dir)
  Ext.isNan v || Ext.isInf v

/-- What `_search_interval` (lines 348-350, 428-433) or `_zoom_into_interval` (lines 507-509, 537-539) prints. -/
def trialMessages (ls : Zoom K E) (z : K × ZState K E) : List (Msg K) :=
  if z.2.intervalFound then
    condPrint (decide (|z.2.high - z.2.low| ≤ ls.intervalThreshold)) .tooSmall ++ condPrint (ls.isValueNan z) .nanInf
  else
    let y := ls.rawUpdate z
    condPrint (ls.isValueNan z) .nanInf ++
      condPrint (decide (y.1 ≥ ls.maxStepsize) && !y.2.intervalFound) .intervalNotFound

/-- `failure_diagnostic`, lines 826-878; `eps` is the machine precision of the type of the stepsize. -/
def failureDiagnostic (ls : Zoom K E) (eps : K) (y : K × ZState K E) : List (Msg K) :=
  let isDescent := Ext.lt y.2.slopeInit (.fin 0)
  let belowEps := decide (y.1 < eps)
  let highSlope := Ext.gt (Ext.abs y.2.slopeInit) (.fin (10 ^ 16))
  let outside := Ext.isInf y.2.decreaseError
  [.noStepsize] ++ condPrint (!isDescent) (.notDescent y.2.slopeInit) ++ condPrint isDescent .moreIterations ++
    condPrint (belowEps && isDescent) (.belowEps y.1) ++ condPrint (highSlope && isDescent) .largeSlope ++
    condPrint outside .outside ++ condPrint (!outside) .unsafeStep

/-- What `_make_safe_step` prints, lines 290-297. -/
def safeMessages (ls : Zoom K E) (eps : K) (y : K × ZState K E) : List (Msg K) :=
  if y.2.safeStepsize > 0 then [.curvature] else ls.failureDiagnostic eps y

/-- What `update` prints, lines 767-806. -/
def messages (ls : Zoom K E) (eps : K) (z : K × ZState K E) : List (Msg K) :=
  let y := ls.rawUpdate z
  ls.trialMessages z ++ if y.2.failed then ls.safeMessages eps y else []

/-- `update` with everything printed so far. -/
def updateM (ls : Zoom K E) (eps : K) (z : K × ZState K E × List (Msg K)) : K × ZState K E × List (Msg K) :=
  let y := ls.update (z.1, z.2.1)
  (y.1, y.2, z.2.2 ++ ls.messages eps (z.1, z.2.1))

/-- `run` with everything that is printed. -/
def runM (ls : Zoom K E) (eps initStepsize : K) (params : E) (value : Option (Ext K)) (grad : Option E) (dir : Option E) :
    Except String (K × ZState K E × List (Msg K)) :=
  runS (fun _ => (ls.initState params value grad dir, [])) (ls.updateM eps)
    (fun x => !(x.2.1.done || x.2.1.failed)) ls.maxiter ls.unroll ls.jit initStepsize

end Zoom

end Jaxopt.LineSearch
