import Verif.Base.RunS
import Verif.Num.ExtArith
import Mathlib.Algebra.Module.Defs

/-!
# Model of `jaxopt/_src/backtracking_linesearch.py` and of `_init_stepsize` (`linesearch_util.py`)

Objective values are floats that may be NaN or infinite (`Ext K`); gradients are finite vectors.  `vdot u v` stands for
`tree_vdot_real(tree_conj(u), v)`.  Evaluation counters and `aux` are not modelled.
-/

set_option autoImplicit false

namespace Jaxopt.LineSearch

open Jaxopt.Base

/-- The accepted values of the attribute `condition` (line 82). -/
inductive Condition where
  | armijo | strongWolfe | wolfe | goldstein
  deriving DecidableEq

/-- The string comparison done in `update`, lines 194-252. -/
def Condition.ofString (s : String) : Except String Condition :=
  if s = "armijo" then .ok .armijo
  else if s = "strong-wolfe" then .ok .strongWolfe
  else if s = "wolfe" then .ok .wolfe
  else if s = "goldstein" then .ok .goldstein
  else .error "condition should be one of 'armijo', 'goldstein', 'strong-wolfe' or 'wolfe'."

/-- Attributes of `BacktrackingLineSearch`, lines 78-98 (`fun` and its gradient given separately). -/
structure Backtracking (K E : Type*) where
  f : E → Ext K
  grad : E → E
  vdot : E → E → K
  maxiter : ℕ
  tol : K
  condition : Condition
  c1 : K
  c2 : K
  decreaseFactor : K
  maxStepsize : K
  unroll : Bool
  jit : Bool

/-- `BacktrackingLineSearchState`, lines 33-46. -/
structure BState (K E : Type*) where
  iterNum : ℕ
  params : E
  value : Ext K
  grad : E
  valueInit : Ext K
  gradInit : E
  error : Ext K
  done : Bool
  failed : Bool

namespace Backtracking

variable {K E : Type*} [Field K] [LinearOrder K] [AddCommGroup E] [Module K E]

/-- `init_state`, lines 101-148; the value and gradient are recomputed unless both are given. -/
def initState (ls : Backtracking K E) (params : E) (value : Option (Ext K)) (grad : Option E) : BState K E :=
  let vg := match value, grad with
    | some v, some g => (v, g)
    | _, _ => (ls.f params, ls.grad params)
  { iterNum := 0, params := params, value := vg.1, grad := vg.2, valueInit := vg.1, gradInit := vg.2,
    error := .pinf, done := false, failed := false }

/-- The direction: negative gradient when not given, lines 190-191. -/
def direction (st : BState K E) (descentDirection : Option E) : E :=
  match descentDirection with
  | none => (-1 : K) • st.gradInit
  | some d => d

/-- Computation of `error`, lines 219-252. -/
def computeError (ls : Backtracking K E) (stepsize : K) (value newValue : Ext K) (slope newSlope : K) : Ext K :=
  let diff1 := Ext.sub newValue (Ext.add value (.fin (ls.c1 * stepsize * slope)))
  let err1 := Ext.max (Ext.nanToInf diff1) (.fin 0)
  match ls.condition with
  | .armijo => err1
  | .strongWolfe =>
    let diff2 : Ext K := .fin (|newSlope| - ls.c2 * |slope|)
    Ext.max err1 (Ext.max (Ext.nanToInf diff2) (.fin 0))
  | .wolfe =>
    let diff2 : Ext K := .fin (ls.c2 * slope - newSlope)
    Ext.max err1 (Ext.max (Ext.nanToInf diff2) (.fin 0))
  | .goldstein =>
    let diff2 := Ext.sub (Ext.add value (.fin ((1 - ls.c1) * stepsize * slope))) newValue
    Ext.max err1 (Ext.max (Ext.nanToInf diff2) (.fin 0))

/-- `update`, lines 150-294. -/
def update (ls : Backtracking K E) (params : E) (descentDirection : Option E) (x : K × BState K E) :
    K × BState K E :=
  let st := x.2
  let stepsize := min ls.maxStepsize x.1
  let value := st.valueInit
  let grad := st.gradInit
  let d := direction (K := K) st descentDirection
  let slope := ls.vdot grad d
  let newParams := params + stepsize • d
  let newValue := ls.f newParams
  let cheap := ls.condition = .armijo ∨ ls.condition = .goldstein
  let newGrad := if cheap then grad else ls.grad newParams
  let newSlope := if cheap then slope else ls.vdot newGrad d
  let error := ls.computeError stepsize value newValue slope newSlope
  let done := st.done || Ext.le error (.fin ls.tol)
  let failed := st.failed || (decide (st.iterNum + 1 = ls.maxiter) && !done)
  let newStepsize := if done || failed then stepsize else stepsize * ls.decreaseFactor
  let newGrad := if cheap then (if done || failed then ls.grad newParams else grad) else newGrad
  (newStepsize,
    { st with iterNum := st.iterNum + 1, params := newParams, value := newValue, grad := newGrad,
              done := done, error := error, failed := failed })

/-- `run`: base.py lines 482-492 and 296-332, with the default `_cond_fun` (`state.error > tol`). -/
def run (ls : Backtracking K E) (initStepsize : K) (params : E) (value : Option (Ext K)) (grad : Option E)
    (descentDirection : Option E) : Except String (K × BState K E) :=
  runS (fun _ => ls.initState params value grad) (ls.update params descentDirection)
    (fun x => Ext.gt x.2.error (.fin ls.tol)) ls.maxiter ls.unroll ls.jit initStepsize

end Backtracking

/-- `_init_stepsize`, linesearch_util.py lines 81-103. -/
def initStepsize {K : Type*} [Field K] [LinearOrder K] (strategy : String)
    (maxStepsize minStepsize increaseFactor stepsize : K) : Except String K :=
  if strategy = "max" then .ok maxStepsize
  else if strategy = "current" then .ok stepsize
  else if strategy = "increase" then
    .ok (if stepsize ≤ minStepsize then maxStepsize else stepsize * increaseFactor)
  else .error s!"Strategy {strategy} not available/tested."

end Jaxopt.LineSearch
