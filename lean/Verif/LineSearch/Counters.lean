import Verif.LineSearch.Backtracking
import Verif.LineSearch.Zoom
import Verif.LineSearch.HagerZhang

/-!
# The line searches with their evaluation counters

`num_fun_eval` and `num_grad_eval` of the three line searches (backtracking_linesearch.py, zoom_linesearch.py,
hager_zhang_linesearch.py).  The functions below follow the same lines as the models without counters, in a monad that records
how often the objective and its gradient are really evaluated; the counters of the code are ordinary values.  A gradient is
always obtained together with the value (`_make_funs_with_aux`, base.py lines 143-193), so an evaluation of the gradient is an
evaluation of both; when the user gives a single function for both (`value_and_grad=True`, lines 166-173: `joint` below), the
function alone costs a gradient as well.  What a compiler may remove afterwards is not considered.
-/

set_option autoImplicit false
set_option linter.unusedSectionVars false
set_option linter.unusedVariables false

namespace Jaxopt.LineSearch

open Jaxopt.Base

/-- How often the function and the gradient have been evaluated. -/
structure Calls where
  fn : ℕ
  gr : ℕ
  deriving DecidableEq

/-- The fields `num_fun_eval`, `num_grad_eval` of a state. -/
structure Evals where
  numFunEval : ℕ
  numGradEval : ℕ
  deriving DecidableEq

/-- Evaluation of the function alone (`_fun_with_aux`). -/
def callFun {V : Type} (joint : Bool) (v : V) : StateM Calls V := do
  modify fun c => { fn := c.fn + 1, gr := c.gr + if joint then 1 else 0 }
  pure v

/-- Evaluation of the value and the gradient (`_value_and_grad_fun_with_aux`, `_grad_with_aux`). -/
def callGrad {V : Type} (v : V) : StateM Calls V := do
  modify fun c => { fn := c.fn + 1, gr := c.gr + 1 }
  pure v

/-- `1` when the value or the gradient is missing and has to be computed. -/
def missing {V G : Type} (value : Option V) (grad : Option G) : ℕ :=
  match value, grad with
  | some _, some _ => 0
  | _, _ => 1

namespace Backtracking

variable {K E : Type} [Field K] [LinearOrder K] [AddCommGroup E] [Module K E]

/-- `init_state`, lines 101-148. -/
def initStateC (ls : Backtracking K E) (params : E) (value : Option (Ext K)) (grad : Option E) :
    StateM Calls (BState K E × Evals) := do
  let e : Evals := ⟨0, 0⟩
  let (v, g, e) ← match value, grad with
    | some v, some g => pure (v, g, e)
    | _, _ => do
      let (v, g) ← callGrad (ls.f params, ls.grad params)
      pure (v, g, ⟨e.numFunEval + 1, e.numGradEval + 1⟩)
  pure ({ iterNum := 0, params := params, value := v, grad := g, valueInit := v, gradInit := g,
          error := .pinf, done := false, failed := false }, e)

/-- `update`, lines 150-297. -/
def updateC (ls : Backtracking K E) (joint : Bool) (params : E) (descentDirection : Option E) (x : K × BState K E × Evals) :
    StateM Calls (K × BState K E × Evals) := do
  let st := x.2.1
  let e := x.2.2
  let stepsize := min ls.maxStepsize x.1
  let value := st.valueInit
  let grad := st.gradInit
  let d := direction (K := K) st descentDirection
  let slope := ls.vdot grad d
  let newParams := params + stepsize • d
  let e : Evals := { e with numFunEval := e.numFunEval + 1 }
  let (newValue, newGrad, newSlope, e) ←
    if ls.condition = .armijo ∨ ls.condition = .goldstein then do
      let v ← callFun joint (ls.f newParams)
      pure (v, grad, slope, e)
    else do
      let (v, g) ← callGrad (ls.f newParams, ls.grad newParams)
      pure (v, g, ls.vdot g d, { e with numGradEval := e.numGradEval + 1 })
  let error := ls.computeError stepsize value newValue slope newSlope
  let done := st.done || Ext.le error (.fin ls.tol)
  let failed := st.failed || (decide (st.iterNum + 1 = ls.maxiter) && !done)
  let newStepsize := if done || failed then stepsize else stepsize * ls.decreaseFactor
  let (newGrad, e) ←
    if ls.condition = .armijo ∨ ls.condition = .goldstein then do
      let g ← if done || failed then callGrad (ls.grad newParams) else pure grad
      let extra := if done || failed then 1 else 0
      pure (g, ({ numFunEval := e.numFunEval + extra, numGradEval := e.numGradEval + extra } : Evals))
    else pure (newGrad, e)
  pure (newStepsize,
    { st with iterNum := st.iterNum + 1, params := newParams, value := newValue, grad := newGrad,
              done := done, error := error, failed := failed }, e)

/-- `run` with the counters, and the calls made. -/
def runC (ls : Backtracking K E) (joint : Bool) (initStepsize : K) (params : E) (value : Option (Ext K)) (grad : Option E)
    (descentDirection : Option E) : Except String (K × (BState K E × Evals) × Calls) :=
  runS (fun _ => (ls.initStateC params value grad).run ⟨0, 0⟩)
    (fun x =>
      let r := (ls.updateC joint params descentDirection (x.1, x.2.1)).run x.2.2
      (r.1.1, r.1.2, r.2))
    (fun x => Ext.gt x.2.1.1.error (.fin ls.tol)) ls.maxiter ls.unroll ls.jit initStepsize

end Backtracking

namespace Zoom

variable {K E : Type} [Field K] [LinearOrder K] [AddCommGroup E] [Module K E]

/-- `init_state`, lines 640-728.  `aux` is recomputed when it is not available (lines 684-687): `auxNone` says that the
auxiliary value returned by the function is `None`. -/
def initStateC (ls : Zoom K E) (joint hasAux auxNone : Bool) (params : E) (value : Option (Ext K)) (grad : Option E)
    (dir : Option E) : StateM Calls (ZState K E × Evals) := do
  let e : Evals := ⟨0, 0⟩
  let (aux, e) ← match value, grad with
    | some _, some _ => pure (false, e)
    | _, _ => do
      let _ ← callGrad (ls.f params, ls.grad params)
      pure (!auxNone, ⟨e.numFunEval + 1, e.numGradEval + 1⟩)
  let e ← if !aux && hasAux then do
      let _ ← callFun joint (ls.f params)
      pure ⟨e.numFunEval + 1, e.numGradEval + 1⟩
    else pure e
  pure (ls.initState params value grad dir, e)

/-- `update`, lines 730-806: `_zoom_into_interval` and `_search_interval` evaluate the value and the gradient once each (lines
344-346 and 533-535), `_make_safe_step` once more (lines 302-304). -/
def updateC (ls : Zoom K E) (x : K × ZState K E × Evals) : StateM Calls (K × ZState K E × Evals) := do
  let e := x.2.2
  let y ← callGrad (ls.rawUpdate (x.1, x.2.1))
  let e : Evals := ⟨e.numFunEval + 1, e.numGradEval + 1⟩
  let anticipated := if y.2.failed then 1 else 0
  let y ← if y.2.failed then callGrad (ls.makeSafeStep y) else pure y
  pure (y.1, y.2, ⟨e.numFunEval + anticipated, e.numGradEval + anticipated⟩)

/-- `run` with the counters, and the calls made. -/
def runC (ls : Zoom K E) (joint hasAux auxNone : Bool) (initStepsize : K) (params : E) (value : Option (Ext K)) (grad : Option E)
    (dir : Option E) : Except String (K × (ZState K E × Evals) × Calls) :=
  runS (fun _ => (ls.initStateC joint hasAux auxNone params value grad dir).run ⟨0, 0⟩)
    (fun x =>
      let r := (ls.updateC (x.1, x.2.1)).run x.2.2
      (r.1.1, r.1.2, r.2))
    (fun x => !(x.2.1.1.done || x.2.1.1.failed)) ls.maxiter ls.unroll ls.jit initStepsize

end Zoom

/-! ### Hager-Zhang: every evaluation is one of the value and the gradient. -/

/-- Computations that may not terminate (`none`) and count the evaluations. -/
abbrev HZM := StateT ℕ Option

/-- One evaluation on the line. -/
def ask {K V : Type} (phi : K → V) (c : K) : HZM V := do
  modify (· + 1)
  pure (phi c)

section

variable {K E : Type} [Field K] [LinearOrder K] [AddCommGroup E] [Module K E]

/-- `body_fn` of `_update`, lines 169-203, with the iteration count. -/
def updateBodyC (phi : K → Ext K × Ext K) (thr : Ext K) (s : UState K × ℕ) : HZM (UState K × ℕ) := do
  let it := s.2
  let s := s.1
  let updateRight := Ext.le (.fin 0) s.gm
  let newHigh := if !s.done && updateRight then s.middle else s.high
  let done := s.done || updateRight
  let updateLeft := Ext.le s.vm thr
  let newLow := if !done && updateLeft then s.middle else s.low
  let done := done || updateLeft
  let newHigh := if !done then s.middle else newHigh
  let done := done || decide (s.vm = .ninf)
  let newMiddle := if !done then (s.low + s.high) / 2 else s.middle
  let vg ← ask phi newMiddle
  let newV := if !done then vg.1 else s.vm
  let newG := if !done then vg.2 else s.gm
  pure ({ done := done, failed := s.failed || failedNan newV newG, low := newLow, middle := newMiddle, high := newHigh,
          vm := newV, gm := newG }, it + 1)

def updateLoopC (phi : K → Ext K × Ext K) (thr : Ext K) : ℕ → UState K × ℕ → HZM (UState K × ℕ)
  | 0, s => if updateCond s.1 then failure else pure s
  | n + 1, s => if updateCond s.1 then do
      let s' ← updateBodyC phi thr s
      updateLoopC phi thr n s'
    else pure s

/-- `_update`, lines 153-217: the last component is `num_fun_grad_calls = nit + 1`. -/
def updateIntervalC (phi : K → Ext K × Ext K) (thr : Ext K) (fuel : ℕ) (low high middle : K) :
    HZM ((Bool × K × K) × ℕ) := do
  let vg ← ask phi middle
  let s ← updateLoopC phi thr fuel
    ({ done := decide (middle ≥ high) || decide (middle ≤ low), failed := failedNan vg.1 vg.2, low := low,
       middle := middle, high := high, vm := vg.1, gm := vg.2 }, 0)
  pure ((s.1.failed, s.1.low, s.1.high), s.2 + 1)

/-- `_secant`, lines 219-224. -/
def secantC (phi : K → Ext K × Ext K) (low high : K) : HZM (Ext K) := do
  let _ ← ask phi low
  let _ ← ask phi high
  pure (secant phi low high)

namespace HZ

def updateEC (ls : HZ K E) (x d : E) (thr : Ext K) (low high : K) (middle : Ext K) : HZM ((Bool × K × K) × ℕ) :=
  match middle with
  | .fin m => updateIntervalC (ls.line x d) thr ls.fuel low high m
  | m => do
    let vg ← ask ls.offLine m
    pure ((failedNan vg.1 vg.2, low, high), 0 + 1)

/-- `_secant2`, lines 226-255: both secants of lines 239-242 are evaluated whatever the flags. -/
def secant2C (ls : HZ K E) (x d : E) (thr : Ext K) (low high : K) : HZM ((Bool × K × K) × ℕ) := do
  let c ← secantC (ls.line x d) low high
  let num := 2
  let (r, k) ← ls.updateEC x d thr low high c
  let num := num + k
  let onLeft := decide (c = .fin r.2.1)
  let onRight := decide (c = .fin r.2.2)
  let s1 ← secantC (ls.line x d) high r.2.2
  let c1 := if onRight then s1 else c
  let s2 ← secantC (ls.line x d) low r.2.1
  let c2 := if onLeft then s2 else c1
  let num := num + 4
  let (r, k) ← if onLeft || onRight then ls.updateEC x d thr r.2.1 r.2.2 c2 else pure (r, 0)
  let num := num + k
  pure (r, num)

/-- `body_fn` of `_bracket`, lines 265-324. -/
def bracketBodyC (ls : HZ K E) (x d : E) (thr : Ext K) (s : BState K × ℕ) : HZM (BState K × ℕ) := do
  let num := s.2
  let s := s.1
  let updateRight := Ext.le (.fin 0) s.gm
  let newHigh := if !s.done && updateRight then s.middle else s.high
  let newLow := if !s.done && updateRight then s.best else s.low
  let done := s.done || updateRight
  let reupdate := !done && Ext.gt s.vm thr
  let (r, k) ← if reupdate then updateIntervalC (ls.line x d) thr ls.fuel 0 s.middle (s.middle / 2)
    else pure ((s.failed, newLow, newHigh), 0)
  let failed := s.failed || r.1
  let done := done || reupdate
  let best := if !done && Ext.le s.vm thr then s.middle else s.best
  let newMiddle := if !done then ls.expansion * s.middle else s.middle
  let vg ← ask (ls.line x d) newMiddle
  let k := k + 1
  let num := num + k
  pure ({ done := done, failed := failed || failedNan vg.1 vg.2, low := r.2.1, middle := newMiddle, high := r.2.2,
          vm := vg.1, gm := vg.2, best := best }, num)

def bracketLoopC (ls : HZ K E) (x d : E) (thr : Ext K) : ℕ → BState K × ℕ → HZM (BState K × ℕ)
  | 0, s => if !s.1.done && !s.1.failed then failure else pure s
  | n + 1, s => if !s.1.done && !s.1.failed then do
      let s' ← ls.bracketBodyC x d thr s
      bracketLoopC ls x d thr n s'
    else pure s

/-- `_bracket`, lines 257-349. -/
def bracketC (ls : HZ K E) (x d : E) (thr : Ext K) : HZM ((Bool × K × K) × ℕ) := do
  let vg ← ask (ls.line x d) 1
  let num := 1
  let s ← ls.bracketLoopC x d thr ls.fuel
    ({ done := decide (vg.1 = .ninf), failed := failedNan vg.1 vg.2, low := 0, middle := 1, high := 1, vm := vg.1,
       gm := vg.2, best := 0 }, 0)
  let num := num + s.2
  pure ((s.1.failed, s.1.low, s.1.high), num)

/-- `best_point`, lines 405-415 and 510-521. -/
def bestPointC (ls : HZ K E) (x d : E) (low high : K) : HZM (K × Ext K × Ext K) := do
  let l ← ask (ls.line x d) low
  let h ← ask (ls.line x d) high
  pure (if Ext.lt l.1 h.1 then (low, l.2, Ext.min l.1 h.1) else (high, h.2, Ext.min l.1 h.1))

/-- `init_state`, lines 351-439, when the value and the gradient are given; the counter is both `num_fun_eval` and
`num_grad_eval`. -/
def initStateC (ls : HZ K E) (x : E) (v0 : Ext K) (g0 d : E) : HZM (HZState K E × ℕ) := do
  let num := 0
  let thr := ls.threshold v0
  let (r, k) ← ls.bracketC x d thr
  let num := num + k
  let b ← ls.bestPointC x d r.2.1 r.2.2
  let num := num + 2
  let error := ls.wolfeError b.1 b.2.2 b.2.1 v0 (ls.vdot g0 d) thr
  pure ({ iterNum := 0, low := r.2.1, high := r.2.2, error := error, done := Ext.le error (.fin ls.tol), value := v0,
          params := x, grad := g0, failed := r.1 }, num)

/-- Lines 481-507. -/
def updateBracketC (ls : HZ K E) (x d : E) (thr : Ext K) (st : HZState K E) : HZM ((Bool × K × K) × ℕ) := do
  let (r, k) ← ls.secant2C x d thr st.low st.high
  let num := k
  let failed := st.failed || r.1
  let low := if st.done then st.low else r.2.1
  let high := if st.done then st.high else r.2.2
  let (r, k) ← if !st.done && decide (high - low > ls.shrinkage * (st.high - st.low)) then
      updateIntervalC (ls.line x d) thr ls.fuel low high ((low + high) / 2)
    else pure ((failed, low, high), 0)
  let num := num + k
  pure (r, num)

/-- `update`, lines 441-567, when the value and the gradient are given. -/
def updateC (ls : HZ K E) (x : E) (v0 : Ext K) (g0 d : E) (stepsize : K) (st : HZState K E) (num : ℕ) :
    HZM ((K × HZState K E) × ℕ) := do
  let thr := ls.threshold v0
  let (r, k) ← ls.updateBracketC x d thr st
  let num := num + k
  let b ← ls.bestPointC x d r.2.1 r.2.2
  let num := num + 2
  let newParams := x + b.1 • d
  let vg ← ask (fun p => (ls.f p, ls.grad p)) newParams
  let num := num + 1
  let error := if st.done then st.error else ls.wolfeError b.1 b.2.2 b.2.1 v0 (ls.vdot g0 d) thr
  let done := st.done || Ext.le error (.fin ls.tol)
  pure ((if st.done then stepsize else b.1,
     { iterNum := st.iterNum + 1, value := vg.1, grad := vg.2, params := newParams,
       low := r.2.1, high := r.2.2, error := error, done := done,
       failed := r.1 || (decide (st.iterNum + 1 = ls.maxiter) && !done) }), num)

/-- `init_state`, lines 351-439: the value and the gradient are first computed when `num = 1` (lines 376-384). -/
def startC (ls : HZ K E) (x : E) (v0 : Ext K) (g0 d : E) (num : ℕ) : HZM (HZState K E × ℕ) := do
  if num = 1 then do
    let _ ← ask (fun p => (ls.f p, ls.grad p)) x
  let (st, k) ← ls.initStateC x v0 g0 d
  pure (st, num + k)

/-- `run` with the counter and the number of evaluations made; the value and the gradient are computed at the start when they
are not given; `update` is given them (the solvers give them throughout). -/
def runC (ls : HZ K E) (initStepsize : K) (params : E) (value : Option (Ext K)) (grad dir : Option E) :
    Except String (K × Option ((HZState K E × ℕ) × ℕ)) :=
  let vg := ls.resolve params value grad
  let d := resolveDir (K := K) vg.2 dir
  runS (fun _ => ls.startC params vg.1 vg.2 d (missing value grad) 0)
    (fun z => match z.2 with
      | none => z
      | some ((st, num), n) => match ls.updateC params vg.1 vg.2 d z.1 st num n with
        | none => (z.1, none)
        | some (((s, st'), num'), n') => (s, some ((st', num'), n')))
    (fun z => match z.2 with
      | none => false
      | some ((st, _), _) => Ext.gt st.error (.fin ls.tol)) ls.maxiter ls.unroll ls.jit initStepsize

end HZ

end

/-! ### The solvers that call a line search -/

/-- `init_state` of the solvers: one evaluation of the value and the gradient (bfgs.py lines 161 and 173-174, lbfgs.py lines
291-292, lbfgsb.py lines 373-374, nonlinear_cg.py lines 170-171). -/
def solverInitC : StateM Calls Evals := do
  let _ ← callGrad ()
  pure ⟨1, 1⟩

/-- The counters in `update`: `some s` when the line search is run (bfgs.py lines 224-225, lbfgs.py lines 358-359, lbfgsb.py
lines 492-493, nonlinear_cg.py lines 226-227), with the counters and the calls of that search; `none` with a constant or given
stepsize (bfgs.py lines 233-235, lbfgs.py lines 368-372, lbfgsb.py lines 503-507). -/
def solverUpdateC (search : Option (Evals × Calls)) (e : Evals) : StateM Calls Evals :=
  match search with
  | some s => do
    modify fun c => ⟨c.fn + s.2.fn, c.gr + s.2.gr⟩
    pure ⟨e.numFunEval + s.1.numFunEval, e.numGradEval + s.1.numGradEval⟩
  | none => do
    let _ ← callGrad ()
    pure ⟨e.numFunEval + 1, e.numGradEval + 1⟩

/-- The counters after some updates. -/
def solverC (searches : List (Option (Evals × Calls))) : StateM Calls Evals := do
  let e ← solverInitC
  searches.foldlM (fun e s => solverUpdateC s e) e

end Jaxopt.LineSearch
