import Verif.Base.RunS
import Verif.Num.ExtArith
import Mathlib.Algebra.Module.Defs

/-!
# Model of `jaxopt/_src/hager_zhang_linesearch.py`

Values and slopes are floats that may be NaN or infinite, points of the line that enter the interval are numbers.  The two
unbounded `lax.while_loop`s take a fuel argument and return `none` when it runs out ("still running"); theorems hold for
every amount of fuel.  `aux`, counters, messages and complex conjugation are not modelled.
-/

set_option autoImplicit false
set_option linter.unusedSectionVars false

namespace Jaxopt.LineSearch

open Jaxopt.Base

/-- Attributes of `HagerZhangLineSearch`, lines 95-112 (`max_stepsize` is unused by the code).  `slope z d` is the inner
product of the gradient at `z` with `d`; `offLine` gives value and slope at a non-finite stepsize. -/
structure HZ (K E : Type*) where
  f : E → Ext K
  grad : E → E
  vdot : E → E → Ext K
  offLine : Ext K → Ext K × Ext K
  c1 : K
  c2 : K
  expansion : K
  shrinkage : K
  awThreshold : K
  tol : K
  maxiter : ℕ
  fuel : ℕ
  unroll : Bool
  jit : Bool

/-- `HagerZhangLineSearchState`, lines 48-62. -/
structure HZState (K E : Type*) where
  iterNum : ℕ
  done : Bool
  low : K
  high : K
  value : Ext K
  error : Ext K
  params : E
  grad : E
  failed : Bool

variable {K E : Type*} [Field K] [LinearOrder K] [AddCommGroup E] [Module K E]

/-- `_failed_nan`, lines 44-45. -/
def failedNan (v g : Ext K) : Bool := v.isNan || g.isNan

/-- The loop state of `_update`, line 170. -/
structure UState (K : Type*) where
  done : Bool
  failed : Bool
  low : K
  middle : K
  high : K
  vm : Ext K
  gm : Ext K

/-- `body_fn` of `_update`, lines 169-203, for a line function `phi`. -/
def updateBody (phi : K → Ext K × Ext K) (thr : Ext K) (s : UState K) : UState K :=
  let updateRight := Ext.le (.fin 0) s.gm
  let newHigh := if !s.done && updateRight then s.middle else s.high
  let done := s.done || updateRight
  let updateLeft := Ext.le s.vm thr
  let newLow := if !done && updateLeft then s.middle else s.low
  let done := done || updateLeft
  let newHigh := if !done then s.middle else newHigh
  let done := done || decide (s.vm = .ninf)
  let newMiddle := if !done then (s.low + s.high) / 2 else s.middle
  let vg := phi newMiddle
  let newV := if !done then vg.1 else s.vm
  let newG := if !done then vg.2 else s.gm
  { done := done, failed := s.failed || failedNan newV newG, low := newLow, middle := newMiddle, high := newHigh,
    vm := newV, gm := newG }

/-- `cond_fn` of `_update`, lines 165-167. -/
def updateCond (s : UState K) : Bool :=
  decide (s.middle < s.high) && decide (s.middle > s.low) && !s.done && !s.failed

/-- `lax.while_loop(cond_fn, body_fn, ..)` of `_update` (line 205) with fuel. -/
def updateLoop (phi : K → Ext K × Ext K) (thr : Ext K) : ℕ → UState K → Option (UState K)
  | 0, s => if updateCond s then none else some s
  | n + 1, s => if updateCond s then updateLoop phi thr n (updateBody phi thr s) else some s

/-- `_update`, lines 153-217, at a finite `middle`: `(failed, low, high)`. -/
def updateInterval (phi : K → Ext K × Ext K) (thr : Ext K) (fuel : ℕ) (low high middle : K) : Option (Bool × K × K) :=
  let vg := phi middle
  (updateLoop phi thr fuel
    { done := decide (middle ≥ high) || decide (middle ≤ low), failed := failedNan vg.1 vg.2, low := low,
      middle := middle, high := high, vm := vg.1, gm := vg.2 }).map (fun s => (s.failed, s.low, s.high))

/-- `_secant`, lines 219-224.  The quotient is not finite unless both slopes are finite and distinct. -/
def secant (phi : K → Ext K × Ext K) (low high : K) : Ext K :=
  match (phi low).2, (phi high).2 with
  | .fin dl, .fin dh =>
    let num := low * dh - high * dl
    if dh - dl = 0 then (if num = 0 then .nan else if 0 < num then .pinf else .ninf) else .fin (num / (dh - dl))
  | _, _ => .nan

namespace HZ

/-- `_value_and_grad_on_line`, lines 114-117. -/
def line (ls : HZ K E) (x d : E) (c : K) : Ext K × Ext K := (ls.f (x + c • d), ls.vdot (ls.grad (x + c • d)) d)

/-- `_update` at a possibly non-finite `middle`: the loop is then not entered. -/
def updateE (ls : HZ K E) (x d : E) (thr : Ext K) (low high : K) (middle : Ext K) : Option (Bool × K × K) :=
  match middle with
  | .fin m => updateInterval (ls.line x d) thr ls.fuel low high m
  | m => some (failedNan (ls.offLine m).1 (ls.offLine m).2, low, high)

/-- `_secant2`, lines 226-255. -/
def secant2 (ls : HZ K E) (x d : E) (thr : Ext K) (low high : K) : Option (Bool × K × K) := do
  let c := secant (ls.line x d) low high
  let r ← ls.updateE x d thr low high c
  let onLeft := decide (c = .fin r.2.1)
  let onRight := decide (c = .fin r.2.2)
  let c1 := if onRight then secant (ls.line x d) high r.2.2 else c
  let c2 := if onLeft then secant (ls.line x d) low r.2.1 else c1
  if onLeft || onRight then ls.updateE x d thr r.2.1 r.2.2 c2 else some r

/-- Loop state of `_bracket`, lines 266-274. -/
structure BState (K : Type*) where
  done : Bool
  failed : Bool
  low : K
  middle : K
  high : K
  vm : Ext K
  gm : Ext K
  best : K

/-- `body_fn` of `_bracket`, lines 265-324. -/
def bracketBody (ls : HZ K E) (x d : E) (thr : Ext K) (s : BState K) : Option (BState K) :=
  let updateRight := Ext.le (.fin 0) s.gm
  let newHigh := if !s.done && updateRight then s.middle else s.high
  let newLow := if !s.done && updateRight then s.best else s.low
  let done := s.done || updateRight
  let reupdate := !done && Ext.gt s.vm thr
  (if reupdate then updateInterval (ls.line x d) thr ls.fuel 0 s.middle (s.middle / 2)
    else some (s.failed, newLow, newHigh)).map fun r =>
  let failed := s.failed || r.1
  let done := done || reupdate
  let best := if !done && Ext.le s.vm thr then s.middle else s.best
  let newMiddle := if !done then ls.expansion * s.middle else s.middle
  let vg := ls.line x d newMiddle
  { done := done, failed := failed || failedNan vg.1 vg.2, low := r.2.1, middle := newMiddle, high := r.2.2,
    vm := vg.1, gm := vg.2, best := best }

/-- `lax.while_loop` of `_bracket` (lines 262-263, 336) with fuel. -/
def bracketLoop (ls : HZ K E) (x d : E) (thr : Ext K) : ℕ → BState K → Option (BState K)
  | 0, s => if !s.done && !s.failed then none else some s
  | n + 1, s => if !s.done && !s.failed then (ls.bracketBody x d thr s).bind (bracketLoop ls x d thr n) else some s

/-- `_bracket`, lines 257-349, called with `c = 1`. -/
def bracket (ls : HZ K E) (x d : E) (thr : Ext K) : Option (Bool × K × K) :=
  let vg := ls.line x d 1
  (ls.bracketLoop x d thr ls.fuel
    { done := decide (vg.1 = .ninf), failed := failedNan vg.1 vg.2, low := 0, middle := 1, high := 1, vm := vg.1,
      gm := vg.2, best := 0 }).map (fun s => (s.failed, s.low, s.high))

/-- `_satisfies_wolfe_and_approx_wolfe`, lines 119-151. -/
def wolfeError (ls : HZ K E) (c : K) (v g v0 sl0 thr : Ext K) : Ext K :=
  let armijoErr := Ext.max (Ext.sub v (Ext.add v0 (Ext.smul (ls.c1 * c) sl0))) (.fin 0)
  let curvature := Ext.sub (Ext.smul ls.c2 sl0) g
  let wolfe := Ext.max armijoErr curvature
  let aw := Ext.max (Ext.sub g (Ext.smul (2 * ls.c1 - 1) sl0)) (.fin 0)
  let aw := Ext.max aw curvature
  let aw := Ext.max aw (Ext.sub v thr)
  Ext.min wolfe aw

/-- Value and gradient used by the search (lines 376-384 and 468-473). -/
def resolve (ls : HZ K E) (params : E) (value : Option (Ext K)) (grad : Option E) : Ext K × E :=
  match value, grad with
  | some v, some g => (v, g)
  | _, _ => (ls.f params, ls.grad params)

/-- Descent direction (lines 387-388 and 475-476). -/
def resolveDir (g : E) (dir : Option E) : E := dir.getD ((-1 : K) • g)

/-- `approx_wolfe_threshold_value`, lines 390-391. -/
def threshold (ls : HZ K E) (v : Ext K) : Ext K := Ext.add v (Ext.smul ls.awThreshold v.abs)

/-- `best_point`, its slope and value, lines 413-415 and 518-521. -/
def bestPoint (ls : HZ K E) (x d : E) (low high : K) : K × Ext K × Ext K :=
  let l := ls.line x d low
  let h := ls.line x d high
  if Ext.lt l.1 h.1 then (low, l.2, Ext.min l.1 h.1) else (high, h.2, Ext.min l.1 h.1)

/-- `init_state`, lines 351-439, after resolving value, gradient and direction. -/
def initState (ls : HZ K E) (x : E) (v0 : Ext K) (g0 d : E) : Option (HZState K E) :=
  let thr := ls.threshold v0
  (ls.bracket x d thr).map fun r =>
    let b := ls.bestPoint x d r.2.1 r.2.2
    let error := ls.wolfeError b.1 b.2.2 b.2.1 v0 (ls.vdot g0 d) thr
    { iterNum := 0, low := r.2.1, high := r.2.2, error := error, done := Ext.le error (.fin ls.tol), value := v0,
      params := x, grad := g0, failed := r.1 }

/-- The interval part of `update`, lines 481-505: `(failed, low, high)`. -/
def updateBracket (ls : HZ K E) (x d : E) (thr : Ext K) (st : HZState K E) : Option (Bool × K × K) := do
  let r ← ls.secant2 x d thr st.low st.high
  let failed := st.failed || r.1
  let low := if st.done then st.low else r.2.1
  let high := if st.done then st.high else r.2.2
  if !st.done && decide (high - low > ls.shrinkage * (st.high - st.low)) then
    updateInterval (ls.line x d) thr ls.fuel low high ((low + high) / 2)
  else some (failed, low, high)

/-- `update`, lines 441-567, after resolving value, gradient and direction. -/
def update (ls : HZ K E) (x : E) (v0 : Ext K) (g0 d : E) (z : K × Option (HZState K E)) : K × Option (HZState K E) :=
  match z.2 with
  | none => z
  | some st =>
    let thr := ls.threshold v0
    match ls.updateBracket x d thr st with
    | none => (z.1, none)
    | some r =>
      let b := ls.bestPoint x d r.2.1 r.2.2
      let newParams := x + b.1 • d
      let error := if st.done then st.error else ls.wolfeError b.1 b.2.2 b.2.1 v0 (ls.vdot g0 d) thr
      let done := st.done || Ext.le error (.fin ls.tol)
      (if st.done then z.1 else b.1,
       some { iterNum := st.iterNum + 1, value := ls.f newParams, grad := ls.grad newParams, params := newParams,
              low := r.2.1, high := r.2.2, error := error, done := done,
              failed := r.1 || (decide (st.iterNum + 1 = ls.maxiter) && !done) })

/-- `run` (base.py lines 482-492 and 296-332) with the default `_cond_fun` `error > tol`; `none` while an inner loop has not
terminated. -/
def run (ls : HZ K E) (initStepsize : K) (params : E) (value : Option (Ext K)) (grad dir : Option E) :
    Except String (K × Option (HZState K E)) :=
  let vg := ls.resolve params value grad
  let d := resolveDir (K := K) vg.2 dir
  runS (fun _ => ls.initState params vg.1 vg.2 d) (ls.update params vg.1 vg.2 d)
    (fun z => match z.2 with
      | none => false
      | some st => Ext.gt st.error (.fin ls.tol)) ls.maxiter ls.unroll ls.jit initStepsize

end HZ

end Jaxopt.LineSearch
