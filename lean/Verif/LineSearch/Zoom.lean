import Verif.Base.RunS
import Verif.Num.ExtArith
import Mathlib.Algebra.Module.Defs

/-!
# Model of `jaxopt/_src/zoom_linesearch.py`

Values and slopes along the line are floats that may be NaN or infinite.  The two interpolation formulas (lines 63-120)
are arbitrary functions `cubicmin`, `quadmin` returning a float, so the theorems hold whatever they return (including
NaN).  `aux` and counters are not modelled here; messages are in `ZoomMessages.lean`.
-/

set_option autoImplicit false

namespace Jaxopt.LineSearch

open Jaxopt.Base

/-- Attributes of `ZoomLineSearch`, lines 225-246. `slope p d` is the real inner product of the gradient at `p` with `d`. -/
structure Zoom (K E : Type*) where
  f : E → Ext K
  grad : E → E
  vdot : E → E → Ext K
  c1 : K
  c2 : K
  c3 : K
  relTolCubic : K
  relTolQuad : K
  intervalThreshold : K
  increaseFactor : K
  tol : K
  maxiter : ℕ
  maxStepsize : K
  cubicmin : K → Ext K → Ext K → K → Ext K → K → Ext K → Ext K
  quadmin : K → Ext K → Ext K → K → Ext K → Ext K
  unroll : Bool
  jit : Bool

/-- `max_stepsize` defaults to `2**maxiter`, also when given as zero (`__post_init__`, lines 886-887). -/
def Zoom.resolveMaxStepsize {K : Type*} [Field K] [DecidableEq K] (maxiter : ℕ) (maxStepsize : Option K) : K :=
  match maxStepsize with
  | none => 2 ^ maxiter
  | some m => if m = 0 then 2 ^ maxiter else m

/-- `ZoomLineSearchState`, lines 134-176. -/
structure ZState (K E : Type*) where
  iterNum : ℕ
  params : E
  value : Ext K
  grad : E
  valueInit : Ext K
  slopeInit : Ext K
  dir : E
  decreaseError : Ext K
  curvatureError : Ext K
  error : Ext K
  done : Bool
  failed : Bool
  intervalFound : Bool
  prevStepsize : K
  prevValue : Ext K
  prevSlope : Ext K
  low : K
  valueLow : Ext K
  slopeLow : Ext K
  high : K
  valueHigh : Ext K
  slopeHigh : Ext K
  cubicRef : K
  valueCubicRef : Ext K
  safeStepsize : K

namespace Zoom

variable {K E : Type*} [Field K] [LinearOrder K] [AddCommGroup E] [Module K E]

/-- `_decrease_error`, lines 261-280. -/
def decreaseError (ls : Zoom K E) (stepsize : K) (valueStep slopeStep valueInit slopeInit : Ext K) : Ext K :=
  let exactErr := Ext.sub (Ext.sub valueStep valueInit) (Ext.smul (ls.c1 * stepsize) slopeInit)
  let approxErr := Ext.sub slopeStep (Ext.smul (2 * ls.c1 - 1) slopeInit)
  let deltaValues := Ext.sub (Ext.sub valueStep valueInit) (Ext.smul ls.c3 (Ext.abs valueInit))
  let approxErr := Ext.max approxErr deltaValues
  Ext.min approxErr exactErr

/-- `_curvature_error`, lines 282-284. -/
def curvatureError (ls : Zoom K E) (slopeStep slopeInit : Ext K) : Ext K :=
  Ext.sub (Ext.abs slopeStep) (Ext.smul ls.c2 (Ext.abs slopeInit))

/-- `jnp.maximum(e, 0.0)` then NaN to inf, lines 359-362 and 547-550. -/
def clipErr (e : Ext K) : Ext K := Ext.nanToInf (Ext.max e (.fin 0))

/-- `_make_safe_step`, lines 286-311. -/
def makeSafeStep (ls : Zoom K E) (x : K × ZState K E) : K × ZState K E :=
  let st := x.2
  let outside := Ext.isInf st.decreaseError
  let final := if st.safeStepsize > 0 ∨ outside = true then st.safeStepsize else x.1
  let step := st.params + final • st.dir
  (final, { st with params := step, value := ls.f step, grad := ls.grad step })

/-- `_search_interval`, lines 316-465. -/
def searchInterval (ls : Zoom K E) (initStepsize : K) (st : ZState K E) : K × ZState K E :=
  let larger := ls.increaseFactor * st.prevStepsize
  let s := if st.iterNum = 0 then initStepsize else larger
  let s := min s ls.maxStepsize
  let maxReached : Bool := decide (s ≥ ls.maxStepsize)
  let step := st.params + s • st.dir
  let v := ls.f step
  let g := ls.grad step
  let sl := ls.vdot g st.dir
  let decErr := clipErr (ls.decreaseError s v sl st.valueInit st.slopeInit)
  let curErr := clipErr (ls.curvatureError sl st.slopeInit)
  let newErr := Ext.max decErr curErr
  let safe := if Ext.le decErr (.fin ls.tol) then s else st.safeStepsize
  let setHighToNew := Ext.gt decErr (.fin 0) || (Ext.le st.prevValue v && decide (st.iterNum > 0))
  let setLowToNew := Ext.le (.fin 0) sl && !setHighToNew
  let found := setHighToNew || setLowToNew || Ext.le newErr (.fin ls.tol)
  let done := Ext.le newErr (.fin ls.tol) || (maxReached && !found)
  let low := if setLowToNew then s else st.prevStepsize
  let valueLow := if setLowToNew then v else st.prevValue
  (s, { st with
    iterNum := st.iterNum + 1
    params := if done then step else st.params
    value := if done then v else st.valueInit
    grad := if done then g else st.grad
    decreaseError := decErr
    curvatureError := curErr
    error := newErr
    done := done
    failed := decide (st.iterNum + 1 ≥ ls.maxiter) && !done
    intervalFound := found
    prevStepsize := s
    prevValue := v
    prevSlope := sl
    low := low
    valueLow := valueLow
    slopeLow := if setLowToNew then sl else st.prevSlope
    high := if setLowToNew then st.prevStepsize else s
    valueHigh := if setLowToNew then st.prevValue else v
    slopeHigh := if setLowToNew then st.prevSlope else sl
    cubicRef := low
    valueCubicRef := valueLow
    safeStepsize := safe })

/-- The interpolation point of `_zoom_into_interval`, lines 497-537. -/
def middle (ls : Zoom K E) (st : ZState K E) : K :=
  let delta := |st.high - st.low|
  let left := min st.high st.low
  let right := max st.high st.low
  let cubicChk := ls.relTolCubic * delta
  let quadChk := ls.relTolQuad * delta
  let mc := ls.cubicmin st.low st.valueLow st.slopeLow st.high st.valueHigh st.cubicRef st.valueCubicRef
  let mq := ls.quadmin st.low st.valueLow st.slopeLow st.high st.valueHigh
  let valid (m : Ext K) (chk : K) : Bool := Ext.gt m (.fin (left + chk)) && Ext.lt m (.fin (right - chk))
  let get (m : Ext K) : K := match m with | .fin x => x | _ => st.cubicRef
  if valid mc cubicChk then get mc
  else if valid mq quadChk then get mq
  else (st.low + st.high) / 2

/-- `_zoom_into_interval`, lines 467-638. -/
def zoomIntoInterval (ls : Zoom K E) (st : ZState K E) : K × ZState K E :=
  let delta := |st.high - st.low|
  let tooSmall : Bool := decide (delta ≤ ls.intervalThreshold)
  let s := ls.middle st
  let step := st.params + s • st.dir
  let v := ls.f step
  let g := ls.grad step
  let sl := ls.vdot g st.dir
  let decErr := clipErr (ls.decreaseError s v sl st.valueInit st.slopeInit)
  let curErr := clipErr (ls.curvatureError sl st.slopeInit)
  let newErr := Ext.max decErr curErr
  let safe := if Ext.le decErr (.fin ls.tol) then s else st.safeStepsize
  let safe := max safe st.safeStepsize
  let done := Ext.le newErr (.fin ls.tol)
  let setHighToMiddle := Ext.gt decErr (.fin 0) || Ext.le st.valueLow v
  let secant := Ext.smul (st.high - st.low) sl
  let setHighToLow := Ext.le (.fin 0) secant && !setHighToMiddle
  let setLowToMiddle := !setHighToMiddle
  let high1 := if setHighToMiddle then s else st.high
  let valueHigh1 := if setHighToMiddle then v else st.valueHigh
  let slopeHigh1 := if setHighToMiddle then sl else st.slopeHigh
  let presumablyFailed := decide (st.iterNum + 1 ≥ ls.maxiter) || (tooSmall && decide (safe > 0))
  (s, { st with
    iterNum := st.iterNum + 1
    params := if done then step else st.params
    value := if done then v else st.valueInit
    grad := if done then g else st.grad
    decreaseError := decErr
    curvatureError := curErr
    error := newErr
    done := done
    failed := presumablyFailed && !done
    low := if setLowToMiddle then s else st.low
    valueLow := if setLowToMiddle then v else st.valueLow
    slopeLow := if setLowToMiddle then sl else st.slopeLow
    high := if setHighToLow then st.low else high1
    valueHigh := if setHighToLow then st.valueLow else valueHigh1
    slopeHigh := if setHighToLow then st.slopeLow else slopeHigh1
    cubicRef := if setHighToMiddle || setHighToLow then st.high else st.low
    valueCubicRef := if setHighToMiddle || setHighToLow then st.valueHigh else st.valueLow
    safeStepsize := safe })

/-- `init_state`, lines 640-728. -/
def initState (ls : Zoom K E) (params : E) (value : Option (Ext K)) (grad : Option E) (dir : Option E) : ZState K E :=
  let vg := match value, grad with
    | some v, some g => (v, g)
    | _, _ => (ls.f params, ls.grad params)
  let d := match dir with
    | none => (-1 : K) • vg.2
    | some d => d
  let slope := ls.vdot vg.2 d
  { iterNum := 0, params := params, value := vg.1, grad := vg.2, valueInit := vg.1, slopeInit := slope, dir := d,
    decreaseError := .pinf, curvatureError := .pinf, error := .pinf, done := false, failed := false,
    intervalFound := false, prevStepsize := 0, prevValue := vg.1, prevSlope := slope, low := 0, valueLow := vg.1,
    slopeLow := slope, high := 0, valueHigh := vg.1, slopeHigh := slope, cubicRef := 0, valueCubicRef := vg.1,
    safeStepsize := 0 }

/-- The part of `update` before the safe step, lines 767-776. -/
def rawUpdate (ls : Zoom K E) (x : K × ZState K E) : K × ZState K E :=
  if x.2.intervalFound then ls.zoomIntoInterval x.2 else ls.searchInterval x.1 x.2

/-- `update`, lines 730-806. -/
def update (ls : Zoom K E) (x : K × ZState K E) : K × ZState K E :=
  let y := ls.rawUpdate x
  if y.2.failed then ls.makeSafeStep y else y

/-- `run` with the overridden `_cond_fun` (lines 808-813). -/
def run (ls : Zoom K E) (initStepsize : K) (params : E) (value : Option (Ext K)) (grad : Option E)
    (dir : Option E) : Except String (K × ZState K E) :=
  runS (fun _ => ls.initState params value grad dir) ls.update
    (fun x => !(x.2.done || x.2.failed)) ls.maxiter ls.unroll ls.jit initStepsize

end Zoom

end Jaxopt.LineSearch
