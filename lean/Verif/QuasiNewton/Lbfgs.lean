import Verif.Base.RunS
import Verif.Num.Ext
import Verif.LineSearch.Backtracking
import Mathlib.Algebra.Module.Defs

/-!
# Model of `jaxopt/_src/lbfgs.py`

Vectors live in a module `E`; `vdot` is `tree_vdot_real`, `norm` is `tree_l2_norm`.  Parameters are real, so `tree_conj`
is the identity.  An array of length `history_size` is a function of its index: every index used is reduced modulo
`history_size`.  The line search is an arbitrary function.  `aux`, the evaluation counters and `verbose` are left out.
-/

set_option autoImplicit false
set_option linter.unusedSectionVars false
set_option linter.unusedVariables false

namespace Jaxopt.QuasiNewton

open Jaxopt.Base

variable {K E : Type*} [Field K] [LinearOrder K] [AddCommGroup E] [Module K E]

/-- The three circular buffers `s_history`, `y_history`, `rho_history`. -/
structure Hist (K E : Type*) where
  s : ℕ → E
  y : ℕ → E
  rho : ℕ → K

/-- `indices = (start + arange(history_size)) % history_size`, lbfgs.py line 79. -/
def indices (m start : ℕ) : List ℕ := (List.range m).map fun i => (start + i) % m

/-- `body_right`, lines 81-85. -/
def bodyRight (vdot : E → E → K) (h : Hist K E) (r : E) (i : ℕ) : E × K :=
  let alpha := h.rho i * vdot (h.s i) r
  (r + (-alpha) • h.y i, alpha)

/-- `lax.scan(body, r, xs, reverse=True)`, line 86: the last element is processed first, the outputs are stacked in the
order of `xs`. -/
def scanReverse {C X Y : Type*} (body : C → X → C × Y) (r : C) : List X → C × List Y
  | [] => (r, [])
  | x :: xs =>
    let (r', ys) := scanReverse body r xs
    let (r'', y) := body r' x
    (r'', y :: ys)

/-- `body_left`, lines 90-95. -/
def bodyLeft (vdot : E → E → K) (h : Hist K E) (r : E) (a : ℕ × K) : E :=
  let beta := h.rho a.1 * vdot (h.y a.1) r
  r + (a.2 - beta) • h.s a.1

/-- `inv_hessian_product`, lines 43-98. -/
def invHessianProduct (vdot : E → E → K) (m : ℕ) (v : E) (h : Hist K E) (gamma : K) (start : ℕ) : E :=
  let idx := indices m start
  let ra := scanReverse (bodyRight vdot h) v idx
  let r := gamma • ra.1
  (idx.zip ra.2).foldl (bodyLeft vdot h) r

/-- `compute_gamma`, lines 101-114. -/
def computeGamma (vdot : E → E → K) (h : Hist K E) (last : ℕ) : K :=
  let num := vdot (h.y last) (h.s last)
  let denom := vdot (h.y last) (h.y last)
  if 0 < denom then num / denom else 1

/-- `init_history` and the zero `rho_history`, lines 117-119 and 276-283. -/
def initHist : Hist K E := ⟨fun _ => 0, fun _ => 0, fun _ => 0⟩

/-- `update_history` on the three buffers, lines 122-124 and 380-383. -/
def Hist.set (h : Hist K E) (last : ℕ) (s y : E) (rho : K) : Hist K E :=
  ⟨Function.update h.s last s, Function.update h.y last y, Function.update h.rho last rho⟩

/-- The stepsize attribute: `<= 0` means line search, else a constant, or a callable of the iteration number. -/
inductive Stepsize (K : Type*) where
  | const (a : K)
  | fn (a : ℕ → K)

/-- What the solver keeps of the state returned by a line search. -/
structure LsOut (K E V : Type*) where
  stepsize : K
  params : E
  value : V
  grad : E
  failed : Bool

/-- Attributes of `LBFGS`, lines 210-240, with the objective already turned into a value and a gradient function and the
line search into `runLs init_stepsize params value grad direction`.  `initStep` is `_init_stepsize` (linesearch_util.py
lines 81-103, modelled as `LineSearch.initStepsize`) with the attributes of the solver. -/
structure Lbfgs (K E V : Type*) where
  f : E → V
  grad : E → E
  vdot : E → E → K
  norm : E → K
  historySize : ℕ
  useGamma : Bool
  stepsize : Stepsize K
  maxStepsize : K
  initStep : K → K
  stopIfLinesearchFails : Bool
  tol : K
  maxiter : ℕ
  unroll : Bool
  jit : Bool
  runLs : K → E → V → E → E → LsOut K E V

/-- `LbfgsState`, lines 127-142. -/
structure LbfgsState (K E V : Type*) where
  iterNum : ℕ
  value : V
  grad : E
  stepsize : K
  error : Ext K
  hist : Hist K E
  gamma : K
  failedLinesearch : Bool

namespace Lbfgs

variable {V : Type*}

/-- `init_state` on a pytree of parameters, lines 274-293. -/
def initState (S : Lbfgs K E V) (x0 : E) : LbfgsState K E V where
  iterNum := 0
  value := S.f x0
  grad := S.grad x0
  stepsize := S.maxStepsize
  error := .pinf
  hist := initHist
  gamma := 1
  failedLinesearch := false

/-- `init_state` on an `OptStep` (warm start), lines 262-273 and 284-293. -/
def initStateWarm (S : Lbfgs K E V) (p : E × LbfgsState K E V) : LbfgsState K E V where
  iterNum := p.2.iterNum
  value := S.f p.1
  grad := S.grad p.1
  stepsize := p.2.stepsize
  error := .pinf
  hist := p.2.hist
  gamma := p.2.gamma
  failedLinesearch := false

/-- The search direction computed by `update`, lines 316-331. -/
def direction (S : Lbfgs K E V) (st : LbfgsState K E V) : E :=
  let start := st.iterNum % S.historySize
  let d := (-1 : K) • st.grad
  if S.historySize ≠ 0 then invHessianProduct S.vdot S.historySize d st.hist st.gamma start else d

/-- The step taken along the direction, lines 333-374. -/
def step (S : Lbfgs K E V) (x : E) (st : LbfgsState K E V) (d : E) : LsOut K E V :=
  match S.stepsize with
  | .const a =>
    if a ≤ 0 then
      S.runLs (S.initStep st.stepsize) x st.value st.grad d
    else
      let x' := x + a • d
      ⟨a, x', S.f x', S.grad x', false⟩
  | .fn a =>
    let x' := x + a st.iterNum • d
    ⟨a st.iterNum, x', S.f x', S.grad x', false⟩

/-- `update`, lines 295-417. -/
def update (S : Lbfgs K E V) (p : E × LbfgsState K E V) : E × LbfgsState K E V :=
  let x := p.1
  let st := p.2
  let start := st.iterNum % S.historySize
  let o := S.step x st (S.direction st)
  let s := o.params - x
  let y := o.grad - st.grad
  let sy := S.vdot s y
  let rho := if sy = 0 then 0 else 1 / sy
  let hist := if S.historySize ≠ 0 then st.hist.set start s y rho else st.hist
  let gamma := if S.historySize ≠ 0 ∧ S.useGamma = true then computeGamma S.vdot hist start else 1
  (o.params,
    { iterNum := st.iterNum + 1, value := o.value, grad := o.grad, stepsize := o.stepsize,
      error := .fin (S.norm o.grad), hist := hist, gamma := gamma, failedLinesearch := o.failed })

/-- `_cond_fun`, lines 242-246. -/
def cont (S : Lbfgs K E V) (p : E × LbfgsState K E V) : Bool :=
  Ext.gt p.2.error (.fin S.tol) && (!S.stopIfLinesearchFails || !p.2.failedLinesearch)

/-- `run` (base.py lines 296-332). -/
def run (S : Lbfgs K E V) (x0 : E) : Except String (E × LbfgsState K E V) :=
  runS S.initState S.update S.cont S.maxiter S.unroll S.jit x0

end Lbfgs

end Jaxopt.QuasiNewton
