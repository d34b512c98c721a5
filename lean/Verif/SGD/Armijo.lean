import Verif.Base.RunS
import Verif.Num.ExtArith
import Mathlib.Algebra.Module.Defs

/-!
# Model of `jaxopt/_src/armijo_sgd.py`

Objective values may be NaN or infinite (`Ext K`), gradients and stepsizes are finite.  The batch (`*args, **kwargs`) is
an element of an arbitrary type `D`.  `aux`, dtypes, `pre_update` hooks and logging are not modelled.
-/

set_option autoImplicit false

namespace Jaxopt.SGD

open Jaxopt.Base Jaxopt.Loop

/-- Accepted values of `reset_option` (line 344). -/
inductive Reset where
  | increase | goldstein | conservative
  deriving DecidableEq

/-- Attributes of `ArmijoSGD`, lines 203-234; `sqnorm` is `tree_l2_norm(·, squared=True)`, `norm` its root, `eps` the
machine epsilon of line 40. -/
structure Armijo (K E D : Type*) where
  f : D → E → Ext K
  grad : D → E → E
  sqnorm : E → K
  norm : E → K
  eps : K
  aggressiveness : K
  decreaseFactor : K
  increaseFactor : K
  reset : Reset
  momentum : K
  maxStepsize : K
  maxls : ℕ
  unroll : Bool
  jit : Bool

/-- The constructor checks of `__post_init__`, lines 344-348. -/
def checkOptions {K : Type*} [Zero K] [One K] [LE K] [DecidableRel (α := K) (· ≤ ·)] (resetOption : String)
    (aggressiveness : K) : Except String Reset :=
  let opt := if resetOption = "increase" then some Reset.increase
    else if resetOption = "goldstein" then some Reset.goldstein
    else if resetOption = "conservative" then some Reset.conservative else none
  match opt with
  | none => .error "'reset_option' should be one of ['increase', 'goldstein', 'conservative']"
  | some r => if aggressiveness ≤ 0 ∨ 1 ≤ aggressiveness then .error "'aggressiveness' must belong to open interval (0,1)"
    else .ok r

variable {K E D : Type*} [Field K] [LinearOrder K] [AddCommGroup E] [Module K E]

/-- `wolfe_cond_violated`, lines 39-41. -/
def wolfeViolated (eps stepsize coef : K) (fCur fNext : Ext K) (gradSqnorm : K) : Bool :=
  Ext.gt (.fin (stepsize * coef * gradSqnorm)) (Ext.add (Ext.sub fCur fNext) (.fin eps))

/-- `curvature_cond_violated`, lines 44-45. -/
def curvatureViolated (stepsize coef : K) (fCur fNext : Ext K) (gradSqnorm : K) : Bool :=
  Ext.lt fNext (Ext.sub fCur (.fin (stepsize * (1 - coef) * gradSqnorm)))

/-- State of the line-search loop: `(stepsize, next_params, f_next, violated)`. -/
structure LSState (K E : Type*) where
  stepsize : K
  params : E
  fNext : Ext K
  violated : Bool

namespace Armijo

/-- `self._coef = 1 - self.aggressiveness`, line 350. -/
def coef (s : Armijo K E D) : K := 1 - s.aggressiveness

/-- The triple for a stepsize: lines 76-77 and 85-87. -/
def at_ (s : Armijo K E D) (b : D) (x g : E) (step : K) (violated : Bool) : LSState K E :=
  { stepsize := step, params := x + (-step) • g, fNext := s.f b (x + (-step) • g), violated := violated }

/-- `update_stepsize`, lines 80-88 (keeps the flag). -/
def updateStepsize (s : Armijo K E D) (b : D) (x g : E) (t : LSState K E) (factor : K) : LSState K E :=
  s.at_ b x g (min (t.stepsize * factor) s.maxStepsize) t.violated

/-- `body_fun`, lines 90-108. -/
def body (s : Armijo K E D) (b : D) (x g : E) (fCur : Ext K) (t : LSState K E) : LSState K E :=
  let violated := wolfeViolated s.eps t.stepsize s.coef fCur t.fNext (s.sqnorm g)
  let t1 := if violated then s.updateStepsize b x g t s.decreaseFactor else t
  if s.reset = .goldstein then
    let gv := curvatureViolated t1.stepsize s.coef fCur t1.fNext (s.sqnorm g)
    let t2 := if gv then s.updateStepsize b x g t1 s.increaseFactor else t1
    { t2 with violated := violated || gv }
  else { t1 with violated := violated }

/-- `armijo_line_search`, lines 48-115. -/
def lineSearch (s : Armijo K E D) (b : D) (x : E) (fCur : Ext K) (stepsize : K) (g : E) : Except String (LSState K E) :=
  whileLoop (fun t => t.violated) (s.body b x g fCur) (s.at_ b x g stepsize true) s.maxls s.unroll s.jit

/-- `reset_stepsize`, lines 266-273. -/
def resetStepsize (s : Armijo K E D) (stepsize : K) : K :=
  match s.reset with
  | .goldstein => stepsize
  | .conservative => stepsize
  | .increase => min (stepsize * s.increaseFactor) s.maxStepsize

/-- `ArmijoState`, lines 118-133. -/
structure State (K E : Type*) where
  iterNum : ℕ
  error : Ext K
  value : Ext K
  stepsize : K
  velocity : Option E

/-- `init_state`, lines 236-264. -/
def initState (s : Armijo K E D) : State K E :=
  { iterNum := 0, error := .pinf, value := .pinf, stepsize := s.maxStepsize,
    velocity := if s.momentum = 0 then none else some 0 }

/-- `update`, lines 275-328 (without `pre_update`). -/
def update (s : Armijo K E D) (z : E × State K E) (b : D) : Except String (E × State K E) := do
  let stepsize := s.resetStepsize z.2.stepsize
  let fCur := s.f b z.1
  let g := s.grad b z.1
  let t ← s.lineSearch b z.1 fCur stepsize g
  if s.momentum = 0 then
    return (t.params, { iterNum := z.2.iterNum + 1, error := .fin (s.norm g), value := t.fNext, stepsize := t.stepsize,
                        velocity := none })
  else
    let next := t.params + s.momentum • z.2.velocity.getD 0
    return (next, { iterNum := z.2.iterNum + 1, error := .fin (s.norm g), value := t.fNext, stepsize := t.stepsize,
                    velocity := some (next - z.1) })

/-- Updates on a sequence of batches, starting from the initial state. -/
def runBatches (s : Armijo K E D) (x0 : E) (bs : List D) : Except String (E × State K E) :=
  bs.foldlM s.update (x0, s.initState)

end Armijo

end Jaxopt.SGD
