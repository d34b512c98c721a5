import Verif.Num.ExtArith
import Mathlib.Algebra.Module.Defs

/-!
# Model of `jaxopt/_src/polyak_sgd.py`

Values may be NaN or infinite, gradients are finite vectors.  A non-finite stepsize makes every coordinate of the new
parameters non-finite or NaN (it is multiplied with the gradient, `0 * inf = NaN`): such parameters are represented by
`none`.  `aux`, dtypes, counters and `pre_update` are not modelled.
-/

set_option autoImplicit false

namespace Jaxopt.SGD

variable {K E D : Type*} [Field K] [LinearOrder K] [AddCommGroup E] [Module K E]

/-- IEEE division of a float by a finite non-negative number (`x / +0`). -/
def divNonneg (a : Ext K) (d : K) : Ext K :=
  match a with
  | .nan => .nan
  | .pinf => .pinf
  | .ninf => .ninf
  | .fin x => if d = 0 then (if x = 0 then .nan else if 0 < x then .pinf else .ninf) else .fin (x / d)

/-- Attributes of `PolyakSGD`, lines 140-159; `eps` is `jnp.finfo(dtype).eps`. -/
structure Polyak (K E D : Type*) where
  f : D → E → Ext K
  grad : D → E → E
  sqnorm : E → K
  sqrt : K → K
  funMin : K
  variant : String
  maxStepsize : K
  delta : K
  momentum : K
  eps : K

/-- `PolyakSGDState`, lines 36-46. -/
structure PState (K E : Type*) where
  iterNum : ℕ
  error : Ext K
  value : Ext K
  stepsize : Ext K
  velocity : Option E

/-- `init_state`, lines 161-190. -/
def Polyak.initState (s : Polyak K E D) : PState K E :=
  { iterNum := 0, error := .pinf, value := .pinf, stepsize := .fin 1, velocity := if s.momentum = 0 then none else some 0 }

/-- The stepsize, lines 214-227. -/
def Polyak.stepsize (s : Polyak K E D) (value : Ext K) (gradSqnorm : K) : Except String (Ext K) :=
  if s.variant = "SPS_max" then
    .ok (Ext.min (divNonneg (Ext.sub value (.fin s.funMin)) (gradSqnorm + s.delta)) (.fin s.maxStepsize))
  else if s.variant = "SPS+" then
    .ok (if gradSqnorm ≤ s.eps then .fin 0
      else Ext.max (divNonneg (Ext.sub value (.fin s.funMin)) gradSqnorm) (.fin 0))
  else .error "NotImplementedError: Unknown variant"

/-- `update`, lines 192-260; `none` for parameters that are not finite. -/
def Polyak.update (s : Polyak K E D) (b : D) (x : E) (st : PState K E) : Except String (Option E × PState K E) :=
  let value := s.f b x
  let g := s.grad b x
  let gs := s.sqnorm g
  match s.stepsize value gs with
  | .error e => .error e
  | .ok step =>
    if s.momentum = 0 then
      let new := match step with
        | .fin t => some (x + (-t) • g)
        | _ => none
      .ok (new, { iterNum := st.iterNum + 1, error := .fin (s.sqrt gs), velocity := none, value := value, stepsize := step })
    else
      let vel := match step with
        | .fin t => some (s.momentum • st.velocity.getD 0 - t • g)
        | _ => none
      .ok (vel.map (fun v => x + v),
        { iterNum := st.iterNum + 1, error := .fin (s.sqrt gs), velocity := vel, value := value, stepsize := step })

end Jaxopt.SGD
