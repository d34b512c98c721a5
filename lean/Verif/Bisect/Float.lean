import Verif.Num.Format
import Verif.Base.RunS

/-!
# `jaxopt/_src/bisection.py` in floating-point arithmetic

Every arithmetic operation of `update` is rounded; `f` is the function that is actually computed (any function of floats, possibly NaN).
`jnp.asarray(self.lower, float)` is assumed exact.  `has_aux=False` is modelled.
-/

set_option autoImplicit false
set_option linter.unusedSectionVars false
set_option linter.unusedVariables false

namespace Jaxopt.Bisect.Float

open Jaxopt.Base

variable {K : Type*} [Field K] [LinearOrder K]

/-- Attributes of `Bisection`, lines 62-73, with the format and the operation `jnp.sqrt(value ** 2)`. -/
structure Attr (K : Type*) [Field K] [LinearOrder K] where
  fmt : Format K
  absValue : Ext K → Ext K
  f : Ext K → Ext K
  lower : K
  upper : K
  maxiter : ℕ
  tol : K
  checkBracket : Bool
  unroll : Bool
  jit : Bool

/-- `BisectionState`, lines 30-40. -/
structure State (K : Type*) where
  iterNum : ℕ
  value : Ext K
  error : Ext K
  low : Ext K
  high : Ext K
  sign : ℤ

/-- The sign computed on lines 99-101. -/
def bracketSign (lowerValue upperValue : Ext K) : ℤ :=
  if Ext.lt lowerValue (.fin 0) && Ext.le (.fin 0) upperValue then 1
  else if Ext.gt lowerValue (.fin 0) && Ext.le upperValue (.fin 0) then -1 else 0

/-- The state built by `init_state`, lines 75-115, when it does not raise. -/
def startState (A : Attr K) : State K :=
  ⟨0, .pinf, .pinf, .fin A.lower, .fin A.upper, bracketSign (A.f (.fin A.lower)) (A.f (.fin A.upper))⟩

/-- `update`, lines 117-162. -/
def update (A : Attr K) (p : Ext K × State K) : Ext K × State K :=
  let s := p.2
  let params := A.fmt.smul (1 / 2) (A.fmt.add s.high s.low)
  let value := A.f params
  let tooLarge := Ext.gt (Ext.smul (s.sign : K) value) (.fin 0)
  (params, ⟨s.iterNum + 1, value, A.absValue value, if tooLarge then s.low else params, if tooLarge then params else s.high, s.sign⟩)

/-- `run`, lines 164-169 and base.py lines 296-332; `init_params` is ignored. -/
def run (A : Attr K) : Except String (Ext K × State K) :=
  if A.checkBracket ∧ (startState A).sign = 0 then .error "ValueError: The root is not contained in [lower, upper]."
  else runS (fun _ => startState A) (update A) (fun p => Ext.gt p.2.error (.fin A.tol)) A.maxiter A.unroll A.jit .nan

end Jaxopt.Bisect.Float
