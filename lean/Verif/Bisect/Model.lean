import Verif.Num.Ext

/-!
# Model of `jaxopt/_src/bisection.py`

Over an arbitrary linearly ordered field.  `has_aux=False` is modelled.
-/

set_option autoImplicit false

namespace Jaxopt.Bisect

variable {K : Type*} [Field K] [LinearOrder K]

/-- `BisectionState`, lines 30-40. -/
structure State (K : Type*) where
  iterNum : ℕ
  value : Ext K
  error : Ext K
  low : K
  high : K
  sign : ℤ
  numFunEval : ℕ

/-- The sign computed on lines 99-101. -/
def bracketSign (lowerValue upperValue : K) : ℤ :=
  if lowerValue < 0 ∧ upperValue ≥ 0 then 1
  else if lowerValue > 0 ∧ upperValue ≤ 0 then -1 else 0

/-- `init_state`, lines 75-115. -/
def initState (f : K → K) (lower upper : K) (checkBracket : Bool) : Except String (State K) :=
  let sign := bracketSign (f lower) (f upper)
  if checkBracket ∧ sign = 0 then .error "ValueError: The root is not contained in [lower, upper]."
  else .ok { iterNum := 0, value := .pinf, error := .pinf, low := lower, high := upper, sign := sign,
             numFunEval := 2 }

/-- `update`, lines 117-162: new params and state. `jnp.sqrt(value ** 2)` is the absolute value. -/
def update (f : K → K) (s : State K) : K × State K :=
  let params := (1 / 2) * (s.high + s.low)
  let value := f params
  let tooLarge := decide ((s.sign : K) * value > 0)
  (params,
    { iterNum := s.iterNum + 1, value := .fin value, error := .fin |value|,
      low := if tooLarge then s.low else params,
      high := if tooLarge then params else s.high,
      sign := s.sign, numFunEval := s.numFunEval + 1 })

/-- The state after `k` updates. -/
def stateAfter (f : K → K) (s : State K) : ℕ → State K
  | 0 => s
  | k + 1 => (update f (stateAfter f s k)).2

/-- The params returned by the `k+1`-st update. -/
def paramsAfter (f : K → K) (s : State K) (k : ℕ) : K := (update f (stateAfter f s k)).1

end Jaxopt.Bisect
