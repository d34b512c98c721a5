import Mathlib.Data.Nat.Notation
import Mathlib.Tactic.TypeStar
import Mathlib.Analysis.SpecialFunctions.Log.Basic
import Mathlib.Analysis.SpecialFunctions.Trigonometric.Arctan
import Mathlib.Analysis.Real.Sqrt

/-!
# Model of the constructors of `jaxopt/_src/scipy_wrappers.py`

Python dictionaries are mutable objects: a heap (a list of dictionaries, references are positions) models which solver shares which
dictionary with its caller.  The attribute `self.optimality_fun` (`self.fun`) is looked up when a closure is *called*, so closures are
modelled by constructors that refer to the final value of the attribute; `fuel` is Python's recursion limit.
-/

set_option autoImplicit false
set_option linter.unusedSectionVars false
set_option linter.unusedVariables false

namespace Jaxopt.Scipy

variable {V X Y A : Type*}

/-! ## `ScipyMinimize.__post_init__` and its options dictionary -/

/-- A dictionary; the first binding of a key counts. -/
abbrev Dict (V : Type*) := List (String × V)

/-- `ScipyMinimize.__post_init__`, scipy_wrappers.py lines 391-408, the part that concerns `options`: a fresh dictionary for `None`;
`ValueError` if the dictionary has a `maxiter` entry; otherwise the entry is stored *in that dictionary*.  Returns the heap and the
reference `self.options`. -/
def construct (h : List (Dict V)) (options : Option ℕ) (maxiter : V) : Except String (List (Dict V) × ℕ) :=
  let hr : List (Dict V) × ℕ := match options with
    | none => (h ++ [[]], h.length)
    | some r => (h, r)
  match hr.1[hr.2]? with
  | none => .error "no such object"
  | some d =>
    match d.lookup "maxiter" with
    | some _ => .error "ValueError: Cannot pass maxiter through options dictionary, use maxiter keyword argument instead."
    | none => .ok (hr.1.set hr.2 (("maxiter", maxiter) :: d), hr.2)

/-- A sequence of constructions (options argument, maxiter); returns the heap and the `self.options` of all solvers. -/
def constructAll (h : List (Dict V)) : List (Option ℕ × V) → Except String (List (Dict V) × List ℕ)
  | [] => .ok (h, [])
  | c :: cs => (construct h c.1 c.2).bind fun hr => (constructAll hr.1 cs).map fun q => (q.1, hr.2 :: q.2)

/-! ## `has_aux` in `ScipyRootFinding` and `ScipyLeastSquares` -/

/-- What the attribute `optimality_fun` (`fun`) may hold. -/
inductive Fn (X Y A : Type*) where
  /-- the user's function -/
  | user (f : X → Y)
  /-- the user's function with auxiliary output -/
  | userAux (f : X → Y × A)
  /-- the closure of lines 564-567 (711-712): `self.optimality_fun(x)[0]` -/
  | dropAux
  /-- `jax.jit` of a function -/
  | jit (f : Fn X Y A)

/-- The value of a call. -/
inductive Val (Y A : Type*) where
  | single (y : Y)
  | pair (y : Y) (a : A)

/-- Calling a function of the object whose attribute holds `self`; returns the value and how many times the user function was evaluated. -/
def call (self : Fn X Y A) : ℕ → Fn X Y A → X → Except String (Val Y A × ℕ)
  | 0, _, _ => .error "RecursionError: maximum recursion depth exceeded"
  | _ + 1, .user f, x => .ok (.single (f x), 1)
  | _ + 1, .userAux f, x => .ok (.pair (f x).1 (f x).2, 1)
  | n + 1, .jit f, x => call self n f x
  | n + 1, .dropAux, x => (call self n self x).bind fun v => match v.1 with
    | .pair y _ => .ok (.single y, v.2)
    | .single _ => .error "TypeError: not subscriptable"

/-- The attribute after `__post_init__`: `ScipyRootFinding`, scipy_wrappers.py lines 561-575; `ScipyLeastSquares`, lines 711-712 and
726-727. -/
def attrAfterInit (hasAux jit : Bool) (f : Fn X Y A) : Fn X Y A :=
  let g := if hasAux then .dropAux else f
  if jit then .jit g else g

/-- A call of the wrapped function by the solver (`self.optimality_fun(x)`, line 528; `self.fun(x)`, line 655). -/
def evalWrapped (fuel : ℕ) (hasAux jit : Bool) (f : Fn X Y A) (x : X) : Except String (Val Y A × ℕ) :=
  call (attrAfterInit hasAux jit f) fuel (attrAfterInit hasAux jit f) x

/-! ## The losses of `ScipyLeastSquares` -/

/-- The keys of `LS_RHO_FUNS`. -/
inductive LossName where
  | linear | softL1 | huber | cauchy | arctan

/-- `LS_RHO_FUNS`, scipy_wrappers.py lines 581-587 (`0.5` as an exponent is the square root). -/
noncomputable def rhoFun : LossName → ℝ → ℝ
  | .linear, z => z ^ 2
  | .softL1, z => 2 * (Real.sqrt (1 + z ^ 2) - 1)
  | .huber, z => if z ≤ 1 then z ^ 2 else 2 * z - 1
  | .cauchy, z => Real.log (1 + z ^ 2)
  | .arctan, z => Real.arctan (z ^ 2)

/-- `ScipyLeastSquares._cost_fun` as a function of the residuals, scipy_wrappers.py lines 634-638. -/
noncomputable def costFun (loss : LossName) (fScale : ℝ) (residuals : List ℝ) : ℝ :=
  0.5 * fScale ^ 2 * ((residuals.map fun r => rhoFun loss (r / fScale)).sum / residuals.length)

end Jaxopt.Scipy
