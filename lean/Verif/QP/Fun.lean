import Verif.QP.Kkt
import Verif.OSQP.Box
import Verif.Tree.Model

/-!
# Quadratic objectives given as a function: `fun` of `EqualityConstrainedQP`, `BoxOSQP` and `OSQP`

Models of `extract_Qc_from_obj` (`jaxopt/_src/eq_qp.py` lines 38-62, `jaxopt/_src/osqp.py` lines 51-75), of the `matvec_Q` that
`__post_init__` builds (eq_qp.py lines 288-297, osqp.py lines 787-797) and of the optimality functions with `fun` (eq_qp.py lines 65-102,
osqp.py lines 78-129).  The primal variable is a vector with `n` entries, `f` is `fun(·, params_obj)`, and `jax.grad` is a parameter
`grad`.
-/

set_option autoImplicit false
set_option linter.unusedSectionVars false
set_option linter.unusedVariables false

namespace Jaxopt.QP.Fun

open Jaxopt.QP Jaxopt.Tree

variable {K : Type*} [Field K] [LinearOrder K] {n m : ℕ}

/-- What `jax.grad` is applied to and returns. -/
abbrev Grad (K : Type*) (n : ℕ) := ((Fin n → K) → K) → (Fin n → K) → (Fin n → K)

/-- The result of `extract_Qc_from_obj` with `fun` apart from `params_obj`: `c` is the gradient at zero, `cste` the value there
(eq_qp.py lines 55-62, osqp.py lines 68-75). -/
def extractQc (grad : Grad K n) (f : (Fin n → K) → K) : (Fin n → K) × K :=
  let zeros : Fin n → K := fun _ => 0
  (grad f zeros, f zeros)

/-- `extract_Qc_from_obj` of eq_qp.py, lines 51-62: without `init_params` (or without its primal part) it raises. -/
def extractQcEq (grad : Grad K n) (f : (Fin n → K) → K) (initPrimal : Option (Fin n → K)) : Except String ((Fin n → K) × K) :=
  match initPrimal with
  | none => .error "init_params must be provided when fun is not None."
  | some _ => .ok (extractQc grad f)

/-- `matvec_Q` with `fun`, eq_qp.py lines 289-297, osqp.py lines 788-796: the gradient of `fun_minus_cx`. -/
def matvecQ (grad : Grad K n) (f : (Fin n → K) → K) (c x : Fin n → K) : Fin n → K :=
  grad (fun xx => f xx - ∑ i, c i * xx i) x

/-- `optimality_fun` of `EqualityConstrainedQP` with `fun`, eq_qp.py lines 81-102: the objective of the KKT function is `fun`
itself. -/
def eqOptimality (grad : Grad K n) (f : (Fin n → K) → K) (A : Matrix (Fin m) (Fin n) K) (b : Fin m → K)
    (p : KKT K (Fin n → K) (Fin m → K) Empty) : KKT K (Fin n → K) (Fin m → K) Empty :=
  kktOptimality (grad f) (fun x => A.mulVec x - b) (fun _ y => A.transpose.mulVec y) (fun _ _ => 0) (fun _ _ => 0) p

/-- What a user function may be called with: a primal variable `x`, or the pair `(x, z)` of a `BoxOSQP` solution. -/
inductive Arg (K : Type*) (n m : ℕ)
  | x (v : Fin n → K)
  | pair (v : Fin n → K) (z : Fin m → K)

/-- The objective part of `_make_osqp_optimality_fun`, osqp.py lines 94-103: with `fun = None` the pair is unpacked, with `fun` the
function itself is called on `primal_var`, which `make_kkt_optimality_fun` passes on unchanged (implicit_diff.py line 353). -/
def osqpObj (fun_ : Option (Arg K n m → Except String K)) (Q : (Fin n → K) → (Fin n → K)) (c : Fin n → K) (primal : Arg K n m) :
    Except String K :=
  match fun_ with
  | some f => f primal
  | none => match primal with
    | .pair x z => .ok ((∑ i, c i * x i) + 1 / 2 * ∑ i, x i * Q x i)
    | .x _ => .error "TypeError: cannot unpack"

/-- `c*xx` of eq_qp.py line 295 on pytrees (Python's `*`): arrays of equal shape are multiplied; tuples, lists and dictionaries raise
`TypeError`. -/
def pyMul : PyTree (Arr K) → PyTree (Arr K) → Except String (List K)
  | .leaf a, .leaf b => if a.shape = b.shape then .ok (List.zipWith (· * ·) a.data b.data) else .error "TypeError: incompatible shapes"
  | _, _ => .error "TypeError: unsupported operand type(s) for *"

/-- `fun_minus_cx` of eq_qp.py lines 294-295 on pytrees. -/
def funMinusCx (f : PyTree (Arr K) → Except String K) (c xx : PyTree (Arr K)) : Except String K :=
  match f xx, pyMul c xx with
  | .ok v, .ok s => .ok (v - s.sum)
  | .error e, _ => .error e
  | _, .error e => .error e

end Jaxopt.QP.Fun
