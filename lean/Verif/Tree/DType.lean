import Verif.Tree.Model
import Mathlib.Data.List.Dedup

/-!
# Model of `tree_single_dtype` and `get_real_dtype`

`jaxopt/_src/tree_util.py` lines 229-271.  A Python `set` of dtypes is a list without duplicates.  `x64` is the flag `jax_enable_x64`.
-/

set_option autoImplicit false
set_option linter.unusedSectionVars false
set_option linter.unusedVariables false

namespace Jaxopt.Tree

/-- Dtypes, with their number of bits. -/
inductive DType where
  | bool
  | int (bits : ℕ)
  | uint (bits : ℕ)
  | float (bits : ℕ)
  | bfloat16
  | complex (bits : ℕ)
  deriving DecidableEq

/-- A leaf as the function sees it; `other` is everything that fails the `isinstance` test, e.g. strings and NumPy scalars such as `np.float32(1)`
(`np.float64` and `np.complex128` are subclasses of `float` and `complex`: `pyFloat` and `pyComplex`). -/
inductive DLeaf where
  | pyBool
  | pyInt
  | pyFloat
  | pyComplex
  | array (d : DType)
  | other

/-- JAX's canonical dtype: 64-bit types (128-bit complex) are halved unless double precision is enabled. -/
def canon (x64 : Bool) : DType → DType
  | .int 64 => if x64 then .int 64 else .int 32
  | .uint 64 => if x64 then .uint 64 else .uint 32
  | .float 64 => if x64 then .float 64 else .float 32
  | .complex 128 => if x64 then .complex 128 else .complex 64
  | d => d

/-- `onp.asarray(p).dtype` for the leaves that pass the `isinstance` test, lines 252-258. -/
def onpDtype : DLeaf → Option DType
  | .pyBool => some .bool
  | .pyInt => some (.int 64)
  | .pyFloat => some (.float 64)
  | .pyComplex => some (.complex 128)
  | .array d => some d
  | .other => none

/-- `jnp.asarray(p).dtype`, lines 244-250. -/
def jnpDtype (x64 : Bool) (p : DLeaf) : Option DType := (onpDtype p).map (canon x64)

/-- `tree_single_dtype`, lines 229-264. -/
def treeSingleDtype (convert x64 : Bool) (t : PyTree DLeaf) : Except String (Option DType) :=
  let dtypes := ((leaves t).filterMap (if convert then jnpDtype x64 else onpDtype)).dedup
  match dtypes with
  | [] => .ok none
  | [d] => .ok (some d)
  | _ => .error "ValueError: Found more than one dtype in the tree."

/-- `get_real_dtype`, lines 266-271. -/
def getRealDtype : DType → DType
  | .complex bits => if bits ∈ [4, 8, 16, 32, 64, 128] then .float (bits / 2) else .complex bits
  | d => d

end Jaxopt.Tree
