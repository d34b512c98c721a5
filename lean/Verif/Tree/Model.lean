import Mathlib.Data.Nat.Notation
import Mathlib.Tactic.TypeStar
import Mathlib.Algebra.Ring.Defs
import Mathlib.Algebra.BigOperators.Group.List.Basic
import Mathlib.Algebra.Order.Group.Unbundled.Abs

/-!
# Pytrees, and the model of `jaxopt/_src/tree_util.py`

A pytree is a leaf or a container (`tag`: its type and static data such as dictionary keys) with children; `None` is a container
without children.  Leaves are real arrays; `data` is the row-major content.  `jax.tree_util` functions are modelled after the JAX
documentation: `tree_map(f, t, u)` flattens `t`, requires `u` to have the same structure, and unflattens.  Array operations are
modelled for arguments of equal shape only (`none` otherwise; NumPy broadcasting is not modelled).  `none` stands for a raised
exception.
-/

set_option autoImplicit false
set_option linter.unusedSectionVars false
set_option linter.unusedVariables false

namespace Jaxopt.Tree

/-- A real array: shape and row-major data. -/
structure Arr (K : Type*) where
  shape : List ℕ
  data : List K
  wf : data.length = shape.prod

/-- Pytrees with leaves in `α`. -/
inductive PyTree (α : Type*) where
  | leaf (a : α)
  | node (tag : String) (children : List (PyTree α))

variable {α β γ K : Type*}

mutual
/-- `tree_leaves`. -/
def leaves : PyTree α → List α
  | .leaf a => [a]
  | .node _ ts => leavesL ts

/-- The leaves of a list of trees. -/
def leavesL : List (PyTree α) → List α
  | [] => []
  | t :: ts => leaves t ++ leavesL ts
end

mutual
/-- Equality of the structures (`treedef`) of two trees. -/
def sameDef : PyTree α → PyTree β → Bool
  | .leaf _, .leaf _ => true
  | .node s ts, .node s' us => s == s' && sameDefL ts us
  | _, _ => false

/-- Equality of the structures of two lists of trees. -/
def sameDefL : List (PyTree α) → List (PyTree β) → Bool
  | [], [] => true
  | t :: ts, u :: us => sameDef t u && sameDefL ts us
  | _, _ => false
end

mutual
/-- Fill the structure of a tree with leaves from a list; returns the remaining leaves. -/
def fill : PyTree β → List α → Option (PyTree α × List α)
  | .leaf _, [] => none
  | .leaf _, a :: as => some (.leaf a, as)
  | .node s ts, as => (fillL ts as).map fun r => (.node s r.1, r.2)

/-- The same for a list of trees. -/
def fillL : List (PyTree β) → List α → Option (List (PyTree α) × List α)
  | [], as => some ([], as)
  | t :: ts, as => (fill t as).bind fun r => (fillL ts r.2).map fun q => (r.1 :: q.1, q.2)
end

/-- `treedef.unflatten`: too few or too many leaves raise `ValueError`. -/
def unflatten (td : PyTree β) (as : List α) : Option (PyTree α) :=
  match fill td as with
  | some (t, []) => some t
  | _ => none

/-- Apply a partial function to corresponding elements. -/
def zipM (f : α → β → Option γ) : List α → List β → Option (List γ)
  | [], [] => some []
  | a :: as, b :: bs => (f a b).bind fun c => (zipM f as bs).map fun cs => c :: cs
  | _, _ => none

/-- `tree_map(f, t)`. -/
def treeMap (f : α → β) (t : PyTree α) : Option (PyTree β) := unflatten t ((leaves t).map f)

/-- `tree_map(f, t, u)`. -/
def treeMap2 (f : α → β → Option γ) (t : PyTree α) (u : PyTree β) : Option (PyTree γ) :=
  if sameDef t u then (zipM f (leaves t) (leaves u)).bind (unflatten t) else none

/-- `tree_reduce(f, t)` without initial value; raises on a tree without leaves. -/
def treeReduce (f : α → α → α) (t : PyTree α) : Option α :=
  match leaves t with
  | [] => none
  | a :: as => some (as.foldl f a)

namespace Arr

/-- An elementwise binary operation on arrays of equal shape. -/
def zipWith (f : K → K → K) (a b : Arr K) : Option (Arr K) :=
  if h : a.shape = b.shape then
    some ⟨a.shape, List.zipWith f a.data b.data, by rw [List.length_zipWith, a.wf, b.wf, h, Nat.min_self]⟩
  else none

/-- An elementwise operation. -/
def map (f : K → K) (a : Arr K) : Arr K := ⟨a.shape, a.data.map f, by rw [List.length_map, a.wf]⟩

/-- `jnp.sum`. -/
def sum [AddCommMonoid K] (a : Arr K) : K := a.data.sum

/-- `jnp.vdot` (flattens both arguments; the sizes must agree). -/
def vdot [Semiring K] (a b : Arr K) : Option K :=
  if a.data.length = b.data.length then some (List.zipWith (· * ·) a.data b.data).sum else none

end Arr

section
variable [Ring K]

/-- `tree_add`, tree_util.py line 71. -/
def treeAdd (t u : PyTree (Arr K)) : Option (PyTree (Arr K)) := treeMap2 (Arr.zipWith (· + ·)) t u

/-- `tree_sub`, tree_util.py line 74. -/
def treeSub (t u : PyTree (Arr K)) : Option (PyTree (Arr K)) := treeMap2 (Arr.zipWith (· - ·)) t u

/-- `tree_mul`, tree_util.py line 77. -/
def treeMul (t u : PyTree (Arr K)) : Option (PyTree (Arr K)) := treeMap2 (Arr.zipWith (· * ·)) t u

/-- `tree_scalar_mul`, tree_util.py lines 84-86. -/
def treeScalarMul (c : K) (t : PyTree (Arr K)) : Option (PyTree (Arr K)) := treeMap (Arr.map (c * ·)) t

/-- `tree_add_scalar_mul`, tree_util.py lines 89-91. -/
def treeAddScalarMul (t : PyTree (Arr K)) (c : K) (u : PyTree (Arr K)) : Option (PyTree (Arr K)) :=
  treeMap2 (fun x y => Arr.zipWith (· + ·) x (Arr.map (c * ·) y)) t u

/-- `tree_negative`, tree_util.py lines 213-215. -/
def treeNegative (t : PyTree (Arr K)) : Option (PyTree (Arr K)) := treeScalarMul (-1) t

/-- `tree_zeros_like`, tree_util.py lines 148-150. -/
def treeZerosLike (t : PyTree (Arr K)) : Option (PyTree (Arr K)) := treeMap (Arr.map fun _ => 0) t

/-- `tree_vdot`, tree_util.py lines 101-104. -/
def treeVdot (t u : PyTree (Arr K)) : Option K := (treeMap2 Arr.vdot t u).bind (treeReduce (· + ·))

/-- `tree_vdot_real` for real leaves, tree_util.py lines 119-121 (`sum` of a list starts from 0). -/
def treeVdotReal (t u : PyTree (Arr K)) : Option K := (treeMap2 Arr.vdot t u).map fun r => (leaves r).foldl (· + ·) 0

/-- `tree_sum`, tree_util.py lines 132-135. -/
def treeSum (t : PyTree (Arr K)) : Option K := (treeMap Arr.sum t).bind (treeReduce (· + ·))

/-- `tree_l2_norm(squared=True)` for real leaves, tree_util.py lines 138-145; otherwise `jnp.sqrt` of it. -/
def treeL2NormSq (t : PyTree (Arr K)) : Option K := (treeMap (Arr.map fun x => x * x) t).bind treeSum

/-- `tree_l2_norm`, tree_util.py lines 138-145. -/
def treeL2Norm (sqrt : K → K) (t : PyTree (Arr K)) : Option K := (treeL2NormSq t).map sqrt

end

/-- `tree_inf_norm`, tree_util.py lines 185-188: `jnp.concatenate` and `jnp.max` raise on empty input. -/
def treeInfNorm [LinearOrder K] [AddGroup K] (t : PyTree (Arr K)) : Option K :=
  match (leaves t).flatMap (·.data) with
  | [] => none
  | x :: xs => some ((xs.map (|·|)).foldl max |x|)

/-! ## `broadcast_pytrees` -/

/-- `treedef_is_leaf`. -/
def isLeaf : PyTree α → Bool
  | .leaf _ => true
  | .node _ _ => false

/-- The loop that determines the common structure, tree_util.py lines 51-61; `.error` is `ValueError`. -/
def commonDef : List (PyTree α) → Option (PyTree α) → Except String (Option (PyTree α))
  | [], td => .ok td
  | t :: ts, td =>
    if isLeaf t then commonDef ts td
    else
      let td' := td.getD t
      if sameDef t td' then commonDef ts (some td') else .error "ValueError: Pytrees are not broadcastable."

/-- Collect the results of a list of fallible computations. -/
def collect : List (Option α) → Except String (List α)
  | [] => .ok []
  | none :: _ => .error "ValueError: wrong number of leaves"
  | some a :: l => (collect l).map (a :: ·)

/-- `broadcast_pytrees`, tree_util.py lines 34-68. -/
def broadcastPytrees (ts : List (PyTree α)) : Except String (List (PyTree α)) :=
  (commonDef ts none).bind fun td =>
    match td with
    | none => .ok ts
    | some td =>
      let maxNumLeaves := (ts.map fun t => (leaves t).length).foldl max 0
      collect (ts.map fun t =>
        match t with
        | .leaf a => unflatten td (List.replicate maxNumLeaves a)
        | t => unflatten td (leaves t))

end Jaxopt.Tree
