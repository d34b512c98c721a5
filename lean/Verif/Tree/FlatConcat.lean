import Verif.Tree.Stacked
import Verif.Scipy.Flatten
import Mathlib.Data.List.FinRange

/-!
# Model of `_flatten_and_concat` and `_split_and_pack_like`

`jaxopt/_src/lbfgsb.py` lines 48-71: how `LBFGSB` turns pytrees and histories of pytrees into arrays and back.
-/

set_option autoImplicit false
set_option linter.unusedSectionVars false
set_option linter.unusedVariables false

namespace Jaxopt.Tree

open Jaxopt.Scipy

variable {K : Type*} {m : ℕ}

/-- `_flatten_and_concat(tree)`, lines 48-55 with `batch_ndims=0`: `tree_reduce` raises on a tree without leaves. -/
def flattenAndConcat (t : PyTree (Arr K)) : Option (List K) := (treeMap (fun a : Arr K => a.data) t).bind (treeReduce (· ++ ·))

/-- `jnp.reshape(x, x.shape[:1] + (-1,))`, line 51, for a positive leading size. -/
def Stack.reshapeFlat (a : Stack K m) : Stack K m := ⟨[a.shape.prod], a.data, by simpa using a.wf⟩

/-- `jnp.concatenate((a, b), axis=-1)`, line 54, for arrays of two dimensions. -/
def Stack.concatLast (a b : Stack K m) : Stack K m :=
  ⟨[a.shape.prod + b.shape.prod], (List.finRange m).flatMap fun i => (a.row i).data ++ (b.row i).data, by
    have e : ∀ i : Fin m, ((a.row i).data ++ (b.row i).data).length = a.shape.prod + b.shape.prod := fun i => by
      rw [List.length_append, (a.row i).wf, (b.row i).wf]; rfl
    rw [List.length_flatMap]
    simp only [e]
    simp⟩

/-- `_flatten_and_concat(tree, batch_ndims=1)`, lines 48-55: the size `-1` cannot be found if the leading size is zero. -/
def flattenHistory (t : PyTree (Stack K m)) : Option (Stack K m) :=
  if m = 0 then none else (treeMap Stack.reshapeFlat t).bind (treeReduce Stack.concatLast)

/-- `_split_and_pack_like`, lines 58-71. -/
def splitAndPackLike (x : List K) (t : PyTree (Arr K)) : Except String (PyTree (Arr K)) :=
  match t with
  | .leaf a => (reshape x a.shape).map .leaf
  | .node tag ts =>
    let sizes := (leaves (.node tag ts)).map fun a => a.data.length
    match unflatten (.node tag ts : PyTree (Arr K)) (split x (cumsum 0 sizes).dropLast) with
    | none => .error "ValueError: wrong number of leaves"
    | some s =>
      match treeMap2 (fun y (p : Arr K) => (reshape y p.shape).toOption) s (.node tag ts) with
      | none => .error "TypeError: cannot reshape array"
      | some r => .ok r

end Jaxopt.Tree
