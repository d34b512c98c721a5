import Verif.Tree.Model
import Verif.FixedPoint.Anderson
import Mathlib.Algebra.BigOperators.Fin

/-!
# Model of the batched pytrees of Anderson acceleration

`jaxopt/_src/tree_util.py` lines 158-182 and 223-226 and `jaxopt/_src/anderson.py` lines 46-86 and 174-178, on pytrees of arrays with row-major data.  Python
exceptions are `none`; `jax.vmap` over the leading axis is the family of its slices.
-/

set_option autoImplicit false
set_option linter.unusedSectionVars false
set_option linter.unusedVariables false

namespace Jaxopt.Tree

variable {K : Type*} {m : ℕ}

/-- An array of shape `(m, *shape)`: row-major data. -/
structure Stack (K : Type*) (m : ℕ) where
  shape : List ℕ
  data : List K
  wf : data.length = m * shape.prod

namespace Stack

theorem row_bound (i : Fin m) (p : ℕ) : (i : ℕ) * p + p ≤ m * p := by
  rw [← Nat.succ_mul]; exact Nat.mul_le_mul_right p i.2

/-- `x[i]`, the slice that `jax.vmap` passes on. -/
def row (i : Fin m) (a : Stack K m) : Arr K :=
  ⟨a.shape, (a.data.drop (i * a.shape.prod)).take a.shape.prod, by
    have := row_bound i a.shape.prod
    rw [List.length_take, List.length_drop, a.wf]; omega⟩

/-- `jnp.tensordot(weights, x, axes=1)`, tree_util.py line 168. -/
def tensordot [Semiring K] (w : Fin m → K) (a : Stack K m) : Arr K :=
  ⟨a.shape, List.ofFn fun j : Fin a.shape.prod => ∑ i : Fin m, w i * a.data[(i : ℕ) * a.shape.prod + j]'(by
    have := row_bound i a.shape.prod
    have := j.2
    rw [a.wf]; omega), by simp⟩

/-- `x.at[i].set(elem)` for an element of the shape of a row, anderson.py line 74. -/
def set (i : Fin m) (a : Stack K m) (e : Arr K) : Option (Stack K m) :=
  if h : e.shape = a.shape then
    some ⟨a.shape, a.data.take (i * a.shape.prod) ++ e.data ++ a.data.drop (i * a.shape.prod + a.shape.prod), by
      have := row_bound i a.shape.prod
      rw [List.length_append, List.length_append, List.length_take, List.length_drop, a.wf, e.wf, h]; omega⟩
  else none

/-- `jnp.tile(x, [m] + [1] * x.ndim)`, anderson.py line 175. -/
def tile (m : ℕ) (x : Arr K) : Stack K m :=
  ⟨x.shape, (List.replicate m x.data).flatten, by simp [x.wf]⟩

/-- `jnp.zeros_like`. -/
def zerosLike [Zero K] (a : Stack K m) : Stack K m := ⟨a.shape, a.data.map fun _ => 0, by rw [List.length_map, a.wf]⟩

end Stack

section
variable [Ring K]

/-- The `i`-th tree of a batch. -/
def treeRow (i : Fin m) (t : PyTree (Stack K m)) : Option (PyTree (Arr K)) := treeMap (Stack.row i) t

/-- `tree_average`, tree_util.py lines 158-168. -/
def treeAverage (t : PyTree (Stack K m)) (w : Fin m → K) : Option (PyTree (Arr K)) := treeMap (Stack.tensordot w) t

/-- `tree_gram`, tree_util.py lines 171-182: the entry `[j, i]`. -/
def treeGram (t : PyTree (Stack K m)) (j i : Fin m) : Option K :=
  (treeRow i t).bind fun a => (treeRow j t).bind fun b => treeVdot a b

/-- `pytree_replace_elem`, anderson.py lines 62-75. -/
def pytreeReplaceElem (t : PyTree (Stack K m)) (i : Fin m) (e : PyTree (Arr K)) : Option (PyTree (Stack K m)) := treeMap2 (Stack.set i) t e

/-- The initial histories, anderson.py lines 175-177. -/
def initHistories (m : ℕ) (x0 : PyTree (Arr K)) : Option (PyTree (Stack K m) × PyTree (Stack K m)) :=
  (treeMap (Stack.tile m) x0).bind fun p => (treeMap Stack.zerosLike p).map fun r => (p, r)

end

section
variable [Field K]

/-- `jnp.mean` of an array. -/
def arrMean (a : Arr K) : K := a.data.sum / (a.data.length : K)

/-- `tree_mean`, tree_util.py lines 223-226. -/
def treeMean (t : PyTree (Arr K)) : Option K :=
  (treeMap arrMean t).bind fun r => (treeReduce (· + ·) r).map fun s => s / ((leaves r).length : K)

variable [LinearOrder K]

/-- `anderson_step`, anderson.py lines 46-59. -/
def andersonStepTree (solve : FixedPoint.LinSolve K m) (params residuals : PyTree (Stack K m)) (gram : Matrix (Fin m) (Fin m) K) (ridge beta : K) :
    Option (PyTree (Arr K)) :=
  let alphas := fun i => FixedPoint.minimizeResiduals solve gram ridge (.inr i)
  (treeAverage params alphas).bind fun pa => (treeAverage residuals alphas).bind fun ra => treeAddScalarMul pa beta ra

/-- `jax.vmap(tree_vdot, in_axes=(0, None))`, anderson.py line 82: raises if the function does. -/
def vmapVdot (t : PyTree (Stack K m)) (r : PyTree (Arr K)) : Option (Fin m → K) :=
  if h : ∀ i, ((treeRow i t).bind fun a => treeVdot a r).isSome then some fun i => ((treeRow i t).bind fun a => treeVdot a r).get (h i) else none

/-- `update_history`, anderson.py lines 78-86. -/
def updateHistoryTree (sqrt : K → K) (pos : Fin m) (params residuals : PyTree (Stack K m)) (gram : Matrix (Fin m) (Fin m) K)
    (extrapolated residual : PyTree (Arr K)) : Option (PyTree (Stack K m) × PyTree (Stack K m) × Matrix (Fin m) (Fin m) K × K) :=
  (pytreeReplaceElem params pos extrapolated).bind fun params =>
  (pytreeReplaceElem residuals pos residual).bind fun residuals =>
  (vmapVdot residuals residual).map fun newRow =>
    let gram1 := gram.updateRow pos newRow
    let gram2 := gram1.updateCol pos newRow
    (params, residuals, gram2, sqrt (gram2 pos pos))

end

end Jaxopt.Tree
