import Mathlib.Algebra.Order.Field.Basic
import Mathlib.Algebra.BigOperators.Group.Finset.Defs
import Mathlib.Data.Fintype.Basic
import Mathlib.Data.List.Sort
import Mathlib.Data.List.OfFn
import Mathlib.Data.List.FinRange
import Mathlib.Data.Finset.Lattice.Fold
import Verif.Bisect.Model

/-!
# Model of `jaxopt/_src/projection.py` (coordinate-level projections)

Arrays are functions from a finite index type; pytrees of arrays are flattened into one such array (all the pytree versions
are leaf-wise).
-/

set_option autoImplicit false

namespace Jaxopt.Proj

variable {K ι : Type*} [Field K] [LinearOrder K]

/-- `jax.nn.relu`. -/
def relu (x : K) : K := max x 0

/-- `jnp.clip` as used by `_clip_safe`, lines 51-52: `minimum(maximum(x, lower), upper)`. -/
def clip (x lower upper : K) : K := min (max x lower) upper

/-- `projection_non_negative`, lines 33-48. -/
def projectionNonNegative (x : ι → K) : ι → K := fun i => relu (x i)

/-- `projection_box`, lines 55-72 (bounds broadcast to the shape of `x`). -/
def projectionBox (x lower upper : ι → K) : ι → K := fun i => clip (x i) (lower i) (upper i)

/-- `projection_hypercube`, lines 75-92. -/
def projectionHypercube (x : ι → K) (unit : K) : ι → K := projectionBox x (fun _ => 0) (fun _ => unit)

/-- `projection_linf_ball`, lines 292-307. -/
def projectionLinfBall (x : ι → K) (maxValue : K) : ι → K :=
  projectionBox x (fun _ => -maxValue) (fun _ => maxValue)

/-- `jnp.cumsum`. -/
def cumsum (u : List K) : List K := (List.range u.length).map fun i => (u.take (i + 1)).sum

/-- `idx` of lines 101-104: number of positions (`ind = i + 1`) with `s / ind + (u - cumsum_u / ind) > 0`, `s = 1`. -/
def simplexCount (u : List K) : ℕ :=
  ((List.range u.length).filter fun i =>
    decide (1 / ((i + 1 : ℕ) : K) + (u.getD i 0 - (cumsum u).getD i 0 / ((i + 1 : ℕ) : K)) > 0)).length

/-- The value returned on line 105 for one coordinate `xi`, given the sorted array `u`. -/
def simplexEntry (u : List K) (xi : K) : K :=
  let idx := simplexCount u
  relu (1 / (idx : K) + (xi - (cumsum u).getD (idx - 1) 0 / (idx : K)))

/-- `_projection_unit_simplex`, lines 95-105.  `jnp.sort(x)[::-1]` is a decreasing sort. -/
def projectionUnitSimplex {n : ℕ} (x : Fin n → K) : Fin n → K :=
  let u := (List.ofFn x).insertionSort (· ≥ ·)
  fun i => simplexEntry u (x i)

/-- `projection_simplex`, lines 119-137. -/
def projectionSimplex {n : ℕ} (x : Fin n → K) (value : K) : Fin n → K :=
  fun i => value * projectionUnitSimplex (fun j => x j / value) i

/-- The order in which `jax.lax.top_k` returns indices: larger values first, ties by lower index. -/
def topKBefore {n : ℕ} (x : Fin n → K) (i j : Fin n) : Prop := x j < x i ∨ (x i = x j ∧ i ≤ j)

instance {n : ℕ} (x : Fin n → K) : DecidableRel (topKBefore x) := fun i j => by
  unfold topKBefore; infer_instance

/-- `jax.lax.top_k` indices, line 150. -/
def topK {n : ℕ} (x : Fin n → K) (k : ℕ) : List (Fin n) :=
  ((List.finRange n).insertionSort (topKBefore x)).take k

/-- `_projection_unit_sparse_simplex`, lines 140-166 (exact `top_k`); the sum over one-hot vectors of lines 162-164 is
the list sum below. `max_nz` must not exceed the size (else `top_k` raises). -/
def projectionUnitSparseSimplex {n : ℕ} (x : Fin n → K) (maxNz : ℕ) : Fin n → K :=
  let inds := topK x maxNz
  let vals := inds.map x
  fun i => (inds.map fun j => simplexEntry vals (x j) * (if j = i then 1 else 0)).sum

/-- `projection_sparse_simplex`, lines 180-207. -/
def projectionSparseSimplex {n : ℕ} (x : Fin n → K) (maxNz : ℕ) (value : K) : Fin n → K :=
  fun i => value * projectionUnitSparseSimplex (fun j => x j / value) maxNz i

/-- `jnp.sign`. -/
def sgn (x : K) : K := if 0 < x then 1 else if x < 0 then -1 else 0

/-- `projection_l1_sphere`, lines 210-225. -/
def projectionL1Sphere {n : ℕ} (x : Fin n → K) (value : K) : Fin n → K :=
  fun i => sgn (x i) * projectionSimplex (fun j => |x j|) value i

/-- `projection_l1_ball`, lines 228-247. -/
def projectionL1Ball {n : ℕ} (x : Fin n → K) (maxValue : K) : Fin n → K :=
  if ∑ i, |x i| ≤ maxValue then x else projectionL1Sphere x maxValue

/-- `_optimality_fun_proj_box_sec`, lines 408-414. -/
def boxSecFun {n : ℕ} (x alpha beta w : Fin n → K) (c tau : K) : K :=
  ∑ i, w i * clip (w i * tau + x i) (alpha i) (beta i) - c

/-- Lower end of the bisection bracket, line 419 (`jnp.min`, size at least one). -/
def boxSecLower {n : ℕ} (x alpha w : Fin (n + 1) → K) : K :=
  Finset.univ.inf' Finset.univ_nonempty fun i => (alpha i - x i) / w i

/-- Upper end of the bisection bracket, line 420. -/
def boxSecUpper {n : ℕ} (x beta w : Fin (n + 1) → K) : K :=
  Finset.univ.sup' Finset.univ_nonempty fun i => (beta i - x i) / w i

/-- Lines 421-425 and 461 of `projection_box_section`, when the bisection performs `k + 1` updates
(`check_bracket=False`). -/
def projectionBoxSectionAfter {n : ℕ} (x alpha beta w : Fin (n + 1) → K) (c : K) (k : ℕ) : Except String (Fin (n + 1) → K) := do
  let f := boxSecFun x alpha beta w c
  let s ← Bisect.initState f (boxSecLower x alpha w) (boxSecUpper x beta w) false
  let tau := Bisect.paramsAfter f s k
  return fun i => clip (w i * tau + x i) (alpha i) (beta i)

/-- The feasibility check of lines 453-459. -/
def boxSecCheckFeasible {n : ℕ} (alpha beta w : Fin n → K) (c : K) : Except String Unit :=
  if ∑ i, w i * alpha i > c then .error "alpha should satisfy dot(w, alpha) <= c"
  else if ∑ i, w i * beta i < c then .error "beta should satisfy dot(w, beta) >= c"
  else .ok ()

end Jaxopt.Proj
