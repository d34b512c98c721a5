import Verif.Tree.Model

/-!
# Model of the vectorisation helpers of `jaxopt/_src/scipy_wrappers.py` (lines 117-241)

`dtype` conversions are not modelled.  `.error` is the exception raised by NumPy or JAX.
-/

set_option autoImplicit false
set_option linter.unusedSectionVars false
set_option linter.unusedVariables false

namespace Jaxopt.Scipy

open Jaxopt.Tree

variable {α β K : Type*}

/-- `PyTreeTopology`, scipy_wrappers.py lines 117-142; only the structure of `treedef` is used. -/
structure Topology (α : Type*) where
  treedef : PyTree α
  shapes : List (List ℕ)

/-- `PyTreeTopology.sizes`, scipy_wrappers.py lines 135-137. -/
def Topology.sizes (T : Topology α) : List ℕ := T.shapes.map List.prod

/-- `PyTreeTopology.n_leaves`, scipy_wrappers.py lines 139-141. -/
def Topology.nLeaves (T : Topology α) : ℕ := T.shapes.length

/-- `pytree_topology_from_example`, scipy_wrappers.py lines 236-241. -/
def topologyFromExample (t : PyTree (Arr K)) : Topology (Arr K) := ⟨t, (leaves t).map (·.shape)⟩

/-- `jnp_to_onp`, scipy_wrappers.py lines 145-165: `onp.concatenate([])` raises `ValueError`. -/
def jnpToOnp (t : PyTree (Arr K)) : Except String (List K) :=
  match leaves t with
  | [] => .error "ValueError: need at least one array to concatenate"
  | as => .ok (as.flatMap (·.data))

/-- Running sums, `onp.cumsum`. -/
def cumsum : ℕ → List ℕ → List ℕ
  | _, [] => []
  | s, n :: ns => (s + n) :: cumsum (s + n) ns

/-- `x[a:b]`. -/
def slice (a b : ℕ) (xs : List K) : List K := (xs.take b).drop a

/-- The slices between consecutive division points. -/
def slices (xs : List K) : ℕ → List ℕ → List (List K)
  | _, [] => []
  | a, b :: bs => slice a b xs :: slices xs b bs

/-- `onp.split(x, indices)`: division points `0, indices, len(x)`. -/
def split (xs : List K) (idx : List ℕ) : List (List K) := slices xs 0 (idx ++ [xs.length])

/-- `leaf.reshape(shape)`. -/
def reshape (data : List K) (shape : List ℕ) : Except String (Arr K) :=
  if h : data.length = shape.prod then .ok ⟨shape, data, h⟩ else .error "ValueError: cannot reshape array"

/-- The list comprehension over `zip(flattened_leaves, shapes, dtypes)`, scipy_wrappers.py lines 230-231. -/
def reshapeAll : List (List K) → List (List ℕ) → Except String (List (Arr K))
  | p :: ps, s :: ss => (reshape p s).bind fun a => (reshapeAll ps ss).map fun as => a :: as
  | _, _ => .ok []

/-- `make_onp_to_jnp`, scipy_wrappers.py lines 216-233. -/
def onpToJnp (T : Topology α) (x : List K) : Except String (PyTree (Arr K)) :=
  (reshapeAll (split x (cumsum 0 T.sizes.dropLast)) T.shapes).bind fun as =>
    match unflatten T.treedef as with
    | some t => .ok t
    | none => .error "ValueError: wrong number of leaves"

/-! ## The Jacobian -/

/-- A two-dimensional NumPy array. -/
structure Mat (K : Type*) where
  nrows : ℕ
  ncols : ℕ
  rows : List (List K)

/-- `jac_leaf.reshape([output_size, input_size])`, scipy_wrappers.py lines 207-208. -/
def reshape2 (data : List K) (m n : ℕ) : Except String (Mat K) :=
  if data.length = m * n then .ok ⟨m, n, (List.range m).map fun r => slice (r * n) (r * n + n) data⟩
  else .error "ValueError: cannot reshape array"

/-- Concatenation of two blocks along the last axis. -/
def hcat (a b : Mat K) : Except String (Mat K) :=
  if a.nrows = b.nrows then .ok ⟨a.nrows, a.ncols + b.ncols, List.zipWith (· ++ ·) a.rows b.rows⟩
  else .error "ValueError: concatenation axis mismatch"

/-- Concatenation of two blocks along the first axis. -/
def vcat (a b : Mat K) : Except String (Mat K) :=
  if a.ncols = b.ncols then .ok ⟨a.nrows + b.nrows, a.ncols, a.rows ++ b.rows⟩
  else .error "ValueError: concatenation axis mismatch"

/-- Join the matrices of a non-empty list; NumPy raises on an empty one. -/
def joinWith (f : Mat K → Mat K → Except String (Mat K)) : List (Mat K) → Except String (Mat K)
  | [] => .error "ValueError: List at arrays cannot be empty"
  | [m] => .ok m
  | m :: ms => (joinWith f ms).bind fun r => f m r

/-- Collect the results of a loop. -/
def collectE : List (Except String α) → Except String (List α)
  | [] => .ok []
  | .error e :: _ => .error e
  | .ok a :: l => (collectE l).map (a :: ·)

/-- `onp.block` of a list of rows of blocks. -/
def block (bs : List (List (Mat K))) : Except String (Mat K) := (collectE (bs.map (joinWith hcat))).bind (joinWith vcat)

/-- One block: `jacs_leaves[ravel_index(i, j)]` reshaped, scipy_wrappers.py lines 193 and 206-208. -/
def jacBlock (nLeaves : ℕ) (jacs : List (Arr K)) (i j outSize inSize : ℕ) : Except String (Mat K) :=
  match jacs[j + i * nLeaves]? with
  | none => .error "IndexError: list index out of range"
  | some a => reshape2 a.data outSize inSize

/-- `jac_jnp_to_onp`, scipy_wrappers.py lines 195-211. -/
def jacJnpToOnp (Tin : Topology α) (Tout : Topology β) (jac : PyTree (Arr K)) : Except String (Mat K) :=
  let jacs := leaves jac
  (collectE (Tout.sizes.mapIdx fun i outSize => collectE (Tin.sizes.mapIdx fun j inSize =>
    jacBlock Tin.nLeaves jacs i j outSize inSize))).bind block

end Jaxopt.Scipy
