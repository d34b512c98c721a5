import Verif.Proj.Model
import Verif.Num.Binary

/-!
# Model of the simplex projections with rounded arithmetic

`rnd` is the rounding of one operation.  Overflow and underflow are not modelled.  Sorting and comparisons are exact.  The partial sums of
`jnp.cumsum` are passed as an argument, because the order of the additions depends on the backend.
-/

set_option autoImplicit false
set_option linter.unusedSectionVars false
set_option linter.unusedVariables false

namespace Jaxopt.Proj

variable {K : Type*} [Field K] [LinearOrder K]

/-- A value that a sum of a non-empty list can have, for some order of bracketing the additions. -/
inductive Sums (rnd : K → K) : List K → K → Prop
  | one (a : K) : Sums rnd [a] a
  | add {l1 l2 : List K} {s1 s2 : K} : Sums rnd l1 s1 → Sums rnd l2 s2 → Sums rnd (l1 ++ l2) (rnd (s1 + s2))

/-- `s / ind + (u - cumsum_u / ind)` of lines 103 and 105, with `ind = k`, `cumsum_u = c`. -/
def simplexGap (rnd : K → K) (k : ℕ) (xi c : K) : K := rnd (rnd (1 / (k : K)) + rnd (xi - rnd (c / (k : K))))

/-- `idx` of lines 101-104. -/
def simplexCountR (rnd : K → K) (u : List K) (c : ℕ → K) : ℕ :=
  ((List.range u.length).filter fun i => decide (simplexGap rnd (i + 1) (u.getD i 0) (c i) > 0)).length

/-- The value returned on line 105 for one coordinate. -/
def simplexEntryR (rnd : K → K) (u : List K) (c : ℕ → K) (xi : K) : K :=
  let idx := simplexCountR rnd u c
  relu (simplexGap rnd idx xi (c (idx - 1)))

/-- `_projection_unit_simplex`, lines 95-105. -/
def projectionUnitSimplexR {n : ℕ} (rnd : K → K) (x : Fin n → K) (c : ℕ → K) : Fin n → K :=
  fun i => simplexEntryR rnd ((List.ofFn x).insertionSort (· ≥ ·)) c (x i)

/-- `projection_simplex`, lines 119-137. -/
def projectionSimplexR {n : ℕ} (rnd : K → K) (x : Fin n → K) (value : K) (c : ℕ → K) : Fin n → K :=
  fun i => rnd (value * projectionUnitSimplexR rnd (fun j => rnd (x j / value)) c i)

/-- `_projection_unit_sparse_simplex`, lines 140-166 (exact `top_k`).  The products with the one-hot vectors and the sums of lines 162-164
have one non-zero term and are exact. -/
def projectionUnitSparseSimplexR {n : ℕ} (rnd : K → K) (x : Fin n → K) (maxNz : ℕ) (c : ℕ → K) : Fin n → K :=
  let inds := topK x maxNz
  let vals := inds.map x
  fun i => (inds.map fun j => simplexEntryR rnd vals c (x j) * (if j = i then 1 else 0)).sum

/-- The sorted array of `projectionUnitSimplexR`. -/
def sorted {n : ℕ} (x : Fin n → K) : List K := (List.ofFn x).insertionSort (· ≥ ·)

/-- Partial sums from left to right. -/
def seqSum (rnd : K → K) (u : List K) : ℕ → K
  | 0 => u.getD 0 0
  | i + 1 => rnd (seqSum rnd u i + u.getD (i + 1) 0)

end Jaxopt.Proj
