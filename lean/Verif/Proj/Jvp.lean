import Verif.Proj.Model
import Mathlib.Data.Finset.Card

/-!
# Model of the derivative rules of the simplex projections

`jaxopt/_src/projection.py`, lines 108-116, 137 and 168-177, 209-210.
-/

set_option autoImplicit false
set_option linter.unusedSectionVars false
set_option linter.unusedVariables false

namespace Jaxopt.Proj

variable {K : Type*} [Field K] [LinearOrder K] [IsStrictOrderedRing K]

/-- The tangent computed from the primal output `p`, lines 113-115 and 174-176:
`supp * x_dot - (dot(supp, x_dot) / card) * supp`. -/
def supportTangent {n : ℕ} (p xDot : Fin n → K) : Fin n → K :=
  let supp : Fin n → K := fun i => if 0 < p i then 1 else 0
  let card := (Finset.univ.filter fun i => 0 < p i).card
  fun i => supp i * xDot i - (∑ j, supp j * xDot j) / (card : K) * supp i

/-- `_projection_unit_simplex_jvp`, lines 108-116. -/
def projectionUnitSimplexJvp {n : ℕ} (x xDot : Fin n → K) : (Fin n → K) × (Fin n → K) :=
  let primalOut := projectionUnitSimplex x
  (primalOut, supportTangent primalOut xDot)

/-- `_projection_unit_sparse_simplex_jvp`, lines 168-177 (`use_approx_max_nz=False`). -/
def projectionUnitSparseSimplexJvp {n : ℕ} (maxNz : ℕ) (x xDot : Fin n → K) : (Fin n → K) × (Fin n → K) :=
  let primalOut := projectionUnitSparseSimplex x maxNz
  (primalOut, supportTangent primalOut xDot)

/-- Forward-mode differentiation of `value * unit(x / value)` (lines 137 and 209-210) with respect to `x` and `value`: quotient rule, the custom rule
`unitJvp`, product rule. -/
def scaledJvp {n : ℕ} (unitJvp : (Fin n → K) → (Fin n → K) → (Fin n → K) × (Fin n → K)) (x : Fin n → K) (value : K) (xDot : Fin n → K) (valueDot : K) :
    (Fin n → K) × (Fin n → K) :=
  let z := fun i => x i / value
  let zDot := fun i => xDot i / value - x i * valueDot / value ^ 2
  let (u, uDot) := unitJvp z zDot
  (fun i => value * u i, fun i => valueDot * u i + value * uDot i)

/-- `jax.jvp` of `projection_simplex`. -/
def projectionSimplexJvp {n : ℕ} (x : Fin n → K) (value : K) (xDot : Fin n → K) (valueDot : K) : (Fin n → K) × (Fin n → K) :=
  scaledJvp projectionUnitSimplexJvp x value xDot valueDot

/-- `jax.jvp` of `projection_sparse_simplex`. -/
def projectionSparseSimplexJvp {n : ℕ} (maxNz : ℕ) (x : Fin n → K) (value : K) (xDot : Fin n → K) (valueDot : K) :
    (Fin n → K) × (Fin n → K) :=
  scaledJvp (projectionUnitSparseSimplexJvp maxNz) x value xDot valueDot

end Jaxopt.Proj
