import Verif.Proj.Model
import Mathlib.Analysis.InnerProductSpace.Basic

/-!
# Model of `jaxopt/_src/prox.py`

Coordinate-wise operators act on `ι → K` (the flattened pytree); `l1reg` etc. are given per coordinate (a scalar is the
constant function).  Norm-based operators act on an inner product space.
-/

set_option autoImplicit false

namespace Jaxopt.Prox

open Jaxopt.Proj

section coord
variable {K ι : Type*} [Field K] [LinearOrder K]

/-- `prox_none`, lines 25-46. -/
def proxNone (x : ι → K) : ι → K := x

/-- `prox_lasso`, lines 49-77. -/
def proxLasso (x l1reg : ι → K) (scaling : K) : ι → K :=
  fun i => sgn (x i) * relu (|x i| - l1reg i * scaling)

/-- `prox_non_negative_lasso`, lines 79-101. -/
def proxNonNegativeLasso (x : ι → K) (l1reg scaling : K) : ι → K :=
  fun i => relu (x i - l1reg * scaling)

/-- The inner `prox_l1` of `prox_elastic_net`, line 133. -/
def proxL1 (u lambd : K) : K := sgn u * relu (|u| - lambd)

/-- `prox_elastic_net`, lines 104-137. -/
def proxElasticNet (x lam gam : ι → K) (scaling : K) : ι → K :=
  fun i => proxL1 (x i) (scaling * lam i) / (1 + scaling * lam i * gam i)

/-- `prox_ridge`, lines 169-191. -/
def proxRidge (x : ι → K) (l2reg scaling : K) : ι → K :=
  let factor := 1 / (1 + scaling * l2reg)
  fun i => factor * x i

/-- `prox_non_negative_ridge`, lines 194-216. -/
def proxNonNegativeRidge (x : ι → K) (l2reg scaling : K) : ι → K :=
  let y := fun i => (1 / (1 + l2reg * scaling)) * x i
  fun i => relu (y i)

end coord

section space
variable {E : Type*} [NormedAddCommGroup E] [InnerProductSpace ℝ E]

/-- `prox_group_lasso`, lines 140-166.  When the norm is zero the quotient on line 164 is `inf` or NaN, the comparison
`factor >= 0` is false and the factor is `0`. -/
noncomputable def proxGroupLasso (x : E) (l2reg scaling : ℝ) : E :=
  let l2Norm := ‖x‖
  let factor := if l2Norm = 0 then 0
    else
      let f := 1 - l2reg * scaling / l2Norm
      if f ≥ 0 then f else 0
  factor • x

end space

/-- `make_prox_from_projection`, lines 219-224. -/
def makeProxFromProjection {V H S : Type*} (projection : V → H → V) : V → H → S → V :=
  fun x hyperparams _ => projection x hyperparams

end Jaxopt.Prox
