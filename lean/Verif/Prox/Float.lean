import Verif.Prox.Model
import Verif.Proj.Float

/-!
# Proximal operators and l2 projections with rounded arithmetic

`jaxopt/_src/prox.py` and the l2 projections of `jaxopt/_src/projection.py`.  `rnd` is the rounding of one operation; overflow and underflow are not
modelled.  Signs, absolute values, comparisons and maxima are exact.  The order of the additions of the squared norm depends on the backend, so the value of
the norm is an argument.
-/

set_option autoImplicit false
set_option linter.unusedSectionVars false
set_option linter.unusedVariables false

namespace Jaxopt.Prox

open Jaxopt.Proj

variable {K ι : Type*} [Field K] [LinearOrder K]

/-- `jnp.sign(u) * jax.nn.relu(jnp.abs(u) - v)`, prox.py lines 76 and 133.  The product with the sign is exact. -/
def softR (rnd : K → K) (u v : K) : K := sgn u * relu (rnd (|u| - v))

/-- `prox_lasso`, prox.py lines 76-77. -/
def proxLassoR (rnd : K → K) (x l1reg : ι → K) (scaling : K) : ι → K := fun i => softR rnd (x i) (rnd (l1reg i * scaling))

/-- `prox_non_negative_lasso`, prox.py lines 100-101. -/
def proxNonNegativeLassoR (rnd : K → K) (x : ι → K) (l1reg scaling : K) : ι → K := fun i => relu (rnd (x i - rnd (l1reg * scaling)))

/-- `prox_elastic_net`, prox.py lines 133-137. -/
def proxElasticNetR (rnd : K → K) (x lam gam : ι → K) (scaling : K) : ι → K := fun i =>
  rnd (softR rnd (x i) (rnd (scaling * lam i)) / rnd (1 + rnd (rnd (scaling * lam i) * gam i)))

/-- `prox_ridge`, prox.py lines 190-191. -/
def proxRidgeR (rnd : K → K) (x : ι → K) (l2reg scaling : K) : ι → K := fun i => rnd (rnd (1 / rnd (1 + rnd (scaling * l2reg))) * x i)

/-- `prox_non_negative_ridge`, prox.py lines 215-216. -/
def proxNonNegativeRidgeR (rnd : K → K) (x : ι → K) (l2reg scaling : K) : ι → K := fun i =>
  relu (rnd (rnd (1 / rnd (1 + rnd (l2reg * scaling))) * x i))

/-- `prox_group_lasso`, prox.py lines 163-166, with the computed norm `nrm`.  If it is zero, the quotient is infinite or NaN and the factor is zero. -/
def proxGroupLassoR (rnd : K → K) (nrm : K) (x : ι → K) (l2reg scaling : K) : ι → K :=
  let f := rnd (1 - rnd (rnd (l2reg * scaling) / nrm))
  let factor := if nrm = 0 then 0 else if f ≥ 0 then f else 0
  fun i => rnd (factor * x i)

/-- `projection_l2_sphere`, projection.py lines 265-266, with the computed norm `nrm`. -/
def projectionL2SphereR (rnd : K → K) (nrm : K) (x : ι → K) (value : K) : ι → K := fun i => rnd (rnd (value / nrm) * x i)

/-- `projection_l2_ball`, projection.py lines 284-289, with the computed norm `nrm`. -/
def projectionL2BallR (rnd : K → K) (nrm : K) (x : ι → K) (maxValue : K) : ι → K := fun i =>
  if nrm ≤ maxValue then x i else rnd (rnd (maxValue / nrm) * x i)

/-- The values `tree_l2_norm` can have (tree_util.py lines 138-145, real leaves): the rounded root of a sum of the rounded squares, in any order. -/
def IsNormR {n : ℕ} (rnd : K → K) (x : Fin n → K) (nrm : K) : Prop :=
  ∃ s r : K, Sums rnd (List.ofFn fun i => rnd (x i ^ 2)) s ∧ 0 ≤ r ∧ r ^ 2 = s ∧ nrm = rnd r

end Jaxopt.Prox
