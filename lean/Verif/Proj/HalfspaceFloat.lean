import Verif.Proj.Float
import Verif.Proj.Model

/-!
# `projection_hyperplane` and `projection_halfspace` with rounded arithmetic

`jaxopt/_src/projection.py` lines 310-349.  `rnd` is the rounding of one operation; overflow and underflow are not modelled.  The order of the additions of
an inner product depends on the backend, so the values of the two inner products are arguments.
-/

set_option autoImplicit false
set_option linter.unusedSectionVars false
set_option linter.unusedVariables false

namespace Jaxopt.Proj

variable {K ι : Type*} [Field K] [LinearOrder K]

/-- The values `tree_vdot(a, x)` can have (tree_util.py lines 94-104, real leaves): a sum of the rounded products, in any order. -/
def IsDotR {n : ℕ} (rnd : K → K) (a x : Fin n → K) (d : K) : Prop := Sums rnd (List.ofFn fun i => rnd (a i * x i)) d

/-- `tree_add_scalar_mul(x, -scale, a)`, tree_util.py lines 89-91. -/
def addScalarMulR (rnd : K → K) (x : ι → K) (scale : K) (a : ι → K) : ι → K := fun i => rnd (x i + rnd (-scale * a i))

/-- `projection_hyperplane`, projection.py lines 326-328, with the computed inner products `ax` and `aa`.  If `aa` is zero, the scale is infinite or NaN and,
`a` being zero, every entry of the result is NaN (`none`). -/
def projectionHyperplaneR (rnd : K → K) (ax aa : K) (x a : ι → K) (b : K) : Option (ι → K) :=
  if aa = 0 then none else some (addScalarMulR rnd x (rnd (rnd (ax - b) / aa)) a)

/-- `projection_halfspace`, projection.py lines 347-349. -/
def projectionHalfspaceR (rnd : K → K) (ax aa : K) (x a : ι → K) (b : K) : Option (ι → K) :=
  if aa = 0 then none else some (addScalarMulR rnd x (rnd (relu (rnd (ax - b)) / aa)) a)

end Jaxopt.Proj
