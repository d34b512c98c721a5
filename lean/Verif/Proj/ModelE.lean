import Mathlib.Analysis.InnerProductSpace.Basic

/-!
# Model of the pytree-level projections of `jaxopt/_src/projection.py`

A pytree of arrays is an element of a real inner product space `E`; `tree_vdot` is the inner product, `tree_l2_norm`
the norm, `tree_scalar_mul`/`tree_add_scalar_mul` the vector operations (see C47).
-/

set_option autoImplicit false

namespace Jaxopt.Proj

variable {E : Type*} [NormedAddCommGroup E] [InnerProductSpace ℝ E]

/-- `projection_l2_sphere`, lines 250-266. (At `x = 0` the code computes `inf * 0 = NaN`.) -/
noncomputable def projectionL2Sphere (x : E) (value : ℝ) : E :=
  let factor := value / ‖x‖
  factor • x

/-- `projection_l2_ball`, lines 269-289. -/
noncomputable def projectionL2Ball (x : E) (maxValue : ℝ) : E :=
  let l2Norm := ‖x‖
  let factor := maxValue / l2Norm
  if l2Norm ≤ maxValue then x else factor • x

/-- `projection_hyperplane`, lines 310-328. (At `a = 0` the code divides by zero.) -/
noncomputable def projectionHyperplane (x a : E) (b : ℝ) : E :=
  let scale := (inner ℝ a x - b) / inner ℝ a a
  x + (-scale) • a

/-- `projection_halfspace`, lines 331-349. -/
noncomputable def projectionHalfspace (x a : E) (b : ℝ) : E :=
  let scale := max (inner ℝ a x - b) 0 / inner ℝ a a
  x + (-scale) • a

end Jaxopt.Proj
