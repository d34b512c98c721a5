import Verif.Num.ExtArith
import Mathlib.Analysis.Real.Sqrt
import Mathlib.Algebra.BigOperators.Group.Finset.Basic

/-!
# Automatic differentiation of the operators that divide by a norm

`prox_group_lasso` (prox.py lines 163-166), `projection_l2_sphere` (projection.py lines 265-266) and `projection_l2_ball` (projection.py lines 284-289), with
the forward (`jax.jvp`) and reverse (`jax.vjp`, `jax.grad`) passes that JAX derives from them, operation by operation, in exact arithmetic extended by
NaN and infinities.  The rules are those of `jax.lax`:

* `sqrt`: the tangent is multiplied by `0.5 / sqrt(x)`; `square`: by `2 * x`; `l / n`: the tangent of `n` by `-l * n ** -2`;
* `jnp.where` and `lax.cond` select tangents (forward) and give zero cotangents to what was not selected (reverse);
* reverse rules are the transposes of the forward ones, and a zero cotangent is multiplied like any other number, so that `0 * inf` is NaN.

The pytree is flattened to `ι → ℝ`.
-/

set_option autoImplicit false
set_option linter.unusedSectionVars false

namespace Jaxopt.Ext

/-- IEEE multiplication. -/
noncomputable def times : Ext ℝ → Ext ℝ → Ext ℝ
  | nan, _ => nan
  | _, nan => nan
  | fin a, b => smul a b
  | a, fin b => smul b a
  | pinf, pinf => pinf
  | ninf, ninf => pinf
  | pinf, ninf => ninf
  | ninf, pinf => ninf

/-- IEEE quotient of finite numbers, for a non-negative divisor. -/
noncomputable def quot (a b : ℝ) : Ext ℝ := if b = 0 then (if 0 < a then pinf else if a < 0 then ninf else nan) else fin (a / b)

end Jaxopt.Ext

namespace Jaxopt.Reverse

variable {ι : Type*} [Fintype ι]

/-- `tree_l2_norm`, tree_util.py lines 138-145. -/
noncomputable def l2Norm (x : ι → ℝ) : ℝ := Real.sqrt (∑ i, x i ^ 2)

/-- Forward pass of `tree_l2_norm`. -/
noncomputable def jvpNorm (x t : ι → ℝ) : Ext ℝ := Ext.times (.fin (∑ i, 2 * x i * t i)) (Ext.quot (1 / 2) (l2Norm x))

/-- Reverse pass of `tree_l2_norm`. -/
noncomputable def vjpNorm (x : ι → ℝ) (ctN : Ext ℝ) (i : ι) : Ext ℝ := Ext.times (Ext.times ctN (Ext.quot (1 / 2) (l2Norm x))) (.fin (2 * x i))

/-- Tangent of `l / n` for a tangent of `n`. -/
noncomputable def jvpQuot (l n : ℝ) (tN : Ext ℝ) : Ext ℝ := Ext.times (Ext.times (Ext.neg tN) (.fin l)) (Ext.quot 1 (n ^ 2))

/-- Cotangent of `n` in `l / n`. -/
noncomputable def vjpQuot (l n : ℝ) (ct : Ext ℝ) : Ext ℝ := Ext.neg (Ext.times (Ext.times ct (Ext.quot 1 (n ^ 2))) (.fin l))

/-- Cotangent of the scalar in `tree_scalar_mul(scalar, x)`. -/
def ctScalar (x ct : ι → ℝ) : ℝ := ∑ i, ct i * x i

namespace GroupLasso

/-- Line 164. -/
noncomputable def factor (x : ι → ℝ) (l2reg scaling : ℝ) : Ext ℝ := Ext.sub (.fin 1) (Ext.quot (l2reg * scaling) (l2Norm x))

/-- `factor >= 0`, line 165. -/
noncomputable def active (x : ι → ℝ) (l2reg scaling : ℝ) : Bool := Ext.le (.fin 0) (factor x l2reg scaling)

/-- Line 165. -/
noncomputable def factor' (x : ι → ℝ) (l2reg scaling : ℝ) : Ext ℝ := if active x l2reg scaling then factor x l2reg scaling else .fin 0

/-- `prox_group_lasso`, lines 163-166. -/
noncomputable def value (x : ι → ℝ) (l2reg scaling : ℝ) (i : ι) : Ext ℝ := Ext.times (factor' x l2reg scaling) (.fin (x i))

/-- Forward pass. -/
noncomputable def jvp (x : ι → ℝ) (l2reg scaling : ℝ) (t : ι → ℝ) (i : ι) : Ext ℝ :=
  let tFactor := Ext.neg (jvpQuot (l2reg * scaling) (l2Norm x) (jvpNorm x t))
  let tFactor' := if active x l2reg scaling then tFactor else .fin 0
  Ext.add (Ext.times tFactor' (.fin (x i))) (Ext.times (factor' x l2reg scaling) (.fin (t i)))

/-- Reverse pass. -/
noncomputable def vjp (x : ι → ℝ) (l2reg scaling : ℝ) (ct : ι → ℝ) (i : ι) : Ext ℝ :=
  let ctFactor' := ctScalar x ct
  let ctFactor := if active x l2reg scaling then ctFactor' else 0
  let ctN := vjpQuot (l2reg * scaling) (l2Norm x) (.fin (-ctFactor))
  Ext.add (vjpNorm x ctN i) (Ext.times (factor' x l2reg scaling) (.fin (ct i)))

/-- Forward pass with respect to `l2reg`. -/
noncomputable def jvpReg (x : ι → ℝ) (l2reg scaling t : ℝ) (i : ι) : Ext ℝ :=
  let tFactor := Ext.neg (Ext.quot (t * scaling) (l2Norm x))
  let tFactor' := if active x l2reg scaling then tFactor else .fin 0
  Ext.times tFactor' (.fin (x i))

/-- Reverse pass with respect to `l2reg`. -/
noncomputable def vjpReg (x : ι → ℝ) (l2reg scaling : ℝ) (ct : ι → ℝ) : Ext ℝ :=
  let ctFactor' := ctScalar x ct
  let ctFactor := if active x l2reg scaling then ctFactor' else 0
  Ext.times (Ext.quot (-ctFactor) (l2Norm x)) (.fin scaling)

end GroupLasso

namespace L2Sphere

/-- `projection_l2_sphere`, lines 265-266. -/
noncomputable def value (x : ι → ℝ) (v : ℝ) (i : ι) : Ext ℝ := Ext.times (Ext.quot v (l2Norm x)) (.fin (x i))

/-- Forward pass. -/
noncomputable def jvp (x : ι → ℝ) (v : ℝ) (t : ι → ℝ) (i : ι) : Ext ℝ :=
  Ext.add (Ext.times (jvpQuot v (l2Norm x) (jvpNorm x t)) (.fin (x i))) (Ext.times (Ext.quot v (l2Norm x)) (.fin (t i)))

/-- Reverse pass. -/
noncomputable def vjp (x : ι → ℝ) (v : ℝ) (ct : ι → ℝ) (i : ι) : Ext ℝ :=
  Ext.add (vjpNorm x (vjpQuot v (l2Norm x) (.fin (ctScalar x ct))) i) (Ext.times (Ext.quot v (l2Norm x)) (.fin (ct i)))

end L2Sphere

namespace L2Ball

/-- `projection_l2_ball`, lines 284-289. -/
noncomputable def value (x : ι → ℝ) (v : ℝ) (i : ι) : Ext ℝ := if l2Norm x ≤ v then .fin (x i) else L2Sphere.value x v i

/-- Forward pass. -/
noncomputable def jvp (x : ι → ℝ) (v : ℝ) (t : ι → ℝ) (i : ι) : Ext ℝ := if l2Norm x ≤ v then .fin (t i) else L2Sphere.jvp x v t i

/-- Reverse pass: `factor` is computed before `lax.cond` and is an operand of it, so that it gets the cotangent `0` from the branch that does not use it. -/
noncomputable def vjp (x : ι → ℝ) (v : ℝ) (ct : ι → ℝ) (i : ι) : Ext ℝ :=
  let ctFactor := if l2Norm x ≤ v then 0 else ctScalar x ct
  let direct := if l2Norm x ≤ v then .fin (ct i) else Ext.times (Ext.quot v (l2Norm x)) (.fin (ct i))
  Ext.add (vjpNorm x (vjpQuot v (l2Norm x) (.fin ctFactor)) i) direct

end L2Ball

end Jaxopt.Reverse
