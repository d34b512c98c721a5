import Verif.Num.Format
import Verif.Base.RunS
import Verif.QP.BoxCD

/-!
# Bound constraints in floating-point arithmetic

The last operations of the bound-constrained solvers, which decide whether the returned parameters satisfy the bounds.  What is computed before
(gradients, quasi-Newton directions, line-search steps, stopping tests) is an arbitrary function of floats, possibly NaN or infinite.
Products and sums are rounded one after the other (no fused operations).
-/

set_option autoImplicit false
set_option linter.unusedSectionVars false
set_option linter.unusedVariables false

namespace Jaxopt.Bounds

open Jaxopt.Base

variable {K : Type*} [Field K] [LinearOrder K] {ι S : Type*}

/-- `jnp.clip(x, lower, upper)`; NaN stays NaN. -/
def clip (lower upper : K) (x : Ext K) : Ext K := Ext.min (Ext.max x (.fin lower)) (.fin upper)

/-- `jax.nn.relu(x)`, used by `projection_non_negative` (projection.py line 48). -/
def relu (x : Ext K) : Ext K := Ext.max x (.fin 0)

/-! ### L-BFGS-B -/

/-- `LBFGSB`: `target` is `x_subspace_min` (lbfgsb.py lines 449-463), `step` the stepsize chosen by the line search (lines 469-492) or given by the user
(lines 494-498), `next` the new state (lines 512-558), `cont` the stopping test (lines 311-316). -/
structure Lbfgsb (K ι S : Type*) [Field K] [LinearOrder K] where
  fmt : Format K
  lower : ι → K
  upper : ι → K
  target : (ι → Ext K) → S → ι → Ext K
  step : (ι → Ext K) → S → K
  useLinesearch : Bool
  next : (ι → Ext K) → S → (ι → Ext K) → S
  cont : S → Bool
  init : (ι → Ext K) → S
  maxiter : ℕ
  unroll : Bool
  jit : Bool

namespace Lbfgsb

/-- `descent_direction`, line 465. -/
def direction (A : Lbfgsb K ι S) (x : ι → Ext K) (st : S) (i : ι) : Ext K := A.fmt.add (A.target x st i) (Ext.neg (x i))

/-- `tree_add_scalar_mul(params, stepsize, descent_direction)`: line 500, zoom_linesearch.py line 254, backtracking_linesearch.py line 193. -/
def move (A : Lbfgsb K ι S) (x : ι → Ext K) (st : S) (i : ι) : Ext K :=
  A.fmt.add (x i) (A.fmt.smul (A.step x st) (A.direction x st i))

/-- `new_params`, lines 467-501: only the branch without line search clips. -/
def newParams (A : Lbfgsb K ι S) (x : ι → Ext K) (st : S) (i : ι) : Ext K :=
  if A.useLinesearch then A.move x st i else clip (A.lower i) (A.upper i) (A.move x st i)

/-- `update`, lines 378-570. -/
def update (A : Lbfgsb K ι S) (p : (ι → Ext K) × S) : (ι → Ext K) × S :=
  (A.newParams p.1 p.2, A.next p.1 p.2 (A.newParams p.1 p.2))

/-- `run`, base.py lines 296-332. -/
def run (A : Lbfgsb K ι S) (x0 : ι → Ext K) : Except String ((ι → Ext K) × S) :=
  runS A.init A.update (fun p => A.cont p.2) A.maxiter A.unroll A.jit x0

end Lbfgsb

/-! ### ProjectedGradient -/

/-- `ProjectedGradient`: `_prox_grad` (proximal_gradient.py lines 208-210) applies the projection to a computed point; the parameters returned by
`_update`, `_update_accel` and the line search are always such a projection (lines 212-284).  `arg` is the point that is projected last. -/
structure Projected (K ι S : Type*) [Field K] [LinearOrder K] where
  proj : (ι → Ext K) → ι → Ext K
  arg : (ι → Ext K) → S → ι → Ext K
  next : (ι → Ext K) → S → (ι → Ext K) → S
  cont : S → Bool
  init : (ι → Ext K) → S
  maxiter : ℕ
  unroll : Bool
  jit : Bool

/-- `update` of `ProjectedGradient`. -/
def Projected.update (A : Projected K ι S) (p : (ι → Ext K) × S) : (ι → Ext K) × S :=
  (A.proj (A.arg p.1 p.2), A.next p.1 p.2 (A.proj (A.arg p.1 p.2)))

/-- `run`, projected_gradient.py lines 132-137. -/
def Projected.run (A : Projected K ι S) (x0 : ι → Ext K) : Except String ((ι → Ext K) × S) :=
  runS A.init A.update (fun p => A.cont p.2) A.maxiter A.unroll A.jit x0

/-- `projection_box`, projection.py lines 55-72. -/
def projectionBox (lower upper : ι → K) (x : ι → Ext K) (i : ι) : Ext K := clip (lower i) (upper i) (x i)

/-- `projection_non_negative`, projection.py lines 33-48. -/
def projectionNonNegative (x : ι → Ext K) (i : ι) : Ext K := relu (x i)

/-! ### BoxCDQP -/

/-- `BoxCDQP`: `newton x i` is the computed value of `x[i] - update` (cd_qp.py lines 38-45). -/
structure BoxCD (K : Type*) [Field K] [LinearOrder K] (n : ℕ) where
  fmt : Format K
  lower : Fin n → K
  upper : Fin n → K
  newton : (Fin n → Ext K) → Fin n → Ext K
  tol : K
  maxiter : ℕ
  unroll : Bool
  jit : Bool

namespace BoxCD

variable {n : ℕ}

/-- `fori_loop_body_fun`, lines 37-51. -/
def body (A : BoxCD K n) (i : Fin n) (t : (Fin n → Ext K) × Ext K) : (Fin n → Ext K) × Ext K :=
  let xNew := clip (A.lower i) (A.upper i) (A.newton t.1 i)
  (Function.update t.1 i xNew, A.fmt.add t.2 (Ext.abs (A.fmt.add xNew (Ext.neg (t.1 i)))))

/-- `update`, lines 99-129; the state is `(iter_num, error)`. -/
def update (A : BoxCD K n) (p : (Fin n → Ext K) × (ℕ × Ext K)) : (Fin n → Ext K) × (ℕ × Ext K) :=
  let r := Jaxopt.QP.foriLoop n A.body (p.1, .fin 0)
  (r.1, (p.2.1 + 1, r.2))

/-- `run`, base.py lines 296-332. -/
def run (A : BoxCD K n) (x0 : Fin n → Ext K) : Except String ((Fin n → Ext K) × (ℕ × Ext K)) :=
  runS (fun _ => (0, .pinf)) A.update (fun p => Ext.gt p.2.2 (.fin A.tol)) A.maxiter A.unroll A.jit x0

end BoxCD

end Jaxopt.Bounds
