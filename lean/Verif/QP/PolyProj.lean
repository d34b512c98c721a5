import Verif.QP.Kkt
import Verif.OSQP.Transform

/-!
# Models of `projection_affine_set` and `projection_polyhedron` (`jaxopt/_src/projection.py` lines 352-405)

Both solve a quadratic program whose `matvec_Q` is the identity and whose `c` is `-x`.
-/

set_option autoImplicit false
set_option linter.unusedSectionVars false
set_option linter.unusedVariables false

namespace Jaxopt.QP

open Jaxopt.OSQP

variable {K : Type*} [Field K] [LinearOrder K] {n m : ℕ}

/-- The solver of `projection_affine_set`, lines 369-373: `EqualityConstrainedQP(matvec_Q=identity)` with default attributes (no
regularisation, eq_qp.py lines 146-155) on `params_obj=(None, -x)`, `params_eq=(A, b)`. -/
def affineQP (solve : ((Fin n → K) × (Fin m → K) → (Fin n → K) × (Fin m → K)) → (Fin n → K) × (Fin m → K) →
    Option ((Fin n → K) × (Fin m → K)) → (Fin n → K) × (Fin m → K)) (norm : (Fin n → K) × (Fin m → K) → K)
    (tol : K) (refineMaxiter : ℕ) (A : Matrix (Fin m) (Fin n) K) (b : Fin m → K) (x : Fin n → K) :
    EqQP K (Fin n → K) (Fin m → K) where
  Q := LinearMap.id
  Qt := LinearMap.id
  c := -x
  A := { toFun := A.mulVec, map_add' := fun u v => A.mulVec_add u v, map_smul' := fun a v => A.mulVec_smul a v }
  At := { toFun := A.transpose.mulVec, map_add' := fun u v => A.transpose.mulVec_add u v,
          map_smul' := fun a v => A.transpose.mulVec_smul a v }
  b := b
  solve := solve
  norm := norm
  refineRegularization := 0
  refineMaxiter := refineMaxiter
  tol := tol

/-- `projection_affine_set`, lines 352-375. -/
def projectionAffineSet (solve : ((Fin n → K) × (Fin m → K) → (Fin n → K) × (Fin m → K)) → (Fin n → K) × (Fin m → K) →
    Option ((Fin n → K) × (Fin m → K)) → (Fin n → K) × (Fin m → K)) (norm : (Fin n → K) × (Fin m → K) → K)
    (tol : K) (refineMaxiter : ℕ) (A : Matrix (Fin m) (Fin n) K) (b : Fin m → K) (x : Fin n → K) : Except String (Fin n → K) :=
  ((affineQP solve norm tol refineMaxiter A b x).run (ι := Empty) none).map (·.primal)

/-- The quadratic program of `projection_polyhedron`, lines 396-400. -/
def polyProblem (A : List (Fin n → K)) (b : List K) (G : List (Fin n → K)) (h : List K) (x : Fin n → K) : Problem K n where
  Q := 1
  c := -x
  eq := some (A, b)
  ineq := some (G, h)

/-- `projection_polyhedron`, lines 378-405.  `S` holds the attributes of `OSQP`; `none` stands for an array of NaN. -/
def projectionPolyhedron (S : BoxOSQP K n m) (A : List (Fin n → K)) (b : List K) (G : List (Fin n → K)) (h : List K)
    (x : Fin n → K) (checkFeasible : Bool) : Except String (Option (Fin n → K)) :=
  match osqpRun { S with checkInfeasability := checkFeasible } (polyProblem A b G h x) none with
  | .error e => .error e
  | .ok (sol, status) =>
    if checkFeasible && (status == .primalInfeasible || status == .dualInfeasible) then .error "The polyhedron is empty."
    else .ok (sol.map (·.x))

end Jaxopt.QP
