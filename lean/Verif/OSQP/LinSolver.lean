import Verif.LinSolve.Model
import Verif.OSQP.Box
import Mathlib.LinearAlgebra.Matrix.NonsingularInverse
import Mathlib.Algebra.Order.BigOperators.Group.Finset

/-!
# Model of the linear solvers of OSQP (`jaxopt/_src/osqp.py` lines 154-293)

* `Q` and `A` are pytrees of dense matrices with the same structure; the leaves are indexed by `L` (`Verif.LinSolve.Model`).
  `isArray` says that the pytree is a single array rather than a container.
* `matvec_Q`/`matvec_A` are the constructors of `DenseLinearOperator` (`dense`), or else of `FunctionalLinearOperator`.
* `lu_factor`/`lu_solve` are a parameter: a factorisation and the solution with a factorisation.
* `solve` of the indirect solver (`solve_cg` by default) is a parameter that receives the product with the matrix, the right-hand side, the
  initial point, the preconditioner and the tolerance.
* Exceptions are `Except.error`.
-/

set_option autoImplicit false
set_option linter.unusedSectionVars false
set_option linter.unusedVariables false

namespace Jaxopt.OSQP.LinSolver

open Jaxopt.LinSolve

variable {K L : Type*} [Field K] [LinearOrder K] {rows cols : L → ℕ}

/-- The data of the linear systems: `params_Q`, `params_A`, `sigma`. -/
structure Data (K : Type*) {L : Type*} (rows cols : L → ℕ) where
  Q : MatTree K cols cols
  A : MatTree K rows cols
  sigma : K
  isArray : Bool
  dense : Bool

/-! ## `OSQPIndirectSolver`, lines 179-257 -/

/-- The attributes, lines 193-198. -/
structure Indirect (K : Type*) {L : Type*} (cols : L → ℕ) where
  solve : (VecTree K cols → VecTree K cols) → VecTree K cols → VecTree K cols → (VecTree K cols → Except String (VecTree K cols)) → K →
    Except String (VecTree K cols)
  jacobi : Bool

/-- The solver state of lines 224-226: the previous solution, `rho_bar` and the state of the preconditioner. -/
structure IndirectState (K : Type*) {L : Type*} (cols : L → ℕ) where
  prevSol : VecTree K cols
  rho : K
  precond : Option (VecTree K cols × VecTree K cols)

namespace Indirect

/-- `_init_state_precond`, lines 200-211. -/
def initPrecond (S : Indirect K cols) (D : Data K rows cols) : Except String (Option (VecTree K cols × VecTree K cols)) :=
  if S.jacobi = false then .ok none
  else if D.dense = false then .error "Jacobi Preconditioning is only available for pytree of matrices."
  else .ok (some (DenseLinearOperator.diag D.Q, DenseLinearOperator.columnsL2NormsSq D.A))

/-- `_matvec_precond`, lines 213-222.  `tree_add(diag_precond, sigma)` raises if the tree is not a single array: `sigma` is a leaf. -/
def matvecPrecond (S : Indirect K cols) (D : Data K rows cols) (st : IndirectState K cols) (x : VecTree K cols) :
    Except String (VecTree K cols) :=
  if S.jacobi = false then .ok x
  else
    match st.precond with
    | none => .error "cannot unpack non-iterable NoneType object"
    | some (pQ, pA) =>
      let diag : VecTree K cols := fun l j => pQ l j + st.rho * pA l j
      if D.isArray then
        let diag : VecTree K cols := fun l j => diag l j + D.sigma
        let inv : VecTree K cols := fun l j => 1 / diag l j
        .ok fun l j => inv l j * x l j
      else .error "Custom node type mismatch"

/-- `init_state`, lines 224-226. -/
def initState (S : Indirect K cols) (init : VecTree K cols) (D : Data K rows cols) (rho : K) : Except String (IndirectState K cols) :=
  (S.initPrecond D).map fun p => ⟨init, rho, p⟩

/-- `update_stepsize`, lines 228-230. -/
def updateStepsize (st : IndirectState K cols) (rho : K) : IndirectState K cols := { st with rho := rho }

/-- The product with the matrix, lines 245-248. -/
def matvec (D : Data K rows cols) (rho : K) (x : VecTree K cols) : VecTree K cols :=
  let qx : VecTree K cols := fun l j => DenseLinearOperator.matvec D.Q x l j + D.sigma * x l j
  fun l j => qx l j + rho * DenseLinearOperator.normalMatvec D.A x l j

/-- `run`, lines 232-257; `atol` is computed from the residuals (lines 239-242). -/
def run (S : Indirect K cols) (D : Data K rows cols) (b : VecTree K cols) (atol : K) (st : IndirectState K cols) :
    Except String (VecTree K cols × IndirectState K cols) :=
  (S.solve (matvec D st.rho) b st.prevSol (S.matvecPrecond D st) atol).map fun sol => (sol, ⟨sol, st.rho, st.precond⟩)

end Indirect

/-! ## `OSQPLUSolver`, lines 260-293 -/

/-- The factorisation and the solution with it, `jax.scipy.linalg.lu_factor` and `lu_solve`. -/
structure Lu (K : Type*) where
  Fact : ℕ → Type
  factor : {n : ℕ} → Matrix (Fin n) (Fin n) K → Fact n
  solve : {n : ℕ} → Fact n → (Fin n → K) → (Fin n → K)

namespace Lu

/-- `_lu_factor_dense`, lines 266-268. -/
def factorDense (S : Lu K) {n m : ℕ} (Q : Matrix (Fin n) (Fin n) K) (A : Matrix (Fin m) (Fin n) K) (sigma rho : K) : S.Fact n :=
  S.factor (Q + sigma • (1 : Matrix (Fin n) (Fin n) K) + (rho • A.transpose) * A)

/-- `_lu_factor_pytree`, lines 270-272. -/
def factorPytree (S : Lu K) (D : Data K rows cols) (rho : K) : (l : L) → S.Fact (cols l) :=
  fun l => S.factorDense (D.Q l) (D.A l) D.sigma rho

/-- `init_state`, lines 274-276 (the matrices and `sigma` are those of `D`). -/
def initState (S : Lu K) (D : Data K rows cols) (rho : K) : (l : L) → S.Fact (cols l) := S.factorPytree D rho

/-- `update_stepsize`, lines 278-281. -/
def updateStepsize (S : Lu K) (D : Data K rows cols) (st : (l : L) → S.Fact (cols l)) (rho : K) : (l : L) → S.Fact (cols l) :=
  S.factorPytree D rho

/-- `run`, lines 283-293. -/
def run (S : Lu K) (b : VecTree K cols) (st : (l : L) → S.Fact (cols l)) : VecTree K cols × ((l : L) → S.Fact (cols l)) :=
  (fun l => S.solve (st l) (b l), st)

end Lu

/-! ## What OSQP does with a solver -/

/-- The calls of a solver during a run of `BoxOSQP`: `update_stepsize(rho)` (line 526) and `run(b)` (line 630) with a tolerance. -/
inductive Call (K : Type*) {L : Type*} (cols : L → ℕ) where
  | setRho (rho : K)
  | solve (b : VecTree K cols) (atol : K)

/-- The results of the calls `run` in order, for the LU solver. -/
def Lu.exec (S : Lu K) (D : Data K rows cols) : ((l : L) → S.Fact (cols l)) → List (Call K cols) → List (VecTree K cols)
  | _, [] => []
  | st, .setRho rho :: cs => Lu.exec S D (S.updateStepsize D st rho) cs
  | st, .solve b _ :: cs => (S.run b st).1 :: Lu.exec S D (S.run b st).2 cs

/-- The results of the calls `run` in order, for the indirect solver; the first exception ends the execution. -/
def Indirect.exec (S : Indirect K cols) (D : Data K rows cols) : IndirectState K cols → List (Call K cols) → Except String (List (VecTree K cols))
  | _, [] => .ok []
  | st, .setRho rho :: cs => Indirect.exec S D (Indirect.updateStepsize st rho) cs
  | st, .solve b atol :: cs => (S.run D b atol st).bind fun r => (Indirect.exec S D r.2 cs).map fun xs => r.1 :: xs

end Jaxopt.OSQP.LinSolver
