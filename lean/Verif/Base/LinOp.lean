import Mathlib.Data.Matrix.Mul
import Mathlib.Analysis.Real.Sqrt

/-!
# Model of `LinearOperator` (`jaxopt/_src/base.py` lines 414-469)

The operator stores a dense `m × n` matrix `A`.  Vectors are functions, matrices (2-d arguments) are
`Matrix`.
-/

set_option autoImplicit false

namespace Jaxopt.Base.LinearOperator

variable {m n p : ℕ}

/-- `matvec`, lines 423-425. -/
def matvec (A : Matrix (Fin m) (Fin n) ℝ) (x : Fin n → ℝ) : Fin m → ℝ := A.mulVec x

/-- `matvec` of a 2-d argument, lines 423-425 (`jnp.dot` of two matrices). -/
def matmat (A : Matrix (Fin m) (Fin n) ℝ) (x : Matrix (Fin n) (Fin p) ℝ) : Matrix (Fin m) (Fin p) ℝ := A * x

/-- `matvec_element`, lines 427-429. -/
def matvecElement (A : Matrix (Fin m) (Fin n) ℝ) (x : Fin n → ℝ) (idx : Fin m) : ℝ := ∑ j, A idx j * x j

/-- `rmatvec`, lines 431-433. -/
def rmatvec (A : Matrix (Fin m) (Fin n) ℝ) (x : Fin m → ℝ) : Fin n → ℝ := A.transpose.mulVec x

/-- `rmatvec_element`, lines 435-437. -/
def rmatvecElement (A : Matrix (Fin m) (Fin n) ℝ) (x : Fin m → ℝ) (idx : Fin n) : ℝ := ∑ i, A i idx * x i

/-- `update_matvec`, 1-d branch, lines 441-442. -/
def updateMatvec (A : Matrix (Fin m) (Fin n) ℝ) (Ax : Fin m → ℝ) (delta : ℝ) (idx : Fin n) : Fin m → ℝ :=
  fun i => Ax i + delta * A i idx

/-- `update_matvec`, 2-d branch, lines 443-444. -/
def updateMatmat (A : Matrix (Fin m) (Fin n) ℝ) (Ax : Matrix (Fin m) (Fin p) ℝ) (delta : Fin p → ℝ)
    (idx : Fin n) : Matrix (Fin m) (Fin p) ℝ :=
  fun i k => Ax i k + A i idx * delta k

/-- `update_rmatvec`, 1-d branch, lines 450-451. -/
def updateRmatvec (A : Matrix (Fin m) (Fin n) ℝ) (ATx : Fin n → ℝ) (delta : ℝ) (idx : Fin m) : Fin n → ℝ :=
  fun j => ATx j + delta * A idx j

/-- `column_l2_norms`, lines 457-461. -/
noncomputable def columnL2Norms (A : Matrix (Fin m) (Fin n) ℝ) (squared : Bool) : Fin n → ℝ := fun j =>
  let ret := ∑ i, A i j ^ 2
  if squared then ret else Real.sqrt ret

end Jaxopt.Base.LinearOperator
