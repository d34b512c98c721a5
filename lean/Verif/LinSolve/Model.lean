import Mathlib.Data.Matrix.Mul
import Mathlib.Algebra.Field.Defs
import Mathlib.Logic.Equiv.Fin.Basic
import Mathlib.Data.Real.Basic
import Mathlib.Tactic.TypeStar

/-!
# Model of `jaxopt/_src/linear_solve.py` and `jaxopt/_src/linear_operator.py`

The routines of JAX (`jnp.linalg.solve`, `jsp.linalg.solve(assume_a='pos')`, `jnp.linalg.inv`, `jsp.linalg.qr`,
`jsp.linalg.solve_triangular`, `jsp.sparse.linalg.cg`) are parameters; the theorems state what is assumed of them.  An array of shape `()`,
`(n,)`, `(m, n)` is an element of `K`, `Fin n → K`, `Fin m → Fin n → K`; dtypes are left out.
-/

set_option autoImplicit false
set_option linter.unusedSectionVars false
set_option linter.unusedVariables false

namespace Jaxopt.LinSolve

variable {K : Type*} [Field K]

/-! ## `_materialize_array` and `_make_ridge_matvec` -/

/-- `_materialize_array`, linear_solve.py lines 27-30, for a 1-d argument: `jax.jacfwd(matvec)` at zero.  Forward differentiation of an affine map
along the basis vectors gives the differences below. -/
def materializeArray {n : ℕ} (matvec : (Fin n → K) → (Fin n → K)) : Matrix (Fin n) (Fin n) K :=
  Matrix.of fun i j => matvec (Pi.single j 1) i - matvec 0 i

/-- The same for a scalar argument. -/
def materializeScalar (matvec : K → K) : K := matvec 1 - matvec 0

/-- The matrix unit of shape `(m, n)`. -/
def unitMat {m n : ℕ} (k : Fin m) (l : Fin n) : Fin m → Fin n → K := fun i j => if i = k ∧ j = l then 1 else 0

/-- The same for a 2-d argument: a 4-d array indexed by output and input position. -/
def materializeMat {m n : ℕ} (matvec : (Fin m → Fin n → K) → (Fin m → Fin n → K)) :
    Fin m → Fin n → Fin m → Fin n → K :=
  fun i j k l => matvec (unitMat k l) i j - matvec (fun _ _ => 0) i j

/-- `_make_ridge_matvec`, lines 33-36. -/
def makeRidgeMatvec {E : Type*} [AddCommGroup E] [SMul K E] (matvec : E → E) (ridge : K) : E → E :=
  fun v => matvec v + ridge • v

/-- `if ridge is not None: matvec = _make_ridge_matvec(matvec, ridge=ridge)`, lines 54-55 and in the other solvers. -/
def withRidge {E : Type*} [AddCommGroup E] [SMul K E] (matvec : E → E) (ridge : Option K) : E → E :=
  match ridge with
  | none => matvec
  | some r => makeRidgeMatvec matvec r

/-- `b.ravel()` (row major). -/
def ravel {m n : ℕ} (b : Fin m → Fin n → K) : Fin (m * n) → K := fun r => b (finProdFinEquiv.symm r).1 (finProdFinEquiv.symm r).2

/-- `x.reshape(*b.shape)`. -/
def unravel {m n : ℕ} (x : Fin (m * n) → K) : Fin m → Fin n → K := fun i j => x (finProdFinEquiv (i, j))

/-- `A.reshape(-1, b.shape[0] * b.shape[1])`, line 64. -/
def reshape4 {m n : ℕ} (A : Fin m → Fin n → Fin m → Fin n → K) : Matrix (Fin (m * n)) (Fin (m * n)) K :=
  Matrix.of fun r c => A (finProdFinEquiv.symm r).1 (finProdFinEquiv.symm r).2 (finProdFinEquiv.symm c).1 (finProdFinEquiv.symm c).2

/-- The type of a dense solver. -/
abbrev DenseSolve (K : Type*) := (n : ℕ) → Matrix (Fin n) (Fin n) K → (Fin n → K) → (Fin n → K)

/-! ## Dense solvers -/

/-- The scalar branch, lines 57-60, 90-93, 122-125 and 154-157. -/
def solveScalar [DecidableEq K] (matvec : K → K) (b : K) (ridge : Option K) : Except String K :=
  let A := materializeScalar (withRidge matvec ridge)
  if A = 0 then .error "A should be non-zero for scalar b." else .ok (b / A)

/-- `solve_lu`, lines 39-68, 1-d case. -/
def solveLu (solve : DenseSolve K) {n : ℕ} (matvec : (Fin n → K) → (Fin n → K)) (b : Fin n → K) (ridge : Option K) :
    Except String (Fin n → K) :=
  .ok (solve n (materializeArray (withRidge matvec ridge)) b)

/-- `solve_lu`, lines 39-68, 2-d case. -/
def solveLuMat (solve : DenseSolve K) {m n : ℕ} (matvec : (Fin m → Fin n → K) → (Fin m → Fin n → K))
    (b : Fin m → Fin n → K) (ridge : Option K) : Except String (Fin m → Fin n → K) :=
  let A := reshape4 (materializeMat (withRidge matvec ridge))
  .ok (unravel (solve (m * n) A (ravel b)))

/-- `solve_cholesky`, lines 71-100, 1-d case; `solvePos` is `jsp.linalg.solve(·, ·, assume_a='pos')`. -/
def solveCholesky (solvePos : DenseSolve K) {n : ℕ} (matvec : (Fin n → K) → (Fin n → K)) (b : Fin n → K)
    (ridge : Option K) : Except String (Fin n → K) :=
  .ok (solvePos n (materializeArray (withRidge matvec ridge)) b)

/-- `solve_cholesky`, lines 71-100, 2-d case: the 4-d array is passed without the reshape of `solve_lu` (line 97).  `jsp.linalg.solve` requires
the last two axes, here of sizes `m` and `n`, to be equal to the length `m * n` of the right-hand side. -/
def solveCholeskyMat (solvePos : DenseSolve K) {m n : ℕ} (matvec : (Fin m → Fin n → K) → (Fin m → Fin n → K))
    (b : Fin m → Fin n → K) (ridge : Option K) : Except String (Fin m → Fin n → K) :=
  if m = m * n ∧ n = m * n then
    .ok (unravel (solvePos (m * n) (reshape4 (materializeMat (withRidge matvec ridge))) (ravel b)))
  else .error "The arguments to solve must have shapes a=[..., m, m] and b=[..., m, k] or b=[..., m]"

/-- `solve_inv`, lines 103-130, 1-d case (2-d arrays raise `NotImplementedError`). -/
def solveInv (inv : (n : ℕ) → Matrix (Fin n) (Fin n) K → Matrix (Fin n) (Fin n) K) {n : ℕ}
    (matvec : (Fin n → K) → (Fin n → K)) (b : Fin n → K) (ridge : Option K) : Except String (Fin n → K) :=
  .ok ((inv n (materializeArray (withRidge matvec ridge))).mulVec b)

/-- `solve_qr`, lines 133-166, 1-d case (2-d arrays raise `NotImplementedError`); `solveTri` is `jsp.linalg.solve_triangular` with the default
`lower=False`. -/
def solveQr (qr : (n : ℕ) → Matrix (Fin n) (Fin n) K → Matrix (Fin n) (Fin n) K × Matrix (Fin n) (Fin n) K)
    (solveTri : DenseSolve K) {n : ℕ} (matvec : (Fin n → K) → (Fin n → K)) (b : Fin n → K) (ridge : Option K) :
    Except String (Fin n → K) :=
  let A := materializeArray (withRidge matvec ridge)
  let qr := qr n A
  .ok (solveTri n qr.2 (qr.1.transpose.mulVec b))

/-! ## Iterative solvers -/

/-- `solve_cg`, lines 168-189; `solve_gmres` and `solve_bicgstab` (lines 241-283) are the same with another routine. -/
def solveIter {E : Type*} [AddCommGroup E] [SMul K E] (routine : (E → E) → E → Option E → E) (matvec : E → E) (b : E)
    (ridge : Option K) (init : Option E) : E :=
  routine (withRidge matvec ridge) b init

/-- `_normal_matvec`, lines 197-200: `jax.vjp` of a linear map applies its transpose `rmatvec`. -/
def normalMatvec {E F : Type*} (matvec : E → F) (rmatvec : F → E) : E → E := fun x => rmatvec (matvec x)

/-- `solve_normal_cg`, lines 203-241; `rmatvec` is `_make_rmatvec(matvec, example_x)` (lines 192-194). -/
def solveNormalCg {E F : Type*} [AddCommGroup E] [SMul K E] (cg : (E → E) → E → Option E → E) (matvec : E → F) (rmatvec : F → E)
    (b : F) (ridge : Option K) (init : Option E) : E :=
  let op := normalMatvec matvec rmatvec
  let op := withRidge op ridge
  let Ab := rmatvec b
  cg op Ab init

/-! ## `linear_operator.py` -/

/-- A pytree of dense matrices: leaf `l` has `rows l` rows and `cols l` columns. -/
abbrev MatTree (K : Type*) {L : Type*} (rows cols : L → ℕ) := (l : L) → Matrix (Fin (rows l)) (Fin (cols l)) K

/-- A pytree of vectors. -/
abbrev VecTree (K : Type*) {L : Type*} (dim : L → ℕ) := (l : L) → Fin (dim l) → K

namespace DenseLinearOperator

variable {L : Type*} {rows cols : L → ℕ}

/-- `matvec`, linear_operator.py lines 38-39. -/
def matvec (A : MatTree K rows cols) (x : VecTree K cols) : VecTree K rows := fun l => (A l).mulVec (x l)

/-- `rmatvec`, lines 41-42. -/
def rmatvec (A : MatTree K rows cols) (y : VecTree K rows) : VecTree K cols := fun l => (A l).transpose.mulVec (y l)

/-- `matvec_and_rmatvec`, lines 44-45. -/
def matvecAndRmatvec (A : MatTree K rows cols) (x : VecTree K cols) (y : VecTree K rows) : VecTree K rows × VecTree K cols :=
  (matvec A x, rmatvec A y)

/-- `normal_matvec`, lines 47-49. -/
def normalMatvec (A : MatTree K rows cols) (x : VecTree K cols) : VecTree K cols := rmatvec A (matvec A x)

/-- `columns_l2_norms(squared=True)`, lines 55-61. -/
def columnsL2NormsSq (A : MatTree K rows cols) : VecTree K cols := fun l j => ∑ i, A l i j ^ 2

/-- `diag`, lines 51-53: `jnp.diag` of each leaf (square leaves). -/
def diag (A : MatTree K cols cols) : VecTree K cols := fun l i => A l i i

end DenseLinearOperator

namespace FunctionalLinearOperator

variable {E F : Type*}

/-- `matvec_and_rmatvec`, lines 78-81; `vjp x` is the function returned by `jax.vjp(matvec, x)`. -/
def matvecAndRmatvec (matvec : E → F) (vjp : E → F → E) (x : E) (y : F) : F × E := (matvec x, vjp x y)

/-- `rmatvec`, lines 75-76. -/
def rmatvec (matvec : E → F) (vjp : E → F → E) (x : E) (y : F) : E := (matvecAndRmatvec matvec vjp x y).2

/-- `normal_matvec`, lines 83-86. -/
def normalMatvec (matvec : E → F) (vjp : E → F → E) (x : E) : E := vjp x (matvec x)

end FunctionalLinearOperator

end Jaxopt.LinSolve
