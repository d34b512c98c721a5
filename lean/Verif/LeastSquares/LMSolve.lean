import Mathlib.Data.Matrix.ColumnRowPartitioned
import Mathlib.Data.Matrix.Mul
import Mathlib.LinearAlgebra.Matrix.NonsingularInverse
import Mathlib.Tactic.Ring
import Mathlib.Algebra.Order.Ring.Rat
import Mathlib.Tactic.FinCases
import Mathlib.LinearAlgebra.Matrix.Notation

/-!
# The direct solvers of `LevenbergMarquardt.update` (levenberg_marquardt.py lines 370-408)

`Q`, `R` stand for the result of `jsp.linalg.qr(aug_jac, mode='economic')`, `solve_triangular(R, b)` for the solution of `R v = b`, and
`inv` for `jnp.linalg.inv`.
-/

set_option autoImplicit false
set_option linter.unusedSectionVars false
set_option linter.unusedVariables false

namespace Jaxopt.LeastSquares

open Matrix

variable {K : Type*} [Field K] {m n : ℕ}

/-- `aug_jac = vstack([jac, sqrt(mu) I])`, lines 371-372. -/
def augJac (J : Matrix (Fin m) (Fin n) K) (s : K) : Matrix (Fin m ⊕ Fin n) (Fin n) K := fromRows J (s • (1 : Matrix (Fin n) (Fin n) K))

/-- `aug_res = hstack([residual, zeros])`, line 373 (also `aug_rpp`, line 398). -/
def augRes (r : Fin m → K) : Fin m ⊕ Fin n → K := Sum.elim r 0

/-- `jtj_corr`, lines 377-378. -/
def jtjCorr (J : Matrix (Fin m) (Fin n) K) (mu : K) : Matrix (Fin n) (Fin n) K := Jᵀ * J + mu • 1

/-- `q.T @ aug_res`, line 375. -/
def qrRhs (Q : Matrix (Fin m ⊕ Fin n) (Fin n) K) (r : Fin m → K) : Fin n → K := Qᵀ *ᵥ augRes r

/-- **C44**, solver 'qr': the velocity satisfies the damped normal equations (so does the acceleration, with `r''` for `r`). -/
theorem C44_qr {J : Matrix (Fin m) (Fin n) K} {s mu : K} (hs : s * s = mu) {Q : Matrix (Fin m ⊕ Fin n) (Fin n) K}
    {R : Matrix (Fin n) (Fin n) K} (hqr : augJac J s = Q * R) (horth : Qᵀ * Q = 1) {r : Fin m → K} {v : Fin n → K}
    (hv : R *ᵥ v = qrRhs Q r) : (Jᵀ * J) *ᵥ v + mu • v = Jᵀ *ᵥ r := by
  have h1 : (augJac J s)ᵀ * augJac J s = jtjCorr J mu := by
    unfold augJac jtjCorr
    rw [transpose_fromRows, fromCols_mul_fromRows]
    simp [hs, smul_smul]
  have h2 : (augJac J s)ᵀ *ᵥ augRes r = Jᵀ *ᵥ r := by
    unfold augJac augRes
    rw [transpose_fromRows, fromCols_mulVec]
    simp
  have h3 : (augJac J s)ᵀ * augJac J s = Rᵀ * R := by
    rw [hqr, transpose_mul, Matrix.mul_assoc, ← Matrix.mul_assoc Qᵀ, horth, Matrix.one_mul]
  have h4 : jtjCorr J mu *ᵥ v = Jᵀ *ᵥ r := by
    rw [← h1, h3, ← mulVec_mulVec, hv, qrRhs, mulVec_mulVec, ← transpose_mul, ← hqr, h2]
  rw [← h4, jtjCorr, add_mulVec, smul_mulVec, one_mulVec]

/-- **C44**, solver 'inv' (and 'lu', 'cholesky', which solve the same system): the velocity satisfies the damped normal equations. -/
theorem C44_inv {J : Matrix (Fin m) (Fin n) K} {mu : K} {inv : Matrix (Fin n) (Fin n) K} (hinv : jtjCorr J mu * inv = 1) {r : Fin m → K} :
    (Jᵀ * J) *ᵥ (inv *ᵥ (Jᵀ *ᵥ r)) + mu • (inv *ᵥ (Jᵀ *ᵥ r)) = Jᵀ *ᵥ r := by
  have : jtjCorr J mu *ᵥ (inv *ᵥ (Jᵀ *ᵥ r)) = Jᵀ *ᵥ r := by rw [mulVec_mulVec, hinv, one_mulVec]
  rwa [jtjCorr, add_mulVec, smul_mulVec, one_mulVec] at this

/-- Non-vacuity: `J = (3)`, `sqrt mu = 4`, so `Q = (3/5, 4/5)`, `R = (5)`. -/
def exQ : Matrix (Fin 1 ⊕ Fin 1) (Fin 1) ℚ := Matrix.of fun i _ => Sum.elim (fun _ => 3 / 5) (fun _ => 4 / 5) i

example : augJac (Matrix.of fun _ _ => 3 : Matrix (Fin 1) (Fin 1) ℚ) 4 = exQ * (Matrix.of fun _ _ => 5 : Matrix (Fin 1) (Fin 1) ℚ) := by
  ext i j
  rcases i with i | i <;> fin_cases i <;> fin_cases j <;> decide +kernel

example : exQᵀ * exQ = 1 := by
  ext i j
  fin_cases i <;> fin_cases j <;> decide +kernel

end Jaxopt.LeastSquares
