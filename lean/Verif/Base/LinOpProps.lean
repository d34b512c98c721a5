import Verif.Base.LinOp
import Mathlib.Tactic.Ring
import Mathlib.Tactic.NormNum
import Mathlib.Tactic.FinCases
import Mathlib.LinearAlgebra.Matrix.Notation

/-!
# Property C51: incremental linear-operator products
-/

set_option autoImplicit false

namespace Jaxopt.Base.LinearOperator

variable {m n p : ℕ}

/-- One coordinate change `x[idx] += delta`. -/
def bump {k : ℕ} (x : Fin k → ℝ) (u : Fin k × ℝ) : Fin k → ℝ := fun j =>
  if j = u.1 then x j + u.2 else x j

/-- One row change `X[idx] += delta` of a matrix variable. -/
def bumpRow {k : ℕ} (x : Matrix (Fin k) (Fin p) ℝ) (u : Fin k × (Fin p → ℝ)) : Matrix (Fin k) (Fin p) ℝ :=
  fun j k => if j = u.1 then x j k + u.2 k else x j k

theorem sum_bump {k : ℕ} (a x : Fin k → ℝ) (u : Fin k × ℝ) :
    ∑ j, a j * bump x u j = ∑ j, a j * x j + u.2 * a u.1 := by
  have : ∀ j, a j * bump x u j = a j * x j + (if j = u.1 then u.2 * a u.1 else 0) := by
    intro j
    unfold bump
    by_cases h : j = u.1
    · subst h; simp; ring
    · simp [h]
  simp [this, Finset.sum_add_distrib]

/-- **C51**: after any sequence of coordinate changes the incrementally updated product is the fresh product. -/
theorem C51_update_matvec (A : Matrix (Fin m) (Fin n) ℝ) (x : Fin n → ℝ) (us : List (Fin n × ℝ)) :
    us.foldl (fun Ax u => updateMatvec A Ax u.2 u.1) (matvec A x) = matvec A (us.foldl bump x) := by
  induction us generalizing x with
  | nil => rfl
  | cons u us ih =>
    rw [List.foldl_cons, List.foldl_cons, ← ih]
    congr 1
    funext i
    simp only [updateMatvec, matvec, Matrix.mulVec, dotProduct]
    rw [sum_bump]

/-- **C51**, transposed product. -/
theorem C51_update_rmatvec (A : Matrix (Fin m) (Fin n) ℝ) (x : Fin m → ℝ) (us : List (Fin m × ℝ)) :
    us.foldl (fun ATx u => updateRmatvec A ATx u.2 u.1) (rmatvec A x) = rmatvec A (us.foldl bump x) := by
  induction us generalizing x with
  | nil => rfl
  | cons u us ih =>
    rw [List.foldl_cons, List.foldl_cons, ← ih]
    congr 1
    funext i
    simp only [updateRmatvec, rmatvec, Matrix.mulVec, dotProduct, Matrix.transpose_apply]
    rw [sum_bump]

/-- **C51**, matrix-valued variable (2-d branch). -/
theorem C51_update_matmat (A : Matrix (Fin m) (Fin n) ℝ) (x : Matrix (Fin n) (Fin p) ℝ)
    (us : List (Fin n × (Fin p → ℝ))) :
    us.foldl (fun Ax u => updateMatmat A Ax u.2 u.1) (matmat A x) = matmat A (us.foldl bumpRow x) := by
  induction us generalizing x with
  | nil => rfl
  | cons u us ih =>
    rw [List.foldl_cons, List.foldl_cons, ← ih]
    congr 1
    funext i k
    simp only [updateMatmat, matmat, Matrix.mul_apply]
    have hk : ∀ j, bumpRow x u j k = bump (fun j => x j k) (u.1, u.2 k) j := by
      intro j
      unfold bumpRow bump
      by_cases h : j = u.1 <;> simp [h]
    simp only [hk]
    rw [sum_bump]
    ring

/-- **C51**: element accessors agree with the full products; column norms are norms of columns. -/
theorem C51_elements (A : Matrix (Fin m) (Fin n) ℝ) (x : Fin n → ℝ) (y : Fin m → ℝ) (i : Fin m) (j : Fin n) :
    matvecElement A x i = matvec A x i ∧ rmatvecElement A y j = rmatvec A y j ∧
      columnL2Norms A true j = ∑ i, A i j ^ 2 ∧ 0 ≤ columnL2Norms A false j ∧
      columnL2Norms A false j ^ 2 = columnL2Norms A true j := by
  have h0 : 0 ≤ ∑ i, A i j ^ 2 := Finset.sum_nonneg fun i _ => sq_nonneg _
  refine ⟨rfl, rfl, by simp [columnL2Norms], by simp [columnL2Norms, Real.sqrt_nonneg], ?_⟩
  simp [columnL2Norms, Real.sq_sqrt h0]

/-- **C51**: `rmatvec` is the adjoint of `matvec`. -/
theorem C51_adjoint (A : Matrix (Fin m) (Fin n) ℝ) (x : Fin n → ℝ) (y : Fin m → ℝ) :
    ∑ i, matvec A x i * y i = ∑ j, x j * rmatvec A y j := by
  simp only [matvec, rmatvec, Matrix.mulVec, dotProduct, Matrix.transpose_apply, Finset.sum_mul, Finset.mul_sum]
  rw [Finset.sum_comm]
  refine Finset.sum_congr rfl fun j _ => Finset.sum_congr rfl fun i _ => by ring

/-- Non-vacuity: two updates of a 2×2 product. -/
example : [((0 : Fin 2), (1 : ℝ)), (1, 2)].foldl (fun Ax u => updateMatvec !![1, 2; 3, 4] Ax u.2 u.1) ![0, 0]
    = ![5, 11] := by
  funext i; fin_cases i <;> simp [updateMatvec] <;> norm_num

end Jaxopt.Base.LinearOperator
