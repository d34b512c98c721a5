import Verif.LinSolve.Model
import Verif.Base.Util
import Mathlib.LinearAlgebra.Matrix.NonsingularInverse
import Mathlib.LinearAlgebra.Matrix.ToLinearEquiv
import Mathlib.LinearAlgebra.Matrix.PosDef
import Mathlib.Analysis.InnerProductSpace.Adjoint
import Mathlib.Tactic.Ring
import Mathlib.Tactic.Linarith
import Mathlib.Tactic.Abel
import Mathlib.Algebra.Order.Ring.Rat
import Mathlib.LinearAlgebra.Matrix.Notation

/-!
# Property C61: the linear solvers solve the (ridge-regularised) system they are given; C62: linear operators and their transposes
-/

set_option autoImplicit false
set_option linter.unusedSectionVars false
set_option linter.unusedVariables false

namespace Jaxopt.LinSolve

variable {K : Type*} [Field K]

/-- The regularisation strength meant by the optional argument `ridge`. -/
def ridgeVal (ridge : Option K) : K := ridge.getD 0

/-- `x` solves the system the caller asked for. -/
def Solves {E : Type*} [AddCommGroup E] [Module K E] (A : E →ₗ[K] E) (ridge : Option K) (b x : E) : Prop :=
  A x + ridgeVal ridge • x = b

/-- The regularised operator is injective, so that there is at most one solution. -/
def Regular {E : Type*} [AddCommGroup E] [Module K E] (A : E →ₗ[K] E) (ridge : Option K) : Prop :=
  ∀ v, A v + ridgeVal ridge • v = 0 → v = 0

theorem Solves.unique {E : Type*} [AddCommGroup E] [Module K E] {A : E →ₗ[K] E} {ridge : Option K} {b x y : E}
    (h : Regular A ridge) (hx : Solves A ridge b x) (hy : Solves A ridge b y) : x = y := by
  have := h (x - y) (by rw [map_sub, smul_sub]; unfold Solves at hx hy; rw [sub_add_sub_comm, hx, hy, sub_self])
  exact sub_eq_zero.mp this

theorem withRidge_apply {E : Type*} [AddCommGroup E] [Module K E] (A : E →ₗ[K] E) (ridge : Option K) (v : E) :
    withRidge (fun x => A x) ridge v = A v + ridgeVal ridge • v := by
  cases ridge with
  | none => simp [withRidge, ridgeVal]
  | some r => simp [withRidge, makeRidgeMatvec, ridgeVal]

/-- The regularised operator as a linear map. -/
def ridgeMap {E : Type*} [AddCommGroup E] [Module K E] (A : E →ₗ[K] E) (ridge : Option K) : E →ₗ[K] E :=
  A + ridgeVal ridge • LinearMap.id

theorem ridgeMap_apply {E : Type*} [AddCommGroup E] [Module K E] (A : E →ₗ[K] E) (ridge : Option K) (v : E) :
    ridgeMap A ridge v = A v + ridgeVal ridge • v := by simp [ridgeMap]

theorem withRidge_eq {E : Type*} [AddCommGroup E] [Module K E] (A : E →ₗ[K] E) (ridge : Option K) :
    withRidge (fun x => A x) ridge = fun x => ridgeMap A ridge x := by
  funext v; rw [withRidge_apply, ridgeMap_apply]

/-- The materialised array is the matrix of the linear map. -/
theorem materializeArray_mulVec {n : ℕ} (A : (Fin n → K) →ₗ[K] (Fin n → K)) (x : Fin n → K) :
    (materializeArray fun v => A v).mulVec x = A x := by
  have hx : x = ∑ j, x j • (Pi.single j (1 : K) : Fin n → K) := by
    funext i
    rw [Finset.sum_apply]
    simp [Pi.single_apply]
  conv_rhs => rw [hx, map_sum]
  funext i
  rw [Finset.sum_apply]
  simp only [Matrix.mulVec, dotProduct, materializeArray, Matrix.of_apply, map_zero, Pi.zero_apply, sub_zero, map_smul, Pi.smul_apply,
    smul_eq_mul]
  exact Finset.sum_congr rfl fun j _ => mul_comm _ _

/-- Flattening turns the map on matrices into a map on vectors. -/
def flatMap {m n : ℕ} (A : (Fin m → Fin n → K) →ₗ[K] (Fin m → Fin n → K)) : (Fin (m * n) → K) →ₗ[K] (Fin (m * n) → K) where
  toFun x := ravel (A (unravel x))
  map_add' x y := by
    have : unravel (x + y) = (unravel x + unravel y : Fin m → Fin n → K) := rfl
    rw [this, map_add]; rfl
  map_smul' c x := by
    have : unravel (c • x) = (c • unravel x : Fin m → Fin n → K) := rfl
    rw [this, map_smul]; rfl

theorem unravel_ravel {m n : ℕ} (b : Fin m → Fin n → K) : unravel (ravel b) = b := by
  funext i j
  simp [unravel, ravel]

theorem ravel_unravel {m n : ℕ} (x : Fin (m * n) → K) : (ravel (unravel x : Fin m → Fin n → K)) = x := by
  funext r
  have : finProdFinEquiv ((finProdFinEquiv.symm r).1, (finProdFinEquiv.symm r).2) = r := by
    rw [Prod.mk.eta, Equiv.apply_symm_apply]
  simp only [unravel, ravel]
  exact congrArg x this

theorem unravel_single {m n : ℕ} (c : Fin (m * n)) :
    (unravel (Pi.single c (1 : K)) : Fin m → Fin n → K) = unitMat (finProdFinEquiv.symm c).1 (finProdFinEquiv.symm c).2 := by
  funext i j
  simp only [unravel, unitMat, Pi.single_apply]
  have : finProdFinEquiv (i, j) = c ↔ i = (finProdFinEquiv.symm c).1 ∧ j = (finProdFinEquiv.symm c).2 := by
    rw [← Equiv.eq_symm_apply, Prod.ext_iff]
  by_cases h : finProdFinEquiv (i, j) = c
  · rw [if_pos h, if_pos (this.mp h)]
  · rw [if_neg h, if_neg fun h' => h (this.mpr h')]

theorem reshape4_eq {m n : ℕ} (A : (Fin m → Fin n → K) →ₗ[K] (Fin m → Fin n → K)) :
    reshape4 (materializeMat fun v => A v) = materializeArray fun v => flatMap A v := by
  ext r c
  simp only [reshape4, materializeMat, materializeArray, Matrix.of_apply, flatMap, LinearMap.coe_mk, AddHom.coe_mk]
  rw [unravel_single]
  rfl

theorem det_isUnit_of_regular {n : ℕ} {M : Matrix (Fin n) (Fin n) K} (h : ∀ v, M.mulVec v = 0 → v = 0) : IsUnit M.det := by
  rw [isUnit_iff_ne_zero]
  intro h0
  obtain ⟨v, hv, hv0⟩ := Matrix.exists_mulVec_eq_zero_iff.mpr h0
  exact hv (h v hv0)

section Dense

/-- What is assumed of `jnp.linalg.solve`. -/
def SolveSpec (solve : DenseSolve K) : Prop :=
  ∀ n (A : Matrix (Fin n) (Fin n) K) b, IsUnit A.det → A.mulVec (solve n A b) = b

/-- **C61**, `solve_lu` with a vector: the solution of the system. -/
theorem C61_lu {solve : DenseSolve K} (hs : SolveSpec solve) {n : ℕ} (A : (Fin n → K) →ₗ[K] (Fin n → K)) (b : Fin n → K)
    (ridge : Option K) (h : Regular A ridge) :
    ∃ x, solveLu solve (fun v => A v) b ridge = .ok x ∧ ∀ y, Solves A ridge b y ↔ y = x := by
  refine ⟨_, rfl, fun y => ?_⟩
  rw [withRidge_eq]
  have hd : IsUnit (materializeArray fun v => ridgeMap A ridge v).det :=
    det_isUnit_of_regular fun v hv => h v (by rw [materializeArray_mulVec, ridgeMap_apply] at hv; exact hv)
  have hx := hs n _ b hd
  rw [materializeArray_mulVec, ridgeMap_apply] at hx
  exact ⟨fun hy => hy.unique h hx, fun hy => hy ▸ hx⟩

/-- **C61**, `solve_lu` with a matrix: flattening row by row solves the system on matrices. -/
theorem C61_lu_matrix {solve : DenseSolve K} (hs : SolveSpec solve) {m n : ℕ}
    (A : (Fin m → Fin n → K) →ₗ[K] (Fin m → Fin n → K)) (b : Fin m → Fin n → K) (ridge : Option K) (h : Regular A ridge) :
    ∃ x, solveLuMat solve (fun v => A v) b ridge = .ok x ∧ ∀ y, Solves A ridge b y ↔ y = x := by
  refine ⟨_, rfl, fun y => ?_⟩
  simp only [withRidge_eq]
  rw [reshape4_eq]
  have hd : IsUnit (materializeArray fun v => flatMap (ridgeMap A ridge) v).det :=
    det_isUnit_of_regular fun v hv => by
      rw [materializeArray_mulVec] at hv
      have h1 : ridgeMap A ridge (unravel v) = 0 := by
        have := congrArg (unravel (m := m) (n := n)) hv
        rw [show flatMap (ridgeMap A ridge) v = ravel (ridgeMap A ridge (unravel v)) from rfl, unravel_ravel] at this
        rw [this]; rfl
      rw [ridgeMap_apply] at h1
      have h2 := h _ h1
      rw [← ravel_unravel (m := m) (n := n) v, h2]; rfl
  have hx := hs _ _ (ravel b) hd
  rw [materializeArray_mulVec] at hx
  have hx' : Solves A ridge b (unravel (solve (m * n) (materializeArray fun v => flatMap (ridgeMap A ridge) v) (ravel b))) := by
    have := congrArg (unravel (m := m) (n := n)) hx
    rw [unravel_ravel] at this
    unfold Solves
    rw [← ridgeMap_apply]
    refine Eq.trans ?_ this
    exact (unravel_ravel (K := K) _).symm
  exact ⟨fun hy => hy.unique h hx', fun hy => hy ▸ hx'⟩

/-- **C61**, `solve_inv`. -/
theorem C61_inv {inv : (n : ℕ) → Matrix (Fin n) (Fin n) K → Matrix (Fin n) (Fin n) K}
    (hs : ∀ n (A : Matrix (Fin n) (Fin n) K), IsUnit A.det → A * inv n A = 1) {n : ℕ}
    (A : (Fin n → K) →ₗ[K] (Fin n → K)) (b : Fin n → K) (ridge : Option K) (h : Regular A ridge) :
    ∃ x, solveInv inv (fun v => A v) b ridge = .ok x ∧ ∀ y, Solves A ridge b y ↔ y = x := by
  refine ⟨_, rfl, fun y => ?_⟩
  rw [withRidge_eq]
  have hd : IsUnit (materializeArray fun v => ridgeMap A ridge v).det :=
    det_isUnit_of_regular fun v hv => h v (by rw [materializeArray_mulVec, ridgeMap_apply] at hv; exact hv)
  have hx : (materializeArray fun v => ridgeMap A ridge v).mulVec ((inv n (materializeArray fun v => ridgeMap A ridge v)).mulVec b) = b := by
    rw [Matrix.mulVec_mulVec, hs n _ hd, Matrix.one_mulVec]
  rw [materializeArray_mulVec, ridgeMap_apply] at hx
  exact ⟨fun hy => hy.unique h hx, fun hy => hy ▸ hx⟩

/-- **C61**, scalars: either the (regularised) operator is zero and an error is raised, or the solution is returned. -/
theorem C61_scalar [DecidableEq K] (A : K →ₗ[K] K) (b : K) (ridge : Option K) :
    (Regular A ridge → ∃ x, solveScalar (fun v => A v) b ridge = .ok x ∧ ∀ y, Solves A ridge b y ↔ y = x) ∧
    (¬ Regular A ridge → solveScalar (fun v => A v) b ridge = .error "A should be non-zero for scalar b.") := by
  have hA : ∀ v, A v + ridgeVal ridge • v = (A 1 + ridgeVal ridge) * v := by
    intro v
    have : A v = v * A 1 := by conv_lhs => rw [← mul_one v, ← smul_eq_mul, map_smul, smul_eq_mul]
    rw [this, smul_eq_mul]; ring
  have hm : materializeScalar (withRidge (fun v => A v) ridge) = A 1 + ridgeVal ridge := by
    unfold materializeScalar
    rw [withRidge_apply, withRidge_apply]; simp
  have hreg : Regular A ridge ↔ A 1 + ridgeVal ridge ≠ 0 := by
    unfold Regular
    constructor
    · intro h h0
      exact one_ne_zero (h 1 (by rw [hA, h0, zero_mul]))
    · intro h v hv
      rw [hA] at hv
      exact (mul_eq_zero.mp hv).resolve_left h
  refine ⟨fun h => ?_, fun h => ?_⟩
  · refine ⟨b / (A 1 + ridgeVal ridge), ?_, fun y => ?_⟩
    · unfold solveScalar; simp only; rw [hm, if_neg (hreg.mp h)]
    · unfold Solves
      rw [hA, eq_div_iff (hreg.mp h), mul_comm]
  · unfold solveScalar; simp only; rw [hm, if_pos]
    by_contra h0; exact h (hreg.mpr h0)

/-- **C61**, `solve_qr`: for a QR factorisation of the matrix. -/
theorem C61_qr {qr : (n : ℕ) → Matrix (Fin n) (Fin n) K → Matrix (Fin n) (Fin n) K × Matrix (Fin n) (Fin n) K}
    {solveTri : DenseSolve K} {n : ℕ} (A : (Fin n → K) →ₗ[K] (Fin n → K)) (b : Fin n → K) (ridge : Option K) (h : Regular A ridge)
    (hqr : ∀ M, M = materializeArray (withRidge (fun v => A v) ridge) →
      (qr n M).1.transpose * (qr n M).1 = 1 ∧ (qr n M).1 * (qr n M).2 = M ∧ ∀ i j, j < i → (qr n M).2 i j = 0)
    (htri : ∀ (R : Matrix (Fin n) (Fin n) K) y, (∀ i j, j < i → R i j = 0) → IsUnit R.det → R.mulVec (solveTri n R y) = y) :
    ∃ x, solveQr qr solveTri (fun v => A v) b ridge = .ok x ∧ ∀ y, Solves A ridge b y ↔ y = x := by
  refine ⟨_, rfl, fun y => ?_⟩
  obtain ⟨h1, h2, h3⟩ := hqr _ rfl
  rw [withRidge_eq] at h1 h2 h3 ⊢
  generalize hQ : (qr n (materializeArray fun v => ridgeMap A ridge v)).1 = Q at *
  generalize hR : (qr n (materializeArray fun v => ridgeMap A ridge v)).2 = R at *
  have hd : IsUnit (materializeArray fun v => ridgeMap A ridge v).det :=
    det_isUnit_of_regular fun v hv => h v (by rw [materializeArray_mulVec, ridgeMap_apply] at hv; exact hv)
  have hRd : IsUnit R.det := by
    rw [← h2, Matrix.det_mul] at hd
    exact isUnit_of_mul_isUnit_right hd
  have hy := htri R (Q.transpose.mulVec b) h3 hRd
  have hx : (materializeArray fun v => ridgeMap A ridge v).mulVec (solveTri n R (Q.transpose.mulVec b)) = b := by
    rw [← h2, ← Matrix.mulVec_mulVec, hy, Matrix.mulVec_mulVec, mul_eq_one_comm.mp h1, Matrix.one_mulVec]
  rw [materializeArray_mulVec, ridgeMap_apply] at hx
  exact ⟨fun hy => hy.unique h hx, fun hy => hy ▸ hx⟩

end Dense

section Cholesky

/-- **C61**, `solve_cholesky` with a vector: symmetric positive definite (regularised) operators. -/
theorem C61_cholesky {solvePos : DenseSolve ℝ}
    (hs : ∀ n (A : Matrix (Fin n) (Fin n) ℝ) b, A.PosDef → A.mulVec (solvePos n A b) = b) {n : ℕ}
    (A : (Fin n → ℝ) →ₗ[ℝ] (Fin n → ℝ)) (b : Fin n → ℝ) (ridge : Option ℝ)
    (hsym : ∀ u v, A u ⬝ᵥ v = u ⬝ᵥ A v) (hpos : ∀ v, v ≠ 0 → 0 < v ⬝ᵥ A v + ridgeVal ridge * (v ⬝ᵥ v)) :
    ∃ x, solveCholesky solvePos (fun v => A v) b ridge = .ok x ∧ ∀ y, Solves A ridge b y ↔ y = x := by
  refine ⟨_, rfl, fun y => ?_⟩
  rw [withRidge_eq]
  have hsym' : ∀ u v, ridgeMap A ridge u ⬝ᵥ v = u ⬝ᵥ ridgeMap A ridge v := by
    intro u v
    rw [ridgeMap_apply, ridgeMap_apply, add_dotProduct, dotProduct_add, hsym, smul_dotProduct, dotProduct_smul]
  have hreg : Regular A ridge := by
    intro v hv
    by_contra hne
    have := hpos v hne
    have e : v ⬝ᵥ A v + ridgeVal ridge * (v ⬝ᵥ v) = v ⬝ᵥ (A v + ridgeVal ridge • v) := by
      rw [dotProduct_add, dotProduct_smul, smul_eq_mul]
    rw [e, hv, dotProduct_zero] at this
    exact lt_irrefl _ this
  have hent : ∀ i j, (materializeArray fun v => ridgeMap A ridge v) i j = ridgeMap A ridge (Pi.single j 1) i := by
    intro i j
    simp [materializeArray]
  have hPD : (materializeArray fun v => ridgeMap A ridge v).PosDef := by
    refine Matrix.PosDef.of_dotProduct_mulVec_pos ?_ ?_
    · ext i j
      rw [Matrix.conjTranspose_apply, hent, hent, star_trivial]
      have := hsym' (Pi.single i 1) (Pi.single j 1)
      rw [dotProduct_single, mul_one, single_dotProduct, one_mul] at this
      exact this
    · intro v hv
      rw [materializeArray_mulVec, ridgeMap_apply, star_trivial, dotProduct_add, dotProduct_smul, smul_eq_mul]
      exact hpos v hv
  have hx := hs n _ b hPD
  rw [materializeArray_mulVec, ridgeMap_apply] at hx
  exact ⟨fun hy => hy.unique hreg hx, fun hy => hy ▸ hx⟩

/-- **C61** is false for `solve_cholesky` with a matrix right-hand side: it raises for every operator as soon as the matrix has more than one
entry. -/
theorem C61_cholesky_matrix_false (solvePos : DenseSolve K) {m n : ℕ} (hmn : 1 < m * n)
    (matvec : (Fin m → Fin n → K) → (Fin m → Fin n → K)) (b : Fin m → Fin n → K) (ridge : Option K) :
    ∃ e, solveCholeskyMat solvePos matvec b ridge = .error e := by
  unfold solveCholeskyMat
  rw [if_neg]
  · exact ⟨_, rfl⟩
  rintro ⟨h1, h2⟩
  have hm : 0 < m := by rcases Nat.eq_zero_or_pos m with h | h; · subst h; simp at hmn
                        · exact h
  have hn : n = 1 := by
    have : m * 1 = m * n := by omega
    exact (Nat.eq_of_mul_eq_mul_left hm this).symm
  subst hn
  omega

end Cholesky

section Iterative

variable {E F : Type*} [NormedAddCommGroup E] [InnerProductSpace ℝ E] [FiniteDimensional ℝ E]
  [NormedAddCommGroup F] [InnerProductSpace ℝ F] [FiniteDimensional ℝ F]

/-- What is assumed of `jsp.sparse.linalg.cg` run to convergence: on a symmetric positive semi-definite operator and a right-hand side in its
range it returns a solution. -/
def CgSpec (cg : (E → E) → E → Option E → E) : Prop :=
  ∀ (A : E →ₗ[ℝ] E) b init, (∀ u v, inner ℝ (A u) v = inner ℝ u (A v)) → (∀ v, 0 ≤ inner ℝ v (A v)) → (∃ x, A x = b) →
    A (cg (fun v => A v) b init) = b

/-- **C61**, `solve_cg`: solvable symmetric positive semi-definite systems, any initial point, any ridge `≥ 0`. -/
theorem C61_cg {cg : (E → E) → E → Option E → E} (hcg : CgSpec cg) (A : E →ₗ[ℝ] E) (b : E) (ridge : Option ℝ) (init : Option E)
    (hsym : ∀ u v, inner ℝ (A u) v = inner ℝ u (A v)) (hpos : ∀ v, 0 ≤ inner ℝ v (A v)) (hr : 0 ≤ ridgeVal ridge)
    (hex : ∃ x, Solves A ridge b x) : Solves A ridge b (solveIter cg (fun v => A v) b ridge init) := by
  unfold solveIter
  rw [withRidge_eq]
  have := hcg (ridgeMap A ridge) b init
    (fun u v => by rw [ridgeMap_apply, ridgeMap_apply, inner_add_left, inner_add_right, hsym, inner_smul_left, inner_smul_right,
      conj_trivial])
    (fun v => by
      rw [ridgeMap_apply, inner_add_right, inner_smul_right]
      exact add_nonneg (hpos v) (mul_nonneg hr real_inner_self_nonneg))
    (by obtain ⟨x, hx⟩ := hex; exact ⟨x, by rw [ridgeMap_apply]; exact hx⟩)
  rw [ridgeMap_apply] at this
  exact this

/-- The objective of (ridge) least squares. -/
noncomputable def lsObj (A : E →ₗ[ℝ] F) (b : F) (r : ℝ) (x : E) : ℝ := ‖A x - b‖ ^ 2 + r * ‖x‖ ^ 2

theorem normal_exists (A : E →ₗ[ℝ] F) (b : F) (r : ℝ) (hr : 0 ≤ r) : ∃ x, A.adjoint (A x) + r • x = A.adjoint b := by
  -- the operator is symmetric, so its range is the orthogonal complement of its kernel
  let T : E →ₗ[ℝ] E := A.adjoint ∘ₗ A + r • LinearMap.id
  have hT : ∀ x, T x = A.adjoint (A x) + r • x := fun x => by simp [T]
  have hsym : T.adjoint = T := by
    symm
    rw [LinearMap.eq_adjoint_iff]
    intro u v
    rw [hT, hT, inner_add_left, inner_add_right, LinearMap.adjoint_inner_left, LinearMap.adjoint_inner_right, inner_smul_left,
      inner_smul_right, conj_trivial]
  have hmem : A.adjoint b ∈ T.range := by
    have h1 : T.kerᗮ = T.range := by
      have := T.orthogonal_ker
      rw [hsym] at this
      exact this
    rw [← h1, Submodule.mem_orthogonal]
    intro v hv
    rw [LinearMap.mem_ker, hT] at hv
    have h0 : inner ℝ v (A.adjoint (A v) + r • v) = 0 := by rw [hv, inner_zero_right]
    rw [inner_add_right, LinearMap.adjoint_inner_right, inner_smul_right, real_inner_self_eq_norm_sq, real_inner_self_eq_norm_sq] at h0
    have h2 : ‖A v‖ ^ 2 = 0 := by nlinarith [sq_nonneg ‖A v‖, mul_nonneg hr (sq_nonneg ‖v‖)]
    have h3 : A v = 0 := norm_eq_zero.mp (pow_eq_zero_iff (two_ne_zero) |>.mp h2)
    rw [LinearMap.adjoint_inner_right, h3, inner_zero_left]
  obtain ⟨x, hx⟩ := hmem
  exact ⟨x, by rw [← hT]; exact hx⟩

/-- **C61**, `solve_normal_cg`: for every linear map, right-hand side, initial point and `ridge ≥ 0`, the result satisfies the regularised normal
equations and minimises the regularised least-squares objective; in particular it solves every solvable unregularised system. -/
theorem C61_normal_cg {cg : (E → E) → E → Option E → E} (hcg : CgSpec cg) (A : E →ₗ[ℝ] F) (b : F) (ridge : Option ℝ)
    (init : Option E) (hr : 0 ≤ ridgeVal ridge) :
    let x := solveNormalCg cg (fun v => A v) (fun y => A.adjoint y) b ridge init
    A.adjoint (A x) + ridgeVal ridge • x = A.adjoint b ∧ (∀ y, lsObj A b (ridgeVal ridge) x ≤ lsObj A b (ridgeVal ridge) y) ∧
      (ridge = none → (∃ y, A y = b) → A x = b) := by
  intro x
  have hx : A.adjoint (A x) + ridgeVal ridge • x = A.adjoint b := by
    have := C61_cg hcg (A.adjoint ∘ₗ A) (A.adjoint b) ridge init
      (fun u v => by simp [LinearMap.adjoint_inner_left, LinearMap.adjoint_inner_right])
      (fun v => by
        rw [LinearMap.comp_apply, LinearMap.adjoint_inner_right]
        exact real_inner_self_nonneg) hr
      (by obtain ⟨y, hy⟩ := normal_exists A b _ hr; exact ⟨y, hy⟩)
    exact this
  have hmin : ∀ y, lsObj A b (ridgeVal ridge) x ≤ lsObj A b (ridgeVal ridge) y := by
    intro y
    generalize ridgeVal ridge = r at *
    clear_value x
    unfold lsObj
    have e1 : ‖A y - b‖ ^ 2 = ‖A x - b‖ ^ 2 + 2 * inner ℝ (A x - b) (A (y - x)) + ‖A (y - x)‖ ^ 2 := by
      rw [← norm_add_sq_real, map_sub]; congr 2; abel
    have e2 : ‖y‖ ^ 2 = ‖x‖ ^ 2 + 2 * inner ℝ x (y - x) + ‖y - x‖ ^ 2 := by
      rw [← norm_add_sq_real]; congr 2; abel
    have e3 : inner ℝ (A x - b) (A (y - x)) + r * inner ℝ x (y - x) = 0 := by
      rw [← LinearMap.adjoint_inner_left, map_sub, ← real_inner_smul_left, ← inner_add_left]
      have : A.adjoint (A x) - A.adjoint b + r • x = 0 := by rw [← hx]; abel
      rw [this, inner_zero_left]
    rw [e1, e2]
    nlinarith [sq_nonneg ‖A (y - x)‖, mul_nonneg hr (sq_nonneg ‖y - x‖)]
  refine ⟨hx, hmin, fun hnone ⟨y, hy⟩ => ?_⟩
  have h := hmin y
  unfold lsObj at h
  rw [hnone] at h
  simp only [ridgeVal, Option.getD_none, zero_mul, add_zero] at h
  rw [hy, sub_self, norm_zero] at h
  have h2 : ‖A x - b‖ ^ 2 = 0 := le_antisymm (by simpa using h) (sq_nonneg _)
  exact sub_eq_zero.mp (norm_eq_zero.mp (pow_eq_zero_iff (two_ne_zero) |>.mp h2))

end Iterative

/-! ## C62 -/

section Operators

variable {L : Type*} [Fintype L] {rows cols : L → ℕ}

/-- The inner product of two pytrees of vectors. -/
def treeDot {dim : L → ℕ} (x y : VecTree K dim) : K := ∑ l, x l ⬝ᵥ y l

open DenseLinearOperator in
/-- **C62**: for dense operators `rmatvec` is the transpose of `matvec`, `normal_matvec` is their composition, and the column norms and diagonal
entries are those of the operator. -/
theorem C62_dense [DecidableEq L] (A : MatTree K rows cols) (B : MatTree K cols cols) :
    (∀ x y, treeDot (matvec A x) y = treeDot x (rmatvec A y)) ∧
    (∀ x x', treeDot (DenseLinearOperator.normalMatvec A x) x' = treeDot (matvec A x) (matvec A x')) ∧
    (∀ x y, matvecAndRmatvec A x y = (matvec A x, rmatvec A y)) ∧
    (∀ l j, columnsL2NormsSq A l j = treeDot (matvec A (Pi.single l (Pi.single j 1))) (matvec A (Pi.single l (Pi.single j 1)))) ∧
    (∀ l i, diag B l i = matvec B (Pi.single l (Pi.single i 1)) l i) := by
  have hadj : ∀ x y, treeDot (matvec A x) y = treeDot x (rmatvec A y) := by
    intro x y
    refine Finset.sum_congr rfl fun l _ => ?_
    simp only [matvec, rmatvec]
    rw [Matrix.mulVec_transpose, dotProduct_comm, Matrix.dotProduct_mulVec, dotProduct_comm]
  have hcomm : ∀ {dim : L → ℕ} (x y : VecTree K dim), treeDot x y = treeDot y x := fun x y =>
    Finset.sum_congr rfl fun l _ => dotProduct_comm _ _
  refine ⟨hadj, fun x x' => ?_, fun x y => rfl, fun l j => ?_, fun l i => ?_⟩
  · rw [hcomm (matvec A x), hadj, hcomm]; rfl
  · have hmv : ∀ l', matvec A (Pi.single l (Pi.single j 1)) l' = if h : l' = l then (fun i => A l' i (h ▸ j)) else 0 := by
      intro l'
      by_cases h : l' = l
      · subst h
        rw [dif_pos rfl]
        simp only [matvec, Pi.single_eq_same]
        rw [Matrix.mulVec_single_one]; rfl
      · rw [dif_neg h]
        simp only [matvec, Pi.single_eq_of_ne h, Matrix.mulVec_zero]
    unfold treeDot
    rw [Finset.sum_eq_single l]
    · rw [hmv, dif_pos rfl]
      simp only [columnsL2NormsSq, dotProduct]
      exact Finset.sum_congr rfl fun i _ => sq _
    · intro l' _ h
      rw [hmv, dif_neg h, dotProduct_zero]
    · intro h; exact absurd (Finset.mem_univ l) h
  · simp only [diag, matvec, Pi.single_eq_same]
    rw [Matrix.mulVec_single_one]; rfl

open FunctionalLinearOperator in
/-- **C62**: for functional operators, with `jax.vjp` of a linear map applying its adjoint, the same relations hold, whatever the point `x` passed to
`rmatvec`. -/
theorem C62_functional {E F : Type*} [NormedAddCommGroup E] [InnerProductSpace ℝ E] [FiniteDimensional ℝ E]
    [NormedAddCommGroup F] [InnerProductSpace ℝ F] [FiniteDimensional ℝ F] (A : E →ₗ[ℝ] F) (vjp : E → F → E)
    (hvjp : ∀ x y v, inner ℝ (vjp x y) v = inner ℝ y (A v)) :
    (∀ x x' y, inner ℝ (A x') y = inner ℝ x' (rmatvec (fun v => A v) vjp x y)) ∧
    (∀ x x', inner ℝ (FunctionalLinearOperator.normalMatvec (fun v => A v) vjp x) x' = inner ℝ (A x) (A x')) ∧
    (∀ x y, matvecAndRmatvec (fun v => A v) vjp x y = (A x, A.adjoint y)) := by
  refine ⟨fun x x' y => ?_, fun x x' => hvjp _ _ _, fun x y => ?_⟩
  · rw [real_inner_comm, ← hvjp x y x', real_inner_comm]; rfl
  · refine Prod.ext rfl ?_
    show vjp x y = A.adjoint y
    refine ext_inner_right ℝ fun v => ?_
    rw [hvjp, LinearMap.adjoint_inner_left]

end Operators

/-! ## Non-vacuity -/

/-- `A⁻¹ b` satisfies the specification of the dense solver. -/
theorem solveSpec_inv : SolveSpec (K := K) fun n A b => A⁻¹.mulVec b := by
  intro n A b h
  rw [Matrix.mulVec_mulVec, Matrix.mul_nonsing_inv A h, Matrix.one_mulVec]

/-- The operator `(x, y) ↦ (2y, x)` with ridge 3. -/
def exOp : (Fin 2 → ℚ) →ₗ[ℚ] (Fin 2 → ℚ) := Matrix.mulVecLin !![0, 2; 1, 0]

theorem exOp_regular : Regular exOp (some 3) := by
  intro v hv
  have h0 := congrFun hv 0
  have h1 := congrFun hv 1
  simp [exOp, ridgeVal, Matrix.mulVec, dotProduct, Fin.sum_univ_two] at h0 h1
  funext i
  fin_cases i
  · show v 0 = 0; linarith
  · show v 1 = 0; linarith

example : ∃ x, solveLu (fun n A b => A⁻¹.mulVec b) (fun v => exOp v) ![7, 5] (some 3) = .ok x ∧ x = ![11 / 7, 8 / 7] := by
  obtain ⟨x, hx, h⟩ := C61_lu solveSpec_inv exOp ![7, 5] (some 3) exOp_regular
  refine ⟨x, hx, ((h _).mp ?_).symm⟩
  funext i
  fin_cases i <;> simp [Solves, exOp, ridgeVal, Matrix.mulVec, dotProduct, Fin.sum_univ_two] <;> norm_num

open Classical in
/-- A routine with the assumed property of conjugate gradient exists. -/
theorem cgSpec_exists {E : Type*} [NormedAddCommGroup E] [InnerProductSpace ℝ E] :
    ∃ cg : (E → E) → E → Option E → E, CgSpec cg := by
  refine ⟨fun f b _ => if h : ∃ x, f x = b then h.choose else 0, fun A b init _ _ hex => ?_⟩
  show A (if h : ∃ x, A x = b then h.choose else 0) = b
  rw [dif_pos hex]
  exact hex.choose_spec

/-- `2 x = 4` with ridge 1: the normal equation is `4 x + x = 8`. -/
example : ∃ cg, CgSpec cg ∧
    solveNormalCg cg (fun v : ℝ => ((2 : ℝ) • LinearMap.id : ℝ →ₗ[ℝ] ℝ) v) (fun y => ((2 : ℝ) • LinearMap.id : ℝ →ₗ[ℝ] ℝ).adjoint y) 4
      (some (1 : ℝ)) none = 8 / 5 := by
  obtain ⟨cg, h⟩ := cgSpec_exists (E := ℝ)
  refine ⟨cg, h, ?_⟩
  have h1 := (C61_normal_cg h ((2 : ℝ) • LinearMap.id : ℝ →ₗ[ℝ] ℝ) 4 (some 1) none (by simp [ridgeVal])).1
  have ha : ((2 : ℝ) • LinearMap.id : ℝ →ₗ[ℝ] ℝ).adjoint = (2 : ℝ) • LinearMap.id := by
    symm
    rw [LinearMap.eq_adjoint_iff]
    intro u v
    simp [RCLike.inner_apply]
    ring
  rw [ha] at h1 ⊢
  simp only [ridgeVal, Option.getD_some, one_smul] at h1
  set x := solveNormalCg cg (fun v : ℝ => ((2 : ℝ) • LinearMap.id : ℝ →ₗ[ℝ] ℝ) v) (fun v : ℝ => ((2 : ℝ) • LinearMap.id : ℝ →ₗ[ℝ] ℝ) v) 4
    (some (1 : ℝ)) none with hx
  clear_value x
  simp at h1
  linarith

end Jaxopt.LinSolve
