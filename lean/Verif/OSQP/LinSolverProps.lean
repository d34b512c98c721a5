import Verif.OSQP.LinSolver
import Verif.LinSolve.Props
import Mathlib.LinearAlgebra.Matrix.Notation

/-!
# Property C88: the linear solvers of OSQP solve the current system
-/

set_option autoImplicit false
set_option linter.unusedSectionVars false
set_option linter.unusedVariables false

namespace Jaxopt.OSQP.LinSolver

open Jaxopt.LinSolve Matrix

variable {K L : Type*} [Field K] [LinearOrder K] [IsStrictOrderedRing K] {rows cols : L → ℕ}

/-- Specification: the matrix of block `l` of the linear system of ADMM for the stepsize `rho`. -/
def sysMat (D : Data K rows cols) (rho : K) (l : L) : Matrix (Fin (cols l)) (Fin (cols l)) K :=
  fun i j => D.Q l i j + (if i = j then D.sigma else 0) + rho * ∑ k, D.A l k i * D.A l k j

/-- Specification: `x` solves the system with right-hand side `b`. -/
def Solves (D : Data K rows cols) (rho : K) (b x : VecTree K cols) : Prop := ∀ l, sysMat D rho l *ᵥ x l = b l

/-- Specification: the systems that a sequence of calls asks to solve, from the stepsize `rho`. -/
def requests : K → List (Call K cols) → List (K × VecTree K cols)
  | _, [] => []
  | _, .setRho rho :: cs => requests rho cs
  | rho, .solve b _ :: cs => (rho, b) :: requests rho cs

/-- The blocks of `Q` are positive semidefinite, and `sigma` is positive. -/
structure Convex (D : Data K rows cols) : Prop where
  psd : ∀ l v, 0 ≤ v ⬝ᵥ D.Q l *ᵥ v
  sigma : 0 < D.sigma

/-- All stepsizes of a sequence of calls are non-negative. -/
def RhosNonneg (cs : List (Call K cols)) : Prop := ∀ rho, Call.setRho rho ∈ cs → 0 ≤ rho

theorem sysMat_eq (D : Data K rows cols) (rho : K) (l : L) :
    D.Q l + D.sigma • (1 : Matrix (Fin (cols l)) (Fin (cols l)) K) + (rho • (D.A l).transpose) * D.A l = sysMat D rho l := by
  ext i j
  simp only [Matrix.add_apply, Matrix.smul_apply, Matrix.mul_apply, Matrix.transpose_apply, smul_eq_mul, sysMat, Matrix.one_apply]
  rw [Finset.mul_sum]
  congr 1
  · congr 1
    by_cases h : i = j <;> simp [h]
  · exact Finset.sum_congr rfl fun k _ => by ring

theorem sysMat_mulVec (D : Data K rows cols) (rho : K) (x : VecTree K cols) (l : L) : sysMat D rho l *ᵥ x l = Indirect.matvec D rho x l := by
  rw [← sysMat_eq, add_mulVec, add_mulVec, smul_mulVec, one_mulVec, smul_mul, smul_mulVec, ← mulVec_mulVec]
  rfl

theorem sysMat_pos {D : Data K rows cols} (h : Convex D) {rho : K} (hr : 0 ≤ rho) (l : L) {v : Fin (cols l) → K} (hv : v ≠ 0) :
    0 < v ⬝ᵥ sysMat D rho l *ᵥ v := by
  rw [← sysMat_eq, add_mulVec, add_mulVec, smul_mulVec, one_mulVec, smul_mul, smul_mulVec, ← mulVec_mulVec, dotProduct_add, dotProduct_add,
    dotProduct_smul, dotProduct_smul, dotProduct_mulVec v (D.A l).transpose, vecMul_transpose, smul_eq_mul, smul_eq_mul]
  have h1 := h.psd l v
  have h2 : 0 < v ⬝ᵥ v := by
    obtain ⟨i, hi⟩ := Function.ne_iff.mp hv
    exact Finset.sum_pos' (fun j _ => mul_self_nonneg _) ⟨i, Finset.mem_univ _, mul_self_pos.mpr hi⟩
  have h3 : 0 ≤ (D.A l *ᵥ v) ⬝ᵥ (D.A l *ᵥ v) := Finset.sum_nonneg fun j _ => mul_self_nonneg _
  have h4 := mul_pos h.sigma h2
  have h5 := mul_nonneg hr h3
  linarith

theorem sysMat_regular {D : Data K rows cols} (h : Convex D) {rho : K} (hr : 0 ≤ rho) (l : L) : IsUnit (sysMat D rho l).det := by
  apply det_isUnit_of_regular
  intro v hv
  by_contra hne
  have := sysMat_pos h hr l hne
  rw [hv, dotProduct_zero] at this
  exact lt_irrefl _ this

/-- The factorisation is exact on regular matrices. -/
def Lu.Exact (S : Lu K) : Prop := ∀ (n : ℕ) (M : Matrix (Fin n) (Fin n) K) (b : Fin n → K), IsUnit M.det → M *ᵥ S.solve (S.factor M) b = b

/-- A solution is the only one. -/
theorem solves_unique {D : Data K rows cols} (h : Convex D) {rho : K} (hr : 0 ≤ rho) {b x : VecTree K cols} (hx : Solves D rho b x) (y : VecTree K cols) :
    Solves D rho b y ↔ y = x := by
  constructor
  · intro hy
    funext l
    have h1 : sysMat D rho l *ᵥ (y l - x l) = 0 := by rw [mulVec_sub, hy l, hx l, sub_self]
    by_contra hne
    have := sysMat_pos h hr l (sub_ne_zero.mpr hne)
    rw [h1, dotProduct_zero] at this
    exact lt_irrefl _ this
  · rintro rfl; exact hx

/-- **C88** (LU).  Whatever the order of stepsize changes and solves, with an exact factorisation each call of `run` of the LU solver returns
the unique solution of the system for the last stepsize: the factors are never stale. -/
theorem C88_lu (S : Lu K) (hS : S.Exact) (D : Data K rows cols) (h : Convex D) (rho0 : K) (h0 : 0 ≤ rho0) (cs : List (Call K cols))
    (hcs : RhosNonneg cs) :
    List.Forall₂ (fun q x => ∀ y, Solves D q.1 q.2 y ↔ y = x) (requests rho0 cs) (S.exec D (S.initState D rho0) cs) := by
  induction cs generalizing rho0 with
  | nil => exact .nil
  | cons c cs ih =>
    have hcs' : RhosNonneg cs := fun r hr => hcs r (List.mem_cons_of_mem _ hr)
    cases c with
    | setRho rho => exact ih rho (hcs rho List.mem_cons_self) hcs'
    | solve b atol =>
      refine .cons ?_ (ih rho0 h0 hcs')
      apply solves_unique h h0
      intro l
      have e : (S.initState D rho0) l = S.factor (sysMat D rho0 l) := by
        rw [← sysMat_eq]; rfl
      show sysMat D rho0 l *ᵥ S.solve ((S.initState D rho0) l) (b l) = b l
      rw [e]
      exact hS _ _ _ (sysMat_regular h h0 l)

/-- The iterative routine is exact: if the preconditioner is a function and the operator is injective, a solution is returned; an exception
of the preconditioner is passed on. -/
structure Indirect.Exact (S : Indirect K cols) : Prop where
  ok : ∀ mv b x0 M atol, (∀ v, ∃ w, M v = .ok w) → (∃ x, mv x = b) → (∀ x y, mv x = mv y → x = y) → ∃ x, S.solve mv b x0 M atol = .ok x ∧ mv x = b
  raises : ∀ mv b x0 M atol, (∀ v, ∃ e, M v = .error e) → ∃ e, S.solve mv b x0 M atol = .error e

/-- What is kept about the state of the indirect solver. -/
def Indirect.Inv (S : Indirect K cols) (D : Data K rows cols) (rho : K) (st : IndirectState K cols) : Prop :=
  st.rho = rho ∧ (S.jacobi = true → st.precond = some (DenseLinearOperator.diag D.Q, DenseLinearOperator.columnsL2NormsSq D.A))

theorem Indirect.inv_init (S : Indirect K cols) (D : Data K rows cols) (hd : S.jacobi = true → D.dense = true) (x0 : VecTree K cols) (rho : K) :
    ∃ st, S.initState x0 D rho = .ok st ∧ S.Inv D rho st ∧ st.prevSol = x0 := by
  unfold Indirect.initState Indirect.initPrecond
  cases hj : S.jacobi with
  | false => exact ⟨_, rfl, ⟨rfl, fun h => by rw [hj] at h; cases h⟩, rfl⟩
  | true =>
    rw [if_neg (by decide), if_neg (by rw [hd hj]; decide)]
    exact ⟨_, rfl, ⟨rfl, fun _ => rfl⟩, rfl⟩

/-- **C88** (Jacobi).  On a single array the preconditioner divides by the diagonal of the current system matrix, which is positive. -/
theorem C88_jacobi (S : Indirect K cols) (D : Data K rows cols) (h : Convex D) (ha : D.isArray = true) (hj : S.jacobi = true) {rho : K}
    (hr : 0 ≤ rho) {st : IndirectState K cols} (hst : S.Inv D rho st) (x : VecTree K cols) :
    ∃ w, S.matvecPrecond D st x = .ok w ∧ ∀ l j, 0 < sysMat D rho l j j ∧ w l j * sysMat D rho l j j = x l j := by
  have e : ∀ l j, D.Q l j j + rho * ∑ i, D.A l i j ^ 2 + D.sigma = sysMat D rho l j j := fun l j => by
    simp only [sysMat, if_true]
    rw [add_right_comm]
    congr 2
    exact Finset.sum_congr rfl fun k _ => by ring
  have hp : ∀ l j, 0 < sysMat D rho l j j := fun l j => by
    have := sysMat_pos h hr l (v := Pi.single j 1) (by
      intro h0; have := congrFun h0 j; rw [Pi.single_eq_same] at this; exact one_ne_zero this)
    simpa using this
  unfold Indirect.matvecPrecond
  rw [if_neg (by rw [hj]; decide), hst.2 hj]
  dsimp only
  rw [if_pos ha]
  refine ⟨_, rfl, fun l j => ⟨hp l j, ?_⟩⟩
  show 1 / (D.Q l j j + st.rho * ∑ i, D.A l i j ^ 2 + D.sigma) * x l j * _ = _
  rw [hst.1, e]
  have := (hp l j).ne'
  field_simp

/-- The preconditioner raises on a container, whatever the vector. -/
theorem precond_raises (S : Indirect K cols) (D : Data K rows cols) (ha : D.isArray = false) (hj : S.jacobi = true) (st : IndirectState K cols)
    (x : VecTree K cols) : ∃ e, S.matvecPrecond D st x = .error e := by
  unfold Indirect.matvecPrecond
  rw [if_neg (by rw [hj]; decide)]
  cases st.precond with
  | none => exact ⟨_, rfl⟩
  | some p =>
    dsimp only
    rw [if_neg (by rw [ha]; decide)]
    exact ⟨_, rfl⟩

/-- **C88** (agreement).  With exact routines the indirect solver, without preconditioner or on a single array, returns on every sequence of calls
the same solutions as the LU solver. -/
theorem C88_agree (S : Indirect K cols) (hS : S.Exact) (T : Lu K) (hT : T.Exact) (D : Data K rows cols) (h : Convex D)
    (ha : S.jacobi = true → D.isArray = true ∧ D.dense = true) (x0 : VecTree K cols) (rho0 : K) (h0 : 0 ≤ rho0) (cs : List (Call K cols))
    (hcs : RhosNonneg cs) :
    (S.initState x0 D rho0).bind (fun st => S.exec D st cs) = .ok (T.exec D (T.initState D rho0) cs) := by
  obtain ⟨st, h1, h2, h3⟩ := S.inv_init D (fun hj => (ha hj).2) x0 rho0
  rw [h1]
  show S.exec D st cs = _
  clear h1 h3
  induction cs generalizing rho0 st with
  | nil => rfl
  | cons c cs ih =>
    have hcs' : RhosNonneg cs := fun r hr => hcs r (List.mem_cons_of_mem _ hr)
    cases c with
    | setRho rho => exact ih rho (hcs rho List.mem_cons_self) hcs' _ ⟨rfl, h2.2⟩
    | solve b atol =>
      have hlu := C88_lu T hT D h rho0 h0 [.solve b atol] (fun r hr => by simp at hr)
      have hlu' : Solves D rho0 b (T.run b (T.initState D rho0)).1 := by
        have := (List.forall₂_cons.mp hlu).1
        exact (this _).mpr rfl
      have hmv : ∀ x, Solves D rho0 b x ↔ Indirect.matvec D rho0 x = b := fun x => by
        constructor
        · intro hx; funext l; rw [← sysMat_mulVec]; exact hx l
        · intro hx l; rw [sysMat_mulVec, hx]
      have hinj : ∀ x y, Indirect.matvec D rho0 x = Indirect.matvec D rho0 y → x = y := fun x y hxy => by
        have hy : Solves D rho0 (Indirect.matvec D rho0 y) y := fun l => sysMat_mulVec D rho0 y l
        have hx : Solves D rho0 (Indirect.matvec D rho0 y) x := fun l => by rw [sysMat_mulVec, hxy]
        exact (solves_unique h h0 hy x).mp hx
      have hM : ∀ v, ∃ w, S.matvecPrecond D st v = .ok w := fun v => by
        by_cases hj : S.jacobi = true
        · obtain ⟨w, hw, _⟩ := C88_jacobi S D h (ha hj).1 hj h0 h2 v
          exact ⟨w, hw⟩
        · unfold Indirect.matvecPrecond
          rw [if_pos (by simpa using hj)]
          exact ⟨_, rfl⟩
      obtain ⟨x, hx1, hx2⟩ := hS.ok (Indirect.matvec D rho0) b st.prevSol (S.matvecPrecond D st) atol hM
        ⟨_, (hmv _).mp hlu'⟩ hinj
      have hxe : x = (T.run b (T.initState D rho0)).1 := (solves_unique h h0 hlu' x).mp ((hmv x).mpr hx2)
      have hrun : S.run D b atol st = .ok (x, ⟨x, st.rho, st.precond⟩) := by
        unfold Indirect.run
        rw [h2.1, hx1]; rfl
      have hih := ih rho0 h0 hcs' ⟨x, st.rho, st.precond⟩ h2
      show (S.run D b atol st).bind _ = _
      rw [hrun]
      show (S.exec D _ cs).map _ = _
      rw [hih, hxe]
      rfl

/-- **C88** (the preconditioner on containers).  The documentation offers `cg+jacobi` for pytrees of matrices, but on a pytree that is not a single
array every solve raises. -/
theorem C88_jacobi_container_false (S : Indirect K cols) (hS : S.Exact) (D : Data K rows cols) (ha : D.isArray = false) (hj : S.jacobi = true)
    (st : IndirectState K cols) (b : VecTree K cols) (atol : K) (cs : List (Call K cols)) :
    ∃ e, S.exec D st (.solve b atol :: cs) = .error e := by
  obtain ⟨e, he⟩ := hS.raises (Indirect.matvec D st.rho) b st.prevSol (S.matvecPrecond D st) atol (precond_raises S D ha hj st)
  refine ⟨e, ?_⟩
  show (S.run D b atol st).bind _ = _
  unfold Indirect.run
  rw [he]; rfl

/-- The product that the model of `BoxOSQP` (`Verif.OSQP.Box`) passes to its linear solver is that of the indirect solver on a single array. -/
theorem kktMat_eq {n m : ℕ} (S : BoxOSQP K n m) (rho : K) (x : Fin n → K) :
    S.kktMat rho x = Indirect.matvec (L := Unit) (rows := fun _ => m) (cols := fun _ => n) ⟨fun _ => S.Q, fun _ => S.A, S.sigma, true, true⟩ rho
      (fun _ => x) () := rfl

/-! ### Examples -/

/-- A factorisation that is exact: the inverse. -/
noncomputable def exLu : Lu ℝ where
  Fact := fun n => Matrix (Fin n) (Fin n) ℝ
  factor := fun M => M⁻¹
  solve := fun F b => F *ᵥ b

theorem exLu_exact : exLu.Exact := fun n M b h => by
  show M *ᵥ (M⁻¹ *ᵥ b) = b
  rw [mulVec_mulVec, mul_nonsing_inv M h, one_mulVec]

open Classical in
/-- An indirect solver that is exact: it calls the preconditioner once, and returns some solution. -/
noncomputable def exIndirect {L : Type} (cols : L → ℕ) (jacobi : Bool) : Indirect ℝ cols where
  solve := fun mv b x0 M _ => (M b).map fun _ => if h : ∃ x, mv x = b then h.choose else x0
  jacobi := jacobi

theorem exIndirect_exact {L : Type} (cols : L → ℕ) (jacobi : Bool) : (exIndirect cols jacobi).Exact where
  ok := fun mv b x0 M atol hM hb _ => by
    obtain ⟨w, hw⟩ := hM b
    refine ⟨hb.choose, ?_, hb.choose_spec⟩
    simp only [exIndirect, hw, Except.map, dif_pos hb]
  raises := fun mv b x0 M atol hM => by
    obtain ⟨e, he⟩ := hM b
    exact ⟨e, by simp only [exIndirect, he, Except.map]⟩

/-- Two blocks: `Q = diag(2, 3)` with one constraint `x0 + x1`, and `Q = (5)` with two constraints; the tree is a tuple. -/
noncomputable def exData : Data ℝ (L := Bool) (fun l => if l then 1 else 2) (fun l => if l then 2 else 1) where
  Q := fun l => match l with
    | true => !![2, 0; 0, 3]
    | false => !![5]
  A := fun l => match l with
    | true => !![1, 1]
    | false => !![1; -2]
  sigma := 1 / 1000000
  isArray := false
  dense := true

theorem exData_convex : Convex exData where
  psd := fun l v => by
    cases l with
    | true =>
      have e : v ⬝ᵥ exData.Q true *ᵥ v = 2 * (v 0) ^ 2 + 3 * (v 1) ^ 2 := by
        show v ⬝ᵥ (!![2, 0; 0, 3] : Matrix (Fin 2) (Fin 2) ℝ) *ᵥ v = _
        simp [dotProduct, mulVec, Fin.sum_univ_two]
        ring
      rw [e]; positivity
    | false =>
      have e : v ⬝ᵥ exData.Q false *ᵥ v = 5 * (v 0) ^ 2 := by
        show v ⬝ᵥ (!![5] : Matrix (Fin 1) (Fin 1) ℝ) *ᵥ v = _
        simp [dotProduct, mulVec]
        ring
      rw [e]; positivity
  sigma := by show (0 : ℝ) < 1 / 1000000; norm_num

/-- On the two blocks both solvers return the same solutions, after a change of stepsize too ... -/
example (b b' : VecTree ℝ fun l : Bool => if l then 2 else 1) :
    ((exIndirect _ false).initState (fun _ _ => 0) exData (1 / 10)).bind
        (fun st => (exIndirect _ false).exec exData st [.solve b 0, .setRho 7, .solve b' 0]) =
      .ok (exLu.exec exData (exLu.initState exData (1 / 10)) [.solve b 0, .setRho 7, .solve b' 0]) :=
  C88_agree _ (exIndirect_exact _ _) _ exLu_exact _ exData_convex (fun h => by cases h) _ _ (by norm_num) _
    (fun r hr => by simp at hr; rw [hr]; norm_num)

/-- ... but with the preconditioner the solver raises. -/
example (st : IndirectState ℝ _) (b : VecTree ℝ fun l : Bool => if l then 2 else 1) :
    ∃ e, (exIndirect _ true).exec exData st [.solve b 0] = .error e :=
  C88_jacobi_container_false _ (exIndirect_exact _ _) _ rfl rfl _ _ _ _

end Jaxopt.OSQP.LinSolver
