import Verif.OSQP.BoxProps
import Mathlib.Algebra.Order.BigOperators.Ring.Finset
import Mathlib.Algebra.BigOperators.Field
import Mathlib.Algebra.Order.Archimedean.Basic
import Mathlib.Tactic.Positivity
import Mathlib.Tactic.Ring

/-!
# Property C78: the iterations of `BoxOSQP` converge

With an exact linear solver, every ADMM iteration of `BoxOSQP` (osqp.py lines 634-663) decreases a weighted squared distance to every KKT
point, by a multiple of the squared residuals.  With a constant stepsize (`rho_min = rho_max = rho_start`) this bounds the number of
iterations until the run reports SOLVED.
-/

set_option autoImplicit false
set_option linter.unusedSectionVars false
set_option linter.unusedVariables false

open Finset Matrix

namespace Jaxopt.OSQP.BoxOSQP

variable {K : Type*} [Field K] [LinearOrder K] [IsStrictOrderedRing K] {n m : ℕ}

/-! ## Specification -/

/-- `y` is normal to the box at `z`. -/
def Normal (S : BoxOSQP K n m) (z y : Fin m → K) : Prop := S.InBox z ∧ ∀ v, S.InBox v → (v - z) ⬝ᵥ y ≤ 0

/-- The KKT conditions of the quadratic program: `x` feasible, `y` normal to the box at `Ax`, stationarity. -/
def IsKkt (S : BoxOSQP K n m) (x : Fin n → K) (y : Fin m → K) : Prop := S.Normal (S.A.mulVec x) y ∧ S.dualRes x y = 0

/-- The squared distance that the iterations decrease: `sigma ‖x - x'‖² + rho ‖(z + y/rho) - (Ax' + y'/rho)‖²`. -/
def dist (S : BoxOSQP K n m) (rho : K) (p : Params K n m) (x : Fin n → K) (y : Fin m → K) : K :=
  S.sigma * ((p.x - x) ⬝ᵥ (p.x - x)) +
    rho * (((p.z - S.A.mulVec x) + (1 / rho) • (p.y - y)) ⬝ᵥ ((p.z - S.A.mulVec x) + (1 / rho) • (p.y - y)))

/-- The exactness of the linear solver for the stepsize `rho`. -/
def Exact (S : BoxOSQP K n m) (rho : K) : Prop := ∀ b prev tol, S.kktMat rho (S.solve (S.kktMat rho) b prev tol) = b

/-- KKT points of a convex program are its minimisers. -/
theorem kkt_optimal (S : BoxOSQP K n m) (hQ : S.PSD) {x : Fin n → K} {y : Fin m → K} (h : S.IsKkt x y) :
    S.Feasible x ∧ ∀ x', S.Feasible x' → S.obj x ≤ S.obj x' := by
  refine ⟨h.1.1, fun x' hx' => ?_⟩
  have e : x' = x + (x' - x) := by abel
  have h1 := S.obj_expand hQ.1 x (x' - x)
  rw [← e] at h1
  have h2 := hQ.2 (x' - x)
  have h3 := h.1.2 _ hx'
  have h4 : S.Q.mulVec x + S.c = -(S.A.transpose.mulVec y) := by
    have := h.2; unfold dualRes at this; exact eq_neg_of_add_eq_zero_left this
  have h5 : (x' - x) ⬝ᵥ S.A.transpose.mulVec y = (S.A.mulVec x' - S.A.mulVec x) ⬝ᵥ y := by
    rw [← Matrix.mulVec_sub, Matrix.mulVec_transpose, dotProduct_comm, ← Matrix.dotProduct_mulVec, dotProduct_comm]
  rw [h4, dotProduct_neg, h5] at h1
  linarith

/-! ## One iteration -/

theorem good_isNormal (S : BoxOSQP K n m) {q : Params K n m} (hq : S.Good q) : S.Normal q.z q.y :=
  ⟨hq.box, fun v hv => S.good_normal hq hv⟩

/-- The equation that the solution of the linear system satisfies. -/
theorem solve_eq (S : BoxOSQP K n m) {p : Params K n m} {rho : K} {st : State K n m} (hex : S.Exact rho) :
    let xb := S.solveLinear p rho rho st
    (S.Q.mulVec xb + S.c) + S.sigma • (xb - p.x) + S.A.transpose.mulVec (p.y + rho • (S.A.mulVec xb - p.z)) = 0 := by
  intro xb
  have h : S.kktMat rho xb = (S.sigma • p.x - S.c) - S.A.transpose.mulVec (p.y + (-rho) • p.z) := hex _ _ _
  rw [kktMat] at h
  rw [Matrix.mulVec_add, Matrix.mulVec_smul] at h
  rw [Matrix.mulVec_add, Matrix.mulVec_smul, Matrix.mulVec_sub]
  funext j
  have := congrFun h j
  simp only [Pi.add_apply, Pi.smul_apply, Pi.sub_apply, smul_eq_mul, Pi.zero_apply] at this ⊢
  linear_combination this

/-- **C78, one iteration**: for positive semidefinite `Q`, every stepsize `rho > 0` and relaxation `momentum`, the distance to every KKT
point decreases by `momentum (2 - momentum)` times `sigma ‖x̄ - x‖² + rho ‖Ax̄ - z‖²`. -/
theorem C78_step (S : BoxOSQP K n m) (hQ : S.PSD) {p : Params K n m} (hp : S.Normal p.z p.y) {rho : K} (hr : 0 < rho) {st : State K n m}
    (hex : S.Exact rho) (hm : 0 ≤ S.momentum) {x : Fin n → K} {y : Fin m → K} (hk : S.IsKkt x y) :
    let r := S.admmStep p rho rho st
    let xb := S.solveLinear p rho rho st
    S.dist rho (fullKKT r.1 r.2.1 r.2.2.1) x y ≤ S.dist rho p x y - S.momentum * (2 - S.momentum) *
      (S.sigma * ((xb - p.x) ⬝ᵥ (xb - p.x)) + rho * ((S.A.mulVec xb - p.z) ⬝ᵥ (S.A.mulVec xb - p.z))) := by
  intro r xb
  set a := xb - p.x with ha
  set b := S.A.mulVec xb - p.z with hb
  set X := p.x - x with hX
  set Z := p.z - S.A.mulVec x with hZ
  set Y := p.y - y with hY
  set al := S.momentum
  have hrx : (fullKKT r.1 r.2.1 r.2.2.1).x - x = X + al • a := by
    change p.x + al • (xb - p.x) - x = _
    rw [hX, ha]; abel
  have hrz : ((fullKKT r.1 r.2.1 r.2.2.1).z - S.A.mulVec x) + (1 / rho) • ((fullKKT r.1 r.2.1 r.2.2.1).y - y) =
      (Z + (1 / rho) • Y) + al • b := by
    change (r.2.1 - S.A.mulVec x) + (1 / rho) • (p.y + rho • ((p.z + al • (S.A.mulVec xb - p.z)) - r.2.1) - y) = _
    funext i
    simp only [Pi.add_apply, Pi.smul_apply, Pi.sub_apply, smul_eq_mul, hZ, hY, hb]
    field_simp
    ring
  unfold dist
  rw [hrx, hrz]
  -- the key inequality
  have heq : (S.Q.mulVec xb + S.c) + S.sigma • a + S.A.transpose.mulVec (p.y + rho • b) = 0 := S.solve_eq (p := p) (rho := rho) (st := st) hex
  have hdual := hk.2
  unfold dualRes at hdual
  have hdiff : S.Q.mulVec (X + a) + S.sigma • a + S.A.transpose.mulVec (Y + rho • b) = 0 := by
    have e1 : X + a = xb - x := by rw [hX, ha]; abel
    have e2 : Y + rho • b = (p.y + rho • b) - y := by rw [hY]; abel
    rw [e1, e2, Matrix.mulVec_sub, Matrix.mulVec_sub]
    funext j
    have h1 := congrFun heq j
    have h2 := congrFun hdual j
    simp only [Pi.add_apply, Pi.smul_apply, Pi.sub_apply, smul_eq_mul, Pi.zero_apply] at h1 h2 ⊢
    linear_combination h1 - h2
  have hdot : (X + a) ⬝ᵥ (S.Q.mulVec (X + a) + S.sigma • a + S.A.transpose.mulVec (Y + rho • b)) = 0 := by rw [hdiff, dotProduct_zero]
  have hA : (X + a) ⬝ᵥ S.A.transpose.mulVec (Y + rho • b) = (b + Z) ⬝ᵥ (Y + rho • b) := by
    rw [Matrix.mulVec_transpose, dotProduct_comm, ← Matrix.dotProduct_mulVec, dotProduct_comm]
    have : S.A.mulVec (X + a) = b + Z := by
      have e1 : X + a = xb - x := by rw [hX, ha]; abel
      rw [e1, Matrix.mulVec_sub, hb, hZ]; abel
    rw [this]
  rw [dotProduct_add, dotProduct_add, hA] at hdot
  have hpsd := hQ.2 (X + a)
  have hmono : 0 ≤ Z ⬝ᵥ Y := by
    have h1 := hp.2 _ hk.1.1
    have h2 := hk.1.2 _ hp.1
    have e : Z ⬝ᵥ Y = -((S.A.mulVec x - p.z) ⬝ᵥ p.y) - (p.z - S.A.mulVec x) ⬝ᵥ y := by
      rw [hZ, hY, dotProduct_sub, ← neg_dotProduct, neg_sub]
    rw [e]; linarith
  have hkey : S.sigma * (a ⬝ᵥ X) + rho * (b ⬝ᵥ Z) + b ⬝ᵥ Y + S.sigma * (a ⬝ᵥ a) + rho * (b ⬝ᵥ b) ≤ 0 := by
    have e1 : (X + a) ⬝ᵥ (S.sigma • a) = S.sigma * (a ⬝ᵥ X) + S.sigma * (a ⬝ᵥ a) := by
      rw [dotProduct_smul, add_dotProduct, dotProduct_comm X a, smul_eq_mul]; ring
    have e2 : (b + Z) ⬝ᵥ (Y + rho • b) = b ⬝ᵥ Y + rho * (b ⬝ᵥ b) + (Z ⬝ᵥ Y + rho * (b ⬝ᵥ Z)) := by
      rw [add_dotProduct, dotProduct_add, dotProduct_add, dotProduct_smul, dotProduct_smul, dotProduct_comm Z b, smul_eq_mul, smul_eq_mul]
    rw [e1, e2] at hdot
    linarith
  have e1 : (X + al • a) ⬝ᵥ (X + al • a) = X ⬝ᵥ X + 2 * al * (a ⬝ᵥ X) + al ^ 2 * (a ⬝ᵥ a) := by
    simp only [add_dotProduct, dotProduct_add, smul_dotProduct, dotProduct_smul, smul_eq_mul, dotProduct_comm X a]; ring
  have e2 : ∀ W : Fin m → K, (W + al • b) ⬝ᵥ (W + al • b) = W ⬝ᵥ W + 2 * al * (b ⬝ᵥ W) + al ^ 2 * (b ⬝ᵥ b) := by
    intro W
    simp only [add_dotProduct, dotProduct_add, smul_dotProduct, dotProduct_smul, smul_eq_mul, dotProduct_comm W b]; ring
  have e3 : rho * (b ⬝ᵥ (Z + (1 / rho) • Y)) = rho * (b ⬝ᵥ Z) + b ⬝ᵥ Y := by
    rw [dotProduct_add, dotProduct_smul, smul_eq_mul]; field_simp
  rw [e1, e2]
  generalize (Z + (1 / rho) • Y) ⬝ᵥ (Z + (1 / rho) • Y) = w at *
  have hkey2 := mul_le_mul_of_nonneg_left hkey hm
  generalize b ⬝ᵥ (Z + (1 / rho) • Y) = w2 at *
  nlinarith

/-- The quantity that an iteration decreases the distance by. -/
def progress (S : BoxOSQP K n m) (rho : K) (p : Params K n m) (xb : Fin n → K) : K :=
  S.sigma * ((xb - p.x) ⬝ᵥ (xb - p.x)) + rho * ((S.A.mulVec xb - p.z) ⬝ᵥ (S.A.mulVec xb - p.z))

/-- A weighted Cauchy-Schwarz inequality. -/
theorem cauchy_weighted {s r : K} (hs : 0 < s) (hr : 0 < r) (u v : Fin n → K) (u' v' : Fin m → K) :
    (∑ k, u k * v k + ∑ i, u' i * v' i) ^ 2 ≤ (∑ k, u k ^ 2 / s + ∑ i, u' i ^ 2 / r) * (s * (v ⬝ᵥ v) + r * (v' ⬝ᵥ v')) := by
  have h := Finset.sum_sq_le_sum_mul_sum_of_sq_eq_mul (Finset.univ : Finset (Fin n ⊕ Fin m))
    (r := Sum.elim (fun k => u k * v k) (fun i => u' i * v' i))
    (f := Sum.elim (fun k => u k ^ 2 / s) (fun i => u' i ^ 2 / r))
    (g := Sum.elim (fun k => s * (v k * v k)) (fun i => r * (v' i * v' i)))
    (by rintro (k | i) _ <;> simp only [Sum.elim_inl, Sum.elim_inr] <;> positivity)
    (by
      rintro (k | i) _ <;> simp only [Sum.elim_inl, Sum.elim_inr]
      · exact mul_nonneg hs.le (mul_self_nonneg _)
      · exact mul_nonneg hr.le (mul_self_nonneg _))
    (by
      rintro (k | i) _ <;> simp only [Sum.elim_inl, Sum.elim_inr]
      · field_simp
      · field_simp)
  simp only [Fintype.sum_sum_type, Sum.elim_inl, Sum.elim_inr, ← Finset.mul_sum] at h
  exact h

/-- **C78, residuals**: the residuals of the parameters before an iteration are controlled by what it decreases the distance by. -/
theorem C78_residual (S : BoxOSQP K n m) {p : Params K n m} {rho : K} (hr : 0 < rho) (hs : 0 < S.sigma) {st : State K n m}
    (hex : S.Exact rho) :
    let xb := S.solveLinear p rho rho st
    (∀ i, (S.primalRes p.x p.z i) ^ 2 ≤ (∑ j, S.A i j ^ 2 / S.sigma + 1 / rho) * S.progress rho p xb) ∧
    ∀ j, (S.dualRes p.x p.y j) ^ 2 ≤ (∑ k, (S.Q j k + if j = k then S.sigma else 0) ^ 2 / S.sigma + rho * ∑ i, S.A i j ^ 2) *
      S.progress rho p xb := by
  intro xb
  set a := xb - p.x with ha
  set b := S.A.mulVec xb - p.z with hb
  have hprog : S.progress rho p xb = S.sigma * (a ⬝ᵥ a) + rho * (b ⬝ᵥ b) := rfl
  rw [hprog]
  constructor
  · intro i
    have h := cauchy_weighted hs hr (fun j => -S.A i j) a (fun k => if k = i then (1 : K) else 0) b
    have e1 : S.primalRes p.x p.z i = ∑ j, -S.A i j * a j + ∑ k, (if k = i then (1 : K) else 0) * b k := by
      have : ∑ j, -S.A i j * a j = -(S.A.mulVec a i) := by
        simp only [Matrix.mulVec, dotProduct, neg_mul, Finset.sum_neg_distrib]
      rw [this]
      simp only [ite_mul, one_mul, zero_mul, Finset.sum_ite_eq', Finset.mem_univ, if_true]
      rw [ha, Matrix.mulVec_sub, hb]
      simp only [primalRes, Pi.sub_apply]; ring
    have e2 : ∑ k : Fin m, (if k = i then (1 : K) else 0) ^ 2 / rho = 1 / rho := by
      simp [ite_pow, ite_div]
    rw [e2] at h
    simp only [neg_sq] at h
    rw [e1]
    exact h
  · intro j
    have h := cauchy_weighted hs hr (fun k => -(S.Q j k + if j = k then S.sigma else 0)) a (fun i => -(rho * S.A i j)) b
    have heq : (S.Q.mulVec xb + S.c) + S.sigma • a + S.A.transpose.mulVec (p.y + rho • b) = 0 := S.solve_eq (p := p) (rho := rho) (st := st) hex
    have e1 : S.dualRes p.x p.y j = ∑ k, -(S.Q j k + if j = k then S.sigma else 0) * a k + ∑ i, -(rho * S.A i j) * b i := by
      have f1 : ∑ k, -(S.Q j k + if j = k then S.sigma else 0) * a k = -(S.Q.mulVec a j) - S.sigma * a j := by
        simp only [Matrix.mulVec, dotProduct, neg_mul, add_mul, Finset.sum_neg_distrib, Finset.sum_add_distrib, ite_mul, zero_mul,
          Finset.sum_ite_eq, Finset.mem_univ, if_true]
        ring
      have f2 : ∑ i, -(rho * S.A i j) * b i = -(rho * S.A.transpose.mulVec b j) := by
        simp only [Matrix.mulVec, dotProduct, Matrix.transpose_apply, neg_mul, Finset.sum_neg_distrib, Finset.mul_sum, mul_assoc]
      rw [f1, f2]
      have h1 := congrFun heq j
      have h2 : S.Q.mulVec xb = S.Q.mulVec a + S.Q.mulVec p.x := by rw [ha, Matrix.mulVec_sub]; abel
      rw [h2, Matrix.mulVec_add, Matrix.mulVec_smul] at h1
      simp only [dualRes, Pi.add_apply, Pi.smul_apply, smul_eq_mul, Pi.zero_apply] at h1 ⊢
      linear_combination h1
    have e2 : ∑ i, (-(rho * S.A i j)) ^ 2 / rho = rho * ∑ i, S.A i j ^ 2 := by
      rw [Finset.mul_sum]
      refine Finset.sum_congr rfl fun i _ => ?_
      field_simp
    rw [e2] at h
    simp only [neg_sq] at h
    rw [e1]
    exact h

/-- A constant that bounds both factors of `C78_residual`. -/
def ResConst (S : BoxOSQP K n m) (rho C : K) : Prop :=
  (∀ i, ∑ j, S.A i j ^ 2 / S.sigma + 1 / rho ≤ C) ∧
  ∀ j, ∑ k, (S.Q j k + if j = k then S.sigma else 0) ^ 2 / S.sigma + rho * ∑ i, S.A i j ^ 2 ≤ C

theorem progress_nonneg (S : BoxOSQP K n m) {rho : K} (hr : 0 < rho) (hs : 0 < S.sigma) (p : Params K n m) (xb : Fin n → K) :
    0 ≤ S.progress rho p xb := by
  unfold progress
  have h1 : ∀ {k : ℕ} (v : Fin k → K), 0 ≤ v ⬝ᵥ v := fun v => Finset.sum_nonneg fun i _ => mul_self_nonneg _
  have := mul_nonneg hs.le (h1 (xb - p.x))
  have := mul_nonneg hr.le (h1 (S.A.mulVec xb - p.z))
  linarith

/-- If the progress of an iteration is small, the parameters before it pass the termination test. -/
theorem small_progress (S : BoxOSQP K n m) {p : Params K n m} {rho C : K} (hr : 0 < rho) (hs : 0 < S.sigma) {st : State K n m}
    (hex : S.Exact rho) (hC : S.ResConst rho C) (htol : 0 ≤ S.tol)
    (h : C * S.progress rho p (S.solveLinear p rho rho st) ≤ S.tol ^ 2) :
    max (infNorm (S.primalRes p.x p.z)) (infNorm (S.dualRes p.x p.y)) ≤ S.tol := by
  obtain ⟨h1, h2⟩ := S.C78_residual (p := p) hr hs (st := st) hex
  have hn := S.progress_nonneg hr hs p (S.solveLinear p rho rho st)
  refine max_le (infNorm_le htol fun i => ?_) (infNorm_le htol fun j => ?_)
  · exact abs_le_of_sq_le_sq ((h1 i).trans ((mul_le_mul_of_nonneg_right (hC.1 i) hn).trans h)) htol
  · exact abs_le_of_sq_le_sq ((h2 j).trans ((mul_le_mul_of_nonneg_right (hC.2 j) hn).trans h)) htol

/-! ## Runs -/

theorem update_iter (S : BoxOSQP K n m) {p r : Option (Params K n m) × State K n m} (hu : S.update p = .ok r) :
    r.2.iterNum = p.2.iterNum + 1 := by
  unfold update at hu
  split at hu
  · exact (S.updateFin_ok hu).2.1
  · unfold updateNan at hu
    simp only at hu
    cases hraise : S.raiseIfInfeasible (if p.2.iterNum % S.terminationCheckFrequency = 0 then ((.nan : Ext K), Status.unsolved)
      else (p.2.error, p.2.status)).2 with
    | error e => rw [hraise] at hu; cases hu
    | ok e => rw [hraise] at hu; cases hu; rfl

theorem loop_count (S : BoxOSQP K n m) (k : ℕ) {p r : Option (Params K n m) × State K n m} (h : S.loop k p = .ok r) :
    S.cont r = false ∨ r.2.iterNum = p.2.iterNum + k := by
  induction k generalizing p with
  | zero => cases h; exact Or.inr rfl
  | succ k ih =>
    unfold loop at h
    by_cases hc : S.cont p = true
    · rw [if_pos hc] at h
      cases hu : S.update p with
      | error e => rw [hu] at h; cases h
      | ok q =>
        rw [hu] at h
        rcases ih h with h1 | h1
        · exact Or.inl h1
        · exact Or.inr (by rw [h1, S.update_iter hu]; omega)
    · rw [if_neg hc] at h; cases h; exact Or.inl (by simpa using hc)

theorem run_count (S : BoxOSQP K n m) {init : Option (Params K n m)} {r : Option (Params K n m) × State K n m} (hmax : 1 ≤ S.maxiter)
    (h : S.run init = .ok r) : S.cont r = false ∨ r.2.iterNum = S.maxiter := by
  unfold run at h
  simp only at h
  cases hu : S.update (some (init.getD S.initParams), S.initState (init.getD S.initParams)) with
  | error e => rw [hu] at h; cases h
  | ok q =>
    rw [hu] at h
    rcases S.loop_count _ h with h1 | h1
    · exact Or.inl h1
    · refine Or.inr ?_
      rw [h1, S.update_iter hu]
      change 0 + 1 + (S.maxiter - 1) = S.maxiter
      omega

/-- The number of tests that have failed, and after which another iteration was done, when `k` iterations are done: the tests are those
of the iterations `1, f + 1, 2f + 1, …`. -/
def failedTests (f k : ℕ) : ℕ := (k + f - 2) / f

theorem failedTests_succ {f k : ℕ} (hf : 0 < f) (hk : 1 ≤ k) :
    failedTests f (k + 1) = failedTests f k + if (k - 1) % f = 0 then 1 else 0 := by
  unfold failedTests
  obtain ⟨j, rfl⟩ : ∃ j, k = j + 1 := ⟨k - 1, by omega⟩
  rw [show j + 1 + 1 + f - 2 = (j + f - 1) + 1 by omega, show j + 1 + f - 2 = j + f - 1 by omega, Nat.succ_div]
  have : f ∣ j + f - 1 + 1 ↔ (j + 1 - 1) % f = 0 := by
    rw [show j + f - 1 + 1 = j + f by omega, Nat.add_sub_cancel, Nat.dvd_add_self_right, Nat.dvd_iff_mod_eq_zero]
  simp only [this]

theorem dist_nonneg (S : BoxOSQP K n m) {rho : K} (hr : 0 < rho) (hs : 0 < S.sigma) (p : Params K n m) (x : Fin n → K) (y : Fin m → K) :
    0 ≤ S.dist rho p x y := by
  unfold dist
  have h1 : ∀ {k : ℕ} (v : Fin k → K), 0 ≤ v ⬝ᵥ v := fun v => Finset.sum_nonneg fun i _ => mul_self_nonneg _
  have := mul_nonneg hs.le (h1 (p.x - x))
  have := mul_nonneg hr.le (h1 ((p.z - S.A.mulVec x) + (1 / rho) • (p.y - y)))
  linarith

/-- The assumptions of the convergence theorem. -/
structure Conv (S : BoxOSQP K n m) (rho C : K) : Prop where
  psd : S.PSD
  bounds : S.BoundsOk
  rhoPos : 0 < rho
  rhoStart : S.rhoStart = rho
  rhoMin : S.rhoMin = rho
  rhoMax : S.rhoMax = rho
  sigma : 0 < S.sigma
  momentum : 0 < S.momentum
  momentum' : S.momentum < 2
  tol : 0 < S.tol
  freq : 0 < S.terminationCheckFrequency
  noCheck : S.checkInfeasability = false
  exact : S.Exact rho
  cPos : 0 < C
  const : S.ResConst rho C

theorem Conv.attr {S : BoxOSQP K n m} {rho C : K} (h : S.Conv rho C) : S.Attr :=
  ⟨h.bounds, by rw [h.rhoMin]; exact h.rhoPos, by rw [h.rhoMin, h.rhoMax], by rw [h.rhoStart]; exact h.rhoPos⟩

/-- The decrease that a failed test is worth. -/
def gain (S : BoxOSQP K n m) (C : K) : K := S.momentum * (2 - S.momentum) * (S.tol ^ 2 / C)

/-- What holds of a state of a run that is neither solved nor NaN. -/
def Running (S : BoxOSQP K n m) (rho C d0 : K) (x : Fin n → K) (y : Fin m → K) (r : Option (Params K n m) × State K n m) : Prop :=
  1 ≤ r.2.iterNum ∧ S.cont r = true ∧ ∃ q, r.1 = some q ∧ r.2.rhoBar = .fin rho ∧ r.2.solverRho = .fin rho ∧ S.Normal q.z q.y ∧
    S.dist rho q x y + S.gain C * (failedTests S.terminationCheckFrequency r.2.iterNum : ℕ) ≤ d0 ∧
    ((r.2.iterNum - 1) % S.terminationCheckFrequency = 0 →
      S.tol < max (infNorm (S.primalRes q.x q.z)) (infNorm (S.dualRes q.x q.y)))

theorem running_step (S : BoxOSQP K n m) {rho C d0 : K} (hS : S.Conv rho C) {x : Fin n → K} {y : Fin m → K} (hk : S.IsKkt x y)
    {q : Params K n m} {st : State K n m} {r : Option (Params K n m) × State K n m} (hst : st.rhoBar = .fin rho) (hst' : st.solverRho = .fin rho)
    (hn : S.Normal q.z q.y) (hu : S.update (some q, st) = .ok r)
    (hcont : st.iterNum % S.terminationCheckFrequency ≠ 0 → S.cont (some q, st) = true)
    (hd : S.dist rho q x y + S.gain C * (failedTests S.terminationCheckFrequency st.iterNum : ℕ) ≤ d0)
    (hres : 1 ≤ st.iterNum → (st.iterNum - 1) % S.terminationCheckFrequency = 0 →
      S.tol < max (infNorm (S.primalRes q.x q.z)) (infNorm (S.dualRes q.x q.y))) :
    r.2.rhoBar = .nan ∨ r.2.status = .solved ∨ S.Running rho C d0 x y r := by
  have hiter := S.update_iter hu
  simp only [update, hst, hst'] at hu
  obtain ⟨e1, -, -, -, -, e6, e7, e8, e9⟩ := S.updateFin_ok hu
  set a := S.admmStep q rho rho st with ha
  by_cases hnan : r.2.rhoBar = .nan
  · exact Or.inl hnan
  right
  have hrho : r.2.rhoBar = .fin rho ∧ r.2.solverRho = .fin rho := by
    by_cases h0 : st.iterNum % S.stepsizeUpdatesFrequency = 0
    · obtain ⟨f1, f2⟩ := e6 h0
      rw [f2]
      have hfin : ∀ e : Ext K, S.updateStepsize rho (S.primalRes a.1 a.2.1) (S.dualRes a.1 a.2.2.1) a.1 a.2.2.1 = e →
          e = .nan ∨ ∃ t, e = .fin t := by
        intro e he
        rw [← he]
        unfold updateStepsize
        simp only
        split
        · exact Or.inr ⟨_, rfl⟩
        · exact Or.inr ⟨_, rfl⟩
        · exact Or.inr ⟨_, rfl⟩
        · exact Or.inl rfl
      rcases hfin _ f1.symm with h | ⟨t, ht⟩
      · exact absurd h hnan
      · rw [ht] at f1
        have := S.updateStepsize_mem hS.attr.rhoMax f1.symm
        rw [hS.rhoMin, hS.rhoMax] at this
        rw [ht, le_antisymm this.2 this.1]; exact ⟨rfl, rfl⟩
    · exact e7 h0
  by_cases hsol : r.2.status = .solved
  · exact Or.inl hsol
  right
  have hgood := S.admm_good hS.bounds q hS.rhoPos rho st
  have hstep := S.C78_step hS.psd hn hS.rhoPos (st := st) hS.exact hS.momentum.le hk
  simp only [← ha] at hgood hstep
  change S.dist rho (fullKKT a.1 a.2.1 a.2.2.1) x y ≤ S.dist rho q x y - S.momentum * (2 - S.momentum) *
    S.progress rho q (S.solveLinear q rho rho st) at hstep
  have hmm : 0 < S.momentum * (2 - S.momentum) := mul_pos hS.momentum (by linarith [hS.momentum'])
  have hprog := S.progress_nonneg hS.rhoPos hS.sigma q (S.solveLinear q rho rho st)
  refine ⟨by omega, ?_, _, e1, hrho.1, hrho.2, S.good_isNormal hgood, ?_, ?_⟩
  · by_cases h0 : st.iterNum % S.terminationCheckFrequency = 0
    · obtain ⟨f1, f2⟩ := e8 h0
      rw [f2] at hsol
      simp only [checkTermination, hS.noCheck, computeError] at hsol f1
      simp only [cont, f1]
      refine decide_eq_true ?_
      by_contra hcon
      exact hsol (if_pos (not_lt.mp hcon))
    · have := hcont h0
      simp only [cont, (e9 h0).1] at this ⊢
      exact this
  · rw [hiter]
    change _ + S.gain C * (failedTests S.terminationCheckFrequency (st.iterNum + 1) : ℕ) ≤ d0
    rcases Nat.eq_zero_or_pos st.iterNum with h0 | h0
    · rw [h0] at hd ⊢
      have e : ∀ k ≤ 1, failedTests S.terminationCheckFrequency k = 0 := by
        intro k hk
        have := hS.freq
        exact Nat.div_eq_of_lt (by omega)
      rw [e 0 (by omega)] at hd
      rw [e (0 + 1) (by omega)]
      linarith [mul_nonneg hmm.le hprog]
    · rw [failedTests_succ hS.freq h0]
      by_cases h1 : (st.iterNum - 1) % S.terminationCheckFrequency = 0
      · rw [if_pos h1]
        have hbig : S.tol ^ 2 / C < S.progress rho q (S.solveLinear q rho rho st) := by
          by_contra hcon
          have := S.small_progress hS.rhoPos hS.sigma (st := st) hS.exact hS.const hS.tol.le
            (by rw [not_lt, le_div_iff₀ hS.cPos] at hcon; rw [mul_comm]; exact hcon)
          exact absurd (hres h0 h1) (not_lt.mpr this)
        have := mul_lt_mul_of_pos_left hbig hmm
        push_cast
        unfold gain at hd ⊢
        linarith
      · rw [if_neg h1, Nat.add_zero]
        linarith [mul_nonneg hmm.le hprog]
  · intro h1
    rw [hiter] at h1
    have h0 : st.iterNum % S.terminationCheckFrequency = 0 := by simpa using h1
    obtain ⟨f1, f2⟩ := e8 h0
    rw [f2] at hsol
    simp only [checkTermination, hS.noCheck, computeError] at hsol
    by_contra hcon
    exact hsol (if_pos (not_lt.mp hcon))

theorem nan_stays (S : BoxOSQP K n m) {p r : Option (Params K n m) × State K n m} (hp : p.2.rhoBar = .nan) (hu : S.update p = .ok r) :
    r.2.rhoBar = .nan := by
  rcases S.update_cases hu with ⟨q, rho, rho', h1, h2, h3, h4⟩ | ⟨h1, h2, -⟩
  · rw [hp] at h2; cases h2
  · exact h2

/-- The states of a run: NaN, solved, or still paying for the failed tests. -/
theorem reach_running (S : BoxOSQP K n m) {rho C : K} (hS : S.Conv rho C) {x : Fin n → K} {y : Fin m → K} (hk : S.IsKkt x y)
    {p0 : Params K n m} (hn : S.Normal p0.z p0.y) {r : Option (Params K n m) × State K n m} (h : S.Reach p0 r) :
    r.2.rhoBar = .nan ∨ r.2.status = .solved ∨ S.Running rho C (S.dist rho p0 x y) x y r := by
  induction h with
  | first hu =>
    refine S.running_step hS hk ?_ ?_ hn hu (fun _ => rfl) ?_ (fun h => absurd h (by simp [initState]))
    · simp only [initState, hS.rhoStart]
    · simp only [initState, hS.rhoStart]
    · have : failedTests S.terminationCheckFrequency (S.initState p0).iterNum = 0 := by
        have := hS.freq
        exact Nat.div_eq_of_lt (by simp only [initState]; omega)
      rw [this]; simp
  | @step p r hr hc hu ih =>
    rcases ih with h1 | h1 | ⟨h1, h2, q, h3, h4, h5, h6, h7, h8⟩
    · exact Or.inl (S.nan_stays h1 hu)
    · have := (S.reach_solved _ hr h1).1
      rw [hc] at this; cases this
    · obtain ⟨p1, p2⟩ := p
      simp only at h3
      subst h3
      exact S.running_step hS hk h4 h5 h6 hu (fun _ => hc) h7 (fun _ => h8)

/-- **C78, bound on the iterations**: with a convex objective, consistent bounds, a constant stepsize `rho > 0`, `sigma > 0`,
`0 < momentum < 2`, an exact linear solver and without the infeasibility checks, if the problem has a KKT point at distance `d` and
`maxiter` is so large that `d·C < momentum (2 - momentum) tol² · (number of tests)`, then the run reports SOLVED — unless the stepsize
became NaN. -/
theorem C78_run (S : BoxOSQP K n m) {rho C : K} (hS : S.Conv rho C) {x : Fin n → K} {y : Fin m → K} (hk : S.IsKkt x y)
    {p0 : Params K n m} (hn : S.Normal p0.z p0.y) (hmax : 1 ≤ S.maxiter)
    (hbig : S.dist rho p0 x y * C < S.momentum * (2 - S.momentum) * S.tol ^ 2 *
      (((S.maxiter + S.terminationCheckFrequency - 2) / S.terminationCheckFrequency : ℕ) : K)) :
    ∃ r, S.run (some p0) = .ok r ∧ (r.2.status = .solved ∨ r.2.rhoBar = .nan) := by
  obtain ⟨⟨r, hr⟩, -⟩ := S.C39_no_check hS.noCheck (p0 := p0)
  refine ⟨r, hr, ?_⟩
  rcases S.reach_running hS hk hn (S.run_reach hr) with h | h | ⟨h1, h2, q, h3, h4, h5, h6, h7, h8⟩
  · exact Or.inr h
  · exact Or.inl h
  · exfalso
    rcases S.run_count hmax hr with hc | hc
    · rw [hc] at h2; cases h2
    · rw [hc] at h7
      have h9 := S.dist_nonneg hS.rhoPos hS.sigma q x y
      have h10 : S.gain C * (failedTests S.terminationCheckFrequency S.maxiter : ℕ) ≤ S.dist rho p0 x y := by linarith
      have h11 := mul_le_mul_of_nonneg_right h10 hS.cPos.le
      have e : S.gain C * (failedTests S.terminationCheckFrequency S.maxiter : ℕ) * C =
          S.momentum * (2 - S.momentum) * S.tol ^ 2 * (failedTests S.terminationCheckFrequency S.maxiter : ℕ) := by
        have := hS.cPos.ne'
        unfold gain; field_simp
      rw [e] at h11
      exact absurd hbig (not_lt.mpr h11)

/-- **C78, no NaN**: if `c ≠ 0` and the point `0` violates the bounds, the stepsize never becomes NaN. -/
theorem C78_no_nan (S : BoxOSQP K n m) (ha : S.Attr) (hc : S.c ≠ 0) (h0 : ¬S.InBox 0) {p0 : Params K n m}
    {r : Option (Params K n m) × State K n m} (h : S.Reach p0 r) : r.2.rhoBar ≠ .nan ∧ ∃ q, r.1 = some q := by
  have fin : ∀ r, S.Reach p0 r → (∃ q, r.1 = some q) → r.2.rhoBar ≠ .nan := by
    rintro r hr ⟨q, hq⟩ hn
    rcases (S.C38_rho_partial ha hr).2 q hq hn with ⟨h1, h2⟩ | ⟨-, -, h3⟩
    · have hz : q.z = 0 := by
        unfold primalRes at h1
        rw [h2] at h1
        funext i
        have := congrFun h1 i
        simp only [Pi.sub_apply, Pi.zero_apply] at this ⊢
        linarith
      have := (S.C38_iterates ha hr hq).1.box
      rw [hz] at this
      exact h0 this
    · exact hc h3
  have some' : ∀ p r, S.update p = .ok r → (∃ q, p.1 = some q) → p.2.rhoBar = .nan ∨ (∃ t, p.2.rhoBar = .fin t) → p.2.rhoBar ≠ .nan →
      p.2.solverRho = p.2.rhoBar → ∃ q, r.1 = some q := by
    rintro p r hu ⟨q, hq⟩ hf hn hs
    rcases hf with hf | ⟨t, ht⟩
    · exact absurd hf hn
    · rw [ht] at hs
      simp only [update, hq, ht, hs] at hu
      exact ⟨_, (S.updateFin_ok hu).1⟩
  have main : ∃ q, r.1 = some q := by
    induction h with
    | first hu => exact some' _ _ hu ⟨p0, rfl⟩ (Or.inr ⟨_, rfl⟩) (by simp [initState]) rfl
    | @step p r hr hcont hu ih =>
      have hn := fin p hr ih
      obtain ⟨q, hq⟩ := ih
      refine some' p r hu ⟨q, hq⟩ ?_ hn ((S.C38_iterates ha hr hq).2.2.2)
      rcases (S.C38_rho_partial ha hr).1 with ⟨t, ht, -⟩ | ht
      · exact Or.inr ⟨t, ht⟩
      · exact Or.inl ht
  exact ⟨fin r h main, main⟩

/-- The default initial parameters are a valid start. -/
theorem initParams_normal (S : BoxOSQP K n m) (hb : S.BoundsOk) : S.Normal S.initParams.z S.initParams.y := by
  refine ⟨fun i => ?_, fun v _ => ?_⟩
  · have := clipB_spec (S.A.mulVec (fun _ => 0) i) (hb i)
    exact ⟨this.1, this.2.1⟩
  · have : S.initParams.y = 0 := rfl
    rw [this, dotProduct_zero]

/-- **C78, convergence**: under the assumptions of `C78_run`, if moreover `c ≠ 0` and `0` violates the bounds, there is a number of
iterations from which on every run of at least that length (default initial parameters) reports SOLVED, with residuals of the returned
parameters at most `tol`. -/
theorem C78_converges [Archimedean K] (S : BoxOSQP K n m) {rho C : K} (hS : S.Conv rho C) {x : Fin n → K} {y : Fin m → K}
    (hk : S.IsKkt x y) (hc : S.c ≠ 0) (h0 : ¬S.InBox 0) :
    ∃ N, ∀ maxiter ≥ N, ∃ r q, ({ S with maxiter := maxiter } : BoxOSQP K n m).run none = .ok r ∧ r.2.status = .solved ∧ r.1 = some q ∧
      (∀ i, |S.primalRes q.x q.z i| ≤ S.tol) ∧ ∀ j, |S.dualRes q.x q.y j| ≤ S.tol := by
  have hmm : 0 < S.momentum * (2 - S.momentum) * S.tol ^ 2 :=
    mul_pos (mul_pos hS.momentum (by linarith [hS.momentum'])) (pow_pos hS.tol 2)
  obtain ⟨k, hkk⟩ := Archimedean.arch (S.dist rho S.initParams x y * C + S.momentum * (2 - S.momentum) * S.tol ^ 2) hmm
  rw [nsmul_eq_mul] at hkk
  refine ⟨S.terminationCheckFrequency * k + 2, fun maxiter hmax => ?_⟩
  set S' : BoxOSQP K n m := { S with maxiter := maxiter } with hS'
  have hconv : S'.Conv rho C := ⟨hS.psd, hS.bounds, hS.rhoPos, hS.rhoStart, hS.rhoMin, hS.rhoMax, hS.sigma, hS.momentum, hS.momentum',
    hS.tol, hS.freq, hS.noCheck, hS.exact, hS.cPos, hS.const⟩
  have hle : (k : K) ≤ (((maxiter + S.terminationCheckFrequency - 2) / S.terminationCheckFrequency : ℕ) : K) := by
    have : k ≤ (maxiter + S.terminationCheckFrequency - 2) / S.terminationCheckFrequency := by
      rw [Nat.le_div_iff_mul_le hS.freq, Nat.mul_comm]; omega
    exact_mod_cast this
  have hbig : S'.dist rho S'.initParams x y * C < S'.momentum * (2 - S'.momentum) * S'.tol ^ 2 *
      (((S'.maxiter + S'.terminationCheckFrequency - 2) / S'.terminationCheckFrequency : ℕ) : K) := by
    change S.dist rho S.initParams x y * C < S.momentum * (2 - S.momentum) * S.tol ^ 2 *
      (((maxiter + S.terminationCheckFrequency - 2) / S.terminationCheckFrequency : ℕ) : K)
    have := mul_le_mul_of_nonneg_left hle hmm.le
    linarith
  obtain ⟨r, hr, hstat⟩ := S'.C78_run hconv hk (S'.initParams_normal hconv.bounds) (by change 1 ≤ maxiter; omega) hbig
  have hnan := S'.C78_no_nan hconv.attr hc h0 (S'.run_reach hr)
  have hsol := hstat.resolve_right hnan.1
  obtain ⟨q, hq, h1, h2⟩ := S'.C38_solved hconv.attr hr hsol
  exact ⟨r, q, hr, hsol, hq, h1, h2⟩

/-! ## Example -/

/-- `min ½x² + x` subject to `1 ≤ x`, with `rho = sigma = 1` constant and the default `momentum = 8/5`, `tol = 1/10`; the linear system
is `3x = b`. -/
def exAdmm : BoxOSQP ℚ 1 1 where
  Q := !![1]
  c := ![1]
  A := !![1]
  l := ![some 1]
  u := ![none]
  checkInfeasability := false
  sigma := 1
  momentum := 8 / 5
  rhoStart := 1
  rhoMin := 1
  rhoMax := 1
  stepsizeUpdatesFrequency := 10
  primalInfeasibleTol := 1 / 1000
  dualInfeasibleTol := 1 / 1000
  maxiter := 20
  tol := 1 / 10
  terminationCheckFrequency := 5
  jit := true
  solve := fun _ b _ _ => fun i => b i / 3
  sqrt := fun a => a
  epsDiv := 1 / 8388608

theorem exAdmm_conv : exAdmm.Conv 1 5 where
  psd := by
    refine ⟨by ext i j; fin_cases i; fin_cases j; rfl, fun v => ?_⟩
    simp [exAdmm, Matrix.mulVec, dotProduct]
    exact mul_self_nonneg _
  bounds := fun i a b ha hb => by fin_cases i; simp [exAdmm] at hb
  rhoPos := one_pos
  rhoStart := rfl
  rhoMin := rfl
  rhoMax := rfl
  sigma := one_pos
  momentum := by simp only [exAdmm]; norm_num
  momentum' := by simp only [exAdmm]; norm_num
  tol := by simp only [exAdmm]; norm_num
  freq := by simp only [exAdmm]; norm_num
  noCheck := rfl
  exact := fun b _ _ => by
    funext i
    fin_cases i
    simp [exAdmm, kktMat, Matrix.mulVec, dotProduct, Matrix.vecHead]
    ring
  cPos := by norm_num
  const := by
    constructor
    · intro i; fin_cases i; simp [exAdmm]; norm_num
    · intro i; fin_cases i; simp [exAdmm]; norm_num

/-- Non-vacuity of `C78_converges`: the KKT point of the example is `x = 1`, `y = -2`. -/
example : ∃ N, ∀ maxiter ≥ N, ∃ r q, ({ exAdmm with maxiter := maxiter } : BoxOSQP ℚ 1 1).run none = .ok r ∧ r.2.status = .solved ∧
    r.1 = some q ∧ (∀ i, |exAdmm.primalRes q.x q.z i| ≤ 1 / 10) ∧ ∀ j, |exAdmm.dualRes q.x q.y j| ≤ 1 / 10 := by
  refine exAdmm.C78_converges exAdmm_conv (x := ![1]) (y := ![-2]) ⟨⟨fun i => ?_, fun v hv => ?_⟩, ?_⟩ ?_ ?_
  · fin_cases i
    exact ⟨fun b hb => by simp [exAdmm] at hb ⊢; rw [← hb], fun b hb => by simp [exAdmm] at hb⟩
  · have h1 := (hv 0).1 1 rfl
    simp [exAdmm, Matrix.mulVec, dotProduct]
    linarith
  · funext i; fin_cases i
    simp [exAdmm, dualRes, Matrix.mulVec, dotProduct, Matrix.vecHead]
    norm_num
  · intro h; have := congrFun h 0; simp [exAdmm] at this
  · intro h; have := (h 0).1 1 rfl; simp at this; linarith

end Jaxopt.OSQP.BoxOSQP
