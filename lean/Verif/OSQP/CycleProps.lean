import Verif.OSQP.AdmmProps
import Mathlib.Analysis.Real.Sqrt
import Mathlib.LinearAlgebra.Matrix.Notation
import Mathlib.Tactic.Linarith
import Mathlib.Tactic.LinearCombination
import Mathlib.Tactic.FieldSimp
import Mathlib.Tactic.FinCases
import Mathlib.Tactic.NormNum

/-!
# Property C99, the negative part: `BoxOSQP` with its default adaptive stepsize can cycle forever

A linear program with two variables and three constraints (one of them without finite bounds), all attributes of `BoxOSQP` at their
defaults (`sigma = 1e-6`, `momentum = 1.6`, `rho_start = 0.1`, `rho_min = 1e-6`, `rho_max = 1e6`, `stepsize_updates_frequency = 10`,
`termination_check_frequency = 5`, `jit = True`, hence no infeasibility checks) and an exact linear solver.  From a suitable start the
stepsize alternates between two values every ten iterations (`_update_stepsize`, osqp.py lines 517-527), and the iterates are periodic:
in the phase of the larger stepsize the error is rotated by the tenth power of `(21 + 12i)/25`, in the phase of the smaller one by the
tenth power of `(233 + 112i)/265`, and the change of the scaling in between makes up for the contraction.
-/

set_option autoImplicit false
set_option linter.unusedSectionVars false
set_option linter.unusedVariables false

open Finset Matrix

namespace Jaxopt.OSQP.Cycle

open Jaxopt.Proj BoxOSQP

/-- A linear solver that is exact on diagonal systems. -/
noncomputable def diagSolve {n : ℕ} (M : (Fin n → ℝ) → (Fin n → ℝ)) (b _prev : Fin n → ℝ) (_atol : ℝ) : Fin n → ℝ :=
  fun i => b i / M (Pi.single i 1) i

/-- `min C x₂` subject to `q x₁ = 0`, `x₂ = B` and the vacuous constraint `-inf ≤ p x₁ ≤ inf`, with the default attributes of `BoxOSQP`
(osqp.py lines 405-425) except for `maxiter` and `tol`. -/
noncomputable def lp (q p B C tol : ℝ) (maxiter : ℕ) : BoxOSQP ℝ 2 3 where
  Q := 0
  c := ![0, C]
  A := !![p, 0; q, 0; 0, 1]
  l := ![none, some 0, some B]
  u := ![none, some 0, some B]
  checkInfeasability := false
  sigma := 1 / 10 ^ 6
  momentum := 8 / 5
  rhoStart := 1 / 10
  rhoMin := 1 / 10 ^ 6
  rhoMax := 10 ^ 6
  stepsizeUpdatesFrequency := 10
  primalInfeasibleTol := 1 / 1000
  dualInfeasibleTol := 1 / 1000
  maxiter := maxiter
  tol := tol
  terminationCheckFrequency := 5
  jit := true
  solve := diagSolve
  sqrt := Real.sqrt
  epsDiv := 1 / 2 ^ 23

/-- The parameters with error `u` in the second constraint and error `v` in its multiplier. -/
noncomputable def pt (q p B C : ℝ) (w : ℝ × ℝ) : Params ℝ 2 3 :=
  fullKKT ![w.1 / q, B] ![p * (w.1 / q), 0, B] ![0, w.2, -C]

/-- One iteration on the errors. -/
noncomputable def move (rho a : ℝ) (w : ℝ × ℝ) : ℝ × ℝ :=
  ((1 - 8 / 5 * a) * w.1 - 8 / 5 * a / rho * w.2, 8 / 5 * rho * (1 - a) * w.1 + (1 - 8 / 5 * a) * w.2)

variable {q p B C tol : ℝ} {mi : ℕ}

theorem exact_lp {rho : ℝ} (hr : 0 < rho) : (lp q p B C tol mi).Exact rho := by
  intro b prev t
  have e1 : (1 / 10 ^ 6 : ℝ) + rho * (p * p + q * q) ≠ 0 := by
    have := mul_self_nonneg p; have := mul_self_nonneg q
    positivity
  have e2 : (1 / 10 ^ 6 : ℝ) + rho ≠ 0 := by positivity
  funext i
  fin_cases i
  · simp [kktMat, lp, diagSolve, Matrix.mulVec, dotProduct, Fin.sum_univ_succ]
    norm_num at e1 ⊢
    field_simp
  · simp [kktMat, lp, diagSolve, Matrix.mulVec, dotProduct, Fin.sum_univ_succ]
    norm_num at e2 ⊢
    field_simp

/-- One ADMM iteration of the model on the points `pt`. -/
theorem admm_pt {rho a : ℝ} (hr : 0 < rho) (hq : q ≠ 0) (ha : a * (1 / 10 ^ 6 + rho * (p ^ 2 + q ^ 2)) = rho * q ^ 2) (w : ℝ × ℝ)
    (st : State ℝ 2 3) :
    let r := (lp q p B C tol mi).admmStep (pt q p B C w) rho rho st
    r.1 = ![(move rho a w).1 / q, B] ∧ r.2.1 = ![p * ((move rho a w).1 / q), 0, B] ∧ r.2.2.1 = ![0, (move rho a w).2, -C] := by
  intro r
  have hx := (lp q p B C tol mi).solve_eq (p := pt q p B C w) (rho := rho) (st := st) (exact_lp hr)
  set xb := (lp q p B C tol mi).solveLinear (pt q p B C w) rho rho st with hxb
  have h0 := congrFun hx 0
  have h1 := congrFun hx 1
  simp [lp, pt, fullKKT, Matrix.mulVec, dotProduct, Fin.sum_univ_succ] at h0 h1
  rw [show vecHead xb = xb 0 from rfl] at h0
  rw [show vecHead (vecTail xb) = xb 1 from rfl] at h1
  have hD : (0 : ℝ) < 1 / 10 ^ 6 + rho * (p ^ 2 + q ^ 2) := by positivity
  have hD1 : (0 : ℝ) < 1 / 10 ^ 6 + rho := by positivity
  have b1 : xb 1 = B := by
    have : (1 / 10 ^ 6 + rho) * (xb 1 - B) = 0 := by linear_combination h1
    rcases mul_eq_zero.mp this with h | h
    · exact absurd h hD1.ne'
    · linarith
  have b0 : xb 0 = (1 - a) * (w.1 / q) - a / (rho * q) * w.2 := by
    have : (1 / 10 ^ 6 + rho * (p ^ 2 + q ^ 2)) * (xb 0 - ((1 - a) * (w.1 / q) - a / (rho * q) * w.2)) = 0 := by
      have e : (1 / 10 ^ 6 + rho * (p ^ 2 + q ^ 2)) * (xb 0 - ((1 - a) * (w.1 / q) - a / (rho * q) * w.2)) =
        (1 / 10 ^ 6 + rho * (p ^ 2 + q ^ 2)) * (xb 0 - w.1 / q) +
          (a * (1 / 10 ^ 6 + rho * (p ^ 2 + q ^ 2))) * (w.1 / q + w.2 / (rho * q)) := by ring
      rw [e, ha]
      have e2 : rho * q ^ 2 * (w.1 / q + w.2 / (rho * q)) = rho * q ^ 2 * (w.1 / q) + q * w.2 := by field_simp
      rw [e2]
      linear_combination h0
    rcases mul_eq_zero.mp this with h | h
    · exact absurd h hD.ne'
    · linarith
  have hz : ∀ i, (lp q p B C tol mi).A.mulVec xb i = ![p * xb 0, q * xb 0, xb 1] i := by
    intro i; fin_cases i <;> simp [lp, Matrix.mulVec, dotProduct, Fin.sum_univ_succ]
  have hr1 : r.1 = ![(move rho a w).1 / q, B] := by
    funext i
    change (pt q p B C w).x i + 8 / 5 * (xb i - (pt q p B C w).x i) = _
    fin_cases i
    · simp [pt, fullKKT, move, b0]; field_simp; ring
    · simp [pt, fullKKT, b1]
  have zm : ∀ i, (pt q p B C w).z i + 8 / 5 * ((lp q p B C tol mi).A.mulVec xb i - (pt q p B C w).z i) =
      ![p * ((move rho a w).1 / q), 8 / 5 * (q * xb 0), B] i := by
    intro i
    rw [hz]
    fin_cases i
    · simp [pt, fullKKT, move, b0]; field_simp; ring
    · simp [pt, fullKKT]
    · simp [pt, fullKKT, b1]
  have hr2 : r.2.1 = ![p * ((move rho a w).1 / q), 0, B] := by
    funext i
    change clipB ((pt q p B C w).z i + 8 / 5 * ((lp q p B C tol mi).A.mulVec xb i - (pt q p B C w).z i) +
      1 / rho * (pt q p B C w).y i) ((lp q p B C tol mi).l i) ((lp q p B C tol mi).u i) = _
    rw [zm]
    fin_cases i
    · simp [clipB, lp, pt, fullKKT]
    · simp [clipB, lp]
    · simp [clipB, lp]
  refine ⟨hr1, hr2, ?_⟩
  funext i
  change (pt q p B C w).y i + rho * ((pt q p B C w).z i + 8 / 5 * ((lp q p B C tol mi).A.mulVec xb i - (pt q p B C w).z i) - r.2.1 i) = _
  rw [zm, hr2]
  fin_cases i
  · simp [pt, fullKKT]
  · simp [pt, fullKKT, move, b0]; field_simp; ring
  · simp [pt, fullKKT]

theorem primalRes_pt (hq : q ≠ 0) (w : ℝ × ℝ) :
    (lp q p B C tol mi).primalRes ![w.1 / q, B] ![p * (w.1 / q), 0, B] = ![0, w.1, 0] := by
  funext i
  fin_cases i
  · simp [primalRes, lp]; ring
  · simp [primalRes, lp, Matrix.mulVec, dotProduct, Fin.sum_univ_succ]; field_simp
  · simp [primalRes, lp, Matrix.mulVec, dotProduct, Fin.sum_univ_succ]

theorem dualRes_pt (w : ℝ × ℝ) : (lp q p B C tol mi).dualRes ![w.1 / q, B] ![0, w.2, -C] = ![q * w.2, 0] := by
  funext i
  fin_cases i
  · simp [dualRes, lp, Matrix.mulVec, dotProduct, Fin.sum_univ_succ]
  · simp [dualRes, lp, Matrix.mulVec, dotProduct, Fin.sum_univ_succ]

theorem infNorm_eq {k : ℕ} {v : Fin k → ℝ} {t : ℝ} (i : Fin k) (hi : |v i| = t) (h : ∀ j, |v j| ≤ t) : infNorm v = t :=
  le_antisymm (infNorm_le (by rw [← hi]; exact abs_nonneg _) h) (by rw [← hi]; exact abs_le_infNorm v i)

theorem infNorm_primal (u : ℝ) : infNorm ![0, u, 0] = |u| := by
  refine infNorm_eq 1 rfl fun j => ?_
  fin_cases j <;> simp

theorem infNorm_dual (v : ℝ) : infNorm ![v, 0] = |v| := by
  refine infNorm_eq 0 rfl fun j => ?_
  fin_cases j <;> simp

/-- The new stepsize at the points `pt`. -/
theorem stepsize_pt {rho : ℝ} (hq : 0 < q) (hB : 0 < B) (hC : 0 < C) (w : ℝ × ℝ) (h1 : |w.1| ≤ B) (h2 : |p * (w.1 / q)| ≤ B)
    (h3 : q * |w.2| ≤ C) :
    (lp q p B C tol mi).updateStepsize rho ((lp q p B C tol mi).primalRes ![w.1 / q, B] ![p * (w.1 / q), 0, B])
      ((lp q p B C tol mi).dualRes ![w.1 / q, B] ![0, w.2, -C]) ![w.1 / q, B] ![0, w.2, -C] =
    .fin (clip (rho * Real.sqrt (|w.1| / B / (q * |w.2| / C + 1 / 2 ^ 23))) (1 / 10 ^ 6) (10 ^ 6)) := by
  have n1 : infNorm ((lp q p B C tol mi).A.mulVec ![w.1 / q, B]) = B := by
    refine infNorm_eq 2 ?_ fun j => ?_
    · simp [lp, Matrix.mulVec, dotProduct, Fin.sum_univ_succ, abs_of_pos hB]
    · fin_cases j
      · simpa [lp, Matrix.mulVec, dotProduct, Fin.sum_univ_succ] using h2
      · simp [lp, Matrix.mulVec, dotProduct, Fin.sum_univ_succ]
        rw [← abs_mul, show q * (w.1 / q) = w.1 by field_simp]; exact h1
      · simp [lp, Matrix.mulVec, dotProduct, Fin.sum_univ_succ, abs_of_pos hB]
  have n2 : infNorm ((lp q p B C tol mi).Q.mulVec ![w.1 / q, B]) = 0 := by
    rw [infNorm_eq_zero]; simp [lp]
  have n3 : infNorm ((lp q p B C tol mi).A.transpose.mulVec ![0, w.2, -C]) ≤ C := by
    refine infNorm_le hC.le fun j => ?_
    fin_cases j
    · simp [lp, Matrix.mulVec, dotProduct, Fin.sum_univ_succ, abs_mul, abs_of_pos hq]; exact h3
    · simp [lp, Matrix.mulVec, dotProduct, Fin.sum_univ_succ, abs_of_pos hC]
  have n4 : infNorm (lp q p B C tol mi).c = C := by
    refine infNorm_eq 1 (abs_of_pos hC) fun j => ?_
    fin_cases j <;> simp [lp, abs_of_pos hC, hC.le]
  rw [primalRes_pt hq.ne', dualRes_pt]
  unfold updateStepsize
  simp only [n1, n2, n4, infNorm_primal, infNorm_dual, max_eq_right n3, max_eq_right hC.le, quot, if_neg hB.ne', if_neg hC.ne', abs_mul,
    abs_of_pos hq]
  rfl

/-! ## The orbit -/

/-- The rotation by the complex number `c + si` in the coordinates `j u + v i`. -/
noncomputable def rot (c s j : ℝ) (w : ℝ × ℝ) : ℝ × ℝ := (c * w.1 - s / j * w.2, s * j * w.1 + c * w.2)

theorem rot_rot {c s c' s' j : ℝ} (hj : j ≠ 0) (w : ℝ × ℝ) :
    rot c s j (rot c' s' j w) = rot (c * c' - s * s') (c * s' + s * c') j w := by
  unfold rot
  refine Prod.ext ?_ ?_
  · simp only; field_simp; ring
  · simp only; field_simp; ring

/-- Multiplication by a number. -/
def sm (e : ℝ) (w : ℝ × ℝ) : ℝ × ℝ := (e * w.1, e * w.2)

theorem rot_sm (c s j e : ℝ) (w : ℝ × ℝ) : rot c s j (sm e w) = sm e (rot c s j w) := by
  unfold rot sm
  refine Prod.ext ?_ ?_ <;> simp only <;> ring

/-- `((21 + 12i)/25)⁵ = d1 + f1 i`. -/
noncomputable def d1 : ℝ := -7074459 / 9765625

/-- `((21 + 12i)/25)⁵ = d1 + f1 i`. -/
noncomputable def f1 : ℝ := 4297212 / 9765625

/-- `((233 + 112i)/265)⁵ = d2 + f2 i`. -/
noncomputable def d2 : ℝ := -716697971447 / 1306860915625

/-- `((233 + 112i)/265)⁵ = d2 + f2 i`. -/
noncomputable def f2 : ℝ := 905387546672 / 1306860915625

/-- The tenth powers `c1 + s1 i` and `c2 + s2 i`. -/
noncomputable def c1 : ℝ := d1 * d1 - f1 * f1
noncomputable def s1 : ℝ := d1 * f1 + f1 * d1
noncomputable def c2 : ℝ := d2 * d2 - f2 * f2
noncomputable def s2 : ℝ := d2 * f2 + f2 * d2

/-- `R + 1/R` for the ratio `R` of the two scalings. -/
noncomputable def X : ℝ := (1 + (c1 ^ 2 + s1 ^ 2) * (c2 ^ 2 + s2 ^ 2) + 2 * c1 * c2) / (s1 * s2)

/-- The ratio of the two scalings. -/
noncomputable def R : ℝ := (X + Real.sqrt (X ^ 2 - 4)) / 2

theorem X_bounds : 24685 / 10000 < X ∧ X < 24686 / 10000 := by
  unfold X c1 s1 c2 s2 d1 f1 d2 f2
  constructor <;> norm_num

theorem R_eq : R ^ 2 = X * R - 1 := by
  have h : (0 : ℝ) ≤ X ^ 2 - 4 := by nlinarith [X_bounds.1]
  have := Real.sq_sqrt h
  unfold R
  linear_combination this / 4

theorem R_bounds : 19576 / 10000 < R ∧ R < 19579 / 10000 := by
  have h := R_eq
  obtain ⟨hx1, hx2⟩ := X_bounds
  have h0 : X / 2 ≤ R := by
    unfold R
    have := Real.sqrt_nonneg (X ^ 2 - 4)
    linarith
  constructor
  · by_contra hc
    rw [not_lt] at hc
    nlinarith
  · by_contra hc
    rw [not_lt] at hc
    nlinarith

theorem s1s2 : s1 * s2 * X = 1 + (c1 ^ 2 + s1 ^ 2) * (c2 ^ 2 + s2 ^ 2) + 2 * c1 * c2 := by
  have : s1 * s2 ≠ 0 := by unfold s1 s2 d1 f1 d2 f2; norm_num
  unfold X
  rw [mul_div_assoc', mul_div_cancel_left₀ _ this]

/-- The error after a phase of the smaller stepsize (up to the sign). -/
noncomputable def e0 : ℝ × ℝ := (10 / 3 * (c2 * s1 + R * (s2 * c1)), 1 + c1 * c2 - R * (s1 * s2))

/-- The error after a phase of the larger stepsize (up to the sign). -/
noncomputable def e1 : ℝ × ℝ := rot c1 s1 (3 / 10) e0

/-- The errors in the middle of the phases (up to the sign). -/
noncomputable def h1 : ℝ × ℝ := rot d1 f1 (3 / 10) e0
noncomputable def h2 : ℝ × ℝ := rot d2 f2 (3 / (10 * R)) e1

theorem R_pos : 0 < R := by linarith [R_bounds.1]

theorem h1_e1 : rot d1 f1 (3 / 10) h1 = e1 := by
  unfold h1 e1 c1 s1
  rw [rot_rot (by norm_num)]

theorem e1_fst : e1.1 = 10 / 3 * (R * (s2 * (c1 ^ 2 + s1 ^ 2)) - s1) := by
  unfold e1 e0 rot
  simp only
  ring

theorem e1_snd : e1.2 = c1 + c2 * (c1 ^ 2 + s1 ^ 2) := by
  unfold e1 e0 rot
  simp only
  ring

theorem h2_e0 : rot d2 f2 (3 / (10 * R)) h2 = sm (-1) e0 := by
  have hR := R_pos
  have e : rot d2 f2 (3 / (10 * R)) h2 = rot c2 s2 (3 / (10 * R)) e1 := by
    unfold h2 c2 s2
    rw [rot_rot (by positivity)]
  rw [e]
  have hq := R_eq
  have hx := s1s2
  refine Prod.ext ?_ ?_
  · unfold rot sm
    simp only [e1_fst, e1_snd]
    unfold e0
    simp only
    field_simp
    ring
  · unfold rot sm
    simp only [e1_fst, e1_snd]
    unfold e0
    simp only
    field_simp
    linear_combination -(s1 * s2 * hq) - R * hx

theorem e0_bounds : -1262 / 1000 < e0.1 ∧ e0.1 < -1260 / 1000 ∧ -79 / 10000 < e0.2 ∧ e0.2 < -77 / 10000 := by
  obtain ⟨r1, r2⟩ := R_bounds
  have a1 : -2517 / 10000 < s2 * c1 ∧ s2 * c1 < -2516 / 10000 := by unfold s2 c1 d1 f1 d2 f2; constructor <;> norm_num
  have a2 : 11425 / 100000 < c2 * s1 ∧ c2 * s1 < 11426 / 100000 := by unfold s1 c2 d1 f1 d2 f2; constructor <;> norm_num
  have a3 : 484453 / 1000000 < s1 * s2 ∧ s1 * s2 < 484454 / 1000000 := by unfold s1 s2 d1 f1 d2 f2; constructor <;> norm_num
  have a4 : 940652 / 1000000 < 1 + c1 * c2 ∧ 1 + c1 * c2 < 940653 / 1000000 := by unfold c1 c2 d1 f1 d2 f2; constructor <;> norm_num
  unfold e0
  simp only
  refine ⟨?_, ?_, ?_, ?_⟩ <;> nlinarith

theorem e1_bounds : -436 / 1000 < e1.1 ∧ e1.1 < -433 / 1000 ∧ 2386 / 10000 < e1.2 ∧ e1.2 < 2387 / 10000 := by
  obtain ⟨r1, r2⟩ := R_bounds
  rw [e1_fst, e1_snd]
  have a1 : -392200 / 1000000 < s2 * (c1 ^ 2 + s1 ^ 2) ∧ s2 * (c1 ^ 2 + s1 ^ 2) < -392190 / 1000000 := by
    unfold s1 s2 c1 d1 f1 d2 f2; constructor <;> norm_num
  have a2 : -637544 / 1000000 < s1 ∧ s1 < -637543 / 1000000 := by unfold s1 d1 f1; constructor <;> norm_num
  have a4 : 2386 / 10000 < c1 + c2 * (c1 ^ 2 + s1 ^ 2) ∧ c1 + c2 * (c1 ^ 2 + s1 ^ 2) < 2387 / 10000 := by
    unfold c1 c2 s1 d1 f1 d2 f2; constructor <;> norm_num
  refine ⟨?_, ?_, a4.1, a4.2⟩ <;> nlinarith

theorem h1_bounds : 4 / 10 < h1.1 := by
  obtain ⟨b1, b2, b3, b4⟩ := e0_bounds
  unfold h1 rot d1 f1
  simp only
  linarith

theorem h2_bounds : h2.1 < -4 / 10 := by
  obtain ⟨b1, b2, b3, b4⟩ := e1_bounds
  obtain ⟨r1, r2⟩ := R_bounds
  have hR := R_pos
  unfold h2 rot
  simp only
  have e : f2 / (3 / (10 * R)) * e1.2 = 10 / 3 * f2 * (R * e1.2) := by field_simp
  have h : 46 / 100 < R * e1.2 := by nlinarith
  rw [e]
  unfold d2 f2
  linarith

/-! ## The sequence of errors -/

/-- Whether iteration `k` is done with the larger stepsize. -/
def large (k : ℕ) : Prop := (k + 9) / 10 % 2 = 0

instance (k : ℕ) : Decidable (large k) := inferInstanceAs (Decidable (_ = _))

/-- The stepsize of iteration `k`. -/
noncomputable def rhoAt (k : ℕ) : ℝ := if large k then 1 / 10 else 3 / (35 * R)

/-- The contraction parameter of iteration `k`. -/
noncomputable def aAt (k : ℕ) : ℝ := if large k then 1 / 10 else 4 / 53

/-- The errors: the start is one iteration before the end of a phase of the larger stepsize. -/
noncomputable def w : ℕ → ℝ × ℝ
  | 0 => rot (-165807 / 390625) (299376 / 390625) (3 / 10) h1
  | k + 1 => move (rhoAt k) (aAt k) (w k)

theorem move_large (v : ℝ × ℝ) : move (1 / 10) (1 / 10) v = rot (21 / 25) (12 / 25) (3 / 10) v := by
  unfold move rot
  refine Prod.ext ?_ ?_ <;> simp only <;> ring

theorem move_small (v : ℝ × ℝ) : move (3 / (35 * R)) (4 / 53) v = rot (233 / 265) (112 / 265) (3 / (10 * R)) v := by
  have := R_pos
  unfold move rot
  refine Prod.ext ?_ ?_ <;> simp only <;> field_simp <;> ring

theorem five_large {k : ℕ} (h : ∀ i < 5, large (k + i)) : w (k + 5) = rot d1 f1 (3 / 10) (w k) := by
  have e : ∀ i < 5, w (k + i + 1) = rot (21 / 25) (12 / 25) (3 / 10) (w (k + i)) := by
    intro i hi
    rw [w, rhoAt, aAt, if_pos (h i hi), if_pos (h i hi), move_large]
  rw [e 4 (by omega), e 3 (by omega), e 2 (by omega), e 1 (by omega), e 0 (by omega)]
  simp only [rot_rot (show (3 / 10 : ℝ) ≠ 0 by norm_num), Nat.add_zero]
  unfold d1 f1
  norm_num

theorem five_small {k : ℕ} (h : ∀ i < 5, ¬large (k + i)) : w (k + 5) = rot d2 f2 (3 / (10 * R)) (w k) := by
  have hR := R_pos
  have e : ∀ i < 5, w (k + i + 1) = rot (233 / 265) (112 / 265) (3 / (10 * R)) (w (k + i)) := by
    intro i hi
    rw [w, rhoAt, aAt, if_neg (h i hi), if_neg (h i hi), move_small]
  rw [e 4 (by omega), e 3 (by omega), e 2 (by omega), e 1 (by omega), e 0 (by omega)]
  simp only [rot_rot (show (3 / (10 * R) : ℝ) ≠ 0 by positivity), Nat.add_zero]
  unfold d2 f2
  norm_num

theorem sm_sm (a b : ℝ) (v : ℝ × ℝ) : sm a (sm b v) = sm (a * b) v := by
  unfold sm
  refine Prod.ext ?_ ?_ <;> simp only <;> ring

/-- From the end of a phase of the larger stepsize to the end of the next one. -/
theorem w_phase {t : ℕ} {e : ℝ} (h : w (20 * t + 1) = sm e e1) :
    w (20 * t + 6) = sm e h2 ∧ w (20 * t + 11) = sm (-e) e0 ∧ w (20 * t + 16) = sm (-e) h1 ∧ w (20 * t + 21) = sm (-e) e1 := by
  have g1 : w (20 * t + 6) = sm e h2 := by
    rw [show 20 * t + 6 = 20 * t + 1 + 5 by omega, five_small (fun i hi => by unfold large; omega), h, rot_sm]; rfl
  have g2 : w (20 * t + 11) = sm (-e) e0 := by
    rw [show 20 * t + 11 = 20 * t + 6 + 5 by omega, five_small (fun i hi => by unfold large; omega), g1, rot_sm, h2_e0, sm_sm, mul_neg_one]
  have g3 : w (20 * t + 16) = sm (-e) h1 := by
    rw [show 20 * t + 16 = 20 * t + 11 + 5 by omega, five_large (fun i hi => by unfold large; omega), g2, rot_sm]; rfl
  refine ⟨g1, g2, g3, ?_⟩
  rw [show 20 * t + 21 = 20 * t + 16 + 5 by omega, five_large (fun i hi => by unfold large; omega), g3, rot_sm, h1_e1]

theorem w_one : w 1 = sm 1 e1 := by
  have e : w 1 = rot (21 / 25) (12 / 25) (3 / 10) (w 0) := by
    change move (rhoAt 0) (aAt 0) (w 0) = _
    rw [rhoAt, aAt, if_pos (by decide), if_pos (by decide), move_large]
  rw [e, w, rot_rot (by norm_num), ← h1_e1]
  unfold d1 f1 sm
  norm_num

/-- The errors are periodic up to the sign. -/
theorem w_period (t : ℕ) : ∃ e : ℝ, (e = 1 ∨ e = -1) ∧ w (20 * t + 1) = sm e e1 := by
  induction t with
  | zero => exact ⟨1, Or.inl rfl, w_one⟩
  | succ t ih =>
    obtain ⟨e, he, h⟩ := ih
    refine ⟨-e, ?_, ?_⟩
    · rcases he with rfl | rfl
      · exact Or.inr rfl
      · exact Or.inl (by norm_num)
    · rw [show 20 * (t + 1) + 1 = 20 * t + 21 by omega]
      exact (w_phase h).2.2.2

/-! ## The data of the linear program -/

/-- The square of the ratio of the two stepsizes. -/
noncomputable def rr : ℝ := (7 * R / 6) ^ 2

noncomputable def bt : ℝ := (rr * |e1.1| - |e0.1| / rr) / (|e1.2| - |e0.2|)
noncomputable def gm : ℝ := |e0.1| / rr - bt * |e0.2|

noncomputable def qq : ℝ := Real.sqrt (40 / 13 * (7 * R / 6 - 1) / 10 ^ 6)
noncomputable def pp : ℝ := Real.sqrt (9 * qq ^ 2 - 1 / 10 ^ 5)
noncomputable def BB : ℝ := 2 ^ 23 * gm
noncomputable def CC : ℝ := BB * qq / bt

theorem rr_bounds : 52 / 10 < rr ∧ rr < 53 / 10 := by
  obtain ⟨r1, r2⟩ := R_bounds
  unfold rr
  constructor <;> nlinarith

theorem abs_e : |e0.1| = -e0.1 ∧ |e0.2| = -e0.2 ∧ |e1.1| = -e1.1 ∧ |e1.2| = e1.2 := by
  obtain ⟨b1, b2, b3, b4⟩ := e0_bounds
  obtain ⟨b5, b6, b7, b8⟩ := e1_bounds
  exact ⟨abs_of_neg (by linarith), abs_of_neg (by linarith), abs_of_neg (by linarith), abs_of_pos (by linarith)⟩

theorem bt_eq : bt * |e1.2| + gm = rr * |e1.1| ∧ bt * |e0.2| + gm = |e0.1| / rr := by
  obtain ⟨b1, b2, b3, b4⟩ := e0_bounds
  obtain ⟨b5, b6, b7, b8⟩ := e1_bounds
  obtain ⟨a1, a2, a3, a4⟩ := abs_e
  have hd : |e1.2| - |e0.2| ≠ 0 := by
    rw [a2, a4]; exact ne_of_gt (by linarith)
  have h : bt * (|e1.2| - |e0.2|) = rr * |e1.1| - |e0.1| / rr := by
    unfold bt; rw [div_mul_cancel₀ _ hd]
  refine ⟨?_, ?_⟩
  · unfold gm; linear_combination h
  · unfold gm; ring

theorem quot_bounds : 237 / 1000 < |e0.1| / rr ∧ |e0.1| / rr < 244 / 1000 := by
  obtain ⟨b1, b2, b3, b4⟩ := e0_bounds
  obtain ⟨r1, r2⟩ := rr_bounds
  obtain ⟨a1, a2, a3, a4⟩ := abs_e
  have : 0 < rr := by linarith
  rw [a1, lt_div_iff₀ this, div_lt_iff₀ this]
  constructor <;> linarith

theorem bt_bounds : 8 < bt ∧ bt < 10 := by
  obtain ⟨b1, b2, b3, b4⟩ := e0_bounds
  obtain ⟨b5, b6, b7, b8⟩ := e1_bounds
  obtain ⟨r1, r2⟩ := rr_bounds
  obtain ⟨q1, q2⟩ := quot_bounds
  obtain ⟨a1, a2, a3, a4⟩ := abs_e
  have hd : 0 < |e1.2| - |e0.2| := by rw [a2, a4]; linarith
  unfold bt
  rw [lt_div_iff₀ hd, div_lt_iff₀ hd, a2, a3, a4]
  constructor <;> nlinarith

theorem gm_bounds : 15 / 100 < gm := by
  obtain ⟨b1, b2, b3, b4⟩ := e0_bounds
  obtain ⟨q1, q2⟩ := quot_bounds
  obtain ⟨t1, t2⟩ := bt_bounds
  obtain ⟨a1, a2, a3, a4⟩ := abs_e
  unfold gm
  rw [a2]
  nlinarith

theorem BB_bounds : 1000000 < BB := by
  have := gm_bounds
  unfold BB
  linarith

theorem qq_sq : qq ^ 2 = 40 / 13 * (7 * R / 6 - 1) / 10 ^ 6 := by
  refine Real.sq_sqrt ?_
  have := R_bounds.1
  have h : (0 : ℝ) ≤ 7 * R / 6 - 1 := by linarith
  positivity

theorem qq_pos : 0 < qq := by
  refine Real.sqrt_pos.mpr ?_
  have := R_bounds.1
  have h : (0 : ℝ) < 7 * R / 6 - 1 := by linarith
  positivity

theorem pp_sq : pp ^ 2 = 9 * qq ^ 2 - 1 / 10 ^ 5 := by
  refine Real.sq_sqrt ?_
  rw [qq_sq]
  have := R_bounds.1
  norm_num
  linarith

theorem pp_nonneg : 0 ≤ pp := Real.sqrt_nonneg _

theorem pp_le : pp ≤ 3 * qq := by
  have h := pp_sq
  have := qq_pos
  by_contra hc
  rw [not_le] at hc
  nlinarith [pp_nonneg]

theorem CC_pos : 0 < CC := by
  have := BB_bounds; have := qq_pos; have := bt_bounds.1
  unfold CC
  have h1 : 0 < BB := by linarith
  have h2 : 0 < bt := by linarith
  positivity

/-- The parameter `a` of both phases. -/
theorem aAt_eq (k : ℕ) : aAt k * (1 / 10 ^ 6 + rhoAt k * (pp ^ 2 + qq ^ 2)) = rhoAt k * qq ^ 2 := by
  have hR := R_pos
  rw [pp_sq]
  unfold aAt rhoAt
  by_cases h : large k
  · rw [if_pos h, if_pos h]; ring
  · rw [if_neg h, if_neg h, qq_sq]
    field_simp
    ring

theorem rhoAt_pos (k : ℕ) : 0 < rhoAt k := by
  have hR := R_pos
  unfold rhoAt
  split_ifs <;> positivity

/-- The size conditions of `stepsize_pt`. -/
theorem small_pt {v : ℝ × ℝ} (h1 : |v.1| ≤ 2) (h2 : |v.2| ≤ 1) :
    |v.1| ≤ BB ∧ |pp * (v.1 / qq)| ≤ BB ∧ qq * |v.2| ≤ CC := by
  have hB := BB_bounds
  have hq := qq_pos
  obtain ⟨t1, t2⟩ := bt_bounds
  have hp := pp_le
  refine ⟨by linarith, ?_, ?_⟩
  · rw [abs_mul, abs_div, abs_of_pos hq, abs_of_nonneg pp_nonneg, mul_div_assoc', div_le_iff₀ hq]
    have := mul_le_mul hp h1 (abs_nonneg _) (by linarith)
    nlinarith
  · have h0 : 0 < bt := by linarith
    unfold CC
    rw [le_div_iff₀ h0]
    have e1 : qq * |v.2| * bt ≤ qq * 1 * 10 := by
      apply mul_le_mul (mul_le_mul_of_nonneg_left h2 hq.le) t2.le h0.le (by linarith)
    nlinarith

theorem clip_mid {x a b : ℝ} (h1 : a ≤ x) (h2 : x ≤ b) : clip x a b = x := by
  unfold clip
  rw [max_eq_left h1, min_eq_left h2]

theorem sm_abs {e : ℝ} (he : e = 1 ∨ e = -1) (v : ℝ × ℝ) : |(sm e v).1| = |v.1| ∧ |(sm e v).2| = |v.2| := by
  rcases he with rfl | rfl <;> simp [sm]

/-- The stepsize goes down at the end of the phases of the larger stepsize … -/
theorem down {e : ℝ} (he : e = 1 ∨ e = -1) :
    clip (1 / 10 * Real.sqrt (|(sm e e1).1| / BB / (qq * |(sm e e1).2| / CC + 1 / 2 ^ 23))) (1 / 10 ^ 6) (10 ^ 6) = 3 / (35 * R) := by
  obtain ⟨s1, s2⟩ := sm_abs he e1
  rw [s1, s2]
  have hR := R_pos
  obtain ⟨r1, r2⟩ := R_bounds
  have hB : 0 < BB := by linarith [BB_bounds]
  have hq := qq_pos
  have hb : 0 < bt := by linarith [bt_bounds.1]
  have hrr : 0 < rr := by linarith [rr_bounds.1]
  have hg := bt_eq.1
  have h1 : 0 < |e1.1| := by rw [abs_e.2.2.1]; linarith [e1_bounds.2.1]
  have e2 : qq * |e1.2| / CC + 1 / 2 ^ 23 = rr * |e1.1| / BB := by
    rw [← hg]
    unfold CC
    have : (1 : ℝ) / 2 ^ 23 = gm / BB := by
      have := gm_bounds
      unfold BB; field_simp
    rw [this]
    field_simp
  have e3 : |e1.1| / BB / (rr * |e1.1| / BB) = (6 / (7 * R)) ^ 2 := by
    unfold rr at hrr ⊢
    field_simp
  rw [e2, e3, Real.sqrt_sq (by positivity)]
  have e4 : 1 / 10 * (6 / (7 * R)) = 3 / (35 * R) := by field_simp; norm_num
  rw [e4]
  refine clip_mid ?_ ?_
  · rw [le_div_iff₀ (by positivity)]; norm_num; linarith
  · rw [div_le_iff₀ (by positivity)]; norm_num; linarith

/-- … and back up at the end of the phases of the smaller one. -/
theorem up {e : ℝ} (he : e = 1 ∨ e = -1) :
    clip (3 / (35 * R) * Real.sqrt (|(sm e e0).1| / BB / (qq * |(sm e e0).2| / CC + 1 / 2 ^ 23))) (1 / 10 ^ 6) (10 ^ 6) = 1 / 10 := by
  obtain ⟨s1, s2⟩ := sm_abs he e0
  rw [s1, s2]
  have hR := R_pos
  have hB : 0 < BB := by linarith [BB_bounds]
  have hq := qq_pos
  have hb : 0 < bt := by linarith [bt_bounds.1]
  have hrr : 0 < rr := by linarith [rr_bounds.1]
  have hg := bt_eq.2
  have h1 : 0 < |e0.1| := by rw [abs_e.1]; linarith [e0_bounds.2.1]
  have e2 : qq * |e0.2| / CC + 1 / 2 ^ 23 = |e0.1| / rr / BB := by
    rw [← hg]
    unfold CC
    have : (1 : ℝ) / 2 ^ 23 = gm / BB := by
      have := gm_bounds
      unfold BB; field_simp
    rw [this]
    field_simp
  have e3 : |e0.1| / BB / (|e0.1| / rr / BB) = (7 * R / 6) ^ 2 := by
    have : |e0.1| / BB / (|e0.1| / rr / BB) = rr := by field_simp
    rw [this, rr]
  rw [e2, e3, Real.sqrt_sq (by positivity)]
  have e4 : 3 / (35 * R) * (7 * R / 6) = 1 / 10 := by field_simp; norm_num
  rw [e4]
  exact clip_mid (by norm_num) (by norm_num)

/-! ## The run -/

/-- The linear program of the cycle. -/
noncomputable def prog (tol : ℝ) (maxiter : ℕ) : BoxOSQP ℝ 2 3 := lp qq pp BB CC tol maxiter

/-- The parameters of the cycle. -/
noncomputable def point (k : ℕ) : Params ℝ 2 3 := pt qq pp BB CC (w k)

/-- The errors after the iterations with a test are not small. -/
theorem w_test {k : ℕ} (hk : k % 5 = 0) : 2 / 5 ≤ |(w (k + 1)).1| := by
  obtain ⟨e, he, h⟩ := w_period (k / 20)
  obtain ⟨g1, g2, g3, -⟩ := w_phase h
  have he' : -e = 1 ∨ -e = -1 := by
    rcases he with rfl | rfl
    · exact Or.inr rfl
    · exact Or.inl (by norm_num)
  have cases : k + 1 = 20 * (k / 20) + 1 ∨ k + 1 = 20 * (k / 20) + 6 ∨ k + 1 = 20 * (k / 20) + 11 ∨ k + 1 = 20 * (k / 20) + 16 := by
    omega
  rcases cases with c | c | c | c
  · rw [c, h, (sm_abs he _).1, abs_e.2.2.1]; linarith [e1_bounds.2.1]
  · rw [c, g1, (sm_abs he _).1, abs_of_neg (by linarith [h2_bounds])]; linarith [h2_bounds]
  · rw [c, g2, (sm_abs he' _).1, abs_e.1]; linarith [e0_bounds.2.1]
  · rw [c, g3, (sm_abs he' _).1, abs_of_pos (by linarith [h1_bounds])]; linarith [h1_bounds]

/-- The new stepsize after the iterations that update it. -/
theorem w_stepsize {k : ℕ} (hk : k % 10 = 0) (tol : ℝ) (mi : ℕ) :
    (prog tol mi).updateStepsize (rhoAt k) ((prog tol mi).primalRes ![(w (k + 1)).1 / qq, BB] ![pp * ((w (k + 1)).1 / qq), 0, BB])
      ((prog tol mi).dualRes ![(w (k + 1)).1 / qq, BB] ![0, (w (k + 1)).2, -CC]) ![(w (k + 1)).1 / qq, BB] ![0, (w (k + 1)).2, -CC] =
    .fin (rhoAt (k + 1)) := by
  obtain ⟨e, he, h⟩ := w_period (k / 20)
  obtain ⟨-, g2, -, -⟩ := w_phase h
  have he' : -e = 1 ∨ -e = -1 := by
    rcases he with rfl | rfl
    · exact Or.inr rfl
    · exact Or.inl (by norm_num)
  have hB : 0 < BB := by linarith [BB_bounds]
  obtain ⟨b1, b2, b3, b4⟩ := e0_bounds
  obtain ⟨b5, b6, b7, b8⟩ := e1_bounds
  obtain ⟨a1, a2, a3, a4⟩ := abs_e
  have cases : k = 20 * (k / 20) ∨ k = 20 * (k / 20) + 10 := by omega
  rcases cases with c | c
  · have hw : w (k + 1) = sm e e1 := by rw [← h, ← c]
    have l1 : large k := by unfold large; omega
    have l2 : ¬large (k + 1) := by unfold large; omega
    obtain ⟨x1, x2, x3⟩ := small_pt (v := sm e e1) (by rw [(sm_abs he _).1, a3]; linarith) (by rw [(sm_abs he _).2, a4]; linarith)
    rw [hw]
    unfold prog
    rw [stepsize_pt qq_pos hB CC_pos _ x1 x2 x3, rhoAt, if_pos l1, rhoAt, if_neg l2, down he]
  · have hw : w (k + 1) = sm (-e) e0 := by rw [← g2]; congr 1; omega
    have l1 : ¬large k := by unfold large; omega
    have l2 : large (k + 1) := by unfold large; omega
    obtain ⟨x1, x2, x3⟩ := small_pt (v := sm (-e) e0) (by rw [(sm_abs he' _).1, a1]; linarith) (by rw [(sm_abs he' _).2, a2]; linarith)
    rw [hw]
    unfold prog
    rw [stepsize_pt qq_pos hB CC_pos _ x1 x2 x3, rhoAt, if_neg l1, rhoAt, if_pos l2, up he']

/-- The state after `k` iterations. -/
structure Inv (tol : ℝ) (mi k : ℕ) (r : Option (Params ℝ 2 3) × State ℝ 2 3) : Prop where
  params : r.1 = some (point k)
  iter : r.2.iterNum = k
  rho : r.2.rhoBar = .fin (rhoAt k)
  solver : r.2.solverRho = .fin (rhoAt k)
  status : r.2.status = .unsolved
  error : r.2.error = .pinf ∧ k = 0 ∨ ∃ e, r.2.error = .fin e ∧ 2 / 5 ≤ e

theorem inv_step {tol : ℝ} (ht : tol < 2 / 5) {mi k : ℕ} {r : Option (Params ℝ 2 3) × State ℝ 2 3} (h : Inv tol mi k r) :
    ∃ r', (prog tol mi).update r = .ok r' ∧ Inv tol mi (k + 1) r' := by
  obtain ⟨r1, st⟩ := r
  obtain ⟨p1, p2, p3, p4, p5, p6⟩ := h
  simp only at p1 p2 p3 p4 p5 p6
  subst p1
  have hu : (prog tol mi).update (some (point k), st) = (prog tol mi).updateFin (point k) st (rhoAt k) (rhoAt k) := by
    simp only [update, p3, p4]
  have hok : ∃ r', (prog tol mi).updateFin (point k) st (rhoAt k) (rhoAt k) = .ok r' := by
    unfold updateFin
    simp only [raiseIfInfeasible]
    rw [show (prog tol mi).jit = true from rfl]
    exact ⟨_, rfl⟩
  obtain ⟨r', hr'⟩ := hok
  refine ⟨r', hu.trans hr', ?_⟩
  obtain ⟨f1, f2, -, -, -, f6, f7, f8, f9⟩ := (prog tol mi).updateFin_ok hr'
  obtain ⟨x1, x2, x3⟩ := admm_pt (tol := tol) (mi := mi) (B := BB) (C := CC) (rhoAt_pos k) qq_pos.ne' (aAt_eq k) (w k) st
  change ((prog tol mi).admmStep (point k) (rhoAt k) (rhoAt k) st).1 = ![(w (k + 1)).1 / qq, BB] at x1
  change ((prog tol mi).admmStep (point k) (rhoAt k) (rhoAt k) st).2.1 = ![pp * ((w (k + 1)).1 / qq), 0, BB] at x2
  change ((prog tol mi).admmStep (point k) (rhoAt k) (rhoAt k) st).2.2.1 = ![0, (w (k + 1)).2, -CC] at x3
  rw [x1, x2, x3] at f1 f6 f8
  rw [p2] at f2 f6 f7 f8 f9
  change k % 10 = 0 → _ at f6
  change k % 10 ≠ 0 → _ at f7
  change k % 5 = 0 → _ at f8
  change k % 5 ≠ 0 → _ at f9
  have hrho : r'.2.rhoBar = .fin (rhoAt (k + 1)) ∧ r'.2.solverRho = .fin (rhoAt (k + 1)) := by
    by_cases h0 : k % 10 = 0
    · obtain ⟨y1, y2⟩ := f6 h0
      rw [w_stepsize h0] at y1
      exact ⟨y1, y2.trans y1⟩
    · obtain ⟨y1, y2⟩ := f7 h0
      have e : rhoAt (k + 1) = rhoAt k := by
        unfold rhoAt
        have : large (k + 1) ↔ large k := by unfold large; omega
        simp only [this]
      rw [e]
      exact ⟨y1, y2⟩
  have herr : k % 5 = 0 → r'.2.status = .unsolved ∧ ∃ e, r'.2.error = .fin e ∧ 2 / 5 ≤ e := by
    intro h0
    obtain ⟨y1, y2⟩ := f8 h0
    have hc : ∀ p q, (prog tol mi).checkTermination ((prog tol mi).primalRes ![(w (k + 1)).1 / qq, BB] ![pp * ((w (k + 1)).1 / qq), 0, BB])
        ((prog tol mi).dualRes ![(w (k + 1)).1 / qq, BB] ![0, (w (k + 1)).2, -CC]) p q =
        (max |(w (k + 1)).1| |qq * (w (k + 1)).2|, .unsolved) := by
      intro p q
      unfold prog
      rw [primalRes_pt qq_pos.ne', dualRes_pt]
      unfold checkTermination computeError
      rw [infNorm_primal, infNorm_dual]
      have hgt : ¬max |(w (k + 1)).1| |qq * (w (k + 1)).2| ≤ (lp qq pp BB CC tol mi).tol := by
        rw [not_le]
        exact lt_of_lt_of_le (lt_of_lt_of_le ht (w_test h0)) (le_max_left _ _)
      simp only [if_neg hgt]
      rfl
    rw [hc] at y1 y2
    exact ⟨y2, _, y1, (w_test h0).trans (le_max_left _ _)⟩
  refine ⟨f1, f2, hrho.1, hrho.2, ?_, ?_⟩
  · by_cases h0 : k % 5 = 0
    · exact (herr h0).1
    · exact (f9 h0).2.trans p5
  · right
    by_cases h0 : k % 5 = 0
    · exact (herr h0).2
    · rw [(f9 h0).1]
      rcases p6 with ⟨-, h6⟩ | h6
      · exact absurd (by rw [h6]) h0
      · exact h6

theorem inv_cont {tol : ℝ} (ht : tol < 2 / 5) {mi k : ℕ} {r : Option (Params ℝ 2 3) × State ℝ 2 3} (h : Inv tol mi k r) :
    (prog tol mi).cont r = true := by
  unfold cont
  rcases h.error with ⟨h1, -⟩ | ⟨e, h1, h2⟩
  · rw [h1]; rfl
  · rw [h1]
    exact decide_eq_true (lt_of_lt_of_le ht h2)

theorem inv_loop {tol : ℝ} (ht : tol < 2 / 5) {mi : ℕ} (n : ℕ) {k : ℕ} {r : Option (Params ℝ 2 3) × State ℝ 2 3} (h : Inv tol mi k r) :
    ∃ r', (prog tol mi).loop n r = .ok r' ∧ Inv tol mi (k + n) r' := by
  induction n generalizing k r with
  | zero => exact ⟨r, rfl, h⟩
  | succ n ih =>
    obtain ⟨r', h1, h2⟩ := inv_step ht h
    obtain ⟨r'', h3, h4⟩ := ih h2
    refine ⟨r'', ?_, by rw [show k + (n + 1) = k + 1 + n by omega]; exact h4⟩
    unfold loop
    rw [if_pos (inv_cont ht h), h1]
    exact h3

/-- The unique KKT point of the linear program. -/
theorem prog_kkt (tol : ℝ) (mi : ℕ) : (prog tol mi).IsKkt ![0, BB] ![0, 0, -CC] := by
  refine ⟨⟨fun i => ?_, fun v hv => ?_⟩, ?_⟩
  · have e : (prog tol mi).A.mulVec ![0, BB] = ![0, 0, BB] := by
      funext i; fin_cases i <;> simp [prog, lp, Matrix.mulVec, dotProduct, Fin.sum_univ_succ]
    rw [e]
    fin_cases i
    · exact ⟨fun b hb => by simp [prog, lp] at hb, fun b hb => by simp [prog, lp] at hb⟩
    · exact ⟨fun b hb => by simp [prog, lp] at hb; simp [hb], fun b hb => by simp [prog, lp] at hb; simp [hb]⟩
    · exact ⟨fun b hb => by simp [prog, lp] at hb; simp [hb], fun b hb => by simp [prog, lp] at hb; simp [hb]⟩
  · have h2 := hv 2
    have hv2 : v 2 = BB := le_antisymm (h2.2 BB rfl) (h2.1 BB rfl)
    simp [prog, lp, Matrix.mulVec, dotProduct, Fin.sum_univ_succ]
    rw [hv2, sub_self, zero_mul]
  · have := dualRes_pt (q := qq) (p := pp) (B := BB) (C := CC) (tol := tol) (mi := mi) (0, 0)
    simp only [zero_div, mul_zero] at this
    unfold prog
    rw [this]
    funext i; fin_cases i <;> rfl

theorem prog_psd (tol : ℝ) (mi : ℕ) : (prog tol mi).PSD :=
  ⟨by simp [prog, lp], fun v => by simp [prog, lp]⟩

/-- **C99 is false for the default adaptive stepsize**: the linear program `prog` is convex and has a KKT point, all attributes have
their default values (any `tol < 2/5` and any `maxiter ≥ 1`), the linear systems are solved exactly and the start `point 0` satisfies the
bounds and complementarity; yet every run is reported UNSOLVED with an error of at least `2/5`, the returned parameters are those of a
cycle of length 40, and the stepsize keeps alternating between two values. -/
theorem C99_default_false {tol : ℝ} (ht : tol < 2 / 5) {maxiter : ℕ} (hm : 1 ≤ maxiter) :
    ∃ r e, (prog tol maxiter).run (some (point 0)) = .ok r ∧ r.2.iterNum = maxiter ∧ r.2.status = .unsolved ∧ r.2.error = .fin e ∧
      2 / 5 ≤ e ∧ r.1 = some (point maxiter) ∧ r.2.rhoBar = .fin (rhoAt maxiter) := by
  have h0 : Inv tol maxiter 0 (some (point 0), (prog tol maxiter).initState (point 0)) :=
    ⟨rfl, rfl, by simp only [initState, rhoAt]; rw [if_pos (by decide)]; rfl,
      by simp only [initState, rhoAt]; rw [if_pos (by decide)]; rfl, rfl, Or.inl ⟨rfl, rfl⟩⟩
  obtain ⟨r1, h1, h2⟩ := inv_step ht h0
  obtain ⟨r, h3, h4⟩ := inv_loop ht (maxiter - 1) h2
  rw [show 0 + 1 + (maxiter - 1) = maxiter by omega] at h4
  rcases h4.error with ⟨-, h5⟩ | ⟨e, h5, h6⟩
  · omega
  · refine ⟨r, e, ?_, h4.iter, h4.status, h5, h6, h4.params, h4.rho⟩
    unfold run
    simp only [Option.getD_some]
    rw [h1]
    exact h3

/-- The cycle has length 40. -/
theorem w_cycle (k : ℕ) : w (k + 41) = w (k + 1) := by
  obtain ⟨e, he, h⟩ := w_period 0
  have h20 := (w_phase h).2.2.2
  have h40 := (w_phase (t := 1) (e := -e) h20).2.2.2
  induction k with
  | zero =>
    change w (20 * 1 + 21) = w (20 * 0 + 1)
    rw [h40, h, neg_neg]
  | succ k ih =>
    have hl : large (k + 41) ↔ large (k + 1) := by unfold large; omega
    change move (rhoAt (k + 41)) (aAt (k + 41)) (w (k + 41)) = move (rhoAt (k + 1)) (aAt (k + 1)) (w (k + 1))
    rw [ih]
    simp only [rhoAt, aAt, hl]

/-- The start of the cycle is a valid start. -/
theorem point_normal (tol : ℝ) (mi : ℕ) : (prog tol mi).Normal (point 0).z (point 0).y := by
  refine ⟨fun i => ?_, fun v hv => ?_⟩
  · fin_cases i
    · exact ⟨fun b hb => by simp [prog, lp] at hb, fun b hb => by simp [prog, lp] at hb⟩
    · exact ⟨fun b hb => by simp [prog, lp] at hb; simp [point, pt, fullKKT, hb], fun b hb => by simp [prog, lp] at hb; simp [point, pt, fullKKT, hb]⟩
    · exact ⟨fun b hb => by simp [prog, lp] at hb; simp [point, pt, fullKKT, hb], fun b hb => by simp [prog, lp] at hb; simp [point, pt, fullKKT, hb]⟩
  · have h2 := hv 2
    have h1 := hv 1
    have hv2 : v 2 = BB := le_antisymm (h2.2 BB rfl) (h2.1 BB rfl)
    have hv1 : v 1 = 0 := le_antisymm (h1.2 0 rfl) (h1.1 0 rfl)
    simp [point, pt, fullKKT, dotProduct, Fin.sum_univ_succ, hv1, hv2]

/-- The same linear program with the stepsize held at its initial value `0.1` (`rho_min = rho_max = 0.1`). -/
noncomputable def progConst (tol : ℝ) (mi : ℕ) : BoxOSQP ℝ 2 3 := { prog tol mi with rhoMin := 1 / 10, rhoMax := 1 / 10 }

/-- **C99, contrast**: with a constant stepsize the same linear program is solved from the same start. -/
theorem C99_constant {tol : ℝ} (ht : 0 < tol) :
    ∃ N, ∀ maxiter ≥ N, ∃ r, (progConst tol maxiter).run (some (point 0)) = .ok r ∧ r.2.status = .solved := by
  have hconv : ∀ mi, (progConst tol mi).Conv (1 / 10) (10 ^ 7) := fun mi =>
    { psd := prog_psd tol mi
      bounds := fun i a b ha hb => by fin_cases i <;> simp [progConst, prog, lp] at ha hb <;> linarith
      rhoPos := by norm_num
      rhoStart := rfl
      rhoMin := rfl
      rhoMax := rfl
      sigma := by simp only [progConst, prog, lp]; norm_num
      momentum := by simp only [progConst, prog, lp]; norm_num
      momentum' := by simp only [progConst, prog, lp]; norm_num
      tol := ht
      freq := by simp only [progConst, prog, lp]; norm_num
      noCheck := rfl
      exact := exact_lp (q := qq) (p := pp) (B := BB) (C := CC) (tol := tol) (mi := mi) (by norm_num)
      cPos := by norm_num
      const := by
        have h1 := pp_sq
        have h2 := qq_sq
        obtain ⟨r1, r2⟩ := R_bounds
        constructor
        · intro i
          fin_cases i <;> simp [progConst, prog, lp, Fin.sum_univ_succ] <;> norm_num at h1 h2 ⊢ <;> linarith
        · intro i
          fin_cases i <;> simp [progConst, prog, lp, Fin.sum_univ_succ] <;> norm_num at h1 h2 ⊢ <;> linarith }
  have hmm : (0 : ℝ) < 8 / 5 * (2 - 8 / 5) * tol ^ 2 := by have := pow_pos ht 2; nlinarith
  obtain ⟨k, hk⟩ := Archimedean.arch ((progConst tol 0).dist (1 / 10) (point 0) ![0, BB] ![0, 0, -CC] * 10 ^ 7 + 8 / 5 * (2 - 8 / 5) * tol ^ 2) hmm
  rw [nsmul_eq_mul] at hk
  refine ⟨5 * k + 2, fun maxiter hmax => ?_⟩
  have hle : (k : ℝ) ≤ (((maxiter + 5 - 2) / 5 : ℕ) : ℝ) := by
    have : k ≤ (maxiter + 5 - 2) / 5 := by omega
    exact_mod_cast this
  obtain ⟨r, hr, hs⟩ := (progConst tol maxiter).C78_run (hconv maxiter) (prog_kkt tol maxiter) (p0 := point 0)
    (point_normal tol maxiter) (by change 1 ≤ maxiter; omega) (by
      change (progConst tol 0).dist (1 / 10) (point 0) ![0, BB] ![0, 0, -CC] * 10 ^ 7 < 8 / 5 * (2 - 8 / 5) * tol ^ 2 *
        (((maxiter + 5 - 2) / 5 : ℕ) : ℝ)
      have := mul_le_mul_of_nonneg_left hle hmm.le
      linarith)
  refine ⟨r, hr, hs.resolve_right ?_⟩
  refine ((progConst tol maxiter).C78_no_nan (hconv maxiter).attr ?_ ?_ ((progConst tol maxiter).run_reach hr)).1
  · intro h
    have := congrFun h 1
    change CC = 0 at this
    exact absurd this CC_pos.ne'
  · intro h
    have := (h 2).1 BB rfl
    change BB ≤ 0 at this
    linarith [BB_bounds]

end Jaxopt.OSQP.Cycle
