import Verif.ProxGrad.LineSearchProps

/-!
# Property C98 (second part): the default line search diverges on steep quadratics and loses monotonicity

When the accepted step is at most `1e-6` the next line search starts again at 1 (lines 229-232 of proximal_gradient.py), and 15 halvings of 1
give `2^-15`.  On `L/2 x²` with `L` about a million the line search therefore alternates between a success with step `2^-20` and a failure with
step `2^-15`, thirty times too long.
-/

set_option autoImplicit false
set_option linter.unusedSectionVars false
set_option linter.unusedVariables false

namespace Jaxopt.ProxGrad

open Jaxopt.Base Jaxopt.Loop
open Jaxopt.QuasiNewton (Stepsize)

namespace PG

/-- `f(x) = L/2 x²` on the real line with the default attributes of `GradientDescent` (proximal_gradient.py lines 150-156): line search,
`maxls = 15`, `decrease_factor = 0.5`. -/
noncomputable def steep (L eps tol : ℝ) (maxiter : ℕ) (acc : Bool) : PG ℝ ℝ where
  f x := L / 2 * (x * x)
  grad x := L * x
  prox x _ := x
  vdot x y := x * y
  norm x := |x|
  sqrt := Real.sqrt
  eps := eps
  stepsize := .const 0
  maxiter := maxiter
  maxls := 15
  tol := tol
  acceleration := acc
  decreaseFactor := 1 / 2
  unroll := true
  jit := true

section Steep

variable {L eps tol : ℝ} {maxiter : ℕ} {acc : Bool}

/-- A step `s` is rejected on `L/2 x²` when the excess `(sL - 1)(sLy)²/2` is larger than `eps`. -/
theorem steep_rejects {y s : ℝ} (h : eps < 1 / 2 * ((s * L - 1) * (s * L * y) ^ 2)) :
    (steep L eps tol maxiter acc).lsCond y ((steep L eps tol maxiter acc).f y) ((steep L eps tol maxiter acc).grad y)
      ((steep L eps tol maxiter acc).proxGrad y ((steep L eps tol maxiter acc).grad y) s, s) = true := by
  refine decide_eq_true ?_
  simp only [steep, proxGrad, smul_eq_mul, gt_iff_lt]
  nlinarith

theorem steep_accepts (he : 0 ≤ eps) {y s : ℝ} (h : s * L ≤ 1) :
    (steep L eps tol maxiter acc).lsCond y ((steep L eps tol maxiter acc).f y) ((steep L eps tol maxiter acc).grad y)
      ((steep L eps tol maxiter acc).proxGrad y ((steep L eps tol maxiter acc).grad y) s, s) = false := by
  rw [lsCond_false_iff]
  simp only [steep, proxGrad, smul_eq_mul]
  nlinarith [mul_nonneg (sub_nonneg.mpr h) (sq_nonneg (s * L * y))]

theorem steep_prox (y s : ℝ) :
    (steep L eps tol maxiter acc).proxGrad y ((steep L eps tol maxiter acc).grad y) s = (1 - s * L) * y := by
  simp only [steep, proxGrad, smul_eq_mul]; ring

variable (hL : 970000 ≤ L) (hL' : L ≤ 1000000) (he : 0 ≤ eps) (he1 : eps ≤ 1)

include hL he1

/-- Rejection of the steps from `2^-19` on, at points of size at least 1. -/
theorem steep_rejects_long {y s : ℝ} (hy : 1 ≤ |y|) (hs : 1 / 524288 ≤ s) :
    (steep L eps tol maxiter acc).lsCond y ((steep L eps tol maxiter acc).f y) ((steep L eps tol maxiter acc).grad y)
      ((steep L eps tol maxiter acc).proxGrad y ((steep L eps tol maxiter acc).grad y) s, s) = true := by
  apply steep_rejects
  have h1 : 37 / 20 ≤ s * L := by nlinarith
  have h2 : 1 ≤ y ^ 2 := by rw [← sq_abs]; nlinarith
  have h3 : (s * L * y) ^ 2 = (s * L) ^ 2 * y ^ 2 := by ring
  rw [h3]
  have h4 : 34 / 10 ≤ (s * L) ^ 2 := by nlinarith
  have h5 : 34 / 10 ≤ (s * L) ^ 2 * y ^ 2 := by nlinarith
  nlinarith

/-- Starting from 1 the line search uses up its 15 halvings. -/
theorem steep_search_one (p : ℝ × PGState ℝ ℝ) (hp : p.2.stepsize = 1) (hy : 1 ≤ |(steep L eps tol maxiter acc).point p|) :
    (steep L eps tol maxiter acc).search p = ((1 - L / 32768) * (steep L eps tol maxiter acc).point p, 1 / 32768) := by
  have e : (1 : ℝ) * (1 / 2) ^ 15 = 1 / 32768 := by norm_num
  have := (steep L eps tol maxiter acc).search_eq p 15 le_rfl ?_ (Or.inl rfl)
  · rw [this]
    rw [steep_prox, hp]
    simp only [show (steep L eps tol maxiter acc).decreaseFactor = 1 / 2 from rfl, e]
    rw [show (1 : ℝ) - 1 / 32768 * L = 1 - L / 32768 by ring]
  · intro i hi
    rw [hp]
    apply steep_rejects_long hL he1 hy
    change (1 / 524288 : ℝ) ≤ 1 * (1 / 2) ^ i
    have : ((1 : ℝ) / 2) ^ 19 ≤ (1 / 2) ^ i := pow_le_pow_of_le_one (by norm_num) (by norm_num) (by omega)
    norm_num at this ⊢
    linarith

include hL' he

/-- Starting from `2^-14` it accepts `2^-20`. -/
theorem steep_search_small (p : ℝ × PGState ℝ ℝ) (hp : p.2.stepsize = 1 / 16384) (hy : 1 ≤ |(steep L eps tol maxiter acc).point p|) :
    (steep L eps tol maxiter acc).search p = ((1 - L / 1048576) * (steep L eps tol maxiter acc).point p, 1 / 1048576) := by
  have e : (1 / 16384 : ℝ) * (1 / 2) ^ 6 = 1 / 1048576 := by norm_num
  have := (steep L eps tol maxiter acc).search_eq p 6 (by norm_num [steep]) ?_ (Or.inr ?_)
  · rw [this]
    rw [steep_prox, hp]
    simp only [show (steep L eps tol maxiter acc).decreaseFactor = 1 / 2 from rfl, e]
    rw [show (1 : ℝ) - 1 / 1048576 * L = 1 - L / 1048576 by ring]
  · intro i hi
    rw [hp]
    apply steep_rejects_long hL he1 hy
    change (1 / 524288 : ℝ) ≤ 1 / 16384 * (1 / 2) ^ i
    have : ((1 : ℝ) / 2) ^ 5 ≤ (1 / 2) ^ i := pow_le_pow_of_le_one (by norm_num) (by norm_num) (by omega)
    norm_num at this ⊢
    linarith
  · rw [hp]
    apply steep_accepts he
    simp only [show (steep L eps tol maxiter acc).decreaseFactor = 1 / 2 from rfl, e]
    linarith

end Steep

/-! ### Without acceleration -/

theorem steep_product {L : ℝ} (hL : 970000 ≤ L) (hL' : L ≤ 1000000) : 4 / 3 ≤ (L / 32768 - 1) * (1 - L / 1048576) := by nlinarith

section Plain

variable {L eps tol : ℝ} {maxiter : ℕ} (hL : 970000 ≤ L) (hL' : L ≤ 1000000) (he : 0 ≤ eps) (he1 : eps ≤ 1)

include hL hL' he he1

theorem steep_plain (x0 : ℝ) (hx : 1 ≤ |x0|) (n : ℕ) :
    let S := steep L eps tol maxiter false
    let A := (L / 32768 - 1) * (1 - L / 1048576)
    (|(S.iterate x0 (2 * n)).1| = A ^ n * |x0| ∧ (S.iterate x0 (2 * n)).2.stepsize = 1) ∧
      (S.iterate x0 (2 * n + 1)).1 = (1 - L / 32768) * (S.iterate x0 (2 * n)).1 ∧ (S.iterate x0 (2 * n + 1)).2.stepsize = 1 / 16384 ∧
      (S.iterate x0 (2 * n + 2)).1 = (1 - L / 1048576) * (S.iterate x0 (2 * n + 1)).1 ∧ (S.iterate x0 (2 * n + 2)).2.stepsize = 1 := by
  intro S A
  have hA : 4 / 3 ≤ A := steep_product hL hL'
  have hstep : S.stepsize = .const 0 := rfl
  have hpt : ∀ p, S.point p = p.1 := fun p => rfl
  have two : ∀ p : ℝ × PGState ℝ ℝ, p.2.stepsize = 1 → 1 ≤ |p.1| →
      (S.update p).1 = (1 - L / 32768) * p.1 ∧ (S.update p).2.stepsize = 1 / 16384 ∧
      (S.update (S.update p)).1 = (1 - L / 1048576) * (S.update p).1 ∧ (S.update (S.update p)).2.stepsize = 1 := by
    intro p hp hy
    have h1 := steep_search_one (tol := tol) (maxiter := maxiter) (acc := false) hL he1 p hp hy
    obtain ⟨u1, u2⟩ := S.update_search hstep le_rfl p
    change S.search p = _ at h1
    rw [h1] at u1 u2
    rw [if_neg (by norm_num)] at u2
    have u2 : (S.update p).2.stepsize = 1 / 16384 := by rw [u2]; norm_num [S, steep]
    have u1 : (S.update p).1 = (1 - L / 32768) * p.1 := u1
    have hy2 : 1 ≤ |(S.update p).1| := by
      rw [u1, abs_mul, abs_of_neg (by linarith : 1 - L / 32768 < 0)]
      nlinarith
    have h2 := steep_search_small (tol := tol) (maxiter := maxiter) (acc := false) hL hL' he he1 (S.update p) u2 hy2
    obtain ⟨v1, v2⟩ := S.update_search hstep le_rfl (S.update p)
    change S.search (S.update p) = _ at h2
    rw [h2] at v1 v2
    rw [if_pos (by norm_num)] at v2
    exact ⟨u1, u2, v1, v2⟩
  have hinv : |(S.iterate x0 (2 * n)).1| = A ^ n * |x0| ∧ (S.iterate x0 (2 * n)).2.stepsize = 1 := by
    induction n with
    | zero => exact ⟨by simp [iterate], rfl⟩
    | succ n ih =>
      obtain ⟨h1, h2⟩ := ih
      have hA1 : 1 ≤ A ^ n := one_le_pow₀ (by linarith)
      obtain ⟨a1, a2, a3, a4⟩ := two _ h2 (by rw [h1]; nlinarith)
      rw [show 2 * (n + 1) = 2 * n + 1 + 1 by ring, iterate_succ, iterate_succ]
      refine ⟨?_, a4⟩
      rw [a3, a1, abs_mul, abs_mul, h1, abs_of_neg (by linarith : 1 - L / 32768 < 0), abs_of_pos (by linarith : 0 < 1 - L / 1048576), pow_succ]
      simp only [A]; ring
  refine ⟨hinv, ?_⟩
  have hA1 : 1 ≤ A ^ n := one_le_pow₀ (by linarith)
  have := two _ hinv.2 (by rw [hinv.1]; nlinarith)
  rw [show 2 * n + 2 = 2 * n + 1 + 1 by ring, iterate_succ S x0 (2 * n + 1), iterate_succ S x0 (2 * n)]
  exact this

end Plain

/-! ### With acceleration -/

section Accel

variable {L eps tol : ℝ} {maxiter : ℕ} (hL : 970000 ≤ L) (hL' : L ≤ 1000000) (he : 0 ≤ eps) (he1 : eps ≤ 1)

theorem steep_update_accel (p : ℝ × PGState ℝ ℝ) :
    let S := steep L eps tol maxiter true
    let t' := 1 / 2 * (1 + Real.sqrt (1 + 4 * (p.2.t * p.2.t)))
    (S.update p).2.t = t' ∧ (S.update p).2.velocity = (S.search p).1 + (p.2.t - 1) / t' * ((S.search p).1 - p.1) := by
  intro S t'
  refine ⟨rfl, ?_⟩
  simp only [S, update, steep, if_true, updateAccel, iter, le_refl, search, point, smul_eq_mul]
  rfl

theorem real_sqrt_ok (a : ℝ) (ha : 0 ≤ a) : 0 ≤ Real.sqrt a ∧ Real.sqrt a * Real.sqrt a = a :=
  ⟨Real.sqrt_nonneg a, Real.mul_self_sqrt ha⟩

/-- The momentum coefficient: between 0 and 1, and at least 0.27 once `t ≥ 1.6`. -/
theorem momentum {t : ℝ} (ht : 1 ≤ t) :
    let t' := 1 / 2 * (1 + Real.sqrt (1 + 4 * (t * t)))
    0 ≤ (t - 1) / t' ∧ (t - 1) / t' ≤ 1 ∧ 8 / 5 ≤ t' ∧ (8 / 5 ≤ t → 27 / 100 ≤ (t - 1) / t') := by
  intro t'
  obtain ⟨h1, h2⟩ := next_t real_sqrt_ok (show 0 ≤ t by linarith)
  change t' * t' - t' = t * t at h1
  change t + 1 / 2 ≤ t' at h2
  have h0 : 0 < t' := by linarith
  refine ⟨div_nonneg (by linarith) h0.le, by rw [div_le_one h0]; linarith, by nlinarith, fun h8 => ?_⟩
  rw [le_div_iff₀ h0]
  have : t' ≤ t + 3 / 5 := by nlinarith
  linarith

include hL hL' he he1

omit hL' he in
/-- One step from stepsize 1. -/
theorem steep_one :
    let S := steep L eps tol maxiter true
    let a := L / 32768 - 1
    let b := 1 - L / 1048576
    ∀ p : ℝ × PGState ℝ ℝ, p.2.stepsize = 1 → 1 ≤ |p.2.velocity| →
      S.search p = (-a * p.2.velocity, 1 / 32768) ∧ (S.update p).1 = -a * p.2.velocity ∧ (S.update p).2.stepsize = 1 / 16384 := by
  intro S a b
  have hstep : S.stepsize = .const 0 := rfl
  intro p hp hy
  have h1 := steep_search_one (tol := tol) (maxiter := maxiter) (acc := true) hL he1 p hp hy
  obtain ⟨u1, u2⟩ := S.update_search hstep le_rfl p
  have h1 : S.search p = (-a * p.2.velocity, 1 / 32768) := by
    rw [show -a = 1 - L / 32768 by simp only [a]; ring]; exact h1
  rw [h1] at u1 u2
  rw [if_neg (by norm_num)] at u2
  exact ⟨h1, u1, by rw [u2]; norm_num [S, steep]⟩

/-- One step from stepsize `2^-14`. -/
theorem steep_small :
    let S := steep L eps tol maxiter true
    let a := L / 32768 - 1
    let b := 1 - L / 1048576
    ∀ p : ℝ × PGState ℝ ℝ, p.2.stepsize = 1 / 16384 → 1 ≤ |p.2.velocity| →
      S.search p = (b * p.2.velocity, 1 / 1048576) ∧ (S.update p).1 = b * p.2.velocity ∧ (S.update p).2.stepsize = 1 := by
  intro S a b
  have hstep : S.stepsize = .const 0 := rfl
  intro p hp hy
  have h1 : S.search p = (b * p.2.velocity, 1 / 1048576) :=
    steep_search_small (tol := tol) (maxiter := maxiter) (acc := true) hL hL' he he1 p hp hy
  obtain ⟨u1, u2⟩ := S.update_search hstep le_rfl p
  rw [h1] at u1 u2
  rw [if_pos (by norm_num)] at u2
  exact ⟨h1, u1, u2⟩

/-- Two steps from an odd state. -/
theorem steep_two :
    let S := steep L eps tol maxiter true
    let a := L / 32768 - 1
    let b := 1 - L / 1048576
    ∀ p : ℝ × PGState ℝ ℝ, ∀ r, 1 ≤ r → r ≤ 2 → p.2.velocity = r * p.1 → p.2.stepsize = 1 / 16384 → 8 / 5 ≤ p.2.t → 2 * 14 ≤ |p.1| →
      (S.update p).1 = b * r * p.1 ∧ (S.update p).2.stepsize = 1 ∧
      ∃ r', 1 ≤ r' ∧ r' ≤ 2 ∧ (S.update (S.update p)).2.velocity = r' * (S.update (S.update p)).1 ∧
        (S.update (S.update p)).2.stepsize = 1 / 16384 ∧ 8 / 5 ≤ (S.update (S.update p)).2.t ∧
        2 * |p.1| ≤ |(S.update (S.update p)).1| ∧ 1 ≤ |(S.update (S.update p)).1 - (S.update p).1| := by
  intro S a b
  have ha : 286 / 10 ≤ a := by simp only [a]; linarith
  have hb : 46 / 1000 ≤ b := by simp only [b]; linarith
  have hb' : b ≤ 75 / 1000 := by simp only [b]; linarith
  have hstep : S.stepsize = .const 0 := rfl
  have one := steep_one (tol := tol) (maxiter := maxiter) hL he1
  have small := steep_small (tol := tol) (maxiter := maxiter) hL hL' he he1
  intro p r hr hr2 hvel hst ht hp
  have hy : 1 ≤ |p.2.velocity| := by
    rw [hvel, abs_mul, abs_of_pos (by linarith : (0 : ℝ) < r)]
    have := mul_le_mul hr hp (by norm_num) (by linarith); linarith
  obtain ⟨s1, s2, s3⟩ := small p hst hy
  have hx1 : (S.update p).1 = b * r * p.1 := by rw [s2, hvel]; ring
  obtain ⟨m1, m2, m3, m4⟩ := momentum (show 1 ≤ p.2.t by linarith)
  have m4 := m4 ht
  obtain ⟨t1, v1⟩ := steep_update_accel (L := L) (eps := eps) (tol := tol) (maxiter := maxiter) p
  change (S.update p).2.t = _ at t1
  change (S.update p).2.velocity = _ at v1
  rw [s1] at v1
  set t' := 1 / 2 * (1 + Real.sqrt (1 + 4 * (p.2.t * p.2.t))) with ht'
  set be := (p.2.t - 1) / t' with hbe
  set q := be - b * r * (1 + be) with hq
  have hbr1 : 46 / 1000 ≤ b * r := by have := mul_le_mul hb hr (by norm_num) (by linarith); linarith
  have hbr2 : b * r ≤ 15 / 100 := by have := mul_le_mul hb' hr2 (by linarith) (by norm_num); linarith
  have hv1 : (S.update p).2.velocity = -q * p.1 := by
    rw [v1]
    change b * p.2.velocity + be * (b * p.2.velocity - p.1) = _
    rw [hvel, hq]; ring
  have hq1 : 79 / 1000 ≤ q := by
    have := mul_nonneg (sub_nonneg.mpr m4) (show 0 ≤ 1 - b * r by linarith)
    rw [hq]; linarith
  have hq2 : q ≤ 1 := by
    have := mul_nonneg (show 0 ≤ b * r by linarith) (show 0 ≤ 1 + be by linarith)
    rw [hq]; linarith
  have hy2 : 1 ≤ |(S.update p).2.velocity| := by
    rw [hv1, abs_mul, abs_neg, abs_of_pos (by linarith : 0 < q)]
    have := mul_le_mul hq1 hp (by norm_num) (by linarith); linarith
  obtain ⟨w1, w2, w3⟩ := one (S.update p) s3 hy2
  have hx2 : (S.update (S.update p)).1 = a * q * p.1 := by rw [w2, hv1]; ring
  have haq : 2 ≤ a * q := by have := mul_le_mul ha hq1 (by norm_num) (by linarith); linarith
  obtain ⟨t2, v2⟩ := steep_update_accel (L := L) (eps := eps) (tol := tol) (maxiter := maxiter) (S.update p)
  change (S.update (S.update p)).2.t = _ at t2
  change (S.update (S.update p)).2.velocity = _ at v2
  rw [w1, t1] at v2
  rw [t1] at t2
  obtain ⟨n1, n2, n3, n4⟩ := momentum (show 1 ≤ t' by linarith)
  set t'' := 1 / 2 * (1 + Real.sqrt (1 + 4 * (t' * t'))) with ht''
  set be' := (t' - 1) / t'' with hbe'
  have hx0' : 0 ≤ b * r / (a * q) := div_nonneg (by linarith) (by linarith)
  have hx1' : b * r / (a * q) ≤ 1 := by rw [div_le_one (by linarith)]; linarith
  refine ⟨hx1, s3, 1 + be' * (1 - b * r / (a * q)), ?_, ?_, ?_, w3, ?_, ?_, ?_⟩
  · have := mul_nonneg n1 (sub_nonneg.mpr hx1')
    linarith
  · have := mul_le_mul n2 (show 1 - b * r / (a * q) ≤ 1 by linarith) (by linarith) zero_le_one
    linarith
  · rw [v2]
    change -a * (S.update p).2.velocity + be' * (-a * (S.update p).2.velocity - (S.update p).1) = _
    rw [hx2, hx1, hv1]
    have : a * q ≠ 0 := by linarith
    have e : b * r / (a * q) * (a * q * p.1) = b * r * p.1 := by rw [← mul_assoc, div_mul_cancel₀ _ this]
    linear_combination be' * e
  · rw [t2]; exact n3
  · rw [hx2, abs_mul, abs_of_pos (by linarith : 0 < a * q)]
    exact mul_le_mul_of_nonneg_right haq (abs_nonneg _)
  · rw [hx2, hx1, ← sub_mul, abs_mul, abs_of_pos (by linarith : 0 < a * q - b * r)]
    have := mul_le_mul (show 1 ≤ a * q - b * r by linarith) hp (by norm_num) (by linarith); linarith

/-- After an odd number of updates the velocity is between once and twice the parameters, the stepsize is `2^-14`, and the parameters have
doubled every two updates. -/
theorem steep_accel (x0 : ℝ) (hx : 1 ≤ |x0|) (n : ℕ) :
    let S := steep L eps tol maxiter true
    let a := L / 32768 - 1
    let b := 1 - L / 1048576
    (∃ r, 1 ≤ r ∧ r ≤ 2 ∧ (S.iterate x0 (2 * n + 1)).2.velocity = r * (S.iterate x0 (2 * n + 1)).1 ∧
      (S.iterate x0 (2 * n + 2)).1 = b * r * (S.iterate x0 (2 * n + 1)).1) ∧
      (S.iterate x0 (2 * n + 1)).2.stepsize = 1 / 16384 ∧ (S.iterate x0 (2 * n + 2)).2.stepsize = 1 ∧
      8 / 5 ≤ (S.iterate x0 (2 * n + 1)).2.t ∧ a * 2 ^ n * |x0| ≤ |(S.iterate x0 (2 * n + 1)).1| ∧
      |(S.iterate x0 (2 * n + 3)).1 - (S.iterate x0 (2 * n + 2)).1| ≥ 1 := by
  intro S a b
  have ha : 286 / 10 ≤ a := by simp only [a]; linarith
  have hb : 46 / 1000 ≤ b := by simp only [b]; linarith
  have hb' : b ≤ 75 / 1000 := by simp only [b]; linarith
  have hstep : S.stepsize = .const 0 := rfl
  have hpt : ∀ p, S.point p = p.2.velocity := fun p => rfl
  have two := steep_two (tol := tol) (maxiter := maxiter) hL hL' he he1
  have one := steep_one (tol := tol) (maxiter := maxiter) hL he1
  -- the invariant
  have hinv : ∃ r, 1 ≤ r ∧ r ≤ 2 ∧ (S.iterate x0 (2 * n + 1)).2.velocity = r * (S.iterate x0 (2 * n + 1)).1 ∧
      (S.iterate x0 (2 * n + 1)).2.stepsize = 1 / 16384 ∧ 8 / 5 ≤ (S.iterate x0 (2 * n + 1)).2.t ∧
      a * 2 ^ n * |x0| ≤ |(S.iterate x0 (2 * n + 1)).1| := by
    induction n with
    | zero =>
      have h0 : S.iterate x0 (2 * 0 + 1) = S.update (x0, S.initState x0) := rfl
      rw [h0]
      obtain ⟨w1, w2, w3⟩ := one (x0, S.initState x0) rfl hx
      obtain ⟨t1, v1⟩ := steep_update_accel (L := L) (eps := eps) (tol := tol) (maxiter := maxiter) (x0, S.initState x0)
      change (S.update (x0, S.initState x0)).2.t = _ at t1
      change (S.update (x0, S.initState x0)).2.velocity = _ at v1
      obtain ⟨m1, m2, m3, m4⟩ := momentum (le_refl (1 : ℝ))
      refine ⟨1, le_rfl, by norm_num, ?_, w3, ?_, ?_⟩
      · rw [v1, w1, w2]
        change -a * x0 + (1 - 1) / _ * _ = 1 * (-a * x0)
        rw [sub_self, zero_div]; ring
      · rw [t1]; exact m3
      · rw [w2]
        change _ ≤ |-a * x0|
        rw [abs_mul, abs_neg, abs_of_pos (by linarith : 0 < a)]; simp
    | succ n ih =>
      obtain ⟨r, h1, h2, h3, h4, h5, h6⟩ := ih
      have hp2 : (1 : ℝ) ≤ 2 ^ n := one_le_pow₀ (by norm_num)
      have hbig : 2 * 14 ≤ |(S.iterate x0 (2 * n + 1)).1| := by
        have : a ≤ a * 2 ^ n := by nlinarith
        nlinarith
      obtain ⟨_, _, r', g1, g2, g3, g4, g5, g6, _⟩ := two _ r h1 h2 h3 h4 h5 hbig
      rw [show 2 * (n + 1) + 1 = 2 * n + 1 + 1 + 1 by ring, iterate_succ, iterate_succ]
      refine ⟨r', g1, g2, g3, g4, g5, le_trans ?_ g6⟩
      rw [pow_succ]; linarith
  obtain ⟨r, h1, h2, h3, h4, h5, h6⟩ := hinv
  have hp2 : (1 : ℝ) ≤ 2 ^ n := one_le_pow₀ (by norm_num)
  have hbig : 2 * 14 ≤ |(S.iterate x0 (2 * n + 1)).1| := by
    have : a ≤ a * 2 ^ n := by nlinarith
    nlinarith
  obtain ⟨g1, g2, _, _, _, _, _, _, _, g3⟩ := two _ r h1 h2 h3 h4 h5 hbig
  refine ⟨⟨r, h1, h2, h3, ?_⟩, h4, ?_, h5, h6, ?_⟩
  · rw [iterate_succ]; exact g1
  · rw [iterate_succ]; exact g2
  · rw [show 2 * n + 3 = 2 * n + 1 + 1 + 1 by ring, iterate_succ, show 2 * n + 2 = 2 * n + 1 + 1 by ring, iterate_succ]; exact g3

end Accel

/-! ### Divergence -/

section Diverge

variable {L eps tol : ℝ} {maxiter : ℕ} {acc : Bool} (hL : 970000 ≤ L) (hL' : L ≤ 1000000) (he : 0 ≤ eps) (he1 : eps ≤ 1)

/-- The error compares the parameters before and after the update, with or without acceleration. -/
theorem error_update {K E : Type*} [Field K] [LinearOrder K] [AddCommGroup E] [Module K E] (S : PG K E) (p : E × PGState K E) :
    (S.update p).2.error = .fin (S.norm ((S.update p).1 - p.1) / (S.update p).2.stepsize) := by
  cases hacc : S.acceleration
  · simp only [update, hacc, Bool.false_eq_true, if_false, updatePlain, errorOf]
  · simp only [update, hacc, if_true, updateAccel, errorOf]

include hL hL' he he1

/-- **C98, divergence of the default line search**: gradient descent with the default attributes on `L/2 x²`, `970000 ≤ L ≤ 1000000`, with or
without acceleration, started at any point with `|x0| ≥ 1`: the distance to the minimiser grows by the factor `4/3` every two updates and the
error never falls below 1. -/
theorem C98_steep_diverges (x0 : ℝ) (hx : 1 ≤ |x0|) (k : ℕ) :
    let S := steep L eps tol maxiter acc
    (4 / 3) ^ (k / 2) * |x0| ≤ |(S.iterate x0 k).1| ∧ ∃ e, (S.iterate x0 (k + 1)).2.error = .fin e ∧ 1 < e := by
  intro S
  have hP := steep_product hL hL'
  have herr : ∀ k, (S.iterate x0 (k + 1)).2.error =
      .fin (|(S.iterate x0 (k + 1)).1 - (S.iterate x0 k).1| / (S.iterate x0 (k + 1)).2.stepsize) := fun k => by
    rw [iterate_succ]; exact S.error_update _
  have hpow : ∀ n, (1 : ℝ) ≤ (4 / 3) ^ n := fun n => one_le_pow₀ (by norm_num)
  obtain ⟨n, rfl | rfl⟩ : ∃ n, k = 2 * n ∨ k = 2 * n + 1 := ⟨k / 2, by omega⟩
  · rw [show 2 * n / 2 = n by omega]
    rw [herr]
    cases acc with
    | false =>
      obtain ⟨⟨h1, h2⟩, h3, h4, h5, h6⟩ := steep_plain (tol := tol) (maxiter := maxiter) hL hL' he he1 x0 hx n
      change |(S.iterate x0 (2 * n)).1| = _ at h1
      change (S.iterate x0 (2 * n + 1)).1 = (1 - L / 32768) * (S.iterate x0 (2 * n)).1 at h3
      change (S.iterate x0 (2 * n + 1)).2.stepsize = _ at h4
      have hg : (4 / 3) ^ n * |x0| ≤ |(S.iterate x0 (2 * n)).1| := by
        rw [h1]; exact mul_le_mul_of_nonneg_right (pow_le_pow_left₀ (by norm_num) hP n) (abs_nonneg _)
      refine ⟨hg, _, rfl, ?_⟩
      rw [h3, h4, show (1 - L / 32768) * (S.iterate x0 (2 * n)).1 - (S.iterate x0 (2 * n)).1 = -(L / 32768) * (S.iterate x0 (2 * n)).1 by ring,
        abs_mul, abs_neg, abs_of_pos (by linarith : 0 < L / 32768), lt_div_iff₀ (by norm_num)]
      have := hpow n
      have h7 : 1 ≤ |(S.iterate x0 (2 * n)).1| := by nlinarith
      nlinarith
    | true =>
      cases n with
      | zero =>
        obtain ⟨w1, w2, w3⟩ := steep_one (tol := tol) (maxiter := maxiter) hL he1 (x0, S.initState x0) rfl hx
        change (S.iterate x0 1).1 = -(L / 32768 - 1) * x0 at w2
        change (S.iterate x0 1).2.stepsize = 1 / 16384 at w3
        refine ⟨by simp [iterate], _, rfl, ?_⟩
        change 1 < |(S.iterate x0 1).1 - x0| / (S.iterate x0 1).2.stepsize
        rw [w2, w3, show -(L / 32768 - 1) * x0 - x0 = -(L / 32768) * x0 by ring, abs_mul, abs_neg, abs_of_pos (by linarith : 0 < L / 32768),
          lt_div_iff₀ (by norm_num)]
        nlinarith
      | succ n =>
        obtain ⟨⟨r, h1, h2, h3, h4⟩, h5, h6, h7, h8, h9⟩ := steep_accel (tol := tol) (maxiter := maxiter) hL hL' he he1 x0 hx n
        obtain ⟨_, g5, _⟩ := steep_accel (tol := tol) (maxiter := maxiter) hL hL' he he1 x0 hx (n + 1)
        change (S.iterate x0 (2 * n + 2)).1 = (1 - L / 1048576) * r * (S.iterate x0 (2 * n + 1)).1 at h4
        change (L / 32768 - 1) * 2 ^ n * |x0| ≤ |(S.iterate x0 (2 * n + 1)).1| at h8
        change |(S.iterate x0 (2 * n + 3)).1 - (S.iterate x0 (2 * n + 2)).1| ≥ 1 at h9
        change (S.iterate x0 (2 * n + 3)).2.stepsize = 1 / 16384 at g5
        change _ ≤ |(S.iterate x0 (2 * n + 2)).1| ∧ ∃ e, Ext.fin (|(S.iterate x0 (2 * n + 3)).1 - (S.iterate x0 (2 * n + 2)).1| /
          (S.iterate x0 (2 * n + 3)).2.stepsize) = .fin e ∧ 1 < e
        constructor
        · rw [h4, abs_mul, abs_mul, abs_of_pos (by linarith : 0 < 1 - L / 1048576), abs_of_pos (by linarith : 0 < r)]
          have hb : 0 < 1 - L / 1048576 := by linarith
          have i1 : (1 - L / 1048576) * ((L / 32768 - 1) * 2 ^ n * |x0|) ≤ (1 - L / 1048576) * |(S.iterate x0 (2 * n + 1)).1| :=
            mul_le_mul_of_nonneg_left h8 hb.le
          have i2 : (4 / 3 : ℝ) ^ n ≤ 2 ^ n := pow_le_pow_left₀ (by norm_num) (by norm_num) n
          have i3 : (4 / 3) * (4 / 3 : ℝ) ^ n ≤ (L / 32768 - 1) * (1 - L / 1048576) * 2 ^ n :=
            mul_le_mul hP i2 (by positivity) (by linarith)
          have i4 := mul_le_mul_of_nonneg_right i3 (abs_nonneg x0)
          have i5 : (1 - L / 1048576) * |(S.iterate x0 (2 * n + 1)).1| ≤ (1 - L / 1048576) * r * |(S.iterate x0 (2 * n + 1)).1| :=
            mul_le_mul_of_nonneg_right (by nlinarith) (abs_nonneg _)
          rw [pow_succ]
          linarith
        · refine ⟨_, rfl, ?_⟩
          rw [g5, lt_div_iff₀ (by norm_num)]
          linarith
  · rw [show (2 * n + 1) / 2 = n by omega]
    rw [herr]
    cases acc with
    | false =>
      obtain ⟨⟨h1, h2⟩, h3, h4, h5, h6⟩ := steep_plain (tol := tol) (maxiter := maxiter) hL hL' he he1 x0 hx n
      change |(S.iterate x0 (2 * n)).1| = _ at h1
      change (S.iterate x0 (2 * n + 1)).1 = (1 - L / 32768) * (S.iterate x0 (2 * n)).1 at h3
      change (S.iterate x0 (2 * n + 1 + 1)).1 = (1 - L / 1048576) * (S.iterate x0 (2 * n + 1)).1 at h5
      change (S.iterate x0 (2 * n + 1 + 1)).2.stepsize = 1 at h6
      have hg : (4 / 3) ^ n * |x0| ≤ |(S.iterate x0 (2 * n)).1| := by
        rw [h1]; exact mul_le_mul_of_nonneg_right (pow_le_pow_left₀ (by norm_num) hP n) (abs_nonneg _)
      have := hpow n
      have h7 : 1 ≤ |(S.iterate x0 (2 * n)).1| := by nlinarith
      have h8 : 28 * |(S.iterate x0 (2 * n)).1| ≤ |(S.iterate x0 (2 * n + 1)).1| := by
        rw [h3, abs_mul, abs_of_neg (by linarith : 1 - L / 32768 < 0)]; nlinarith
      refine ⟨by linarith, _, rfl, ?_⟩
      rw [h5, h6, show (1 - L / 1048576) * (S.iterate x0 (2 * n + 1)).1 - (S.iterate x0 (2 * n + 1)).1 =
        -(L / 1048576) * (S.iterate x0 (2 * n + 1)).1 by ring, abs_mul, abs_neg, abs_of_pos (by linarith : 0 < L / 1048576), div_one]
      nlinarith
    | true =>
      obtain ⟨⟨r, h1, h2, h3, h4⟩, h5, h6, h7, h8, h9⟩ := steep_accel (tol := tol) (maxiter := maxiter) hL hL' he he1 x0 hx n
      change (S.iterate x0 (2 * n + 1 + 1)).1 = (1 - L / 1048576) * r * (S.iterate x0 (2 * n + 1)).1 at h4
      change (L / 32768 - 1) * 2 ^ n * |x0| ≤ |(S.iterate x0 (2 * n + 1)).1| at h8
      change (S.iterate x0 (2 * n + 1 + 1)).2.stepsize = 1 at h6
      have i2 : (4 / 3 : ℝ) ^ n ≤ 2 ^ n := pow_le_pow_left₀ (by norm_num) (by norm_num) n
      have hp2 : (1 : ℝ) ≤ 2 ^ n := one_le_pow₀ (by norm_num)
      have i3 : 28 * 2 ^ n ≤ (L / 32768 - 1) * 2 ^ n := mul_le_mul_of_nonneg_right (by linarith) (by linarith)
      have i4 : 28 * 2 ^ n * |x0| ≤ (L / 32768 - 1) * 2 ^ n * |x0| := mul_le_mul_of_nonneg_right i3 (abs_nonneg _)
      have i5 : (4 / 3 : ℝ) ^ n * |x0| ≤ 2 ^ n * |x0| := mul_le_mul_of_nonneg_right i2 (abs_nonneg _)
      have i6 : 1 ≤ 2 ^ n * |x0| := by nlinarith
      refine ⟨by linarith, _, rfl, ?_⟩
      have hbr : (1 - L / 1048576) * r ≤ 15 / 100 := by
        have := mul_le_mul (show 1 - L / 1048576 ≤ 75 / 1000 by linarith) h2 (by linarith) (by norm_num); linarith
      rw [h4, h6, div_one, show (1 - L / 1048576) * r * (S.iterate x0 (2 * n + 1)).1 - (S.iterate x0 (2 * n + 1)).1 =
        -((1 - (1 - L / 1048576) * r) * (S.iterate x0 (2 * n + 1)).1) by ring, abs_neg, abs_mul,
        abs_of_pos (by linarith : 0 < 1 - (1 - L / 1048576) * r)]
      have := mul_le_mul (show 85 / 100 ≤ 1 - (1 - L / 1048576) * r by linarith)
        (show 28 ≤ |(S.iterate x0 (2 * n + 1)).1| by linarith) (by norm_num) (by linarith)
      linarith

/-- **C98, the divergent run**: the run uses all its iterations and returns a point whose objective exceeds that of the start by the factor
`(16/9)^(maxiter/2)`. -/
theorem C98_steep_run (ht : tol ≤ 1) (x0 : ℝ) (hx : 1 ≤ |x0|) (hm : 1 ≤ maxiter) :
    let S := steep L eps tol maxiter acc
    ∃ r, S.run x0 = .ok r ∧ r.2.iterNum = maxiter ∧ (16 / 9) ^ (maxiter / 2) * S.f x0 ≤ S.f r.1 := by
  intro S
  obtain ⟨r, hr⟩ := runS_ok S.initState S.update S.cont (maxiter := maxiter) (unroll := true) (jit := true) x0 hm (by simp)
  refine ⟨r, hr, ?_⟩
  obtain ⟨k, h1, h2, h3, h4, h5⟩ := runS_spec hm hr
  have hk : k = maxiter := by
    rcases h5 with h5 | h5
    · exact h5
    · obtain ⟨j, rfl⟩ : ∃ j, k = j + 1 := ⟨k - 1, by omega⟩
      obtain ⟨_, e, h6, h7⟩ := C98_steep_diverges (tol := tol) (maxiter := maxiter) (acc := acc) hL hL' he he1 x0 hx j
      change S.cont (S.iterate x0 (j + 1)) = false at h5
      have h6 : (S.iterate x0 (j + 1)).2.error = .fin e := h6
      simp only [cont, h6] at h5
      have : Ext.gt (.fin e) (.fin S.tol) = true := by
        simp only [Ext.gt, Ext.lt, decide_eq_true_eq]
        change tol < e
        linarith
      rw [this] at h5; cases h5
  subst hk
  have h3 : r = S.iterate x0 k := h3
  have h6 := (C98_steep_diverges (tol := tol) (maxiter := k) (acc := acc) hL hL' he he1 x0 hx k).1
  change _ ≤ |(S.iterate x0 k).1| at h6
  refine ⟨by rw [h3]; exact iterNum_iterate _ _ _, ?_⟩
  rw [h3]
  change (16 / 9) ^ (k / 2) * (L / 2 * (x0 * x0)) ≤ L / 2 * ((S.iterate x0 k).1 * (S.iterate x0 k).1)
  rw [← abs_mul_abs_self x0, ← abs_mul_abs_self (S.iterate x0 k).1]
  have h7 := mul_le_mul h6 h6 (by positivity) (abs_nonneg _)
  have e : (16 / 9 : ℝ) ^ (k / 2) = (4 / 3) ^ (k / 2) * (4 / 3) ^ (k / 2) := by rw [← mul_pow]; norm_num
  rw [e]
  nlinarith

end Diverge

/-- **C98 fails for the default line search**: with the default `maxls = 15` and `decrease_factor = 0.5`, with or without acceleration, a run on a
strongly convex quadratic need not end below the objective of its starting point. -/
theorem C98_default_false (acc : Bool) :
    ¬ ∀ (S : PG ℝ ℝ) (L : ℝ) (x0 : ℝ) (r : ℝ × PGState ℝ ℝ), S.acceleration = acc → S.stepsize = .const 0 → S.maxls = 15 →
      S.decreaseFactor = 1 / 2 → S.maxiter = 500 → S.tol = 1 / 1000 → (∀ x s, S.prox x s = x) → IsVdot S.vdot → (∀ v, S.norm v = |v|) →
      (∀ a, 0 ≤ a → 0 ≤ S.sqrt a ∧ S.sqrt a * S.sqrt a = a) → 0 ≤ S.eps → S.eps ≤ 1 → 0 < L → QuadUpper S.vdot S.f S.grad L →
      (∀ x y, S.f x + S.vdot (y - x) (S.grad x) + L / 2 * S.vdot (y - x) (y - x) ≤ S.f y) → S.run x0 = .ok r → S.f r.1 ≤ S.f x0 := by
  intro hall
  obtain ⟨r, h1, _, h2⟩ := C98_steep_run (L := 1000000) (eps := 0) (tol := 1 / 1000) (maxiter := 500) (acc := acc) (by norm_num) (by norm_num)
    le_rfl (by norm_num) (by norm_num) 1 (by norm_num) (by norm_num)
  have h3 := hall (steep 1000000 0 (1 / 1000) 500 acc) 1000000 1 r rfl rfl rfl rfl rfl rfl (fun _ _ => rfl)
    ⟨fun x y z => by simp only [steep]; ring, fun a x z => by simp only [steep, smul_eq_mul]; ring,
      fun x y => by simp only [steep]; ring, fun x hx => by simp only [steep]; exact mul_self_pos.mpr hx⟩
    (fun v => rfl) real_sqrt_ok le_rfl zero_le_one (by norm_num) (fun x y => by simp only [steep]; nlinarith)
    (fun x y => by simp only [steep]; nlinarith) h1
  have h4 : (steep 1000000 0 (1 / 1000) 500 acc).f 1 = 500000 := by norm_num [steep]
  rw [h4] at h2 h3
  have h5 : (1 : ℝ) < (16 / 9) ^ (500 / 2) := one_lt_pow₀ (by norm_num) (by norm_num)
  linarith

/-! ### Loss of monotonicity with a small Lipschitz constant -/

/-- The derivative of the Huber function: `x` clipped to `[-1, 1]`. -/
def huberGrad (x : ℚ) : ℚ := if x ≤ -1 then -1 else if 1 ≤ x then 1 else x

/-- The Huber function, convex and 1-smooth. -/
def huberFun (x : ℚ) : ℚ := huberGrad x * x - huberGrad x * huberGrad x / 2

/-- Gradient descent without acceleration and otherwise default attributes on the Huber function. -/
def exHuber : PG ℚ ℚ :=
  ⟨huberFun, huberGrad, fun x _ => x, fun x y => x * y, fun x => |x|, fun x => x, 0, .const 0, 500, 15, 1 / 1000, false, 1 / 2, true, true⟩

theorem exHuber_vdot : IsVdot exHuber.vdot :=
  ⟨fun x y z => by simp only [exHuber]; ring, fun a x z => by simp only [exHuber, smul_eq_mul]; ring,
    fun x y => by simp only [exHuber]; ring, fun x hx => by simp only [exHuber]; exact mul_self_pos.mpr hx⟩

theorem exHuber_convex : GradIneq exHuber.vdot exHuber.f exHuber.grad := by
  intro x y
  simp only [exHuber, huberFun, huberGrad]
  split_ifs <;> nlinarith [sq_nonneg (x - y)]

theorem exHuber_smooth : QuadUpper exHuber.vdot exHuber.f exHuber.grad 1 := by
  intro x y
  simp only [exHuber, huberFun, huberGrad]
  split_ifs <;> nlinarith [sq_nonneg (x - y)]

/-- **C98, monotonicity fails even for `L = 1`**: steps double on the flat part of the Huber function until 15 halvings no longer suffice near the
minimiser; started at `2^20 - 1/2`, iteration 21 raises the objective from `1/8` to 15. -/
theorem C98_monotone_false :
    ¬ ∀ (S : PG ℚ ℚ) (L x0 : ℚ) (k : ℕ), S.acceleration = false → S.stepsize = .const 0 → S.maxls = 15 → S.decreaseFactor = 1 / 2 →
      (∀ x s, S.prox x s = x) → IsVdot S.vdot → S.eps = 0 → L ≤ 1 → QuadUpper S.vdot S.f S.grad L → GradIneq S.vdot S.f S.grad →
      S.f (S.iterate x0 (k + 1)).1 ≤ S.f (S.iterate x0 k).1 := by
  intro hall
  have := hall exHuber 1 (1048576 - 1 / 2) 20 rfl rfl rfl rfl (fun _ _ => rfl) exHuber_vdot rfl le_rfl exHuber_smooth exHuber_convex
  revert this
  decide +kernel

/-! ### Non-vacuity -/

/-- The rate without acceleration on the Huber function from 8: the line searches of the first ten iterations succeed with steps at least `1/2`. -/
example : (exHuber.iterate 8 3).1 = 1 ∧ exHuber.f (exHuber.iterate 8 10).1 + 0 - (exHuber.f 0 + 0) ≤
    exHuber.vdot (8 - 0) (8 - 0) / (2 * (1 / 2) * (10 : ℕ)) + (10 : ℕ) * exHuber.eps / (1 / 2) := by
  refine ⟨by decide +kernel, ?_⟩
  have hprox : IsProx exHuber.vdot Set.univ (fun _ => 0) exHuber.prox := exHuber.C77_gd_prox exHuber_vdot
  have hd : 0 < exHuber.decreaseFactor := by norm_num [exHuber]
  have hd1 : exHuber.decreaseFactor ≤ 1 := by norm_num [exHuber]
  refine exHuber.C98_plain_rate exHuber_vdot hprox ⟨convex_univ, fun x _ y _ a b _ _ _ => by simp⟩ (a := 0) rfl le_rfl hd exHuber_convex rfl le_rfl 8
    (by norm_num) (by norm_num) ?_ ?_ (Set.mem_univ _)
  · intro i hi
    refine exHuber.C98_succeeds_first (a := 0) rfl le_rfl hd hd1 exHuber_vdot exHuber_smooth le_rfl 8 i ?_
    have : ((1 : ℚ) / 2) ^ 15 ≤ (1 / 2) ^ i := pow_le_pow_of_le_one (by norm_num) (by norm_num) (by omega)
    rw [one_mul]; exact this
  · intro i hi
    exact exHuber.C98_step_lower (a := 0) rfl le_rfl hd hd1 exHuber_vdot exHuber_smooth le_rfl (by norm_num) (by norm_num [exHuber]) (by norm_num) 8 i

/-- `x²/2 + 3y²/2` on the plane, `μ = 1`, `L = 3`, with line search and without acceleration. -/
def exPlane : PG ℚ (ℚ × ℚ) :=
  ⟨fun p => p.1 * p.1 / 2 + 3 * (p.2 * p.2) / 2, fun p => (p.1, 3 * p.2), fun x _ => x, fun p q => p.1 * q.1 + p.2 * q.2, fun p => |p.1| + |p.2|,
    fun x => x, 0, .const 0, 500, 15, 1 / 1000, false, 1 / 2, true, true⟩

theorem exPlane_vdot : IsVdot exPlane.vdot :=
  ⟨fun x y z => by simp only [exPlane, Prod.fst_add, Prod.snd_add]; ring,
    fun a x z => by simp only [exPlane, Prod.smul_fst, Prod.smul_snd, smul_eq_mul]; ring, fun x y => by simp only [exPlane]; ring,
    fun x hx => by
      simp only [exPlane]
      by_cases h : x.1 = 0
      · have h2 : x.2 ≠ 0 := fun h2 => hx (Prod.ext h h2)
        have := mul_self_pos.mpr h2
        nlinarith [mul_self_nonneg x.1]
      · have := mul_self_pos.mpr h
        nlinarith [mul_self_nonneg x.2]⟩

/-- The linear rate there: `σ = 1/6`, every line search succeeds and the squared distance to the minimiser contracts by `5/6`. -/
example : (exPlane.iterate (1, 1) 1).1 = (3 / 4, 1 / 4) ∧ ∀ k, exPlane.Succeeded (exPlane.iterate (1, 1) k) ∧
    exPlane.vdot ((exPlane.iterate (1, 1) k).1 - 0) ((exPlane.iterate (1, 1) k).1 - 0) ≤ (1 - 1 / 6 * 1) ^ k * exPlane.vdot ((1, 1) - 0) ((1, 1) - 0) := by
  refine ⟨by decide +kernel, fun k => ?_⟩
  have hprox : IsProx exPlane.vdot Set.univ (fun _ => 0) exPlane.prox := exPlane.C77_gd_prox exPlane_vdot
  refine exPlane.C98_linear exPlane_vdot hprox ⟨convex_univ, fun x _ y _ a b _ _ _ => by simp⟩ (a := 0) rfl le_rfl (by norm_num [exPlane]) (L := 3) (mu := 1)
    ?_ ?_ one_pos (by norm_num) rfl rfl (by norm_num [exPlane]) (by norm_num [exPlane]) (by norm_num [exPlane]) (by norm_num) (by norm_num [exPlane])
    (by norm_num) (1, 1) (Set.mem_univ _) ?_ k
  · intro x y
    simp only [exPlane, Prod.fst_sub, Prod.snd_sub]
    nlinarith [sq_nonneg (x.1 - y.1)]
  · intro x y
    simp only [exPlane, Prod.fst_sub, Prod.snd_sub]
    nlinarith [sq_nonneg (x.2 - y.2)]
  · intro y _
    simp only [exPlane, Prod.fst_zero, Prod.snd_zero]
    nlinarith [mul_self_nonneg y.1, mul_self_nonneg y.2]

/-- The accelerated rate on `3/8 x²` from 1 after two iterations: both take the step 1. -/
example : let S := steep (3 / 4) 0 (1 / 1000) 500 true
    S.f (S.iterate 1 2).1 + 0 - (S.f 0 + 0) ≤
      2 * S.vdot (1 - 0) (1 - 0) / ((S.search (S.iterate 1 (2 - 1))).2 * ((((2 : ℕ) : ℝ) + 1) * (((2 : ℕ) : ℝ) + 1))) +
        ((2 : ℕ) : ℝ) * S.eps / (S.search (S.iterate 1 (2 - 1))).2 := by
  intro S
  have hv : IsVdot S.vdot := ⟨fun x y z => by simp only [S, steep]; ring, fun a x z => by simp only [S, steep, smul_eq_mul]; ring,
      fun x y => by simp only [S, steep]; ring, fun x hx => by simp only [S, steep]; exact mul_self_pos.mpr hx⟩
  have hprox : IsProx S.vdot Set.univ (fun _ => 0) S.prox := S.C77_gd_prox hv
  have hq : QuadUpper S.vdot S.f S.grad (3 / 4) := fun x y => by simp only [S, steep]; nlinarith
  have hd : 0 < S.decreaseFactor := by norm_num [S, steep]
  have e0 : S.search (S.iterate 1 0) = (1 / 4, 1) := by
    have := S.search_eq (S.iterate 1 0) 0 (by norm_num [S, steep]) (by intro i hi; omega)
      (Or.inr (steep_accepts le_rfl (by norm_num [iterate, initState])))
    rw [this, steep_prox]
    simp only [iterate, Function.iterate_zero, id_eq, initState, point, S, steep]; norm_num
  obtain ⟨u1, u2⟩ := S.update_search (a := 0) rfl le_rfl (S.iterate 1 0)
  rw [e0] at u1 u2
  have u2 : (S.iterate 1 1).2.stepsize = 2 := by rw [iterate_succ, u2]; norm_num [S, steep]
  have u3 : (S.iterate 1 1).2.velocity = 1 / 4 := by
    obtain ⟨_, v1⟩ := steep_update_accel (L := 3 / 4) (eps := 0) (tol := 1 / 1000) (maxiter := 500) (S.iterate 1 0)
    change (S.iterate 1 1).2.velocity = (S.search (S.iterate 1 0)).1 + (1 - 1) / _ * _ at v1
    rw [v1, e0, sub_self, zero_div]; norm_num
  have hpt : S.point (S.iterate 1 1) = 1 / 4 := u3
  have e1 : (S.search (S.iterate 1 1)).2 = 1 := by
    have := S.search_eq (S.iterate 1 1) 1 (by norm_num [S, steep]) (by
      intro i hi
      have : i = 0 := by omega
      subst this
      refine steep_rejects ?_
      rw [u2, hpt]; norm_num)
      (Or.inr (steep_accepts le_rfl (by rw [u2]; norm_num [S, steep])))
    rw [this, u2]; norm_num [S, steep]
  refine S.C98_accel_rate hv hprox ⟨convex_univ, fun x _ y _ a b _ _ _ => by simp⟩ (a := 0) rfl le_rfl hd (fun x y => by simp only [S, steep]; nlinarith [sq_nonneg (x - y)])
    real_sqrt_ok rfl le_rfl 1 (Set.mem_univ _) (fun y _ => by simp only [S, steep]; nlinarith [mul_self_nonneg y]) (by norm_num) ?_ ?_
  · intro i hi
    refine S.C98_succeeds_first (a := 0) rfl le_rfl hd (by norm_num [S, steep]) hv hq le_rfl 1 i ?_
    have : i = 0 ∨ i = 1 := by omega
    rcases this with rfl | rfl <;> norm_num [S, steep]
  · intro i hi
    have : i = 0 := by omega
    subst this
    rw [e1, e0]

/-- The divergent runs: `5·10⁵ x²` from 1, default attributes. -/
example (acc : Bool) : ∃ r, (steep 1000000 (1 / 4503599627370496) (1 / 1000) 500 acc).run 1 = .ok r ∧ r.2.iterNum = 500 ∧
    (16 / 9) ^ 250 * 500000 ≤ (steep 1000000 (1 / 4503599627370496) (1 / 1000) 500 acc).f r.1 := by
  obtain ⟨r, h1, h2, h3⟩ := C98_steep_run (L := 1000000) (eps := 1 / 4503599627370496) (tol := 1 / 1000) (maxiter := 500) (acc := acc) (by norm_num)
    (by norm_num) (by norm_num) (by norm_num) (by norm_num) 1 (by norm_num) (by norm_num)
  refine ⟨r, h1, h2, ?_⟩
  have e : (steep 1000000 (1 / 4503599627370496) (1 / 1000) 500 acc).f 1 = 500000 := by norm_num [steep]
  rw [e] at h3
  exact h3

end PG

end Jaxopt.ProxGrad
