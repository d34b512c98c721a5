import Verif.FixedPoint.IterationProps

/-!
# C110: fixed point iteration with an inexact map

The map given to the solver is only an approximation (rounding, an inner solver) of a contraction, and the norm of the error is only approximate too.
-/

set_option autoImplicit false
set_option linter.unusedSectionVars false
set_option linter.unusedVariables false

namespace Jaxopt.FixedPoint.FPI

open Jaxopt.Base

variable {E A : Type*} [NormedAddCommGroup E]

/-- `S` computes the contraction `T` (factor `q`) up to `δ` and the norm up to `η`. -/
structure Inexact (S : FPI ℝ E A) (T : E → E) (q δ η : ℝ) : Prop where
  q0 : 0 ≤ q
  q1 : q < 1
  contract : ∀ x y, dist (T x) (T y) ≤ q * dist x y
  near : ∀ x, dist (S.map x) (T x) ≤ δ
  norm : ∀ v, |S.norm v - ‖v‖| ≤ η

/-- **C110 (iterates).**  The distance to the exact fixed point decreases geometrically down to `δ / (1 - q)`. -/
theorem C110_iterates (S : FPI ℝ E A) {T : E → E} {q δ η : ℝ} (h : S.Inexact T q δ η) {xs : E} (hxs : T xs = xs) (x0 : E) (k : ℕ) :
    dist (S.update^[k] (x0, S.initState x0)).1 xs ≤ q ^ k * dist x0 xs + δ / (1 - q) := by
  rw [iterate_params]
  have hq : 0 < 1 - q := by linarith [h.q1]
  have hδ : 0 ≤ δ := dist_nonneg.trans (h.near x0)
  induction k with
  | zero =>
    have : 0 ≤ δ / (1 - q) := div_nonneg hδ hq.le
    simpa using this
  | succ k ih =>
    rw [Function.iterate_succ_apply']
    set x := S.map^[k] x0
    have h1 := dist_triangle (S.map x) (T x) xs
    have h2 := h.near x
    have h3 := h.contract x xs
    rw [hxs] at h3
    have h4 := mul_le_mul_of_nonneg_left ih h.q0
    have e : q * (δ / (1 - q)) + δ = δ / (1 - q) := by
      rw [mul_div_assoc', div_add' _ _ _ hq.ne']
      congr 1; ring
    rw [pow_succ]
    nlinarith

theorem dist_steps (S : FPI ℝ E A) {T : E → E} {q δ η : ℝ} (h : S.Inexact T q δ η) (x0 : E) (k : ℕ) :
    dist (S.map^[k + 1] x0) (S.map^[k] x0) ≤ q ^ k * dist (S.map x0) x0 + 2 * δ / (1 - q) := by
  have hq : 0 < 1 - q := by linarith [h.q1]
  have hδ : 0 ≤ δ := dist_nonneg.trans (h.near x0)
  induction k with
  | zero =>
    have : 0 ≤ 2 * δ / (1 - q) := div_nonneg (by linarith) hq.le
    simpa using this
  | succ k ih =>
    rw [Function.iterate_succ_apply' S.map (k + 1), Function.iterate_succ_apply' S.map k] at *
    set x := S.map^[k] x0
    have h1 := dist_triangle4 (S.map (S.map x)) (T (S.map x)) (T x) (S.map x)
    have h2 := h.near (S.map x)
    have h3 := h.contract (S.map x) x
    have h4 := h.near x
    rw [dist_comm] at h4
    have h5 := mul_le_mul_of_nonneg_left ih h.q0
    have e : q * (2 * δ / (1 - q)) + 2 * δ = 2 * δ / (1 - q) := by
      rw [mul_div_assoc', div_add' _ _ _ hq.ne']
      congr 1; ring
    rw [pow_succ]
    nlinarith

/-- **C110 (certificate).**  The reported error `e` bounds the distance to the exact fixed point by `(q (e + η) + δ) / (1 - q)`, and it is at most the
tolerance unless the iterations were exhausted. -/
theorem C110_certificate (S : FPI ℝ E A) {T : E → E} {q δ η : ℝ} (h : S.Inexact T q δ η) {xs : E} (hxs : T xs = xs) (hm : 1 ≤ S.maxiter) {x0 : E}
    {r : E × FPIState ℝ A} (hr : S.run x0 = .ok r) :
    ∃ e, r.2.error = .fin e ∧ dist r.1 xs ≤ (q * (e + η) + δ) / (1 - q) ∧ (e ≤ S.tol ∨ r.2.iterNum = S.maxiter) := by
  obtain ⟨k, h1, h2, rfl, h4, h5⟩ := runS_spec hm hr
  obtain ⟨j, rfl⟩ : ∃ j, k = j + 1 := ⟨k - 1, by omega⟩
  have hq : 0 < 1 - q := by linarith [h.q1]
  have herr := iterate_error S x0 j
  refine ⟨_, herr, ?_, ?_⟩
  · rw [iterate_params, Function.iterate_succ_apply']
    set x := S.map^[j] x0
    have b1 := dist_triangle (S.map x) (T x) xs
    have b2 := h.near x
    have b3 := h.contract x xs
    rw [hxs] at b3
    have b4 := dist_triangle x (S.map x) xs
    have b5 := (abs_le.mp (h.norm (S.map x - x))).1
    rw [← dist_eq_norm, dist_comm] at b5
    rw [le_div_iff₀ hq]
    have b6 := mul_le_mul_of_nonneg_left b4 h.q0
    have b7 := mul_le_mul_of_nonneg_left (show dist x (S.map x) ≤ S.norm (S.map x - x) + η by linarith) h.q0
    linarith
  · have hit : ∀ k, (S.update^[k] (x0, S.initState x0)).2.iterNum = k := by
      intro k
      induction k with
      | zero => rfl
      | succ k ih => rw [Function.iterate_succ_apply']; simp only [update, ih]
    rcases h5 with h5 | h5
    · right; rw [hit, h5]
    · left
      simp only [cont, herr, Ext.gt, Ext.lt, decide_eq_false_iff_not, not_lt] at h5
      exact h5

/-- **C110 (termination).**  A tolerance above `2 δ / (1 - q) + η` is reached, given enough iterations. -/
theorem C110_terminates (S : FPI ℝ E A) {T : E → E} {q δ η : ℝ} (h : S.Inexact T q δ η) (ht : 2 * δ / (1 - q) + η < S.tol) (x0 : E) :
    ∃ N, ∀ r, N ≤ S.maxiter → S.run x0 = .ok r → ∃ e, r.2.error = .fin e ∧ e ≤ S.tol := by
  have hpos : 0 < S.tol - (2 * δ / (1 - q) + η) := by linarith
  obtain ⟨n, hn⟩ := exists_pow_lt_of_lt_one (show (0 : ℝ) < (S.tol - (2 * δ / (1 - q) + η)) / (dist (S.map x0) x0 + 1) by positivity) h.q1
  refine ⟨n + 1, fun r hN hr => ?_⟩
  obtain ⟨k, h1, h2, rfl, h4, h5⟩ := runS_spec (by omega) hr
  obtain ⟨j, rfl⟩ : ∃ j, k = j + 1 := ⟨k - 1, by omega⟩
  have herr := iterate_error S x0 j
  refine ⟨_, herr, ?_⟩
  rcases h5 with h5 | h5
  · have b1 := dist_steps S h x0 j
    have b2 := (abs_le.mp (h.norm (S.map^[j + 1] x0 - S.map^[j] x0))).2
    rw [← dist_eq_norm] at b2
    have b3 : q ^ j ≤ q ^ n := pow_le_pow_of_le_one h.q0 h.q1.le (by omega)
    have b4 : 0 ≤ dist (S.map x0) x0 := dist_nonneg
    rw [lt_div_iff₀ (by positivity)] at hn
    nlinarith [pow_nonneg h.q0 n]
  · simp only [cont, herr, Ext.gt, Ext.lt, decide_eq_false_iff_not, not_lt] at h5
    exact h5

/-- The map `x ↦ -q x` computed with an error of size `δ` away from zero. -/
noncomputable def bouncing (q δ tol : ℝ) (maxiter : ℕ) : FPI ℝ ℝ Unit :=
  ⟨.noAux fun x => if 0 < x then -q * x - δ else -q * x + δ, (‖·‖), maxiter, tol, true, true⟩

theorem bouncing_inexact (q δ tol : ℝ) (hq0 : 0 ≤ q) (hq1 : q < 1) (hδ : 0 < δ) (maxiter : ℕ) :
    (bouncing q δ tol maxiter).Inexact (fun x => -q * x) q δ 0 := by
  refine ⟨hq0, hq1, ?_, ?_, ?_⟩
  · intro x y
    rw [Real.dist_eq, Real.dist_eq, show -q * x - -q * y = -(q * (x - y)) by ring, abs_neg, abs_mul, abs_of_nonneg hq0]
  · intro x
    rw [show (bouncing q δ tol maxiter).map x = if 0 < x then -q * x - δ else -q * x + δ from rfl, Real.dist_eq]
    split_ifs
    · rw [show -q * x - δ - -q * x = -δ by ring, abs_neg, abs_of_pos hδ]
    · rw [show -q * x + δ - -q * x = δ by ring, abs_of_pos hδ]
  · intro v
    rw [show (bouncing q δ tol maxiter).norm v = ‖v‖ from rfl]; simp

/-- **C110 (sharpness).**  Below `2 δ / (1 - q)` the tolerance need not be reached, however many iterations are allowed: for each `q` and `δ` there is
an inexact map whose run from `δ / (1 - q)` uses all iterations and ends with the error `2 δ / (1 - q)`. -/
theorem C110_sharp_false (q δ tol : ℝ) (hq0 : 0 ≤ q) (hq1 : q < 1) (hδ : 0 < δ) (ht : tol < 2 * δ / (1 - q)) (maxiter : ℕ) (hm : 1 ≤ maxiter) :
    (bouncing q δ tol maxiter).Inexact (fun x => -q * x) q δ 0 ∧
      ∃ r, (bouncing q δ tol maxiter).run (δ / (1 - q)) = .ok r ∧ r.2.iterNum = maxiter ∧ r.2.error = .fin (2 * δ / (1 - q)) := by
  have hq : 0 < 1 - q := by linarith
  set a := δ / (1 - q) with ha
  have ha0 : 0 < a := div_pos hδ hq
  have hda : a * (1 - q) = δ := div_mul_cancel₀ _ hq.ne'
  have h2a : 2 * δ / (1 - q) = 2 * a := by rw [ha]; ring
  have hmap : ∀ x, (bouncing q δ tol maxiter).map x = if 0 < x then -q * x - δ else -q * x + δ := fun x => rfl
  have m1 : (bouncing q δ tol maxiter).map a = -a := by rw [hmap, if_pos ha0]; linarith
  have m2 : (bouncing q δ tol maxiter).map (-a) = a := by rw [hmap, if_neg (by linarith)]; linarith
  have hit : ∀ k, (bouncing q δ tol maxiter).map^[k] a = a ∧ (bouncing q δ tol maxiter).map^[k + 1] a = -a ∨
      (bouncing q δ tol maxiter).map^[k] a = -a ∧ (bouncing q δ tol maxiter).map^[k + 1] a = a := by
    intro k
    induction k with
    | zero => left; exact ⟨rfl, by simpa using m1⟩
    | succ k ih =>
      rcases ih with ⟨-, e⟩ | ⟨-, e⟩
      · right; exact ⟨e, by rw [Function.iterate_succ_apply', e, m2]⟩
      · left; exact ⟨e, by rw [Function.iterate_succ_apply', e, m1]⟩
  have herr : ∀ k, ((bouncing q δ tol maxiter).update^[k + 1] (a, (bouncing q δ tol maxiter).initState a)).2.error = .fin (2 * a) := by
    intro k
    rw [iterate_error]
    have hn : ∀ v, (bouncing q δ tol maxiter).norm v = |v| := fun v => rfl
    rw [hn]
    rcases hit k with ⟨e1, e2⟩ | ⟨e1, e2⟩
    · rw [e1, e2, show -a - a = -(2 * a) by ring, abs_neg, abs_of_pos (by linarith)]
    · rw [e1, e2, show a - -a = 2 * a by ring, abs_of_pos (by linarith)]
  refine ⟨bouncing_inexact q δ tol hq0 hq1 hδ maxiter, ?_⟩
  · obtain ⟨r, hr⟩ := runS_ok (bouncing q δ tol maxiter).initState (bouncing q δ tol maxiter).update (bouncing q δ tol maxiter).cont
      (maxiter := maxiter) (unroll := true) (jit := true) a hm (.inl rfl)
    obtain ⟨j, rfl⟩ : ∃ j, maxiter = j + 1 := ⟨maxiter - 1, by omega⟩
    have hres := runS_eq hr (k := j + 1) hm le_rfl (fun i h1 h2 => by
      obtain ⟨i, rfl⟩ : ∃ i', i = i' + 1 := ⟨i - 1, by omega⟩
      simp only [cont, herr, Ext.gt, Ext.lt, decide_eq_true_eq]
      rw [← h2a]; exact ht) (.inl rfl)
    refine ⟨r, hr, ?_, ?_⟩
    · rw [hres]
      have : ∀ k, ((bouncing q δ tol (j + 1)).update^[k] (a, (bouncing q δ tol (j + 1)).initState a)).2.iterNum = k := by
        intro k
        induction k with
        | zero => rfl
        | succ k ih => rw [Function.iterate_succ_apply']; simp only [update, ih]
      exact this _
    · rw [hres, herr, h2a]

/-- The hypotheses of the theorems hold for this map, with `q = 1/2` and `δ = 1/100`; the tolerance 1/10 is above the threshold 4/100. -/
example : (bouncing (1 / 2) (1 / 100) (1 / 10) 50).Inexact (fun x => -(1 / 2) * x) (1 / 2) (1 / 100) 0 ∧
    2 * (1 / 100 : ℝ) / (1 - 1 / 2) + 0 < (bouncing (1 / 2) (1 / 100) (1 / 10) 50).tol ∧ (fun x : ℝ => -(1 / 2) * x) 0 = 0 :=
  ⟨bouncing_inexact (1 / 2) (1 / 100) (1 / 10) (by norm_num) (by norm_num) (by norm_num) 50,
    by norm_num [bouncing], by norm_num⟩

end Jaxopt.FixedPoint.FPI
