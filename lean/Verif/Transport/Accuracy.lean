import Verif.Transport.Entropic
import Mathlib.Algebra.Order.Chebyshev

/-!
# C137: transport projections when the solver of the potentials stops early

`gradA` and `gradB` are the gradients whose norm is the error of the solver, see `C58_*_gradient` and `C59_*_gradient`.
-/

set_option autoImplicit false
set_option linter.unusedSectionVars false
set_option linter.unusedVariables false

namespace Jaxopt.Transport

open Jaxopt.Proj Jaxopt.Mirror

variable {m n : ℕ}

/-! ## Specification -/

/-- Row sums minus the requested marginals: the gradient in `alpha`. -/
def gradA (P : Fin m → Fin n → ℝ) (a : Fin m → ℝ) (i : Fin m) : ℝ := ∑ j, P i j - a i

/-- Column sums minus the requested marginals: the gradient in `beta`. -/
def gradB (P : Fin m → Fin n → ℝ) (b : Fin n → ℝ) (j : Fin n) : ℝ := ∑ i, P i j - b j

/-! ## Lemmas -/

theorem dualL2_relu {gamma : ℝ} (hg : 0 < gamma) (cost : Fin m → Fin n → ℝ) (alpha : Fin m → ℝ) (beta : Fin n → ℝ) (i : Fin m) (j : Fin n) :
    dualPlan deltaL2Grad gamma cost (alpha, beta) i j = relu ((alpha i + beta j - cost i j) / gamma) := by
  show 1 / 2 / gamma * (2 * relu (alpha i + beta j - cost i j)) = relu ((alpha i + beta j - cost i j) / gamma)
  unfold Proj.relu
  rw [← zero_div gamma, max_div_div_right hg.le, zero_div]
  field_simp

/-- `relu` is firmly nonexpansive. -/
theorem relu_firm (x y : ℝ) : (relu x - relu y) ^ 2 ≤ (relu x - relu y) * (x - y) := by
  unfold Proj.relu
  rcases le_total x 0 with hx | hx <;> rcases le_total y 0 with hy | hy
  · rw [max_eq_right hx, max_eq_right hy]; nlinarith
  · rw [max_eq_right hx, max_eq_left hy]; nlinarith
  · rw [max_eq_left hx, max_eq_right hy]; nlinarith
  · rw [max_eq_left hx, max_eq_left hy]; nlinarith

/-- Summation by parts over the edges. -/
theorem sum_edges (P Q : Fin m → Fin n → ℝ) (a : Fin m → ℝ) (b : Fin n → ℝ) (hr : ∀ i, ∑ j, Q i j = a i) (hc : ∀ j, ∑ i, Q i j = b j) (u : Fin m → ℝ)
    (v : Fin n → ℝ) : ∑ i, ∑ j, (P i j - Q i j) * (u i + v j) = (∑ i, gradA P a i * u i) + ∑ j, gradB P b j * v j := by
  have e1 : ∀ i, gradA P a i * u i = ∑ j, (P i j - Q i j) * u i := fun i => by
    rw [← Finset.sum_mul, Finset.sum_sub_distrib, hr]; rfl
  have e2 : ∀ j, gradB P b j * v j = ∑ i, (P i j - Q i j) * v j := fun j => by
    rw [← Finset.sum_mul, Finset.sum_sub_distrib, hc]; rfl
  simp only [e1, e2]
  rw [Finset.sum_comm (f := fun j i => (P i j - Q i j) * v j), ← Finset.sum_add_distrib]
  refine Finset.sum_congr rfl fun i _ => ?_
  rw [← Finset.sum_add_distrib]
  exact Finset.sum_congr rfl fun j _ => by ring

/-- Both plans come from potentials: the squared distance is bounded by the gradient. -/
theorem relu_accuracy {gamma : ℝ} (hg : 0 < gamma) (cost : Fin m → Fin n → ℝ) (a : Fin m → ℝ) (b : Fin n → ℝ) (P Q : Fin m → Fin n → ℝ)
    (alpha alpha' : Fin m → ℝ) (beta beta' : Fin n → ℝ) (hP : ∀ i j, P i j = relu ((alpha i + beta j - cost i j) / gamma))
    (hQ : ∀ i j, Q i j = relu ((alpha' i + beta' j - cost i j) / gamma)) (hr : ∀ i, ∑ j, Q i j = a i) (hc : ∀ j, ∑ i, Q i j = b j) :
    gamma * ∑ i, ∑ j, (P i j - Q i j) ^ 2 ≤ (∑ i, gradA P a i * (alpha i - alpha' i)) + ∑ j, gradB P b j * (beta j - beta' j) := by
  rw [← sum_edges P Q a b hr hc, Finset.mul_sum]
  refine Finset.sum_le_sum fun i _ => ?_
  rw [Finset.mul_sum]
  refine Finset.sum_le_sum fun j _ => ?_
  have h := relu_firm ((alpha i + beta j - cost i j) / gamma) ((alpha' i + beta' j - cost i j) / gamma)
  rw [← hP, ← hQ] at h
  have e : (alpha i + beta j - cost i j) / gamma - (alpha' i + beta' j - cost i j) / gamma = ((alpha i - alpha' i) + (beta j - beta' j)) / gamma := by ring
  rw [e, ← mul_div_assoc, le_div_iff₀ hg] at h
  linarith

theorem KL_symm (P Q : Fin m → Fin n → ℝ) (hP : ∀ i j, 0 < P i j) (hQ : ∀ i j, 0 < Q i j) :
    KL (flat P) (flat Q) + KL (flat Q) (flat P) = ∑ i, ∑ j, (P i j - Q i j) * (Real.log (P i j) - Real.log (Q i j)) := by
  unfold KL
  rw [← Finset.sum_add_distrib, Fintype.sum_prod_type]
  refine Finset.sum_congr rfl fun i _ => Finset.sum_congr rfl fun j _ => ?_
  show P i j * Real.log (P i j / Q i j) - P i j + Q i j + (Q i j * Real.log (Q i j / P i j) - Q i j + P i j) = _
  rw [Real.log_div (hP i j).ne' (hQ i j).ne', Real.log_div (hQ i j).ne' (hP i j).ne']
  ring

/-- Both plans come from potentials: the symmetrised divergence is a pairing with the gradient. -/
theorem ent_accuracy {gamma : ℝ} (cost : Fin m → Fin n → ℝ) (a : Fin m → ℝ) (b : Fin n → ℝ) (P Q : Fin m → Fin n → ℝ) (hP : ∀ i j, 0 < P i j)
    (hQ : ∀ i j, 0 < Q i j) (alpha alpha' : Fin m → ℝ) (beta beta' : Fin n → ℝ) (hlP : ∀ i j, Real.log (P i j) = (alpha i + beta j - cost i j) / gamma)
    (hlQ : ∀ i j, Real.log (Q i j) = (alpha' i + beta' j - cost i j) / gamma) (hr : ∀ i, ∑ j, Q i j = a i) (hc : ∀ j, ∑ i, Q i j = b j) :
    KL (flat P) (flat Q) + KL (flat Q) (flat P) =
      ((∑ i, gradA P a i * (alpha i - alpha' i)) + ∑ j, gradB P b j * (beta j - beta' j)) / gamma := by
  rw [KL_symm P Q hP hQ, ← sum_edges P Q a b hr hc, Finset.sum_div]
  refine Finset.sum_congr rfl fun i _ => ?_
  rw [Finset.sum_div]
  refine Finset.sum_congr rfl fun j _ => ?_
  rw [hlP, hlQ]
  ring

theorem dualEnt_log {gamma : ℝ} (hg : gamma ≠ 0) (cost : Fin m → Fin n → ℝ) (alpha : Fin m → ℝ) (beta : Fin n → ℝ) (i : Fin m) (j : Fin n) :
    Real.log (dualPlan deltaEntGrad gamma cost (alpha, beta) i j) = (alpha i + (beta j - gamma) - cost i j) / gamma := by
  show Real.log (Real.exp ((alpha i + beta j - cost i j) / gamma - 1)) = _
  rw [Real.log_exp]
  field_simp
  ring

theorem semiEnt_log (hm : 0 < m) {gamma : ℝ} (hg : gamma ≠ 0) (cost : Fin m → Fin n → ℝ) {b : Fin n → ℝ} (hb : ∀ j, 0 < b j) (alpha : Fin m → ℝ) :
    (∀ i j, 0 < semiDualPlan maxEntGrad gamma cost b alpha i j) ∧ (∀ j, ∑ i, semiDualPlan maxEntGrad gamma cost b alpha i j = b j) ∧
    ∃ beta : Fin n → ℝ, ∀ i j, Real.log (semiDualPlan maxEntGrad gamma cost b alpha i j) = (alpha i + beta j - cost i j) / gamma := by
  have : Nonempty (Fin m) := ⟨⟨0, hm⟩⟩
  have hZ : ∀ j, 0 < ∑ k : Fin m, Real.exp ((alpha k - cost k j) / gamma) := fun j => Finset.sum_pos (fun k _ => Real.exp_pos _) Finset.univ_nonempty
  have e : ∀ i j, semiDualPlan maxEntGrad gamma cost b alpha i j =
      Real.exp ((alpha i - cost i j) / gamma) / (∑ k, Real.exp ((alpha k - cost k j) / gamma)) * b j := fun i j => rfl
  refine ⟨fun i j => ?_, fun j => ?_, fun j => gamma * (Real.log (b j) - Real.log (∑ k, Real.exp ((alpha k - cost k j) / gamma))), fun i j => ?_⟩
  · rw [e]
    exact mul_pos (div_pos (Real.exp_pos _) (hZ j)) (hb j)
  · simp only [e]
    rw [← Finset.sum_mul, ← Finset.sum_div, div_self (hZ j).ne', one_mul]
  · rw [e, Real.log_mul (div_pos (Real.exp_pos _) (hZ j)).ne' (hb j).ne', Real.log_div (Real.exp_pos _).ne' (hZ j).ne', Real.log_exp]
    beta_reduce
    generalize Real.log (∑ k, Real.exp ((alpha k - cost k j) / gamma)) = L
    field_simp
    ring

theorem semiL2_col (hm : 0 < m) (gamma : ℝ) (cost : Fin m → Fin n → ℝ) (b : Fin n → ℝ) (alpha : Fin m → ℝ) (j : Fin n) :
    ∑ i, semiDualPlan maxL2Grad gamma cost b alpha i j = b j := by
  simp only [semiDualPlan, maxL2Grad]
  rw [← Finset.sum_mul, (arg_mem hm _ _ _).2, one_mul]

/-! ## Properties -/

/-- C137.  Whatever the potentials at which the solver stops, the plan is the projection onto the plans with the same marginals. -/
theorem C137_own_marginals (hm : 0 < m) {gamma : ℝ} (hg : 0 < gamma) (cost : Fin m → Fin n → ℝ) {b : Fin n → ℝ} (hb : ∀ j, 0 < b j) (alpha : Fin m → ℝ)
    (beta : Fin n → ℝ) :
    (∀ P, P = dualPlan deltaL2Grad gamma cost (alpha, beta) →
      IsUniqueProj (Polytope (fun i => ∑ j, P i j) (fun j => ∑ i, P i j)) (fun ij => -cost ij.1 ij.2 / gamma) (flat P)) ∧
    (∀ P, P = semiDualPlan maxL2Grad gamma cost b alpha →
      IsUniqueProj (Polytope (fun i => ∑ j, P i j) b) (fun ij => -cost ij.1 ij.2 / gamma) (flat P)) ∧
    (∀ P, P = dualPlan deltaEntGrad gamma cost (alpha, beta) →
      IsUniqueKLProj (Polytope (fun i => ∑ j, P i j) (fun j => ∑ i, P i j)) (fun ij => Real.exp (-cost ij.1 ij.2 / gamma)) (flat P)) ∧
    ∀ P, P = semiDualPlan maxEntGrad gamma cost b alpha →
      IsUniqueKLProj (Polytope (fun i => ∑ j, P i j) b) (fun ij => Real.exp (-cost ij.1 ij.2 / gamma)) (flat P) := by
  refine ⟨?_, ?_, ?_, ?_⟩
  · rintro P rfl
    exact potentials_isUniqueProj hg cost _ _ _ alpha beta (dualL2_relu hg cost alpha beta) (fun _ => rfl) fun _ => rfl
  · rintro P rfl
    obtain ⟨v, hv⟩ := semiDualPlan_potentials hm hg cost hb alpha
    exact potentials_isUniqueProj hg cost _ _ _ alpha v hv (fun _ => rfl) (semiL2_col hm gamma cost b alpha)
  · rintro P rfl
    exact potentials_isUniqueKLProj gamma cost _ _ _ (fun i j => Real.exp_pos _) alpha (fun j => beta j - gamma) (dualEnt_log hg.ne' cost alpha beta) (fun _ => rfl)
      fun _ => rfl
  · rintro P rfl
    obtain ⟨h1, h2, v, hv⟩ := semiEnt_log hm hg.ne' cost hb alpha
    exact potentials_isUniqueKLProj gamma cost _ _ _ h1 alpha v hv (fun _ => rfl) h2

/-- C137, dual formulations: the distance to the projection is controlled by the gradient and the distance of the potentials. -/
theorem C137_dual {gamma : ℝ} (hg : 0 < gamma) (cost : Fin m → Fin n → ℝ) (a : Fin m → ℝ) (b : Fin n → ℝ) (alpha alpha' : Fin m → ℝ) (beta beta' : Fin n → ℝ) :
    (∀ P Q, P = dualPlan deltaL2Grad gamma cost (alpha, beta) → Q = dualPlan deltaL2Grad gamma cost (alpha', beta') → (∀ i, ∑ j, Q i j = a i) →
      (∀ j, ∑ i, Q i j = b j) →
      gamma * ∑ i, ∑ j, (P i j - Q i j) ^ 2 ≤ (∑ i, gradA P a i * (alpha i - alpha' i)) + ∑ j, gradB P b j * (beta j - beta' j)) ∧
    ∀ P Q, P = dualPlan deltaEntGrad gamma cost (alpha, beta) → Q = dualPlan deltaEntGrad gamma cost (alpha', beta') → (∀ i, ∑ j, Q i j = a i) →
      (∀ j, ∑ i, Q i j = b j) →
      KL (flat P) (flat Q) + KL (flat Q) (flat P) =
        ((∑ i, gradA P a i * (alpha i - alpha' i)) + ∑ j, gradB P b j * (beta j - beta' j)) / gamma := by
  constructor
  · rintro P Q rfl rfl hr hc
    exact relu_accuracy hg cost a b _ _ alpha alpha' beta beta' (dualL2_relu hg cost alpha beta) (dualL2_relu hg cost alpha' beta') hr hc
  · rintro P Q rfl rfl hr hc
    have h := ent_accuracy (gamma := gamma) cost a b _ _ (fun i j => Real.exp_pos _) (fun i j => Real.exp_pos _) alpha alpha' (fun j => beta j - gamma)
      (fun j => beta' j - gamma) (dualEnt_log hg.ne' cost alpha beta) (dualEnt_log hg.ne' cost alpha' beta') hr hc
    simp only [sub_sub_sub_cancel_right] at h
    exact h

/-- C137, semi-dual formulations: only the gradient in `alpha` is needed, because the column sums are exact. -/
theorem C137_semi_dual (hm : 0 < m) {gamma : ℝ} (hg : 0 < gamma) (cost : Fin m → Fin n → ℝ) (a : Fin m → ℝ) {b : Fin n → ℝ} (hb : ∀ j, 0 < b j)
    (alpha alpha' : Fin m → ℝ) :
    (∀ P Q, P = semiDualPlan maxL2Grad gamma cost b alpha → Q = semiDualPlan maxL2Grad gamma cost b alpha' → (∀ i, ∑ j, Q i j = a i) →
      gamma * ∑ i, ∑ j, (P i j - Q i j) ^ 2 ≤ ∑ i, gradA P a i * (alpha i - alpha' i)) ∧
    ∀ P Q, P = semiDualPlan maxEntGrad gamma cost b alpha → Q = semiDualPlan maxEntGrad gamma cost b alpha' → (∀ i, ∑ j, Q i j = a i) →
      KL (flat P) (flat Q) + KL (flat Q) (flat P) = (∑ i, gradA P a i * (alpha i - alpha' i)) / gamma := by
  constructor
  · rintro P Q rfl rfl hr
    obtain ⟨v, hv⟩ := semiDualPlan_potentials hm hg cost hb alpha
    obtain ⟨v', hv'⟩ := semiDualPlan_potentials hm hg cost hb alpha'
    have h := relu_accuracy hg cost a b _ _ alpha alpha' v v' hv hv' hr (semiL2_col hm gamma cost b alpha')
    have hz : ∀ j, gradB (semiDualPlan maxL2Grad gamma cost b alpha) b j = 0 := fun j => by
      unfold gradB; rw [semiL2_col hm, sub_self]
    simpa only [hz, zero_mul, Finset.sum_const_zero, add_zero] using h
  · rintro P Q rfl rfl hr
    obtain ⟨h1, h2, v, hv⟩ := semiEnt_log hm hg.ne' cost hb alpha
    obtain ⟨h1', h2', v', hv'⟩ := semiEnt_log hm hg.ne' cost hb alpha'
    have h := ent_accuracy (gamma := gamma) cost a b _ _ h1 h1' alpha alpha' v v' hv hv' hr h2'
    have hz : ∀ j, gradB (semiDualPlan maxEntGrad gamma cost b alpha) b j = 0 := fun j => by
      unfold gradB; rw [h2, sub_self]
    simpa only [hz, zero_mul, Finset.sum_const_zero, add_zero] using h

/-- C137.  If a semi-dual solver stops with a gradient of norm at most `tol`, the plan is closer to the projection than
`sqrt (tol * |alpha - alpha'| / gamma)`. -/
theorem C137_tolerance (hm : 0 < m) {gamma tol : ℝ} (hg : 0 < gamma) (cost : Fin m → Fin n → ℝ) (a : Fin m → ℝ) {b : Fin n → ℝ} (hb : ∀ j, 0 < b j)
    (alpha alpha' : Fin m → ℝ) (P Q : Fin m → Fin n → ℝ) (hP : P = semiDualPlan maxL2Grad gamma cost b alpha)
    (hQ : Q = semiDualPlan maxL2Grad gamma cost b alpha') (hr : ∀ i, ∑ j, Q i j = a i) (htol : Real.sqrt (∑ i, gradA P a i ^ 2) ≤ tol) :
    IsUniqueProj (Polytope a b) (fun ij => -cost ij.1 ij.2 / gamma) (flat Q) ∧
    (∀ j, ∑ i, P i j = b j) ∧ (∀ i, |∑ j, P i j - a i| ≤ tol) ∧
    gamma * ∑ i, ∑ j, (P i j - Q i j) ^ 2 ≤ tol * Real.sqrt (∑ i, (alpha i - alpha' i) ^ 2) := by
  refine ⟨?_, ?_, fun i => ?_, ?_⟩
  · have h := (C137_own_marginals hm hg cost hb alpha' fun _ => 0).2.1 Q hQ
    simp only [hr] at h
    exact h
  · rw [hP]; exact semiL2_col hm gamma cost b alpha
  · refine le_trans ?_ htol
    rw [← Real.sqrt_sq_eq_abs]
    exact Real.sqrt_le_sqrt (Finset.single_le_sum (f := fun i => gradA P a i ^ 2) (fun i _ => sq_nonneg _) (Finset.mem_univ i))
  · refine ((C137_semi_dual hm hg cost a hb alpha alpha').1 P Q hP hQ hr).trans ?_
    refine le_trans ?_ (mul_le_mul_of_nonneg_right htol (Real.sqrt_nonneg _))
    rw [← Real.sqrt_mul (Finset.sum_nonneg fun i _ => sq_nonneg _)]
    exact Real.le_sqrt_of_sq_le (Finset.sum_mul_sq_le_sq_mul_sq _ _ _)

/-- C137.  The masses of the marginals are not compared.  If they differ, no potentials have a small gradient, so that no solver stops by a small tolerance. -/
theorem C137_unequal_masses (hm : 0 < m) {gamma : ℝ} (hg : 0 < gamma) (cost : Fin m → Fin n → ℝ) (a : Fin m → ℝ) {b : Fin n → ℝ} (hb : ∀ j, 0 < b j) :
    (∀ alpha, |∑ j, b j - ∑ i, a i| ≤ Real.sqrt m * Real.sqrt (∑ i, gradA (semiDualPlan maxL2Grad gamma cost b alpha) a i ^ 2)) ∧
    (∀ alpha, |∑ j, b j - ∑ i, a i| ≤ Real.sqrt m * Real.sqrt (∑ i, gradA (semiDualPlan maxEntGrad gamma cost b alpha) a i ^ 2)) ∧
    ∀ P : Fin m → Fin n → ℝ, |∑ j, b j - ∑ i, a i| ≤ Real.sqrt (m + n) * Real.sqrt ((∑ i, gradA P a i ^ 2) + ∑ j, gradB P b j ^ 2) := by
  have key : ∀ P : Fin m → Fin n → ℝ, (∑ j, b j) - ∑ i, a i = (∑ i, gradA P a i) - ∑ j, gradB P b j := fun P => by
    simp only [gradA, gradB, Finset.sum_sub_distrib]
    rw [Finset.sum_comm]
    ring
  have cs : ∀ {k : ℕ} (f : Fin k → ℝ), (∑ i, f i) ^ 2 ≤ k * ∑ i, f i ^ 2 := fun f => by
    have := sq_sum_le_card_mul_sum_sq (s := Finset.univ) (f := f)
    simpa using this
  have semi : ∀ P : Fin m → Fin n → ℝ, (∀ j, ∑ i, P i j = b j) → |∑ j, b j - ∑ i, a i| ≤ Real.sqrt m * Real.sqrt (∑ i, gradA P a i ^ 2) := fun P h => by
    have hz : ∀ j, gradB P b j = 0 := fun j => by unfold gradB; rw [h, sub_self]
    rw [key P]
    simp only [hz, Finset.sum_const_zero, sub_zero]
    rw [← Real.sqrt_mul (Nat.cast_nonneg m)]
    exact Real.abs_le_sqrt (cs _)
  refine ⟨fun alpha => semi _ (semiL2_col hm gamma cost b alpha), fun alpha => semi _ (semiEnt_log hm hg.ne' cost hb alpha).2.1, fun P => ?_⟩
  rw [key P, ← Real.sqrt_mul (by positivity)]
  refine Real.abs_le_sqrt ?_
  have h1 := cs (gradA P a)
  have h2 := cs (gradB P b)
  set x := ∑ i, gradA P a i
  set y := ∑ j, gradB P b j
  set p := ∑ i, gradA P a i ^ 2
  set q := ∑ j, gradB P b j ^ 2
  have hp : 0 ≤ p := Finset.sum_nonneg fun i _ => sq_nonneg _
  have hq : 0 ≤ q := Finset.sum_nonneg fun i _ => sq_nonneg _
  have hm' : (0 : ℝ) < m := Nat.cast_pos.mpr hm
  have hn' : (0 : ℝ) ≤ n := Nat.cast_nonneg n
  have h3 : 2 * (-(x * y)) ≤ m * q + n * p := by
    have hxy : (x * y) ^ 2 ≤ (m * q) * (n * p) := by
      calc (x * y) ^ 2 = x ^ 2 * y ^ 2 := by ring
        _ ≤ (m * p) * (n * q) := mul_le_mul h1 h2 (sq_nonneg _) (by positivity)
        _ = (m * q) * (n * p) := by ring
    have h4 : (2 * (x * y)) ^ 2 ≤ (m * q + n * p) ^ 2 := by nlinarith [sq_nonneg (m * q - n * p)]
    have h5 := abs_le_of_sq_le_sq h4 (by positivity)
    linarith [(abs_le.1 h5).1]
  nlinarith

/-! ## Examples -/

/-- Two points, masses 1 and 1 against 1 and 2: the gradient is never smaller than `1 / sqrt 2`. -/
example (alpha : Fin 2 → ℝ) :
    1 ≤ Real.sqrt 2 * Real.sqrt (∑ i, gradA (semiDualPlan maxL2Grad 1 (fun _ _ => 0) (fun j : Fin 2 => if j = 0 then 1 else 2) alpha) (fun _ => 1) i ^ 2) := by
  have h := (C137_unequal_masses (m := 2) (n := 2) (by norm_num) one_pos (fun _ _ => 0) (fun _ => 1) (b := fun j => if j = 0 then 1 else 2)
    (fun j => by split <;> norm_num)).1 alpha
  have e : |∑ j : Fin 2, (if j = 0 then (1 : ℝ) else 2) - ∑ i : Fin 2, (1 : ℝ)| = 1 := by
    simp only [Fin.sum_univ_two]; norm_num
  rw [e] at h
  exact_mod_cast h

/-- Entropic plans for the potentials `(1, 1)` and `(1 + d, 1)` of one source and one target: the plan `exp d` instead of `1`. -/
example (d : ℝ) : gradA (dualPlan deltaEntGrad 1 (fun (_ : Fin 1) (_ : Fin 1) => (1 : ℝ)) (fun _ => 1 + d, fun _ => 1)) (fun _ => 1) 0 = Real.exp d - 1 := by
  simp [gradA, dualPlan, deltaEntGrad]

end Jaxopt.Transport
