import Verif.Transport.Props
import Verif.Mirror.Props
import Mathlib.Analysis.Calculus.Deriv.Pi

/-!
# Property C59: Kullback-Leibler projections onto the transportation polytope
-/

set_option autoImplicit false
set_option linter.unusedSectionVars false
set_option linter.unusedVariables false

namespace Jaxopt.Transport

open Jaxopt.Proj Jaxopt.Mirror

variable {m n : ℕ}

/-! ## Specification -/

/-- `P` is strictly positive, lies in `C` and is the only minimiser of `KL(., R)` over `C`. -/
def IsUniqueKLProj {ι : Type*} [Fintype ι] (C : Set (ι → ℝ)) (R P : ι → ℝ) : Prop :=
  (∀ i, 0 < P i) ∧ P ∈ C ∧ ∀ Q ∈ C, Q ≠ P → KL P R < KL Q R

/-! ## Lemmas -/

theorem KL_pos {ι : Type*} [Fintype ι] {z x : ι → ℝ} (hz : ∀ i, 0 ≤ z i) (hx : ∀ i, 0 < x i) (hne : z ≠ x) : 0 < KL z x := by
  obtain ⟨i, hi⟩ := Function.ne_iff.mp hne
  have hterm : ∀ i, 0 ≤ z i * Real.log (z i / x i) - z i + x i ∧ (z i ≠ x i → 0 < z i * Real.log (z i / x i) - z i + x i) := by
    intro i
    rcases (hz i).eq_or_lt with h | h
    · rw [← h]; simp only [zero_mul, sub_zero, zero_add, zero_sub, neg_zero]
      exact ⟨(hx i).le, fun _ => hx i⟩
    · have h2 : Real.log (z i / x i) = -Real.log (x i / z i) := by rw [← Real.log_inv, inv_div]
      have h3 : z i * (x i / z i) = x i := mul_div_cancel₀ _ h.ne'
      rw [h2]
      constructor
      · have h4 := mul_le_mul_of_nonneg_left (Real.log_le_sub_one_of_pos (div_pos (hx i) h)) h.le
        nlinarith
      · intro hne
        have h1 : x i / z i ≠ 1 := by
          intro hc; rw [div_eq_one_iff_eq h.ne'] at hc; exact hne hc.symm
        have h4 := mul_lt_mul_of_pos_left (Real.log_lt_sub_one_of_pos (div_pos (hx i) h) h1) h
        nlinarith
  exact Finset.sum_pos' (fun i _ => (hterm i).1) ⟨i, Finset.mem_univ i, (hterm i).2 hi⟩

/-- Positive plans whose logarithm is `(α_i + β_j - C_ij) / γ` are KL projections onto the polytope of their own marginals. -/
theorem potentials_isUniqueKLProj (gamma : ℝ) (cost : Fin m → Fin n → ℝ) (a : Fin m → ℝ) (b : Fin n → ℝ)
    (P : Fin m → Fin n → ℝ) (hpos : ∀ i j, 0 < P i j) (alpha : Fin m → ℝ) (beta : Fin n → ℝ)
    (hP : ∀ i j, Real.log (P i j) = (alpha i + beta j - cost i j) / gamma) (hr : ∀ i, ∑ j, P i j = a i)
    (hc : ∀ j, ∑ i, P i j = b j) : IsUniqueKLProj (Polytope a b) (fun ij => Real.exp (-cost ij.1 ij.2 / gamma)) (flat P) := by
  refine ⟨fun ij => hpos _ _, ⟨fun ij => (hpos _ _).le, hr, hc⟩, fun Q hQ hne => ?_⟩
  have hkl := KL_pos hQ.1 (fun ij => hpos ij.1 ij.2) hne
  have key : ∀ ij : Fin m × Fin n, (Q ij * Real.log (Q ij / Real.exp (-cost ij.1 ij.2 / gamma)) - Q ij + Real.exp (-cost ij.1 ij.2 / gamma)) =
      (flat P ij * Real.log (flat P ij / Real.exp (-cost ij.1 ij.2 / gamma)) - flat P ij + Real.exp (-cost ij.1 ij.2 / gamma)) +
      (Q ij * Real.log (Q ij / flat P ij) - Q ij + flat P ij) +
      (alpha ij.1 / gamma * (Q ij - flat P ij) + beta ij.2 / gamma * (Q ij - flat P ij)) := by
    rintro ⟨i, j⟩
    have hp := hpos i j
    have he := Real.exp_pos (-cost i j / gamma)
    show (Q (i, j) * Real.log (Q (i, j) / Real.exp (-cost i j / gamma)) - Q (i, j) + Real.exp (-cost i j / gamma)) =
      (P i j * Real.log (P i j / Real.exp (-cost i j / gamma)) - P i j + Real.exp (-cost i j / gamma)) +
      (Q (i, j) * Real.log (Q (i, j) / P i j) - Q (i, j) + P i j) + (alpha i / gamma * (Q (i, j) - P i j) + beta j / gamma * (Q (i, j) - P i j))
    have e : (alpha i + beta j - cost i j) / gamma = alpha i / gamma + beta j / gamma + -cost i j / gamma := by ring
    rw [Real.log_div hp.ne' he.ne', Real.log_exp, hP, e]
    rcases (hQ.1 (i, j)).eq_or_lt with h | h
    · rw [← h]; ring
    · rw [Real.log_div h.ne' he.ne', Real.log_div h.ne' hp.ne', Real.log_exp, hP, e]; ring
  have hz : ∑ ij : Fin m × Fin n, (alpha ij.1 / gamma * (Q ij - flat P ij) + beta ij.2 / gamma * (Q ij - flat P ij)) = 0 := by
    rw [Finset.sum_add_distrib, Fintype.sum_prod_type, Fintype.sum_prod_type_right]
    have h1 : ∀ i, ∑ j, alpha (i, j).1 / gamma * (Q (i, j) - flat P (i, j)) = 0 := fun i => by
      show ∑ j, alpha i / gamma * (Q (i, j) - P i j) = 0
      rw [← Finset.mul_sum, Finset.sum_sub_distrib, hQ.2.1 i, hr i, sub_self, mul_zero]
    have h2 : ∀ j, ∑ i, beta (i, j).2 / gamma * (Q (i, j) - flat P (i, j)) = 0 := fun j => by
      show ∑ i, beta j / gamma * (Q (i, j) - P i j) = 0
      rw [← Finset.mul_sum, Finset.sum_sub_distrib, hQ.2.2 j, hc j, sub_self, mul_zero]
    rw [Finset.sum_congr rfl fun i _ => h1 i, Finset.sum_congr rfl fun j _ => h2 j]
    simp
  have htot : KL Q (fun ij => Real.exp (-cost ij.1 ij.2 / gamma)) = KL (flat P) (fun ij => Real.exp (-cost ij.1 ij.2 / gamma)) + KL Q (flat P) := by
    unfold KL
    rw [Finset.sum_congr rfl fun ij _ => key ij, Finset.sum_add_distrib, Finset.sum_add_distrib, hz, add_zero]
  have hkl' : 0 < KL Q (flat P) := hkl
  linarith

theorem hasDerivAt_update_apply (u : Fin m → ℝ) (i k : Fin m) (s : ℝ) : HasDerivAt (fun t => Function.update u i t k) (if k = i then 1 else 0) s := by
  by_cases h : k = i
  · subst h
    rw [if_pos rfl]
    simp only [Function.update_self]
    exact hasDerivAt_id' s
  · rw [if_neg h]
    simp only [Function.update_of_ne h]
    exact hasDerivAt_const s (u k)

theorem hasDerivAt_dot_update (u a : Fin m → ℝ) (i : Fin m) (s : ℝ) : HasDerivAt (fun t => dot (Function.update u i t) a) (a i) s := by
  unfold dot
  have h : HasDerivAt (fun t => ∑ k, Function.update u i t k * a k) (∑ k, (if k = i then 1 else 0) * a k) s :=
    HasDerivAt.fun_sum fun k _ => (hasDerivAt_update_apply u i k s).mul_const (a k)
  simpa using h

/-! ## C59: semi-dual formulation -/

theorem sumexp_pos' (hm : 0 < m) (x : Fin m → ℝ) : 0 < ∑ i, Real.exp (x i) :=
  Finset.sum_pos (fun j _ => Real.exp_pos _) ⟨⟨0, hm⟩, Finset.mem_univ _⟩

/-- **C59**: the partial derivatives of the entropic semi-dual are the row sums of the plan minus `a`. -/
theorem C59_semi_dual_gradient (hm : 0 < m) {gamma : ℝ} (hg : gamma ≠ 0) (cost : Fin m → Fin n → ℝ) (a : Fin m → ℝ) (b : Fin n → ℝ) (alpha : Fin m → ℝ)
    (i : Fin m) :
    HasDerivAt (fun t => semiDual maxEnt gamma cost a b (Function.update alpha i t)) (∑ j, semiDualPlan maxEntGrad gamma cost b alpha i j - a i) (alpha i) := by
  unfold semiDual
  refine HasDerivAt.sub ?_ (hasDerivAt_dot_update alpha a i _)
  unfold dot
  refine HasDerivAt.fun_sum fun j _ => ?_
  have hZ := sumexp_pos' hm fun k => (alpha k - cost k j) / gamma
  have h1 : HasDerivAt (fun t => ∑ k, Real.exp ((Function.update alpha i t k - cost k j) / gamma))
      (∑ k, Real.exp ((alpha k - cost k j) / gamma) * ((if k = i then 1 else 0) / gamma)) (alpha i) := by
    refine HasDerivAt.fun_sum fun k _ => ?_
    have := (((hasDerivAt_update_apply alpha i k (alpha i)).sub_const (cost k j)).div_const gamma).exp
    simpa using this
  have h2 := h1.log (by simpa using hZ.ne')
  have h3 := ((h2.const_mul gamma).sub_const (gamma * Real.log (b j))).const_mul (b j)
  unfold maxEnt
  refine h3.congr_deriv ?_
  unfold semiDualPlan maxEntGrad
  simp only [Function.update_eq_self]
  have e : ∑ k, Real.exp ((alpha k - cost k j) / gamma) * ((if k = i then 1 else 0) / gamma) = Real.exp ((alpha i - cost i j) / gamma) / gamma := by
    rw [Finset.sum_eq_single i]
    · simp; ring
    · intro k _ hk; simp [hk]
    · intro h; exact absurd (Finset.mem_univ i) h
  rw [e]
  field_simp

/-- **C59**: if the solver reaches stationarity of the entropic semi-dual, the plan is strictly positive, has the requested marginals and is the
unique KL-closest plan to `exp(-cost / gamma)`. -/
theorem C59_semi_dual (hm : 0 < m) {gamma : ℝ} (hg : gamma ≠ 0) (cost : Fin m → Fin n → ℝ) (a : Fin m → ℝ) {b : Fin n → ℝ} (hb : ∀ j, 0 < b j)
    (makeSolver : ((Fin m → ℝ) → ℝ) → (Fin m → ℝ) → (Fin m → ℝ))
    (hsol : Stationary (semiDual maxEnt gamma cost a b) (makeSolver (semiDual maxEnt gamma cost a b) fun _ => 0)) :
    IsUniqueKLProj (Polytope a b) (fun ij => Real.exp (-cost ij.1 ij.2 / gamma))
      (flat (regularizedTransportSemiDual makeSolver maxEnt maxEntGrad gamma cost a b)) := by
  set alpha := makeSolver (semiDual maxEnt gamma cost a b) fun _ => 0 with hal
  have hZ := fun j => sumexp_pos' hm fun k => (alpha k - cost k j) / gamma
  have hpos : ∀ i j, 0 < semiDualPlan maxEntGrad gamma cost b alpha i j := fun i j => by
    unfold semiDualPlan maxEntGrad
    exact mul_pos (div_pos (Real.exp_pos _) (hZ j)) (hb j)
  refine potentials_isUniqueKLProj gamma cost a b (semiDualPlan maxEntGrad gamma cost b alpha) hpos alpha
    (fun j => gamma * (Real.log (b j) - Real.log (∑ k, Real.exp ((alpha k - cost k j) / gamma)))) (fun i j => ?_)
    (fun i => sub_eq_zero.mp ((C59_semi_dual_gradient hm hg cost a b alpha i).unique (hsol i))) fun j => ?_
  · unfold semiDualPlan maxEntGrad
    rw [Real.log_mul (div_pos (Real.exp_pos _) (hZ j)).ne' (hb j).ne', Real.log_div (Real.exp_pos _).ne' (hZ j).ne', Real.log_exp]
    field_simp
    ring
  · unfold semiDualPlan maxEntGrad
    rw [← Finset.sum_mul, ← Finset.sum_div, div_self (hZ j).ne', one_mul]

/-! ## C59: dual formulation -/

/-- **C59**: the partial derivatives of the entropic dual are the row and column sums of the plan minus `a` and `b`. -/
theorem C59_dual_gradient {gamma : ℝ} (hg : gamma ≠ 0) (cost : Fin m → Fin n → ℝ) (a : Fin m → ℝ) (b : Fin n → ℝ) (ab : (Fin m → ℝ) × (Fin n → ℝ)) :
    (∀ i, HasDerivAt (fun t => dual deltaEnt gamma cost a b (Function.update ab.1 i t, ab.2)) (∑ j, dualPlan deltaEntGrad gamma cost ab i j - a i) (ab.1 i)) ∧
    ∀ j, HasDerivAt (fun t => dual deltaEnt gamma cost a b (ab.1, Function.update ab.2 j t)) (∑ i, dualPlan deltaEntGrad gamma cost ab i j - b j) (ab.2 j) := by
  constructor
  · intro i
    simp only [dual]
    refine HasDerivAt.sub_const _ (HasDerivAt.fun_sub ?_ (hasDerivAt_dot_update ab.1 a i _))
    refine HasDerivAt.fun_sum fun j _ => ?_
    have h1 : HasDerivAt (fun t => ∑ k, Real.exp ((Function.update ab.1 i t k + ab.2 j - cost k j) / gamma - 1))
        (∑ k, Real.exp ((ab.1 k + ab.2 j - cost k j) / gamma - 1) * ((if k = i then 1 else 0) / gamma)) (ab.1 i) := by
      refine HasDerivAt.fun_sum fun k _ => ?_
      have := (((((hasDerivAt_update_apply ab.1 i k (ab.1 i)).add_const (ab.2 j)).sub_const (cost k j)).div_const gamma).sub_const 1).exp
      simpa using this
    refine (h1.const_mul gamma).congr_deriv ?_
    unfold dualPlan deltaEntGrad
    rw [Finset.sum_eq_single i]
    · simp; field_simp
    · intro k _ hk; simp [hk]
    · intro h; exact absurd (Finset.mem_univ i) h
  · intro j
    simp only [dual]
    refine HasDerivAt.fun_sub ?_ (hasDerivAt_dot_update ab.2 b j _)
    refine HasDerivAt.sub_const _ ?_
    have h1 : HasDerivAt (fun t => ∑ l, deltaEnt (fun i => ab.1 i + Function.update ab.2 j t l - cost i l) gamma)
        (∑ l, if l = j then ∑ i, dualPlan deltaEntGrad gamma cost ab i j else 0) (ab.2 j) := by
      refine HasDerivAt.fun_sum fun l _ => ?_
      have h2 : HasDerivAt (fun t => ∑ k, Real.exp ((ab.1 k + Function.update ab.2 j t l - cost k l) / gamma - 1))
          (∑ k, Real.exp ((ab.1 k + ab.2 l - cost k l) / gamma - 1) * ((if l = j then 1 else 0) / gamma)) (ab.2 j) := by
        refine HasDerivAt.fun_sum fun k _ => ?_
        have := (((((hasDerivAt_update_apply ab.2 j l (ab.2 j)).const_add (ab.1 k)).sub_const (cost k l)).div_const gamma).sub_const 1).exp
        simpa using this
      refine (h2.const_mul gamma).congr_deriv ?_
      by_cases hl : l = j
      · subst hl
        simp only [if_true, Finset.mul_sum]
        refine Finset.sum_congr rfl fun k _ => ?_
        unfold dualPlan deltaEntGrad
        field_simp
      · simp [hl]
    simpa using h1

/-- **C59**: if the solver reaches stationarity of the entropic dual, the plan is strictly positive, has the requested marginals and is the unique
KL-closest plan to `exp(-cost / gamma)`. -/
theorem C59_dual {gamma : ℝ} (hg : gamma ≠ 0) (cost : Fin m → Fin n → ℝ) (a : Fin m → ℝ) (b : Fin n → ℝ)
    (makeSolver : ((Fin m → ℝ) × (Fin n → ℝ) → ℝ) → (Fin m → ℝ) × (Fin n → ℝ) → (Fin m → ℝ) × (Fin n → ℝ))
    (hsol : Stationary₂ (dual deltaEnt gamma cost a b) (makeSolver (dual deltaEnt gamma cost a b) (fun _ => 0, fun _ => 0))) :
    IsUniqueKLProj (Polytope a b) (fun ij => Real.exp (-cost ij.1 ij.2 / gamma))
      (flat (regularizedTransportDual makeSolver deltaEnt deltaEntGrad gamma cost a b)) := by
  set ab := makeSolver (dual deltaEnt gamma cost a b) (fun _ => 0, fun _ => 0) with hab
  obtain ⟨g1, g2⟩ := C59_dual_gradient hg cost a b ab
  refine potentials_isUniqueKLProj gamma cost a b (dualPlan deltaEntGrad gamma cost ab) (fun i j => Real.exp_pos _) ab.1
    (fun j => ab.2 j - gamma) (fun i j => ?_) (fun i => sub_eq_zero.mp ((g1 i).unique (hsol.1 i)))
    fun j => sub_eq_zero.mp ((g2 j).unique (hsol.2 j))
  unfold dualPlan deltaEntGrad
  rw [Real.log_exp]
  field_simp
  ring

/-- **C59**, as called by users: both formulations of `kl_projection_transport(sim, (a, b))` return the KL projection of `exp(sim)`. -/
theorem C59_kl_projection_transport (hm : 0 < m) (sim : Fin m → Fin n → ℝ) (a : Fin m → ℝ) {b : Fin n → ℝ} (hb : ∀ j, 0 < b j)
    (makeSolver : ((Fin m → ℝ) → ℝ) → (Fin m → ℝ) → (Fin m → ℝ))
    (makeSolver' : ((Fin m → ℝ) × (Fin n → ℝ) → ℝ) → (Fin m → ℝ) × (Fin n → ℝ) → (Fin m → ℝ) × (Fin n → ℝ)) :
    (Stationary (semiDual maxEnt 1 (fun i j => -sim i j) a b) (makeSolver (semiDual maxEnt 1 (fun i j => -sim i j) a b) fun _ => 0) →
      IsUniqueKLProj (Polytope a b) (fun ij => Real.exp (sim ij.1 ij.2)) (flat (klProjectionTransportSemiDual makeSolver sim a b))) ∧
    (Stationary₂ (dual deltaEnt 1 (fun i j => -sim i j) a b)
        (makeSolver' (dual deltaEnt 1 (fun i j => -sim i j) a b) (fun _ => 0, fun _ => 0)) →
      IsUniqueKLProj (Polytope a b) (fun ij => Real.exp (sim ij.1 ij.2)) (flat (klProjectionTransportDual makeSolver' sim a b))) := by
  have e : (fun ij : Fin m × Fin n => Real.exp (- -sim ij.1 ij.2 / 1)) = fun ij => Real.exp (sim ij.1 ij.2) := by
    funext ij; rw [neg_neg, div_one]
  constructor
  · intro h
    have := C59_semi_dual hm one_ne_zero (fun i j => -sim i j) a hb makeSolver h
    rw [e] at this
    exact this
  · intro h
    have := C59_dual one_ne_zero (fun i j => -sim i j) a b makeSolver' h
    rw [e] at this
    exact this

/-- With zero similarity the potential 0 is stationary for uniform marginals, and the plan is uniform. -/
example : Stationary (semiDual maxEnt 1 (fun (_ : Fin 2) (_ : Fin 2) => 0) (fun _ => 1 / 2) (fun _ => 1 / 2)) (fun _ => 0) := by
  intro i
  refine (C59_semi_dual_gradient (by norm_num) one_ne_zero _ _ _ _ i).congr_deriv ?_
  simp [semiDualPlan, maxEntGrad]

end Jaxopt.Transport
