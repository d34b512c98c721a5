import Verif.Transport.Model
import Verif.Loss.Props
import Mathlib.Data.Fintype.BigOperators
import Mathlib.Analysis.SpecialFunctions.Log.Deriv
import Mathlib.Analysis.SpecialFunctions.ExpDeriv

/-!
# Property C58: optimal transport projections
-/

set_option autoImplicit false
set_option linter.unusedSectionVars false
set_option linter.unusedVariables false

namespace Jaxopt.Transport

open Jaxopt.Proj

/-! ## Specification -/

section
variable {K : Type*} [Field K] [LinearOrder K] {m n : ℕ}

/-- The transportation polytope: non-negative matrices with row sums `a` and column sums `b`. -/
def Polytope (a : Fin m → K) (b : Fin n → K) : Set (Fin m × Fin n → K) :=
  {P | (∀ ij, 0 ≤ P ij) ∧ (∀ i, ∑ j, P (i, j) = a i) ∧ ∀ j, ∑ i, P (i, j) = b j}

/-- A matrix as a vector of entries. -/
def flat (P : Fin m → Fin n → K) : Fin m × Fin n → K := fun ij => P ij.1 ij.2

end

/-- Stationarity: every partial derivative of `f` vanishes at `u`. -/
def Stationary {m : ℕ} (f : (Fin m → ℝ) → ℝ) (u : Fin m → ℝ) : Prop := ∀ i, HasDerivAt (fun t => f (Function.update u i t)) 0 (u i)

/-- Stationarity of a function of two vectors. -/
def Stationary₂ {m n : ℕ} (f : (Fin m → ℝ) × (Fin n → ℝ) → ℝ) (u : (Fin m → ℝ) × (Fin n → ℝ)) : Prop :=
  Stationary (fun x => f (x, u.2)) u.1 ∧ Stationary (fun y => f (u.1, y)) u.2

/-! ## The plan in terms of potentials -/

section
variable {K : Type*} [Field K] [LinearOrder K] [IsStrictOrderedRing K] {m n : ℕ}

/-- Plans of the form `relu((α_i + β_j - C_ij) / γ)` are projections onto the polytope of their own marginals. -/
theorem potentials_isUniqueProj {gamma : K} (hg : 0 < gamma) (cost : Fin m → Fin n → K) (a : Fin m → K) (b : Fin n → K) (P : Fin m → Fin n → K)
    (alpha : Fin m → K) (beta : Fin n → K) (hP : ∀ i j, P i j = relu ((alpha i + beta j - cost i j) / gamma)) (hr : ∀ i, ∑ j, P i j = a i)
    (hc : ∀ j, ∑ i, P i j = b j) : IsUniqueProj (Polytope a b) (fun ij => -cost ij.1 ij.2 / gamma) (flat P) := by
  refine isUniqueProj_of_vi ⟨fun ij => ?_, hr, hc⟩ fun Q hQ => ?_
  · unfold flat; rw [hP]; exact relu_nonneg _
  · have key : ∀ ij : Fin m × Fin n, (-cost ij.1 ij.2 / gamma - flat P ij) * (Q ij - flat P ij) ≤
        -(alpha ij.1 / gamma) * (Q ij - flat P ij) + -(beta ij.2 / gamma) * (Q ij - flat P ij) := by
      rintro ⟨i, j⟩
      have hq := hQ.1 (i, j)
      show (-cost i j / gamma - P i j) * (Q (i, j) - P i j) ≤ -(alpha i / gamma) * (Q (i, j) - P i j) + -(beta j / gamma) * (Q (i, j) - P i j)
      have e : (alpha i + beta j - cost i j) / gamma = alpha i / gamma + beta j / gamma + -cost i j / gamma := by ring
      rw [hP, e]
      unfold relu
      rcases le_total (alpha i / gamma + beta j / gamma + -cost i j / gamma) 0 with h | h
      · rw [max_eq_right h]
        nlinarith
      · rw [max_eq_left h]
        apply le_of_eq; ring
    refine (Finset.sum_le_sum fun ij _ => key ij).trans ?_
    rw [Finset.sum_add_distrib, Fintype.sum_prod_type, Fintype.sum_prod_type_right]
    have h1 : ∀ i, ∑ j, -(alpha (i, j).1 / gamma) * (Q (i, j) - flat P (i, j)) = 0 := fun i => by
      show ∑ j, -(alpha i / gamma) * (Q (i, j) - P i j) = 0
      rw [← Finset.mul_sum, Finset.sum_sub_distrib, hQ.2.1 i, hr i, sub_self, mul_zero]
    have h2 : ∀ j, ∑ i, -(beta (i, j).2 / gamma) * (Q (i, j) - flat P (i, j)) = 0 := fun j => by
      show ∑ i, -(beta j / gamma) * (Q (i, j) - P i j) = 0
      rw [← Finset.mul_sum, Finset.sum_sub_distrib, hQ.2.2 j, hc j, sub_self, mul_zero]
    rw [Finset.sum_congr rfl fun i _ => h1 i, Finset.sum_congr rfl fun j _ => h2 j]
    simp

/-! ## The smoothed maximum -/

theorem arg_threshold (hm : 0 < m) (x : Fin m → K) (b gamma : K) :
    ∃ τ, (∀ i, maxL2Arg x b gamma i = relu (x i / (gamma * b) - τ)) ∧ ∑ i, maxL2Arg x b gamma i = 1 := by
  obtain ⟨τ, h1, h2⟩ := simplex_threshold hm (fun i => x i / (gamma * b)) (1 : K) one_pos
  exact ⟨τ, h1, by rw [← h2]; exact Finset.sum_congr rfl fun i _ => h1 i⟩

theorem arg_mem (hm : 0 < m) (x : Fin m → K) (b gamma : K) : (∀ i, 0 ≤ maxL2Arg x b gamma i) ∧ ∑ i, maxL2Arg x b gamma i = 1 := by
  obtain ⟨τ, h1, h2⟩ := arg_threshold hm x b gamma
  exact ⟨fun i => by rw [h1]; exact relu_nonneg _, h2⟩

theorem arg_vi (hm : 0 < m) (x : Fin m → K) {b gamma : K} (hs : 0 < gamma * b) (q : Fin m → K) (hq : ∀ i, 0 ≤ q i) (hq1 : ∑ i, q i = 1) :
    ∑ i, (x i - gamma * b * maxL2Arg x b gamma i) * (q i - maxL2Arg x b gamma i) ≤ 0 := by
  obtain ⟨τ, h1, h2⟩ := arg_threshold hm x b gamma
  set p := maxL2Arg x b gamma with hp
  set s := gamma * b with hsd
  have key : ∀ i, (x i - s * p i) * (q i - p i) ≤ s * τ * (q i - p i) := by
    intro i
    have hqi := hq i
    have hx : x i = s * (x i / s) := (mul_div_cancel₀ _ hs.ne').symm
    rw [h1 i]
    unfold relu
    rcases le_total (x i / s - τ) 0 with h | h
    · rw [max_eq_right h]
      have : x i ≤ s * τ := by rw [hx]; exact mul_le_mul_of_nonneg_left (by linarith) hs.le
      nlinarith
    · rw [max_eq_left h]
      have : x i - s * (x i / s - τ) = s * τ := by rw [mul_sub, ← hx]; ring
      rw [this]
  refine (Finset.sum_le_sum fun i _ => key i).trans ?_
  rw [← Finset.mul_sum, Finset.sum_sub_distrib, hq1, h2, sub_self, mul_zero]

/-- The maximum is attained at `p`, with the quadratic gain of a strongly concave problem. -/
theorem maxL2_ge (hm : 0 < m) (x : Fin m → K) {b gamma : K} (hs : 0 < gamma * b) (q : Fin m → K) (hq : ∀ i, 0 ≤ q i) (hq1 : ∑ i, q i = 1) :
    dot x q - 1 / 2 * (gamma * b) * dot q q + 1 / 2 * (gamma * b) * ∑ i, (maxL2Arg x b gamma i - q i) ^ 2 ≤ maxL2 x b gamma := by
  have h := arg_vi hm x hs q hq hq1
  unfold maxL2 dot
  simp only
  set p := maxL2Arg x b gamma with hp
  have e : (∑ i, x i * p i - 1 / 2 * (gamma * b) * ∑ i, p i * p i) -
      (∑ i, x i * q i - 1 / 2 * (gamma * b) * ∑ i, q i * q i + 1 / 2 * (gamma * b) * ∑ i, (p i - q i) ^ 2) =
      -∑ i, (x i - gamma * b * p i) * (q i - p i) := by
    simp only [Finset.mul_sum]
    rw [← Finset.sum_sub_distrib, ← Finset.sum_sub_distrib, ← Finset.sum_add_distrib, ← Finset.sum_sub_distrib, ← Finset.sum_neg_distrib]
    exact Finset.sum_congr rfl fun i _ => by ring
  linarith

theorem maxL2_sandwich (hm : 0 < m) (x y : Fin m → K) {b gamma : K} (hs : 0 < gamma * b) :
    maxL2 x b gamma + ∑ i, maxL2Arg x b gamma i * (y i - x i) ≤ maxL2 y b gamma ∧
    maxL2 y b gamma ≤ maxL2 x b gamma + ∑ i, maxL2Arg x b gamma i * (y i - x i) + 1 / (2 * (gamma * b)) * ∑ i, (y i - x i) ^ 2 := by
  obtain ⟨hp0, hp1⟩ := arg_mem hm x b gamma
  obtain ⟨hq0, hq1⟩ := arg_mem hm y b gamma
  have h1 := maxL2_ge hm y hs _ hp0 hp1
  have h2 := maxL2_ge hm x hs _ hq0 hq1
  have ex : maxL2 x b gamma = dot x (maxL2Arg x b gamma) - 1 / 2 * (gamma * b) * dot (maxL2Arg x b gamma) (maxL2Arg x b gamma) := rfl
  have ey : maxL2 y b gamma = dot y (maxL2Arg y b gamma) - 1 / 2 * (gamma * b) * dot (maxL2Arg y b gamma) (maxL2Arg y b gamma) := rfl
  set p := maxL2Arg x b gamma with hp
  set q := maxL2Arg y b gamma with hq
  set s := gamma * b with hsd
  have hd : ∀ z : Fin m → K, dot y z = dot x z + ∑ i, z i * (y i - x i) := fun z => by
    unfold dot; rw [← Finset.sum_add_distrib]; exact Finset.sum_congr rfl fun i _ => by ring
  have hn : 0 ≤ 1 / 2 * s * ∑ i, (q i - p i) ^ 2 := mul_nonneg (by linarith) (Finset.sum_nonneg fun i _ => sq_nonneg _)
  constructor
  · have := hd p
    linarith
  · have hyq := hd q
    have hx : ∑ i, q i * (y i - x i) - 1 / 2 * s * ∑ i, (p i - q i) ^ 2 ≤
        ∑ i, p i * (y i - x i) + 1 / (2 * s) * ∑ i, (y i - x i) ^ 2 := by
      simp only [Finset.mul_sum]
      rw [← Finset.sum_sub_distrib, ← Finset.sum_add_distrib]
      refine Finset.sum_le_sum fun i _ => ?_
      have hsq : 0 ≤ 1 / (2 * s) * (s * (q i - p i) - (y i - x i)) ^ 2 := mul_nonneg (by positivity) (sq_nonneg _)
      have e : 1 / (2 * s) * (s * (q i - p i) - (y i - x i)) ^ 2 = 1 / 2 * s * (p i - q i) ^ 2 - (q i - p i) * (y i - x i) +
          1 / (2 * s) * (y i - x i) ^ 2 := by
        field_simp; ring
      linarith
    linarith

/-! ## The semi-dual objective -/

/-- The plan computed from `alpha` has non-negative entries and column sums `b`, whatever `alpha`. -/
theorem semiDualPlan_mem (hm : 0 < m) (gamma : K) (cost : Fin m → Fin n → K) {b : Fin n → K} (hb : ∀ j, 0 ≤ b j) (alpha : Fin m → K) :
    (∀ i j, 0 ≤ semiDualPlan maxL2Grad gamma cost b alpha i j) ∧ ∀ j, ∑ i, semiDualPlan maxL2Grad gamma cost b alpha i j = b j := by
  refine ⟨fun i j => mul_nonneg ((arg_mem hm _ _ _).1 i) (hb j), fun j => ?_⟩
  unfold semiDualPlan maxL2Grad
  rw [← Finset.sum_mul, (arg_mem hm _ _ _).2, one_mul]

theorem semiDual_sandwich (hm : 0 < m) {gamma : K} (hg : 0 < gamma) (cost : Fin m → Fin n → K) (a : Fin m → K) {b : Fin n → K} (hb : ∀ j, 0 < b j)
    (u v : Fin m → K) :
    let G := fun i => ∑ j, semiDualPlan maxL2Grad gamma cost b u i j - a i
    semiDual maxL2 gamma cost a b u + ∑ i, G i * (v i - u i) ≤ semiDual maxL2 gamma cost a b v ∧
    semiDual maxL2 gamma cost a b v ≤ semiDual maxL2 gamma cost a b u + ∑ i, G i * (v i - u i) + (n : K) / (2 * gamma) * ∑ i, (v i - u i) ^ 2 := by
  intro G
  have hcol : ∀ j, ∑ i, maxL2Arg (fun i => u i - cost i j) (b j) gamma i * ((v i - cost i j) - (u i - cost i j)) =
      ∑ i, maxL2Arg (fun i => u i - cost i j) (b j) gamma i * (v i - u i) := fun j => Finset.sum_congr rfl fun i _ => by ring
  have hsq : ∀ j, ∑ i, ((v i - cost i j) - (u i - cost i j)) ^ 2 = ∑ i, (v i - u i) ^ 2 := fun j => Finset.sum_congr rfl fun i _ => by ring
  have hlin : ∑ i, G i * (v i - u i) =
      ∑ j, b j * (∑ i, maxL2Arg (fun i => u i - cost i j) (b j) gamma i * (v i - u i)) - (dot v a - dot u a) := by
    have e1 : ∀ i, G i * (v i - u i) = ∑ j, b j * (maxL2Arg (fun i => u i - cost i j) (b j) gamma i * (v i - u i)) - (v i * a i - u i * a i) := by
      intro i
      show (∑ j, semiDualPlan maxL2Grad gamma cost b u i j - a i) * (v i - u i) = _
      rw [sub_mul, Finset.sum_mul]
      congr 1
      · exact Finset.sum_congr rfl fun j _ => by unfold semiDualPlan maxL2Grad; ring
      · ring
    rw [Finset.sum_congr rfl fun i _ => e1 i, Finset.sum_sub_distrib, Finset.sum_comm, Finset.sum_sub_distrib]
    simp only [Finset.mul_sum, dot]
  have hs : ∀ j, 0 < gamma * b j := fun j => mul_pos hg (hb j)
  unfold semiDual
  constructor
  · have h : ∑ j, b j * (maxL2 (fun i => u i - cost i j) (b j) gamma + ∑ i, maxL2Arg (fun i => u i - cost i j) (b j) gamma i * (v i - u i)) ≤
        ∑ j, b j * maxL2 (fun i => v i - cost i j) (b j) gamma := by
      refine Finset.sum_le_sum fun j _ => mul_le_mul_of_nonneg_left ?_ (hb j).le
      rw [← hcol]
      exact (maxL2_sandwich hm _ _ (hs j)).1
    simp only [mul_add, Finset.sum_add_distrib] at h
    rw [hlin]
    show (∑ j, b j * _) - _ + _ ≤ (∑ j, b j * _) - _
    linarith
  · have h : ∑ j, b j * maxL2 (fun i => v i - cost i j) (b j) gamma ≤
        ∑ j, (b j * (maxL2 (fun i => u i - cost i j) (b j) gamma + ∑ i, maxL2Arg (fun i => u i - cost i j) (b j) gamma i * (v i - u i)) +
          1 / (2 * gamma) * ∑ i, (v i - u i) ^ 2) := by
      refine Finset.sum_le_sum fun j _ => ?_
      have h2 := (maxL2_sandwich hm (fun i => u i - cost i j) (fun i => v i - cost i j) (hs j)).2
      rw [hcol, hsq] at h2
      have h3 := mul_le_mul_of_nonneg_left h2 (hb j).le
      refine h3.trans (le_of_eq ?_)
      have hbj := (hb j).ne'
      rw [mul_add]
      congr 1
      field_simp
    rw [Finset.sum_add_distrib, Finset.sum_const, Finset.card_univ, Fintype.card_fin, nsmul_eq_mul] at h
    simp only [mul_add, Finset.sum_add_distrib] at h
    rw [hlin]
    show (∑ j, b j * _) - _ ≤ (∑ j, b j * _) - _ + _ + _
    have e : (n : K) * (1 / (2 * gamma) * ∑ i, (v i - u i) ^ 2) = (n : K) / (2 * gamma) * ∑ i, (v i - u i) ^ 2 := by ring
    linarith

/-- From a quadratic upper model, a minimiser has zero slope. -/
theorem slope_zero_of_min {f : (Fin m → K) → K} {u G : Fin m → K} {M : K} (hM : 0 ≤ M)
    (h : ∀ v, f v ≤ f u + ∑ i, G i * (v i - u i) + M * ∑ i, (v i - u i) ^ 2) (hmin : ∀ v, f u ≤ f v) : ∀ i, G i = 0 := by
  have hv := h fun i => u i + -(1 / (2 * (M + 1))) * G i
  have h0 := hmin fun i => u i + -(1 / (2 * (M + 1))) * G i
  simp only [add_sub_cancel_left] at hv
  set t := 1 / (2 * (M + 1)) with ht
  have htp : 0 < t := by rw [ht]; positivity
  have hMt : M * t ≤ 1 / 2 := by
    rw [ht, mul_one_div, div_le_div_iff₀ (by positivity) (by norm_num)]; linarith
  set S := ∑ i, G i ^ 2 with hS
  have e1 : ∑ i, G i * (-t * G i) = -t * S := by rw [hS, Finset.mul_sum]; exact Finset.sum_congr rfl fun i _ => by ring
  have e2 : ∑ i, (-t * G i) ^ 2 = t ^ 2 * S := by rw [hS, Finset.mul_sum]; exact Finset.sum_congr rfl fun i _ => by ring
  have hS0 : 0 ≤ S := Finset.sum_nonneg fun i _ => sq_nonneg _
  rw [e1, e2] at hv
  have : t * S ≤ 1 / 2 * (t * S) := by
    have := mul_le_mul_of_nonneg_right hMt (mul_nonneg htp.le hS0)
    nlinarith
  have hS1 : S = 0 := by
    have : t * S ≤ 0 := by linarith
    have h3 : 0 ≤ t * S := mul_nonneg htp.le hS0
    have : t * S = 0 := le_antisymm this h3
    exact (mul_eq_zero.mp this).resolve_left htp.ne'
  intro i
  have := (Finset.sum_eq_zero_iff_of_nonneg fun i _ => sq_nonneg (G i)).mp hS1 i (Finset.mem_univ i)
  exact pow_eq_zero_iff (two_ne_zero) |>.mp this

/-- The closed form of the plan. -/
theorem semiDualPlan_potentials (hm : 0 < m) {gamma : K} (hg : 0 < gamma) (cost : Fin m → Fin n → K) {b : Fin n → K} (hb : ∀ j, 0 < b j)
    (alpha : Fin m → K) : ∃ beta : Fin n → K, ∀ i j, semiDualPlan maxL2Grad gamma cost b alpha i j = relu ((alpha i + beta j - cost i j) / gamma) := by
  choose τ h1 _ using fun j => arg_threshold hm (fun i => alpha i - cost i j) (b j) gamma
  refine ⟨fun j => -(gamma * b j * τ j), fun i j => ?_⟩
  unfold semiDualPlan maxL2Grad
  rw [h1]
  have hbj := hb j
  unfold relu
  rw [max_mul_of_nonneg _ _ hbj.le, zero_mul]
  congr 1
  have := hbj.ne'
  field_simp
  ring

/-- **C58**, semi-dual: `alpha` minimises the semi-dual exactly when the plan has row sums `a`; the plan always has column sums `b`. -/
theorem C58_semi_dual_minimiser (hm : 0 < m) {gamma : K} (hg : 0 < gamma) (cost : Fin m → Fin n → K) (a : Fin m → K) {b : Fin n → K} (hb : ∀ j, 0 < b j)
    (alpha : Fin m → K) : (∀ v, semiDual maxL2 gamma cost a b alpha ≤ semiDual maxL2 gamma cost a b v) ↔
      flat (semiDualPlan maxL2Grad gamma cost b alpha) ∈ Polytope a b := by
  obtain ⟨p0, pc⟩ := semiDualPlan_mem hm gamma cost (fun j => (hb j).le) alpha
  constructor
  · intro h
    have hz := slope_zero_of_min (f := semiDual maxL2 gamma cost a b) (by positivity)
      (fun v => (semiDual_sandwich hm hg cost a hb alpha v).2) h
    exact ⟨fun ij => p0 _ _, fun i => by have := hz i; exact sub_eq_zero.mp this, pc⟩
  · intro h v
    have h1 := (semiDual_sandwich hm hg cost a hb alpha v).1
    have h2 : ∀ i, (∑ j, semiDualPlan maxL2Grad gamma cost b alpha i j - a i) = 0 := fun i => sub_eq_zero.mpr (h.2.1 i)
    simp only [h2, zero_mul, Finset.sum_const_zero, add_zero] at h1
    exact h1

/-- **C58**: if the solver returns a minimiser of the semi-dual, the plan is the unique closest matrix of the transportation polytope to
`-cost / gamma`. -/
theorem C58_semi_dual_partial (hm : 0 < m) {gamma : K} (hg : 0 < gamma) (cost : Fin m → Fin n → K) (a : Fin m → K) {b : Fin n → K} (hb : ∀ j, 0 < b j)
    (makeSolver : ((Fin m → K) → K) → (Fin m → K) → (Fin m → K))
    (hsol : ∀ v, semiDual maxL2 gamma cost a b (makeSolver (semiDual maxL2 gamma cost a b) fun _ => 0) ≤ semiDual maxL2 gamma cost a b v) :
    IsUniqueProj (Polytope a b) (fun ij => -cost ij.1 ij.2 / gamma) (flat (regularizedTransportSemiDual makeSolver maxL2 maxL2Grad gamma cost a b)) := by
  have hmem := (C58_semi_dual_minimiser hm hg cost a hb _).mp hsol
  obtain ⟨beta, hP⟩ := semiDualPlan_potentials hm hg cost hb (makeSolver (semiDual maxL2 gamma cost a b) fun _ => 0)
  exact potentials_isUniqueProj hg cost a b _ _ beta hP hmem.2.1 hmem.2.2

/-- **C58**, as called by users: `projection_transport(sim, (a, b))` is the unique projection of `sim` onto the polytope. -/
theorem C58_projection_transport_partial (hm : 0 < m) (sim : Fin m → Fin n → K) (a : Fin m → K) {b : Fin n → K} (hb : ∀ j, 0 < b j)
    (makeSolver : ((Fin m → K) → K) → (Fin m → K) → (Fin m → K))
    (hsol : ∀ v, semiDual maxL2 1 (fun i j => -sim i j) a b (makeSolver (semiDual maxL2 1 (fun i j => -sim i j) a b) fun _ => 0) ≤
      semiDual maxL2 1 (fun i j => -sim i j) a b v) :
    IsUniqueProj (Polytope a b) (flat sim) (flat (projectionTransportSemiDual makeSolver sim a b)) := by
  have h := C58_semi_dual_partial hm one_pos (fun i j => -sim i j) a hb makeSolver hsol
  have e : (fun ij : Fin m × Fin n => - -sim ij.1 ij.2 / (1 : K)) = flat sim := by
    funext ij; unfold flat; rw [neg_neg, div_one]
  rw [e] at h
  exact h

/-! ## The dual objective -/

theorem relu_sq_sandwich (x y : K) : relu x * relu x + 2 * relu x * (y - x) ≤ relu y * relu y ∧
    relu y * relu y ≤ relu x * relu x + 2 * relu x * (y - x) + (y - x) ^ 2 := by
  unfold relu
  rcases le_total x 0 with h | h <;> rcases le_total y 0 with k | k
  · rw [max_eq_right h, max_eq_right k]; constructor <;> nlinarith [sq_nonneg (y - x)]
  · rw [max_eq_right h, max_eq_left k]; constructor <;> nlinarith [sq_nonneg (y - x)]
  · rw [max_eq_left h, max_eq_right k]; constructor <;> nlinarith [sq_nonneg (y - x)]
  · rw [max_eq_left h, max_eq_left k]; constructor <;> nlinarith [sq_nonneg (y - x)]

theorem deltaL2Grad_eq {gamma : K} (hg : 0 < gamma) (x : Fin m → K) (i : Fin m) : deltaL2Grad x gamma i = relu (x i / gamma) := by
  unfold deltaL2Grad relu
  rw [show x i / gamma = 1 / gamma * x i by ring, show (0 : K) = 1 / gamma * 0 by ring, ← mul_max_of_nonneg _ _ (by positivity : 0 ≤ 1 / gamma), mul_zero]
  ring

theorem dual_sandwich {gamma : K} (hg : 0 < gamma) (cost : Fin m → Fin n → K) (a : Fin m → K) (b : Fin n → K) (u v : (Fin m → K) × (Fin n → K)) :
    let P := dualPlan deltaL2Grad gamma cost u
    let L := (∑ i, (∑ j, P i j - a i) * (v.1 i - u.1 i)) + ∑ j, (∑ i, P i j - b j) * (v.2 j - u.2 j)
    dual deltaL2 gamma cost a b u + L ≤ dual deltaL2 gamma cost a b v ∧
    dual deltaL2 gamma cost a b v ≤ dual deltaL2 gamma cost a b u + L +
      1 / 2 / gamma * ∑ j, ∑ i, ((v.1 i - u.1 i) + (v.2 j - u.2 j)) ^ 2 := by
  intro P L
  have hg2 : 0 ≤ 1 / 2 / gamma := by positivity
  have hL : L = (∑ j, ∑ i, P i j * ((v.1 i - u.1 i) + (v.2 j - u.2 j))) - (dot v.1 a - dot u.1 a) - (dot v.2 b - dot u.2 b) := by
    have e1 : ∑ i, (∑ j, P i j - a i) * (v.1 i - u.1 i) = (∑ j, ∑ i, P i j * (v.1 i - u.1 i)) - (dot v.1 a - dot u.1 a) := by
      rw [Finset.sum_comm]
      unfold dot
      rw [← Finset.sum_sub_distrib, ← Finset.sum_sub_distrib]
      refine Finset.sum_congr rfl fun i _ => ?_
      rw [sub_mul, Finset.sum_mul]; ring
    have e2 : ∑ j, (∑ i, P i j - b j) * (v.2 j - u.2 j) = (∑ j, ∑ i, P i j * (v.2 j - u.2 j)) - (dot v.2 b - dot u.2 b) := by
      unfold dot
      rw [← Finset.sum_sub_distrib, ← Finset.sum_sub_distrib]
      refine Finset.sum_congr rfl fun i _ => ?_
      rw [sub_mul, Finset.sum_mul]; ring
    show _ + _ = _
    rw [e1, e2]
    simp only [mul_add, Finset.sum_add_distrib]
    ring
  have hent : ∀ i j, 1 / 2 / gamma * (relu (u.1 i + u.2 j - cost i j) * relu (u.1 i + u.2 j - cost i j)) +
        P i j * ((v.1 i - u.1 i) + (v.2 j - u.2 j)) ≤ 1 / 2 / gamma * (relu (v.1 i + v.2 j - cost i j) * relu (v.1 i + v.2 j - cost i j)) ∧
      1 / 2 / gamma * (relu (v.1 i + v.2 j - cost i j) * relu (v.1 i + v.2 j - cost i j)) ≤
        1 / 2 / gamma * (relu (u.1 i + u.2 j - cost i j) * relu (u.1 i + u.2 j - cost i j)) +
        P i j * ((v.1 i - u.1 i) + (v.2 j - u.2 j)) + 1 / 2 / gamma * ((v.1 i - u.1 i) + (v.2 j - u.2 j)) ^ 2 := by
    intro i j
    obtain ⟨h1, h2⟩ := relu_sq_sandwich (u.1 i + u.2 j - cost i j) (v.1 i + v.2 j - cost i j)
    have e : (v.1 i + v.2 j - cost i j) - (u.1 i + u.2 j - cost i j) = (v.1 i - u.1 i) + (v.2 j - u.2 j) := by ring
    rw [e] at h1 h2
    have h1' := mul_le_mul_of_nonneg_left h1 hg2
    have h2' := mul_le_mul_of_nonneg_left h2 hg2
    have eP : P i j = 1 / 2 / gamma * (2 * relu (u.1 i + u.2 j - cost i j)) := rfl
    rw [eP]
    constructor
    · refine le_trans (le_of_eq ?_) h1'; ring
    · refine le_trans h2' (le_of_eq ?_); ring
  have hD : ∀ w : (Fin m → K) × (Fin n → K), dual deltaL2 gamma cost a b w =
      (∑ j, ∑ i, 1 / 2 / gamma * (relu (w.1 i + w.2 j - cost i j) * relu (w.1 i + w.2 j - cost i j))) - dot w.1 a - dot w.2 b := by
    intro w
    simp only [dual, deltaL2]
    congr 2
    refine Finset.sum_congr rfl fun j _ => ?_
    rw [← Finset.mul_sum]; rfl
  rw [hD, hD, hL]
  constructor
  · have h := Finset.sum_le_sum fun (j : Fin n) (_ : j ∈ Finset.univ) => Finset.sum_le_sum fun (i : Fin m) (_ : i ∈ Finset.univ) => (hent i j).1
    simp only [Finset.sum_add_distrib] at h ⊢
    linarith
  · have h := Finset.sum_le_sum fun (j : Fin n) (_ : j ∈ Finset.univ) => Finset.sum_le_sum fun (i : Fin m) (_ : i ∈ Finset.univ) => (hent i j).2
    have e : 1 / 2 / gamma * ∑ j, ∑ i, ((v.1 i - u.1 i) + (v.2 j - u.2 j)) ^ 2 =
        ∑ j, ∑ i, 1 / 2 / gamma * ((v.1 i - u.1 i) + (v.2 j - u.2 j)) ^ 2 := by simp only [Finset.mul_sum]
    rw [e]
    simp only [Finset.sum_add_distrib] at h ⊢
    linarith

/-- **C58**, dual: `(alpha, beta)` minimises the dual exactly when the plan has row sums `a` and column sums `b`. -/
theorem C58_dual_minimiser {gamma : K} (hg : 0 < gamma) (cost : Fin m → Fin n → K) (a : Fin m → K) (b : Fin n → K) (ab : (Fin m → K) × (Fin n → K)) :
    (∀ v, dual deltaL2 gamma cost a b ab ≤ dual deltaL2 gamma cost a b v) ↔ flat (dualPlan deltaL2Grad gamma cost ab) ∈ Polytope a b := by
  have hp0 : ∀ i j, 0 ≤ dualPlan deltaL2Grad gamma cost ab i j := fun i j => by
    unfold dualPlan; rw [deltaL2Grad_eq hg]; exact relu_nonneg _
  constructor
  · intro h
    have h1 : ∀ i, ∑ j, dualPlan deltaL2Grad gamma cost ab i j - a i = 0 := by
      refine slope_zero_of_min (f := fun x => dual deltaL2 gamma cost a b (x, ab.2)) (u := ab.1) (M := 1 / 2 / gamma * n) (by positivity)
        (fun v => ?_) fun v => h (v, ab.2)
      have := (dual_sandwich hg cost a b ab (v, ab.2)).2
      simp only [sub_self, mul_zero, Finset.sum_const_zero, add_zero, Finset.sum_const, Finset.card_univ, Fintype.card_fin, nsmul_eq_mul] at this
      refine this.trans (le_of_eq ?_); ring
    have h2 : ∀ j, ∑ i, dualPlan deltaL2Grad gamma cost ab i j - b j = 0 := by
      refine slope_zero_of_min (f := fun y => dual deltaL2 gamma cost a b (ab.1, y)) (u := ab.2) (M := 1 / 2 / gamma * m) (by positivity)
        (fun v => ?_) fun v => h (ab.1, v)
      have := (dual_sandwich hg cost a b ab (ab.1, v)).2
      simp only [sub_self, mul_zero, Finset.sum_const_zero, zero_add, Finset.sum_const, Finset.card_univ, Fintype.card_fin, nsmul_eq_mul] at this
      refine this.trans (le_of_eq ?_)
      rw [← Finset.mul_sum]; ring
    exact ⟨fun ij => hp0 _ _, fun i => sub_eq_zero.mp (h1 i), fun j => sub_eq_zero.mp (h2 j)⟩
  · intro h v
    have h1 := (dual_sandwich hg cost a b ab v).1
    have e1 : ∀ i, (∑ j, dualPlan deltaL2Grad gamma cost ab i j - a i) = 0 := fun i => sub_eq_zero.mpr (h.2.1 i)
    have e2 : ∀ j, (∑ i, dualPlan deltaL2Grad gamma cost ab i j - b j) = 0 := fun j => sub_eq_zero.mpr (h.2.2 j)
    simp only [e1, e2, zero_mul, Finset.sum_const_zero, add_zero] at h1
    exact h1

/-- **C58**: if the solver returns a minimiser of the dual, the plan is the unique closest matrix of the polytope to `-cost / gamma`. -/
theorem C58_dual {gamma : K} (hg : 0 < gamma) (cost : Fin m → Fin n → K) (a : Fin m → K) (b : Fin n → K)
    (makeSolver : ((Fin m → K) × (Fin n → K) → K) → (Fin m → K) × (Fin n → K) → (Fin m → K) × (Fin n → K))
    (hsol : ∀ v, dual deltaL2 gamma cost a b (makeSolver (dual deltaL2 gamma cost a b) (fun _ => 0, fun _ => 0)) ≤ dual deltaL2 gamma cost a b v) :
    IsUniqueProj (Polytope a b) (fun ij => -cost ij.1 ij.2 / gamma) (flat (regularizedTransportDual makeSolver deltaL2 deltaL2Grad gamma cost a b)) := by
  have hmem := (C58_dual_minimiser hg cost a b _).mp hsol
  refine potentials_isUniqueProj hg cost a b _ (makeSolver (dual deltaL2 gamma cost a b) (fun _ => 0, fun _ => 0)).1
    (makeSolver (dual deltaL2 gamma cost a b) (fun _ => 0, fun _ => 0)).2 (fun i j => ?_) hmem.2.1 hmem.2.2
  unfold regularizedTransportDual dualPlan
  exact deltaL2Grad_eq hg _ i

/-- **C58**, the two formulations agree. -/
theorem C58_formulations_agree (hm : 0 < m) (sim : Fin m → Fin n → K) (a : Fin m → K) {b : Fin n → K} (hb : ∀ j, 0 < b j)
    (makeSolver : ((Fin m → K) → K) → (Fin m → K) → (Fin m → K))
    (hsol : ∀ v, semiDual maxL2 1 (fun i j => -sim i j) a b (makeSolver (semiDual maxL2 1 (fun i j => -sim i j) a b) fun _ => 0) ≤
      semiDual maxL2 1 (fun i j => -sim i j) a b v)
    (makeSolver' : ((Fin m → K) × (Fin n → K) → K) → (Fin m → K) × (Fin n → K) → (Fin m → K) × (Fin n → K))
    (hsol' : ∀ v, dual deltaL2 1 (fun i j => -sim i j) a b (makeSolver' (dual deltaL2 1 (fun i j => -sim i j) a b) (fun _ => 0, fun _ => 0)) ≤
      dual deltaL2 1 (fun i j => -sim i j) a b v) :
    projectionTransportSemiDual makeSolver sim a b = projectionTransportDual makeSolver' sim a b := by
  have h1 := C58_projection_transport_partial hm sim a hb makeSolver hsol
  have h2 := C58_dual one_pos (fun i j => -sim i j) a b makeSolver' hsol'
  have e : (fun ij : Fin m × Fin n => - -sim ij.1 ij.2 / (1 : K)) = flat sim := by
    funext ij; unfold flat; rw [neg_neg, div_one]
  rw [e] at h2
  have := h2.eq h1.isProj
  funext i j
  exact congrFun this (i, j)

/-- **C58**: `projection_birkhoff` projects onto the doubly stochastic matrices. -/
theorem C58_birkhoff (hm : 0 < m) (sim : Fin m → Fin m → K) (makeSolver : ((Fin m → K) → K) → (Fin m → K) → (Fin m → K))
    (hsol : ∀ v, semiDual maxL2 1 (fun i j => -sim i j) (fun _ => 1) (fun _ => 1)
      (makeSolver (semiDual maxL2 1 (fun i j => -sim i j) (fun _ => 1) (fun _ => 1)) fun _ => 0) ≤
      semiDual maxL2 1 (fun i j => -sim i j) (fun _ => 1) (fun _ => 1) v) :
    IsUniqueProj {P : Fin m × Fin m → K | (∀ ij, 0 ≤ P ij) ∧ (∀ i, ∑ j, P (i, j) = 1) ∧ ∀ j, ∑ i, P (i, j) = 1} (flat sim)
      (flat (projectionBirkhoffSemiDual makeSolver sim)) :=
  C58_projection_transport_partial hm sim (fun _ => 1) (b := fun _ => 1) (fun _ => one_pos) makeSolver hsol

/-- The dual formulation of `projection_birkhoff`. -/
theorem C58_birkhoff_dual (sim : Fin m → Fin m → K)
    (makeSolver : ((Fin m → K) × (Fin m → K) → K) → (Fin m → K) × (Fin m → K) → (Fin m → K) × (Fin m → K))
    (hsol : ∀ v, dual deltaL2 1 (fun i j => -sim i j) (fun _ => 1) (fun _ => 1)
      (makeSolver (dual deltaL2 1 (fun i j => -sim i j) (fun _ => 1) (fun _ => 1)) (fun _ => 0, fun _ => 0)) ≤
      dual deltaL2 1 (fun i j => -sim i j) (fun _ => 1) (fun _ => 1) v) :
    IsUniqueProj {P : Fin m × Fin m → K | (∀ ij, 0 ≤ P ij) ∧ (∀ i, ∑ j, P (i, j) = 1) ∧ ∀ j, ∑ i, P (i, j) = 1} (flat sim)
      (flat (projectionBirkhoffDual makeSolver sim)) := by
  have h := C58_dual one_pos (fun i j => -sim i j) (fun _ => 1) (fun _ => 1) makeSolver hsol
  have e : (fun ij : Fin m × Fin m => - -sim ij.1 ij.2 / (1 : K)) = flat sim := by
    funext ij; unfold flat; rw [neg_neg, div_one]
  rw [e] at h
  exact h

end

/-! ## Stationarity over the reals -/

section
variable {m n : ℕ}

theorem sum_update_sub (u : Fin m → ℝ) (G : Fin m → ℝ) (i : Fin m) (s t : ℝ) :
    ∑ k, G k * (Function.update u i t k - Function.update u i s k) = G i * (t - s) := by
  rw [Finset.sum_eq_single i]
  · simp
  · intro k _ hk; simp [hk]
  · intro h; exact absurd (Finset.mem_univ i) h

theorem sum_update_sub_sq (u : Fin m → ℝ) (i : Fin m) (s t : ℝ) :
    ∑ k, (Function.update u i t k - Function.update u i s k) ^ 2 = (t - s) ^ 2 := by
  rw [Finset.sum_eq_single i]
  · simp
  · intro k _ hk; simp [hk]
  · intro h; exact absurd (Finset.mem_univ i) h

/-- **C58**: the partial derivatives of the semi-dual are the row sums of the plan minus `a`: treating the maximiser of `_max_l2` as a constant
(`stop_gradient`) gives the exact gradient. -/
theorem C58_semi_dual_gradient (hm : 0 < m) {gamma : ℝ} (hg : 0 < gamma) (cost : Fin m → Fin n → ℝ) (a : Fin m → ℝ) {b : Fin n → ℝ}
    (hb : ∀ j, 0 < b j) (alpha : Fin m → ℝ) (i : Fin m) :
    HasDerivAt (fun t => semiDual maxL2 gamma cost a b (Function.update alpha i t)) (∑ j, semiDualPlan maxL2Grad gamma cost b alpha i j - a i) (alpha i) := by
  have h := Loss.hasDerivAt_of_sandwich (f := fun t => semiDual maxL2 gamma cost a b (Function.update alpha i t))
    (c := fun t => ∑ j, semiDualPlan maxL2Grad gamma cost b (Function.update alpha i t) i j - a i) (M := (n : ℝ) / (2 * gamma))
    (fun s t => by
      have := (semiDual_sandwich hm hg cost a hb (Function.update alpha i s) (Function.update alpha i t)).1
      rw [sum_update_sub alpha (fun k => ∑ j, semiDualPlan maxL2Grad gamma cost b (Function.update alpha i s) k j - a k)] at this
      exact this)
    (fun s t => by
      have := (semiDual_sandwich hm hg cost a hb (Function.update alpha i s) (Function.update alpha i t)).2
      rw [sum_update_sub alpha (fun k => ∑ j, semiDualPlan maxL2Grad gamma cost b (Function.update alpha i s) k j - a k), sum_update_sub_sq] at this
      exact this) (alpha i)
  simpa using h

/-- **C58**: if the solver reaches stationarity of the semi-dual, the plan is the unique closest matrix of the polytope to `-cost / gamma`. -/
theorem C58_semi_dual_stationary_partial (hm : 0 < m) {gamma : ℝ} (hg : 0 < gamma) (cost : Fin m → Fin n → ℝ) (a : Fin m → ℝ) {b : Fin n → ℝ}
    (hb : ∀ j, 0 < b j) (makeSolver : ((Fin m → ℝ) → ℝ) → (Fin m → ℝ) → (Fin m → ℝ))
    (hsol : Stationary (semiDual maxL2 gamma cost a b) (makeSolver (semiDual maxL2 gamma cost a b) fun _ => 0)) :
    IsUniqueProj (Polytope a b) (fun ij => -cost ij.1 ij.2 / gamma) (flat (regularizedTransportSemiDual makeSolver maxL2 maxL2Grad gamma cost a b)) := by
  refine C58_semi_dual_partial hm hg cost a hb makeSolver ?_
  rw [C58_semi_dual_minimiser hm hg cost a hb]
  obtain ⟨p0, pc⟩ := semiDualPlan_mem hm gamma cost (fun j => (hb j).le) (makeSolver (semiDual maxL2 gamma cost a b) fun _ => 0)
  exact ⟨fun ij => p0 _ _, fun i => sub_eq_zero.mp ((C58_semi_dual_gradient hm hg cost a hb _ i).unique (hsol i)), pc⟩

/-- **C58**: the partial derivatives of the dual are the row and column sums of the plan minus `a` and `b`. -/
theorem C58_dual_gradient {gamma : ℝ} (hg : 0 < gamma) (cost : Fin m → Fin n → ℝ) (a : Fin m → ℝ) (b : Fin n → ℝ) (ab : (Fin m → ℝ) × (Fin n → ℝ)) :
    (∀ i, HasDerivAt (fun t => dual deltaL2 gamma cost a b (Function.update ab.1 i t, ab.2)) (∑ j, dualPlan deltaL2Grad gamma cost ab i j - a i) (ab.1 i)) ∧
    ∀ j, HasDerivAt (fun t => dual deltaL2 gamma cost a b (ab.1, Function.update ab.2 j t)) (∑ i, dualPlan deltaL2Grad gamma cost ab i j - b j) (ab.2 j) := by
  constructor
  · intro i
    have h := Loss.hasDerivAt_of_sandwich (f := fun t => dual deltaL2 gamma cost a b (Function.update ab.1 i t, ab.2))
      (c := fun t => ∑ j, dualPlan deltaL2Grad gamma cost (Function.update ab.1 i t, ab.2) i j - a i) (M := 1 / 2 / gamma * n)
      (fun s t => by
        have := (dual_sandwich hg cost a b (Function.update ab.1 i s, ab.2) (Function.update ab.1 i t, ab.2)).1
        simp only [sub_self, mul_zero, Finset.sum_const_zero, add_zero] at this
        rw [sum_update_sub ab.1 (fun k => ∑ j, dualPlan deltaL2Grad gamma cost (Function.update ab.1 i s, ab.2) k j - a k)] at this
        exact this)
      (fun s t => by
        have := (dual_sandwich hg cost a b (Function.update ab.1 i s, ab.2) (Function.update ab.1 i t, ab.2)).2
        simp only [sub_self, mul_zero, Finset.sum_const_zero, add_zero, Finset.sum_const, Finset.card_univ, Fintype.card_fin, nsmul_eq_mul] at this
        rw [sum_update_sub ab.1 (fun k => ∑ j, dualPlan deltaL2Grad gamma cost (Function.update ab.1 i s, ab.2) k j - a k), sum_update_sub_sq] at this
        refine this.trans (le_of_eq ?_); ring) (ab.1 i)
    simpa using h
  · intro j
    have h := Loss.hasDerivAt_of_sandwich (f := fun t => dual deltaL2 gamma cost a b (ab.1, Function.update ab.2 j t))
      (c := fun t => ∑ i, dualPlan deltaL2Grad gamma cost (ab.1, Function.update ab.2 j t) i j - b j) (M := 1 / 2 / gamma * m)
      (fun s t => by
        have := (dual_sandwich hg cost a b (ab.1, Function.update ab.2 j s) (ab.1, Function.update ab.2 j t)).1
        simp only [sub_self, mul_zero, Finset.sum_const_zero, zero_add] at this
        rw [sum_update_sub ab.2 (fun k => ∑ i, dualPlan deltaL2Grad gamma cost (ab.1, Function.update ab.2 j s) i k - b k)] at this
        exact this)
      (fun s t => by
        have := (dual_sandwich hg cost a b (ab.1, Function.update ab.2 j s) (ab.1, Function.update ab.2 j t)).2
        simp only [sub_self, mul_zero, Finset.sum_const_zero, zero_add, Finset.sum_const, Finset.card_univ, Fintype.card_fin, nsmul_eq_mul] at this
        rw [sum_update_sub ab.2 (fun k => ∑ i, dualPlan deltaL2Grad gamma cost (ab.1, Function.update ab.2 j s) i k - b k), ← Finset.mul_sum,
          sum_update_sub_sq] at this
        refine this.trans (le_of_eq ?_); ring) (ab.2 j)
    simpa using h

/-- **C58**: if the solver reaches stationarity of the dual, the plan is the unique closest matrix of the polytope to `-cost / gamma`. -/
theorem C58_dual_stationary {gamma : ℝ} (hg : 0 < gamma) (cost : Fin m → Fin n → ℝ) (a : Fin m → ℝ) (b : Fin n → ℝ)
    (makeSolver : ((Fin m → ℝ) × (Fin n → ℝ) → ℝ) → (Fin m → ℝ) × (Fin n → ℝ) → (Fin m → ℝ) × (Fin n → ℝ))
    (hsol : Stationary₂ (dual deltaL2 gamma cost a b) (makeSolver (dual deltaL2 gamma cost a b) (fun _ => 0, fun _ => 0))) :
    IsUniqueProj (Polytope a b) (fun ij => -cost ij.1 ij.2 / gamma) (flat (regularizedTransportDual makeSolver deltaL2 deltaL2Grad gamma cost a b)) := by
  refine C58_dual hg cost a b makeSolver ?_
  rw [C58_dual_minimiser hg cost a b]
  set ab := makeSolver (dual deltaL2 gamma cost a b) (fun _ => 0, fun _ => 0) with hab
  obtain ⟨g1, g2⟩ := C58_dual_gradient hg cost a b ab
  refine ⟨fun ij => ?_, fun i => sub_eq_zero.mp ((g1 i).unique (hsol.1 i)), fun j => sub_eq_zero.mp ((g2 j).unique (hsol.2 j))⟩
  unfold flat dualPlan
  rw [deltaL2Grad_eq hg]
  exact relu_nonneg _

end

/-! ## Non-vacuity -/

/-- A 2 x 2 problem whose optimal potential is `(0, 1/2)`: the plan has the requested marginals. -/
example : semiDualPlan maxL2Grad 1 (fun i j => ![![(0 : ℚ), 1], ![1, 1]] i j) ![1, 1] ![0, 1 / 2] = ![![3 / 4, 1 / 4], ![1 / 4, 3 / 4]] := by
  decide +kernel

/-- Hence the hypothesis of `C58_semi_dual_partial` can be met. -/
example : ∃ makeSolver : ((Fin 2 → ℚ) → ℚ) → (Fin 2 → ℚ) → (Fin 2 → ℚ),
    ∀ v, semiDual maxL2 1 (fun i j => ![![(0 : ℚ), 1], ![1, 1]] i j) ![1, 1] ![1, 1]
      (makeSolver (semiDual maxL2 1 (fun i j => ![![(0 : ℚ), 1], ![1, 1]] i j) ![1, 1] ![1, 1]) fun _ => 0) ≤
      semiDual maxL2 1 (fun i j => ![![(0 : ℚ), 1], ![1, 1]] i j) ![1, 1] ![1, 1] v := by
  refine ⟨fun _ _ => ![0, 1 / 2], ?_⟩
  rw [C58_semi_dual_minimiser (by norm_num) one_pos _ _ (by decide +kernel)]
  have e : semiDualPlan maxL2Grad 1 (fun i j => ![![(0 : ℚ), 1], ![1, 1]] i j) ![1, 1] ![0, 1 / 2] = ![![3 / 4, 1 / 4], ![1 / 4, 3 / 4]] := by
    decide +kernel
  rw [e]
  refine ⟨?_, ?_, ?_⟩ <;> decide +kernel

end Jaxopt.Transport
