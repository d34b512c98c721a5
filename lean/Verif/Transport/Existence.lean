import Verif.Transport.Accuracy
import Mathlib.Topology.Algebra.Order.LiminfLimsup
import Mathlib.Topology.Order.Compact
import Mathlib.Analysis.SpecialFunctions.Log.Basic

/-!
# C138: optimal potentials exist, and an explicit accuracy of the transport projections

`_regularized_transport_semi_dual` (projection.py lines 542-596) starts its solver at `alpha_init = jnp.zeros(size_a)` (line 584) and minimises the
semi-dual.  The objective is invariant under a common shift of the potentials and grows with their spread, so a minimiser exists, and every point whose
value is not above the one at zero lies near it up to a shift.
-/

set_option autoImplicit false
set_option linter.unusedSectionVars false
set_option linter.unusedVariables false

namespace Jaxopt.Transport

open Jaxopt.Proj Jaxopt.Mirror Filter Topology

variable {m n : ℕ}

/-! ## Coercive functions -/

theorem coercive_range (f : (Fin m → ℝ) → ℝ) {a : Fin m → ℝ} (ha : ∀ i, 0 < a i) {C : ℝ} (hlow : ∀ α k, ∑ i, a i * (α k - α i) - C ≤ f α) (α : Fin m → ℝ)
    (k : Fin m) (hk : ∀ i, α i ≤ α k) (i : Fin m) : a i * (α k - α i) ≤ f α + C := by
  have h := hlow α k
  have h1 := Finset.single_le_sum (f := fun i => a i * (α k - α i)) (fun i _ => mul_nonneg (ha i).le (sub_nonneg.2 (hk i))) (Finset.mem_univ i)
  linarith

theorem coercive_min (hm : 0 < m) (f : (Fin m → ℝ) → ℝ) (hf : Continuous f) {a : Fin m → ℝ} (ha : ∀ i, 0 < a i) {C : ℝ}
    (hlow : ∀ α k, ∑ i, a i * (α k - α i) - C ≤ f α) (hshift : ∀ α s, f (fun i => α i + s) = f α) : ∃ α, ∀ v, f α ≤ f v := by
  have hne : Nonempty (Fin m) := ⟨⟨0, hm⟩⟩
  have h0 : 0 ≤ f (fun _ => 0) + C := by
    have := hlow (fun _ => 0) ⟨0, hm⟩
    simp at this
    linarith
  set box : Set (Fin m → ℝ) := Set.pi Set.univ fun i => Set.Icc (-((f (fun _ => 0) + C) / a i)) 0 with hbox
  have hz : (fun _ => 0) ∈ box := fun i _ => ⟨neg_nonpos.2 (div_nonneg h0 (ha i).le), le_refl _⟩
  obtain ⟨α, hα, hmin⟩ := (isCompact_univ_pi fun i => isCompact_Icc).exists_isMinOn (s := box) ⟨_, hz⟩ hf.continuousOn
  refine ⟨α, fun v => ?_⟩
  obtain ⟨k, hk⟩ := Finite.exists_max v
  rw [← hshift v (-(v k))]
  set w : Fin m → ℝ := fun i => v i + -(v k) with hw
  have hwk : w k = 0 := by simp [hw]
  have hw0 : ∀ i, w i ≤ w k := fun i => by rw [hwk]; simp only [hw]; linarith [hk i]
  by_cases hin : w ∈ box
  · exact hmin hin
  · have : ∃ i, w i < -((f (fun _ => 0) + C) / a i) := by
      by_contra hcon
      push Not at hcon
      exact hin fun i _ => ⟨hcon i, by rw [← hwk]; exact hw0 i⟩
    obtain ⟨i, hi⟩ := this
    have h1 := coercive_range f ha hlow w k hw0 i
    rw [hwk, zero_sub] at h1
    have h2 : (f (fun _ => 0) + C) / a i < -w i := by linarith
    rw [div_lt_iff₀ (ha i)] at h2
    have h3 : f α ≤ f (fun _ => 0) := hmin hz
    linarith

/-- Two points that are not worse than zero, shifted to a common maximum, are close. -/
theorem coercive_close (hm : 0 < m) (f : (Fin m → ℝ) → ℝ) {a : Fin m → ℝ} {a0 : ℝ} (ha0 : 0 < a0) (ha : ∀ i, a0 ≤ a i) {C D : ℝ}
    (hlow : ∀ α k, ∑ i, a i * (α k - α i) - C ≤ f α) (α α' : Fin m → ℝ) (h : f α + C ≤ D) (h' : f α' + C ≤ D) :
    ∃ s, ∀ i, |α i - α' i - s| ≤ D / a0 := by
  have hne : Nonempty (Fin m) := ⟨⟨0, hm⟩⟩
  obtain ⟨k, hk⟩ := Finite.exists_max α
  obtain ⟨k', hk'⟩ := Finite.exists_max α'
  have key : ∀ (β : Fin m → ℝ) (l : Fin m), (∀ i, β i ≤ β l) → f β + C ≤ D → ∀ i, 0 ≤ β l - β i ∧ β l - β i ≤ D / a0 := fun β l hl hD i => by
    refine ⟨sub_nonneg.2 (hl i), ?_⟩
    rw [le_div_iff₀ ha0]
    have h1 := coercive_range f (fun i => ha0.trans_le (ha i)) hlow β l hl i
    have h2 := mul_le_mul_of_nonneg_right (ha i) (sub_nonneg.2 (hl i))
    linarith
  refine ⟨α k - α' k', fun i => ?_⟩
  obtain ⟨p1, p2⟩ := key α k hk h i
  obtain ⟨q1, q2⟩ := key α' k' hk' h' i
  rw [abs_le]
  constructor <;> linarith

/-! ## Squared l2 regularisation -/

theorem semiL2_continuous (hm : 0 < m) {gamma : ℝ} (hg : 0 < gamma) (cost : Fin m → Fin n → ℝ) (a : Fin m → ℝ) {b : Fin n → ℝ} (hb : ∀ j, 0 < b j) :
    Continuous (semiDual maxL2 gamma cost a b) := by
  rw [continuous_iff_continuousAt]
  intro u
  have hs := fun v => semiDual_sandwich hm hg cost a hb u v
  have hl : Continuous fun v : Fin m → ℝ => semiDual maxL2 gamma cost a b u + ∑ i, (∑ j, semiDualPlan maxL2Grad gamma cost b u i j - a i) * (v i - u i) :=
    continuous_const.add (continuous_finsetSum _ fun i _ => continuous_const.mul ((continuous_apply i).sub continuous_const))
  refine tendsto_of_tendsto_of_tendsto_of_le_of_le (g := fun v : Fin m → ℝ => semiDual maxL2 gamma cost a b u +
    ∑ i, (∑ j, semiDualPlan maxL2Grad gamma cost b u i j - a i) * (v i - u i)) ?_ (h := fun v : Fin m → ℝ => semiDual maxL2 gamma cost a b u +
    ∑ i, (∑ j, semiDualPlan maxL2Grad gamma cost b u i j - a i) * (v i - u i) + (n : ℝ) / (2 * gamma) * ∑ i, (v i - u i) ^ 2) ?_ (fun v => (hs v).1)
    fun v => (hs v).2
  · have := hl.tendsto u
    simpa using this
  · refine (Continuous.tendsto' ?_ _ _ ?_)
    · fun_prop
    · simp

theorem semiL2_low (hm : 0 < m) {gamma hi : ℝ} (hg : 0 < gamma) (cost : Fin m → Fin n → ℝ) (hc : ∀ i j, cost i j ≤ hi) (a : Fin m → ℝ) {b : Fin n → ℝ}
    (hb : ∀ j, 0 < b j) (hmass : ∑ i, a i = ∑ j, b j) (α : Fin m → ℝ) (k : Fin m) :
    ∑ i, a i * (α k - α i) - ∑ j, b j * (hi + gamma * b j / 2) ≤ semiDual maxL2 gamma cost a b α := by
  have h1 : ∀ j, α k - hi - gamma * b j / 2 ≤ maxL2 (fun i => α i - cost i j) (b j) gamma := fun j => by
    have h := maxL2_ge hm (fun i => α i - cost i j) (mul_pos hg (hb j)) (Pi.single k 1) (fun i => by
      by_cases e : i = k
      · subst e; simp
      · simp [Pi.single_eq_of_ne e]) (by simp)
    have e1 : dot (fun i => α i - cost i j) (Pi.single k (1 : ℝ)) = α k - cost k j := by simp [dot, Pi.single_apply]
    have e2 : dot (Pi.single k (1 : ℝ)) (Pi.single k (1 : ℝ) : Fin m → ℝ) = 1 := by simp [dot, Pi.single_apply]
    rw [e1, e2] at h
    have h3 : 0 ≤ 1 / 2 * (gamma * b j) * ∑ i, (maxL2Arg (fun i => α i - cost i j) (b j) gamma i - (Pi.single k (1 : ℝ) : Fin m → ℝ) i) ^ 2 := by
      have := mul_pos hg (hb j)
      positivity
    have := hc k j
    linarith
  have h2 : ∑ j, b j * (α k - hi - gamma * b j / 2) ≤ dot b fun j => maxL2 (fun i => α i - cost i j) (b j) gamma :=
    Finset.sum_le_sum fun j _ => mul_le_mul_of_nonneg_left (h1 j) (hb j).le
  have e3 : ∑ j, b j * (α k - hi - gamma * b j / 2) = (∑ j, b j) * α k - ∑ j, b j * (hi + gamma * b j / 2) := by
    rw [Finset.sum_mul, ← Finset.sum_sub_distrib]
    exact Finset.sum_congr rfl fun j _ => by ring
  have e4 : ∑ i, a i * (α k - α i) = (∑ i, a i) * α k - dot α a := by
    unfold dot
    rw [Finset.sum_mul, ← Finset.sum_sub_distrib]
    exact Finset.sum_congr rfl fun j _ => by ring
  unfold semiDual
  rw [e4, hmass]
  linarith

theorem semiL2_zero (hm : 0 < m) {gamma lo : ℝ} (hg : 0 < gamma) (cost : Fin m → Fin n → ℝ) (hc : ∀ i j, lo ≤ cost i j) (a : Fin m → ℝ) {b : Fin n → ℝ}
    (hb : ∀ j, 0 < b j) : semiDual maxL2 gamma cost a b (fun _ => 0) ≤ -lo * ∑ j, b j := by
  have h1 : ∀ j, maxL2 (fun i => 0 - cost i j) (b j) gamma ≤ -lo := fun j => by
    obtain ⟨p0, p1⟩ := arg_mem hm (fun i => 0 - cost i j) (b j) gamma
    unfold maxL2 dot
    have h2 : ∑ i, (0 - cost i j) * maxL2Arg (fun i => 0 - cost i j) (b j) gamma i ≤ ∑ i, -lo * maxL2Arg (fun i => 0 - cost i j) (b j) gamma i :=
      Finset.sum_le_sum fun i _ => mul_le_mul_of_nonneg_right (by linarith [hc i j]) (p0 i)
    rw [← Finset.mul_sum, p1, mul_one] at h2
    have h3 : 0 ≤ 1 / 2 * (gamma * b j) * ∑ i, maxL2Arg (fun i => 0 - cost i j) (b j) gamma i * maxL2Arg (fun i => 0 - cost i j) (b j) gamma i :=
      mul_nonneg (by have := mul_pos hg (hb j); positivity) (Finset.sum_nonneg fun i _ => mul_self_nonneg _)
    linarith
  have h2 : dot b (fun j => maxL2 (fun i => 0 - cost i j) (b j) gamma) ≤ ∑ j, b j * -lo :=
    Finset.sum_le_sum fun j _ => mul_le_mul_of_nonneg_left (h1 j) (hb j).le
  have e : dot (fun _ => (0 : ℝ)) a = 0 := by simp [dot]
  unfold semiDual
  rw [e, sub_zero]
  rw [← Finset.sum_mul] at h2
  linarith

/-- The values of the semi-dual do not change when a constant is added to the potentials. -/
theorem semi_shift (F : (Fin m → ℝ) → ℝ → ℝ → ℝ) (gamma : ℝ) (cost : Fin m → Fin n → ℝ)
    (a : Fin m → ℝ) (b : Fin n → ℝ) (hF : ∀ j x s, F (fun i => x i + s) (b j) gamma = F x (b j) gamma + s) (hmass : ∑ i, a i = ∑ j, b j) (α : Fin m → ℝ) (s : ℝ) :
    semiDual F gamma cost a b (fun i => α i + s) = semiDual F gamma cost a b α := by
  unfold semiDual
  have e1 : ∀ j, F (fun i => α i + s - cost i j) (b j) gamma = F (fun i => α i - cost i j) (b j) gamma + s := fun j => by
    rw [← hF]
    congr 1
    funext i
    ring
  have e2 : dot (fun i => α i + s) a = dot α a + s * ∑ i, a i := by
    unfold dot
    rw [Finset.mul_sum, ← Finset.sum_add_distrib]
    exact Finset.sum_congr rfl fun i _ => by ring
  have e3 : dot b (fun j => F (fun i => α i - cost i j) (b j) gamma + s) = dot b (fun j => F (fun i => α i - cost i j) (b j) gamma) + s * ∑ j, b j := by
    unfold dot
    rw [Finset.mul_sum, ← Finset.sum_add_distrib]
    exact Finset.sum_congr rfl fun i _ => by ring
  simp only [e1]
  rw [e2, e3, hmass]
  ring

theorem maxL2_shift (hm : 0 < m) {b gamma : ℝ} (hs : 0 < gamma * b) (x : Fin m → ℝ) (s : ℝ) : maxL2 (fun i => x i + s) b gamma = maxL2 x b gamma + s := by
  refine le_antisymm ?_ ?_
  · have h := (maxL2_sandwich hm (fun i => x i + s) x hs).1
    have e : ∑ i, maxL2Arg (fun i => x i + s) b gamma i * (x i - (x i + s)) = -s := by
      have : ∀ i, maxL2Arg (fun i => x i + s) b gamma i * (x i - (x i + s)) = maxL2Arg (fun i => x i + s) b gamma i * -s := fun i => by ring
      simp only [this]
      rw [← Finset.sum_mul, (arg_mem hm _ _ _).2, one_mul]
    rw [e] at h
    linarith
  · have h := (maxL2_sandwich hm x (fun i => x i + s) hs).1
    have e : ∑ i, maxL2Arg x b gamma i * (x i + s - x i) = s := by
      have : ∀ i, maxL2Arg x b gamma i * (x i + s - x i) = maxL2Arg x b gamma i * s := fun i => by ring
      simp only [this]
      rw [← Finset.sum_mul, (arg_mem hm _ _ _).2, one_mul]
    rw [e] at h
    exact h

theorem exists_le_const (cost : Fin m → Fin n → ℝ) : ∃ hi, ∀ i j, cost i j ≤ hi := by
  obtain ⟨hi, h⟩ := (Set.finite_range fun ij : Fin m × Fin n => cost ij.1 ij.2).bddAbove
  exact ⟨hi, fun i j => h ⟨(i, j), rfl⟩⟩

/-! ## Entropic regularisation -/

theorem sumexp_pos'' (hm : 0 < m) (x : Fin m → ℝ) : 0 < ∑ i, Real.exp (x i) := by
  have : Nonempty (Fin m) := ⟨⟨0, hm⟩⟩
  exact Finset.sum_pos (fun k _ => Real.exp_pos _) Finset.univ_nonempty

theorem maxEnt_shift (hm : 0 < m) {gamma : ℝ} (hg : gamma ≠ 0) (b : ℝ) (x : Fin m → ℝ) (s : ℝ) : maxEnt (fun i => x i + s) b gamma = maxEnt x b gamma + s := by
  have e : ∑ i, Real.exp ((x i + s) / gamma) = Real.exp (s / gamma) * ∑ i, Real.exp (x i / gamma) := by
    rw [Finset.mul_sum]
    refine Finset.sum_congr rfl fun i _ => ?_
    rw [← Real.exp_add]
    congr 1
    ring
  unfold maxEnt
  rw [e, Real.log_mul (Real.exp_pos _).ne' (sumexp_pos'' hm _).ne', Real.log_exp]
  field_simp
  ring

theorem semiEnt_continuous (hm : 0 < m) (gamma : ℝ) (cost : Fin m → Fin n → ℝ) (a : Fin m → ℝ) (b : Fin n → ℝ) :
    Continuous (semiDual maxEnt gamma cost a b) := by
  unfold semiDual dot maxEnt
  refine Continuous.sub (continuous_finsetSum _ fun j _ => continuous_const.mul (Continuous.sub (continuous_const.mul (Continuous.log ?_ ?_)) continuous_const))
    (continuous_finsetSum _ fun i _ => (continuous_apply i).mul continuous_const)
  · fun_prop
  · exact fun α => (sumexp_pos'' hm fun i => (α i - cost i j) / gamma).ne'

theorem semiEnt_low (hm : 0 < m) {gamma hi : ℝ} (hg : 0 < gamma) (cost : Fin m → Fin n → ℝ) (hc : ∀ i j, cost i j ≤ hi) (a : Fin m → ℝ) {b : Fin n → ℝ}
    (hb : ∀ j, 0 < b j) (hmass : ∑ i, a i = ∑ j, b j) (α : Fin m → ℝ) (k : Fin m) :
    ∑ i, a i * (α k - α i) - ∑ j, b j * (hi + gamma * Real.log (b j)) ≤ semiDual maxEnt gamma cost a b α := by
  have h1 : ∀ j, α k - hi - gamma * Real.log (b j) ≤ maxEnt (fun i => α i - cost i j) (b j) gamma := fun j => by
    have h := Finset.single_le_sum (f := fun i => Real.exp ((α i - cost i j) / gamma)) (fun i _ => (Real.exp_pos _).le) (Finset.mem_univ k)
    have h2 := Real.log_le_log (Real.exp_pos _) h
    rw [Real.log_exp, div_le_iff₀ hg] at h2
    unfold maxEnt
    have := hc k j
    linarith
  have h2 : ∑ j, b j * (α k - hi - gamma * Real.log (b j)) ≤ dot b fun j => maxEnt (fun i => α i - cost i j) (b j) gamma :=
    Finset.sum_le_sum fun j _ => mul_le_mul_of_nonneg_left (h1 j) (hb j).le
  have e3 : ∑ j, b j * (α k - hi - gamma * Real.log (b j)) = (∑ j, b j) * α k - ∑ j, b j * (hi + gamma * Real.log (b j)) := by
    rw [Finset.sum_mul, ← Finset.sum_sub_distrib]
    exact Finset.sum_congr rfl fun j _ => by ring
  have e4 : ∑ i, a i * (α k - α i) = (∑ i, a i) * α k - dot α a := by
    unfold dot
    rw [Finset.sum_mul, ← Finset.sum_sub_distrib]
    exact Finset.sum_congr rfl fun j _ => by ring
  unfold semiDual
  rw [e4, hmass]
  linarith

theorem semiEnt_zero (hm : 0 < m) {gamma lo : ℝ} (hg : 0 < gamma) (cost : Fin m → Fin n → ℝ) (hc : ∀ i j, lo ≤ cost i j) (a : Fin m → ℝ) {b : Fin n → ℝ}
    (hb : ∀ j, 0 < b j) :
    semiDual maxEnt gamma cost a b (fun _ => 0) + ∑ j, b j * (gamma * Real.log (b j)) ≤ (-lo + gamma * Real.log m) * ∑ j, b j := by
  have hm' : (0 : ℝ) < m := Nat.cast_pos.mpr hm
  have h1 : ∀ j, maxEnt (fun i => 0 - cost i j) (b j) gamma + gamma * Real.log (b j) ≤ -lo + gamma * Real.log m := fun j => by
    have h : ∑ i, Real.exp ((0 - cost i j) / gamma) ≤ ∑ i : Fin m, Real.exp (-lo / gamma) :=
      Finset.sum_le_sum fun i _ => Real.exp_le_exp.2 (div_le_div_of_nonneg_right (by linarith [hc i j]) hg.le)
    rw [Finset.sum_const, Finset.card_univ, Fintype.card_fin, nsmul_eq_mul] at h
    have h2 := Real.log_le_log (sumexp_pos'' hm _) h
    rw [Real.log_mul hm'.ne' (Real.exp_pos _).ne', Real.log_exp] at h2
    have h3 := mul_le_mul_of_nonneg_left h2 hg.le
    rw [mul_add, mul_div_cancel₀ _ hg.ne'] at h3
    unfold maxEnt
    linarith
  have h2 : ∑ j, b j * (maxEnt (fun i => 0 - cost i j) (b j) gamma + gamma * Real.log (b j)) ≤ ∑ j, b j * (-lo + gamma * Real.log m) :=
    Finset.sum_le_sum fun j _ => mul_le_mul_of_nonneg_left (h1 j) (hb j).le
  have e : dot (fun _ => (0 : ℝ)) a = 0 := by simp [dot]
  have e2 : ∑ j, b j * (maxEnt (fun i => 0 - cost i j) (b j) gamma + gamma * Real.log (b j)) =
      dot b (fun j => maxEnt (fun i => 0 - cost i j) (b j) gamma) + ∑ j, b j * (gamma * Real.log (b j)) := by
    unfold dot
    rw [← Finset.sum_add_distrib]
    exact Finset.sum_congr rfl fun j _ => by ring
  unfold semiDual
  rw [e, sub_zero, ← e2]
  rw [← Finset.sum_mul] at h2
  linarith

/-- A minimiser of the entropic semi-dual has the requested row sums. -/
theorem semiEnt_rows (hm : 0 < m) {gamma : ℝ} (hg : gamma ≠ 0) (cost : Fin m → Fin n → ℝ) (a : Fin m → ℝ) (b : Fin n → ℝ) (α : Fin m → ℝ)
    (hmin : ∀ v, semiDual maxEnt gamma cost a b α ≤ semiDual maxEnt gamma cost a b v) (i : Fin m) :
    ∑ j, semiDualPlan maxEntGrad gamma cost b α i j = a i := by
  have h := C59_semi_dual_gradient hm hg cost a b α i
  have hl : IsLocalMin (fun t => semiDual maxEnt gamma cost a b (Function.update α i t)) (α i) := Filter.Eventually.of_forall fun t => by
    show semiDual maxEnt gamma cost a b (Function.update α i (α i)) ≤ _
    rw [Function.update_eq_self]
    exact hmin _
  have := hl.hasDerivAt_eq_zero h
  linarith

/-! ## Properties -/

/-- C138.  With positive marginals of equal mass the semi-dual and dual objectives have minimisers, whose plans have the requested marginals: the
hypotheses of C58, C59, C136 and C137 can be met for all such data. -/
theorem C138_exists (hm : 0 < m) {gamma : ℝ} (hg : 0 < gamma) (cost : Fin m → Fin n → ℝ) {a : Fin m → ℝ} {b : Fin n → ℝ} (ha : ∀ i, 0 < a i)
    (hb : ∀ j, 0 < b j) (hmass : ∑ i, a i = ∑ j, b j) :
    (∃ α, (∀ v, semiDual maxL2 gamma cost a b α ≤ semiDual maxL2 gamma cost a b v) ∧ ∀ i, ∑ j, semiDualPlan maxL2Grad gamma cost b α i j = a i) ∧
    (∃ α, (∀ v, semiDual maxEnt gamma cost a b α ≤ semiDual maxEnt gamma cost a b v) ∧ ∀ i, ∑ j, semiDualPlan maxEntGrad gamma cost b α i j = a i) ∧
    (∃ α β, (∀ i, ∑ j, dualPlan deltaL2Grad gamma cost (α, β) i j = a i) ∧ ∀ j, ∑ i, dualPlan deltaL2Grad gamma cost (α, β) i j = b j) ∧
    ∃ α β, (∀ i, ∑ j, dualPlan deltaEntGrad gamma cost (α, β) i j = a i) ∧ ∀ j, ∑ i, dualPlan deltaEntGrad gamma cost (α, β) i j = b j := by
  obtain ⟨hi, hc⟩ := exists_le_const cost
  obtain ⟨α, hα⟩ := coercive_min hm (semiDual maxL2 gamma cost a b) (semiL2_continuous hm hg cost a hb) ha (semiL2_low hm hg cost hc a hb hmass)
    (semi_shift maxL2 gamma cost a b (fun j x s => maxL2_shift hm (mul_pos hg (hb j)) x s) hmass)
  have hαr : ∀ i, ∑ j, semiDualPlan maxL2Grad gamma cost b α i j = a i := ((C58_semi_dual_minimiser hm hg cost a hb α).1 hα).2.1
  obtain ⟨α', hα'⟩ := coercive_min hm (semiDual maxEnt gamma cost a b) (semiEnt_continuous hm gamma cost a b) ha (semiEnt_low hm hg cost hc a hb hmass)
    (semi_shift maxEnt gamma cost a b (fun j x s => maxEnt_shift hm hg.ne' (b j) x s) hmass)
  have hα'r := semiEnt_rows hm hg.ne' cost a b α' hα'
  refine ⟨⟨α, hα, hαr⟩, ⟨α', hα', hα'r⟩, ?_, ?_⟩
  · obtain ⟨β, hβ⟩ := semiDualPlan_potentials hm hg cost hb α
    refine ⟨α, β, fun i => ?_, fun j => ?_⟩
    · simp only [dualL2_relu hg, ← hβ]; exact hαr i
    · simp only [dualL2_relu hg, ← hβ]; exact semiL2_col hm gamma cost b α j
  · obtain ⟨h1, h2, β, hβ⟩ := semiEnt_log hm hg.ne' cost hb α'
    have e : ∀ i j, dualPlan deltaEntGrad gamma cost (α', fun j => β j + gamma) i j = semiDualPlan maxEntGrad gamma cost b α' i j := fun i j => by
      rw [← Real.exp_log (h1 i j), hβ]
      show Real.exp ((α' i + (β j + gamma) - cost i j) / gamma - 1) = _
      congr 1
      field_simp
      ring
    refine ⟨α', fun j => β j + gamma, fun i => ?_, fun j => ?_⟩
    · simp only [e]; exact hα'r i
    · simp only [e]; exact h2 j

/-- C138.  The entropic semi-dual has stationary potentials exactly for positive row marginals of the same mass, and they are unique up to a constant. -/
theorem C138_entropic_iff (hm : 0 < m) (hn : 0 < n) {gamma : ℝ} (hg : 0 < gamma) (cost : Fin m → Fin n → ℝ) (a : Fin m → ℝ) {b : Fin n → ℝ}
    (hb : ∀ j, 0 < b j) :
    ((∃ α, ∀ i, ∑ j, semiDualPlan maxEntGrad gamma cost b α i j = a i) ↔ (∀ i, 0 < a i) ∧ ∑ i, a i = ∑ j, b j) ∧
    ∀ α α', (∀ i, ∑ j, semiDualPlan maxEntGrad gamma cost b α i j = a i) → (∀ i, ∑ j, semiDualPlan maxEntGrad gamma cost b α' i j = a i) →
      ∃ s, ∀ i, α i = α' i + s := by
  have hne : Nonempty (Fin n) := ⟨⟨0, hn⟩⟩
  refine ⟨⟨?_, fun h => ?_⟩, fun α α' h h' => ?_⟩
  · rintro ⟨α, h⟩
    obtain ⟨h1, h2, -⟩ := semiEnt_log hm hg.ne' cost hb α
    refine ⟨fun i => ?_, ?_⟩
    · rw [← h i]
      exact Finset.sum_pos (fun j _ => h1 i j) Finset.univ_nonempty
    · simp only [← h, ← h2]
      exact Finset.sum_comm
  · obtain ⟨α, -, hα⟩ := (C138_exists hm hg cost h.1 hb h.2).2.1
    exact ⟨α, hα⟩
  · obtain ⟨h1, h2, β, hβ⟩ := semiEnt_log hm hg.ne' cost hb α
    obtain ⟨h1', h2', β', hβ'⟩ := semiEnt_log hm hg.ne' cost hb α'
    have hz := (C137_semi_dual hm hg cost a hb α α').2 _ _ rfl rfl h'
    have hg0 : ∀ i, gradA (semiDualPlan maxEntGrad gamma cost b α) a i = 0 := fun i => by unfold gradA; rw [h i, sub_self]
    simp only [hg0, zero_mul, Finset.sum_const_zero, zero_div] at hz
    have hPQ : flat (semiDualPlan maxEntGrad gamma cost b α) = flat (semiDualPlan maxEntGrad gamma cost b α') := by
      by_contra hcon
      have k1 := KL_pos (z := flat (semiDualPlan maxEntGrad gamma cost b α)) (x := flat (semiDualPlan maxEntGrad gamma cost b α'))
        (fun ij => (h1 ij.1 ij.2).le) (fun ij => h1' ij.1 ij.2) hcon
      have k2 := KL_pos (z := flat (semiDualPlan maxEntGrad gamma cost b α')) (x := flat (semiDualPlan maxEntGrad gamma cost b α))
        (fun ij => (h1' ij.1 ij.2).le) (fun ij => h1 ij.1 ij.2) (Ne.symm hcon)
      linarith
    refine ⟨β' ⟨0, hn⟩ - β ⟨0, hn⟩, fun i => ?_⟩
    have e : semiDualPlan maxEntGrad gamma cost b α i ⟨0, hn⟩ = semiDualPlan maxEntGrad gamma cost b α' i ⟨0, hn⟩ := congrFun hPQ (i, ⟨0, hn⟩)
    have e2 := hβ i ⟨0, hn⟩
    rw [e, hβ', div_left_inj' hg.ne'] at e2
    linarith

/-- A pairing with a vector of sum zero does not see constants. -/
theorem pairing_bound {g d : Fin m → ℝ} (hg : ∑ i, g i = 0) {s R : ℝ} (h : ∀ i, |d i - s| ≤ R) : ∑ i, g i * d i ≤ (∑ i, |g i|) * R := by
  have e : ∑ i, g i * d i = ∑ i, g i * (d i - s) := by
    have : ∑ i, g i * (d i - s) = ∑ i, g i * d i - (∑ i, g i) * s := by
      rw [Finset.sum_mul, ← Finset.sum_sub_distrib]
      exact Finset.sum_congr rfl fun i _ => by ring
    rw [this, hg]; ring
  rw [e, Finset.sum_mul]
  refine Finset.sum_le_sum fun i _ => (le_abs_self _).trans ?_
  rw [abs_mul]
  exact mul_le_mul_of_nonneg_left (h i) (abs_nonneg _)

/-- C138.  Accuracy of `projection_transport`, semi-dual formulation, without reference to potentials: a solver that starts at zero and does not increase the
objective, and stops with the gradient `g`, returns a plan at squared distance at most `|g|_1 D / (gamma min a)` from the projection, where `D` is the spread
of the costs times the mass plus `gamma |b|^2 / 2`. -/
theorem C138_accuracy_l2 (hm : 0 < m) {gamma lo hi a0 : ℝ} (hg : 0 < gamma) (cost : Fin m → Fin n → ℝ) (hlo : ∀ i j, lo ≤ cost i j) (hhi : ∀ i j, cost i j ≤ hi)
    {a : Fin m → ℝ} {b : Fin n → ℝ} (ha0 : 0 < a0) (ha : ∀ i, a0 ≤ a i) (hb : ∀ j, 0 < b j) (hmass : ∑ i, a i = ∑ j, b j) (α : Fin m → ℝ)
    (hdesc : semiDual maxL2 gamma cost a b α ≤ semiDual maxL2 gamma cost a b fun _ => 0) (P : Fin m → Fin n → ℝ)
    (hP : P = semiDualPlan maxL2Grad gamma cost b α) :
    ∃ Q, IsUniqueProj (Polytope a b) (fun ij => -cost ij.1 ij.2 / gamma) (flat Q) ∧
      gamma * ∑ i, ∑ j, (P i j - Q i j) ^ 2 ≤
        (∑ i, |∑ j, P i j - a i|) * (((hi - lo) * (∑ j, b j) + gamma / 2 * ∑ j, b j ^ 2) / a0) := by
  obtain ⟨⟨α', hmin, hr⟩, -⟩ := C138_exists hm hg cost (fun i => ha0.trans_le (ha i)) hb hmass
  set C : ℝ := ∑ j, b j * (hi + gamma * b j / 2) with hC
  have hlow := semiL2_low hm hg cost hhi a hb hmass
  have h0 := semiL2_zero hm hg cost hlo a hb
  have hCe : C = hi * (∑ j, b j) + gamma / 2 * ∑ j, b j ^ 2 := by
    rw [hC, Finset.mul_sum, Finset.mul_sum, ← Finset.sum_add_distrib]
    exact Finset.sum_congr rfl fun j _ => by ring
  obtain ⟨s, hs⟩ := coercive_close hm (semiDual maxL2 gamma cost a b) ha0 ha (C := C) (D := (hi - lo) * (∑ j, b j) + gamma / 2 * ∑ j, b j ^ 2) hlow α α'
    (by rw [hCe]; linarith) (by rw [hCe]; linarith [hmin fun _ => 0])
  refine ⟨semiDualPlan maxL2Grad gamma cost b α', ?_, ?_⟩
  · have h := (C137_own_marginals hm hg cost hb α' fun _ => 0).2.1 _ rfl
    simp only [hr] at h
    exact h
  · refine ((C137_semi_dual hm hg cost a hb α α').1 P _ hP rfl hr).trans (pairing_bound ?_ hs)
    unfold gradA
    rw [Finset.sum_sub_distrib, Finset.sum_comm, hmass, hP]
    simp only [semiL2_col hm, sub_self]

/-- C138.  The same for `kl_projection_transport` with its default formulation, in the symmetrised divergence. -/
theorem C138_accuracy_ent (hm : 0 < m) {gamma lo hi a0 : ℝ} (hg : 0 < gamma) (cost : Fin m → Fin n → ℝ) (hlo : ∀ i j, lo ≤ cost i j) (hhi : ∀ i j, cost i j ≤ hi)
    {a : Fin m → ℝ} {b : Fin n → ℝ} (ha0 : 0 < a0) (ha : ∀ i, a0 ≤ a i) (hb : ∀ j, 0 < b j) (hmass : ∑ i, a i = ∑ j, b j) (α : Fin m → ℝ)
    (hdesc : semiDual maxEnt gamma cost a b α ≤ semiDual maxEnt gamma cost a b fun _ => 0) (P : Fin m → Fin n → ℝ)
    (hP : P = semiDualPlan maxEntGrad gamma cost b α) :
    ∃ Q, IsUniqueKLProj (Polytope a b) (fun ij => Real.exp (-cost ij.1 ij.2 / gamma)) (flat Q) ∧
      KL (flat P) (flat Q) + KL (flat Q) (flat P) ≤
        (∑ i, |∑ j, P i j - a i|) * ((hi - lo + gamma * Real.log m) * (∑ j, b j) / a0) / gamma := by
  obtain ⟨-, ⟨α', hmin, hr⟩, -⟩ := C138_exists hm hg cost (fun i => ha0.trans_le (ha i)) hb hmass
  set C : ℝ := ∑ j, b j * (hi + gamma * Real.log (b j)) with hC
  have hlow := semiEnt_low hm hg cost hhi a hb hmass
  have h0 := semiEnt_zero hm hg cost hlo a hb
  have hCe : C = hi * (∑ j, b j) + ∑ j, b j * (gamma * Real.log (b j)) := by
    rw [hC, Finset.mul_sum, ← Finset.sum_add_distrib]
    exact Finset.sum_congr rfl fun j _ => by ring
  obtain ⟨s, hs⟩ := coercive_close hm (semiDual maxEnt gamma cost a b) ha0 ha (C := C) (D := (hi - lo + gamma * Real.log m) * (∑ j, b j)) hlow α α'
    (by rw [hCe]; linarith) (by rw [hCe]; linarith [hmin fun _ => 0])
  refine ⟨semiDualPlan maxEntGrad gamma cost b α', ?_, ?_⟩
  · have h := (C137_own_marginals hm hg cost hb α' fun _ => 0).2.2.2 _ rfl
    simp only [hr] at h
    exact h
  · rw [(C137_semi_dual hm hg cost a hb α α').2 P _ hP rfl hr]
    refine div_le_div_of_nonneg_right (pairing_bound ?_ hs) hg.le
    unfold gradA
    rw [Finset.sum_sub_distrib, Finset.sum_comm, hmass, hP]
    simp only [(semiEnt_log hm hg.ne' cost hb α).2.1, sub_self]

/-! ## Examples -/

/-- Two sources and three targets. -/
example : ∃ α : Fin 2 → ℝ, ∀ i, ∑ j, semiDualPlan maxEntGrad (1 / 10) (fun i j => if i = 0 ∧ j = 0 then 5 else 0) (fun _ : Fin 3 => 1 / 3) α i j =
    if i = 0 then 1 / 4 else 3 / 4 :=
  ((C138_entropic_iff (m := 2) (n := 3) (by norm_num) (by norm_num) (by norm_num) _ (fun i => if i = 0 then 1 / 4 else 3 / 4) (fun _ => by norm_num)).1).2
    ⟨fun i => by split <;> norm_num, by simp only [Fin.sum_univ_two, Fin.sum_univ_three]; norm_num⟩

/-- No stationary potentials for a row marginal that is zero. -/
example : ¬∃ α : Fin 2 → ℝ, ∀ i, ∑ j, semiDualPlan maxEntGrad 1 (fun _ _ => 0) (fun _ : Fin 1 => 1) α i j = if i = 0 then 0 else 1 := fun h => by
  have := ((C138_entropic_iff (m := 2) (n := 1) (by norm_num) (by norm_num) one_pos (fun _ _ => 0) (fun i => if i = 0 then 0 else 1) (b := fun _ => 1)
    (fun _ => one_pos)).1).1 h
  exact absurd (this.1 0) (by simp)

/-- A run that stops at its starting point: costs between 0 and 5, uniform columns. -/
example : ∃ Q : Fin 2 → Fin 3 → ℝ, IsUniqueProj (Polytope (fun i : Fin 2 => if i = 0 then (1 / 4 : ℝ) else 3 / 4) fun _ : Fin 3 => 1 / 3)
    (fun ij => -(if ij.1 = 0 ∧ ij.2 = 0 then 5 else 0) / 2) (flat Q) ∧
      2 * ∑ i, ∑ j, (semiDualPlan maxL2Grad 2 (fun (i : Fin 2) (j : Fin 3) => if i = 0 ∧ j = 0 then (5 : ℝ) else 0) (fun _ : Fin 3 => (1 / 3 : ℝ)) (fun _ => 0) i j - Q i j) ^ 2 ≤
        (∑ i, |∑ j, semiDualPlan maxL2Grad 2 (fun (i : Fin 2) (j : Fin 3) => if i = 0 ∧ j = 0 then (5 : ℝ) else 0) (fun _ : Fin 3 => (1 / 3 : ℝ)) (fun _ => 0) i j -
          if i = 0 then 1 / 4 else 3 / 4|) * (((5 - 0) * (∑ j : Fin 3, 1 / 3) + 2 / 2 * ∑ j : Fin 3, (1 / 3) ^ 2) / (1 / 4)) :=
  C138_accuracy_l2 (m := 2) (n := 3) (by norm_num) (by norm_num) (fun (i : Fin 2) (j : Fin 3) => if i = 0 ∧ j = 0 then (5 : ℝ) else 0) (fun i j => by split <;> norm_num)
    (fun i j => by split <;> norm_num) (by norm_num) (fun i => by split <;> norm_num) (fun _ => by norm_num)
    (by simp only [Fin.sum_univ_two, Fin.sum_univ_three]; norm_num) (fun _ => 0) le_rfl _ rfl

end Jaxopt.Transport
