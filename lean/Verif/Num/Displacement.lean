import Mathlib.Analysis.InnerProductSpace.Continuous
import Mathlib.Analysis.Asymptotics.Lemmas
import Mathlib.Analysis.SpecificLimits.Basic
import Mathlib.Topology.MetricSpace.ProperSpace
import Mathlib.Topology.Sequences
import Mathlib.Order.Filter.AtTopBot.Archimedean
import Mathlib.Analysis.Asymptotics.SpecificAsymptotics
import Mathlib.Tactic.Linarith
import Mathlib.Tactic.Positivity
import Mathlib.Tactic.FieldSimp
import Mathlib.Tactic.Ring

/-!
# Steps of averaged iterations

Along the iterates of an averaged map the steps `x (k + 1) - x k` converge, whether or not the map has a fixed point.
-/

set_option autoImplicit false
set_option linter.unusedSectionVars false
set_option linter.unusedVariables false

namespace Jaxopt.Displacement

open Filter Topology
open scoped InnerProductSpace

variable {E : Type*} [NormedAddCommGroup E] [InnerProductSpace ℝ E]

/-- What iterates of an averaged map satisfy. -/
def Averaged (κ : ℝ) (x : ℕ → E) : Prop :=
  ∀ i j, ‖x (i + 1) - x (j + 1)‖ ^ 2 + κ * ‖(x (i + 1) - x i) - (x (j + 1) - x j)‖ ^ 2 ≤ ‖x i - x j‖ ^ 2

variable {x : ℕ → E}

/-- Distances do not grow. -/
def Nonexp (x : ℕ → E) : Prop := ∀ i j, ‖x (i + 1) - x (j + 1)‖ ≤ ‖x i - x j‖

theorem Averaged.nonexp {κ : ℝ} (hκ : 0 ≤ κ) (h : Averaged κ x) : Nonexp x := by
  intro i j
  have h1 := h i j
  have h2 : 0 ≤ κ * ‖(x (i + 1) - x i) - (x (j + 1) - x j)‖ ^ 2 := by positivity
  exact le_of_sq_le_sq (by linarith) (norm_nonneg _)

theorem Nonexp.shift (h : Nonexp x) (k : ℕ) : Nonexp fun i => x (k + i) := fun i j => h (k + i) (k + j)

theorem Nonexp.add (h : Nonexp x) (k : ℕ) : ∀ i j, ‖x (i + k) - x (j + k)‖ ≤ ‖x i - x j‖ := by
  induction k with
  | zero => intro i j; exact le_rfl
  | succ k ih => intro i j; exact (h _ _).trans (ih i j)

/-- The steps do not grow. -/
theorem Nonexp.step_le (h : Nonexp x) (k : ℕ) : ‖x (k + 1 + 1) - x (k + 1)‖ ≤ ‖x (k + 1) - x k‖ := h _ _

/-- Lower bound of the distance travelled, when consecutive steps get close. -/
theorem lower {ℓ : ℝ} (h : Nonexp x) (hl : Tendsto (fun k => ‖x (k + 1) - x k‖) atTop (𝓝 ℓ))
    (hd : Tendsto (fun k => (x (k + 1 + 1) - x (k + 1)) - (x (k + 1) - x k)) atTop (𝓝 0)) (j : ℕ) :
    j * ℓ ≤ ‖x j - x 0‖ := by
  have hk : ∀ j : ℕ, Tendsto (fun k => (x (k + j + 1) - x (k + j)) - (x (k + 1) - x k)) atTop (𝓝 0) := by
    intro j
    induction j with
    | zero => simp
    | succ j ih =>
      have h1 := (hd.comp (tendsto_add_atTop_nat j)).add ih
      rw [add_zero] at h1
      refine h1.congr fun k => ?_
      simp only [Function.comp]
      rw [show k + (j + 1) = k + j + 1 from rfl]
      abel
  have hs : ∀ j : ℕ, Tendsto (fun k => (x (k + j) - x k) - (j : ℝ) • (x (k + 1) - x k)) atTop (𝓝 0) := by
    intro j
    induction j with
    | zero => simp
    | succ j ih =>
      have h1 := (hk j).add ih
      rw [add_zero] at h1
      refine h1.congr fun k => ?_
      rw [show k + (j + 1) = k + j + 1 from rfl]
      push_cast
      rw [add_smul, one_smul]
      abel
  have h1 := (hs j).norm
  rw [norm_zero] at h1
  have h2 : Tendsto (fun k => (j : ℝ) * ‖x (k + 1) - x k‖ - ‖(x (k + j) - x k) - (j : ℝ) • (x (k + 1) - x k)‖) atTop (𝓝 (j * ℓ - 0)) :=
    (hl.const_mul _).sub h1
  rw [sub_zero] at h2
  refine le_of_tendsto' h2 fun k => ?_
  have h3 := h.add k j 0
  rw [zero_add, add_comm j k] at h3
  have h4 : (j : ℝ) * ‖x (k + 1) - x k‖ = ‖(j : ℝ) • (x (k + 1) - x k)‖ := by rw [norm_smul]; simp
  have h5 := norm_sub_norm_le ((j : ℝ) • (x (k + 1) - x k)) (x (k + j) - x k)
  rw [norm_sub_rev ((j : ℝ) • (x (k + 1) - x k))] at h5
  rw [h4]
  linarith

/-- The mean distance travelled. -/
theorem mean {ℓ : ℝ} (hl : Tendsto (fun k => ‖x (k + 1) - x k‖) atTop (𝓝 ℓ)) (hlow : ∀ j : ℕ, j * ℓ ≤ ‖x j - x 0‖) :
    Tendsto (fun j : ℕ => ‖x j - x 0‖ / j) atTop (𝓝 ℓ) := by
  have h1 := hl.cesaro
  refine tendsto_of_tendsto_of_tendsto_of_le_of_le' tendsto_const_nhds h1 ?_ ?_
  · filter_upwards [eventually_gt_atTop 0] with j hj
    have : (0 : ℝ) < j := by exact_mod_cast hj
    rw [le_div_iff₀ this, mul_comm]
    exact hlow j
  · filter_upwards with j
    have h2 : ‖x j - x 0‖ ≤ ∑ i ∈ Finset.range j, ‖x (i + 1) - x i‖ := by
      rw [← Finset.sum_range_sub x j]
      exact norm_sum_le _ _
    rw [div_eq_inv_mul]
    exact mul_le_mul_of_nonneg_left h2 (by positivity)

/-- A direction in which all iterates advance by at least `ℓ` per step. -/
theorem direction [ProperSpace E] {ℓ : ℝ} (h : Nonexp x) (hlow : ∀ j : ℕ, j * ℓ ≤ ‖x j - x 0‖) :
    ∃ f : E, ‖f‖ ≤ 1 ∧ ∀ j : ℕ, j * ℓ ≤ ⟪f, x j - x 0⟫_ℝ := by
  have hrec : ∀ k : ℕ, ∃ f : E, ‖f‖ ≤ 1 ∧ ∀ j : ℕ, j ≤ k → j * (ℓ - 1 / ((k : ℝ) + 1)) ≤ ⟪f, x j - x 0⟫_ℝ := by
    intro k
    set ε : ℝ := 1 / ((k : ℝ) + 1) with hε
    have hε0 : 0 < ε := by positivity
    have ht : Tendsto (fun N : ℕ => ‖x N - x 0‖ - (ℓ - ε) * N) atTop atTop := by
      refine tendsto_atTop_mono (fun N => ?_) (tendsto_natCast_atTop_atTop.const_mul_atTop hε0)
      have := hlow N
      nlinarith
    obtain ⟨N, hN, hk⟩ := ((frequently_high_scores ht).and_eventually (eventually_ge_atTop (k + 1))).exists
    set b := ‖x N - x 0‖ with hb
    rcases (norm_nonneg (x N - x 0)).eq_or_lt with hb0 | hbpos
    · refine ⟨0, by simp, fun j hj => ?_⟩
      have hN0 : (0 : ℝ) < N := by exact_mod_cast (by omega : 0 < N)
      have hl0 : ℓ ≤ 0 := by
        have := hlow N
        rw [← hb0] at this
        by_contra hc
        push Not at hc
        have := mul_pos hN0 hc
        linarith
      rw [inner_zero_left]
      exact mul_nonpos_of_nonneg_of_nonpos (by positivity) (by linarith)
    rw [← hb] at hbpos
    refine ⟨(1 / b) • (x N - x 0), ?_, fun j hj => ?_⟩
    · rw [norm_smul, ← hb, Real.norm_of_nonneg (by positivity)]
      rw [one_div, inv_mul_cancel₀ hbpos.ne']
    · rcases Nat.eq_zero_or_pos j with hj0 | hj0
      · subst hj0; simp
      have e : x j - x 0 = (x N - x 0) - (x N - x j) := by abel
      rw [e, inner_sub_right, real_inner_smul_left, real_inner_self_eq_norm_sq, ← hb]
      have e1 : 1 / b * b ^ 2 = b := by field_simp
      have e2 : ⟪(1 / b) • (x N - x 0), x N - x j⟫_ℝ ≤ ‖x N - x j‖ := by
        refine (real_inner_le_norm _ _).trans ?_
        rw [norm_smul, ← hb, Real.norm_of_nonneg (by positivity), one_div, inv_mul_cancel₀ hbpos.ne', one_mul]
      have e3 : ‖x N - x j‖ ≤ ‖x (N - j) - x 0‖ := by
        have := h.add j (N - j) 0
        rwa [Nat.sub_add_cancel (by omega), zero_add] at this
      rw [e1]
      have h4 := hN (N - j) (by omega)
      have e5 : ((N - j : ℕ) : ℝ) = N - j := by rw [Nat.cast_sub (by omega)]
      rw [e5] at h4
      nlinarith
  choose f hf1 hf2 using hrec
  obtain ⟨g, hg, φ, hφ, hlim⟩ := (isCompact_closedBall (0 : E) 1).tendsto_subseq (x := f) fun k => by
    rw [mem_closedBall_zero_iff]; exact hf1 k
  refine ⟨g, by rwa [mem_closedBall_zero_iff] at hg, fun j => ?_⟩
  have h1 : Tendsto (fun k => ⟪f (φ k), x j - x 0⟫_ℝ) atTop (𝓝 ⟪g, x j - x 0⟫_ℝ) := hlim.inner tendsto_const_nhds
  have h2 : Tendsto (fun k => (j : ℝ) * (ℓ - 1 / ((φ k : ℝ) + 1))) atTop (𝓝 (j * (ℓ - 0))) := by
    refine Tendsto.const_mul _ (tendsto_const_nhds.sub ?_)
    exact tendsto_one_div_add_atTop_nhds_zero_nat.comp hφ.tendsto_atTop
  rw [sub_zero] at h2
  refine le_of_tendsto_of_tendsto h2 h1 ?_
  filter_upwards [hφ.tendsto_atTop.eventually_ge_atTop j] with k hk
  exact hf2 _ _ hk

/-- **The steps of an averaged iteration converge.** -/
theorem tendsto_step [ProperSpace E] {κ : ℝ} (hκ : 0 < κ) (h : Averaged κ x) :
    ∃ v, Tendsto (fun k => x (k + 1) - x k) atTop (𝓝 v) := by
  have hne := h.nonexp hκ.le
  obtain ⟨ℓ, hl⟩ : ∃ ℓ, Tendsto (fun k => ‖x (k + 1) - x k‖) atTop (𝓝 ℓ) :=
    ⟨_, tendsto_atTop_ciInf (antitone_nat_of_succ_le hne.step_le) ⟨0, by rintro _ ⟨k, rfl⟩; exact norm_nonneg _⟩⟩
  have hl0 : 0 ≤ ℓ := ge_of_tendsto' hl fun k => norm_nonneg _
  have hd : Tendsto (fun k => (x (k + 1 + 1) - x (k + 1)) - (x (k + 1) - x k)) atTop (𝓝 0) := by
    rw [tendsto_zero_iff_norm_tendsto_zero]
    have h1 : Tendsto (fun k => (‖x (k + 1) - x k‖ ^ 2 - ‖x (k + 1 + 1) - x (k + 1)‖ ^ 2) / κ) atTop (𝓝 ((ℓ ^ 2 - ℓ ^ 2) / κ)) :=
      ((hl.pow 2).sub ((hl.comp (tendsto_add_atTop_nat 1)).pow 2)).div_const κ
    rw [sub_self, zero_div] at h1
    have h2 : Tendsto (fun k => ‖(x (k + 1 + 1) - x (k + 1)) - (x (k + 1) - x k)‖ ^ 2) atTop (𝓝 0) := by
      refine squeeze_zero (fun k => by positivity) (fun k => ?_) h1
      rw [le_div_iff₀ hκ]
      have := h (k + 1) k
      linarith
    have h3 := h2.sqrt
    rw [Real.sqrt_zero] at h3
    refine h3.congr fun k => Real.sqrt_sq (norm_nonneg _)
  have key : ∀ k, ∃ v : E, ‖v‖ ≤ ℓ ∧ (∀ j : ℕ, j * ℓ ^ 2 ≤ ⟪v, x (k + j) - x k⟫_ℝ) ∧
      Tendsto (fun j : ℕ => (1 / (j : ℝ)) • (x (k + j) - x k)) atTop (𝓝 v) := by
    intro k
    have hs := hne.shift k
    have e1 : (fun i => ‖(fun i => x (k + i)) (i + 1) - (fun i => x (k + i)) i‖) = (fun k => ‖x (k + 1) - x k‖) ∘ fun i => i + k := by
      funext i; simp only [Function.comp]; rw [add_comm i k]; rfl
    have hls : Tendsto (fun i => ‖(fun i => x (k + i)) (i + 1) - (fun i => x (k + i)) i‖) atTop (𝓝 ℓ) := by
      rw [e1]; exact hl.comp (tendsto_add_atTop_nat k)
    have hds : Tendsto (fun i => ((fun i => x (k + i)) (i + 1 + 1) - (fun i => x (k + i)) (i + 1)) -
        ((fun i => x (k + i)) (i + 1) - (fun i => x (k + i)) i)) atTop (𝓝 0) := by
      refine (hd.comp (tendsto_add_atTop_nat k)).congr fun i => ?_
      simp only [Function.comp]; rw [add_comm i k]; rfl
    have hlow := lower hs hls hds
    obtain ⟨f, hf1, hf2⟩ := direction hs hlow
    have hm := mean hls hlow
    simp only [add_zero] at hm hf2
    refine ⟨ℓ • f, ?_, fun j => ?_, ?_⟩
    · rw [norm_smul, Real.norm_of_nonneg hl0]; nlinarith [norm_nonneg f]
    · rw [real_inner_smul_left]
      have := mul_le_mul_of_nonneg_left (hf2 j) hl0
      nlinarith
    · rw [tendsto_iff_norm_sub_tendsto_zero]
      have h1 : Tendsto (fun j : ℕ => (‖x (k + j) - x k‖ / j) ^ 2 - ℓ ^ 2) atTop (𝓝 (ℓ ^ 2 - ℓ ^ 2)) := (hm.pow 2).sub_const _
      rw [sub_self] at h1
      have h2 : Tendsto (fun j : ℕ => ‖(1 / (j : ℝ)) • (x (k + j) - x k) - ℓ • f‖ ^ 2) atTop (𝓝 0) := by
        refine tendsto_of_tendsto_of_tendsto_of_le_of_le' tendsto_const_nhds h1 (Eventually.of_forall fun j => by positivity) ?_
        filter_upwards [eventually_gt_atTop 0] with j hj
        have hj' : (0 : ℝ) < j := by exact_mod_cast hj
        rw [norm_sub_sq_real, norm_smul, norm_smul, real_inner_smul_left, real_inner_smul_right, Real.norm_of_nonneg hl0,
          Real.norm_of_nonneg (by positivity)]
        have e2 : ℓ ≤ 1 / (j : ℝ) * ⟪x (k + j) - x k, f⟫_ℝ := by
          rw [real_inner_comm, one_div, ← div_eq_inv_mul, le_div_iff₀ hj', mul_comm]
          exact hf2 j
        have e3 : 1 / (j : ℝ) * ‖x (k + j) - x k‖ = ‖x (k + j) - x k‖ / j := by ring
        have e4 : (ℓ * ‖f‖) ^ 2 ≤ ℓ ^ 2 := by
          have : ℓ * ‖f‖ ≤ ℓ := by nlinarith [norm_nonneg f]
          exact pow_le_pow_left₀ (by positivity) this 2
        rw [e3]
        have e5 : ℓ * ℓ ≤ 1 / (j : ℝ) * (ℓ * ⟪x (k + j) - x k, f⟫_ℝ) := by
          have := mul_le_mul_of_nonneg_left e2 hl0
          linarith
        nlinarith
      have h3 := h2.sqrt
      rw [Real.sqrt_zero] at h3
      exact h3.congr fun j => Real.sqrt_sq (norm_nonneg _)
  choose v hv1 hv2 hv3 using key
  have heq : ∀ k, v k = v 0 := by
    intro k
    have h1 := (hv3 k).sub (hv3 0)
    have h2 : Tendsto (fun j : ℕ => (1 / (j : ℝ)) • (x (k + j) - x k) - (1 / (j : ℝ)) • (x (0 + j) - x 0)) atTop (𝓝 0) := by
      rw [tendsto_zero_iff_norm_tendsto_zero]
      have h3 : Tendsto (fun j : ℕ => 1 / (j : ℝ) * (2 * ‖x k - x 0‖)) atTop (𝓝 (0 * (2 * ‖x k - x 0‖))) :=
        tendsto_one_div_atTop_nhds_zero_nat.mul_const _
      rw [zero_mul] at h3
      refine squeeze_zero (fun j => norm_nonneg _) (fun j => ?_) h3
      rw [← smul_sub, norm_smul, Real.norm_of_nonneg (by positivity)]
      refine mul_le_mul_of_nonneg_left ?_ (by positivity)
      have e : x (k + j) - x k - (x (0 + j) - x 0) = (x (k + j) - x (0 + j)) - (x k - x 0) := by abel
      rw [e]
      have h4 := hne.add j k 0
      have h5 := norm_sub_le (x (k + j) - x (0 + j)) (x k - x 0)
      linarith
    have := tendsto_nhds_unique h1 h2
    exact sub_eq_zero.mp this
  refine ⟨v 0, ?_⟩
  rw [tendsto_iff_norm_sub_tendsto_zero]
  have h1 : Tendsto (fun k => ‖x (k + 1) - x k‖ ^ 2 - ℓ ^ 2) atTop (𝓝 (ℓ ^ 2 - ℓ ^ 2)) := (hl.pow 2).sub_const _
  rw [sub_self] at h1
  have h2 : Tendsto (fun k => ‖x (k + 1) - x k - v 0‖ ^ 2) atTop (𝓝 0) := by
    refine squeeze_zero (fun k => by positivity) (fun k => ?_) h1
    have e1 := hv2 k 1
    rw [heq k, real_inner_comm] at e1
    have e2 : ‖v 0‖ ^ 2 ≤ ℓ ^ 2 := pow_le_pow_left₀ (norm_nonneg _) (hv1 0) 2
    rw [norm_sub_sq_real]
    push_cast at e1
    linarith
  have h3 := h2.sqrt
  rw [Real.sqrt_zero] at h3
  exact h3.congr fun k => Real.sqrt_sq (norm_nonneg _)

end Jaxopt.Displacement
