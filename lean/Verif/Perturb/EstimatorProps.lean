import Verif.Perturb.Estimator
import Mathlib.Analysis.Calculus.ParametricIntegral
import Mathlib.Analysis.Calculus.LineDeriv.Basic
import Mathlib.Analysis.Calculus.Deriv.Mul
import Mathlib.Analysis.Calculus.FDeriv.Measurable
import Mathlib.Analysis.SpecialFunctions.ExpDeriv
import Mathlib.Analysis.SpecialFunctions.Gaussian.GaussianIntegral
import Mathlib.MeasureTheory.Integral.Pi
import Mathlib.MeasureTheory.Integral.ExpDecay
import Mathlib.MeasureTheory.Measure.WithDensity
import Mathlib.MeasureTheory.Group.Integral
import Mathlib.Tactic.Linarith
import Mathlib.Tactic.FieldSimp
import Mathlib.Tactic.Positivity

/-!
# Properties C65 and C66: the derivative estimators of the perturbed functions are unbiased, their shapes
-/

set_option autoImplicit false
set_option linter.unusedSectionVars false
set_option linter.unusedVariables false

namespace Jaxopt.Perturb

open MeasureTheory

variable {N D R : ℕ}

/-! ## Specification -/

/-- The probability density proportional to `exp(log_prob)`. -/
noncomputable def density (logProb : ℝ → ℝ) (z : ℝ) : ℝ := Real.exp (logProb z) / ∫ w, Real.exp (logProb w)

/-- The law of one entry of the noise. -/
noncomputable def noiseLaw (logProb : ℝ → ℝ) : Measure ℝ := volume.withDensity fun z => ENNReal.ofReal (density logProb z)

/-- The law of the sample array: all entries are independent. -/
noncomputable def sampleLaw (logProb : ℝ → ℝ) (N D : ℕ) : Measure (Fin N → Fin D → ℝ) :=
  Measure.pi fun _ => Measure.pi fun _ => noiseLaw logProb

/-- What the proof uses of a noise: a differentiable log-density such that the density and its derivative are locally dominated. -/
structure Regular (logProb : ℝ → ℝ) : Prop where
  diff : Differentiable ℝ logProb
  dom : ∃ B : ℝ → ℝ, Integrable B ∧ ∀ z s : ℝ, |s| ≤ 1 →
    Real.exp (logProb (z + s)) ≤ B z ∧ |deriv logProb (z + s)| * Real.exp (logProb (z + s)) ≤ B z

/-! ## The two noises -/

theorem regular_normal : Regular normalLogProb where
  diff := by unfold normalLogProb; fun_prop
  dom := by
    have hd : ∀ z, deriv normalLogProb z = -z := by
      intro z
      have : HasDerivAt normalLogProb (-(1 / 2) * (2 * z ^ 1 * 1)) z := by
        unfold normalLogProb
        exact ((hasDerivAt_id z).pow 2).const_mul _
      rw [this.deriv]; ring
    have h1 : Integrable fun z : ℝ => Real.exp (-(1 / 4 : ℝ) * z ^ 2) := integrable_exp_neg_mul_sq (by norm_num)
    have h2 : Integrable fun z : ℝ => |z * Real.exp (-(1 / 4 : ℝ) * z ^ 2)| :=
      (integrable_mul_exp_neg_mul_sq (by norm_num)).abs
    refine ⟨fun z => Real.exp 1 * (|z * Real.exp (-(1 / 4 : ℝ) * z ^ 2)| + Real.exp (-(1 / 4 : ℝ) * z ^ 2)),
      (h2.add h1).const_mul _, fun z s hs => ?_⟩
    have he : Real.exp (normalLogProb (z + s)) ≤ Real.exp 1 * Real.exp (-(1 / 4 : ℝ) * z ^ 2) := by
      rw [← Real.exp_add]
      apply Real.exp_le_exp.2
      unfold normalLogProb
      have hs2 : s ^ 2 ≤ 1 := by rw [← sq_abs]; nlinarith [abs_nonneg s]
      nlinarith [sq_nonneg (z + 2 * s)]
    have hp : 0 < Real.exp (-(1 / 4 : ℝ) * z ^ 2) := Real.exp_pos _
    have h0 : 0 ≤ |z| := abs_nonneg z
    beta_reduce
    rw [abs_mul, abs_of_pos hp, hd, abs_neg]
    constructor
    · refine he.trans ?_
      have : 0 ≤ Real.exp 1 * (|z| * Real.exp (-(1 / 4 : ℝ) * z ^ 2)) := by positivity
      nlinarith
    · have h3 : |z + s| ≤ |z| + 1 := (abs_add_le _ _).trans (by linarith)
      calc |z + s| * Real.exp (normalLogProb (z + s)) ≤ (|z| + 1) * (Real.exp 1 * Real.exp (-(1 / 4 : ℝ) * z ^ 2)) :=
            mul_le_mul h3 he (Real.exp_pos _).le (by positivity)
        _ = _ := by ring

theorem integrable_exp_neg_abs : Integrable fun z : ℝ => Real.exp (-|z|) := by
  rw [← integrableOn_univ, ← Set.Iic_union_Ioi (a := (0 : ℝ)), integrableOn_union]
  constructor
  · refine (integrableOn_exp_Iic 0).congr_fun (fun z hz => ?_) measurableSet_Iic
    simp only [abs_of_nonpos (Set.mem_Iic.1 hz), neg_neg]
  · refine (integrableOn_exp_neg_Ioi 0).congr_fun (fun z hz => ?_) measurableSet_Ioi
    simp only [abs_of_pos (Set.mem_Ioi.1 hz)]

theorem regular_gumbel : Regular gumbelLogProb where
  diff := by unfold gumbelLogProb; fun_prop
  dom := by
    have hd : ∀ z, deriv gumbelLogProb z = -1 + Real.exp (-z) := by
      intro z
      have : HasDerivAt gumbelLogProb (-1 - Real.exp (-z) * -1) z := by
        unfold gumbelLogProb
        exact (hasDerivAt_id z).neg.sub ((hasDerivAt_id z).neg.exp)
      rw [this.deriv]; ring
    -- `a u - c e^u ≤ C - |u|`
    have key : ∀ c : ℝ, 0 < c → ∀ u : ℝ, 2 * u - c * Real.exp u ≤ 9 / c - |u| := by
      intro c hc u
      rcases le_total u 0 with hu | hu
      · rw [abs_of_nonpos hu]
        have : 0 < c * Real.exp u := by positivity
        have : 0 < 9 / c := by positivity
        linarith
      · rw [abs_of_nonneg hu]
        have h1 : u ^ 2 / 2 ≤ Real.exp u := by
          have := Real.quadratic_le_exp_of_nonneg hu
          nlinarith
        have h2 : c * (u ^ 2 / 2) ≤ c * Real.exp u := mul_le_mul_of_nonneg_left h1 hc.le
        have h3 : 3 * u ≤ c * (u ^ 2 / 2) + 9 / c := by
          rw [← sub_nonneg]
          have : c * (u ^ 2 / 2) + 9 / c - 3 * u = ((c * u - 3) ^ 2 + 9) / (2 * c) := by field_simp; ring
          rw [this]; positivity
        linarith
    have key1 : ∀ c : ℝ, 0 < c → ∀ u : ℝ, u - c * Real.exp u ≤ 9 / c - |u| := by
      intro c hc u
      rcases le_total u 0 with hu | hu
      · rw [abs_of_nonpos hu]
        have : 0 < c * Real.exp u := by positivity
        have : 0 < 9 / c := by positivity
        linarith
      · have := key c hc u
        linarith
    set c := Real.exp (-1) with hc
    have hcp : 0 < c := Real.exp_pos _
    refine ⟨fun z => (2 * Real.exp 2 * Real.exp (9 / c)) * Real.exp (-|z|), integrable_exp_neg_abs.const_mul _, fun z s hs => ?_⟩
    obtain ⟨hs1, hs2⟩ := abs_le.1 hs
    have hexp : c * Real.exp (-z) ≤ Real.exp (-(z + s)) := by
      rw [hc, ← Real.exp_add]; exact Real.exp_le_exp.2 (by linarith)
    have hz := key1 c hcp (-z)
    have hz2 := key c hcp (-z)
    rw [abs_neg] at hz hz2
    have e1 : Real.exp (gumbelLogProb (z + s)) ≤ Real.exp 1 * (Real.exp (9 / c) * Real.exp (-|z|)) := by
      rw [← Real.exp_add, ← Real.exp_add]
      apply Real.exp_le_exp.2
      unfold gumbelLogProb
      linarith
    have e2 : Real.exp (-(z + s)) * Real.exp (gumbelLogProb (z + s)) ≤ Real.exp 2 * (Real.exp (9 / c) * Real.exp (-|z|)) := by
      rw [← Real.exp_add, ← Real.exp_add, ← Real.exp_add]
      apply Real.exp_le_exp.2
      unfold gumbelLogProb
      linarith
    have e12 : Real.exp 1 ≤ Real.exp 2 := Real.exp_le_exp.2 (by norm_num)
    have hP : 0 < Real.exp (9 / c) * Real.exp (-|z|) := by positivity
    have e3 : Real.exp 1 * (Real.exp (9 / c) * Real.exp (-|z|)) ≤ Real.exp 2 * (Real.exp (9 / c) * Real.exp (-|z|)) :=
      mul_le_mul_of_nonneg_right e12 hP.le
    constructor
    · have : 0 < Real.exp 2 * (Real.exp (9 / c) * Real.exp (-|z|)) := by positivity
      nlinarith
    · rw [hd]
      have h4 : |-1 + Real.exp (-(z + s))| ≤ 1 + Real.exp (-(z + s)) := by
        refine (abs_add_le _ _).trans ?_
        rw [abs_neg, abs_one, abs_of_pos (Real.exp_pos _)]
      calc |-1 + Real.exp (-(z + s))| * Real.exp (gumbelLogProb (z + s))
          ≤ (1 + Real.exp (-(z + s))) * Real.exp (gumbelLogProb (z + s)) := mul_le_mul_of_nonneg_right h4 (Real.exp_pos _).le
        _ = Real.exp (gumbelLogProb (z + s)) + Real.exp (-(z + s)) * Real.exp (gumbelLogProb (z + s)) := by ring
        _ ≤ _ := by nlinarith

/-! ## Laws of the samples -/

namespace Regular

variable {logProb : ℝ → ℝ} (h : Regular logProb)
include h

theorem integrable_exp : Integrable fun z => Real.exp (logProb z) := by
  obtain ⟨B, hB, hb⟩ := h.dom
  refine hB.mono' (h.diff.continuous.rexp.aestronglyMeasurable) (Filter.Eventually.of_forall fun z => ?_)
  rw [Real.norm_of_nonneg (Real.exp_pos _).le]
  simpa using (hb z 0 (by simp)).1

theorem norm_pos : 0 < ∫ w, Real.exp (logProb w) := by
  rw [integral_pos_iff_support_of_nonneg (fun z => (Real.exp_pos _).le) h.integrable_exp]
  have : Function.support (fun z => Real.exp (logProb z)) = Set.univ := by
    ext z; simp [(Real.exp_pos _).ne']
  rw [this]; simp

theorem density_nonneg (z : ℝ) : 0 ≤ density logProb z := div_nonneg (Real.exp_pos _).le h.norm_pos.le

theorem density_integrable : Integrable (density logProb) := h.integrable_exp.div_const _

theorem density_integral : ∫ z, density logProb z = 1 := by
  unfold density
  rw [integral_div, div_self h.norm_pos.ne']

theorem density_measurable : Measurable (density logProb) :=
  (h.diff.continuous.rexp.measurable).div_const _

theorem noiseLaw_prob : IsProbabilityMeasure (noiseLaw logProb) := by
  constructor
  unfold noiseLaw
  rw [withDensity_apply _ MeasurableSet.univ, Measure.restrict_univ,
    ← ofReal_integral_eq_lintegral_ofReal h.density_integrable (Filter.Eventually.of_forall h.density_nonneg), h.density_integral]
  simp

/-- The joint density of one row of the sample array. -/
noncomputable def _root_.Jaxopt.Perturb.joint (logProb : ℝ → ℝ) (D : ℕ) (z : Fin D → ℝ) : ℝ := ∏ e, density logProb (z e)

theorem joint_nonneg (z : Fin D → ℝ) : 0 ≤ joint logProb D z := Finset.prod_nonneg fun e _ => h.density_nonneg _

theorem joint_measurable : Measurable (joint logProb D) :=
  Finset.measurable_fun_prod _ fun e _ => h.density_measurable.comp (measurable_pi_apply e)

theorem joint_integrable : Integrable (joint logProb D) := Integrable.fintype_prod fun _ => h.density_integrable

/-- Independent entries have the product density. -/
theorem row_law : (Measure.pi fun _ : Fin D => noiseLaw logProb) = volume.withDensity fun z => ENNReal.ofReal (joint logProb D z) := by
  haveI := h.noiseLaw_prob
  refine Measure.pi_eq fun s hs => ?_
  rw [withDensity_apply _ (MeasurableSet.univ_pi hs),
    ← ofReal_integral_eq_lintegral_ofReal h.joint_integrable.integrableOn (Filter.Eventually.of_forall h.joint_nonneg)]
  have h1 : ∀ i, noiseLaw logProb (s i) = ENNReal.ofReal (∫ z, (s i).indicator (density logProb) z) := by
    intro i
    unfold noiseLaw
    rw [withDensity_apply _ (hs i), integral_indicator (hs i),
      ← ofReal_integral_eq_lintegral_ofReal h.density_integrable.integrableOn (Filter.Eventually.of_forall h.density_nonneg)]
  simp only [h1]
  rw [← ENNReal.ofReal_prod_of_nonneg, ← integral_indicator (MeasurableSet.univ_pi hs),
    ← integral_fintype_prod_volume_eq_prod (𝕜 := ℝ) (fun i => (s i).indicator (density logProb))]
  · congr 2
    ext z
    by_cases hz : z ∈ Set.univ.pi s
    · rw [Set.indicator_of_mem hz]
      exact Finset.prod_congr rfl fun i _ => (Set.indicator_of_mem (hz i trivial) _).symm
    · rw [Set.indicator_of_notMem hz]
      simp only [Set.mem_pi, Set.mem_univ, true_imp_iff, not_forall] at hz
      obtain ⟨i, hi⟩ := hz
      exact (Finset.prod_eq_zero (Finset.mem_univ i) (Set.indicator_of_notMem hi _)).symm
  · intro i _
    exact integral_nonneg fun z => Set.indicator_nonneg (fun _ _ => h.density_nonneg _) _

theorem row_integral (g : (Fin D → ℝ) → ℝ) :
    ∫ z, g z ∂(Measure.pi fun _ : Fin D => noiseLaw logProb) = ∫ z, joint logProb D z * g z := by
  rw [h.row_law, integral_withDensity_eq_integral_toReal_smul h.joint_measurable.ennreal_ofReal
    (Filter.Eventually.of_forall fun z => ENNReal.ofReal_lt_top)]
  refine integral_congr_ae (Filter.Eventually.of_forall fun z => ?_)
  simp only [ENNReal.toReal_ofReal (h.joint_nonneg z), smul_eq_mul]

theorem row_integrable (g : (Fin D → ℝ) → ℝ) :
    Integrable g (Measure.pi fun _ : Fin D => noiseLaw logProb) ↔ Integrable fun z => joint logProb D z * g z := by
  rw [h.row_law, integrable_withDensity_iff_integrable_smul' h.joint_measurable.ennreal_ofReal
    (Filter.Eventually.of_forall fun z => ENNReal.ofReal_lt_top)]
  simp only [ENNReal.toReal_ofReal (h.joint_nonneg _), smul_eq_mul]

theorem row_prob : IsProbabilityMeasure (Measure.pi fun _ : Fin D => noiseLaw logProb) := by
  haveI := h.noiseLaw_prob
  infer_instance

/-! ## Stein's identity -/

theorem joint_eq (z : Fin D → ℝ) :
    joint logProb D z = Real.exp (∑ e, logProb (z e)) / (∫ w, Real.exp (logProb w)) ^ D := by
  unfold joint density
  rw [Finset.prod_div_distrib, Real.exp_sum, Finset.prod_const, Finset.card_univ, Fintype.card_fin]

theorem joint_hasDerivAt (u w : Fin D → ℝ) (t : ℝ) :
    HasDerivAt (fun t : ℝ => joint logProb D (u - t • w))
      (joint logProb D (u - t • w) * ∑ e, -deriv logProb ((u - t • w) e) * w e) t := by
  have h1 : ∀ e, HasDerivAt (fun t : ℝ => logProb ((u - t • w) e)) (-deriv logProb ((u - t • w) e) * w e) t := by
    intro e
    have h2 : HasDerivAt (fun t : ℝ => (u - t • w) e) (-w e) t := by
      have := ((hasDerivAt_id t).mul_const (w e)).const_sub (u e)
      simpa using this
    have h3 := (h.diff ((u - t • w) e)).hasDerivAt.comp t h2
    have e3 : deriv logProb ((u - t • w) e) * -w e = -deriv logProb ((u - t • w) e) * w e := by ring
    rw [e3] at h3
    exact h3
  have h4 : HasDerivAt (fun t : ℝ => ∑ e, logProb ((u - t • w) e)) (∑ e, -deriv logProb ((u - t • w) e) * w e) t :=
    HasDerivAt.fun_sum fun e _ => h1 e
  have h5 := (h4.exp).div_const ((∫ w, Real.exp (logProb w)) ^ D)
  simp only [h.joint_eq]
  refine h5.congr_deriv ?_
  ring

theorem joint_bound : ∃ P : (Fin D → ℝ) → ℝ, Integrable P ∧ ∀ u r : Fin D → ℝ, (∀ e, |r e| ≤ 1) →
    joint logProb D (u + r) ≤ P u ∧ ∀ e, |deriv logProb ((u + r) e)| * joint logProb D (u + r) ≤ P u := by
  obtain ⟨B, hB, hb⟩ := h.dom
  have hZ := h.norm_pos
  refine ⟨fun u => ∏ e, B (u e) / ∫ w, Real.exp (logProb w), Integrable.fintype_prod fun _ => hB.div_const _, fun u r hr => ⟨?_, fun e => ?_⟩⟩
  · refine Finset.prod_le_prod (fun e _ => h.density_nonneg _) fun e _ => ?_
    exact div_le_div_of_nonneg_right (hb (u e) (r e) (hr e)).1 hZ.le
  · unfold joint
    beta_reduce
    rw [← Finset.mul_prod_erase Finset.univ (fun e => density logProb ((u + r) e)) (Finset.mem_univ e),
      ← Finset.mul_prod_erase Finset.univ (fun e => B (u e) / ∫ w, Real.exp (logProb w)) (Finset.mem_univ e), ← mul_assoc]
    refine mul_le_mul ?_ (Finset.prod_le_prod (fun e _ => h.density_nonneg _) fun i _ => ?_)
      (Finset.prod_nonneg fun e _ => h.density_nonneg _) ?_
    · unfold density
      rw [← mul_div_assoc]
      exact div_le_div_of_nonneg_right (hb (u e) (r e) (hr e)).2 hZ.le
    · exact div_le_div_of_nonneg_right (hb (u i) (r i) (hr i)).1 hZ.le
    · exact div_nonneg ((Real.exp_pos _).le.trans (hb (u e) (r e) (hr e)).1) hZ.le

theorem score_measurable (w : Fin D → ℝ) : Measurable fun u : Fin D → ℝ => ∑ e, -deriv logProb (u e) * w e :=
  Finset.measurable_fun_sum _ fun e _ =>
    (((measurable_deriv logProb).comp (measurable_pi_apply e)).neg).mul_const _

/-- Differentiating the expectation of a bounded function of shifted noise gives the expectation of the function times the score. -/
theorem stein {g : (Fin D → ℝ) → ℝ} (hg : Measurable g) {C : ℝ} (hC : ∀ z, |g z| ≤ C) (w : Fin D → ℝ) :
    Integrable (fun u => joint logProb D u * (g u * ∑ e, -deriv logProb (u e) * w e)) ∧
    HasDerivAt (fun t : ℝ => ∫ z, joint logProb D z * g (z + t • w))
      (∫ u, joint logProb D u * (g u * ∑ e, -deriv logProb (u e) * w e)) 0 := by
  obtain ⟨P, hP, hb⟩ := h.joint_bound (D := D)
  have hshift : (fun t : ℝ => ∫ z, joint logProb D z * g (z + t • w)) = fun t : ℝ => ∫ u, joint logProb D (u - t • w) * g u := by
    ext t
    rw [← integral_add_right_eq_self (fun u => joint logProb D (u - t • w) * g u) (t • w)]
    simp only [add_sub_cancel_right]
  rw [hshift]
  have hC0 : 0 ≤ C := (abs_nonneg _).trans (hC 0)
  have hr : ∀ t ∈ Metric.ball (0 : ℝ) (1 / (1 + ‖w‖)), ∀ e, |(-(t • w)) e| ≤ 1 := by
    intro t ht e
    rw [Metric.mem_ball, dist_zero_right, Real.norm_eq_abs] at ht
    simp only [Pi.neg_apply, Pi.smul_apply, smul_eq_mul, abs_neg, abs_mul]
    have h1 : |w e| ≤ ‖w‖ := norm_le_pi_norm w e
    have h2 : 0 < 1 + ‖w‖ := by positivity
    rw [lt_div_iff₀ h2] at ht
    nlinarith [abs_nonneg t, abs_nonneg (w e)]
  have h0 := hasDerivAt_integral_of_dominated_loc_of_deriv_le (μ := (volume : Measure (Fin D → ℝ))) (𝕜 := ℝ)
    (F := fun t u => joint logProb D (u - t • w) * g u)
    (F' := fun t u => (joint logProb D (u - t • w) * ∑ e, -deriv logProb ((u - t • w) e) * w e) * g u)
    (x₀ := 0) (s := Metric.ball (0 : ℝ) (1 / (1 + ‖w‖))) (bound := fun u => ((∑ e, |w e|) * P u) * C)
    (Metric.ball_mem_nhds _ (by positivity))
    (Filter.Eventually.of_forall fun t => ((h.joint_measurable.comp (measurable_id.sub_const _)).mul hg).aestronglyMeasurable)
    ?_ ?_ ?_ ((hP.const_mul _).mul_const _) ?_
  · have e0 : (fun u => (joint logProb D (u - (0 : ℝ) • w) * ∑ e, -deriv logProb ((u - (0 : ℝ) • w) e) * w e) * g u) =
        fun u => joint logProb D u * (g u * ∑ e, -deriv logProb (u e) * w e) := by
      ext u; simp only [zero_smul, sub_zero]; ring
    simp only [e0] at h0
    exact h0
  · simp only [zero_smul, sub_zero]
    exact h.joint_integrable.mul_bdd (c := C) hg.aestronglyMeasurable (Filter.Eventually.of_forall hC)
  · simp only [zero_smul, sub_zero]
    exact ((h.joint_measurable.mul (h.score_measurable w)).mul hg).aestronglyMeasurable
  · refine Filter.Eventually.of_forall fun u t ht => ?_
    have h1 := hb u (-(t • w)) (hr t ht)
    rw [← sub_eq_add_neg] at h1
    rw [norm_mul, Real.norm_eq_abs, Real.norm_eq_abs, abs_mul, abs_of_nonneg (h.joint_nonneg _)]
    refine mul_le_mul ?_ (hC u) (abs_nonneg _) ?_
    · rw [mul_comm, Finset.sum_mul]
      calc |∑ e, -deriv logProb ((u - t • w) e) * w e| * joint logProb D (u - t • w)
          ≤ (∑ e, |-deriv logProb ((u - t • w) e) * w e|) * joint logProb D (u - t • w) :=
            mul_le_mul_of_nonneg_right (Finset.abs_sum_le_sum_abs _ _) (h.joint_nonneg _)
        _ = ∑ e, |w e| * (|deriv logProb ((u - t • w) e)| * joint logProb D (u - t • w)) := by
            rw [Finset.sum_mul]
            refine Finset.sum_congr rfl fun e _ => ?_
            rw [abs_mul, abs_neg]; ring
        _ ≤ _ := Finset.sum_le_sum fun e _ => mul_le_mul_of_nonneg_left (h1.2 e) (abs_nonneg _)
    · exact mul_nonneg (Finset.sum_nonneg fun e _ => abs_nonneg _) ((h.joint_nonneg _).trans h1.1)
  · exact Filter.Eventually.of_forall fun u t ht => (h.joint_hasDerivAt u w t).mul_const _

/-- The score has mean zero. -/
theorem score_mean (w : Fin D → ℝ) : ∫ u, joint logProb D u * ∑ e, -deriv logProb (u e) * w e = 0 := by
  have h1 := (h.stein (g := fun _ => 1) measurable_const (C := 1) (by simp) w).2
  simp only [mul_one, one_mul] at h1
  exact h1.unique (hasDerivAt_const _ _)

end Regular

/-! ## C65 -/

/-- The expectation of the perturbed function over the samples. -/
noncomputable def expected (logProb : ℝ → ℝ) (N : ℕ) (f : (Fin D → ℝ) → Fin R → ℝ) (sigma : ℝ) (d : Fin R) (x : Fin D → ℝ) : ℝ :=
  ∫ samples, forwardPert f sigma samples x d ∂sampleLaw logProb N D

theorem sum_law {logProb : ℝ → ℝ} (h : Regular logProb) {g : (Fin D → ℝ) → ℝ} (hi : Integrable fun z => joint logProb D z * g z) :
    Integrable (fun samples : Fin N → Fin D → ℝ => ∑ n, g (samples n)) (sampleLaw logProb N D) ∧
    ∫ samples, ∑ n, g (samples n) ∂sampleLaw logProb N D = N * ∫ z, joint logProb D z * g z := by
  haveI := h.row_prob (D := D)
  have hr := (h.row_integrable g).2 hi
  have h1 : ∀ n : Fin N, Integrable (fun samples : Fin N → Fin D → ℝ => g (samples n)) (sampleLaw logProb N D) :=
    fun n => integrable_comp_eval (μ := fun _ : Fin N => Measure.pi fun _ : Fin D => noiseLaw logProb) hr
  refine ⟨integrable_finsetSum _ fun n _ => h1 n, ?_⟩
  rw [integral_finsetSum _ fun n _ => h1 n]
  have h2 : ∀ n : Fin N, ∫ samples : Fin N → Fin D → ℝ, g (samples n) ∂sampleLaw logProb N D = ∫ z, joint logProb D z * g z := by
    intro n
    rw [← h.row_integral]
    exact integral_comp_eval (μ := fun _ : Fin N => Measure.pi fun _ : Fin D => noiseLaw logProb) hr.aestronglyMeasurable
  simp only [h2, Finset.sum_const, Finset.card_univ, Fintype.card_fin, nsmul_eq_mul]

/-- For every bounded measurable function (every argmax over a bounded set), at least one sample and `sigma ≠ 0`, the custom JVP
is an unbiased estimator of the derivative, in the direction of the tangent, of the expectation of the perturbed function; all
quantities are integrable. -/
theorem unbiased {logProb : ℝ → ℝ} (h : Regular logProb) (hN : 0 < N) {sigma : ℝ} (hs : sigma ≠ 0) {f : (Fin D → ℝ) → Fin R → ℝ}
    (hf : Measurable f) {C : ℝ} (hC : ∀ x d, |f x d| ≤ C) (x v : Fin D → ℝ) (d : Fin R) :
    Integrable (fun samples => forwardPert f sigma samples x d) (sampleLaw logProb N D) ∧
    Integrable (fun samples => pertJvp f sigma logProb samples x v d) (sampleLaw logProb N D) ∧
    Integrable (fun samples => pertJvpCv f sigma logProb samples x v d) (sampleLaw logProb N D) ∧
    HasLineDerivAt ℝ (expected logProb N f sigma d) (∫ samples, pertJvp f sigma logProb samples x v d ∂sampleLaw logProb N D) x v ∧
    HasLineDerivAt ℝ (expected logProb N f sigma d) (∫ samples, pertJvpCv f sigma logProb samples x v d ∂sampleLaw logProb N D) x v := by
  have hNr : (N : ℝ) ≠ 0 := by exact_mod_cast hN.ne'
  have hm : ∀ y : Fin D → ℝ, Measurable fun z : Fin D → ℝ => f (y + sigma • z) d := fun y =>
    (measurable_pi_apply d).comp (hf.comp ((measurable_id.const_smul sigma).const_add y))
  -- the expectation is a one-row integral
  have hI : ∀ y, Integrable fun z => joint logProb D z * f (y + sigma • z) d := fun y =>
    h.joint_integrable.mul_bdd (c := C) (hm y).aestronglyMeasurable (Filter.Eventually.of_forall fun z => hC _ _)
  have hE : ∀ y, expected logProb N f sigma d y = ∫ z, joint logProb D z * f (y + sigma • z) d := by
    intro y
    unfold expected forwardPert
    rw [integral_div, (sum_law h (hI y)).2]
    field_simp
  -- Stein's identity for `g z = f (x + sigma z) d` and the direction `v / sigma`
  obtain ⟨hi1, hd1⟩ := h.stein (hm x) (C := C) (fun z => hC _ _) (sigma⁻¹ • v)
  have hsum : ∀ u : Fin D → ℝ, ∑ e, -deriv logProb (u e) * (sigma⁻¹ • v) e = sigma⁻¹ * ∑ e, -deriv logProb (u e) * v e := by
    intro u
    rw [Finset.mul_sum]
    exact Finset.sum_congr rfl fun e _ => by simp only [Pi.smul_apply, smul_eq_mul]; ring
  have hline : HasLineDerivAt ℝ (expected logProb N f sigma d)
      (∫ u, joint logProb D u * (f (x + sigma • u) d * ∑ e, -deriv logProb (u e) * (sigma⁻¹ • v) e)) x v := by
    unfold HasLineDerivAt
    refine hd1.congr_of_eventuallyEq (Filter.Eventually.of_forall fun t => ?_)
    simp only [hE]
    refine integral_congr_ae (Filter.Eventually.of_forall fun z => ?_)
    simp only
    congr 2
    have : sigma * t * sigma⁻¹ = t := by field_simp
    rw [smul_add, smul_smul, smul_smul, this]
    abel
  -- the plain estimator
  have hp : (fun samples : Fin N → Fin D → ℝ => pertJvp f sigma logProb samples x v d) = fun samples =>
      1 / (N : ℝ) * ∑ n, (f (x + sigma • samples n) d * ∑ e, -deriv logProb (samples n e) * (sigma⁻¹ • v) e) := by
    ext samples
    unfold pertJvp nablaZ
    rw [one_div_mul_eq_div, one_div_mul_eq_div, mul_comm (N : ℝ), ← div_div]
    congr 1
    rw [div_eq_inv_mul, Finset.mul_sum]
    refine Finset.sum_congr rfl fun n _ => ?_
    rw [hsum, Finset.mul_sum, Finset.mul_sum, Finset.mul_sum]
    exact Finset.sum_congr rfl fun e _ => by ring
  obtain ⟨sp1, sp2⟩ := sum_law (N := N) h (g := fun z => f (x + sigma • z) d * ∑ e, -deriv logProb (z e) * (sigma⁻¹ • v) e) hi1
  have hpi : Integrable (fun samples => pertJvp f sigma logProb samples x v d) (sampleLaw logProb N D) := by
    rw [hp]; exact sp1.const_mul _
  have hpe : ∫ samples, pertJvp f sigma logProb samples x v d ∂sampleLaw logProb N D =
      ∫ u, joint logProb D u * (f (x + sigma • u) d * ∑ e, -deriv logProb (u e) * (sigma⁻¹ • v) e) := by
    rw [hp, integral_const_mul, sp2]
    field_simp
  -- the control variate
  obtain ⟨hi2, -⟩ := h.stein (g := fun _ => f x d) measurable_const (C := C) (fun z => hC _ _) (sigma⁻¹ • v)
  obtain ⟨sc1, sc2⟩ := sum_law (N := N) h (g := fun z => f x d * ∑ e, -deriv logProb (z e) * (sigma⁻¹ • v) e) hi2
  have hcv : (fun samples : Fin N → Fin D → ℝ => pertJvpCv f sigma logProb samples x v d) = fun samples =>
      pertJvp f sigma logProb samples x v d -
        1 / (N : ℝ) * ∑ n, (f x d * ∑ e, -deriv logProb (samples n e) * (sigma⁻¹ • v) e) := by
    ext samples
    rw [congrFun hp samples]
    unfold pertJvpCv nablaZ
    rw [← mul_sub, ← Finset.sum_sub_distrib, one_div_mul_eq_div, one_div_mul_eq_div, mul_comm (N : ℝ), ← div_div]
    congr 1
    rw [div_eq_inv_mul, Finset.mul_sum]
    refine Finset.sum_congr rfl fun n _ => ?_
    rw [hsum, ← sub_mul, Finset.mul_sum, Finset.mul_sum, Finset.mul_sum]
    exact Finset.sum_congr rfl fun e _ => by ring
  have hci : Integrable (fun samples => pertJvpCv f sigma logProb samples x v d) (sampleLaw logProb N D) := by
    rw [hcv]; exact hpi.sub (sc1.const_mul _)
  have hce : ∫ samples, pertJvpCv f sigma logProb samples x v d ∂sampleLaw logProb N D =
      ∫ samples, pertJvp f sigma logProb samples x v d ∂sampleLaw logProb N D := by
    rw [hcv, integral_sub hpi (sc1.const_mul _), integral_const_mul, sc2]
    have : ∫ z, joint logProb D z * (f x d * ∑ e, -deriv logProb (z e) * (sigma⁻¹ • v) e) = 0 := by
      have e1 : (fun z => joint logProb D z * (f x d * ∑ e, -deriv logProb (z e) * (sigma⁻¹ • v) e)) =
          fun z => f x d * (joint logProb D z * ∑ e, -deriv logProb (z e) * (sigma⁻¹ • v) e) := by
        ext z; ring
      rw [e1, integral_const_mul, h.score_mean, mul_zero]
    rw [this, mul_zero, mul_zero, sub_zero]
  refine ⟨?_, hpi, hci, ?_, ?_⟩
  · exact (sum_law h (hI x)).1.div_const _
  · rw [hpe]; exact hline
  · rw [hce, hpe]; exact hline

/-- **C65**, `noise=Normal()`: for every bounded measurable function (such as every measurable argmax over a bounded set), at least one
sample and `sigma ≠ 0`, both custom JVPs are unbiased estimators of the derivative, in the direction of the tangent, of the expectation of
the perturbed function. -/
theorem C65_normal (hN : 0 < N) {sigma : ℝ} (hs : sigma ≠ 0) {f : (Fin D → ℝ) → Fin R → ℝ}
    (hf : Measurable f) {C : ℝ} (hC : ∀ x d, |f x d| ≤ C) (x v : Fin D → ℝ) (d : Fin R) :
    let law := sampleLaw normalLogProb N D
    Integrable (fun samples => forwardPert f sigma samples x d) law ∧
    Integrable (fun samples => pertJvp f sigma normalLogProb samples x v d) law ∧
    Integrable (fun samples => pertJvpCv f sigma normalLogProb samples x v d) law ∧
    HasLineDerivAt ℝ (expected normalLogProb N f sigma d) (∫ samples, pertJvp f sigma normalLogProb samples x v d ∂law) x v ∧
    HasLineDerivAt ℝ (expected normalLogProb N f sigma d) (∫ samples, pertJvpCv f sigma normalLogProb samples x v d ∂law) x v :=
  unbiased regular_normal hN hs hf hC x v d

/-- **C65**, `noise=Gumbel()` (the default). -/
theorem C65_gumbel (hN : 0 < N) {sigma : ℝ} (hs : sigma ≠ 0) {f : (Fin D → ℝ) → Fin R → ℝ}
    (hf : Measurable f) {C : ℝ} (hC : ∀ x d, |f x d| ≤ C) (x v : Fin D → ℝ) (d : Fin R) :
    let law := sampleLaw gumbelLogProb N D
    Integrable (fun samples => forwardPert f sigma samples x d) law ∧
    Integrable (fun samples => pertJvp f sigma gumbelLogProb samples x v d) law ∧
    Integrable (fun samples => pertJvpCv f sigma gumbelLogProb samples x v d) law ∧
    HasLineDerivAt ℝ (expected gumbelLogProb N f sigma d) (∫ samples, pertJvp f sigma gumbelLogProb samples x v d ∂law) x v ∧
    HasLineDerivAt ℝ (expected gumbelLogProb N f sigma d) (∫ samples, pertJvpCv f sigma gumbelLogProb samples x v d ∂law) x v :=
  unbiased regular_gumbel hN hs hf hC x v d

/-- The laws used in C65 are probability laws, so the expectations are those of a random variable. -/
theorem C65_law (N D : ℕ) : IsProbabilityMeasure (sampleLaw normalLogProb N D) ∧ IsProbabilityMeasure (sampleLaw gumbelLogProb N D) := by
  have h1 := regular_normal.row_prob (D := D)
  have h2 := regular_gumbel.row_prob (D := D)
  unfold sampleLaw
  exact ⟨inferInstance, inferInstance⟩

/-- **C66**, partial (the control variate fails, and axes of size one are lost): the plain JVP of `make_perturbed_fun` never raises, and its result has the shape of the output except that axes of size
one are removed. -/
theorem C66_shape_partial (n : ℕ) (hn : 0 < n) (out : List ℕ) :
    funJvpShape n out = some (out.filter (· ≠ 1)) ∧ (funJvpShape n out = some out ↔ 1 ∉ out) := by
  have h1 : funJvpShape n out = some (out.filter (· ≠ 1)) := by
    unfold funJvpShape flatSize squeezeReshape
    have h2 : (n :: (out ++ [1])).prod = n * (out ++ [1]).prod := List.prod_cons
    simp only [h2, Nat.mul_mod_right, and_true, ne_eq, hn.ne', not_false_eq_true, if_true, Option.bind_some,
      Nat.mul_div_cancel_left _ hn]
    simp
  refine ⟨h1, ?_⟩
  rw [h1]
  simp only [Option.some.injEq, List.filter_eq_self]
  constructor
  · intro h hm
    simpa using h 1 hm
  · intro h a ha
    simp only [ne_eq, decide_eq_true_eq]
    rintro rfl
    exact h ha

/-- **C66**, negation of its second clause: with `control_variate=True`, `make_perturbed_fun` differentiates scalar functions, but raises for every vector-valued
function with at least two outputs: `output_pert - output` broadcasts `(N, R, 1)` and `(R,)` to `(N, R, R)`. -/
theorem C66_control_variate_false (n : ℕ) (hn : 0 < n) :
    funJvpCvShape n [] = some [] ∧ ∀ r, 2 ≤ r → funJvpCvShape n [r] = none := by
  constructor
  · simp [funJvpCvShape, broadcast, broadcastRev, flatSize, squeezeReshape, hn.ne', Nat.div_self hn]
  · intro r hr
    have h1 : broadcast (n :: ([r] ++ [1])) [r] = some [n, r, r] := by
      have : (1 : ℕ) ≠ r := by omega
      simp [broadcast, broadcastRev, this]
    have h2 : flatSize n [n, r, r] = some (r * r) := by
      simp [flatSize, hn.ne', Nat.mul_div_cancel_left _ hn]
    have h3 : squeezeReshape (r * r) ([r] ++ [1]) = none := by
      have : r * r ≠ r := by nlinarith
      simp [squeezeReshape, this]
    unfold funJvpCvShape
    simp only [h1, h2, Option.bind_some, h3]

/-! ## Non-vacuity -/

/-- The sign function is bounded and measurable, so C65 applies to it. -/
noncomputable def exSign (x : Fin 1 → ℝ) (_ : Fin 1) : ℝ := if 0 ≤ x 0 then 1 else -1

example (x v : Fin 1 → ℝ) : HasLineDerivAt ℝ (expected normalLogProb 3 exSign 2 0)
    (∫ samples, pertJvp exSign 2 normalLogProb samples x v 0 ∂sampleLaw normalLogProb 3 1) x v := by
  refine (C65_normal (N := 3) (sigma := 2) (by norm_num) (by norm_num) (f := exSign) ?_ (C := 1) ?_ x v 0).2.2.2.1
  · refine measurable_pi_lambda _ fun d => ?_
    exact Measurable.ite (measurableSet_le measurable_const (measurable_pi_apply 0)) measurable_const measurable_const
  · intro x d
    unfold exSign
    split_ifs <;> norm_num

/-- One sample `z = 3` of normal noise: the estimate of the derivative of the sign function at `0` is `3 / 2`. -/
example : pertJvp exSign 2 normalLogProb (fun _ _ => 3 : Fin 1 → Fin 1 → ℝ) 0 1 0 = 3 / 2 := by
  have hd : deriv normalLogProb 3 = -3 := by
    have : HasDerivAt normalLogProb (-(1 / 2) * (2 * (3 : ℝ) ^ 1 * 1)) 3 := by
      unfold normalLogProb
      exact ((hasDerivAt_id (3 : ℝ)).pow 2).const_mul _
    rw [this.deriv]; norm_num
  simp [pertJvp, nablaZ, exSign, hd]
  norm_num

example : funJvpShape 10 [3, 1, 2] = some [3, 2] ∧ funJvpCvShape 10 [3] = none ∧ funJvpCvShape 10 [1] = some [] := by decide

end Jaxopt.Perturb
