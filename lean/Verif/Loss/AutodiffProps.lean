import Verif.Loss.Autodiff
import Verif.Loss.Props
import Verif.Proj.JvpProps
import Verif.BlockCD.LogregProps
import Mathlib.Analysis.Calculus.Deriv.Abs
import Mathlib.Analysis.SpecialFunctions.Log.Deriv
import Mathlib.Analysis.SpecialFunctions.ExpDeriv
import Mathlib.Analysis.Calculus.Deriv.Pow

/-!
# C132: automatic differentiation of the losses
-/

set_option autoImplicit false
set_option linter.unusedSectionVars false
set_option linter.unusedVariables false

namespace Jaxopt.Loss

open Jaxopt.Proj Filter Topology

/-! ## Specification -/

/-- The pair of a value and a tangent describes the curve `f` at 0. -/
def Tracks (f : ℝ → ℝ) (d : Dual ℝ) : Prop := f 0 = d.val ∧ HasDerivAt f d.tan 0

/-- The linear form `g` is a subgradient of `f` at `s`. -/
def IsSubgrad {n : ℕ} (f : (Fin n → ℝ) → ℝ) (s g : Fin n → ℝ) : Prop := ∀ w, f s + ∑ j, g j * (w j - s j) ≤ f w

/-! ## Huber loss -/

theorem huber_formula (t p d : ℝ) : huberLoss t p d = 1 / 2 * (t - p) ^ 2 - 1 / 2 * max (|t - p| - d) 0 ^ 2 := by
  unfold huberLoss
  simp only
  by_cases h : |t - p| > d
  · rw [if_pos h, max_eq_left (by linarith)]
    rw [← sq_abs (t - p)]
    ring
  · rw [if_neg h, max_eq_right (by linarith), ← sq_abs (t - p)]
    ring

theorem posSq_hasDerivAt (z : ℝ) : HasDerivAt (fun z : ℝ => max z 0 ^ 2) (2 * max z 0) z := by
  refine hasDerivAt_of_sandwich (f := fun z : ℝ => max z 0 ^ 2) (c := fun z => 2 * max z 0) (M := 1) (fun u v => ?_) (fun u v => ?_) z
  · rcases le_total u 0 with hu | hu <;> rcases le_total v 0 with hv | hv <;> simp only [max_eq_right, max_eq_left, hu, hv] <;> nlinarith [sq_nonneg (u - v)]
  · rcases le_total u 0 with hu | hu <;> rcases le_total v 0 with hv | hv <;> simp only [max_eq_right, max_eq_left, hu, hv] <;> nlinarith [sq_nonneg (u - v)]

theorem huberD_val (t p d : Dual ℝ) : (huberD t p d).val = huberLoss t.val p.val d.val := rfl

theorem huberD_tan (t p d : Dual ℝ) : (huberD t p d).tan =
    if |t.val - p.val| > d.val then
      d.tan * (|t.val - p.val| - 1 / 2 * d.val) +
        d.val * ((t.tan - p.tan) * (if 0 < t.val - p.val then 1 else if t.val - p.val < 0 then -1 else 0) - (0 * d.val + 1 / 2 * d.tan))
    else 0 * |t.val - p.val| ^ 2 + 1 / 2 * ((t.tan - p.tan) * (if 0 < t.val - p.val then 1 else if t.val - p.val < 0 then -1 else 0) * (2 * |t.val - p.val|)) :=
  rfl

theorem maximum_tan (z w : ℝ) : (Dual.maximum (Dual.const 0) ⟨z, w⟩).tan =
    0 * (if 0 = max 0 z then (if z = max 0 z then 1 / 2 else 1) else 0) + w * (if z = max 0 z then (if 0 = max 0 z then 1 / 2 else 1) else 0) := rfl

/-- C132.  Differentiating `huber_loss` with respect to target, prediction and radius gives the derivative everywhere, on the change of branch
and at a zero residual too. -/
theorem C132_huber {T P D : ℝ → ℝ} {t p d : Dual ℝ} (hT : Tracks T t) (hP : Tracks P p) (hD : Tracks D d) (hd : 0 < d.val) :
    Tracks (fun x => huberLoss (T x) (P x) (D x)) (huberD t p d) := by
  obtain ⟨t0, t1⟩ := hT
  obtain ⟨p0, p1⟩ := hP
  obtain ⟨d0, d1⟩ := hD
  constructor
  · rw [huberD_val]; simp only [t0, p0, d0]
  · have hr : HasDerivAt (fun x => T x - P x) (t.tan - p.tan) 0 := t1.sub p1
    have hsq : HasDerivAt (fun x => 1 / 2 * (T x - P x) ^ 2) ((t.val - p.val) * (t.tan - p.tan)) 0 := by
      have := (hr.fun_pow 2).const_mul (1 / 2 : ℝ)
      rw [t0, p0] at this
      exact this.congr_deriv (by ring)
    rw [huberD_tan]
    by_cases hz : t.val - p.val = 0
    · have hlt : ¬ |t.val - p.val| > d.val := by rw [hz, abs_zero]; linarith
      rw [if_neg hlt]
      have hev : (fun x => huberLoss (T x) (P x) (D x)) =ᶠ[𝓝 0] fun x => 1 / 2 * (T x - P x) ^ 2 := by
        have hc : ContinuousAt (fun x => D x - |T x - P x|) 0 := d1.continuousAt.sub hr.continuousAt.abs
        have hpos : 0 < D 0 - |T 0 - P 0| := by rw [d0, t0, p0, hz, abs_zero]; linarith
        filter_upwards [hc.eventually (lt_mem_nhds hpos)] with x hx
        rw [huber_formula, max_eq_right (by linarith)]
        ring
      refine (hsq.congr_of_eventuallyEq hev).congr_deriv ?_
      rw [hz]; simp
    · have ha : HasDerivAt (fun x => |T x - P x|) ((SignType.sign (t.val - p.val) : ℝ) * (t.tan - p.tan)) 0 := by
        have := (hasDerivAt_abs (x := T 0 - P 0) (by rw [t0, p0]; exact hz)).comp (0 : ℝ) hr
        rw [t0, p0] at this
        exact this
      have hm := ((posSq_hasDerivAt (|T 0 - P 0| - D 0)).comp (0 : ℝ) (ha.sub d1)).const_mul (1 / 2 : ℝ)
      rw [t0, p0, d0] at hm
      have h := hsq.sub hm
      have e : (fun x => huberLoss (T x) (P x) (D x)) = fun x => 1 / 2 * (T x - P x) ^ 2 - 1 / 2 * max (|T x - P x| - D x) 0 ^ 2 :=
        funext fun x => huber_formula _ _ _
      rw [e]
      refine h.congr_deriv ?_
      rcases lt_or_gt_of_ne hz with hn | hp
      · rw [sign_neg hn, if_neg (not_lt.mpr hn.le), if_pos hn, abs_of_neg hn]
        by_cases hb : -(t.val - p.val) > d.val
        · rw [if_pos hb, max_eq_left (by linarith)]; simp; ring
        · rw [if_neg hb, max_eq_right (by linarith)]; simp; ring
      · rw [sign_pos hp, if_pos hp, abs_of_pos hp]
        by_cases hb : (t.val - p.val) > d.val
        · rw [if_pos hb, max_eq_left (by linarith)]; simp; ring
        · rw [if_neg hb, max_eq_right (by linarith)]; simp; ring

/-! ## Binary losses -/

theorem flip_tracks (label : Bool) {X : ℝ → ℝ} {x : Dual ℝ} (hX : Tracks X x) : Tracks (fun t => flip label (X t)) (flipD label x) := by
  obtain ⟨h0, h1⟩ := hX
  cases label
  · exact ⟨by simpa [flip, flipD, Dual.where'] using h0, by simpa [flip, flipD, Dual.where'] using h1⟩
  · refine ⟨by simpa [flip, flipD, Dual.where', Dual.neg] using h0, ?_⟩
    simpa [flip, flipD, Dual.where', Dual.neg] using h1.fun_neg

/-- C132.  Differentiating `binary_sparsemax_loss` gives the derivative everywhere. -/
theorem C132_binary_sparsemax (label : Bool) {X : ℝ → ℝ} {x : Dual ℝ} (hX : Tracks X x) :
    Tracks (fun t => binarySparsemaxLoss label (X t)) (sparsePlusD (flipD label x)) := by
  obtain ⟨h0, h1⟩ := flip_tracks label hX
  generalize flipD label x = z at h0 h1
  have hs := (C49_sparse_plus.2 (flip label (X 0))).comp (0 : ℝ) h1
  have h0' : flip label (X 0) = z.val := h0
  rw [h0'] at hs
  constructor
  · show sparsePlus (flip label (X 0)) = _
    rw [h0']
    simp only [sparsePlus, sparsePlusD, Dual.where', Dual.const, Dual.mul, Dual.sq, Dual.add]
    by_cases a : z.val ≤ -1
    · rw [if_pos a, if_pos a]
    · rw [if_neg a, if_neg a]
      by_cases b : z.val ≥ 1
      · rw [if_pos b, if_pos b]
      · rw [if_neg b, if_neg b]; ring
  · refine hs.congr_deriv ?_
    simp only [sparseSigmoid, projectionHypercube, projectionBox, clip, sparsePlusD, Dual.where', Dual.const, Dual.mul, Dual.sq, Dual.add]
    by_cases a : z.val ≤ -1
    · rw [if_pos a, max_eq_right (by linarith)]; simp
    · rw [if_neg a]
      by_cases b : z.val ≥ 1
      · rw [if_pos b, max_eq_left (by linarith), min_eq_right (by linarith)]; ring
      · rw [if_neg b, max_eq_left (by linarith), min_eq_left (by linarith)]; ring

/-- C132.  Differentiating `binary_logistic_loss` gives the derivative everywhere. -/
theorem C132_binary_logistic (label : Bool) {X : ℝ → ℝ} {x : Dual ℝ} (hX : Tracks X x) :
    Tracks (fun t => binaryLogisticLoss label (X t)) (binaryLogisticD label x) := by
  obtain ⟨h0, h1⟩ := flip_tracks label hX
  unfold binaryLogisticD
  generalize flipD label x = z at h0 h1
  have h0' : flip label (X 0) = z.val := h0
  have hpos : 0 < Real.exp z.val + Real.exp 0 := add_pos (Real.exp_pos _) (Real.exp_pos _)
  constructor
  · show softplus (flip label (X 0)) = _
    rw [h0']; rfl
  · have h2 := (h1.exp.add_const (Real.exp 0)).log (by rw [h0']; exact hpos.ne')
    rw [h0'] at h2
    refine h2.congr_deriv ?_
    simp only [softplusD, softplus]
    rw [Real.exp_sub, Real.exp_log hpos]
    field_simp

/-- The derivative of the positive part of an affine function of the score. -/
theorem maximum_subgrad (a b s w : ℝ) (v : ℝ) :
    (Dual.maximum (Dual.const 0) ⟨a * s + b, a * v⟩).val = max 0 (a * s + b) ∧
      ∃ g : ℝ, (∀ v, (Dual.maximum (Dual.const 0) ⟨a * s + b, a * v⟩).tan = g * v) ∧ ∀ w, max 0 (a * s + b) + g * (w - s) ≤ max 0 (a * w + b) := by
  refine ⟨rfl, ?_⟩
  simp only [maximum_tan]
  rcases lt_trichotomy (a * s + b) 0 with h | h | h
  · refine ⟨0, fun v => ?_, fun w => ?_⟩
    · rw [max_eq_left h.le]; simp [h.ne]
    · rw [max_eq_left h.le]; simp
  · refine ⟨a / 2, fun v => ?_, fun w => ?_⟩
    · rw [h]; simp; ring
    · rw [h, max_self]
      rcases le_total (a * w + b) 0 with hw | hw
      · rw [max_eq_left hw]; nlinarith
      · rw [max_eq_right hw]; nlinarith
  · refine ⟨a, fun v => ?_, fun w => ?_⟩
    · rw [max_eq_right h.le]; simp [h.ne]
    · rw [max_eq_right h.le]
      have := le_max_right 0 (a * w + b)
      linarith

/-- C132.  Differentiating `binary_hinge_loss` and `binary_perceptron_loss` gives a subgradient everywhere. -/
theorem C132_binary_margin (label : Bool) (s : ℝ) :
    (∃ g : ℝ, (∀ v, (binaryHingeD label ⟨s, v⟩).val = binaryHingeLoss label s ∧ (binaryHingeD label ⟨s, v⟩).tan = g * v) ∧
        ∀ w, binaryHingeLoss label s + g * (w - s) ≤ binaryHingeLoss label w) ∧
      ∃ g : ℝ, (∀ v, (binaryPerceptronD label ⟨s, v⟩).val = binaryPerceptronLoss label s ∧ (binaryPerceptronD label ⟨s, v⟩).tan = g * v) ∧
        ∀ w, binaryPerceptronLoss label s + g * (w - s) ≤ binaryPerceptronLoss label w := by
  set c : ℝ := signedLabel label with hc
  constructor
  · obtain ⟨g, h1, h2⟩ := (maximum_subgrad (-c) 1 s 0 0).2
    refine ⟨g, fun v => ⟨rfl, ?_⟩, fun w => ?_⟩
    · rw [← h1 v]
      simp only [binaryHingeD, Dual.sub, Dual.mul, Dual.const, ← hc]
      ring_nf
    · have := h2 w
      unfold binaryHingeLoss
      rw [← hc, show (1 : ℝ) - s * c = -c * s + 1 by ring, show (1 : ℝ) - w * c = -c * w + 1 by ring]
      exact this
  · obtain ⟨g, h1, h2⟩ := (maximum_subgrad (-c) 0 s 0 0).2
    refine ⟨g, fun v => ⟨rfl, ?_⟩, fun w => ?_⟩
    · rw [← h1 v]
      simp only [binaryPerceptronD, Dual.neg, Dual.mul, Dual.const, ← hc]
      ring_nf
    · have := h2 w
      unfold binaryPerceptronLoss
      rw [← hc, show -s * c = -c * s + 0 by ring, show -w * c = -c * w + 0 by ring]
      exact this

/-! ## Multiclass losses -/

/-- C132.  Differentiating `multiclass_logistic_loss` gives the derivative everywhere. -/
theorem C132_multiclass_logistic {n : ℕ} (y : Fin (n + 1)) {S : Fin (n + 1) → ℝ → ℝ} {s : Fin (n + 1) → Dual ℝ} (hS : ∀ j, Tracks (S j) (s j)) :
    Tracks (fun t => multiclassLogisticLoss y fun j => S j t) (multiclassLogisticD y s) := by
  have hc : ∀ j, Tracks (fun t => S j t - S y t) (centeredD y s j) := fun j => by
    unfold centeredD
    by_cases h : j = y
    · subst h
      rw [Function.update_self]
      refine ⟨by simp [Dual.const], ?_⟩
      simpa [Dual.const] using hasDerivAt_const (0 : ℝ) (0 : ℝ)
    · rw [Function.update_of_ne h]
      exact ⟨by simp [Dual.sub, (hS j).1, (hS y).1], (hS j).2.sub (hS y).2⟩
  have e : (fun t => multiclassLogisticLoss y fun j => S j t) = fun t => Real.log (∑ j, Real.exp (S j t - S y t)) := by
    funext t
    unfold multiclassLogisticLoss logsumexp
    rw [centered_eq]
  rw [e]
  unfold multiclassLogisticD
  generalize centeredD y s = c at hc
  unfold logsumexpD
  simp only
  set m := vmax fun j => (c j).val
  have hpos : 0 < ∑ j, Real.exp (c j).val := Finset.sum_pos (fun j _ => Real.exp_pos _) Finset.univ_nonempty
  have hf : ∀ j, Real.exp ((c j).val - m) = Real.exp (-m) * Real.exp (c j).val := fun j => by rw [← Real.exp_add]; congr 1; ring
  have hc0 : ∀ j, S j 0 - S y 0 = (c j).val := fun j => (hc j).1
  have hsum : ∑ j, Real.exp (S j 0 - S y 0) = ∑ j, Real.exp (c j).val := Finset.sum_congr rfl fun j _ => by rw [hc0 j]
  constructor
  · simp only [hf, hsum]
    rw [← Finset.mul_sum, Real.log_mul (Real.exp_pos _).ne' hpos.ne', Real.log_exp]
    ring
  · have h := (HasDerivAt.fun_sum fun j (_ : j ∈ Finset.univ) => (hc j).2.exp).log (by rw [hsum]; exact hpos.ne')
    refine h.congr_deriv ?_
    rw [hsum]
    simp only [hf, hc0]
    rw [← Finset.mul_sum]
    rw [show ∑ j, (c j).tan * (Real.exp (-m) * Real.exp (c j).val) = Real.exp (-m) * ∑ j, Real.exp (c j).val * (c j).tan by
      rw [Finset.mul_sum]; exact Finset.sum_congr rfl fun j _ => by ring]
    rw [mul_div_mul_left _ _ (Real.exp_pos _).ne']

/-- Variational inequality of the projection. -/
theorem simplex_vi {n : ℕ} (hn : 0 < n) (s q : Fin n → ℝ) (hq : q ∈ UnitSimplex (K := ℝ) n) :
    ∃ τ, (∀ i, projectionSimplex s 1 i = relu (s i - τ)) ∧ ∑ i, projectionSimplex s 1 i = 1 ∧
      ∑ i, (s i - projectionSimplex s 1 i) * (q i - projectionSimplex s 1 i) ≤ 0 := by
  obtain ⟨τ, h1, h2⟩ := unitSimplex_threshold hn s
  have e : projectionSimplex s 1 = projectionUnitSimplex s := by funext j; simp [projectionSimplex]
  have h1' : ∀ i, projectionSimplex s 1 i = relu (s i - τ) := fun i => by rw [e]; exact h1 i
  have h3 : ∑ i, projectionSimplex s 1 i = 1 := by exact (Finset.sum_congr rfl fun i _ => h1' i).trans h2
  refine ⟨τ, h1', h3, ?_⟩
  have key : ∀ i, (s i - projectionSimplex s 1 i) * (q i - projectionSimplex s 1 i) ≤ τ * (q i - projectionSimplex s 1 i) := fun i => by
    rw [h1' i]
    unfold relu
    rcases le_total (s i - τ) 0 with h | h
    · rw [max_eq_right h]; nlinarith [hq.1 i]
    · rw [max_eq_left h]; nlinarith
  refine (Finset.sum_le_sum fun i _ => key i).trans ?_
  rw [← Finset.mul_sum, Finset.sum_sub_distrib, hq.2, h3]
  simp

theorem simplex_mem {n : ℕ} (hn : 0 < n) (s : Fin n → ℝ) : projectionSimplex s 1 ∈ UnitSimplex (K := ℝ) n := (C08_simplex hn s (1 : ℝ) one_pos).1

/-- The projections of two points are not further apart than the points, in the direction of their difference. -/
theorem simplex_nonexpansive {n : ℕ} (hn : 0 < n) (s v : Fin n → ℝ) :
    ∑ i, (projectionSimplex v 1 i - projectionSimplex s 1 i) * (v i - s i) ≤ ∑ i, (v i - s i) ^ 2 := by
  obtain ⟨_, _, _, h1⟩ := simplex_vi hn s _ (simplex_mem hn v)
  obtain ⟨_, _, _, h2⟩ := simplex_vi hn v _ (simplex_mem hn s)
  set p := projectionSimplex s 1
  set q := projectionSimplex v 1
  have h3 : ∑ i, (q i - p i) ^ 2 ≤ ∑ i, (q i - p i) * (v i - s i) := by
    have : ∑ i, ((q i - p i) ^ 2 - (q i - p i) * (v i - s i)) = ∑ i, (s i - p i) * (q i - p i) + ∑ i, (v i - q i) * (p i - q i) := by
      rw [← Finset.sum_add_distrib]
      exact Finset.sum_congr rfl fun i _ => by ring
    rw [Finset.sum_sub_distrib] at this
    linarith
  have h4 : 0 ≤ ∑ i, ((q i - p i) - (v i - s i)) ^ 2 := Finset.sum_nonneg fun i _ => sq_nonneg _
  have h5 : ∑ i, ((q i - p i) - (v i - s i)) ^ 2 = ∑ i, (q i - p i) ^ 2 - 2 * ∑ i, (q i - p i) * (v i - s i) + ∑ i, (v i - s i) ^ 2 := by
    rw [Finset.mul_sum, ← Finset.sum_sub_distrib, ← Finset.sum_add_distrib]
    exact Finset.sum_congr rfl fun i _ => by ring
  linarith

/-- The derivative of the sparsemax loss is the projection minus the one-hot vector. -/
theorem sparsemax_hasFDerivAt {n : ℕ} (y : Fin n) (s : Fin n → ℝ) :
    ∃ L : (Fin n → ℝ) →L[ℝ] ℝ, HasFDerivAt (multiclassSparsemaxLoss y) L s ∧ ∀ d, L d = ∑ j, projectionSimplex s 1 j * d j - d y := by
  have hn : 0 < n := Fin.pos y
  let l : (Fin n → ℝ) →ₗ[ℝ] ℝ :=
    { toFun := fun d => ∑ j, projectionSimplex s 1 j * d j - d y
      map_add' := fun a b => by simp only [Pi.add_apply, mul_add, Finset.sum_add_distrib]; ring
      map_smul' := fun r a => by
        simp only [Pi.smul_apply, smul_eq_mul, RingHom.id_apply, mul_sub, Finset.mul_sum]
        congr 1
        exact Finset.sum_congr rfl fun j _ => by ring }
  refine ⟨l.toContinuousLinearMap, ?_, fun d => rfl⟩
  refine BlockCD.hasFDerivAt_of_sq (M := n) fun d => ?_
  show |multiclassSparsemaxLoss y (s + d) - multiclassSparsemaxLoss y s - (∑ j, projectionSimplex s 1 j * d j - d y)| ≤ _
  set p := projectionSimplex s 1 with hp
  set q := projectionSimplex (s + d) 1 with hq
  have e1 := sparsemax_eq y s
  have e2 := sparsemax_eq y (s + d)
  rw [← hp] at e1
  rw [← hq] at e2
  have m1 := sparsemax_max s q hn (simplex_mem hn _)
  have m2 := sparsemax_max (s + d) p hn (simplex_mem hn _)
  rw [← hp] at m1
  rw [← hq] at m2
  have d1 : ∀ a : Fin n → ℝ, dot a (s + d) = dot a s + ∑ j, a j * d j := fun a => by
    unfold dot
    rw [← Finset.sum_add_distrib]
    exact Finset.sum_congr rfl fun j _ => by rw [Pi.add_apply]; ring
  have h3 := simplex_nonexpansive hn s (s + d)
  rw [← hp, ← hq] at h3
  have h4 : ∑ i, (q i - p i) * ((s + d) i - s i) = ∑ j, q j * d j - ∑ j, p j * d j := by
    rw [← Finset.sum_sub_distrib]
    exact Finset.sum_congr rfl fun j _ => by rw [Pi.add_apply]; ring
  have h5 : ∑ i, ((s + d) i - s i) ^ 2 ≤ n * ‖d‖ ^ 2 := by
    have : ∀ i ∈ Finset.univ, ((s + d) i - s i) ^ 2 ≤ ‖d‖ ^ 2 := fun i _ => by
      rw [Pi.add_apply, add_sub_cancel_left, ← sq_abs (d i)]
      exact pow_le_pow_left₀ (abs_nonneg _) (norm_le_pi_norm d i) 2
    simpa using Finset.sum_le_sum this
  rw [d1] at m2 e2
  rw [d1] at m2
  rw [e1, e2, Pi.add_apply, abs_le]
  constructor
  · nlinarith [sq_nonneg ‖d‖, Nat.cast_nonneg (α := ℝ) n]
  · linarith

/-- The tangent of the projection does not contribute to the derivative of the loss. -/
theorem sparsemaxD_eq {n : ℕ} (y : Fin n) (s : Fin n → Dual ℝ) :
    (multiclassSparsemaxD y s).val = multiclassSparsemaxLoss y (fun j => (s j).val) ∧
      (multiclassSparsemaxD y s).tan = ∑ j, projectionSimplex (fun j => (s j).val) 1 j * (s j).tan - (s y).tan := by
  have hn : 0 < n := Fin.pos y
  set x : Fin n → ℝ := fun j => (s j).val with hx
  set v : Fin n → ℝ := fun j => (s j).tan with hv
  obtain ⟨τ, h1, h2, -⟩ := simplex_vi hn x _ (simplex_mem hn x)
  have hd : ∀ j, simplexD s j = ⟨projectionSimplex x 1 j, supportTangent (projectionSimplex x 1) v j⟩ := fun j => by
    have e1 : (fun i => x i / 1) = x := by funext i; simp
    have e2 : (fun i => v i / 1 - x i * 0 / 1 ^ 2) = v := by funext i; simp
    have e3 : projectionSimplex x 1 = projectionUnitSimplex x := by funext i; simp [projectionSimplex]
    simp only [simplexD, projectionSimplexJvp, scaledJvp, projectionUnitSimplexJvp]
    show (⟨1 * projectionUnitSimplex (fun i => x i / 1) j, 0 * projectionUnitSimplex (fun i => x i / 1) j + 1 * supportTangent (projectionUnitSimplex (fun i => x i / 1)) (fun i => v i / 1 - x i * 0 / 1 ^ 2) j⟩ : Dual ℝ) = _
    rw [e1, e2, e3]
    simp
  have hc : ∀ j, centeredD y s j = ⟨centered y x j, v j - v y⟩ := fun j => by
    unfold centeredD centered
    by_cases h : j = y
    · subst h
      simp [Dual.const]
    · rw [Function.update_of_ne h, Function.update_of_ne h]
      rfl
  set p := projectionSimplex x 1 with hp
  have hval : (multiclassSparsemaxD y s).val = dot (fun j => (simplexD s j).val) (fun j => if (simplexD s j).val ≠ 0 then (centeredD y s j).val else 0) + 1 / 2 * (1 - dot (fun j => (simplexD s j).val) (fun j => (simplexD s j).val)) := rfl
  have htan : (multiclassSparsemaxD y s).tan =
      ∑ j, ((simplexD s j).tan * (if (simplexD s j).val ≠ 0 then (centeredD y s j).val else 0) + (simplexD s j).val * (if (simplexD s j).val ≠ 0 then (centeredD y s j).tan else 0)) +
        (0 * (1 - ∑ j, (simplexD s j).val * (simplexD s j).val) + 1 / 2 * (0 - ∑ j, ((simplexD s j).tan * (simplexD s j).val + (simplexD s j).val * (simplexD s j).tan))) := rfl
  have hvalp : ∀ j, (simplexD s j).val = p j := fun j => by rw [hd j]
  have htanp : ∀ j, (simplexD s j).tan = supportTangent p v j := fun j => by rw [hd j]
  have hvalc : ∀ j, (centeredD y s j).val = centered y x j := fun j => by rw [hc j]
  have htanc : ∀ j, (centeredD y s j).tan = v j - v y := fun j => by rw [hc j]
  simp only [hvalp, htanp, hvalc, htanc] at hval htan
  refine ⟨hval, ?_⟩
  rw [htan]
  have hne : (Finset.univ.filter fun i => 0 < p i).Nonempty := by
    by_contra hcon
    rw [Finset.not_nonempty_iff_eq_empty, Finset.filter_eq_empty_iff] at hcon
    have : ∑ i, p i ≤ 0 := Finset.sum_nonpos fun i hi => not_lt.mp (hcon hi)
    linarith
  have hz := supportTangent_sum p v hne
  have key : ∀ j, supportTangent p v j * (if p j ≠ 0 then centered y x j else 0) + p j * (if p j ≠ 0 then v j - v y else 0) =
      (p j * v j - p j * v y + (τ - x y) * supportTangent p v j) + supportTangent p v j * p j := fun j => by
    by_cases h : p j = 0
    · rw [supportTangent_zero p v h, h]; simp
    · rw [if_pos h, if_pos h, centered_eq]
      have hτ : p j = x j - τ := by
        rw [h1 j] at h ⊢
        unfold relu at h ⊢
        rcases le_total (x j - τ) 0 with h' | h'
        · exact absurd (max_eq_right h') h
        · exact max_eq_left h'
      have hτ' : x j = p j + τ := by linarith
      show _ * (x j - x y) + _ = _
      rw [hτ']
      ring
  rw [Finset.sum_congr rfl fun j _ => key j, Finset.sum_add_distrib, Finset.sum_add_distrib, Finset.sum_sub_distrib, ← Finset.sum_mul, h2, ← Finset.mul_sum, hz]
  have : ∑ j, (supportTangent p v j * p j + p j * supportTangent p v j) = 2 * ∑ j, supportTangent p v j * p j := by
    rw [Finset.mul_sum]
    exact Finset.sum_congr rfl fun j _ => by ring
  rw [this]
  simp only [hv]
  ring

/-- C132.  Differentiating `multiclass_sparsemax_loss` gives the derivative everywhere, also where the support of the projection changes and the
rule of `projection_simplex` is only one of several possible ones. -/
theorem C132_multiclass_sparsemax {n : ℕ} (y : Fin n) {S : Fin n → ℝ → ℝ} {s : Fin n → Dual ℝ} (hS : ∀ j, Tracks (S j) (s j)) :
    Tracks (fun t => multiclassSparsemaxLoss y fun j => S j t) (multiclassSparsemaxD y s) := by
  have hS0 : (fun j => S j 0) = fun j => (s j).val := funext fun j => (hS j).1
  obtain ⟨L, hL, hLd⟩ := sparsemax_hasFDerivAt y fun j => S j 0
  obtain ⟨h1, h2⟩ := sparsemaxD_eq y s
  constructor
  · show multiclassSparsemaxLoss y (fun j => S j 0) = _
    rw [h1, hS0]
  · have hcurve : HasDerivAt (fun t => fun j => S j t) (fun j => (s j).tan) 0 := hasDerivAt_pi.mpr fun j => (hS j).2
    have := HasFDerivAt.comp_hasDerivAt (l := multiclassSparsemaxLoss y) (f := fun t => fun j => S j t) 0 hL hcurve
    rw [hLd] at this
    rw [h2, ← hS0]
    exact this

/-- The rule of `jnp.max` averages over the positions of the maximum. -/
theorem vmaximum_subgrad {n : ℕ} (x : Fin (n + 1) → ℝ) :
    ∃ g : Fin (n + 1) → ℝ, (∀ j, 0 ≤ g j) ∧ ∑ j, g j = 1 ∧ (∀ j, g j ≠ 0 → x j = vmax x) ∧
      (∀ v : Fin (n + 1) → ℝ, (Dual.vmaximum fun j => ⟨x j, v j⟩).tan = ∑ j, g j * v j) ∧ IsSubgrad vmax x g := by
  set loc : Fin (n + 1) → ℝ := fun j => if x j = vmax x then 1 else 0 with hloc
  have hl0 : ∀ j, 0 ≤ loc j := fun j => by rw [hloc]; show 0 ≤ ite _ _ _; split <;> norm_num
  have hpos : 0 < ∑ j, loc j := by
    obtain ⟨i, -, hi⟩ := Finset.exists_mem_eq_sup' (Finset.univ_nonempty (α := Fin (n + 1))) x
    refine Finset.sum_pos' (fun j _ => hl0 j) ⟨i, Finset.mem_univ i, ?_⟩
    have : x i = vmax x := hi.symm
    show 0 < ite _ _ _
    rw [if_pos this]
    exact one_pos
  have hsum : ∑ j, loc j / ∑ j, loc j = 1 := by rw [← Finset.sum_div, div_self hpos.ne']
  have hsupp : ∀ j, loc j / ∑ j, loc j ≠ 0 → x j = vmax x := fun j h => by
    by_contra hcon
    exact h (by rw [hloc]; simp [hcon])
  refine ⟨fun j => loc j / ∑ j, loc j, fun j => div_nonneg (hl0 j) hpos.le, hsum, hsupp, fun v => ?_, fun w => ?_⟩
  · show (∑ j, v j * loc j) / ∑ j, loc j = _
    rw [Finset.sum_div]
    exact Finset.sum_congr rfl fun j _ => by ring
  · have h1 : ∀ j, loc j / (∑ j, loc j) * (w j - x j) ≤ loc j / (∑ j, loc j) * (vmax w - vmax x) := fun j => by
      by_cases h : loc j / (∑ j, loc j) = 0
      · rw [h]; simp
      · rw [hsupp j h]
        exact mul_le_mul_of_nonneg_left (by linarith [le_vmax w j]) (div_nonneg (hl0 j) hpos.le)
    have := Finset.sum_le_sum fun j (_ : j ∈ Finset.univ) => h1 j
    rw [← Finset.sum_mul, hsum] at this
    linarith

theorem dotD_oneHot {n : ℕ} (y : Fin n) (x v : Fin n → ℝ) : (Dual.dot (fun j => ⟨x j, v j⟩) fun j => Dual.const (oneHot y j)).tan = v y := by
  show ∑ j, (v j * oneHot y j + x j * 0) = _
  simp [oneHot]

/-- The losses that compare the largest score with the score of the label. -/
theorem margin_subgrad {n : ℕ} (y : Fin (n + 1)) (b x : Fin (n + 1) → ℝ) :
    ∃ g : Fin (n + 1) → ℝ, ∑ j, g j = 0 ∧ (∀ j, j ≠ y → 0 ≤ g j) ∧ -1 ≤ g y ∧ g y ≤ 0 ∧ (∀ j, j ≠ y → x j + b j < vmax (fun i => x i + b i) → g j = 0) ∧
      (∀ v : Fin (n + 1) → ℝ, (Dual.vmaximum fun j => ⟨x j + b j, v j⟩).tan - v y = ∑ j, g j * v j) ∧
      IsSubgrad (fun s => vmax (fun j => s j + b j) - s y) x g := by
  obtain ⟨g, h1, h2, h3, h4, h5⟩ := vmaximum_subgrad fun j => x j + b j
  have hle : ∀ j, g j ≤ 1 := fun j => h2 ▸ Finset.single_le_sum (fun i _ => h1 i) (Finset.mem_univ j)
  have hs : ∀ v : Fin (n + 1) → ℝ, ∑ j, (g j - oneHot y j) * v j = ∑ j, g j * v j - v y := fun v => by
    simp only [sub_mul, Finset.sum_sub_distrib]
    simp [oneHot]
  refine ⟨fun j => g j - oneHot y j, ?_, fun j hj => ?_, ?_, ?_, fun j hj hlt => ?_, fun v => ?_, fun w => ?_⟩
  · rw [Finset.sum_sub_distrib, h2]; simp [oneHot]
  · simpa [oneHot, hj] using h1 j
  · simpa [oneHot] using h1 y
  · simpa [oneHot] using hle y
  · have : g j = 0 := by
      by_contra hcon
      exact hlt.ne (h3 j hcon)
    simp [oneHot, hj, this]
  · rw [hs, h4]
  · rw [hs]
    have := h5 fun j => w j + b j
    simp only [add_sub_add_right_eq_sub] at this
    show vmax (fun j => x j + b j) - x y + _ ≤ vmax (fun j => w j + b j) - w y
    linarith

/-- C132.  Differentiating the multiclass hinge and perceptron losses gives a subgradient, ties between the largest scores included. -/
theorem C132_multiclass_margin {n : ℕ} (y : Fin (n + 1)) (x : Fin (n + 1) → ℝ) :
    (∃ g : Fin (n + 1) → ℝ, ∑ j, g j = 0 ∧ -1 ≤ g y ∧ g y ≤ 0 ∧
      (∀ v : Fin (n + 1) → ℝ, (multiclassHingeD y fun j => ⟨x j, v j⟩).val = multiclassHingeLoss y x ∧ (multiclassHingeD y fun j => ⟨x j, v j⟩).tan = ∑ j, g j * v j) ∧
      IsSubgrad (multiclassHingeLoss y) x g) ∧
    (∃ g : Fin (n + 1) → ℝ, ∑ j, g j = 0 ∧ -1 ≤ g y ∧ g y ≤ 0 ∧
      (∀ v : Fin (n + 1) → ℝ, (multiclassPerceptronD y fun j => ⟨x j, v j⟩).val = multiclassPerceptronLoss y x ∧ (multiclassPerceptronD y fun j => ⟨x j, v j⟩).tan = ∑ j, g j * v j) ∧
      IsSubgrad (multiclassPerceptronLoss y) x g) := by
  have hdot : ∀ s : Fin (n + 1) → ℝ, dot s (oneHot y) = s y := fun s => by simp [dot, oneHot]
  constructor
  · obtain ⟨g, h1, -, h2, h3, -, h4, h5⟩ := margin_subgrad y (fun j => 1 - oneHot y j) x
    refine ⟨g, h1, h2, h3, fun v => ⟨rfl, ?_⟩, fun w => ?_⟩
    · rw [← h4]
      show (Dual.vmaximum fun j => ⟨x j + 1 - oneHot y j, v j + 0 - 0⟩).tan - (Dual.dot (fun j => ⟨x j, v j⟩) fun j => Dual.const (oneHot y j)).tan = _
      rw [dotD_oneHot]
      simp only [add_zero, sub_zero, add_sub_assoc]
    · have := h5 w
      simp only [multiclassHingeLoss, hdot, add_sub_assoc]
      exact this
  · obtain ⟨g, h1, -, h2, h3, -, h4, h5⟩ := margin_subgrad y (fun j => 0) x
    refine ⟨g, h1, h2, h3, fun v => ⟨rfl, ?_⟩, fun w => ?_⟩
    · rw [← h4]
      show (Dual.vmaximum fun j => ⟨x j, v j⟩).tan - (Dual.dot (fun j => ⟨x j, v j⟩) fun j => Dual.const (oneHot y j)).tan = _
      rw [dotD_oneHot]
      simp only [add_zero]
    · have := h5 w
      simp only [multiclassPerceptronLoss, hdot]
      simpa using this

/-- Target 3, prediction 1 and radius 2 lie on the change of branch: the derivative in the prediction is -2. -/
example : Tracks (fun t => huberLoss 3 (1 + t) 2) (huberD ⟨3, 0⟩ ⟨1, 1⟩ ⟨2, 0⟩) ∧ (huberD ⟨3, 0⟩ ⟨1, 1⟩ ⟨2, 0⟩ : Dual ℝ).tan = -2 := by
  refine ⟨C132_huber (T := fun _ => 3) (P := fun t => 1 + t) (D := fun _ => 2) ⟨rfl, hasDerivAt_const _ _⟩
    ⟨by simp, (hasDerivAt_id' (0 : ℝ)).const_add 1⟩ ⟨rfl, hasDerivAt_const _ _⟩ (by norm_num), ?_⟩
  rw [huberD_tan]
  norm_num

/-- Scores `(1, 0)` with label 1 lie on the edge of the region where the projection is `(1, 0)`. -/
example : Tracks (fun t => multiclassSparsemaxLoss 1 fun j => (![1 + t, 0] : Fin 2 → ℝ) j) (multiclassSparsemaxD 1 ![⟨1, 1⟩, ⟨0, 0⟩]) :=
  C132_multiclass_sparsemax 1 fun j => by
    fin_cases j
    · exact ⟨by simp, (hasDerivAt_id' (0 : ℝ)).const_add 1⟩
    · exact ⟨rfl, hasDerivAt_const _ _⟩

/-- Two classes tie for the largest score: each gets half of the tangent. -/
example : (multiclassPerceptronD 0 ![⟨0, 0⟩, ⟨1, 1⟩, ⟨1, 0⟩] : Dual ℝ).tan = 1 / 2 := by
  have hm : vmax (fun j => ((![⟨0, 0⟩, ⟨1, 1⟩, ⟨1, 0⟩] : Fin 3 → Dual ℝ) j).val) = 1 :=
    le_antisymm (vmax_le fun j => by fin_cases j <;> norm_num) (le_vmax (fun j => ((![⟨0, 0⟩, ⟨1, 1⟩, ⟨1, 0⟩] : Fin 3 → Dual ℝ) j).val) 1)
  simp only [multiclassPerceptronD, Dual.sub, Dual.vmaximum, Dual.dot, hm, Dual.const, oneHot]
  rw [Fin.sum_univ_three, Fin.sum_univ_three, Fin.sum_univ_three]
  have e2 : (![⟨0, 0⟩, ⟨1, 1⟩, ⟨1, 0⟩] : Fin (2 + 1) → Dual ℝ) 2 = ⟨1, 0⟩ := rfl
  have e3 : ¬(2 : Fin (2 + 1)) = 0 := by decide
  rw [e2, if_neg e3]
  norm_num [Matrix.cons_val]

end Jaxopt.Loss
