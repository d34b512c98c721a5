import Verif.Loss.Model
import Verif.Proj.Props
import Mathlib.Analysis.Convex.Function
import Mathlib.Analysis.Calculus.Deriv.Basic
import Mathlib.Topology.Order.Lattice
import Mathlib.Tactic.Linarith
import Mathlib.Tactic.FieldSimp

/-!
# Properties C49 (sparse_plus, sparsemax losses) and C50
-/

set_option autoImplicit false
set_option linter.unusedSectionVars false
set_option linter.unusedVariables false

namespace Jaxopt.Loss

open Jaxopt.Proj

/-! ## From a quadratic sandwich to convexity and differentiability -/

theorem convexOn_of_tangent {f c : ℝ → ℝ} (h : ∀ u v, f u + c u * (v - u) ≤ f v) : ConvexOn ℝ Set.univ f := by
  refine ⟨convex_univ, fun x _ y _ a b ha hb hab => ?_⟩
  simp only [smul_eq_mul]
  set u := a * x + b * y with hu
  have h1 := mul_le_mul_of_nonneg_left (h u x) ha
  have h2 := mul_le_mul_of_nonneg_left (h u y) hb
  have e : a * (f u + c u * (x - u)) + b * (f u + c u * (y - u)) = (a + b) * f u + c u * ((a * x + b * y) - (a + b) * u) := by ring
  rw [hab, ← hu] at e
  linarith

theorem hasDerivAt_of_sandwich {f c : ℝ → ℝ} {M : ℝ} (h1 : ∀ u v, f u + c u * (v - u) ≤ f v)
    (h2 : ∀ u v, f v ≤ f u + c u * (v - u) + M * (v - u) ^ 2) (u : ℝ) : HasDerivAt f (c u) u := by
  rw [hasDerivAt_iff_isLittleO]
  have hO : (fun v => f v - f u - (v - u) • c u) =O[nhds u] fun v => (v - u) ^ 2 := by
    refine Asymptotics.IsBigO.of_bound M (Filter.Eventually.of_forall fun v => ?_)
    have a := h1 u v
    have b := h2 u v
    rw [smul_eq_mul, Real.norm_eq_abs, Real.norm_eq_abs, abs_of_nonneg (by linarith : 0 ≤ f v - f u - (v - u) * c u), abs_of_nonneg (sq_nonneg _)]
    linarith
  refine hO.trans_isLittleO ?_
  have ho : (fun v : ℝ => (v - u) ^ 2) =o[nhds u] fun v => (v - u) ^ 1 := by
    have := (Asymptotics.isLittleO_pow_pow (𝕜 := ℝ) (m := 1) (n := 2) (by norm_num)).comp_tendsto
      (show Filter.Tendsto (fun v : ℝ => v - u) (nhds u) (nhds 0) by
        have : Filter.Tendsto (fun v : ℝ => v - u) (nhds u) (nhds (u - u)) := (continuous_id.sub continuous_const).tendsto u
        simpa using this)
    simpa [Function.comp_def] using this
  simpa using ho

/-! ## C50: the Huber loss -/

/-- The derivative of the Huber loss with respect to the prediction. -/
def huberSlope {K : Type*} [Field K] [LinearOrder K] (target pred delta : K) : K := max (-delta) (min delta (pred - target))

section
variable {K : Type*} [Field K] [LinearOrder K] [IsStrictOrderedRing K]

theorem huber_cases (t p d : K) (hd : 0 ≤ d) :
    (p - t < -d ∧ huberLoss t p d = d * (-(p - t) - 1 / 2 * d) ∧ huberSlope t p d = -d) ∨
    (-d ≤ p - t ∧ p - t ≤ d ∧ huberLoss t p d = 1 / 2 * (p - t) ^ 2 ∧ huberSlope t p d = p - t) ∨
    (d < p - t ∧ huberLoss t p d = d * ((p - t) - 1 / 2 * d) ∧ huberSlope t p d = d) := by
  unfold huberLoss huberSlope
  simp only
  rw [abs_sub_comm]
  rcases lt_or_ge (p - t) (-d) with h | h
  · left
    have ha : |p - t| = -(p - t) := abs_of_neg (by linarith)
    rw [ha, if_pos (by linarith : -(p - t) > d), min_eq_right (by linarith), max_eq_left (by linarith)]
    exact ⟨h, rfl, rfl⟩
  · rcases le_or_gt (p - t) d with h' | h'
    · right; left
      have ha : |p - t| ≤ d := abs_le.mpr ⟨h, h'⟩
      rw [if_neg (not_lt.mpr ha), sq_abs, min_eq_right h', max_eq_right h]
      exact ⟨h, h', rfl, rfl⟩
    · right; right
      have ha : |p - t| = p - t := abs_of_pos (by linarith)
      rw [ha, if_pos h', min_eq_left h'.le, max_eq_right (by linarith)]
      exact ⟨h', rfl, rfl⟩

/-- **C50**: the Huber loss is non-negative, symmetric in its arguments and a function of the absolute difference. -/
theorem C50_huber_nonneg (t p d : K) (hd : 0 ≤ d) : 0 ≤ huberLoss t p d ∧ huberLoss t p d = huberLoss p t d ∧
    ∀ u, huberLoss t (t + u) d = huberLoss t (t - u) d := by
  refine ⟨?_, ?_, fun u => ?_⟩
  · rcases huber_cases t p d hd with ⟨h, e, -⟩ | ⟨h, h', e, -⟩ | ⟨h, e, -⟩ <;> rw [e] <;> nlinarith [sq_nonneg (p - t)]
  · unfold huberLoss; rw [abs_sub_comm]
  · unfold huberLoss
    have : |t - (t + u)| = |t - (t - u)| := by
      rw [show t - (t + u) = -(t - (t - u)) by ring, abs_neg]
    rw [this]

/-- The Huber loss lies between its tangents and the tangent parabolas. -/
theorem huber_sandwich (t d : K) (hd : 0 ≤ d) (u v : K) :
    huberLoss t u d + huberSlope t u d * (v - u) ≤ huberLoss t v d ∧
    huberLoss t v d ≤ huberLoss t u d + huberSlope t u d * (v - u) + 1 / 2 * (v - u) ^ 2 := by
  have hvu : v - u = (v - t) - (u - t) := by ring
  rw [hvu]
  rcases huber_cases t u d hd with ⟨h, e, s⟩ | ⟨h, h', e, s⟩ | ⟨h, e, s⟩ <;>
  rcases huber_cases t v d hd with ⟨k, f, -⟩ | ⟨k, k', f, -⟩ | ⟨k, f, -⟩ <;>
  rw [e, s, f] <;> clear e s f hvu <;>
  revert h k <;>
  generalize u - t = a at * <;> generalize v - t = b at * <;> intro h k
  · constructor <;> nlinarith [sq_nonneg (b - a)]
  · constructor
    · nlinarith [sq_nonneg (b + d)]
    · nlinarith [mul_self_le_mul_self (by linarith : 0 ≤ b + d) (by linarith : b + d ≤ b - a)]
  · constructor
    · nlinarith
    · nlinarith [mul_self_le_mul_self (by linarith : 0 ≤ b + d) (by linarith : b + d ≤ b - a), sq_nonneg (b - d)]
  · constructor
    · nlinarith [mul_nonneg (by linarith : 0 ≤ d + a) (by linarith : 0 ≤ -d - b), mul_nonneg (by linarith : 0 ≤ d + a) (by linarith : 0 ≤ d - a), sq_nonneg (a + d)]
    · nlinarith [sq_nonneg (b + d)]
  · constructor <;> nlinarith [sq_nonneg (b - a)]
  · constructor
    · nlinarith [mul_nonneg (by linarith : 0 ≤ d - a) (by linarith : 0 ≤ b - d), mul_nonneg (by linarith : 0 ≤ d + a) (by linarith : 0 ≤ d - a), sq_nonneg (a - d)]
    · nlinarith [sq_nonneg (b - d)]
  · constructor
    · nlinarith
    · nlinarith [mul_self_le_mul_self (by linarith : 0 ≤ a + d) (by linarith : a + d ≤ a - b), sq_nonneg (b - d), sq_nonneg (a - d),
        mul_self_le_mul_self (by linarith : 0 ≤ d - b) (by linarith : d - b ≤ a - b)]
  · constructor
    · nlinarith [sq_nonneg (b - d)]
    · nlinarith [mul_self_le_mul_self (by linarith : 0 ≤ d - b) (by linarith : d - b ≤ a - b)]
  · constructor <;> nlinarith [sq_nonneg (b - a)]

/-- **C50**: the Huber loss is `delta`-Lipschitz in the prediction. -/
theorem C50_huber_lipschitz (t d : K) (hd : 0 ≤ d) (u v : K) : |huberLoss t v d - huberLoss t u d| ≤ d * |v - u| := by
  have hs : ∀ w, |huberSlope t w d| ≤ d := by
    intro w
    rcases huber_cases t w d hd with ⟨-, -, s⟩ | ⟨h, h', -, s⟩ | ⟨-, -, s⟩ <;> rw [s]
    · rw [abs_neg, abs_of_nonneg hd]
    · exact abs_le.mpr ⟨h, h'⟩
    · rw [abs_of_nonneg hd]
  have hb : ∀ w, |huberSlope t w d * (v - u)| ≤ d * |v - u| := fun w => by
    rw [abs_mul]; exact mul_le_mul_of_nonneg_right (hs w) (abs_nonneg _)
  have h1 := (huber_sandwich t d hd u v).1
  have h2 := (huber_sandwich t d hd v u).1
  have h3 := abs_le.mp (hb u)
  have h4 := abs_le.mp (hb v)
  rw [abs_le]
  constructor <;> nlinarith

end

/-- **C50**: the Huber loss is convex and continuously differentiable in the prediction; its derivative is the clipped difference. -/
theorem C50_huber_smooth (t d : ℝ) (hd : 0 ≤ d) : ConvexOn ℝ Set.univ (fun p => huberLoss t p d) ∧
    (∀ p, HasDerivAt (fun p => huberLoss t p d) (max (-d) (min d (p - t))) p) ∧ Continuous fun p => max (-d) (min d (p - t)) := by
  refine ⟨convexOn_of_tangent (c := fun p => huberSlope t p d) fun u v => (huber_sandwich t d hd u v).1, fun p => ?_, ?_⟩
  · exact hasDerivAt_of_sandwich (c := fun p => huberSlope t p d) (M := 1 / 2) (fun u v => (huber_sandwich t d hd u v).1)
      (fun u v => (huber_sandwich t d hd u v).2) p
  · exact continuous_const.max (continuous_const.min (continuous_id.sub continuous_const))

/-- Both regimes. -/
example : huberLoss (3 : ℚ) 5 1 = 3 / 2 ∧ huberLoss (3 : ℚ) (7 / 2) 1 = 1 / 8 := by decide +kernel

/-! ## C50: logistic losses -/

/-- The probability that the logistic model assigns to label 1. -/
noncomputable def sigmoid (x : ℝ) : ℝ := Real.exp x / (1 + Real.exp x)

/-- **C50**: the binary logistic loss is the negative log-likelihood of the label and is strictly positive. -/
theorem C50_binary_logistic (label : Bool) (logit : ℝ) :
    binaryLogisticLoss label logit = -Real.log (if label then sigmoid logit else 1 - sigmoid logit) ∧ 0 < binaryLogisticLoss label logit := by
  have hp := Real.exp_pos logit
  have hn := Real.exp_pos (-logit)
  have hprod : Real.exp (-logit) * Real.exp logit = 1 := by rw [← Real.exp_add]; simp
  constructor
  · unfold binaryLogisticLoss softplus flip sigmoid
    rw [← Real.log_inv]
    cases label with
    | true =>
      simp only [if_true]
      congr 1
      rw [inv_div, Real.exp_zero, eq_div_iff hp.ne', add_mul, hprod]; ring
    | false =>
      simp only [Bool.false_eq_true, if_false]
      congr 1
      have : 1 - Real.exp logit / (1 + Real.exp logit) = 1 / (1 + Real.exp logit) := by
        have : (1 + Real.exp logit) ≠ 0 := by positivity
        field_simp; ring
      rw [this, Real.exp_zero, inv_div, div_one]; ring
  · unfold binaryLogisticLoss softplus
    refine Real.log_pos ?_
    have := Real.exp_pos (flip label logit)
    rw [Real.exp_zero]; linarith

theorem centered_eq {K : Type*} [Field K] [LinearOrder K] {n : ℕ} (y : Fin n) (s : Fin n → K) : centered y s = fun j => s j - s y := by
  funext j
  unfold centered
  by_cases h : j = y
  · subst h; simp
  · rw [Function.update_of_ne h]

/-- **C50**: the multiclass logistic loss is the negative log-likelihood of the label under the softmax model; it is non-negative, and strictly
positive as soon as there are two classes. -/
theorem C50_multiclass_logistic_partial {n : ℕ} (y : Fin n) (s : Fin n → ℝ) :
    multiclassLogisticLoss y s = -Real.log (Real.exp (s y) / ∑ j, Real.exp (s j)) ∧ 0 ≤ multiclassLogisticLoss y s ∧
    (2 ≤ n → 0 < multiclassLogisticLoss y s) := by
  have hpos : 0 < ∑ j, Real.exp (s j) := Finset.sum_pos (fun j _ => Real.exp_pos _) ⟨y, Finset.mem_univ _⟩
  have hsum : ∑ j, Real.exp (s j - s y) = (∑ j, Real.exp (s j)) / Real.exp (s y) := by
    rw [Finset.sum_div]
    exact Finset.sum_congr rfl fun j _ => Real.exp_sub _ _
  have hsplit : ∑ j, Real.exp (s j - s y) = 1 + ∑ j ∈ Finset.univ.erase y, Real.exp (s j - s y) := by
    rw [← Finset.add_sum_erase _ _ (Finset.mem_univ y)]; simp
  have hnn : 0 ≤ ∑ j ∈ Finset.univ.erase y, Real.exp (s j - s y) := Finset.sum_nonneg fun j _ => (Real.exp_pos _).le
  unfold multiclassLogisticLoss logsumexp
  rw [centered_eq]
  refine ⟨?_, ?_, fun hn => ?_⟩
  · rw [hsum, ← Real.log_inv, inv_div]
  · rw [hsplit]; exact Real.log_nonneg (by linarith)
  · rw [hsplit]
    refine Real.log_pos ?_
    have : 0 < ∑ j ∈ Finset.univ.erase y, Real.exp (s j - s y) := by
      refine Finset.sum_pos (fun j _ => Real.exp_pos _) ?_
      refine Finset.card_pos.mp ?_
      rw [Finset.card_erase_of_mem (Finset.mem_univ y), Finset.card_univ, Fintype.card_fin]; omega
    linarith

/-- With a single class the multiclass logistic loss is 0, not strictly positive. -/
theorem C50_single_class_false (s : Fin 1 → ℝ) : multiclassLogisticLoss 0 s = 0 := by
  unfold multiclassLogisticLoss logsumexp
  rw [centered_eq]
  simp

/-! ## C50: hinge and perceptron -/

section
variable {K : Type*} [Field K] [LinearOrder K] [IsStrictOrderedRing K]

/-- The margin of a binary prediction: positive exactly for correct predictions. -/
def margin (label : Bool) (score : K) : K := if label then score else -score

theorem mul_signedLabel (label : Bool) (score : K) : score * signedLabel label = margin label score := by
  unfold signedLabel margin
  cases label <;> simp <;> ring

/-- **C50**: binary hinge and perceptron losses are non-negative; hinge dominates the perceptron and the 0/1 error (a prediction without
positive margin counts as an error); hinge vanishes exactly for margins of at least one, the perceptron for non-negative margins. -/
theorem C50_binary_margin (label : Bool) (score : K) : 0 ≤ binaryHingeLoss label score ∧ 0 ≤ binaryPerceptronLoss label score ∧
    binaryPerceptronLoss label score ≤ binaryHingeLoss label score ∧
    (if margin label score ≤ 0 then 1 else 0) ≤ binaryHingeLoss label score ∧
    (binaryHingeLoss label score = 0 ↔ 1 ≤ margin label score) ∧ (binaryPerceptronLoss label score = 0 ↔ 0 ≤ margin label score) := by
  unfold binaryHingeLoss binaryPerceptronLoss
  rw [neg_mul, mul_signedLabel]
  refine ⟨le_max_left _ _, le_max_left _ _, max_le_max (le_refl _) (by linarith), ?_, ?_, ?_⟩
  · split_ifs with h
    · exact le_max_of_le_right (by linarith)
    · exact le_max_left _ _
  · rw [max_eq_left_iff]; constructor <;> intro h <;> linarith
  · rw [max_eq_left_iff]; constructor <;> intro h <;> linarith

theorem dot_oneHot {n : ℕ} (y : Fin n) (s : Fin n → K) : dot s (oneHot y) = s y := by
  unfold dot oneHot
  simp

theorem le_vmax {n : ℕ} (s : Fin (n + 1) → K) (j : Fin (n + 1)) : s j ≤ vmax s := Finset.le_sup' s (Finset.mem_univ j)

theorem vmax_le {n : ℕ} {s : Fin (n + 1) → K} {b : K} (h : ∀ j, s j ≤ b) : vmax s ≤ b := Finset.sup'_le _ _ fun j _ => h j

/-- **C50**: multiclass hinge and perceptron losses are non-negative; hinge dominates the perceptron and the 0/1 error (some other class scores
at least as high); hinge vanishes exactly when the label beats every other class by one, the perceptron when no class beats the label. -/
theorem C50_multiclass_margin {n : ℕ} (y : Fin (n + 1)) (s : Fin (n + 1) → K) :
    0 ≤ multiclassHingeLoss y s ∧ 0 ≤ multiclassPerceptronLoss y s ∧ multiclassPerceptronLoss y s ≤ multiclassHingeLoss y s ∧
    ((∃ j, j ≠ y ∧ s y ≤ s j) → 1 ≤ multiclassHingeLoss y s) ∧
    (multiclassHingeLoss y s = 0 ↔ ∀ j, j ≠ y → s j + 1 ≤ s y) ∧ (multiclassPerceptronLoss y s = 0 ↔ ∀ j, s j ≤ s y) := by
  have hy : ∀ j, j ≠ y → s j + 1 - oneHot y j = s j + 1 := fun j hj => by simp [oneHot, hj]
  have hyy : s y + 1 - oneHot y y = s y := by simp [oneHot]
  have h1 := le_vmax (fun j => s j + 1 - oneHot y j) y
  have h2 := le_vmax s y
  simp only [hyy] at h1
  unfold multiclassHingeLoss multiclassPerceptronLoss
  rw [dot_oneHot]
  refine ⟨by linarith, by linarith, ?_, ?_, ?_, ?_⟩
  · refine sub_le_sub_right (vmax_le fun j => ?_) _
    by_cases hj : j = y
    · subst hj; exact h1
    · have := le_vmax (fun j => s j + 1 - oneHot y j) j
      simp only [hy j hj] at this
      linarith
  · rintro ⟨j, hj, hs⟩
    have := le_vmax (fun j => s j + 1 - oneHot y j) j
    simp only [hy j hj] at this
    linarith
  · constructor
    · intro h j hj
      have := le_vmax (fun j => s j + 1 - oneHot y j) j
      simp only [hy j hj] at this
      linarith
    · intro h
      have : vmax (fun j => s j + 1 - oneHot y j) ≤ s y := vmax_le fun j => by
        by_cases hj : j = y
        · subst hj; exact hyy.le
        · rw [hy j hj]; exact h j hj
      linarith
  · constructor
    · intro h j
      have := le_vmax s j
      linarith
    · intro h
      have := vmax_le (b := s y) h
      linarith

end

example : multiclassHingeLoss 1 ![(3 : ℚ), 2, 0] = 2 ∧ multiclassPerceptronLoss 1 ![(3 : ℚ), 2, 0] = 1 := by decide +kernel

/-! ## C49: `sparse_plus` and the binary sparsemax loss -/

section
variable {K : Type*} [Field K] [LinearOrder K] [IsStrictOrderedRing K]

theorem sparse_cases (x : K) :
    (x ≤ -1 ∧ sparsePlus x = 0 ∧ sparseSigmoid x = 0) ∨ (-1 < x ∧ x < 1 ∧ sparsePlus x = (x + 1) ^ 2 / 4 ∧ sparseSigmoid x = (x + 1) / 2) ∨
    (1 ≤ x ∧ sparsePlus x = x ∧ sparseSigmoid x = 1) := by
  unfold sparsePlus sparseSigmoid projectionHypercube projectionBox clip
  rcases le_or_gt x (-1) with h | h
  · left
    rw [if_pos h, max_eq_right (by linarith), min_eq_left (by norm_num)]
    exact ⟨h, rfl, by ring⟩
  · rw [if_neg (not_le.mpr h), max_eq_left (by linarith)]
    rcases lt_or_ge x 1 with h' | h'
    · right; left
      rw [if_neg (not_le.mpr h'), min_eq_left (by linarith)]
      exact ⟨h, h', rfl, by ring⟩
    · right; right
      rw [if_pos h', min_eq_right (by linarith)]
      exact ⟨h', rfl, by norm_num⟩

theorem sparse_sandwich (u v : K) : sparsePlus u + sparseSigmoid u * (v - u) ≤ sparsePlus v ∧
    sparsePlus v ≤ sparsePlus u + sparseSigmoid u * (v - u) + 1 / 4 * (v - u) ^ 2 := by
  rcases sparse_cases u with ⟨h, e, s⟩ | ⟨h, h', e, s⟩ | ⟨h, e, s⟩ <;>
  rcases sparse_cases v with ⟨k, f, -⟩ | ⟨k, k', f, -⟩ | ⟨k, f, -⟩ <;>
  rw [e, s, f] <;>
  constructor <;>
  nlinarith [sq_nonneg (u - v), sq_nonneg (v - 1), sq_nonneg (v + 1), sq_nonneg (u - 1), sq_nonneg (u + 1)]

/-- **C49**: the binary sparsemax loss is non-negative and vanishes exactly when the margin is at least one. -/
theorem C49_binary_sparsemax (label : Bool) (logit : K) : 0 ≤ binarySparsemaxLoss label logit ∧
    (binarySparsemaxLoss label logit = 0 ↔ 1 ≤ margin label logit) := by
  have hf : flip label logit = -margin label logit := by unfold flip margin; cases label <;> simp
  unfold binarySparsemaxLoss
  rw [hf]
  rcases sparse_cases (-margin label logit) with ⟨h, e, -⟩ | ⟨h, h', e, -⟩ | ⟨h, e, -⟩ <;> rw [e]
  · exact ⟨le_refl _, ⟨fun _ => by linarith, fun _ => rfl⟩⟩
  · refine ⟨by positivity, ⟨fun h0 => ?_, fun h1 => by linarith⟩⟩
    have : (0 : K) < (-margin label logit + 1) ^ 2 / 4 := by
      have : (0 : K) < -margin label logit + 1 := by linarith
      positivity
    linarith
  · exact ⟨by linarith, ⟨fun h0 => by linarith, fun h1 => by linarith⟩⟩

end

/-- **C49**: `sparse_plus` is convex and its derivative is `sparse_sigmoid`, everywhere. -/
theorem C49_sparse_plus : ConvexOn ℝ Set.univ (sparsePlus (K := ℝ)) ∧ ∀ x : ℝ, HasDerivAt sparsePlus (sparseSigmoid x) x :=
  ⟨convexOn_of_tangent (c := sparseSigmoid) fun u v => (sparse_sandwich u v).1,
   fun x => hasDerivAt_of_sandwich (c := sparseSigmoid) (M := 1 / 4) (fun u v => (sparse_sandwich u v).1) (fun u v => (sparse_sandwich u v).2) x⟩

example : sparsePlus (0 : ℚ) = 1 / 4 ∧ sparseSigmoid (1 / 2 : ℚ) = 3 / 4 := by decide +kernel

/-! ## C49: the multiclass sparsemax loss -/

section
variable {K : Type*} [Field K] [LinearOrder K] [IsStrictOrderedRing K]

/-- The probability simplex. -/
def UnitSimplex (n : ℕ) : Set (Fin n → K) := {q | (∀ i, 0 ≤ q i) ∧ ∑ i, q i = 1}

theorem sqDist_gini {n : ℕ} (s q : Fin n → K) : sqDist s q = dot s s - 2 * (dot q s - 1 / 2 * dot q q) := by
  unfold sqDist dot
  rw [Finset.mul_sum, ← Finset.sum_sub_distrib, Finset.mul_sum, ← Finset.sum_sub_distrib]
  exact Finset.sum_congr rfl fun i _ => by ring

/-- The loss is the maximum over the simplex of `<q, s> + (1 - |q|²) / 2`, minus the score of the label. -/
theorem sparsemax_eq {n : ℕ} (y : Fin n) (s : Fin n → K) : multiclassSparsemaxLoss y s =
    dot (projectionSimplex s 1) s - 1 / 2 * dot (projectionSimplex s 1) (projectionSimplex s 1) + 1 / 2 - s y := by
  have hn : 0 < n := lt_of_le_of_lt (Nat.zero_le _) y.isLt
  have hP := (C08_simplex hn s (1 : K) one_pos).1
  unfold multiclassSparsemaxLoss
  simp only
  rw [centered_eq]
  set p := projectionSimplex s 1 with hp
  have h1 : dot p (fun j => if p j ≠ 0 then s j - s y else 0) = dot p s - s y := by
    unfold dot
    have : ∀ j, p j * (if p j ≠ 0 then s j - s y else 0) = p j * s j - p j * s y := by
      intro j
      by_cases h : p j = 0
      · rw [h]; simp
      · rw [if_pos h]; ring
    rw [Finset.sum_congr rfl fun j _ => this j, Finset.sum_sub_distrib, ← Finset.sum_mul, hP.2, one_mul]
  rw [h1]; ring

theorem sparsemax_max {n : ℕ} (s q : Fin n → K) (hn : 0 < n) (hq : q ∈ UnitSimplex (K := K) n) :
    dot q s - 1 / 2 * dot q q ≤ dot (projectionSimplex s 1) s - 1 / 2 * dot (projectionSimplex s 1) (projectionSimplex s 1) := by
  have h := (C08_simplex hn s (1 : K) one_pos).isProj.2 q hq
  rw [sqDist_gini, sqDist_gini] at h
  linarith

/-- **C49**: the multiclass sparsemax loss is non-negative and vanishes exactly when the score of the label exceeds every other score by at
least one. -/
theorem C49_multiclass_sparsemax {n : ℕ} (y : Fin n) (s : Fin n → K) : 0 ≤ multiclassSparsemaxLoss y s ∧
    (multiclassSparsemaxLoss y s = 0 ↔ ∀ j, j ≠ y → s j + 1 ≤ s y) := by
  have hn : 0 < n := lt_of_le_of_lt (Nat.zero_le _) y.isLt
  have hP : projectionSimplex s 1 ∈ UnitSimplex (K := K) n := (C08_simplex hn s (1 : K) one_pos).1
  have hone : oneHot y ∈ UnitSimplex (K := K) n := by
    refine ⟨fun i => ?_, ?_⟩
    · unfold oneHot; split_ifs <;> norm_num
    · unfold oneHot; simp
  have hval : dot (oneHot y) s - 1 / 2 * dot (oneHot y) (oneHot y) = s y - 1 / 2 := by
    rw [dot_oneHot]
    unfold dot oneHot; simp
  have hge := sparsemax_max s (oneHot y) hn hone
  rw [hval] at hge
  rw [sparsemax_eq]
  refine ⟨by linarith, ⟨fun h j hj => ?_, fun h => ?_⟩⟩
  · -- moving mass t from the label to j must not increase the objective
    by_contra hcon
    rw [not_le] at hcon
    set c := s j + 1 - s y with hc
    have hcpos : 0 < c := by rw [hc]; linarith
    set t : K := min 1 (c / 2) with ht
    have ht0 : 0 < t := lt_min one_pos (by linarith)
    have ht1 : t ≤ 1 := min_le_left _ _
    have htc : t < c := lt_of_le_of_lt (min_le_right _ _) (by linarith)
    set q : Fin n → K := fun i => (1 - t) * oneHot y i + t * oneHot j i with hq
    have hqS : q ∈ UnitSimplex (K := K) n := by
      refine ⟨fun i => ?_, ?_⟩
      · rw [hq]; simp only [oneHot]
        have : (0 : K) ≤ 1 - t := by linarith
        split_ifs <;> nlinarith
      · rw [hq]; simp only [Finset.sum_add_distrib, ← Finset.mul_sum]
        unfold oneHot; simp
    have hqs : dot q s = (1 - t) * s y + t * s j := by
      have h1 : dot q s = (1 - t) * dot s (oneHot y) + t * dot s (oneHot j) := by
        unfold dot
        rw [Finset.mul_sum, Finset.mul_sum, ← Finset.sum_add_distrib]
        exact Finset.sum_congr rfl fun i _ => by rw [hq]; ring
      rw [h1, dot_oneHot, dot_oneHot]
    have hqq : dot q q = (1 - t) * (1 - t) + t * t := by
      have h1 : dot q q = (1 - t) * dot q (oneHot y) + t * dot q (oneHot j) := by
        unfold dot
        rw [Finset.mul_sum, Finset.mul_sum, ← Finset.sum_add_distrib]
        exact Finset.sum_congr rfl fun i _ => by simp only [hq]; ring
      rw [h1, dot_oneHot, dot_oneHot, hq]
      simp only [oneHot, if_true, if_neg hj, if_neg (Ne.symm hj)]; ring
    have := sparsemax_max s q hn hqS
    rw [hqs, hqq] at this
    nlinarith
  · set p := projectionSimplex s 1 with hp
    have h1 : dot p s ≤ s y - (1 - p y) := by
      unfold dot
      have : ∀ i, p i * s i ≤ p i * (s y - 1) + (if i = y then p i else 0) := by
        intro i
        by_cases hi : i = y
        · subst hi; rw [if_pos rfl]; linarith
        · rw [if_neg hi, add_zero]
          exact mul_le_mul_of_nonneg_left (by linarith [h i hi]) (hP.1 i)
      calc ∑ i, p i * s i ≤ ∑ i, (p i * (s y - 1) + if i = y then p i else 0) := Finset.sum_le_sum fun i _ => this i
        _ = s y - (1 - p y) := by
          rw [Finset.sum_add_distrib, ← Finset.sum_mul, hP.2]
          simp; ring
    have h2 : p y * p y ≤ dot p p := by
      unfold dot
      exact Finset.single_le_sum (f := fun i => p i * p i) (fun i _ => mul_self_nonneg _) (Finset.mem_univ y)
    nlinarith [sq_nonneg (1 - p y)]

end

/-- A loss of zero at margin one and a positive loss at a smaller margin. -/
example : multiclassSparsemaxLoss 0 ![(2 : ℚ), 1, 0] = 0 ∧ multiclassSparsemaxLoss 0 ![(1 : ℚ), 1, 0] = 1 / 4 := by decide +kernel

end Jaxopt.Loss
