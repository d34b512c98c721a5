import Verif.BlockCD.Logreg
import Verif.BlockCD.Props
import Verif.Loss.Props
import Mathlib.Probability.Moments.SubGaussian
import Mathlib.Probability.ProbabilityMassFunction.Integrals
import Mathlib.Analysis.Convex.SpecificFunctions.Basic
import Mathlib.Analysis.Calculus.FDeriv.Basic
import Mathlib.Analysis.SpecialFunctions.Trigonometric.DerivHyp
import Mathlib.Topology.Algebra.Module.FiniteDimension
import Mathlib.Algebra.BigOperators.Fin

/-!
# Property C67: the regression objectives
-/

set_option autoImplicit false
set_option linter.unusedSectionVars false
set_option linter.unusedVariables false

namespace Jaxopt.BlockCD

open Jaxopt.Loss

variable {m n c : ℕ}

/-! ## `logsumexp` between its tangent and a quadratic -/

theorem sumExp_pos (s : Fin (c + 1) → ℝ) : 0 < ∑ j, Real.exp (s j) :=
  Finset.sum_pos (fun j _ => Real.exp_pos _) ⟨0, Finset.mem_univ _⟩

theorem softmax_pos (s : Fin (c + 1) → ℝ) (k : Fin (c + 1)) : 0 < softmax s k := div_pos (Real.exp_pos _) (sumExp_pos s)

theorem softmax_sum (s : Fin (c + 1) → ℝ) : ∑ k, softmax s k = 1 := by
  unfold softmax
  rw [← Finset.sum_div, div_self (sumExp_pos s).ne']

theorem logsumexp_add (s d : Fin (c + 1) → ℝ) :
    logsumexp (s + d) = logsumexp s + Real.log (∑ k, softmax s k * Real.exp (d k)) := by
  unfold logsumexp
  have h1 : 0 < ∑ k, softmax s k * Real.exp (d k) :=
    Finset.sum_pos (fun k _ => mul_pos (softmax_pos s k) (Real.exp_pos _)) ⟨0, Finset.mem_univ _⟩
  rw [← Real.log_mul (sumExp_pos s).ne' h1.ne', Finset.mul_sum]
  congr 1
  refine Finset.sum_congr rfl fun k _ => ?_
  unfold softmax
  rw [Pi.add_apply, Real.exp_add, ← mul_assoc, mul_div_cancel₀ _ (sumExp_pos s).ne']

theorem logsumexp_lower (s d : Fin (c + 1) → ℝ) : logsumexp s + ∑ k, softmax s k * d k ≤ logsumexp (s + d) := by
  rw [logsumexp_add]
  have h1 : Real.exp (∑ k, softmax s k * d k) ≤ ∑ k, softmax s k * Real.exp (d k) := by
    have := convexOn_exp.map_sum_le (t := Finset.univ) (w := softmax s) (p := d) (fun k _ => (softmax_pos s k).le) (softmax_sum s)
      (fun k _ => Set.mem_univ _)
    simpa only [smul_eq_mul] using this
  have h2 := (Real.le_log_iff_exp_le ((Real.exp_pos _).trans_le h1)).2 h1
  linarith

/-- Hoeffding's lemma for the softmax distribution. -/
theorem logsumexp_upper_range (s d : Fin (c + 1) → ℝ) {a b : ℝ} (h : ∀ k, d k ∈ Set.Icc a b) :
    logsumexp (s + d) ≤ logsumexp s + ∑ k, softmax s k * d k + (b - a) ^ 2 / 8 := by
  have hsum : ∑ k, ENNReal.ofReal (softmax s k) = 1 := by
    rw [← ENNReal.ofReal_sum_of_nonneg fun k _ => (softmax_pos s k).le, softmax_sum, ENNReal.ofReal_one]
  let P : PMF (Fin (c + 1)) := PMF.ofFintype (fun k => ENNReal.ofReal (softmax s k)) hsum
  have hint : ∀ g : Fin (c + 1) → ℝ, ∫ k, g k ∂P.toMeasure = ∑ k, softmax s k * g k := by
    intro g
    rw [PMF.integral_eq_sum]
    refine Finset.sum_congr rfl fun k _ => ?_
    simp only [P, PMF.ofFintype_apply, ENNReal.toReal_ofReal (softmax_pos s k).le, smul_eq_mul]
  have h1 := (ProbabilityTheory.hasSubgaussianMGF_of_mem_Icc (μ := P.toMeasure) (X := d)
    (Measurable.of_discrete).aemeasurable (Filter.Eventually.of_forall h)).mgf_le 1
  unfold ProbabilityTheory.mgf at h1
  rw [hint, hint] at h1
  set M := ∑ k, softmax s k * d k with hM
  have h2 : ∑ k, softmax s k * Real.exp (1 * (d k - M)) = Real.exp (-M) * ∑ k, softmax s k * Real.exp (d k) := by
    rw [Finset.mul_sum]
    refine Finset.sum_congr rfl fun k _ => ?_
    rw [one_mul, sub_eq_neg_add, Real.exp_add]; ring
  have h3 : 0 < ∑ k, softmax s k * Real.exp (d k) :=
    Finset.sum_pos (fun k _ => mul_pos (softmax_pos s k) (Real.exp_pos _)) ⟨0, Finset.mem_univ _⟩
  have h4 := Real.log_le_log (by rw [h2]; positivity) h1
  rw [h2, Real.log_mul (Real.exp_pos _).ne' h3.ne', Real.log_exp, Real.log_exp] at h4
  rw [logsumexp_add]
  have h5 : ((((‖b - a‖₊ / 2) ^ 2 : NNReal) : ℝ)) * 1 ^ 2 / 2 = (b - a) ^ 2 / 8 := by
    push_cast
    rw [Real.norm_eq_abs, div_pow, sq_abs]; ring
  rw [h5] at h4
  linarith

theorem logsumexp_upper (s d : Fin (c + 1) → ℝ) :
    logsumexp (s + d) ≤ logsumexp s + ∑ k, softmax s k * d k + 1 / 4 * ∑ k, d k * d k := by
  obtain ⟨i, hi⟩ := Finite.exists_max d
  obtain ⟨j, hj⟩ := Finite.exists_min d
  have h1 := logsumexp_upper_range s d (a := d j) (b := d i) fun k => ⟨hj k, hi k⟩
  have h2 : (d i - d j) ^ 2 ≤ 2 * ∑ k, d k * d k := by
    by_cases hij : i = j
    · subst hij
      have : 0 ≤ ∑ k, d k * d k := Finset.sum_nonneg fun k _ => mul_self_nonneg _
      nlinarith
    · have h3 : d i * d i + d j * d j ≤ ∑ k, d k * d k := by
        rw [← Finset.sum_pair (f := fun k => d k * d k) hij]
        exact Finset.sum_le_sum_of_subset_of_nonneg (Finset.subset_univ _) fun k _ _ => mul_self_nonneg _
      nlinarith [sq_nonneg (d i + d j)]
  linarith

/-! ## The losses between their tangents and quadratics -/

theorem expit_eq (x : ℝ) : expit x = Real.exp x / (Real.exp x + 1) := by
  unfold expit
  have h := Real.exp_pos x
  have h2 := Real.exp_pos (-x)
  have h3 : Real.exp (-x) * Real.exp x = 1 := by rw [← Real.exp_add]; simp
  rw [div_eq_div_iff (by positivity) (by positivity)]
  linear_combination -h3

theorem softplus_sandwich (x d : ℝ) :
    softplus x + expit x * d ≤ softplus (x + d) ∧ softplus (x + d) ≤ softplus x + expit x * d + 1 / 8 * (d * d) := by
  have e : ∀ z, softplus z = logsumexp ![z, 0] := by
    intro z; unfold softplus logsumexp; simp [Fin.sum_univ_two]
  have e2 : (![x + d, 0] : Fin 2 → ℝ) = ![x, 0] + ![d, 0] := by
    ext k; fin_cases k <;> simp
  have e3 : ∑ k, softmax ![x, 0] k * (![d, 0] : Fin 2 → ℝ) k = expit x * d := by
    rw [Fin.sum_univ_two, expit_eq]
    simp [softmax, Fin.sum_univ_two]
  have h1 := logsumexp_lower ![x, 0] ![d, 0]
  rw [e3, ← e2, ← e, ← e] at h1
  refine ⟨h1, ?_⟩
  rcases le_total 0 d with hd | hd
  · have h2 := logsumexp_upper_range ![x, 0] ![d, 0] (a := 0) (b := d) (by intro k; fin_cases k <;> simp [hd])
    rw [e3, ← e2, ← e, ← e] at h2
    linarith
  · have h2 := logsumexp_upper_range ![x, 0] ![d, 0] (a := d) (b := 0) (by intro k; fin_cases k <;> simp [hd])
    rw [e3, ← e2, ← e, ← e] at h2
    linarith

theorem binary_sandwich (y : Bool) (x d : ℝ) :
    binaryLogisticLoss y x + (if y then -expit (-x) else expit x) * d ≤ binaryLogisticLoss y (x + d) ∧
    binaryLogisticLoss y (x + d) ≤ binaryLogisticLoss y x + (if y then -expit (-x) else expit x) * d + 1 / 8 * (d * d) := by
  unfold binaryLogisticLoss Jaxopt.Loss.flip
  cases y with
  | false => simpa using softplus_sandwich x d
  | true =>
    have h := softplus_sandwich (-x) (-d)
    have e : -x + -d = -(x + d) := by ring
    rw [e] at h
    simp only [if_true]
    constructor
    · linarith [h.1]
    · linarith [h.2]

theorem multiclass_eq (y : Fin (c + 1)) (s : Fin (c + 1) → ℝ) : multiclassLogisticLoss y s = logsumexp s - s y := by
  unfold multiclassLogisticLoss logsumexp
  rw [centered_eq]
  have h : ∑ j, Real.exp (s j - s y) = (∑ j, Real.exp (s j)) / Real.exp (s y) := by
    rw [Finset.sum_div]; exact Finset.sum_congr rfl fun j _ => Real.exp_sub _ _
  rw [h, Real.log_div (sumExp_pos s).ne' (Real.exp_pos _).ne', Real.log_exp]

theorem multiclass_sandwich (y : Fin (c + 1)) (s d : Fin (c + 1) → ℝ) :
    multiclassLogisticLoss y s + ∑ k, d k * (softmax s k - if k = y then 1 else 0) ≤ multiclassLogisticLoss y (s + d) ∧
    multiclassLogisticLoss y (s + d) ≤ multiclassLogisticLoss y s + ∑ k, d k * (softmax s k - if k = y then 1 else 0) +
      1 / 4 * ∑ k, d k * d k := by
  have e : ∑ k, d k * (softmax s k - if k = y then 1 else 0) = ∑ k, softmax s k * d k - d y := by
    simp only [mul_sub, Finset.sum_sub_distrib, mul_ite, mul_one, mul_zero, Finset.sum_ite_eq', Finset.mem_univ, if_true]
    congr 1
    exact Finset.sum_congr rfl fun k _ => mul_comm _ _
  have h1 := logsumexp_lower s d
  have h2 := logsumexp_upper s d
  rw [multiclass_eq, multiclass_eq, e, Pi.add_apply]
  constructor <;> linarith

/-! ## From `subfun` to the composite -/

/-- `subfun` lies above its tangents and below quadratics of curvature `a`, the slope being `gradSubfun`. -/
def Sandwich {W : Type*} [AddCommGroup W] [Module ℝ W] (vdot : W → W → ℝ) (F : Composite ℝ W m n) (a : ℝ) : Prop :=
  ∀ p d : Fin m → W, F.subfun p + ∑ i, vdot (d i) (F.gradSubfun p i) ≤ F.subfun (p + d) ∧
    F.subfun (p + d) ≤ F.subfun p + ∑ i, vdot (d i) (F.gradSubfun p i) + a / 2 * ∑ i, vdot (d i) (d i)

section Composite

variable {W : Type*} [AddCommGroup W] [Module ℝ W] {vdot : W → W → ℝ}

theorem Sandwich.coordUpper (hv : IsVdot vdot) {F : Composite ℝ W m n} {a : ℝ} (h : Sandwich vdot F a) :
    CoordUpper vdot F fun j => a * columnSqNorms F.A j := by
  intro x j w
  rw [call_eq F hv, call_eq F hv, matvec_update, linear_update hv]
  have e : updateMatvec F.A (matvec F.A x) (w - x j) j = matvec F.A x + fun i => F.A i j • (w - x j) := rfl
  have h0 := (h (matvec F.A x) fun i => F.A i j • (w - x j)).2
  have h1 : ∑ i, vdot (F.A i j • (w - x j)) (F.gradSubfun (matvec F.A x) i) =
      vdot (w - x j) (rmatvecElement F.A (F.gradSubfun (matvec F.A x)) j) := by
    rw [rmatvecElement, vdot_sum_right hv]
    exact Finset.sum_congr rfl fun i _ => by rw [hv.smul_left, hv.smul_right]
  have h2 : ∑ i, vdot (F.A i j • (w - x j)) (F.A i j • (w - x j)) = columnSqNorms F.A j * vdot (w - x j) (w - x j) := by
    rw [columnSqNorms, Finset.sum_mul]
    exact Finset.sum_congr rfl fun i _ => by rw [hv.smul_left, hv.smul_right]; ring
  rw [h1, h2] at h0
  rw [e, Composite.gradAt, hv.add_right]
  beta_reduce at h0 ⊢
  linarith

theorem Sandwich.tangent (hv : IsVdot vdot) {F : Composite ℝ W m n} {a : ℝ} (h : Sandwich vdot F a) (x y : Fin n → W) :
    F.call vdot x + ∑ j, vdot (y j - x j) (F.gradAt x j) ≤ F.call vdot y := by
  rw [call_eq F hv, call_eq F hv]
  have e : matvec F.A y = matvec F.A x + matvec F.A (fun j => y j - x j) := by
    funext i
    simp only [matvec, Pi.add_apply, ← Finset.sum_add_distrib, ← smul_add, add_sub_cancel]
  have h0 := (h (matvec F.A x) (matvec F.A fun j => y j - x j)).1
  rw [← e] at h0
  have h1 : ∑ i, vdot (matvec F.A (fun j => y j - x j) i) (F.gradSubfun (matvec F.A x) i) =
      ∑ j, vdot (y j - x j) (rmatvecElement F.A (F.gradSubfun (matvec F.A x)) j) := by
    simp only [matvec, rmatvecElement, vdot_sum_left hv, vdot_sum_right hv]
    rw [Finset.sum_comm]
    exact Finset.sum_congr rfl fun j _ => Finset.sum_congr rfl fun i _ => by rw [hv.smul_left, hv.smul_right]
  rw [h1] at h0
  simp only [Composite.gradAt, hv.add_right, hv.sub_left, Finset.sum_add_distrib, Finset.sum_sub_distrib] at h0 ⊢
  linarith

end Composite

/-- The sum of products of two score vectors. -/
theorem isVdot_scores : IsVdot (K := ℝ) (E := Fin c → ℝ) (fun x y => ∑ k, x k * y k) where
  add_left x y z := by simp only [Pi.add_apply, add_mul, Finset.sum_add_distrib]
  smul_left a x z := by simp only [Pi.smul_apply, smul_eq_mul, mul_assoc, ← Finset.mul_sum]
  symm x y := Finset.sum_congr rfl fun k _ => mul_comm _ _
  pos x hx := by
    obtain ⟨k, hk⟩ := Function.ne_iff.mp hx
    exact Finset.sum_pos' (fun i _ => mul_self_nonneg _) ⟨k, Finset.mem_univ k, mul_self_pos.mpr hk⟩

theorem binaryLogreg_sandwich (X : Matrix (Fin m) (Fin n) ℝ) (y : Fin m → Bool) :
    Sandwich (fun a b => a * b) (binaryLogreg X y) (1 / 4 * (1 / (m : ℝ))) := by
  intro p d
  have hm : (0 : ℝ) ≤ 1 / (m : ℝ) := by positivity
  have e1 : (binaryLogreg X y).subfun p + ∑ i, d i * (binaryLogreg X y).gradSubfun p i =
      1 / (m : ℝ) * ∑ i, (binaryLogisticLoss (y i) (p i) + (if y i then -expit (-p i) else expit (p i)) * d i) := by
    simp only [binaryLogreg, Finset.sum_add_distrib, mul_add, Finset.mul_sum, Finset.sum_div]
    congr 1
    · exact Finset.sum_congr rfl fun i _ => by ring
    · exact Finset.sum_congr rfl fun i _ => by ring
  have e2 : (binaryLogreg X y).subfun (p + d) = 1 / (m : ℝ) * ∑ i, binaryLogisticLoss (y i) (p i + d i) := by
    simp only [binaryLogreg, Pi.add_apply]; ring
  have e3 : 1 / 4 * (1 / (m : ℝ)) / 2 * ∑ i, d i * d i = 1 / (m : ℝ) * ∑ i, 1 / 8 * (d i * d i) := by
    rw [← Finset.mul_sum]; ring
  rw [e1, e2, e3, ← mul_add, ← Finset.sum_add_distrib]
  exact ⟨mul_le_mul_of_nonneg_left (Finset.sum_le_sum fun i _ => (binary_sandwich (y i) (p i) (d i)).1) hm,
    mul_le_mul_of_nonneg_left (Finset.sum_le_sum fun i _ => (binary_sandwich (y i) (p i) (d i)).2) hm⟩

theorem multiclassLogreg_sandwich (X : Matrix (Fin m) (Fin n) ℝ) (y : Fin m → Fin (c + 1)) :
    Sandwich (fun a b => ∑ k, a k * b k) (multiclassLogreg X y) (1 / 2 * (1 / (m : ℝ))) := by
  intro p d
  have hm : (0 : ℝ) ≤ 1 / (m : ℝ) := by positivity
  have e1 : (multiclassLogreg X y).subfun p + ∑ i, ∑ k, d i k * (multiclassLogreg X y).gradSubfun p i k =
      1 / (m : ℝ) * ∑ i, (multiclassLogisticLoss (y i) (p i) + ∑ k, d i k * (softmax (p i) k - if k = y i then 1 else 0)) := by
    simp only [multiclassLogreg, Finset.sum_add_distrib, mul_add, Finset.mul_sum, Finset.sum_div]
    congr 1
    · exact Finset.sum_congr rfl fun i _ => by ring
    · exact Finset.sum_congr rfl fun i _ => Finset.sum_congr rfl fun k _ => by ring
  have e2 : (multiclassLogreg X y).subfun (p + d) = 1 / (m : ℝ) * ∑ i, multiclassLogisticLoss (y i) (p i + d i) := by
    simp only [multiclassLogreg, Pi.add_apply]; ring
  have e3 : 1 / 2 * (1 / (m : ℝ)) / 2 * ∑ i, ∑ k, d i k * d i k = 1 / (m : ℝ) * ∑ i, 1 / 4 * ∑ k, d i k * d i k := by
    rw [← Finset.mul_sum]; ring
  beta_reduce
  rw [e1, e2, e3, ← mul_add, ← Finset.sum_add_distrib]
  exact ⟨mul_le_mul_of_nonneg_left (Finset.sum_le_sum fun i _ => (multiclass_sandwich (y i) (p i) (d i)).1) hm,
    mul_le_mul_of_nonneg_left (Finset.sum_le_sum fun i _ => (multiclass_sandwich (y i) (p i) (d i)).2) hm⟩

/-! ## C67: the declared constants -/

theorem inv_card_le_one (m : ℕ) : 1 / (m : ℝ) ≤ 1 := by
  rcases Nat.eq_zero_or_pos m with h | h
  · subst h; simp
  · rw [div_le_one (by exact_mod_cast h)]; exact_mod_cast h

/-- **C67**, constants of the binary objective: along every block the objective grows at most quadratically with the declared
constants. -/
theorem C67_binary_constants (hm : 1 ≤ m) (X : Matrix (Fin m) (Fin n) ℝ) (y : Fin m → Bool) :
    CoordUpper (fun a b => a * b) (binaryLogreg X y) (binaryLogreg X y).lipschitz := by
  intro x j w
  refine ((binaryLogreg_sandwich X y).coordUpper IsVdot.mul x j w).trans ?_
  have h1 : 1 / 4 * (1 / (m : ℝ)) * columnSqNorms X j ≤ columnSqNorms X j * (1 / 4) := by
    nlinarith [inv_card_le_one m, columnSqNorms_nonneg X j]
  have h2 := mul_self_nonneg (w - x j)
  have h3 := mul_le_mul_of_nonneg_right (div_le_div_of_nonneg_right h1 (by norm_num : (0 : ℝ) ≤ 2)) h2
  simp only [binaryLogreg] at *
  linarith

/-- **C67**, constants of the multiclass objective. -/
theorem C67_multiclass_constants (hm : 1 ≤ m) (X : Matrix (Fin m) (Fin n) ℝ) (y : Fin m → Fin (c + 1)) :
    CoordUpper (fun a b => ∑ k, a k * b k) (multiclassLogreg X y) (multiclassLogreg X y).lipschitz := by
  intro x j w
  refine ((multiclassLogreg_sandwich X y).coordUpper isVdot_scores x j w).trans ?_
  have h1 : 1 / 2 * (1 / (m : ℝ)) * columnSqNorms X j ≤ columnSqNorms X j * (1 / 2) := by
    nlinarith [inv_card_le_one m, columnSqNorms_nonneg X j]
  have h2 : 0 ≤ ∑ k, (w - x j) k * (w - x j) k := Finset.sum_nonneg fun k _ => mul_self_nonneg _
  have h3 := mul_le_mul_of_nonneg_right (div_le_div_of_nonneg_right h1 (by norm_num : (0 : ℝ) ≤ 2)) h2
  simp only [multiclassLogreg] at *
  linarith

theorem columnSqNorms_pos {X : Matrix (Fin m) (Fin n) ℝ} (hX : ∀ j, ∃ i, X i j ≠ 0) (j : Fin n) : 0 < columnSqNorms X j := by
  obtain ⟨i, hi⟩ := hX j
  exact Finset.sum_pos' (fun k _ => mul_self_nonneg _) ⟨i, Finset.mem_univ i, mul_self_pos.mpr hi⟩

/-- What the bound with `u²/2 / (1 + u²/2) ≤ log cosh u` leaves of a quadratic upper bound of `softplus` at `0`. -/
theorem softplus_curvature {r L : ℝ} (h : ∀ t : ℝ, softplus (r * t) ≤ softplus 0 + r * t / 2 + L / 2 * t ^ 2) : r ^ 2 / 4 ≤ L := by
  have key : ∀ t : ℝ, t ≠ 0 → r ^ 2 / 4 ≤ L * (1 + (r * t) ^ 2 / 8) := by
    intro t ht
    have h1 := h t
    have e : softplus (r * t) = Real.log (Real.cosh (r * t / 2)) + softplus 0 + r * t / 2 := by
      unfold softplus
      have : Real.exp (r * t) + Real.exp 0 = Real.cosh (r * t / 2) * (Real.exp 0 + Real.exp 0) * Real.exp (r * t / 2) := by
        rw [Real.cosh_eq, Real.exp_zero]
        have e1 : Real.exp (r * t) = Real.exp (r * t / 2) * Real.exp (r * t / 2) := by rw [← Real.exp_add]; congr 1; ring
        have e2 : Real.exp (-(r * t / 2)) * Real.exp (r * t / 2) = 1 := by rw [← Real.exp_add]; simp
        rw [e1]; linear_combination -e2
      rw [this, Real.log_mul (mul_pos (Real.cosh_pos _) (by positivity)).ne' (Real.exp_pos _).ne',
        Real.log_mul (Real.cosh_pos _).ne' (by positivity), Real.log_exp]
    set u := r * t / 2 with hu
    have h2 : 1 + u ^ 2 / 2 ≤ Real.cosh u := by
      have e1 : Real.cosh u = 1 + 2 * Real.sinh (u / 2) ^ 2 := by
        have := Real.cosh_two_mul (u / 2)
        rw [Real.cosh_sq, mul_div_cancel₀ u two_ne_zero] at this
        linarith
      have e2 : (u / 2) ^ 2 ≤ Real.sinh (u / 2) ^ 2 := by
        rcases le_total 0 (u / 2) with h | h
        · exact pow_le_pow_left₀ h (Real.self_le_sinh_iff.2 h) 2
        · have := Real.sinh_le_self_iff.2 h
          nlinarith
      rw [e1]; linarith
    have h3 : 1 - (1 + u ^ 2 / 2)⁻¹ ≤ Real.log (Real.cosh u) :=
      (Real.one_sub_inv_le_log_of_pos (by positivity)).trans (Real.log_le_log (by positivity) h2)
    have h4 : 1 - (1 + u ^ 2 / 2)⁻¹ ≤ L / 2 * t ^ 2 := by linarith
    have h5 : 0 < 1 + u ^ 2 / 2 := by positivity
    have h6 : u ^ 2 / 2 ≤ L / 2 * t ^ 2 * (1 + u ^ 2 / 2) := by
      have := mul_le_mul_of_nonneg_right h4 h5.le
      rw [sub_mul, inv_mul_cancel₀ h5.ne'] at this
      linarith
    have ht2 : 0 < t ^ 2 := by positivity
    refine le_of_mul_le_mul_right ?_ ht2
    rw [hu] at h6
    nlinarith
  have hlim : Filter.Tendsto (fun t : ℝ => L * (1 + (r * t) ^ 2 / 8)) (nhdsWithin 0 {0}ᶜ) (nhds L) := by
    have h1 := (by fun_prop : Continuous fun t : ℝ => L * (1 + (r * t) ^ 2 / 8)).tendsto 0
    simp only [mul_zero, ne_eq, OfNat.ofNat_ne_zero, not_false_eq_true, zero_pow, zero_div, add_zero, mul_one] at h1
    exact h1.mono_left nhdsWithin_le_nhds
  exact ge_of_tendsto hlim (Filter.eventually_of_mem self_mem_nhdsWithin key)

/-- **C67**, the binary constants are the best possible: for one sample no smaller constants are valid. -/
theorem C67_binary_tight (X : Matrix (Fin 1) (Fin n) ℝ) (y : Fin 1 → Bool) {L : Fin n → ℝ}
    (h : CoordUpper (fun a b => a * b) (binaryLogreg X y) L) (j : Fin n) : (binaryLogreg X y).lipschitz j ≤ L j := by
  have e : (binaryLogreg X y).lipschitz j = (X 0 j) ^ 2 / 4 := by
    simp only [binaryLogreg, columnSqNorms, Fin.sum_univ_one]; ring
  rw [e]
  have hx : expit 0 = 1 / 2 := by unfold expit; norm_num
  have hcall : ∀ t : ℝ, (binaryLogreg X y).call (fun a b => a * b) (Function.update 0 j t) =
      softplus (Jaxopt.Loss.flip (y 0) (X 0 j * t)) := by
    intro t
    have : matvec X (Function.update (0 : Fin n → ℝ) j t) 0 = X 0 j * t := by
      rw [matvec_update]
      simp [updateMatvec, matvec]
    simp only [binaryLogreg, Composite.call, Fin.sum_univ_one, binaryLogisticLoss, this, Nat.cast_one, div_one]
  have hgrad : (binaryLogreg X y).gradAt 0 j = X 0 j * (if y 0 then -(1 / 2) else 1 / 2) := by
    have : matvec X (0 : Fin n → ℝ) 0 = 0 := by simp [matvec]
    simp only [binaryLogreg, Composite.gradAt, rmatvecElement, Fin.sum_univ_one, this, neg_zero, hx, Option.getD_none, Pi.zero_apply,
      Nat.cast_one, div_one, one_mul, smul_eq_mul, add_zero]
  have h0 : (binaryLogreg X y).call (fun a b => a * b) 0 = softplus 0 := by
    have := hcall 0
    have e0 : Function.update (0 : Fin n → ℝ) j 0 = 0 := Function.update_eq_self j 0
    rw [e0] at this
    rw [this, mul_zero]
    unfold Jaxopt.Loss.flip; cases y 0 <;> simp
  have h1 : ∀ t : ℝ, softplus (Jaxopt.Loss.flip (y 0) (X 0 j * t)) ≤
      softplus 0 + t * (X 0 j * (if y 0 then -(1 / 2) else 1 / 2)) + L j / 2 * (t * t) := by
    intro t
    have := h 0 j t
    rw [hcall, hgrad, h0] at this
    simpa using this
  refine softplus_curvature fun t => ?_
  cases hy : y 0 with
  | false =>
    have := h1 t
    rw [hy] at this
    simp only [Jaxopt.Loss.flip] at this
    simp at this
    linarith
  | true =>
    have := h1 (-t)
    rw [hy] at this
    simp only [Jaxopt.Loss.flip] at this
    simp at this
    linarith

/-- **C67**, the multiclass constants are the best possible: for one sample and two classes no smaller constants are valid. -/
theorem C67_multiclass_tight (X : Matrix (Fin 1) (Fin n) ℝ) {L : Fin n → ℝ}
    (h : CoordUpper (fun a b => ∑ k, a k * b k) (multiclassLogreg X fun _ => (0 : Fin 2)) L) (j : Fin n) :
    (multiclassLogreg X fun _ => (0 : Fin 2)).lipschitz j ≤ L j := by
  have e : (multiclassLogreg X fun _ => (0 : Fin 2)).lipschitz j = (2 * X 0 j) ^ 2 / 4 / 2 := by
    simp only [multiclassLogreg, columnSqNorms, Fin.sum_univ_one]; ring
  have hcall : ∀ t : ℝ, (multiclassLogreg X fun _ => (0 : Fin 2)).call (fun a b => ∑ k, a k * b k) (Function.update 0 j ![-t, t]) =
      softplus (2 * X 0 j * t) := by
    intro t
    have h1 : matvec X (Function.update (0 : Fin n → Fin 2 → ℝ) j ![-t, t]) 0 = ![-(X 0 j * t), X 0 j * t] := by
      rw [matvec_update]
      ext k
      fin_cases k <;> simp [updateMatvec, matvec]
    simp only [multiclassLogreg, Composite.call, Fin.sum_univ_one, h1, Nat.cast_one, div_one, multiclass_eq]
    have h2 : (![-(X 0 j * t), X 0 j * t] : Fin 2 → ℝ) 0 = Real.log (Real.exp (-(X 0 j * t))) := by simp
    rw [h2]
    unfold logsumexp softplus
    rw [← Real.log_div (sumExp_pos _).ne' (Real.exp_pos _).ne', Fin.sum_univ_two]
    simp only [Matrix.cons_val_zero, Matrix.cons_val_one]
    rw [add_div, div_self (Real.exp_pos _).ne', ← Real.exp_sub, Real.exp_zero, add_comm]
    congr 3; ring
  have hgrad : (multiclassLogreg X fun _ => (0 : Fin 2)).gradAt 0 j = ![-(X 0 j / 2), X 0 j / 2] := by
    have h1 : matvec X (0 : Fin n → Fin 2 → ℝ) 0 = 0 := by simp [matvec]
    ext k
    fin_cases k <;>
      simp [multiclassLogreg, Composite.gradAt, rmatvecElement, Fin.sum_univ_one, h1, softmax] <;> ring
  have h0 : (multiclassLogreg X fun _ => (0 : Fin 2)).call (fun a b => ∑ k, a k * b k) 0 = softplus 0 := by
    have := hcall 0
    have e0 : Function.update (0 : Fin n → Fin 2 → ℝ) j ![-0, 0] = 0 := by
      have : (![-0, 0] : Fin 2 → ℝ) = (0 : Fin n → Fin 2 → ℝ) j := by ext k; fin_cases k <;> simp
      rw [this]; exact Function.update_eq_self j 0
    rw [e0] at this
    rw [this, mul_zero]
  have h1 : ∀ t : ℝ, softplus (2 * X 0 j * t) ≤ softplus 0 + 2 * X 0 j * t / 2 + (2 * L j) / 2 * t ^ 2 := by
    intro t
    have := h 0 j ![-t, t]
    rw [hcall, hgrad, h0] at this
    simp [Fin.sum_univ_two] at this
    linarith
  have := softplus_curvature h1
  rw [e]; linarith

/-! ## C67: gradients, convexity, descent, stopping -/

theorem hasFDerivAt_of_sq {E : Type*} [NormedAddCommGroup E] [NormedSpace ℝ E] {f : E → ℝ} {L : E →L[ℝ] ℝ} {p : E} {M : ℝ}
    (h : ∀ d, |f (p + d) - f p - L d| ≤ M * ‖d‖ ^ 2) : HasFDerivAt f L p := by
  rw [hasFDerivAt_iff_isLittleO_nhds_zero]
  refine Asymptotics.IsBigO.trans_isLittleO (g := fun d : E => ‖d‖ ^ 2) ?_ ?_
  · refine Asymptotics.IsBigO.of_bound M (Filter.Eventually.of_forall fun d => ?_)
    rw [Real.norm_eq_abs, Real.norm_eq_abs, abs_of_nonneg (by positivity : (0 : ℝ) ≤ ‖d‖ ^ 2)]
    exact h d
  · exact Asymptotics.isLittleO_norm_pow_id one_lt_two

theorem Sandwich.hasFDerivAt {W : Type*} [NormedAddCommGroup W] [NormedSpace ℝ W] [FiniteDimensional ℝ W] {vdot : W → W → ℝ}
    (hv : IsVdot vdot) {M : ℝ} (hM : ∀ w, vdot w w ≤ M * ‖w‖ ^ 2) {F : Composite ℝ W m n} {a : ℝ} (ha : 0 ≤ a)
    (h : Sandwich vdot F a) (p : Fin m → W) :
    ∃ L : (Fin m → W) →L[ℝ] ℝ, HasFDerivAt F.subfun L p ∧ ∀ d, L d = ∑ i, vdot (d i) (F.gradSubfun p i) := by
  let l : (Fin m → W) →ₗ[ℝ] ℝ :=
    { toFun := fun d => ∑ i, vdot (d i) (F.gradSubfun p i)
      map_add' := fun x y => by simp only [Pi.add_apply, hv.add_left, Finset.sum_add_distrib]
      map_smul' := fun r x => by simp only [Pi.smul_apply, hv.smul_left, RingHom.id_apply, smul_eq_mul, Finset.mul_sum] }
  refine ⟨l.toContinuousLinearMap, ?_, fun d => rfl⟩
  refine hasFDerivAt_of_sq (M := a / 2 * (m * M)) fun d => ?_
  have hl : l.toContinuousLinearMap d = ∑ i, vdot (d i) (F.gradSubfun p i) := rfl
  obtain ⟨h1, h2⟩ := h p d
  rw [hl, abs_of_nonneg (by linarith)]
  have h3 : ∑ i, vdot (d i) (d i) ≤ (m * M) * ‖d‖ ^ 2 := by
    calc ∑ i, vdot (d i) (d i) ≤ ∑ i : Fin m, M * ‖d‖ ^ 2 := by
          refine Finset.sum_le_sum fun i _ => (hM _).trans ?_
          have hM0 : 0 ≤ M * ‖d‖ ^ 2 - M * ‖d i‖ ^ 2 := by
            have hn : ‖d i‖ ^ 2 ≤ ‖d‖ ^ 2 := pow_le_pow_left₀ (norm_nonneg _) (norm_le_pi_norm d i) 2
            by_cases hd : d i = 0
            · have h0 : M * ‖d i‖ ^ 2 = 0 := by simp [hd]
              by_cases hd' : d = 0
              · simp [hd']
              · obtain ⟨k, hk⟩ := Function.ne_iff.mp hd'
                have := (hv.pos _ hk).trans_le (hM (d k))
                have hMp : 0 < M := by
                  by_contra hneg
                  push Not at hneg
                  nlinarith [sq_nonneg ‖d k‖]
                rw [h0]; simp only [sub_zero]; positivity
            · have := (hv.pos _ hd).trans_le (hM (d i))
              have hMp : 0 < M := by
                by_contra hneg
                push Not at hneg
                nlinarith [sq_nonneg ‖d i‖]
              nlinarith
          linarith
      _ = (m * M) * ‖d‖ ^ 2 := by rw [Finset.sum_const, Finset.card_univ, Fintype.card_fin, nsmul_eq_mul]; ring
  have h4 := mul_le_mul_of_nonneg_left h3 (div_nonneg ha (by norm_num : (0 : ℝ) ≤ 2))
  linarith

/-- **C67**, gradient of the binary `subfun`: the modelled `gradSubfun` (what `block_cd` caches) is its gradient. -/
theorem C67_binary_gradient (hm : 1 ≤ m) (X : Matrix (Fin m) (Fin n) ℝ) (y : Fin m → Bool) (p : Fin m → ℝ) :
    ∃ L : (Fin m → ℝ) →L[ℝ] ℝ, HasFDerivAt (binaryLogreg X y).subfun L p ∧ ∀ d, L d = ∑ i, d i * (binaryLogreg X y).gradSubfun p i :=
  (binaryLogreg_sandwich X y).hasFDerivAt IsVdot.mul (M := 1) (fun w => by rw [one_mul, Real.norm_eq_abs, sq_abs, sq]) (by positivity) p

/-- **C67**, gradient of the multiclass `subfun`. -/
theorem C67_multiclass_gradient (hm : 1 ≤ m) (X : Matrix (Fin m) (Fin n) ℝ) (y : Fin m → Fin (c + 1)) (p : Fin m → Fin (c + 1) → ℝ) :
    ∃ L : (Fin m → Fin (c + 1) → ℝ) →L[ℝ] ℝ, HasFDerivAt (multiclassLogreg X y).subfun L p ∧
      ∀ d, L d = ∑ i, ∑ k, d i k * (multiclassLogreg X y).gradSubfun p i k := by
  refine (multiclassLogreg_sandwich X y).hasFDerivAt isVdot_scores (M := (c + 1 : ℕ)) (fun w => ?_) (by positivity) p
  calc ∑ k, w k * w k ≤ ∑ k : Fin (c + 1), ‖w‖ ^ 2 := Finset.sum_le_sum fun k _ => by
        rw [← sq, ← sq_abs]
        exact pow_le_pow_left₀ (abs_nonneg _) (norm_le_pi_norm w k) 2
    _ = ((c + 1 : ℕ) : ℝ) * ‖w‖ ^ 2 := by rw [Finset.sum_const, Finset.card_univ, Fintype.card_fin, nsmul_eq_mul]

/-- **C67**, convexity of the binary objective: it lies above its tangents. -/
theorem C67_binary_convex (hm : 1 ≤ m) (X : Matrix (Fin m) (Fin n) ℝ) (y : Fin m → Bool) (v w : Fin n → ℝ) :
    (binaryLogreg X y).call (fun a b => a * b) v + ∑ j, (w j - v j) * (binaryLogreg X y).gradAt v j ≤
      (binaryLogreg X y).call (fun a b => a * b) w :=
  (binaryLogreg_sandwich X y).tangent IsVdot.mul v w

/-- **C67**, convexity of the multiclass objective. -/
theorem C67_multiclass_convex (hm : 1 ≤ m) (X : Matrix (Fin m) (Fin n) ℝ) (y : Fin m → Fin (c + 1)) (V U : Fin n → Fin (c + 1) → ℝ) :
    (multiclassLogreg X y).call (fun a b => ∑ k, a k * b k) V + ∑ j, ∑ k, (U j - V j) k * (multiclassLogreg X y).gradAt V j k ≤
      (multiclassLogreg X y).call (fun a b => ∑ k, a k * b k) U :=
  (multiclassLogreg_sandwich X y).tangent isVdot_scores V U

/-- **C67**, block coordinate descent on the binary objective: no coordinate step and no epoch increases the objective, for every data
set without zero columns and every regulariser with a proximity operator. -/
theorem C67_binary_descends (S : BCD ℝ ℝ m n) (hvd : S.vdot = fun a b => a * b) {C : Set ℝ} {h : ℝ → ℝ}
    (hp : Jaxopt.ProxGrad.IsProx S.vdot C h S.blockProx) (hm : 1 ≤ m) (X : Matrix (Fin m) (Fin n) ℝ) (y : Fin m → Bool)
    (hfn : S.fn = binaryLogreg X y) (hX : ∀ j, ∃ i, X i j ≠ 0) : S.Descends C h := by
  refine S.C35_descent (by rw [hvd]; exact IsVdot.mul) hp (fun j => ?_) ?_
  · rw [hfn]; exact mul_pos (columnSqNorms_pos hX j) (by norm_num)
  · rw [hfn, hvd]; exact C67_binary_constants hm X y

/-- **C67**, block coordinate descent on the multiclass objective. -/
theorem C67_multiclass_descends (S : BCD ℝ (Fin (c + 1) → ℝ) m n) (hvd : S.vdot = fun a b => ∑ k, a k * b k)
    {C : Set (Fin (c + 1) → ℝ)} {h : (Fin (c + 1) → ℝ) → ℝ} (hp : Jaxopt.ProxGrad.IsProx S.vdot C h S.blockProx) (hm : 1 ≤ m)
    (X : Matrix (Fin m) (Fin n) ℝ) (y : Fin m → Fin (c + 1)) (hfn : S.fn = multiclassLogreg X y) (hX : ∀ j, ∃ i, X i j ≠ 0) :
    S.Descends C h := by
  refine S.C35_descent (by rw [hvd]; exact isVdot_scores) hp (fun j => ?_) ?_
  · rw [hfn]; exact mul_pos (columnSqNorms_pos hX j) (by norm_num)
  · rw [hfn, hvd]; exact C67_multiclass_constants hm X y

/-- **C67**, stopping: an epoch of block coordinate descent with error `0` on the multiclass objective ends at a global minimiser. -/
theorem C67_multiclass_stop (S : BCD ℝ (Fin (c + 1) → ℝ) m n) (hvd : S.vdot = fun a b => ∑ k, a k * b k)
    {C : Set (Fin (c + 1) → ℝ)} {h : (Fin (c + 1) → ℝ) → ℝ} (hp : Jaxopt.ProxGrad.IsProx S.vdot C h S.blockProx)
    (hh : ConvexOn ℝ C h) (hm : 1 ≤ m) (X : Matrix (Fin m) (Fin n) ℝ) (y : Fin m → Fin (c + 1)) (hfn : S.fn = multiclassLogreg X y)
    (hX : ∀ j, ∃ i, X i j ≠ 0) (hsqrt : ∀ a, 0 ≤ a → (S.sqrt a = 0 ↔ a = 0)) (x0 : Fin n → Fin (c + 1) → ℝ) (k : ℕ)
    (herr : (S.iterate x0 (k + 1)).2.error = .fin 0) (U : Fin n → Fin (c + 1) → ℝ) (hU : ∀ j, U j ∈ C) :
    objective S h (S.iterate x0 (k + 1)).1 ≤ objective S h U := by
  refine S.C35_stop (by rw [hvd]; exact isVdot_scores) hp hh (fun j => ?_) hsqrt (fun V U => ?_) x0 k herr U hU
  · rw [hfn]; exact mul_pos (columnSqNorms_pos hX j) (by norm_num)
  · rw [hfn, hvd]; exact C67_multiclass_convex hm X y V U

/-- **C67**, stopping on the binary objective. -/
theorem C67_binary_stop (S : BCD ℝ ℝ m n) (hvd : S.vdot = fun a b => a * b) {C : Set ℝ} {h : ℝ → ℝ}
    (hp : Jaxopt.ProxGrad.IsProx S.vdot C h S.blockProx) (hh : ConvexOn ℝ C h) (hm : 1 ≤ m) (X : Matrix (Fin m) (Fin n) ℝ)
    (y : Fin m → Bool) (hfn : S.fn = binaryLogreg X y) (hX : ∀ j, ∃ i, X i j ≠ 0) (hsqrt : ∀ a, 0 ≤ a → (S.sqrt a = 0 ↔ a = 0))
    (x0 : Fin n → ℝ) (k : ℕ) (herr : (S.iterate x0 (k + 1)).2.error = .fin 0) (u : Fin n → ℝ) (hu : ∀ j, u j ∈ C) :
    objective S h (S.iterate x0 (k + 1)).1 ≤ objective S h u := by
  refine S.C35_stop (by rw [hvd]; exact IsVdot.mul) hp hh (fun j => ?_) hsqrt (fun v w => ?_) x0 k herr u hu
  · rw [hfn]; exact mul_pos (columnSqNorms_pos hX j) (by norm_num)
  · rw [hfn, hvd]; exact C67_binary_convex hm X y v w

/-! ## C67: the values -/

/-- Specification: the probability of the label of sample `i` under the softmax model with scores `Wᵀ x_i + b`. -/
noncomputable def labelProb (W : Fin n → Fin c → ℝ) (b : Fin c → ℝ) (x : Fin n → ℝ) (y : Fin c) : ℝ :=
  Real.exp (∑ j, x j * W j y + b y) / ∑ k, Real.exp (∑ j, x j * W j k + b k)

/-- Specification: the negative mean log-likelihood. -/
noncomputable def negLogLik (W : Fin n → Fin c → ℝ) (b : Fin c → ℝ) (X : Matrix (Fin m) (Fin n) ℝ) (y : Fin m → Fin c) : ℝ :=
  -(1 / (m : ℝ)) * ∑ i, Real.log (labelProb W b (X i) (y i))

theorem loss_eq_labelProb (W : Fin n → Fin (c + 1) → ℝ) (b : Fin (c + 1) → ℝ) (x : Fin n → ℝ) (y : Fin (c + 1)) :
    multiclassLogisticLoss y ((∑ j, x j • W j) + b) = -Real.log (labelProb W b x y) := by
  rw [multiclass_eq]
  unfold labelProb logsumexp
  have e : ∀ k, ((∑ j, x j • W j) + b) k = ∑ j, x j * W j k + b k := by
    intro k
    simp only [Pi.add_apply, Finset.sum_apply, Pi.smul_apply, smul_eq_mul]
  simp only [e]
  rw [Real.log_div (Real.exp_pos _).ne' (sumExp_pos fun k => ∑ j, x j * W j k + b k).ne', Real.log_exp]
  ring

/-- **C67**, values: the four multiclass objectives are the negative mean log-likelihood of the softmax model, without or with an
intercept, plus `l2reg/2` times the sum of squares of the weights; the intercept is not penalised. -/
theorem C67_values (hm : 1 ≤ m) (X : Matrix (Fin m) (Fin n) ℝ) (y : Fin m → Fin (c + 1)) (W : Fin n → Fin (c + 1) → ℝ)
    (b : Fin (c + 1) → ℝ) (l2reg : ℝ) :
    (multiclassLogreg X y).call (fun a b => ∑ k, a k * b k) W = negLogLik W 0 X y ∧
    multiclassLogregWithIntercept W b X y = negLogLik W b X y ∧
    l2MulticlassLogreg W l2reg X y = negLogLik W 0 X y + l2reg / 2 * ∑ j, ∑ k, W j k * W j k ∧
    l2MulticlassLogregWithIntercept W b l2reg X y = negLogLik W b X y + l2reg / 2 * ∑ j, ∑ k, W j k * W j k := by
  have h0 : ∀ b : Fin (c + 1) → ℝ, (∑ i, multiclassLogisticLoss (y i) (matvec X W i + b)) / (m : ℝ) = negLogLik W b X y := by
    intro b
    unfold negLogLik
    rw [neg_mul, ← mul_neg, ← Finset.sum_neg_distrib, div_eq_inv_mul, one_div]
    congr 1
    exact Finset.sum_congr rfl fun i _ => loss_eq_labelProb W b (X i) (y i)
  have h1 := h0 0
  simp only [add_zero] at h1
  have h2 : 1 / 2 * l2reg * sumSq W = l2reg / 2 * ∑ j, ∑ k, W j k * W j k := by
    unfold sumSq; simp only [sq]; ring
  refine ⟨h1, h0 b, ?_, ?_⟩
  · simp only [l2MulticlassLogreg]; rw [h1, h2]
  · simp only [l2MulticlassLogregWithIntercept]; rw [h0 b, h2]

/-- **C67**, value of the binary objective: the negative mean log-likelihood of the logistic model. -/
theorem C67_binary_value (hm : 1 ≤ m) (X : Matrix (Fin m) (Fin n) ℝ) (y : Fin m → Bool) (w : Fin n → ℝ) :
    (binaryLogreg X y).call (fun a b => a * b) w =
      -(1 / (m : ℝ)) * ∑ i, Real.log (if y i then expit (∑ j, X i j * w j) else 1 - expit (∑ j, X i j * w j)) := by
  simp only [binaryLogreg, Composite.call]
  rw [neg_mul, ← mul_neg, ← Finset.sum_neg_distrib, div_eq_inv_mul, one_div]
  congr 1
  refine Finset.sum_congr rfl fun i _ => ?_
  have e : matvec X w i = ∑ j, X i j * w j := rfl
  rw [e]
  generalize ∑ j, X i j * w j = s
  unfold binaryLogisticLoss softplus Jaxopt.Loss.flip
  have hs := Real.exp_pos s
  have hs' := Real.exp_pos (-s)
  cases y i with
  | true =>
    simp only [if_true]
    unfold expit
    rw [one_div, Real.log_inv, neg_neg, Real.exp_zero, add_comm]
  | false =>
    have h1 : 1 - expit s = (Real.exp s + Real.exp 0)⁻¹ := by
      rw [expit_eq, Real.exp_zero]; field_simp; ring
    simp only [Bool.false_eq_true, if_false]
    rw [h1, Real.log_inv, neg_neg]

/-! ## C67: strong convexity and uniqueness -/

theorem gap_of_strong {E : Type*} [AddCommGroup E] [Module ℝ E] {f q : E → ℝ} (hq : ∀ d, q (-d) = q d)
    (h : ∀ u, ∃ l : E → ℝ, (∀ d, l (-d) = -l d) ∧ ∀ v, f u + l (v - u) + q (v - u) ≤ f v) {u v : E} (hu : ∀ w, f u ≤ f w) (hv : ∀ w, f v ≤ f w) :
    q ((1 / 2 : ℝ) • (u - v)) ≤ 0 := by
  obtain ⟨l, hneg, hl⟩ := h (v + (1 / 2 : ℝ) • (u - v))
  have e1 : u - (v + (1 / 2 : ℝ) • (u - v)) = (1 / 2 : ℝ) • (u - v) := by module
  have e2 : v - (v + (1 / 2 : ℝ) • (u - v)) = -((1 / 2 : ℝ) • (u - v)) := by module
  have h1 := hl u
  have h2 := hl v
  rw [e1] at h1
  rw [e2, hneg, hq] at h2
  have h3 := hu (v + (1 / 2 : ℝ) • (u - v))
  have h4 := hv (v + (1 / 2 : ℝ) • (u - v))
  linarith

theorem sumSq_add (W D : Fin n → Fin c → ℝ) : sumSq (W + D) = sumSq W + 2 * ∑ j, ∑ k, D j k * W j k + sumSq D := by
  simp only [sumSq, Finset.mul_sum, ← Finset.sum_add_distrib, Pi.add_apply]
  exact Finset.sum_congr rfl fun j _ => Finset.sum_congr rfl fun k _ => by ring

theorem sumSq_pos {D : Fin n → Fin c → ℝ} (h : sumSq D ≤ 0) : D = 0 := by
  have h0 : ∀ j, 0 ≤ ∑ k, D j k ^ 2 := fun j => Finset.sum_nonneg fun k _ => sq_nonneg _
  have h1 : sumSq D = 0 := le_antisymm h (Finset.sum_nonneg fun j _ => h0 j)
  funext j k
  have h2 := (Finset.sum_eq_zero_iff_of_nonneg fun j _ => h0 j).1 h1 j (Finset.mem_univ j)
  have h3 := (Finset.sum_eq_zero_iff_of_nonneg fun k _ => sq_nonneg (D j k)).1 h2 k (Finset.mem_univ k)
  simpa using h3

/-- The objective with an intercept is the composite on the data with a column of ones appended. -/
theorem C67_intercept (X : Matrix (Fin m) (Fin n) ℝ) (y : Fin m → Fin (c + 1)) (W : Fin n → Fin (c + 1) → ℝ) (b : Fin (c + 1) → ℝ) :
    multiclassLogregWithIntercept W b X y =
      (multiclassLogreg (fun i => Fin.snoc (α := fun _ => ℝ) (X i) 1 : Matrix (Fin m) (Fin (n + 1)) ℝ) y).call
        (fun a b => ∑ k, a k * b k) (Fin.snoc (α := fun _ => Fin (c + 1) → ℝ) W b) := by
  simp only [multiclassLogregWithIntercept, multiclassLogreg, Composite.call]
  congr 1
  refine Finset.sum_congr rfl fun i _ => ?_
  congr 1
  simp only [matvec, Fin.sum_univ_castSucc, Fin.snoc_castSucc, Fin.snoc_last, one_smul]

/-- **C67**, strong convexity: the regularised objective lies above its tangent plus `l2reg/2` times the squared distance. -/
theorem C67_l2_strong (hm : 1 ≤ m) (X : Matrix (Fin m) (Fin n) ℝ) (y : Fin m → Fin (c + 1)) (l2reg : ℝ) (V U : Fin n → Fin (c + 1) → ℝ) :
    l2MulticlassLogreg V l2reg X y +
      ∑ j, ∑ k, (U j k - V j k) * ((multiclassLogreg X y).gradAt V j k + l2reg * V j k) +
      l2reg / 2 * ∑ j, ∑ k, (U j k - V j k) ^ 2 ≤ l2MulticlassLogreg U l2reg X y := by
  have h1 := C67_multiclass_convex hm X y V U
  have e : ∀ W : Fin n → Fin (c + 1) → ℝ, l2MulticlassLogreg W l2reg X y =
      (multiclassLogreg X y).call (fun a b => ∑ k, a k * b k) W + 1 / 2 * l2reg * sumSq W := fun W => rfl
  have h2 := sumSq_add V (U - V)
  rw [add_sub_cancel] at h2
  rw [e, e, h2]
  simp only [mul_add, Finset.sum_add_distrib, sumSq, Pi.sub_apply] at h1 ⊢
  have h3 : ∑ j, ∑ k, (U j k - V j k) * (l2reg * V j k) = l2reg * ∑ j, ∑ k, (U j k - V j k) * V j k := by
    simp only [Finset.mul_sum]
    exact Finset.sum_congr rfl fun j _ => Finset.sum_congr rfl fun k _ => by ring
  rw [h3]
  linarith

/-- **C67**, uniqueness: with a positive regularisation strength the regularised objective has at most one minimiser. -/
theorem C67_l2_unique (hm : 1 ≤ m) (X : Matrix (Fin m) (Fin n) ℝ) (y : Fin m → Fin (c + 1)) {l2reg : ℝ} (hl : 0 < l2reg)
    {V U : Fin n → Fin (c + 1) → ℝ} (hV : ∀ W, l2MulticlassLogreg V l2reg X y ≤ l2MulticlassLogreg W l2reg X y)
    (hU : ∀ W, l2MulticlassLogreg U l2reg X y ≤ l2MulticlassLogreg W l2reg X y) : V = U := by
  have h1 := gap_of_strong (f := fun W => l2MulticlassLogreg W l2reg X y) (q := fun D => l2reg / 2 * sumSq D)
    (fun D => by simp [sumSq]) (fun W => ⟨fun D => ∑ j, ∑ k, D j k * ((multiclassLogreg X y).gradAt W j k + l2reg * W j k),
      fun D => by simp only [Pi.neg_apply, neg_mul, Finset.sum_neg_distrib], fun W' => C67_l2_strong hm X y l2reg W W'⟩) hV hU
  have h2 : sumSq ((1 / 2 : ℝ) • (V - U)) ≤ 0 := by
    by_contra hc
    push Not at hc
    have := mul_pos (half_pos hl) hc
    linarith
  have h3 := sumSq_pos h2
  have h4 : V - U = 0 := by
    rcases smul_eq_zero.mp h3 with h | h
    · norm_num at h
    · exact h
  exact sub_eq_zero.mp h4

/-- **C67**, the intercept: with a positive regularisation strength all minimisers have the same weights. -/
theorem C67_l2_intercept_unique (hm : 1 ≤ m) (X : Matrix (Fin m) (Fin n) ℝ) (y : Fin m → Fin (c + 1)) {l2reg : ℝ} (hl : 0 < l2reg)
    {V U : Fin n → Fin (c + 1) → ℝ} {a b : Fin (c + 1) → ℝ}
    (hV : ∀ W d, l2MulticlassLogregWithIntercept V a l2reg X y ≤ l2MulticlassLogregWithIntercept W d l2reg X y)
    (hU : ∀ W d, l2MulticlassLogregWithIntercept U b l2reg X y ≤ l2MulticlassLogregWithIntercept W d l2reg X y) : V = U := by
  let X1 : Matrix (Fin m) (Fin (n + 1)) ℝ := fun i => Fin.snoc (α := fun _ => ℝ) (X i) 1
  let sn : (Fin n → Fin (c + 1) → ℝ) × (Fin (c + 1) → ℝ) → Fin (n + 1) → Fin (c + 1) → ℝ :=
    fun p => Fin.snoc (α := fun _ => Fin (c + 1) → ℝ) p.1 p.2
  have e : ∀ p : (Fin n → Fin (c + 1) → ℝ) × (Fin (c + 1) → ℝ), l2MulticlassLogregWithIntercept p.1 p.2 l2reg X y =
      (multiclassLogreg X1 y).call (fun a b => ∑ k, a k * b k) (sn p) + 1 / 2 * l2reg * sumSq p.1 := by
    intro p
    have := C67_intercept X y p.1 p.2
    rw [← this]; rfl
  have h1 := gap_of_strong (u := (V, a)) (v := (U, b)) (f := fun p => l2MulticlassLogregWithIntercept p.1 p.2 l2reg X y)
    (q := fun D => l2reg / 2 * sumSq D.1) (fun D => by simp [sumSq]) (fun p => ⟨
      fun D => ∑ j, ∑ k, sn D j k * (multiclassLogreg X1 y).gradAt (sn p) j k + l2reg * ∑ j, ∑ k, D.1 j k * p.1 j k,
      fun D => by
        have hs : ∀ j k, sn (-D) j k = -sn D j k := by
          intro j k
          refine Fin.lastCases ?_ (fun j => ?_) j <;> simp [sn]
        simp only [hs, Prod.fst_neg, Pi.neg_apply, neg_mul, Finset.sum_neg_distrib, mul_neg, neg_add],
      fun p' => by
        have h1 := C67_multiclass_convex hm X1 y (sn p) (sn p')
        have h2 := sumSq_add p.1 (p'.1 - p.1)
        rw [add_sub_cancel] at h2
        have h3 : ∀ j k, sn (p' - p) j k = (sn p' j - sn p j) k := by
          intro j k
          refine Fin.lastCases ?_ (fun j => ?_) j <;> simp [sn]
        rw [e, e, h2]
        simp only [h3, Prod.fst_sub]
        linarith⟩) (fun w => hV w.1 w.2) (fun w => hU w.1 w.2)
  have h2 : sumSq ((1 / 2 : ℝ) • (V - U)) ≤ 0 := by
    by_contra hc
    push Not at hc
    have := mul_pos (half_pos hl) hc
    have h1' : l2reg / 2 * sumSq ((1 / 2 : ℝ) • (V - U)) ≤ 0 := h1
    linarith
  have h3 := sumSq_pos h2
  rcases smul_eq_zero.mp h3 with h | h
  · norm_num at h
  · exact sub_eq_zero.mp h

/-- **C67**, the intercept is only determined up to a common shift of all classes, so minimisers with an intercept are never unique. -/
theorem C67_intercept_shift (hm : 1 ≤ m) (X : Matrix (Fin m) (Fin n) ℝ) (y : Fin m → Fin (c + 1)) (W : Fin n → Fin (c + 1) → ℝ)
    (b : Fin (c + 1) → ℝ) (l2reg t : ℝ) :
    l2MulticlassLogregWithIntercept W (fun k => b k + t) l2reg X y = l2MulticlassLogregWithIntercept W b l2reg X y := by
  simp only [l2MulticlassLogregWithIntercept]
  congr 2
  refine Finset.sum_congr rfl fun i _ => ?_
  rw [multiclass_eq, multiclass_eq]
  unfold logsumexp
  simp only [Pi.add_apply, ← add_assoc, Real.exp_add _ t, ← Finset.sum_mul]
  rw [Real.log_mul (sumExp_pos fun k => matvec X W i k + b k).ne' (Real.exp_pos t).ne', Real.log_exp]
  ring

theorem leastSquares_sandwich (X : Matrix (Fin m) (Fin n) ℝ) (y : Fin m → ℝ) :
    Sandwich (fun a b => a * b) (leastSquares (fun a b => a * b) 1 X y) (1 / ((m * 1 : ℕ) : ℝ)) := by
  intro p d
  have h := leastSquares_quadratic (K := ℝ) IsVdot.mul 1 X y p d
  have h0 : 0 ≤ 1 / ((m * 1 : ℕ) : ℝ) / 2 * ∑ i, d i * d i :=
    mul_nonneg (by positivity) (Finset.sum_nonneg fun i _ => mul_self_nonneg _)
  exact ⟨by linarith, h.le⟩

/-- **C67**, ridge regression: its value, and that it lies above its tangent plus `l2reg/2` times the squared distance. -/
theorem C67_ridge (hm : 1 ≤ m) (X : Matrix (Fin m) (Fin n) ℝ) (y : Fin m → ℝ) (l2reg : ℝ) (v u : Fin n → ℝ) :
    ridgeRegression v l2reg X y = 1 / (2 * (m : ℝ)) * ∑ i, (∑ j, X i j * v j - y i) ^ 2 + l2reg / 2 * ∑ j, v j ^ 2 ∧
    ridgeRegression v l2reg X y +
      ∑ j, (u j - v j) * (1 / (m : ℝ) * ∑ i, X i j * (∑ k, X i k * v k - y i) + l2reg * v j) +
      l2reg / 2 * ∑ j, (u j - v j) ^ 2 ≤ ridgeRegression u l2reg X y := by
  have hm' : (m : ℝ) ≠ 0 := by
    have : (1 : ℝ) ≤ m := by exact_mod_cast hm
    linarith
  constructor
  · simp only [ridgeRegression, leastSquares, Composite.call, matvec, smul_eq_mul, mul_one, ← sq]
    field_simp
  · have h1 := (leastSquares_sandwich X y).tangent IsVdot.mul v u
    have hg : ∀ j, (leastSquares (fun a b => a * b) 1 X y).gradAt v j = 1 / (m : ℝ) * ∑ i, X i j * (∑ k, X i k * v k - y i) := by
      intro j
      simp only [leastSquares, Composite.gradAt, rmatvecElement, matvec, smul_eq_mul, mul_one, Option.getD_none, Pi.zero_apply, add_zero,
        Finset.mul_sum]
      exact Finset.sum_congr rfl fun i _ => by ring
    have e : ∀ w : Fin n → ℝ, ridgeRegression w l2reg X y =
      (leastSquares (fun a b => a * b) 1 X y).call (fun a b => a * b) w + 1 / 2 * l2reg * ∑ j, w j ^ 2 := fun w => rfl
    have h2 : ∑ j, u j ^ 2 = ∑ j, v j ^ 2 + 2 * ∑ j, (u j - v j) * v j + ∑ j, (u j - v j) ^ 2 := by
      simp only [Finset.mul_sum, ← Finset.sum_add_distrib]
      exact Finset.sum_congr rfl fun j _ => by ring
    have h3 : ∑ j, (u j - v j) * (l2reg * v j) = l2reg * ∑ j, (u j - v j) * v j := by
      rw [Finset.mul_sum]; exact Finset.sum_congr rfl fun j _ => by ring
    rw [e, e, h2]
    simp only [← hg, mul_add, Finset.sum_add_distrib, h3]
    linarith

/-- **C67**, ridge regression: with a positive regularisation strength there is at most one minimiser. -/
theorem C67_ridge_unique (hm : 1 ≤ m) (X : Matrix (Fin m) (Fin n) ℝ) (y : Fin m → ℝ) {l2reg : ℝ} (hl : 0 < l2reg) {v u : Fin n → ℝ}
    (hv : ∀ w, ridgeRegression v l2reg X y ≤ ridgeRegression w l2reg X y)
    (hu : ∀ w, ridgeRegression u l2reg X y ≤ ridgeRegression w l2reg X y) : v = u := by
  have h1 := gap_of_strong (f := fun w => ridgeRegression w l2reg X y) (q := fun d => l2reg / 2 * ∑ j, d j ^ 2)
    (fun d => by simp) (fun w => ⟨fun d => ∑ j, d j * (1 / (m : ℝ) * ∑ i, X i j * (∑ k, X i k * w k - y i) + l2reg * w j),
      fun d => by simp only [Pi.neg_apply, neg_mul, Finset.sum_neg_distrib], fun w' => (C67_ridge hm X y l2reg w w').2⟩) hv hu
  have h2 : ∑ j, ((1 / 2 : ℝ) • (v - u)) j ^ 2 ≤ 0 := by
    by_contra hc
    push Not at hc
    have := mul_pos (half_pos hl) hc
    linarith
  funext j
  have h3 := (Finset.sum_eq_zero_iff_of_nonneg fun k _ => sq_nonneg _).1
    (le_antisymm h2 (Finset.sum_nonneg fun k _ => sq_nonneg _)) j (Finset.mem_univ j)
  have h4 : (1 / 2 : ℝ) * (v j - u j) = 0 := by simpa using h3
  linarith

/-! ## Examples -/

/-- Two samples, two features, two classes: the objective at the zero weights is `log 2`. -/
example : (multiclassLogreg !![1, 2; -1, (3 : ℝ)] ![(0 : Fin 2), 1]).call (fun a b => ∑ k, a k * b k) (fun _ _ => 0) = Real.log 2 := by
  rw [(C67_values (m := 2) (n := 2) (c := 1) (by norm_num) _ _ _ 0 0).1]
  simp [negLogLik, labelProb]

/-- One sample with feature `2`: the declared constants are `1` (binary) and `2` (two classes), and no smaller ones are valid. -/
example : (binaryLogreg !![(2 : ℝ)] ![true]).lipschitz 0 = 1 ∧ (multiclassLogreg !![(2 : ℝ)] fun _ => (0 : Fin 2)).lipschitz 0 = 2 := by
  constructor <;> simp [binaryLogreg, multiclassLogreg, columnSqNorms] <;> norm_num

example (L : Fin 1 → ℝ) (h : CoordUpper (fun a b => a * b) (binaryLogreg !![(2 : ℝ)] ![true]) L) : 1 ≤ L 0 := by
  have := C67_binary_tight _ _ h 0
  simp [binaryLogreg, columnSqNorms] at this
  linarith

/-- Ridge regression of one sample `x = 1`, `y = 3` with `l2reg = 2`: the value `(1 - 3)²/2 + 1 = 3` at `1`, which is the minimiser. -/
example : ridgeRegression ![(1 : ℝ)] 2 !![(1 : ℝ)] ![3] = 3 ∧
    ∀ u, ridgeRegression ![(1 : ℝ)] 2 !![(1 : ℝ)] ![3] ≤ ridgeRegression u 2 !![(1 : ℝ)] ![3] := by
  constructor
  · rw [(C67_ridge (by norm_num) _ _ _ _ 0).1]
    simp; norm_num
  · intro u
    have := (C67_ridge (m := 1) (n := 1) (by norm_num) !![(1 : ℝ)] ![3] 2 ![1] u).2
    simp at this
    nlinarith [sq_nonneg (u 0 - 1)]

end Jaxopt.BlockCD
