import Verif.Loss.Float
import Verif.Proj.FloatProps
import Mathlib.Tactic.NormNum

/-!
# C130: the losses in floating-point arithmetic
-/

set_option autoImplicit false
set_option linter.unusedSectionVars false
set_option linter.unusedVariables false

namespace Jaxopt.Loss

open Jaxopt.Proj

variable {K : Type*} [Field K] [LinearOrder K] [IsStrictOrderedRing K]

/-! ## Specification -/

/-- Rounding to nearest in a binary format: the standard model, symmetric, one is a number of the format, and halving is exact. -/
structure BinRound (rnd : K → K) (u : K) : Prop extends StdRound rnd u where
  one : rnd 1 = 1
  neg : ∀ a, rnd (-a) = -rnd a
  half : ∀ a, rnd (1 / 2 * a) = 1 / 2 * rnd a

/-- What is asked of the elementary functions of the backend. -/
structure Elem.Sane (f : Elem K) (rnd : K → K) : Prop where
  exp_repr : ∀ x, rnd (f.exp x) = f.exp x
  exp_zero : f.exp 0 = 1
  exp_nonneg : ∀ x, 0 ≤ f.exp x
  exp_le_one : ∀ x, x ≤ 0 → f.exp x ≤ 1
  log_nonneg : ∀ x, 1 ≤ x → 0 ≤ f.log x
  log_mono : ∀ x y, 1 ≤ x → x ≤ y → f.log x ≤ f.log y
  log1p_nonneg : ∀ x, 0 ≤ x → 0 ≤ f.log1p x
  log1p_mono : ∀ x y, 0 ≤ x → x ≤ y → f.log1p x ≤ f.log1p y

/-! ## Rounding -/

variable {rnd : K → K} {u : K}

theorem rnd_nonneg (hS : StdRound rnd u) {a : K} (h : 0 ≤ a) : 0 ≤ rnd a := by
  have := hS.mono 0 a h
  rwa [hS.zero] at this

theorem rnd_eq_zero (hS : StdRound rnd u) {a : K} : rnd a = 0 ↔ a = 0 := by
  refine ⟨fun h => ?_, fun h => by rw [h, hS.zero]⟩
  have h1 := hS.err a
  rw [h, zero_sub, abs_neg] at h1
  by_contra hne
  have h2 := abs_pos.mpr hne
  nlinarith [hS.lt_one]

theorem BinRound.abs (hS : BinRound rnd u) (a : K) : |rnd a| = rnd |a| := by
  rcases le_total 0 a with h | h
  · rw [abs_of_nonneg h, abs_of_nonneg (rnd_nonneg hS.toStdRound h)]
  · have := rnd_nonneg hS.toStdRound (neg_nonneg.mpr h)
    rw [abs_of_nonpos h, hS.neg]
    rw [hS.neg] at this
    exact abs_of_nonpos (by linarith)

theorem BinRound.two (hS : BinRound rnd u) : rnd 2 = 2 := by
  have h := hS.half 2
  rw [show (1 : K) / 2 * 2 = 1 by norm_num, hS.one] at h
  linarith

theorem BinRound.four (hS : BinRound rnd u) : rnd 4 = 4 := by
  have h := hS.half 4
  rw [show (1 : K) / 2 * 4 = 2 by norm_num, hS.two] at h
  linarith

/-- A sum of non-negative numbers is at least each of them. -/
theorem Sums.ge (hS : StdRound rnd u) {l : List K} {s : K} (h : Sums rnd l s) (hl : ∀ a ∈ l, 0 ≤ a ∧ rnd a = a) :
    rnd s = s ∧ 0 ≤ s ∧ ∀ a ∈ l, a ≤ s := by
  induction h with
  | one a =>
    obtain ⟨h1, h2⟩ := hl a (by simp)
    exact ⟨h2, h1, fun b hb => by rw [List.mem_singleton] at hb; rw [hb]⟩
  | @add l1 l2 s1 s2 h1 h2 ih1 ih2 =>
    obtain ⟨r1, p1, g1⟩ := ih1 fun a ha => hl a (List.mem_append_left _ ha)
    obtain ⟨r2, p2, g2⟩ := ih2 fun a ha => hl a (List.mem_append_right _ ha)
    refine ⟨hS.idem _, rnd_nonneg hS (add_nonneg p1 p2), fun a ha => ?_⟩
    rcases List.mem_append.mp ha with ha | ha
    · refine (g1 a ha).trans ?_
      calc s1 = rnd s1 := r1.symm
        _ ≤ _ := hS.mono _ _ (by linarith)
    · refine (g2 a ha).trans ?_
      calc s2 = rnd s2 := r2.symm
        _ ≤ _ := hS.mono _ _ (by linarith)

/-- A sum of numbers that are at most one is at most their number. -/
theorem Sums.le_length (hS : StdRound rnd u) {l : List K} {s : K} (h : Sums rnd l s) (hl : ∀ a ∈ l, a ≤ 1)
    (hn : ∀ k : ℕ, k ≤ l.length → rnd (k : K) = k) : s ≤ l.length := by
  induction h with
  | one a => simpa using hl a (by simp)
  | @add l1 l2 s1 s2 h1 h2 ih1 ih2 =>
    have g1 := ih1 (fun a ha => hl a (List.mem_append_left _ ha)) fun k hk => hn k (by rw [List.length_append]; omega)
    have g2 := ih2 (fun a ha => hl a (List.mem_append_right _ ha)) fun k hk => hn k (by rw [List.length_append]; omega)
    rw [← hn _ le_rfl]
    refine hS.mono _ _ ?_
    rw [List.length_append]
    push_cast
    linarith

theorem filter_sum {l : List K} (h : (l.filter fun a => decide (a ≠ 0)).length ≤ 1) : l.sum = 0 ∨ l.sum ∈ l := by
  induction l with
  | nil => left; rfl
  | cons a l ih =>
    by_cases ha : a = 0
    · subst ha
      rw [List.filter_cons_of_neg (by simp)] at h
      rw [List.sum_cons, zero_add]
      rcases ih h with e | e
      · exact Or.inl e
      · exact Or.inr (List.mem_cons_of_mem _ e)
    · rw [List.filter_cons_of_pos (by simpa using ha), List.length_cons] at h
      have h0 : l.filter (fun a => decide (a ≠ 0)) = [] := List.length_eq_zero_iff.mp (by omega)
      have hz : ∀ b ∈ l, b = 0 := fun b hb => by
        by_contra hne
        have : b ∈ l.filter (fun a => decide (a ≠ 0)) := List.mem_filter.mpr ⟨hb, by simpa using hne⟩
        rw [h0] at this
        exact absurd this (by simp)
      right
      rw [List.sum_cons, List.sum_eq_zero hz, add_zero]
      exact List.mem_cons_self

/-- A sum with at most one non-zero term is exact. -/
theorem Sums.exact (hS : StdRound rnd u) {l : List K} {s : K} (h : Sums rnd l s) (hr : ∀ a ∈ l, rnd a = a)
    (hl : (l.filter fun a => decide (a ≠ 0)).length ≤ 1) : s = l.sum := by
  induction h with
  | one a => simp
  | @add l1 l2 s1 s2 h1 h2 ih1 ih2 =>
    have hl' := hl
    rw [List.filter_append, List.length_append] at hl'
    have g1 := ih1 (fun a ha => hr a (List.mem_append_left _ ha)) (by omega)
    have g2 := ih2 (fun a ha => hr a (List.mem_append_right _ ha)) (by omega)
    rw [g1, g2, ← List.sum_append]
    rcases filter_sum hl with e | e
    · rw [e, hS.zero]
    · exact hr _ e

theorem oneHot_filter {n : ℕ} (label : Fin n) (s : Fin n → K) :
    ((List.ofFn fun j => s j * oneHot label j).filter fun a => decide (a ≠ 0)).length ≤ 1 := by
  rw [List.ofFn_eq_map, List.filter_map, List.length_map]
  have : ((List.finRange n).filter ((fun a => decide (a ≠ 0)) ∘ fun j => s j * oneHot label j)).length ≤ ((List.finRange n).filter fun j => decide (j = label)).length := by
    refine List.Sublist.length_le (List.monotone_filter_right _ fun j hj => ?_)
    simp only [Function.comp, decide_eq_true_eq] at hj ⊢
    by_contra hne
    exact hj (by simp [oneHot, hne])
  refine this.trans ?_
  have h2 := List.nodup_iff_count_le_one.mp (List.nodup_finRange n) label
  rw [List.count_eq_length_filter] at h2
  exact h2

/-- The dot product with a one-hot vector is exact. -/
theorem dotR_oneHot (hS : StdRound rnd u) {n : ℕ} {label : Fin n} {s : Fin n → K} (hs : ∀ j, rnd (s j) = s j) {d : K}
    (hd : Sums rnd (dotTerms rnd s (oneHot label)) d) : d = s label := by
  have e : (dotTerms rnd s (oneHot label) : List K) = List.ofFn fun j => s j * oneHot label j := by
    unfold dotTerms
    congr 1
    funext j
    by_cases h : j = label <;> simp [oneHot, h, hs, hS.zero]
  rw [e] at hd
  rw [Sums.exact hS hd ?_ (oneHot_filter label s), List.sum_ofFn]
  · simp [oneHot]
  · intro a ha
    rw [List.mem_ofFn] at ha
    obtain ⟨j, rfl⟩ := ha
    by_cases h : j = label <;> simp [oneHot, h, hs, hS.zero]

theorem vmax_ge {n : ℕ} (s : Fin (n + 1) → K) (j : Fin (n + 1)) : s j ≤ vmax s := Finset.le_sup' s (Finset.mem_univ j)

theorem vmax_mem {n : ℕ} (s : Fin (n + 1) → K) : ∃ j, vmax s = s j := by
  obtain ⟨j, _, h⟩ := Finset.exists_mem_eq_sup' Finset.univ_nonempty s
  exact ⟨j, h⟩

/-! ## Huber loss -/

/-- The Huber loss as a function of the rounded residual. -/
theorem huber_mono (hS : BinRound rnd u) {delta a b : K} (hd : 0 ≤ delta) (hdr : rnd delta = delta) (ha : 0 ≤ a) (hab : a ≤ b) :
    (if a > delta then rnd (delta * rnd (a - rnd (1 / 2 * delta))) else rnd (1 / 2 * rnd (a * a))) ≤
      (if b > delta then rnd (delta * rnd (b - rnd (1 / 2 * delta))) else rnd (1 / 2 * rnd (b * b))) := by
  by_cases h1 : a > delta
  · rw [if_pos h1, if_pos (lt_of_lt_of_le h1 hab)]
    exact hS.mono _ _ (mul_le_mul_of_nonneg_left (hS.mono _ _ (by linarith)) hd)
  · rw [if_neg h1]
    push Not at h1
    by_cases h2 : b > delta
    · rw [if_pos h2]
      have e : rnd (1 / 2 * delta) = 1 / 2 * delta := by rw [hS.half, hdr]
      have l1 : rnd (1 / 2 * rnd (a * a)) ≤ 1 / 2 * rnd (delta * delta) := by
        rw [hS.half, hS.idem]
        exact mul_le_mul_of_nonneg_left (hS.mono _ _ (mul_le_mul h1 h1 ha hd)) (by norm_num)
      have l2 : 1 / 2 * delta ≤ rnd (b - rnd (1 / 2 * delta)) := by
        rw [e]
        calc 1 / 2 * delta = rnd (1 / 2 * delta) := e.symm
          _ ≤ _ := hS.mono _ _ (by linarith)
      refine l1.trans ?_
      rw [← hS.half]
      refine hS.mono _ _ ?_
      calc 1 / 2 * (delta * delta) = delta * (1 / 2 * delta) := by ring
        _ ≤ _ := mul_le_mul_of_nonneg_left l2 hd
    · rw [if_neg h2]
      exact hS.mono _ _ (mul_le_mul_of_nonneg_left (hS.mono _ _ (mul_le_mul hab hab ha (ha.trans hab))) (by norm_num))

/-- C130.  In floating-point arithmetic the Huber loss is non-negative, zero when the prediction is exact, and does not decrease when the
residual grows, also across the change of branch. -/
theorem C130_huber (hS : BinRound rnd u) {delta : K} (hd : 0 ≤ delta) (hdr : rnd delta = delta) (t p t' p' : K) :
    0 ≤ huberLossR rnd t p delta ∧ huberLossR rnd t t delta = 0 ∧
      (|t - p| ≤ |t' - p'| → huberLossR rnd t p delta ≤ huberLossR rnd t' p' delta) := by
  have hz : huberLossR rnd t t delta = 0 := by
    unfold huberLossR
    simp only [sub_self, hS.zero, abs_zero]
    rw [if_neg (not_lt.mpr hd)]
    simp [hS.zero]
  refine ⟨?_, hz, fun h => huber_mono hS hd hdr (abs_nonneg _) (by rw [hS.abs, hS.abs]; exact hS.mono _ _ h)⟩
  have h := huber_mono hS hd hdr le_rfl (abs_nonneg (rnd (t - p)))
  rw [if_neg (not_lt.mpr hd)] at h
  simp only [mul_zero, hS.zero] at h
  exact h

/-! ## Binary losses -/

theorem sparsePlus_mid (hS : BinRound rnd u) {x : K} (h1 : -1 ≤ x) (h2 : x ≤ 1) :
    0 ≤ rnd (x + 1) ∧ rnd (x + 1) ≤ 2 ∧ 0 ≤ rnd (rnd (rnd (x + 1) * rnd (x + 1)) / 4) ∧ rnd (rnd (rnd (x + 1) * rnd (x + 1)) / 4) ≤ 1 := by
  have a1 : 0 ≤ rnd (x + 1) := rnd_nonneg hS.toStdRound (by linarith)
  have a2 : rnd (x + 1) ≤ 2 := by rw [← hS.two]; exact hS.mono _ _ (by linarith)
  have b1 : 0 ≤ rnd (rnd (x + 1) * rnd (x + 1)) := rnd_nonneg hS.toStdRound (mul_nonneg a1 a1)
  have b2 : rnd (rnd (x + 1) * rnd (x + 1)) ≤ 4 := by rw [← hS.four]; exact hS.mono _ _ (by nlinarith)
  exact ⟨a1, a2, rnd_nonneg hS.toStdRound (by positivity), (hS.mono _ 1 (by linarith)).trans hS.one.le⟩

/-- C130.  In floating-point arithmetic `sparse_plus` is non-negative and does not decrease, also where it changes branch. -/
theorem C130_sparse_plus (hS : BinRound rnd u) (x y : K) : 0 ≤ sparsePlusR rnd x ∧ (x ≤ y → sparsePlusR rnd x ≤ sparsePlusR rnd y) := by
  have hn : ∀ z, 0 ≤ sparsePlusR rnd z := fun z => by
    unfold sparsePlusR
    by_cases h1 : z ≤ -1
    · rw [if_pos h1]
    · rw [if_neg h1]
      push Not at h1
      by_cases h2 : z ≥ 1
      · rw [if_pos h2]; linarith
      · rw [if_neg h2]
        push Not at h2
        exact (sparsePlus_mid hS h1.le h2.le).2.2.1
  refine ⟨hn x, fun h => ?_⟩
  by_cases h1 : x ≤ -1
  · rw [show sparsePlusR rnd x = 0 from if_pos h1]; exact hn y
  · have h1' := h1
    push Not at h1
    by_cases h2 : x ≥ 1
    · unfold sparsePlusR
      rw [if_neg h1', if_pos h2, if_neg (by linarith), if_pos (by linarith)]
      exact h
    · have h2' := h2
      push Not at h2
      unfold sparsePlusR
      rw [if_neg h1', if_neg h2', if_neg (by linarith)]
      obtain ⟨a1, a2, b1, b2⟩ := sparsePlus_mid hS h1.le h2.le
      by_cases h3 : y ≥ 1
      · rw [if_pos h3]; linarith
      · rw [if_neg h3]
        have e := hS.mono (x + 1) (y + 1) (by linarith)
        refine hS.mono _ _ (div_le_div_of_nonneg_right (hS.mono _ _ (mul_le_mul e e a1 (a1.trans e))) (by norm_num))

/-- C130.  In floating-point arithmetic `sparse_sigmoid` is between zero and one and does not decrease. -/
theorem C130_sparse_sigmoid (hS : BinRound rnd u) (x y : K) :
    0 ≤ sparseSigmoidR rnd x ∧ sparseSigmoidR rnd x ≤ 1 ∧ (x ≤ y → sparseSigmoidR rnd x ≤ sparseSigmoidR rnd y) := by
  have key : ∀ z, 0 ≤ projectionHypercube (fun _ : Unit => z) 2 () ∧ projectionHypercube (fun _ : Unit => z) (2 : K) () ≤ 2 := fun z => by
    simp [projectionHypercube, projectionBox, clip]
  have mono : ∀ z w : K, z ≤ w → projectionHypercube (fun _ : Unit => z) 2 () ≤ projectionHypercube (fun _ : Unit => w) 2 () := fun z w h => by
    simp only [projectionHypercube, projectionBox, clip]
    exact min_le_min (max_le_max h le_rfl) le_rfl
  refine ⟨rnd_nonneg hS.toStdRound (mul_nonneg (by norm_num) (key _).1), ?_, fun h => ?_⟩
  · refine (hS.mono _ 1 ?_).trans hS.one.le
    have := (key (rnd (x + 1))).2
    linarith
  · exact hS.mono _ _ (mul_le_mul_of_nonneg_left (mono _ _ (hS.mono _ _ (by linarith))) (by norm_num))

/-- The signed score of an example. -/
theorem mulR_signedLabel (label : Bool) (s : K) : s * signedLabel label = if label then s else -s := by
  cases label <;> simp [signedLabel] <;> ring

/-- C130.  In floating-point arithmetic the binary hinge loss of a score of the format is non-negative, zero exactly when the margin is at
least one, and does not increase with the margin; the perceptron loss is exact. -/
theorem C130_binary (hS : BinRound rnd u) (label : Bool) {s s' : K} (hs : rnd s = s) (hs' : rnd s' = s') :
    0 ≤ binaryHingeLossR rnd label s ∧
      (binaryHingeLossR rnd label s = 0 ↔ 1 ≤ if label then s else -s) ∧
      ((if label then s else -s) ≤ (if label then s' else -s') → binaryHingeLossR rnd label s' ≤ binaryHingeLossR rnd label s) ∧
      binaryPerceptronLossR rnd label s = binaryPerceptronLoss label s := by
  have e : ∀ {t : K}, rnd t = t → rnd (t * signedLabel label) = if label then t else -t := fun ht => by
    rw [mulR_signedLabel]; cases label <;> simp [hS.neg, ht]
  refine ⟨le_max_left _ _, ?_, fun h => ?_, ?_⟩
  · unfold binaryHingeLossR
    rw [e hs]
    generalize (if label then s else -s) = m
    rw [max_eq_left_iff]
    constructor
    · intro h
      by_contra hlt
      push Not at hlt
      have h1 := rnd_nonneg hS.toStdRound (a := 1 - m) (by linarith)
      have h2 := (rnd_eq_zero hS.toStdRound).mp (le_antisymm h h1)
      linarith
    · intro h
      have := hS.mono (1 - m) 0 (by linarith)
      rwa [hS.zero] at this
  · unfold binaryHingeLossR
    rw [e hs, e hs']
    exact max_le_max le_rfl (hS.mono _ _ (by linarith))
  · unfold binaryPerceptronLossR binaryPerceptronLoss
    congr 1
    rw [mulR_signedLabel]
    cases label <;> simp [hS.neg, hs]

/-- C130.  In floating-point arithmetic the binary sparsemax loss is non-negative, does not increase when the logit moves to the side of the
label, is zero from the margin one on and is the size of the logit on the wrong side of `-1`. -/
theorem C130_binary_sparsemax (hS : BinRound rnd u) (x y : K) (hxy : x ≤ y) :
    (∀ label, 0 ≤ binarySparsemaxLossR rnd label x) ∧
      binarySparsemaxLossR rnd true y ≤ binarySparsemaxLossR rnd true x ∧ binarySparsemaxLossR rnd false x ≤ binarySparsemaxLossR rnd false y ∧
      (1 ≤ x → binarySparsemaxLossR rnd true x = 0 ∧ binarySparsemaxLossR rnd false x = x) ∧
      (x ≤ -1 → binarySparsemaxLossR rnd false x = 0 ∧ binarySparsemaxLossR rnd true x = -x) := by
  refine ⟨fun label => (C130_sparse_plus hS _ 0).1, (C130_sparse_plus hS (-y) (-x)).2 (neg_le_neg hxy), (C130_sparse_plus hS x y).2 hxy,
    fun h => ⟨?_, ?_⟩, fun h => ⟨?_, ?_⟩⟩
  · have h1 : -x ≤ -1 := neg_le_neg h
    simp [binarySparsemaxLossR, flip, sparsePlusR, h]
  · have h1 : ¬ x ≤ -1 := by push Not; linarith
    simp [binarySparsemaxLossR, flip, sparsePlusR, h, h1]
  · simp [binarySparsemaxLossR, flip, sparsePlusR, h]
  · have h1 : ¬ -x ≤ -1 := by push Not; linarith
    have h2 : 1 ≤ -x := by linarith
    have h3 : ¬ 1 ≤ x := by push Not; linarith
    simp [binarySparsemaxLossR, flip, sparsePlusR, h2, h3]

/-- C130.  In floating-point arithmetic the binary logistic loss is at least the positive part of the (signed) logit and exceeds it by at
most the computed `log1p(1)`. -/
theorem C130_logistic (hS : BinRound rnd u) {f : Elem K} (hf : f.Sane rnd) (label : Bool) {x : K} (hx : rnd x = x) :
    max (flip label x) 0 ≤ binaryLogisticLossR f rnd label x ∧ binaryLogisticLossR f rnd label x ≤ rnd (max (flip label x) 0 + f.log1p 1) := by
  have hfx : rnd (flip label x) = flip label x := by cases label <;> simp [flip, hS.neg, hx]
  have hm : rnd (max (flip label x) 0) = max (flip label x) 0 := by
    rcases max_choice (flip label x) 0 with h | h <;> rw [h]
    · exact hfx
    · exact hS.zero
  have h1 := hf.exp_nonneg (-|rnd (flip label x - 0)|)
  have h2 := hf.exp_le_one (-|rnd (flip label x - 0)|) (neg_nonpos.mpr (abs_nonneg _))
  constructor
  · unfold binaryLogisticLossR softplusR
    calc max (flip label x) 0 = rnd (max (flip label x) 0) := hm.symm
      _ ≤ _ := hS.mono _ _ (by have := hf.log1p_nonneg _ h1; linarith)
  · exact hS.mono _ _ (by have := hf.log1p_mono _ _ h1 h2; linarith)

/-! ## Multiclass losses -/

/-- The sum of `logsumexp` is between one and the number of terms. -/
theorem expTerms_sum (hS : BinRound rnd u) {f : Elem K} (hf : f.Sane rnd) {n : ℕ} (a : Fin (n + 1) → K) {d : K}
    (hd : Sums rnd (expTerms f rnd a) d) :
    1 ≤ d ∧ ((∀ k : ℕ, k ≤ n + 1 → rnd (k : K) = k) → d ≤ (n : K) + 1) := by
  constructor
  · obtain ⟨_, _, h⟩ := Sums.ge hS.toStdRound hd fun b hb => by
      rw [expTerms, List.mem_ofFn] at hb
      obtain ⟨j, rfl⟩ := hb
      exact ⟨hf.exp_nonneg _, hf.exp_repr _⟩
    obtain ⟨j, hj⟩ := vmax_mem a
    refine h 1 ?_
    rw [expTerms, List.mem_ofFn]
    exact ⟨j, by rw [hj, sub_self, hS.zero, hf.exp_zero]⟩
  · intro hk
    have hlen : (expTerms f rnd a).length = n + 1 := by simp [expTerms]
    have := Sums.le_length hS.toStdRound hd (fun b hb => by
      rw [expTerms, List.mem_ofFn] at hb
      obtain ⟨j, rfl⟩ := hb
      refine hf.exp_le_one _ ?_
      have := hS.mono (a j - vmax a) 0 (by linarith [vmax_ge a j])
      rwa [hS.zero] at this) (by rw [hlen]; exact hk)
    rw [hlen] at this
    push_cast at this
    exact this

/-- C130.  In floating-point arithmetic, for every order of the additions, the multiclass logistic loss is non-negative, at least every
computed difference between the score of another class and the score of the label, and exceeds the largest by at most the computed logarithm
of the number of classes. -/
theorem C130_multiclass_logistic (hS : BinRound rnd u) {f : Elem K} (hf : f.Sane rnd) {n : ℕ} (label : Fin (n + 1)) (s : Fin (n + 1) → K) {d : K}
    (hd : Sums rnd (expTerms f rnd (centeredR rnd label s)) d) :
    0 ≤ multiclassLogisticLossR f rnd label s d ∧
      (∀ j, rnd (s j - s label) ≤ multiclassLogisticLossR f rnd label s d) ∧
      ((∀ k : ℕ, k ≤ n + 1 → rnd (k : K) = k) →
        ∃ j, multiclassLogisticLossR f rnd label s d ≤ rnd (f.log ((n : K) + 1) + rnd (s j - s label))) := by
  have hc : ∀ j, centeredR rnd label s j = rnd (s j - s label) := fun j => by
    unfold centeredR
    by_cases h : j = label
    · subst h; rw [Function.update_self, sub_self, hS.zero]
    · rw [Function.update_of_ne h]
  obtain ⟨h1, h2⟩ := expTerms_sum hS hf _ hd
  have hl := hf.log_nonneg d h1
  have hge : ∀ j, rnd (s j - s label) ≤ multiclassLogisticLossR f rnd label s d := fun j => by
    unfold multiclassLogisticLossR logsumexpR
    rw [← hS.idem (s j - s label)]
    refine hS.mono _ _ ?_
    have := vmax_ge (centeredR rnd label s) j
    rw [hc] at this
    linarith
  refine ⟨?_, hge, fun hk => ?_⟩
  · have := hge label
    rwa [sub_self, hS.zero] at this
  · obtain ⟨j, hj⟩ := vmax_mem (centeredR rnd label s)
    refine ⟨j, ?_⟩
    unfold multiclassLogisticLossR logsumexpR
    rw [hj, hc]
    exact hS.mono _ _ (by have := hf.log_mono d _ h1 (h2 hk); linarith)

/-- C130.  In floating-point arithmetic, for every order of the additions, the multiclass perceptron loss is the rounded difference of the
largest score and the score of the label; it is non-negative, and zero exactly when the label has the largest score. -/
theorem C130_perceptron (hS : BinRound rnd u) {n : ℕ} (label : Fin (n + 1)) {s : Fin (n + 1) → K} (hs : ∀ j, rnd (s j) = s j) {d : K}
    (hd : Sums rnd (dotTerms rnd s (oneHot label)) d) :
    multiclassPerceptronLossR rnd s d = rnd (multiclassPerceptronLoss label s) ∧ 0 ≤ multiclassPerceptronLossR rnd s d ∧
      (multiclassPerceptronLossR rnd s d = 0 ↔ ∀ j, s j ≤ s label) := by
  have e := dotR_oneHot hS.toStdRound hs hd
  have e2 : dot s (oneHot label) = s label := by simp [dot, oneHot]
  have h := vmax_ge s label
  unfold multiclassPerceptronLossR multiclassPerceptronLoss
  rw [e, e2]
  refine ⟨rfl, rnd_nonneg hS.toStdRound (by linarith), ?_⟩
  rw [rnd_eq_zero hS.toStdRound, sub_eq_zero]
  refine ⟨fun h j => h ▸ vmax_ge s j, fun h' => le_antisymm ?_ h⟩
  obtain ⟨j, hj⟩ := vmax_mem s
  rw [hj]; exact h' j

/-- C130.  In floating-point arithmetic the multiclass hinge loss is non-negative if the score of the label plus one is a number of the
format, and never below zero by more than a few rounding errors of that score. -/
theorem C130_hinge_partial (hS : BinRound rnd u) {n : ℕ} (label : Fin (n + 1)) {s : Fin (n + 1) → K} (hs : ∀ j, rnd (s j) = s j) {d : K}
    (hd : Sums rnd (dotTerms rnd s (oneHot label)) d) :
    (rnd (s label + 1) = s label + 1 → 0 ≤ multiclassHingeLossR rnd label s d) ∧
      -((1 + u) * (u * (2 + u) * (|s label| + 1))) ≤ multiclassHingeLossR rnd label s d := by
  have hu := hS.nonneg
  have e := dotR_oneHot hS.toStdRound hs hd
  have hge : rnd (rnd (rnd (s label + 1) - 1) - s label) ≤ multiclassHingeLossR rnd label s d := by
    unfold multiclassHingeLossR
    rw [e]
    refine hS.mono _ _ (sub_le_sub_right ?_ _)
    have := vmax_ge (fun j => rnd (rnd (s j + 1) - oneHot label j)) label
    simpa [oneHot] using this
  refine ⟨fun h => ?_, le_trans ?_ hge⟩
  · rw [h, add_sub_cancel_right, hs, sub_self, hS.zero] at hge
    exact hge
  · set a := rnd (s label + 1)
    set b := rnd (a - 1)
    have h1 : |a - (s label + 1)| ≤ u * |s label + 1| := hS.err _
    have h2 : |b - (a - 1)| ≤ u * |a - 1| := hS.err _
    have h3 : |rnd (b - s label) - (b - s label)| ≤ u * |b - s label| := hS.err _
    have h4 : |s label + 1| ≤ |s label| + 1 := by simpa using abs_add_le (s label) 1
    have h5 : |a - 1| ≤ |s label| + u * (|s label| + 1) := by
      have := abs_add_le (s label) (a - (s label + 1))
      rw [show s label + (a - (s label + 1)) = a - 1 by ring] at this
      have := mul_le_mul_of_nonneg_left h4 hu
      linarith
    have h6 : |b - s label| ≤ u * (2 + u) * (|s label| + 1) := by
      have := abs_add_le (b - (a - 1)) (a - (s label + 1))
      rw [show b - (a - 1) + (a - (s label + 1)) = b - s label by ring] at this
      have g1 := mul_le_mul_of_nonneg_left h4 hu
      have g2 := mul_le_mul_of_nonneg_left h5 hu
      nlinarith
    have h7 := abs_le.mp h3
    have h8 := abs_le.mp h6
    have h9 := mul_le_mul_of_nonneg_left h6 hu
    nlinarith [h7.1, h8.1]

/-- C130.  In binary32 arithmetic the multiclass hinge loss of the scores `(2^24, 0)` with the label of the large score is `-1`: the
example is classified with a margin of sixteen million, and its loss is negative. -/
theorem C130_hinge_false : (∀ j, roundBin 23 ((![2 ^ 24, 0] : Fin 2 → ℚ) j) = (![2 ^ 24, 0] : Fin 2 → ℚ) j) ∧
    ∀ d, Sums (roundBin 23) (dotTerms (roundBin 23) (![2 ^ 24, 0] : Fin 2 → ℚ) (oneHot 0)) d →
      multiclassHingeLossR (roundBin 23) 0 ![2 ^ 24, 0] d = -1 ∧ multiclassHingeLoss 0 (![2 ^ 24, 0] : Fin 2 → ℚ) = 0 := by
  have hs : ∀ j, roundBin 23 ((![2 ^ 24, 0] : Fin 2 → ℚ) j) = (![2 ^ 24, 0] : Fin 2 → ℚ) j := by decide +kernel
  refine ⟨hs, fun d hd => ?_⟩
  rw [dotR_oneHot (binary_std 23) hs hd]
  constructor <;> decide +kernel

/-- C130.  In binary64 arithmetic the multiclass sparsemax loss of two representable scores near `2^53`, with the label of the larger, is
`-15/4`; the exact loss is zero. -/
theorem C130_sparsemax_false : (∀ j, roundBin 52 (bigPair j) = bigPair j) ∧
    ∀ (c : ℕ → ℚ) (d1 d2 : ℚ), (∀ i, i < 2 → Sums (roundBin 52) ((sorted bigPair).take (i + 1)) (c i)) →
      Sums (roundBin 52) (dotTerms (roundBin 52) (sparsemaxR (roundBin 52) bigPair c) (sparsemaxScoresR (roundBin 52) 1 bigPair c)) d1 →
      Sums (roundBin 52) (dotTerms (roundBin 52) (sparsemaxR (roundBin 52) bigPair c) (sparsemaxR (roundBin 52) bigPair c)) d2 →
      multiclassSparsemaxLossR (roundBin 52) d1 d2 = -15 / 4 ∧ multiclassSparsemaxLoss 1 bigPair = 0 := by
  obtain ⟨hs, h⟩ := C118_sum_false
  refine ⟨hs, fun c d1 d2 hc h1 h2 => ⟨?_, by decide +kernel⟩⟩
  have hp : sparsemaxR (roundBin 52) bigPair c = ![1 / 2, 5 / 2] := by
    have e1 : (fun j => roundBin 52 (bigPair j / 1)) = bigPair := funext fun j => by rw [div_one]; exact hs j
    funext i
    show roundBin 52 (1 * projectionUnitSimplexR (roundBin 52) (fun j => roundBin 52 (bigPair j / 1)) c i) = _
    rw [e1, (h c hc).1]
    revert i
    decide +kernel
  have hq : sparsemaxScoresR (roundBin 52) 1 bigPair c = ![-2, 0] := by
    unfold sparsemaxScoresR
    rw [hp]
    decide +kernel
  rw [hp, hq] at h1
  rw [hp] at h2
  rw [show dotTerms (roundBin 52) (![1 / 2, 5 / 2] : Fin 2 → ℚ) ![-2, 0] = [-1, 0] by decide +kernel] at h1
  rw [show dotTerms (roundBin 52) (![1 / 2, 5 / 2] : Fin 2 → ℚ) ![1 / 2, 5 / 2] = [1 / 4, 25 / 4] by decide +kernel] at h2
  rw [Sums.pair h1, Sums.pair h2]
  decide +kernel

/-! ## Examples -/

theorem log_half {x : ℚ} (hx : 0 < x) : Int.log 2 (1 / 2 * x) = Int.log 2 x - 1 := by
  have h1 : (2 : ℚ) ^ Int.log 2 x ≤ x := by exact_mod_cast Int.zpow_log_le_self (b := 2) one_lt_two hx
  have h2 : x < (2 : ℚ) ^ (Int.log 2 x + 1) := by exact_mod_cast Int.lt_zpow_succ_log_self (b := 2) one_lt_two x
  have hh : (0 : ℚ) < 1 / 2 * x := by linarith
  have h3 : (2 : ℚ) ^ Int.log 2 (1 / 2 * x) ≤ 1 / 2 * x := by exact_mod_cast Int.zpow_log_le_self (b := 2) one_lt_two hh
  have h4 : 1 / 2 * x < (2 : ℚ) ^ (Int.log 2 (1 / 2 * x) + 1) := by exact_mod_cast Int.lt_zpow_succ_log_self (b := 2) one_lt_two (1 / 2 * x)
  have e1 : Int.log 2 (1 / 2 * x) + 1 < Int.log 2 x + 1 := by
    rw [← zpow_lt_zpow_iff_right₀ (one_lt_two : (1 : ℚ) < 2)]
    rw [zpow_add_one₀ two_ne_zero]
    linarith
  have e2 : Int.log 2 x < Int.log 2 (1 / 2 * x) + 1 + 1 := by
    rw [← zpow_lt_zpow_iff_right₀ (one_lt_two : (1 : ℚ) < 2)]
    rw [zpow_add_one₀ two_ne_zero (Int.log 2 (1 / 2 * x) + 1)]
    linarith
  omega

/-- Rounding to nearest in a binary format has the asked properties. -/
theorem binary_bin (q : ℕ) : BinRound (roundBin q) (1 / 2 ^ (q + 1)) where
  toStdRound := binary_std q
  one := roundBin_exact q ⟨1, 0, by rw [abs_one]; exact one_le_pow₀ (by norm_num), by norm_num⟩
  neg := roundBin_neg q
  half a := by
    have key : ∀ x : ℚ, 0 < x → roundBin q (1 / 2 * x) = 1 / 2 * roundBin q x := fun x hx => by
      have e : lastExp q (1 / 2 * x) = lastExp q x - 1 := by
        unfold lastExp
        rw [abs_of_pos hx, abs_of_pos (by linarith), log_half hx]
        ring
      unfold roundBin
      rw [e, zpow_sub_one₀ two_ne_zero]
      rw [show 1 / 2 * x / (2 ^ lastExp q x * (2 : ℚ)⁻¹) = x / 2 ^ lastExp q x by field_simp]
      ring
    rcases lt_trichotomy a 0 with h | rfl | h
    · have := key (-a) (by linarith)
      rw [mul_neg, roundBin_neg, roundBin_neg] at this
      linarith
    · rw [mul_zero, roundBin_zero, mul_zero]
    · exact key a h

/-- Correctly rounded elementary functions. -/
noncomputable def rounded (rnd : ℝ → ℝ) : Elem ℝ := ⟨fun x => rnd (Real.exp x), fun x => rnd (Real.log x), fun x => rnd (Real.log (1 + x))⟩

/-- Correctly rounded elementary functions have the asked properties, for every rounding. -/
theorem rounded_sane {rnd : ℝ → ℝ} {u : ℝ} (hS : BinRound rnd u) : (rounded rnd).Sane rnd where
  exp_repr x := hS.idem _
  exp_zero := by simp [rounded, hS.one]
  exp_nonneg x := rnd_nonneg hS.toStdRound (Real.exp_pos x).le
  exp_le_one x h := (hS.mono _ 1 (Real.exp_le_one_iff.mpr h)).trans hS.one.le
  log_nonneg x h := rnd_nonneg hS.toStdRound (Real.log_nonneg h)
  log_mono x y h hxy := hS.mono _ _ (Real.log_le_log (by linarith) hxy)
  log1p_nonneg x h := rnd_nonneg hS.toStdRound (Real.log_nonneg (by linarith))
  log1p_mono x y h hxy := hS.mono _ _ (Real.log_le_log (by linarith) (by linarith))

/-- Crude elementary functions on rational numbers. -/
def crude : Elem ℚ := ⟨fun x => if x < -1 then 0 else if x < 0 then 1 / 2 else 1, fun x => if 2 ≤ x then 1 else 0, fun x => if 1 ≤ x then 1 else 0⟩

theorem crude_sane : crude.Sane (roundBin 23) where
  exp_repr x := by
    have h1 := roundBin_zero 23
    have h2 : roundBin 23 (1 / 2) = 1 / 2 := by decide +kernel
    have h3 : roundBin 23 1 = 1 := by decide +kernel
    simp only [crude]
    split_ifs <;> assumption
  exp_zero := by simp [crude]
  exp_nonneg x := by simp only [crude]; split_ifs <;> norm_num
  exp_le_one x h := by simp only [crude]; split_ifs <;> norm_num
  log_nonneg x h := by simp only [crude]; split_ifs <;> norm_num
  log_mono x y h hxy := by simp only [crude]; split_ifs <;> first | linarith | norm_num
  log1p_nonneg x h := by simp only [crude]; split_ifs <;> norm_num
  log1p_mono x y h hxy := by simp only [crude]; split_ifs <;> first | linarith | norm_num

/-- Three logits in binary32: the sum of the exponentials can only be `3/2`, and the loss is `3`. -/
example : multiclassLogisticLossR crude (roundBin 23) 0 ![1, 4, 7 / 2] (3 / 2) = 3 ∧
    Sums (roundBin 23) (expTerms crude (roundBin 23) (centeredR (roundBin 23) 0 ![1, 4, 7 / 2])) (3 / 2) ∧
    0 ≤ multiclassLogisticLossR crude (roundBin 23) 0 ![1, 4, 7 / 2] (3 / 2) := by
  have h : Sums (roundBin 23) (expTerms crude (roundBin 23) (centeredR (roundBin 23) 0 ![1, 4, 7 / 2])) (3 / 2) := by
    rw [show expTerms crude (roundBin 23) (centeredR (roundBin 23) 0 (![1, 4, 7 / 2] : Fin 3 → ℚ)) = [0] ++ ([1] ++ [1 / 2]) by decide +kernel]
    have := (Sums.one (rnd := roundBin 23) 0).add ((Sums.one (rnd := roundBin 23) 1).add (Sums.one (1 / 2)))
    rwa [show roundBin 23 (0 + roundBin 23 (1 + 1 / 2)) = 3 / 2 by decide +kernel] at this
  exact ⟨by decide +kernel, h, (C130_multiclass_logistic (binary_bin 23) crude_sane 0 _ h).1⟩

/-- The Huber loss in four significant bits. -/
example : huberLossR (roundBin 3) 3 (1 / 8) 1 = 5 / 2 ∧ huberLossR (roundBin 3) 1 (1 / 8) 1 = 3 / 8 ∧
    huberLossR (roundBin 3) 1 (1 / 8) 1 ≤ huberLossR (roundBin 3) 3 (1 / 8) 1 :=
  ⟨by decide +kernel, by decide +kernel, (C130_huber (binary_bin 3) (by norm_num) (by decide +kernel) _ _ _ _).2.2 (by norm_num [abs_of_pos])⟩

/-- `sparse_plus` in four significant bits. -/
example : sparsePlusR (roundBin 3) (1 / 8) = 5 / 16 ∧ sparsePlusR (roundBin 3) (1 / 8) ≤ sparsePlusR (roundBin 3) (15 / 16) :=
  ⟨by decide +kernel, (C130_sparse_plus (binary_bin 3) _ _).2 (by norm_num)⟩

end Jaxopt.Loss
