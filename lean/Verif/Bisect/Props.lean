import Verif.Bisect.Model
import Mathlib.Topology.Order.IntermediateValue
import Mathlib.Topology.Instances.Real.Lemmas
import Mathlib.Tactic.Linarith
import Mathlib.Tactic.FieldSimp
import Mathlib.Tactic.Ring
import Mathlib.Tactic.NormNum
import Mathlib.Tactic.Positivity

/-!
# Properties C05, C06: bisection
-/

set_option autoImplicit false
set_option linter.unusedSectionVars false
set_option linter.unusedVariables false

namespace Jaxopt.Bisect

section field
variable {K : Type*} [Field K] [LinearOrder K] [IsStrictOrderedRing K]

/-- A bracket in the sense of the documentation, strict at the lower end. -/
def ValidBracket (f : K → K) (lower upper : K) : Prop :=
  (f lower < 0 ∧ 0 ≤ f upper) ∨ (0 < f lower ∧ f upper ≤ 0)

/-- What every reachable state satisfies. -/
structure Inv (f : K → K) (lower upper : K) (k : ℕ) (s : State K) : Prop where
  sign : s.sign = 1 ∨ s.sign = -1
  sign_low : (s.sign : K) * f s.low ≤ 0
  sign_high : 0 ≤ (s.sign : K) * f s.high
  lower_le : lower ≤ s.low
  le_upper : s.high ≤ upper
  width : s.high - s.low = (upper - lower) / 2 ^ k
  count : s.iterNum = k
  evals : s.numFunEval = k + 2

theorem inv_init {f : K → K} {lower upper : K} {c : Bool} {s : State K}
    (hv : ValidBracket f lower upper) (h : initState f lower upper c = .ok s) :
    Inv f lower upper 0 s := by
  have hs : bracketSign (f lower) (f upper) = 1 ∧ f lower < 0 ∧ 0 ≤ f upper ∨
      bracketSign (f lower) (f upper) = -1 ∧ 0 < f lower ∧ f upper ≤ 0 := by
    rcases hv with ⟨h1, h2⟩ | ⟨h1, h2⟩
    · left; simp [bracketSign, h1, h2]
    · right
      refine ⟨?_, h1, h2⟩
      unfold bracketSign
      rw [if_neg (by intro h; linarith [h.1]), if_pos ⟨h1, h2⟩]
  have hne : bracketSign (f lower) (f upper) ≠ 0 := by
    rcases hs with ⟨h, _⟩ | ⟨h, _⟩ <;> rw [h] <;> decide
  simp only [initState, hne, and_false, if_false] at h
  cases h
  rcases hs with ⟨h, h1, h2⟩ | ⟨h, h1, h2⟩
  · constructor <;> simp_all [le_of_lt]
  · constructor <;> simp_all [le_of_lt]

theorem inv_step {f : K → K} {lower upper : K} {k : ℕ} {s : State K} (hle : lower ≤ upper)
    (h : Inv f lower upper k s) :
    Inv f lower upper (k + 1) (update f s).2 ∧ lower ≤ (update f s).1 ∧ (update f s).1 ≤ upper := by
  have hw : 0 ≤ s.high - s.low := by
    rw [h.width]; apply div_nonneg (by linarith); positivity
  have h1 := h.lower_le
  have h2 := h.le_upper
  refine ⟨?_, ?_, ?_⟩
  · have hw' := h.width
    have hpow : (upper - lower) / 2 ^ (k + 1) = (upper - lower) / 2 ^ k / 2 := by
      rw [pow_succ, div_mul_eq_div_div]
    by_cases ht : (s.sign : K) * f ((1 / 2) * (s.high + s.low)) > 0
    · constructor
      · exact h.sign
      · simp only [update, ht, decide_true, if_true]; exact h.sign_low
      · simp only [update, ht, decide_true, if_true]; exact le_of_lt ht
      · simp only [update, ht, decide_true, if_true]; exact h1
      · simp only [update, ht, decide_true, if_true]; linarith
      · simp only [update, ht, decide_true, if_true]; rw [hpow, ← hw']; ring
      · simp [update, h.count]
      · simp [update, h.evals]
    · constructor
      · exact h.sign
      · simp only [update, ht, decide_false, Bool.false_eq_true, if_false]; exact not_lt.mp ht
      · simp only [update, ht, decide_false, Bool.false_eq_true, if_false]; exact h.sign_high
      · simp only [update, ht, decide_false, Bool.false_eq_true, if_false]; linarith
      · simp only [update, ht, decide_false, Bool.false_eq_true, if_false]; exact h2
      · simp only [update, ht, decide_false, Bool.false_eq_true, if_false]; rw [hpow, ← hw']; ring
      · simp [update, h.count]
      · simp [update, h.evals]
  · simp only [update]; linarith
  · simp only [update]; linarith

theorem inv_stateAfter {f : K → K} {lower upper : K} {s : State K} (hle : lower ≤ upper)
    (h : Inv f lower upper 0 s) (k : ℕ) : Inv f lower upper k (stateAfter f s k) := by
  induction k with
  | zero => exact h
  | succ k ih => exact (inv_step hle ih).1

/-- **C05**, over any ordered field: bracket, halving, position, error and counters after any number `k` of updates. -/
theorem C05_bracket_halves (f : K → K) (lower upper : K) (c : Bool) (s : State K) (hle : lower ≤ upper)
    (hv : ValidBracket f lower upper) (hs : initState f lower upper c = .ok s) (k : ℕ) :
    let st := stateAfter f s k
    lower ≤ st.low ∧ st.high ≤ upper ∧ st.high - st.low = (upper - lower) / 2 ^ k ∧
      ((f st.low ≤ 0 ∧ 0 ≤ f st.high) ∨ (0 ≤ f st.low ∧ f st.high ≤ 0)) ∧
      st.iterNum = k ∧ st.numFunEval = k + 2 ∧
      (lower ≤ paramsAfter f s k ∧ paramsAfter f s k ≤ upper) ∧
      (stateAfter f s (k + 1)).error = .fin |f (paramsAfter f s k)| := by
  have hi := inv_stateAfter hle (inv_init hv hs) k
  have hst := (inv_step hle hi).2
  refine ⟨hi.lower_le, hi.le_upper, hi.width, ?_, hi.count, hi.evals, hst, rfl⟩
  rcases hi.sign with h | h
  · left
    have h1 := hi.sign_low; have h2 := hi.sign_high
    rw [h] at h1 h2; simp at h1 h2; exact ⟨h1, h2⟩
  · right
    have h1 := hi.sign_low; have h2 := hi.sign_high
    rw [h] at h1 h2; simp at h1 h2; exact ⟨h1, h2⟩

/-- **C06** (part that holds): with `check_bracket=True` the bracket is accepted iff the value at `lower` is non-zero and
the end values do not have the same strict sign.  Missing from the full property: brackets whose *lower* end is an
exact root are rejected, see `C06_root_at_lower_rejected_false`. -/
theorem C06_accepts_iff_partial (f : K → K) (lower upper : K) :
    (∃ s, initState f lower upper true = .ok s) ↔ (f lower ≠ 0 ∧ f lower * f upper ≤ 0) := by
  constructor
  · rintro ⟨s, hs⟩
    have hne : bracketSign (f lower) (f upper) ≠ 0 := by
      intro h; simp [initState, h] at hs
    unfold bracketSign at hne
    split_ifs at hne with h1 h2
    · exact ⟨ne_of_lt h1.1, mul_nonpos_of_nonpos_of_nonneg (le_of_lt h1.1) h1.2⟩
    · exact ⟨ne_of_gt h2.1, mul_nonpos_of_nonneg_of_nonpos (le_of_lt h2.1) h2.2⟩
    · exact absurd rfl hne
  · rintro ⟨h0, hm⟩
    have hne : bracketSign (f lower) (f upper) ≠ 0 := by
      rcases lt_or_gt_of_ne h0 with h | h
      · have : 0 ≤ f upper := by
          by_contra hc
          exact absurd hm (not_le.mpr (mul_pos_of_neg_of_neg h (not_le.mp hc)))
        simp [bracketSign, h, this]
      · have : f upper ≤ 0 := by
          by_contra hc
          exact absurd hm (not_le.mpr (mul_pos h (not_le.mp hc)))
        unfold bracketSign
        rw [if_neg (by intro h'; exact absurd h'.1 (not_lt.mpr (le_of_lt h))), if_pos ⟨h, this⟩]
        decide
    exact ⟨_, by simp only [initState, hne, and_false, if_false]; rfl⟩

/-- Without the check nothing is ever rejected. -/
theorem C06_unchecked_accepts (f : K → K) (lower upper : K) :
    ∃ s, initState f lower upper false = .ok s := ⟨_, by simp only [initState, Bool.false_eq_true, false_and, if_false]; rfl⟩

/-- **C06 is false as stated**: the bracket `[0, 1]` contains the root `0` of `x ↦ x` (and the mirror-image bracket
`[-1, 0]` is accepted), yet it is rejected. -/
theorem C06_root_at_lower_rejected_false :
    (¬ ∃ s, initState (fun x : K => x) 0 1 true = .ok s) ∧
    (∃ s, initState (fun x : K => x) (-1) 0 true = .ok s) := by
  constructor
  · rw [C06_accepts_iff_partial]; simp
  · rw [C06_accepts_iff_partial]; simp

end field

/-- **C05**, accuracy: for a continuous function each returned point is within `(upper-lower)/2^(k+1)` of a root in the
bracket (`k+1` updates). -/
theorem C05_accuracy (f : ℝ → ℝ) (lower upper : ℝ) (c : Bool) (s : State ℝ) (hle : lower ≤ upper)
    (hcont : ContinuousOn f (Set.Icc lower upper))
    (hv : ValidBracket f lower upper) (hs : initState f lower upper c = .ok s) (k : ℕ) :
    ∃ r, lower ≤ r ∧ r ≤ upper ∧ f r = 0 ∧ |paramsAfter f s k - r| ≤ (upper - lower) / 2 ^ (k + 1) := by
  have hi := inv_stateAfter hle (inv_init hv hs) (k + 1)
  have hw : (stateAfter f s (k+1)).low ≤ (stateAfter f s (k+1)).high := by
    have : 0 ≤ (upper - lower) / 2 ^ (k+1) := div_nonneg (by linarith) (by positivity)
    linarith [hi.width]
  have hsub : Set.Icc (stateAfter f s (k+1)).low (stateAfter f s (k+1)).high ⊆ Set.Icc lower upper :=
    Set.Icc_subset_Icc hi.lower_le hi.le_upper
  have hroot : ∃ r ∈ Set.Icc (stateAfter f s (k+1)).low (stateAfter f s (k+1)).high, f r = 0 := by
    obtain ⟨_, _, _, hsg, _⟩ := C05_bracket_halves f lower upper c s hle hv hs (k + 1)
    rcases hsg with ⟨h1, h2⟩ | ⟨h1, h2⟩
    · obtain ⟨r, hr, hr'⟩ := intermediate_value_Icc hw (hcont.mono hsub) ⟨h1, h2⟩
      exact ⟨r, hr, hr'⟩
    · obtain ⟨r, hr, hr'⟩ := intermediate_value_Icc' hw (hcont.mono hsub) ⟨h2, h1⟩
      exact ⟨r, hr, hr'⟩
  obtain ⟨r, hr, hr0⟩ := hroot
  refine ⟨r, (hsub hr).1, (hsub hr).2, hr0, ?_⟩
  rw [← hi.width]
  have hp : paramsAfter f s k = (stateAfter f s (k+1)).low ∨ paramsAfter f s k = (stateAfter f s (k+1)).high := by
    simp only [paramsAfter, stateAfter, update]
    split_ifs with h
    · right; rfl
    · left; rfl
  rcases hp with h | h
  · rw [h, abs_le]; constructor <;> linarith [hr.1, hr.2]
  · rw [h, abs_le]; constructor <;> linarith [hr.1, hr.2]

/-- Non-vacuity: `x³ - 2` on `[0, 2]`. -/
example : ValidBracket (fun x : ℝ => x ^ 3 - 2) 0 2 ∧ ContinuousOn (fun x : ℝ => x ^ 3 - 2) (Set.Icc 0 2) ∧
    (∃ s, initState (fun x : ℝ => x ^ 3 - 2) 0 2 true = .ok s) :=
  ⟨Or.inl (by norm_num), by fun_prop, (C06_accepts_iff_partial _ _ _).2 (by norm_num)⟩

/-- The model computes: two updates from `[0,2]` for `x³-2`. -/
example : paramsAfter (fun x : ℚ => x ^ 3 - 2) ⟨0, .pinf, .pinf, 0, 2, 1, 2⟩ 1 = 3 / 2 := by
  norm_num [paramsAfter, stateAfter, update]

end Jaxopt.Bisect
