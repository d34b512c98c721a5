import Verif.Bisect.Float
import Verif.Bisect.Props
import Mathlib.Topology.Order.IntermediateValue
import Mathlib.Tactic.NormNum
import Mathlib.Tactic.Ring
import Mathlib.Algebra.Order.Floor.Ring
import Mathlib.Data.Rat.Floor
import Mathlib.Tactic.Positivity

/-!
# C108: bisection in floating-point arithmetic
-/

set_option autoImplicit false
set_option linter.unusedSectionVars false
set_option linter.unusedVariables false

namespace Jaxopt.Bisect.Float

open Jaxopt.Base

section Field

variable {K : Type*} [Field K] [LinearOrder K] [IsStrictOrderedRing K]

/-- The ends of the bracket are numbers of the format, and numbers of the format between them can be doubled (base two, no overflow). -/
structure Safe (A : Attr K) : Prop where
  lower : A.fmt.mem A.lower
  upper : A.fmt.mem A.upper
  le : A.lower ≤ A.upper
  double : ∀ x, A.fmt.mem x → A.lower ≤ x → x ≤ A.upper → A.fmt.mem (2 * x)

/-- The rounding error of a midpoint is at most `c`. -/
def MidpointError (A : Attr K) (c : K) : Prop :=
  ∀ l h m, A.fmt.mem l → A.fmt.mem h → A.lower ≤ l → l ≤ h → h ≤ A.upper → A.fmt.smul (1 / 2) (A.fmt.add (.fin h) (.fin l)) = .fin m → |m - (l + h) / 2| ≤ c

/-- `v` lies on the side of `low`: it is not above zero after multiplication by the sign (it may be NaN). -/
def NotAbove (sign : ℤ) (v : Ext K) : Prop := Ext.gt (Ext.smul (sign : K) v) (.fin 0) = false

/-- The computed midpoint of two numbers of the format lies between them. -/
theorem midpoint (A : Attr K) (hA : Safe A) {l h : K} (hl : A.fmt.mem l) (hh : A.fmt.mem h) (h1 : A.lower ≤ l) (h2 : l ≤ h) (h3 : h ≤ A.upper) :
    ∃ m, A.fmt.smul (1 / 2) (A.fmt.add (.fin h) (.fin l)) = .fin m ∧ A.fmt.mem m ∧ l ≤ m ∧ m ≤ h := by
  obtain ⟨s, e1, -, s1, s2⟩ := A.fmt.round_between (x := h + l) (hA.double l hl h1 (h2.trans h3)) (hA.double h hh (h1.trans h2) h3)
    (by linarith) (by linarith)
  obtain ⟨m, e2, m0, m1, m2⟩ := A.fmt.round_between (x := 1 / 2 * s) hl hh (by linarith) (by linarith)
  refine ⟨m, ?_, m0, m1, m2⟩
  simp only [Format.smul, Format.add, Ext.add, Format.rnd, e1, Ext.smul, e2]

/-- What holds after `k` updates. -/
structure Inv (A : Attr K) (k : ℕ) (s : State K) (l h : K) : Prop where
  low : s.low = .fin l
  high : s.high = .fin h
  memLow : A.fmt.mem l
  memHigh : A.fmt.mem h
  lower : A.lower ≤ l
  le : l ≤ h
  upper : h ≤ A.upper
  iter : s.iterNum = k
  sign : s.sign = (startState A).sign
  below : (l = A.lower ∨ NotAbove s.sign (A.f (.fin l)))
  above : (h = A.upper ∨ ¬ NotAbove s.sign (A.f (.fin h)))

theorem inv_zero (A : Attr K) (hA : Safe A) : Inv A 0 (startState A) A.lower A.upper :=
  ⟨rfl, rfl, hA.lower, hA.upper, le_refl _, hA.le, le_refl _, rfl, rfl, .inl rfl, .inl rfl⟩

theorem inv_step (A : Attr K) (hA : Safe A) {k : ℕ} {p : Ext K × State K} {l h : K} (hi : Inv A k p.2 l h) :
    ∃ m, (update A p).1 = .fin m ∧ A.fmt.mem m ∧ l ≤ m ∧ m ≤ h ∧
      (A.fmt.smul (1 / 2) (A.fmt.add (.fin h) (.fin l)) = .fin m) ∧
      (Inv A (k + 1) (update A p).2 m h ∨ Inv A (k + 1) (update A p).2 l m) := by
  obtain ⟨m, e, m0, m1, m2⟩ := midpoint A hA hi.memLow hi.memHigh hi.lower hi.le hi.upper
  have hp : A.fmt.smul (1 / 2) (A.fmt.add p.2.high p.2.low) = .fin m := by rw [hi.low, hi.high, e]
  refine ⟨m, hp, m0, m1, m2, e, ?_⟩
  cases ht : Ext.gt (Ext.smul (p.2.sign : K) (A.f (.fin m))) (.fin 0)
  · left
    refine ⟨?_, ?_, m0, hi.memHigh, hi.lower.trans m1, m2, hi.upper, ?_, hi.sign, .inr ht, hi.above⟩
    · simp only [update, hp, ht, Bool.false_eq_true, if_false]
    · simp only [update, hp, ht, Bool.false_eq_true, if_false]; exact hi.high
    · simp only [update, hi.iter]
  · right
    refine ⟨?_, ?_, hi.memLow, m0, hi.lower, m1, m2.trans hi.upper, ?_, hi.sign, hi.below, .inr ?_⟩
    · simp only [update, hp, ht, if_true]; exact hi.low
    · simp only [update, hp, ht, if_true]
    · simp only [update, hi.iter]
    · rw [NotAbove]
      change ¬ Ext.gt (Ext.smul (p.2.sign : K) (A.f (.fin m))) (.fin 0) = false
      rw [ht]; simp

/-- **C108 (bracket).**  Whatever the format, the rounding direction and the computed function: after `k` updates the ends of the bracket are numbers of
the format inside the initial bracket and in order; the lower end is the initial one or a point where the computed function is not above zero (for an
increasing bracket); the upper end is the initial one or a point where it is above zero; and the bracket has been halved up to the rounding of the
midpoints. -/
theorem C108_bracket (A : Attr K) (hA : Safe A) (c : K) (hc : MidpointError A c) (k : ℕ) :
    ∃ l h, Inv A k ((update A)^[k] (.nan, startState A)).2 l h ∧ h - l ≤ (A.upper - A.lower) / 2 ^ k + 2 * c * (1 - 1 / 2 ^ k) := by
  induction k with
  | zero => exact ⟨_, _, inv_zero A hA, by simp⟩
  | succ k ih =>
    obtain ⟨l, h, hi, hw⟩ := ih
    obtain ⟨m, -, m0, m1, m2, e, hor⟩ := inv_step A hA hi
    have hm := abs_le.mp (hc l h m hi.memLow hi.memHigh hi.lower hi.le hi.upper e)
    rw [Function.iterate_succ_apply']
    have e1 : (A.upper - A.lower) / 2 ^ (k + 1) = (A.upper - A.lower) / 2 ^ k / 2 := by rw [pow_succ, div_div]
    have e2 : 2 * c * (1 - 1 / 2 ^ (k + 1)) = c * (1 - 1 / 2 ^ k) + c := by
      rw [pow_succ, ← div_div]; ring
    rw [e1, e2]
    rcases hor with hor | hor
    · exact ⟨m, h, hor, by linarith [hm.1]⟩
    · exact ⟨l, m, hor, by linarith [hm.2]⟩

/-- **C108 (result).**  A run that is not rejected returns a number of the format inside the initial bracket, within the width of the last bracket of both
its ends. -/
theorem C108_run (A : Attr K) (hA : Safe A) (c : K) (hc : MidpointError A c) (hm : 1 ≤ A.maxiter) {r : Ext K × State K} (hr : run A = .ok r) :
    ∃ m l h, r.1 = .fin m ∧ A.fmt.mem m ∧ A.lower ≤ m ∧ m ≤ A.upper ∧ r.2.value = A.f (.fin m) ∧ r.2.error = A.absValue (A.f (.fin m)) ∧
      Inv A r.2.iterNum r.2 l h ∧ (m = l ∨ m = h) ∧ h - l ≤ (A.upper - A.lower) / 2 ^ r.2.iterNum + 2 * c ∧
      (r.2.iterNum = A.maxiter ∨ Ext.gt r.2.error (.fin A.tol) = false) := by
  unfold run at hr
  split_ifs at hr with hb
  obtain ⟨k, h1, h2, h3, h4, h5⟩ := runS_spec hm hr
  obtain ⟨n, rfl⟩ : ∃ n, k = n + 1 := ⟨k - 1, by omega⟩
  obtain ⟨l, h, hi, hw⟩ := C108_bracket A hA c hc n
  obtain ⟨m, e0, m0, m1, m2, e, hor⟩ := inv_step A hA hi
  rw [Function.iterate_succ_apply'] at h3
  have hc0 : 0 ≤ c := (abs_nonneg _).trans (hc l h m hi.memLow hi.memHigh hi.lower hi.le hi.upper e)
  have hm' := abs_le.mp (hc l h m hi.memLow hi.memHigh hi.lower hi.le hi.upper e)
  have hpw : (0 : K) < 1 / 2 ^ n := by positivity
  have hcp := mul_nonneg hc0 hpw.le
  have hval : r.2.value = A.f (.fin m) := by
    rw [h3]
    change A.f _ = _
    exact congrArg A.f e0
  have herr : r.2.error = A.absValue (A.f (.fin m)) := by
    rw [h3]
    change A.absValue (A.f _) = _
    exact congrArg (fun v => A.absValue (A.f v)) e0
  have hit : r.2.iterNum = n + 1 := by
    rw [h3]
    rcases hor with hor | hor <;> exact hor.iter
  have hstop : r.2.iterNum = A.maxiter ∨ Ext.gt r.2.error (.fin A.tol) = false := by
    rcases h5 with h5 | h5
    · left; rw [hit, h5]
    · right
      rw [Function.iterate_succ_apply', ← h3] at h5
      exact h5
  have e1 : (A.upper - A.lower) / 2 ^ (n + 1) = (A.upper - A.lower) / 2 ^ n / 2 := by rw [pow_succ, div_div]
  have e2 : 2 * c * (1 - 1 / 2 ^ n) = 2 * c - 2 * (c * (1 / 2 ^ n)) := by ring
  rw [e2] at hw
  have hp1 : r.1 = .fin m := by rw [h3]; exact e0
  rcases hor with hor | hor
  · refine ⟨m, m, h, hp1, m0, hi.lower.trans m1, m2.trans hi.upper, hval, herr, ?_, .inl rfl, ?_, hstop⟩
    · rw [hit, h3]; exact hor
    · rw [hit, e1]; linarith [hm'.1]
  · refine ⟨m, l, m, hp1, m0, hi.lower.trans m1, m2.trans hi.upper, hval, herr, ?_, .inr rfl, ?_, hstop⟩
    · rw [hit, h3]; exact hor
    · rw [hit, e1]; linarith [hm'.2]

/-- **C108 (exact arithmetic).**  With exact arithmetic this is the model of C05. -/
theorem C108_ideal (g : K → K) (A : Attr K) (h1 : A.fmt = Format.ideal) (h2 : A.absValue = Ext.abs) (h3 : ∀ x, A.f (.fin x) = .fin (g x))
    (t : Bisect.State K) (p : Ext K × State K) (e1 : p.2.low = .fin t.low) (e2 : p.2.high = .fin t.high) (e3 : p.2.sign = t.sign)
    (e4 : p.2.iterNum = t.iterNum) :
    (update A p).1 = .fin (Bisect.update g t).1 ∧ (update A p).2.low = .fin (Bisect.update g t).2.low ∧
      (update A p).2.high = .fin (Bisect.update g t).2.high ∧ (update A p).2.sign = (Bisect.update g t).2.sign ∧
      (update A p).2.iterNum = (Bisect.update g t).2.iterNum ∧ (update A p).2.value = (Bisect.update g t).2.value ∧
      (update A p).2.error = (Bisect.update g t).2.error := by
  have hp : A.fmt.smul (1 / 2) (A.fmt.add p.2.high p.2.low) = .fin (1 / 2 * (t.high + t.low)) := by
    rw [e1, e2, h1]; rfl
  have ht : Ext.gt (Ext.smul (p.2.sign : K) (A.f (.fin (1 / 2 * (t.high + t.low))))) (.fin 0) =
      decide ((t.sign : K) * g (1 / 2 * (t.high + t.low)) > 0) := by
    rw [h3, e3]; rfl
  rw [h3, e3] at ht
  simp only [update, hp, h2, h3, e3, ht]
  simp only [Bisect.update, e1, e2, e3, e4, Ext.abs]
  refine ⟨trivial, ?_, ?_, trivial, trivial, trivial, trivial⟩ <;> split_ifs <;> rfl

end Field

/-- **C108 (accuracy).**  If the computed function is within `δ` of a continuous function on the bracket and changes sign over it, then the returned number
is within the width of the last bracket of a point where the function is at most `δ` in absolute value. -/
theorem C108_accuracy (A : Attr ℝ) (hA : Safe A) (c : ℝ) (hc : MidpointError A c) (hm : 1 ≤ A.maxiter) {r : Ext ℝ × State ℝ} (hr : run A = .ok r)
    (g : ℝ → ℝ) (hg : ContinuousOn g (Set.Icc A.lower A.upper)) (δ : ℝ) (hsign : (startState A).sign ≠ 0)
    (hf : ∀ x, A.fmt.mem x → A.lower ≤ x → x ≤ A.upper → ∃ y, A.f (.fin x) = .fin y ∧ |y - g x| ≤ δ) :
    ∃ m z, r.1 = .fin m ∧ A.lower ≤ z ∧ z ≤ A.upper ∧ |g z| ≤ δ ∧ |m - z| ≤ (A.upper - A.lower) / 2 ^ r.2.iterNum + 2 * c := by
  obtain ⟨m, l, h, e, -, -, -, -, -, hi, hml, hw, -⟩ := C108_run A hA c hc hm hr
  obtain ⟨yl, el, dl⟩ := hf l hi.memLow hi.lower (hi.le.trans hi.upper)
  obtain ⟨yh, eh, dh⟩ := hf h hi.memHigh (hi.lower.trans hi.le) hi.upper
  obtain ⟨y0, e0, d0⟩ := hf A.lower hA.lower le_rfl hA.le
  obtain ⟨y1, e1, d1⟩ := hf A.upper hA.upper hA.le le_rfl
  have hdl := abs_le.mp dl
  have hdh := abs_le.mp dh
  -- the values at the ends
  have hends : ((startState A).sign = 1 ∧ yl ≤ 0 ∧ 0 ≤ yh) ∨ ((startState A).sign = -1 ∧ 0 ≤ yl ∧ yh ≤ 0) := by
    have hs : (startState A).sign = bracketSign (A.f (.fin A.lower)) (A.f (.fin A.upper)) := rfl
    rw [e0, e1] at hs
    unfold bracketSign at hs
    split_ifs at hs with c1 c2
    · left
      refine ⟨hs, ?_, ?_⟩
      · rcases hi.below with b | b
        · rw [b, e0] at el
          injection el with el
          simp only [Ext.lt, Bool.and_eq_true, decide_eq_true_eq] at c1
          linarith [c1.1]
        · simp only [NotAbove, hi.sign, hs, el, Ext.smul, Ext.gt, Ext.lt, decide_eq_false_iff_not, Int.cast_one, one_mul, not_lt] at b
          exact b
      · rcases hi.above with b | b
        · rw [b, e1] at eh
          injection eh with eh
          simp only [Ext.le, Bool.and_eq_true, decide_eq_true_eq] at c1
          linarith [c1.2]
        · simp only [NotAbove, hi.sign, hs, eh, Ext.smul, Ext.gt, Ext.lt, decide_eq_false_iff_not, Int.cast_one, one_mul, not_not] at b
          exact b.le
    · right
      refine ⟨hs, ?_, ?_⟩
      · rcases hi.below with b | b
        · rw [b, e0] at el
          injection el with el
          simp only [Ext.gt, Ext.lt, Bool.and_eq_true, decide_eq_true_eq] at c2
          linarith [c2.1]
        · simp only [NotAbove, hi.sign, hs, el, Ext.smul, Ext.gt, Ext.lt, decide_eq_false_iff_not, Int.cast_neg, Int.cast_one, neg_mul, one_mul,
            not_lt] at b
          linarith
      · rcases hi.above with b | b
        · rw [b, e1] at eh
          injection eh with eh
          simp only [Ext.le, Bool.and_eq_true, decide_eq_true_eq] at c2
          linarith [c2.2]
        · simp only [NotAbove, hi.sign, hs, eh, Ext.smul, Ext.gt, Ext.lt, decide_eq_false_iff_not, Int.cast_neg, Int.cast_one, neg_mul, one_mul,
            not_not] at b
          linarith
    · exact absurd hs hsign
  have hcl : ContinuousOn g (Set.Icc l h) := hg.mono (Set.Icc_subset_Icc hi.lower hi.upper)
  have hz : ∃ z ∈ Set.Icc l h, |g z| ≤ δ := by
    by_cases b1 : |g l| ≤ δ
    · exact ⟨l, ⟨le_rfl, hi.le⟩, b1⟩
    by_cases b2 : |g h| ≤ δ
    · exact ⟨h, ⟨hi.le, le_rfl⟩, b2⟩
    have hδ : 0 ≤ δ := (abs_nonneg _).trans dl
    rcases hends with ⟨-, p1, p2⟩ | ⟨-, p1, p2⟩
    · have q1 : g l ≤ 0 := by
        by_contra q
        exact b1 (abs_le.mpr ⟨by linarith, by linarith⟩)
      have q2 : 0 ≤ g h := by
        by_contra q
        exact b2 (abs_le.mpr ⟨by linarith, by linarith⟩)
      obtain ⟨z, hz, e⟩ := intermediate_value_Icc hi.le hcl (show (0 : ℝ) ∈ Set.Icc (g l) (g h) from ⟨q1, q2⟩)
      exact ⟨z, hz, by rw [e]; simpa using hδ⟩
    · have q1 : 0 ≤ g l := by
        by_contra q
        exact b1 (abs_le.mpr ⟨by linarith, by linarith⟩)
      have q2 : g h ≤ 0 := by
        by_contra q
        exact b2 (abs_le.mpr ⟨by linarith, by linarith⟩)
      obtain ⟨z, hz, e⟩ := intermediate_value_Icc' hi.le hcl (show (0 : ℝ) ∈ Set.Icc (g h) (g l) from ⟨q2, q1⟩)
      exact ⟨z, hz, by rw [e]; simpa using hδ⟩
  obtain ⟨z, ⟨z1, z2⟩, hz⟩ := hz
  refine ⟨m, z, e, hi.lower.trans z1, z2.trans hi.upper, hz, ?_⟩
  rw [abs_le]
  rcases hml with rfl | rfl
  · constructor <;> linarith [hi.le]
  · constructor <;> linarith [hi.le]

/-! ## Overflow and underflow -/

/-- The multiples of `q` up to `N q` in absolute value, rounding down. -/
def grid (q : ℚ) (hq : 0 < q) (N : ℤ) : Format ℚ where
  mem := fun x => ∃ k : ℤ, -N ≤ k ∧ k ≤ N ∧ x = k * q
  round := fun x => if N < ⌊x / q⌋ then .pinf else if ⌊x / q⌋ < -N then .ninf else .fin (⌊x / q⌋ * q)
  mono := by
    intro x y h
    have hk : ⌊x / q⌋ ≤ ⌊y / q⌋ := Int.floor_le_floor (div_le_div_of_nonneg_right h hq.le)
    have hk' : (⌊x / q⌋ : ℚ) * q ≤ ⌊y / q⌋ * q := mul_le_mul_of_nonneg_right (by exact_mod_cast hk) hq.le
    split_ifs <;> simp [Ext.le] <;> first | omega | exact hk'
  exact := by
    rintro x ⟨k, h1, h2, rfl⟩
    have : ⌊(k : ℚ) * q / q⌋ = k := by rw [mul_div_cancel_right₀ _ hq.ne', Int.floor_intCast]
    rw [this, if_neg (by omega), if_neg (by omega)]
  mem_round := by
    intro x y h
    split_ifs at h with h1 h2
    injection h with h
    exact ⟨_, by omega, by omega, h.symm⟩

/-- `x - c` on floats, rounded. -/
def shift (F : Format ℚ) (c : ℚ) (x : Ext ℚ) : Ext ℚ := F.rnd (Ext.sub x (.fin c))

/-- The integers up to 4, `x - 3` on the bracket `[2, 4]`. -/
def overflowing : Attr ℚ := ⟨grid 1 one_pos 4, Ext.abs, shift (grid 1 one_pos 4) 3, 2, 4, 30, 1 / 100000, true, true, true⟩

/-- **C108 fails without the condition on doubling**: the sum of the ends of a bracket of finite numbers overflows and the run returns infinity, although
the bracket contains a root and the root is a number of the format. -/
theorem C108_overflow_false : overflowing.fmt.mem overflowing.lower ∧ overflowing.fmt.mem overflowing.upper ∧ overflowing.fmt.mem 3 ∧
    overflowing.f (.fin 3) = .fin 0 ∧ (startState overflowing).sign = 1 ∧
    (run overflowing).toOption.map (fun r => (r.1, r.2.low, r.2.high, r.2.iterNum)) = some (.pinf, .fin 2, .pinf, 30) := by
  refine ⟨⟨2, by norm_num, by norm_num, by norm_num [overflowing]⟩, ⟨4, by norm_num, by norm_num, by norm_num [overflowing]⟩,
    ⟨3, by norm_num, by norm_num, by norm_num⟩, ?_, ?_, ?_⟩ <;> decide +kernel

/-- Multiples of a tenth, `x + 1/10` on `[-1, 1]`, `jnp.sqrt(value ** 2)` computed with any square root, tolerance zero. -/
def underflowing (sqrt : Ext ℚ → Ext ℚ) : Attr ℚ :=
  ⟨grid (1 / 10) (by norm_num) 100, fun v => sqrt (match v with | .fin x => (grid (1 / 10) (by norm_num) 100).round (x * x) | v => v),
    shift (grid (1 / 10) (by norm_num) 100) (-1 / 10), -1, 1, 30, 0, true, true, true⟩

/-- **The error is not the absolute value in floating-point arithmetic**: the square of a small value underflows, so that the run stops with error 0 and
tolerance 0 at a point that is not a root. -/
theorem C108_underflow_false (sqrt : Ext ℚ → Ext ℚ) (h0 : sqrt (.fin 0) = .fin 0) :
    ∃ r, run (underflowing sqrt) = .ok r ∧ r.2.error = .fin 0 ∧ r.2.value = .fin (1 / 10) ∧ r.2.iterNum = 1 := by
  have hs : (startState (underflowing sqrt)).sign = 1 := by
    change bracketSign (shift (grid (1 / 10) (by norm_num) 100) (-1 / 10) (.fin (-1))) (shift (grid (1 / 10) (by norm_num) 100) (-1 / 10) (.fin 1)) = 1
    decide +kernel
  obtain ⟨r, hr⟩ := runS_ok (fun _ : Ext ℚ => startState (underflowing sqrt)) (update (underflowing sqrt))
    (fun p => Ext.gt p.2.error (.fin (underflowing sqrt).tol)) (maxiter := 30) (unroll := true) (jit := true) .nan (by norm_num) (.inl rfl)
  have hp : (underflowing sqrt).fmt.smul (1 / 2) ((underflowing sqrt).fmt.add (.fin 1) (.fin (-1))) = .fin 0 := by
    change (grid (1 / 10) (by norm_num) 100).smul (1 / 2) ((grid (1 / 10) (by norm_num) 100).add (.fin 1) (.fin (-1))) = .fin 0
    decide +kernel
  have hv : (underflowing sqrt).f (.fin 0) = .fin (1 / 10) := by
    change shift (grid (1 / 10) (by norm_num) 100) (-1 / 10) (.fin 0) = .fin (1 / 10)
    decide +kernel
  have he : (underflowing sqrt).absValue (.fin (1 / 10)) = .fin 0 := by
    have : (grid (1 / 10) (by norm_num) 100).round ((1 / 10) * (1 / 10)) = .fin 0 := by decide +kernel
    change sqrt ((grid (1 / 10) (by norm_num) 100).round ((1 / 10) * (1 / 10))) = .fin 0
    rw [this, h0]
  have h1 : (update (underflowing sqrt) (.nan, startState (underflowing sqrt))).2.error = .fin 0 ∧
      (update (underflowing sqrt) (.nan, startState (underflowing sqrt))).2.value = .fin (1 / 10) ∧
      (update (underflowing sqrt) (.nan, startState (underflowing sqrt))).2.iterNum = 1 := by
    have e : (underflowing sqrt).fmt.smul (1 / 2) ((underflowing sqrt).fmt.add (startState (underflowing sqrt)).high (startState (underflowing sqrt)).low) =
        .fin 0 := hp
    simp only [update, e, hv, he]
    exact ⟨trivial, trivial, rfl⟩
  have hres : r = update (underflowing sqrt) (.nan, startState (underflowing sqrt)) :=
    runS_eq hr (k := 1) le_rfl (by norm_num) (fun j a b => by omega) (.inr (by
      rw [Function.iterate_one, h1.1]
      rfl))
  refine ⟨r, ?_, ?_⟩
  · unfold run
    rw [if_neg (by rw [hs]; simp)]
    exact hr
  · rw [hres]; exact h1

/-- The multiples of a tenth up to 1000, `x - 3/10` on `[-1, 1]`. -/
def tenth : Attr ℚ := ⟨grid (1 / 10) (by norm_num) 10000, Ext.abs, shift (grid (1 / 10) (by norm_num) 10000) (3 / 10), -1, 1, 30, 0, true, true, true⟩

/-- A run on this grid: the root is found. -/
example : (run tenth).toOption.map (fun r => (r.1, r.2.error)) = some (.fin (3 / 10), .fin 0) := by decide +kernel

/-- The hypotheses of the theorems hold for it, with midpoint error 1/10. -/
example : Safe tenth ∧ MidpointError tenth (1 / 10) := by
  have hsafe : Safe tenth := by
    refine ⟨⟨-10, by norm_num, by norm_num, by norm_num [tenth]⟩, ⟨10, by norm_num, by norm_num, by norm_num [tenth]⟩, by norm_num [tenth], ?_⟩
    rintro x ⟨k, h1, h2, rfl⟩ h3 h4
    have h3' : (-1 : ℚ) ≤ k * (1 / 10) := h3
    have h4' : (k : ℚ) * (1 / 10) ≤ 1 := h4
    have a3 : (-10 : ℤ) ≤ k := by
      have : (-10 : ℚ) ≤ k := by linarith
      exact_mod_cast this
    have a4 : k ≤ 10 := by
      have : (k : ℚ) ≤ 10 := by linarith
      exact_mod_cast this
    exact ⟨2 * k, by omega, by omega, by push_cast; ring⟩
  refine ⟨hsafe, ?_⟩
  rintro l h m ⟨a, a1, a2, rfl⟩ ⟨b, b1, b2, rfl⟩ h1 h2 h3 e
  have h1' : (-1 : ℚ) ≤ a * (1 / 10) := h1
  have h3' : (b : ℚ) * (1 / 10) ≤ 1 := h3
  have h2' : (a : ℚ) ≤ b := by linarith
  have a3 : (-10 : ℤ) ≤ a := by
    have : (-10 : ℚ) ≤ a := by linarith
    exact_mod_cast this
  have a4 : b ≤ 10 := by
    have : (b : ℚ) ≤ 10 := by linarith
    exact_mod_cast this
  have a5 : a ≤ b := by exact_mod_cast h2'
  have e1 : tenth.fmt.add (.fin (b * (1 / 10))) (.fin (a * (1 / 10))) = .fin ((b + a : ℤ) * (1 / 10)) :=
    tenth.fmt.exact (x := b * (1 / 10) + a * (1 / 10)) ⟨b + a, by omega, by omega, by push_cast; ring⟩ |>.trans (by push_cast; ring_nf)
  rw [e1] at e
  have e2 : (if (10000 : ℤ) < ⌊1 / 2 * (((b + a : ℤ) : ℚ) * (1 / 10)) / (1 / 10)⌋ then Ext.pinf else
      if ⌊1 / 2 * (((b + a : ℤ) : ℚ) * (1 / 10)) / (1 / 10)⌋ < -10000 then .ninf else
        .fin ((⌊1 / 2 * (((b + a : ℤ) : ℚ) * (1 / 10)) / (1 / 10)⌋ : ℚ) * (1 / 10))) = Ext.fin m := e
  split_ifs at e2
  injection e2 with e2
  have f1 := Int.floor_le (1 / 2 * (((b + a : ℤ) : ℚ) * (1 / 10)) / (1 / 10))
  have f2 := Int.lt_floor_add_one (1 / 2 * (((b + a : ℤ) : ℚ) * (1 / 10)) / (1 / 10))
  rw [← e2, abs_le]
  push_cast at f1 f2 ⊢
  constructor <;> linarith

end Jaxopt.Bisect.Float
