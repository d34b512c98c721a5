import Verif.LineSearch.HagerZhang
import Mathlib.Tactic.Ring
import Mathlib.Tactic.NormNum

/-!
# Property C21: Hager-Zhang line search
-/

set_option autoImplicit false
set_option linter.unusedSectionVars false
set_option linter.unusedVariables false

namespace Jaxopt.LineSearch

open Jaxopt.Base

variable {K E : Type*} [Field K] [LinearOrder K] [IsStrictOrderedRing K] [AddCommGroup E] [Module K E]

/-- Left end of the reference algorithm's bracket: downward slope and value within the threshold. -/
def LeftOK (phi : K → Ext K × Ext K) (t : K) (a : K) : Prop :=
  Ext.lt (phi a).2 (.fin 0) = true ∧ (phi a).1.AtMost t

/-- Right end of the reference algorithm's bracket: upward slope. -/
def RightOK (phi : K → Ext K × Ext K) (b : K) : Prop := Ext.le (.fin 0) (phi b).2 = true

/-- What the code maintains at the right end: upward slope *or* a value above the threshold. -/
def RightWeak (phi : K → Ext K × Ext K) (t : K) (b : K) : Prop :=
  RightOK phi b ∨ Ext.gt (phi b).1 (.fin t) = true

theorem le_fin_iff {v : Ext K} {t : K} : Ext.le v (.fin t) = true ↔ v.AtMost t := by
  cases v <;> simp [Ext.le, Ext.AtMost]

theorem lt_zero_of_not {g : Ext K} (h : Ext.le (.fin 0) g = false) (hn : g.isNan = false) : Ext.lt g (.fin 0) = true := by
  cases g <;> simp_all [Ext.le, Ext.lt, Ext.isNan]

theorem gt_of_not_le {v : Ext K} {t : K} (h : Ext.le v (.fin t) = false) (hn : v.isNan = false) :
    Ext.gt v (.fin t) = true := by
  cases v <;> simp_all [Ext.le, Ext.gt, Ext.lt, Ext.isNan]

/-- Loop invariant of `_update`. -/
structure UInv (phi : K → Ext K × Ext K) (t lo hi : K) (s : UState K) : Prop where
  val : phi s.middle = (s.vm, s.gm)
  nan : s.failed = false → failedNan s.vm s.gm = false
  nested : lo ≤ s.low ∧ s.low ≤ s.high ∧ s.high ≤ hi
  left : s.low = lo ∨ LeftOK phi t s.low
  right : s.high = hi ∨ RightWeak phi t s.high

theorem updateBody_inv {phi : K → Ext K × Ext K} {t lo hi : K} {s : UState K} (h : UInv phi t lo hi s)
    (hc : updateCond s = true) : UInv phi t lo hi (updateBody phi (.fin t) s) := by
  unfold updateCond at hc
  simp only [Bool.and_eq_true, decide_eq_true_eq, Bool.not_eq_true'] at hc
  obtain ⟨⟨⟨h1, h2⟩, h3⟩, h4⟩ := hc
  have hnan := h.nan h4
  simp only [failedNan, Bool.or_eq_false_iff] at hnan
  obtain ⟨n1, n2, n3⟩ := h.nested
  have hmid : (phi s.middle).1 = s.vm ∧ (phi s.middle).2 = s.gm := by rw [h.val]; exact ⟨rfl, rfl⟩
  cases hr : Ext.le (.fin 0) s.gm
  · cases hl : Ext.le s.vm (.fin t)
    · -- U3
      have hninf : decide (s.vm = Ext.ninf) = false := by
        cases hv : s.vm <;> simp_all [Ext.le]
      have e : updateBody phi (.fin t) s =
          { done := false, failed := failedNan (phi ((s.low + s.high) / 2)).1 (phi ((s.low + s.high) / 2)).2, low := s.low,
            middle := (s.low + s.high) / 2, high := s.middle, vm := (phi ((s.low + s.high) / 2)).1,
            gm := (phi ((s.low + s.high) / 2)).2 } := by
        simp [updateBody, hr, hl, hninf, h3, h4]
      rw [e]
      refine ⟨rfl, fun h => h, ⟨n1, le_of_lt h2, le_trans (le_of_lt h1) n3⟩, h.left, Or.inr (Or.inr ?_)⟩
      show Ext.gt (phi s.middle).1 (.fin t) = true
      rw [hmid.1]; exact gt_of_not_le hl hnan.1
    · have e : updateBody phi (.fin t) s =
          { done := true, failed := failedNan s.vm s.gm, low := s.middle, middle := s.middle, high := s.high, vm := s.vm,
            gm := s.gm } := by
        simp [updateBody, hr, hl, h3, h4]
      rw [e]
      refine ⟨h.val, fun h => h, ⟨le_trans n1 (le_of_lt h2), le_of_lt h1, n3⟩, Or.inr ⟨?_, ?_⟩, h.right⟩
      · rw [hmid.2]; exact lt_zero_of_not hr hnan.2
      · rw [hmid.1]; exact le_fin_iff.mp hl
  · have e : updateBody phi (.fin t) s =
        { done := true, failed := failedNan s.vm s.gm, low := s.low, middle := s.middle, high := s.middle, vm := s.vm,
          gm := s.gm } := by
      simp [updateBody, hr, h3, h4]
    rw [e]
    refine ⟨h.val, fun h => h, ⟨n1, le_of_lt h2, le_trans (le_of_lt h1) n3⟩, h.left, Or.inr (Or.inl ?_)⟩
    show Ext.le _ (phi s.middle).2 = true
    rw [hmid.2]; exact hr

theorem updateLoop_inv {phi : K → Ext K × Ext K} {t lo hi : K} (n : ℕ) : ∀ {s s' : UState K}, UInv phi t lo hi s →
    updateLoop phi (.fin t) n s = some s' → UInv phi t lo hi s' := by
  induction n with
  | zero =>
    intro s s' h hs
    unfold updateLoop at hs
    split_ifs at hs with hc
    cases hs; exact h
  | succ n ih =>
    intro s s' h hs
    unfold updateLoop at hs
    split_ifs at hs with hc
    · exact ih (updateBody_inv h hc) hs
    · cases hs; exact h

/-- **C21** (interval update).  Whenever the interval update terminates, its interval is nested in the input interval, the
left end keeps the reference conditions (downward slope, value within the threshold) and the right end has an upward slope
or a value above the threshold (or is unchanged).  The reference condition asks for an upward slope, which can be lost:
see `C21_opposite_slope_false`. -/
theorem C21_interval_update_partial (phi : K → Ext K × Ext K) (t : K) (fuel : ℕ) (low high middle : K) (hlh : low ≤ high)
    (failed : Bool) (l h : K) (hu : updateInterval phi (.fin t) fuel low high middle = some (failed, l, h)) :
    low ≤ l ∧ l ≤ h ∧ h ≤ high ∧ (l = low ∨ LeftOK phi t l) ∧ (h = high ∨ RightOK phi h ∨ Ext.gt (phi h).1 (.fin t) = true) := by
  unfold updateInterval at hu
  rw [Option.map_eq_some_iff] at hu
  obtain ⟨s, hs, e⟩ := hu
  cases e
  have := updateLoop_inv fuel (t := t) (lo := low) (hi := high) ⟨rfl, fun h => h, ⟨le_refl _, hlh, le_refl _⟩, Or.inl rfl, Or.inl rfl⟩ hs
  exact ⟨this.nested.1, this.nested.2.1, this.nested.2.2, this.left, this.right⟩

/-- The line function `c ↦ (value, slope)` of the counterexample: a hill of height 1 at `2`, a valley at `3`. -/
def hill : ℚ → Ext ℚ × Ext ℚ := fun c =>
  if c ≤ 0 then (.fin (-c), .fin (-1))
  else if c < 2 then (.fin (1 - c / 8), .fin (-1 / 8))
  else (.fin ((c - 3) ^ 2), .fin (2 * (c - 3)))

/-- The right end of a valid bracket (`φ'(high) ≥ 0`) can be replaced by a point with negative slope: the bisection step U3
uses the old end points, so the loop leaves after one halving. -/
theorem C21_opposite_slope_false : ¬ ∀ (phi : ℚ → Ext ℚ × Ext ℚ) (t : ℚ) (fuel : ℕ) (low high middle : ℚ) (r : Bool × ℚ × ℚ),
    low < high → low < middle → middle < high → LeftOK phi t low → RightOK phi high →
    updateInterval phi (.fin t) fuel low high middle = some r → r.1 = false → RightOK phi r.2.2 := by
  intro hall
  have h1 : updateInterval hill (.fin 0) 10 0 3 (3 / 2) = some (false, 0, 3 / 2) := by decide +kernel
  have := hall hill 0 10 0 3 (3 / 2) _ (by norm_num) (by norm_num) (by norm_num)
    ⟨by decide +kernel, by simp [hill, Ext.AtMost]⟩ (by show Ext.le _ _ = true; decide +kernel) h1 rfl
  revert this
  show ¬ (Ext.le (.fin 0) (hill (3 / 2)).2 = true)
  decide +kernel

/-- Non-vacuity of `C21_interval_update_partial`: a genuine shrink through U3 iterations and U1. -/
example : updateInterval (fun c : ℚ => (.fin ((c - 1) * (c - 1)), .fin (2 * (c - 1)))) (.fin 1) 10 0 5 4 = some (false, 0, 4) := by
  decide +kernel
namespace HZ

/-- The bracket maintained along a run. -/
def Bracket (ls : HZ K E) (x d : E) (t : K) (low high : K) : Prop :=
  0 ≤ low ∧ low ≤ high ∧ LeftOK (ls.line x d) t low ∧ RightWeak (ls.line x d) t high

theorem Bracket.update {ls : HZ K E} {x d : E} {t low high : K} (h : ls.Bracket x d t low high) {fuel : ℕ} {m : K}
    {r : Bool × K × K} (hu : updateInterval (ls.line x d) (.fin t) fuel low high m = some r) :
    ls.Bracket x d t r.2.1 r.2.2 ∧ low ≤ r.2.1 ∧ r.2.2 ≤ high := by
  obtain ⟨f, l, hh⟩ := r
  obtain ⟨a, b, c, e, g⟩ := C21_interval_update_partial _ t fuel low high m h.2.1 f l hh hu
  refine ⟨⟨le_trans h.1 a, b, ?_, ?_⟩, a, c⟩
  · rcases e with e | e
    · rw [e]; exact h.2.2.1
    · exact e
  · rcases g with g | g
    · rw [g]; exact h.2.2.2
    · exact g

theorem Bracket.updateE {ls : HZ K E} {x d : E} {t low high : K} (h : ls.Bracket x d t low high) {m : Ext K}
    {r : Bool × K × K} (hu : ls.updateE x d (.fin t) low high m = some r) :
    ls.Bracket x d t r.2.1 r.2.2 ∧ low ≤ r.2.1 ∧ r.2.2 ≤ high := by
  cases m with
  | fin m => exact h.update hu
  | _ => simp only [HZ.updateE, Option.some.injEq] at hu; subst hu; exact ⟨h, le_refl _, le_refl _⟩

theorem Bracket.secant2 {ls : HZ K E} {x d : E} {t low high : K} (h : ls.Bracket x d t low high)
    {r : Bool × K × K} (hu : ls.secant2 x d (.fin t) low high = some r) :
    ls.Bracket x d t r.2.1 r.2.2 ∧ low ≤ r.2.1 ∧ r.2.2 ≤ high := by
  unfold HZ.secant2 at hu
  simp only [Option.bind_eq_bind, Option.bind_eq_some_iff] at hu
  obtain ⟨q, hq, hu⟩ := hu
  obtain ⟨h1, h2, h3⟩ := h.updateE hq
  split_ifs at hu
  · obtain ⟨k1, k2, k3⟩ := h1.updateE hu
    exact ⟨k1, le_trans h2 k2, le_trans k3 h3⟩
  all_goals first
    | (cases hu; exact ⟨h1, h2, h3⟩)
    | (obtain ⟨k1, k2, k3⟩ := h1.updateE hu
       exact ⟨k1, le_trans h2 k2, le_trans k3 h3⟩)

theorem Bracket.updateBracket {ls : HZ K E} {x d : E} {t : K} {st : HZState K E} (h : ls.Bracket x d t st.low st.high)
    {r : Bool × K × K} (hu : ls.updateBracket x d (.fin t) st = some r) :
    ls.Bracket x d t r.2.1 r.2.2 ∧ st.low ≤ r.2.1 ∧ r.2.2 ≤ st.high := by
  unfold HZ.updateBracket at hu
  simp only [Option.bind_eq_bind, Option.bind_eq_some_iff] at hu
  obtain ⟨q, hq, hu⟩ := hu
  obtain ⟨h1, h2, h3⟩ := h.secant2 hq
  cases hd : st.done
  · simp only [hd, Bool.not_false, Bool.true_and, Bool.false_eq_true, if_false] at hu
    split_ifs at hu
    · obtain ⟨k1, k2, k3⟩ := h1.update hu
      exact ⟨k1, le_trans h2 k2, le_trans k3 h3⟩
    · cases hu; exact ⟨h1, h2, h3⟩
  · simp only [hd, Bool.not_true, Bool.false_and, Bool.false_eq_true, if_false, if_true] at hu
    cases hu; exact ⟨h, le_refl _, le_refl _⟩

/-- Invariant of the bracketing loop. -/
structure BInv (ls : HZ K E) (x d : E) (t : K) (s : BState K) : Prop where
  val : ls.line x d s.middle = (s.vm, s.gm)
  nan : s.failed = false → failedNan s.vm s.gm = false
  mid : 0 < s.middle
  best : 0 ≤ s.best ∧ s.best ≤ s.middle ∧ LeftOK (ls.line x d) t s.best
  out : s.done = true → s.failed = false → ls.Bracket x d t s.low s.high

theorem bracketBody_inv {ls : HZ K E} (hexp : 1 ≤ ls.expansion) {x d : E} {t : K} {s s' : BState K}
    (h : ls.BInv x d t s) (h0 : LeftOK (ls.line x d) t 0)
    (hd : s.done = false) (hf : s.failed = false) (hs : ls.bracketBody x d (.fin t) s = some s') : ls.BInv x d t s' := by
  have hnan := h.nan hf
  simp only [failedNan, Bool.or_eq_false_iff] at hnan
  have hmid : (ls.line x d s.middle).1 = s.vm ∧ (ls.line x d s.middle).2 = s.gm := by rw [h.val]; exact ⟨rfl, rfl⟩
  unfold bracketBody at hs
  simp only [Option.map_eq_some_iff, hd, hf, Bool.not_false, Bool.true_and, Bool.false_or] at hs
  obtain ⟨r, hr, hs⟩ := hs
  cases hs
  cases hg : Ext.le (.fin 0) s.gm
  · simp only [hg, Bool.not_false, Bool.true_and, Bool.false_or, Bool.false_eq_true, if_false] at hr ⊢
    cases hv : Ext.gt s.vm (.fin t)
    · simp only [hv, Bool.false_eq_true, if_false, Bool.not_false, Bool.true_and, if_true] at hr ⊢
      cases hr
      have hle : Ext.le s.vm (.fin t) = true := by
        rw [Ext.gt_eq_not_le (by intro h; simp [h, Ext.isNan] at hnan)] at hv
        simpa using hv
      simp only [hle, if_true]
      have hmp := h.mid
      refine ⟨rfl, fun h => by simpa using h, by positivity, ⟨le_of_lt hmp, ?_, ?_, ?_⟩, fun h => by cases h⟩
      · simp only; nlinarith
      · rw [hmid.2]; exact lt_zero_of_not hg hnan.2
      · rw [hmid.1]; exact le_fin_iff.mp hle
    · simp only [hv, if_true, Bool.not_true, Bool.false_and, Bool.false_eq_true, if_false] at hr ⊢
      have hb : ls.Bracket x d t 0 s.middle := ⟨le_refl _, le_of_lt h.mid, h0, Or.inr (by rw [hmid.1]; exact hv)⟩
      refine ⟨rfl, fun hh => ?_, h.mid, h.best, fun _ _ => (hb.update hr).1⟩
      simp only [Bool.or_eq_false_iff] at hh
      exact hh.2
  · simp only [hg, Bool.not_true, Bool.false_and, Bool.true_or, if_true, Bool.false_eq_true, if_false] at hr ⊢
    cases hr
    refine ⟨rfl, fun hh => by simpa using hh, h.mid, h.best, fun _ _ => ⟨h.best.1, h.best.2.1, h.best.2.2, Or.inl ?_⟩⟩
    show Ext.le _ (ls.line x d s.middle).2 = true
    rw [hmid.2]; exact hg

theorem bracketLoop_inv {ls : HZ K E} (hexp : 1 ≤ ls.expansion) {x d : E} {t : K} (h0 : LeftOK (ls.line x d) t 0)
    (n : ℕ) : ∀ {s s' : BState K}, ls.BInv x d t s → ls.bracketLoop x d (.fin t) n s = some s' →
    ls.BInv x d t s' ∧ (s'.failed = false → s'.done = true) := by
  induction n with
  | zero =>
    intro s s' h hs
    unfold bracketLoop at hs
    split_ifs at hs with hc
    cases hs
    refine ⟨h, fun hf => ?_⟩
    simpa [hf] using hc
  | succ n ih =>
    intro s s' h hs
    unfold bracketLoop at hs
    split_ifs at hs with hc
    · simp only [Bool.and_eq_true, Bool.not_eq_true'] at hc
      rw [Option.bind_eq_some_iff] at hs
      obtain ⟨q, hq, hs⟩ := hs
      exact ih (bracketBody_inv hexp h h0 hc.1 hc.2 hq) hs
    · cases hs
      refine ⟨h, fun hf => ?_⟩
      simpa [hf] using hc

theorem bracket_spec {ls : HZ K E} (hexp : 1 ≤ ls.expansion) {x d : E} {t : K} (h0 : LeftOK (ls.line x d) t 0)
    (h1 : (ls.line x d 1).1 ≠ .ninf) {r : Bool × K × K} (hr : ls.bracket x d (.fin t) = some r) (hf : r.1 = false) :
    ls.Bracket x d t r.2.1 r.2.2 := by
  unfold bracket at hr
  rw [Option.map_eq_some_iff] at hr
  obtain ⟨s, hs, e⟩ := hr
  cases e
  have := bracketLoop_inv hexp h0 ls.fuel
    ⟨rfl, fun h => h, one_pos, ⟨le_refl _, zero_le_one, h0⟩, fun hd => by simp [h1] at hd⟩ hs
  exact this.1.out (this.2 hf) hf

/-- The Wolfe conditions or the approximate Wolfe conditions at stepsize `s`, up to `tol`. -/
def WolfeOK (ls : HZ K E) (x d : E) (v0 sl0 t : K) (s : K) : Prop :=
  let v := ls.f (x + s • d)
  let g := ls.vdot (ls.grad (x + s • d)) d
  g.AtLeast (ls.c2 * sl0 - ls.tol) ∧
    (v.AtMost (v0 + ls.c1 * s * sl0 + ls.tol) ∨
      (g.AtMost ((2 * ls.c1 - 1) * sl0 + ls.tol) ∧ v.AtMost (t + ls.tol)))

theorem bestPoint_eq (ls : HZ K E) (x d : E) (l h : K) (hn : (ls.bestPoint x d l h).2.2 ≠ .nan) :
    (ls.bestPoint x d l h).2.1 = (ls.line x d (ls.bestPoint x d l h).1).2 ∧
    (ls.bestPoint x d l h).2.2 = (ls.line x d (ls.bestPoint x d l h).1).1 := by
  unfold bestPoint at hn ⊢
  simp only at hn ⊢
  generalize e1 : (ls.line x d l) = p1 at *
  generalize e2 : (ls.line x d h) = p2 at *
  obtain ⟨v1, g1⟩ := p1
  obtain ⟨v2, g2⟩ := p2
  simp only at hn ⊢
  split_ifs with hc
  · simp only [e1, true_and]
    cases v1 <;> cases v2 <;> simp_all [Ext.lt, Ext.min]
    exact le_of_lt hc
  · simp only [e2, true_and]
    rw [if_neg hc] at hn
    cases v1 <;> cases v2 <;> simp_all [Ext.lt, Ext.min]

theorem wolfeError_le (ls : HZ K E) (ht : 0 ≤ ls.tol) (c v0 sl0 t : K) (v g : Ext K) :
    Ext.le (ls.wolfeError c v g (.fin v0) (.fin sl0) (.fin t)) (.fin ls.tol) = true →
      v ≠ .nan ∧ g.AtLeast (ls.c2 * sl0 - ls.tol) ∧ (v.AtMost (v0 + ls.c1 * c * sl0 + ls.tol) ∨
      (g.AtMost ((2 * ls.c1 - 1) * sl0 + ls.tol) ∧ v.AtMost (t + ls.tol))) := by
  rw [le_fin_iff]
  unfold wolfeError
  simp only [Ext.smul, Ext.add]
  rw [Ext.atMost_min]
  simp only [ne_eq, Ext.max_eq_nan, Ext.sub_fin_eq_nan, Ext.atMost_max, Ext.atMost_sub, Ext.atMost_sub']
  rintro ⟨h1, h2, h3⟩
  refine ⟨fun h => h1 (Or.inl (Or.inl h)), ?_, ?_⟩
  · rcases h3 with h3 | h3
    · exact h3.2
    · exact h3.1.2
  · rcases h3 with h3 | h3
    · left; exact h3.1.1
    · right; exact ⟨h3.1.1.1, h3.2⟩

theorem threshold_fin (ls : HZ K E) (v0 : K) : ls.threshold (.fin v0) = .fin (v0 + ls.awThreshold * |v0|) := rfl

/-- One update on a state that is not done. -/
theorem update_spec (ls : HZ K E) (ht : 0 ≤ ls.tol) {x g0 d : E} {v0 sl0 : K} (hsl : ls.vdot g0 d = .fin sl0)
    {s : K} {st st' : HZState K E} {s' : K} (hd : st.done = false)
    (h : ls.update x (.fin v0) g0 d (s, some st) = (s', some st')) :
    st'.params = x + s' • d ∧ st'.value = ls.f st'.params ∧ st'.grad = ls.grad st'.params ∧
    (st'.done = true → ls.WolfeOK x d v0 sl0 (v0 + ls.awThreshold * |v0|) s') ∧
    (st'.done = Ext.le st'.error (.fin ls.tol)) ∧
    (ls.Bracket x d (v0 + ls.awThreshold * |v0|) st.low st.high →
      ls.Bracket x d (v0 + ls.awThreshold * |v0|) st'.low st'.high ∧ st.low ≤ st'.low ∧ st'.high ≤ st.high) := by
  unfold update at h
  simp only [threshold_fin, hd, Bool.false_or, Bool.false_eq_true, if_false] at h
  cases hu : ls.updateBracket x d (.fin (v0 + ls.awThreshold * |v0|)) st with
  | none => rw [hu] at h; simp at h
  | some r =>
    rw [hu] at h
    simp only [Prod.mk.injEq, Option.some.injEq] at h
    obtain ⟨h1, h2⟩ := h
    subst h1; subst h2
    refine ⟨rfl, rfl, rfl, ?_, rfl, fun hb => hb.updateBracket hu⟩
    intro hdone
    simp only [hsl] at hdone
    obtain ⟨w1, w2, w3⟩ := wolfeError_le ls ht _ v0 sl0 _ _ _ hdone
    obtain ⟨e1, e2⟩ := bestPoint_eq ls x d r.2.1 r.2.2 w1
    rw [e1] at w2 w3
    rw [e2] at w3
    exact ⟨w2, w3⟩

/-- **C21** (whole search).  If the search does not already stop at its initial state, then the result is consistent
(params, value and grad at the returned stepsize) and `done` means the Wolfe or approximate Wolfe conditions hold there.
If moreover bracketing succeeded from a descent direction, the final interval is a bracket with the (weak) reference
conditions.  Missing from the English claim: consistency when the initial state is already done
(`C21_params_false`), the strict opposite-slope condition (`C21_opposite_slope_false`) and persistence of failures
(`C21_failed_forgotten_false`). -/
theorem C21_run_partial (ls : HZ K E) (ht : 0 ≤ ls.tol) (hm : 1 ≤ ls.maxiter) (init : K) (x : E) (value : Option (Ext K))
    (grad dir : Option E) (v0 sl0 : K) (g0 d : E) (hres : ls.resolve x value grad = (.fin v0, g0))
    (hdir : resolveDir (K := K) g0 dir = d) (hsl : ls.vdot g0 d = .fin sl0) (st0 : HZState K E)
    (h0 : ls.initState x (.fin v0) g0 d = some st0) (hd0 : st0.done = false) (s : K) (st : HZState K E)
    (hrun : ls.run init x value grad dir = .ok (s, some st)) :
    st.params = x + s • d ∧ st.value = ls.f st.params ∧ st.grad = ls.grad st.params ∧
    (st.done = true → ls.WolfeOK x d v0 sl0 (v0 + ls.awThreshold * |v0|) s) ∧
    (1 ≤ ls.expansion → st0.failed = false → (ls.line x d 1).1 ≠ .ninf →
      LeftOK (ls.line x d) (v0 + ls.awThreshold * |v0|) 0 →
      ls.Bracket x d (v0 + ls.awThreshold * |v0|) st.low st.high) := by
  unfold run at hrun
  simp only [hres, hdir] at hrun
  obtain ⟨k, hk1, hk2, hr, hc1, hc2⟩ := runS_spec hm hrun
  set B := 1 ≤ ls.expansion ∧ st0.failed = false ∧ (ls.line x d 1).1 ≠ .ninf ∧
      LeftOK (ls.line x d) (v0 + ls.awThreshold * |v0|) 0 with hB
  have hB0 : B → ls.Bracket x d (v0 + ls.awThreshold * |v0|) st0.low st0.high := by
    rintro ⟨b1, b2, b3, b4⟩
    unfold initState at h0
    rw [Option.map_eq_some_iff] at h0
    obtain ⟨r, hr, e⟩ := h0
    rw [threshold_fin] at hr
    subst e
    exact bracket_spec b1 b4 b3 hr b2
  have key : ∀ j, j < k → ∀ sj stj, (ls.update x (.fin v0) g0 d)^[j] (init, ls.initState x (.fin v0) g0 d) = (sj, some stj) →
      stj.done = false ∧ (B → ls.Bracket x d (v0 + ls.awThreshold * |v0|) stj.low stj.high) := by
    intro j
    induction j with
    | zero =>
      intro _ sj stj he
      simp only [Function.iterate_zero, id, h0, Prod.mk.injEq, Option.some.injEq] at he
      rw [← he.2]; exact ⟨hd0, hB0⟩
    | succ j ih =>
      intro hj sj stj he
      have hc := hc1 (j + 1) (by omega) hj
      rw [he] at hc
      simp only at hc
      rw [Function.iterate_succ_apply'] at he
      rcases hz : (ls.update x (.fin v0) g0 d)^[j] (init, ls.initState x (.fin v0) g0 d) with ⟨sp, op⟩
      rw [hz] at he
      cases op with
      | none => simp [update] at he
      | some stp =>
        obtain ⟨p1, p2⟩ := ih (by omega) sp stp hz
        obtain ⟨u1, u2, u3, u4, u5, u6⟩ := update_spec ls ht hsl p1 he
        refine ⟨?_, fun b => (u6 (p2 b)).1⟩
        rw [u5]
        cases hle : Ext.le stj.error (.fin ls.tol)
        · rfl
        · exfalso
          revert hc hle
          cases stj.error with
          | fin e => simp only [Ext.gt, Ext.lt, Ext.le, decide_eq_true_eq]; intro a b; exact absurd b (not_le.mpr a)
          | _ => simp [Ext.gt, Ext.lt, Ext.le]
  have ek : (ls.update x (.fin v0) g0 d)^[k] (init, ls.initState x (.fin v0) g0 d) =
      ls.update x (.fin v0) g0 d ((ls.update x (.fin v0) g0 d)^[k - 1] (init, ls.initState x (.fin v0) g0 d)) := by
    rw [← Function.iterate_succ_apply' (ls.update x (.fin v0) g0 d), Nat.succ_eq_add_one, Nat.sub_add_cancel hk1]
  rw [ek] at hr
  rcases hz : (ls.update x (.fin v0) g0 d)^[k - 1] (init, ls.initState x (.fin v0) g0 d) with ⟨sp, op⟩
  rw [hz] at hr
  cases op with
  | none => simp [update] at hr
  | some stp =>
    obtain ⟨p1, p2⟩ := key (k - 1) (by omega) sp stp hz
    obtain ⟨u1, u2, u3, u4, u5, u6⟩ := update_spec ls ht hsl p1 hr.symm
    exact ⟨u1, u2, u3, u4, fun b1 b2 b3 b4 => (u6 (p2 ⟨b1, b2, b3, b4⟩)).1⟩

/-- Example search on `ℚ` with default constants. -/
def exampleHZ (f g : ℚ → Ext ℚ) : HZ ℚ ℚ :=
  { f := f, grad := fun x => x, vdot := fun u v => Ext.smul v (g u), offLine := fun _ => (.nan, .nan), c1 := 1 / 10, c2 := 9 / 10,
    expansion := 5, shrinkage := 66 / 100, awThreshold := 1 / 1000000, tol := 0, maxiter := 30, fuel := 30, unroll := true,
    jit := false }

/-- Half of the square on the line. -/
def halfSq : HZ ℚ ℚ := exampleHZ (fun x => .fin (x * x / 2)) (fun x => .fin x)

/-- Non-vacuity: on `x² / 2` from `1` along `-2` the search brackets, then finishes with the exact minimiser. -/
example : ((halfSq.run 1 1 none none (some (-2))).toOption.map
    (fun r => (r.1, r.2.map (fun st => (st.params, st.done, st.failed))))) = some (1 / 2, some (0, true, false)) := by
  decide +kernel
example : (halfSq.initState 1 (.fin (1 / 2)) 1 (-2)).map (fun st => (st.done, st.failed)) = some (false, false) := by
  decide +kernel

/-- When the initial bracket already satisfies the Wolfe conditions, the stepsize returned is the caller's `init_stepsize`
while the parameters returned are those at another stepsize. -/
theorem C21_params_false : ¬ ∀ (ls : HZ ℚ ℚ) (init x d : ℚ) (s : ℚ) (st : HZState ℚ ℚ), 1 ≤ ls.maxiter →
    ls.run init x none none (some d) = .ok (s, some st) → st.done = true → st.failed = false → st.params = x + s • d := by
  intro hall
  have h2 : (halfSq.run 7 1 none none (some (-1 / 10))).toOption.map
      (fun r => (r.1, r.2.map (fun st => (st.done, st.failed, st.params)))) = some (7, some (true, false, 1 / 2)) := by
    decide +kernel
  rw [Option.map_eq_some_iff] at h2
  obtain ⟨⟨s, o⟩, e1, f1⟩ := h2
  simp only [Prod.mk.injEq, Option.map_eq_some_iff] at f1
  obtain ⟨rfl, st, rfl, f1, f2, f3⟩ := f1
  have e2 : halfSq.run 7 1 none none (some (-1 / 10)) = .ok (7, some st) := by
    cases hr : halfSq.run 7 1 none none (some (-1 / 10)) with
    | error e => rw [hr] at e1; cases e1
    | ok r => rw [hr] at e1; cases e1; rfl
  have := hall halfSq 7 1 (-1 / 10) 7 st (by decide) e2 f1 f2
  rw [f3] at this
  norm_num at this

/-- A table of values and slopes on the line, NaN elsewhere. -/
def tableHZ : HZ ℚ ℚ := exampleHZ
  (fun x => if x = 0 then .fin 0 else if x = 1 then .fin (-1 / 10) else if x = 1 / 2 then .fin (-1) else .nan)
  (fun x => if x = 0 then .fin (-1) else if x = 1 then .fin (-19 / 20) else if x = 1 / 2 then .fin (-1 / 2) else .nan)

/-- A failure (NaN met while bracketing) reported by the initial state is forgotten by the update. -/
theorem C21_failed_forgotten_false : ¬ ∀ (ls : HZ ℚ ℚ) (init x d v0 : ℚ) (st0 : HZState ℚ ℚ) (s : ℚ) (st : HZState ℚ ℚ),
    1 ≤ ls.maxiter → ls.f x = .fin v0 → ls.initState x (.fin v0) (ls.grad x) d = some st0 → st0.failed = true →
    ls.run init x none none (some d) = .ok (s, some st) → st.failed = true := by
  intro hall
  have h1 : (tableHZ.initState 0 (.fin 0) (tableHZ.grad 0) 1).map (fun st => st.failed) = some true := by decide +kernel
  have h2 : (tableHZ.run 1 0 none none (some 1)).toOption.map (fun r => r.2.map (fun st => st.failed)) = some (some false) := by
    decide +kernel
  rw [Option.map_eq_some_iff] at h1
  obtain ⟨st0, e0, f0⟩ := h1
  rw [Option.map_eq_some_iff] at h2
  obtain ⟨⟨s, o⟩, e1, f1⟩ := h2
  simp only [Option.map_eq_some_iff] at f1
  obtain ⟨st, rfl, f1⟩ := f1
  have e2 : tableHZ.run 1 0 none none (some 1) = .ok (s, some st) := by
    cases hr : tableHZ.run 1 0 none none (some 1) with
    | error e => rw [hr] at e1; cases e1
    | ok r => rw [hr] at e1; cases e1; rfl
  have := hall tableHZ 1 0 1 0 st0 s st (by decide) (by decide +kernel) e0 f0 e2
  rw [f1] at this; cases this

end HZ

end Jaxopt.LineSearch
