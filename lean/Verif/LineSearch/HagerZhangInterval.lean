import Verif.LineSearch.HagerZhangProps
import Mathlib.Tactic.FieldSimp
import Mathlib.Tactic.Linarith
import Mathlib.Tactic.LinearCombination

/-!
# Property C21, continued: the points tried by the Hager-Zhang search and the width of its interval
-/

set_option autoImplicit false
set_option linter.unusedSectionVars false
set_option linter.unusedVariables false

namespace Jaxopt.LineSearch

open Jaxopt.Base

variable {K E : Type*} [Field K] [LinearOrder K] [IsStrictOrderedRing K] [AddCommGroup E] [Module K E]

/-- `c` is the zero of the line through the slopes `da` at `a` and `db` at `b`. -/
def SlopeZero (a b da db c : K) : Prop := da * (b - c) + db * (c - a) = 0

/-- **C21**, secant: with distinct slopes `_secant` returns the only zero of the interpolated slope; when the slopes have opposite signs
it lies inside the interval. -/
theorem C21_secant (phi : K → Ext K × Ext K) (a b da db : K) (ha : (phi a).2 = .fin da) (hb : (phi b).2 = .fin db) (hne : da ≠ db) :
    ∃ c, secant phi a b = .fin c ∧ (∀ c', SlopeZero a b da db c' ↔ c' = c) ∧ (a < b → da < 0 → 0 ≤ db → a < c ∧ c ≤ b) := by
  have hd : db - da ≠ 0 := sub_ne_zero.mpr (Ne.symm hne)
  have e : secant phi a b = .fin ((a * db - b * da) / (db - da)) := by simp only [secant, ha, hb, if_neg hd]
  have hz : ∀ c', SlopeZero a b da db c' ↔ c' = (a * db - b * da) / (db - da) := by
    intro c'
    unfold SlopeZero
    rw [eq_div_iff hd]
    constructor <;> intro h <;> linear_combination h
  refine ⟨_, e, hz, fun hab hda hdb => ?_⟩
  have h1 := (hz ((a * db - b * da) / (db - da))).2 rfl
  have hpos : 0 < db - da := by linarith
  constructor
  · rw [lt_div_iff₀ hpos]; nlinarith
  · rw [div_le_iff₀ hpos]; nlinarith

/-- **C21**: `_update` at the midpoint of the interval performs at most one iteration.  It raises the failure flag exactly for a NaN and
otherwise cuts the interval in half: the upper half is dropped when the slope at the midpoint is not negative or its value is above the
threshold, and the lower half otherwise. -/
theorem C21_midpoint (phi : K → Ext K × Ext K) (t : K) (fuel : ℕ) (low high : K) (hlh : low < high) :
    updateInterval phi (.fin t) (fuel + 1) low high ((low + high) / 2) = some
      (if failedNan (phi ((low + high) / 2)).1 (phi ((low + high) / 2)).2 then (true, low, high)
        else if Ext.le (.fin 0) (phi ((low + high) / 2)).2 then (false, low, (low + high) / 2)
        else if Ext.le (phi ((low + high) / 2)).1 (.fin t) then (false, (low + high) / 2, high)
        else (false, low, (low + high) / 2)) := by
  have h1 : ¬ ((low + high) / 2 ≥ high) := by linarith
  have h2 : ¬ ((low + high) / 2 ≤ low) := by linarith
  have h3 : (low + high) / 2 < high := by linarith
  have h4 : (low + high) / 2 > low := by linarith
  unfold updateInterval
  simp only [h1, h2, decide_false, Bool.or_false]
  set m := (low + high) / 2 with hm
  cases hn : failedNan (phi m).1 (phi m).2
  · have hn' := hn
    simp only [failedNan, Bool.or_eq_false_iff] at hn'
    rw [updateLoop, if_pos (by simp [updateCond, h3, h4])]
    cases hr : Ext.le (.fin 0) (phi m).2
    · cases hl : Ext.le (phi m).1 (.fin t)
      · have hni : (phi m).1 ≠ .ninf := by intro h; rw [h] at hl; simp [Ext.le] at hl
        have hb : updateBody phi (.fin t) ⟨false, false, low, m, high, (phi m).1, (phi m).2⟩ =
            ⟨false, false, low, m, m, (phi m).1, (phi m).2⟩ := by
          simp [updateBody, hr, hl, hni, ← hm, hn]
        rw [hb]
        have hc : updateCond (⟨false, false, low, m, m, (phi m).1, (phi m).2⟩ : UState K) = false := by simp [updateCond]
        cases fuel <;> simp [updateLoop, hc]
      · have hb : updateBody phi (.fin t) ⟨false, false, low, m, high, (phi m).1, (phi m).2⟩ =
            ⟨true, false, m, m, high, (phi m).1, (phi m).2⟩ := by
          simp [updateBody, hr, hl, hn]
        rw [hb]
        have hc : updateCond (⟨true, false, m, m, high, (phi m).1, (phi m).2⟩ : UState K) = false := by simp [updateCond]
        cases fuel <;> simp [updateLoop, hc]
    · have hb : updateBody phi (.fin t) ⟨false, false, low, m, high, (phi m).1, (phi m).2⟩ =
          ⟨true, false, low, m, m, (phi m).1, (phi m).2⟩ := by
        simp [updateBody, hr, hn]
      rw [hb]
      have hc : updateCond (⟨true, false, low, m, m, (phi m).1, (phi m).2⟩ : UState K) = false := by simp [updateCond]
      cases fuel <;> simp [updateLoop, hc]
  · have hc : updateCond (⟨false, true, low, m, high, (phi m).1, (phi m).2⟩ : UState K) = false := by simp [updateCond]
    simp [updateLoop, hc]

namespace HZ

/-- **C21**, `_secant2`: if the first secant point `c` becomes the lower end, the second point tried is the zero of the slope interpolated
between the old lower end and `c`. -/
theorem C21_secant2_left (ls : HZ K E) (x d : E) (thr : Ext K) (low high c dl dc z : K) (f : Bool) (h : K)
    (hc : secant (ls.line x d) low high = .fin c) (hr : updateInterval (ls.line x d) thr ls.fuel low high c = some (f, c, h))
    (hl : (ls.line x d low).2 = .fin dl) (hcs : (ls.line x d c).2 = .fin dc) (hne : dl ≠ dc) (hz : SlopeZero low c dl dc z) :
    ls.secant2 x d thr low high = updateInterval (ls.line x d) thr ls.fuel c h z := by
  obtain ⟨z', e1, e2, _⟩ := C21_secant (ls.line x d) low c dl dc hl hcs hne
  have : z = z' := (e2 z).1 hz
  subst this
  unfold secant2
  rw [hc]
  simp only [updateE, hr, Option.bind_eq_bind, Option.bind_some, decide_true, if_true, Bool.true_or, e1]

/-- **C21**, `_secant2`: if the first secant point `c` becomes the upper end, the second point tried is the zero of the slope interpolated
between the old upper end and `c`. -/
theorem C21_secant2_right (ls : HZ K E) (x d : E) (thr : Ext K) (low high c dh dc z : K) (f : Bool) (l : K)
    (hc : secant (ls.line x d) low high = .fin c) (hr : updateInterval (ls.line x d) thr ls.fuel low high c = some (f, l, c))
    (hlc : l ≠ c) (hl : (ls.line x d high).2 = .fin dh) (hcs : (ls.line x d c).2 = .fin dc) (hne : dh ≠ dc)
    (hz : SlopeZero high c dh dc z) : ls.secant2 x d thr low high = updateInterval (ls.line x d) thr ls.fuel l c z := by
  obtain ⟨z', e1, e2, _⟩ := C21_secant (ls.line x d) high c dh dc hl hcs hne
  have : z = z' := (e2 z).1 hz
  subst this
  unfold secant2
  rw [hc]
  have hlc' : ¬ ((Ext.fin c : Ext K) = .fin l) := by simpa using Ne.symm hlc
  simp only [updateE, hr, Option.bind_eq_bind, Option.bind_some, decide_true, if_true, Bool.or_true, e1, hlc', decide_false,
    Bool.false_eq_true, if_false]

/-- **C21**, `_secant2`: if the first secant point becomes neither end, the interval of the first update is returned. -/
theorem C21_secant2_neither (ls : HZ K E) (x d : E) (thr : Ext K) (low high c : K) (f : Bool) (l h : K)
    (hc : secant (ls.line x d) low high = .fin c) (hr : updateInterval (ls.line x d) thr ls.fuel low high c = some (f, l, h))
    (hl : l ≠ c) (hh : h ≠ c) : ls.secant2 x d thr low high = some (f, l, h) := by
  unfold secant2
  rw [hc]
  have h1 : ¬ ((Ext.fin c : Ext K) = .fin l) := by simpa using Ne.symm hl
  have h2 : ¬ ((Ext.fin c : Ext K) = .fin h) := by simpa using Ne.symm hh
  simp only [updateE, hr, Option.bind_eq_bind, Option.bind_some, h1, h2, decide_false, Bool.or_self, Bool.false_eq_true, if_false]

/-- **C21**: an update that is not done and does not fail shrinks the interval by at least the factor `max(shrinkage_factor, 1/2)`. -/
theorem C21_shrink (ls : HZ K E) {x : E} {v0 t : K} {g0 d : E} (ht : ls.threshold (.fin v0) = .fin t) (hfuel : 1 ≤ ls.fuel)
    (hsh : 0 ≤ ls.shrinkage) {s s' : K} {st st' : HZState K E} (hd : st.done = false) (hlh : st.low ≤ st.high)
    (hb : ls.Bracket x d t st.low st.high) (h : ls.update x (.fin v0) g0 d (s, some st) = (s', some st')) (hf : st'.failed = false) :
    st'.high - st'.low ≤ max ls.shrinkage (1 / 2) * (st.high - st.low) := by
  have hw : 0 ≤ st.high - st.low := by linarith
  unfold update at h
  simp only [ht] at h
  rcases hu : ls.updateBracket x d (.fin t) st with _ | r
  · rw [hu] at h; simp at h
  rw [hu] at h
  simp only [Prod.mk.injEq, Option.some.injEq] at h
  obtain ⟨_, h⟩ := h
  rw [← h] at hf ⊢
  simp only [Bool.or_eq_false_iff] at hf ⊢
  have hr := hf.1
  unfold updateBracket at hu
  simp only [Option.bind_eq_bind, Option.bind_eq_some_iff, hd, Bool.false_eq_true, if_false, Bool.not_false, Bool.true_and] at hu
  obtain ⟨q, hq, hu⟩ := hu
  obtain ⟨q1, q2, q3⟩ := hb.secant2 hq
  by_cases hc : q.2.2 - q.2.1 > ls.shrinkage * (st.high - st.low)
  · rw [if_pos (by simpa using hc)] at hu
    obtain ⟨n, hn⟩ := Nat.exists_eq_add_of_le hfuel
    have hlt : q.2.1 < q.2.2 := by
      have := mul_nonneg hsh hw
      linarith
    rw [hn, Nat.add_comm, C21_midpoint _ t n _ _ hlt, Option.some.injEq] at hu
    have hm : 1 / 2 * (st.high - st.low) ≤ max ls.shrinkage (1 / 2) * (st.high - st.low) :=
      mul_le_mul_of_nonneg_right (le_max_right _ _) hw
    subst hu
    revert hr
    split_ifs
    · intro hr; cases hr
    all_goals intro _; simp only; linarith
  · rw [if_neg (by simpa using hc), Option.some.injEq] at hu
    subst hu
    have hm : ls.shrinkage * (st.high - st.low) ≤ max ls.shrinkage (1 / 2) * (st.high - st.low) :=
      mul_le_mul_of_nonneg_right (le_max_left _ _) hw
    simp only
    linarith

/-- **C21**: a NaN value or slope at the midpoint tried after an insufficient secant step is reported as a failure, as is a NaN met by a
sufficient secant step. -/
theorem C21_nan_failed (ls : HZ K E) {x : E} {v0 t : K} {g0 d : E} (ht : ls.threshold (.fin v0) = .fin t) (hfuel : 1 ≤ ls.fuel)
    (hsh : 0 ≤ ls.shrinkage) {s s' : K} {st st' : HZState K E} (hd : st.done = false) (hlh : st.low ≤ st.high)
    {fl : Bool} {l u : K} (hq : ls.secant2 x d (.fin t) st.low st.high = some (fl, l, u))
    (h : ls.update x (.fin v0) g0 d (s, some st) = (s', some st')) :
    (u - l > ls.shrinkage * (st.high - st.low) → failedNan (ls.line x d ((l + u) / 2)).1 (ls.line x d ((l + u) / 2)).2 = true →
      st'.failed = true) ∧
    (u - l ≤ ls.shrinkage * (st.high - st.low) → fl = true ∨ st.failed = true → st'.failed = true) := by
  have hw : 0 ≤ st.high - st.low := by linarith
  unfold update at h
  simp only [ht] at h
  rcases hu : ls.updateBracket x d (.fin t) st with _ | r
  · rw [hu] at h; simp at h
  rw [hu] at h
  simp only [Prod.mk.injEq, Option.some.injEq] at h
  obtain ⟨_, h⟩ := h
  rw [← h]
  simp only [Bool.or_eq_true]
  unfold updateBracket at hu
  simp only [hq, Option.bind_eq_bind, Option.bind_some, hd, Bool.false_eq_true, if_false, Bool.not_false, Bool.true_and] at hu
  constructor
  · intro hc hn
    left
    rw [if_pos (by simpa using hc)] at hu
    obtain ⟨n, hn'⟩ := Nat.exists_eq_add_of_le hfuel
    have hlt : l < u := by
      have := mul_nonneg hsh hw
      linarith
    rw [hn', Nat.add_comm, C21_midpoint _ t n _ _ hlt, Option.some.injEq, if_pos hn] at hu
    rw [← hu]
  · intro hc hn
    left
    rw [if_neg (by simpa using hc), Option.some.injEq] at hu
    rw [← hu]
    simpa [or_comm] using hn

/-- The hypotheses of `C21_shrink` hold on the second update for `|c - 1|³`-like slopes: here one update on `(c - 1)²` from `[0, 5]`. -/
example : (halfSq.secant2 1 (-2) (.fin (1 / 2)) 0 5) = some (false, 0, 1 / 2) := by decide +kernel

/-- NaN at the midpoint: the flag is raised. -/
example : updateInterval (fun c : ℚ => if c = 1 then (.nan, .nan) else (.fin 0, .fin (-1))) (.fin 0) 5 0 2 1 = some (true, 0, 2) := by
  decide +kernel

/-- The secant of slopes `-2` at `0` and `4` at `3` is `1`. -/
example : secant (fun c : ℚ => (.fin 0, .fin (2 * c - 2))) 0 3 = .fin 1 := by decide +kernel

end HZ

end Jaxopt.LineSearch
