import Verif.LineSearch.Zoom
import Mathlib.Tactic.Ring

/-!
# Property C20: zoom line search
-/

set_option autoImplicit false
set_option linter.unusedSectionVars false
set_option linter.unusedVariables false

namespace Jaxopt.LineSearch

open Jaxopt.Base

variable {K E : Type*} [Field K] [LinearOrder K] [IsStrictOrderedRing K] [AddCommGroup E] [Module K E]

/-- Sufficient decrease at stepsize `s`, up to `tol`: the value and slope are numbers and either the Armijo condition or
the approximate Wolfe condition (Hager-Zhang (23) together with `f(x+sd) ≤ f(x) + c3 |f(x)|`) holds. -/
def DecreaseOK (ls : Zoom K E) (x d : E) (v0 sl0 : K) (s : K) : Prop :=
  let v := ls.f (x + s • d)
  let sl := ls.vdot (ls.grad (x + s • d)) d
  v ≠ .nan ∧ sl ≠ .nan ∧
    (v.AtMost (v0 + ls.c1 * s * sl0 + ls.tol) ∨
      (sl.AtMost ((2 * ls.c1 - 1) * sl0 + ls.tol) ∧ v.AtMost (v0 + ls.c3 * |v0| + ls.tol)))

/-- Strong-Wolfe curvature at stepsize `s`, up to `tol`. -/
def CurvatureOK (ls : Zoom K E) (x d : E) (sl0 : K) (s : K) : Prop :=
  (ls.vdot (ls.grad (x + s • d)) d).abs.AtMost (ls.c2 * |sl0| + ls.tol)

theorem decreaseError_atMost (ls : Zoom K E) (s v0 sl0 t : K) (v sl : Ext K) :
    (ls.decreaseError s v sl (.fin v0) (.fin sl0)).AtMost t ↔
      v ≠ .nan ∧ sl ≠ .nan ∧ (v.AtMost (v0 + ls.c1 * s * sl0 + t) ∨
      (sl.AtMost ((2 * ls.c1 - 1) * sl0 + t) ∧ v.AtMost (v0 + ls.c3 * |v0| + t))) := by
  unfold Zoom.decreaseError
  simp only [Ext.smul, Ext.abs]
  rw [Ext.atMost_min]
  simp only [ne_eq, Ext.max_eq_nan, Ext.sub_fin_eq_nan, Ext.atMost_max, Ext.atMost_sub]
  have e1 : v0 + (ls.c3 * |v0| + t) = v0 + ls.c3 * |v0| + t := by ring
  have e2 : v0 + (ls.c1 * s * sl0 + t) = v0 + ls.c1 * s * sl0 + t := by ring
  rw [e1, e2]
  tauto

theorem clip_decrease_le (ls : Zoom K E) (ht : 0 ≤ ls.tol) (x d : E) (s v0 sl0 : K) :
    Ext.le (Zoom.clipErr (ls.decreaseError s (ls.f (x + s • d)) (ls.vdot (ls.grad (x + s • d)) d) (.fin v0) (.fin sl0)))
      (.fin ls.tol) = true ↔ DecreaseOK ls x d v0 sl0 s := by
  unfold Zoom.clipErr
  rw [Ext.posPart_le' ht, decreaseError_atMost]
  rfl

theorem clip_decrease_gt (ls : Zoom K E) (ht : 0 ≤ ls.tol) (x d : E) (s v0 sl0 : K)
    (h : Ext.gt (Zoom.clipErr (ls.decreaseError s (ls.f (x + s • d)) (ls.vdot (ls.grad (x + s • d)) d) (.fin v0) (.fin sl0)))
      (.fin 0) = false) : DecreaseOK ls x d v0 sl0 s := by
  unfold Zoom.clipErr at h
  rw [Ext.nanToInf_max_gt_zero] at h
  rw [← clip_decrease_le ls ht, Zoom.clipErr, Ext.posPart_le' ht]
  exact h.mono ht

theorem clip_curvature_le (ls : Zoom K E) (ht : 0 ≤ ls.tol) (x d : E) (s sl0 : K) :
    Ext.le (Zoom.clipErr (ls.curvatureError (ls.vdot (ls.grad (x + s • d)) d) (.fin sl0))) (.fin ls.tol) = true ↔
      CurvatureOK ls x d sl0 s := by
  unfold Zoom.clipErr Zoom.curvatureError
  rw [Ext.posPart_le' ht]
  simp only [Ext.smul, Ext.abs]
  rw [Ext.atMost_sub]
  rfl

/-- Data of one search: start, direction, value and slope at zero. -/
structure Setup (K E : Type*) where
  x : E
  g : E
  d : E
  v0 : K
  sl0 : K

/-- Invariant of an unfinished search after `n` updates. -/
structure ZInv (ls : Zoom K E) (p : Setup K E) (n : ℕ) (z : K × ZState K E) : Prop where
  iter : z.2.iterNum = n
  params : z.2.params = p.x
  valueInit : z.2.valueInit = .fin p.v0
  slopeInit : z.2.slopeInit = .fin p.sl0
  dir : z.2.dir = p.d
  start : n = 0 → 0 < z.1
  prev : 0 ≤ z.2.prevStepsize ∧ z.2.prevStepsize ≤ ls.maxStepsize
  prevPos : 0 < n → 0 < z.2.prevStepsize
  low : 0 ≤ z.2.low ∧ z.2.low ≤ ls.maxStepsize
  high : 0 ≤ z.2.high ∧ z.2.high ≤ ls.maxStepsize
  safe : 0 ≤ z.2.safeStepsize ∧ z.2.safeStepsize ≤ ls.maxStepsize
  safeOK : z.2.safeStepsize = 0 ∨ DecreaseOK ls p.x p.d p.v0 p.sl0 z.2.safeStepsize

/-- What one raw update guarantees. -/
structure RawSpec (ls : Zoom K E) (p : Setup K E) (n : ℕ) (z y : K × ZState K E) : Prop where
  range : 0 ≤ y.1 ∧ y.1 ≤ ls.maxStepsize
  iter : y.2.iterNum = n + 1
  valueInit : y.2.valueInit = .fin p.v0
  slopeInit : y.2.slopeInit = .fin p.sl0
  dir : y.2.dir = p.d
  doneOK : y.2.done = true → DecreaseOK ls p.x p.d p.v0 p.sl0 y.1 ∧
    (CurvatureOK ls p.x p.d p.sl0 y.1 ∨
      (y.1 = ls.maxStepsize ∧ Ext.le (.fin 0) (ls.vdot (ls.grad (p.x + y.1 • p.d)) p.d) = false))
  doneParams : y.2.done = true → y.2.params = p.x + y.1 • p.d ∧ y.2.value = ls.f y.2.params ∧ y.2.grad = ls.grad y.2.params
  params : y.2.done = false → y.2.params = p.x
  excl : y.2.failed = true → y.2.done = false
  budget : y.2.done = false → y.2.failed = false → n + 1 < ls.maxiter
  prev : 0 ≤ y.2.prevStepsize ∧ y.2.prevStepsize ≤ ls.maxStepsize
  prevPos : 0 < y.2.prevStepsize
  low : 0 ≤ y.2.low ∧ y.2.low ≤ ls.maxStepsize
  high : 0 ≤ y.2.high ∧ y.2.high ≤ ls.maxStepsize
  safe : 0 ≤ y.2.safeStepsize ∧ y.2.safeStepsize ≤ ls.maxStepsize
  safeOK : y.2.safeStepsize = 0 ∨ DecreaseOK ls p.x p.d p.v0 p.sl0 y.2.safeStepsize
  record : DecreaseOK ls p.x p.d p.v0 p.sl0 y.1 → 0 < y.1 → 0 < y.2.safeStepsize
  keep : 0 < z.2.safeStepsize → 0 < y.2.safeStepsize

/-- Side conditions on the attributes. -/
structure ZoomOK (ls : Zoom K E) : Prop where
  tol : 0 ≤ ls.tol
  max : 0 < ls.maxStepsize
  inc : 0 < ls.increaseFactor
  cubic : 0 ≤ ls.relTolCubic
  quad : 0 ≤ ls.relTolQuad

theorem search_spec {ls : Zoom K E} (hok : ZoomOK ls) {p : Setup K E} {n : ℕ} {z : K × ZState K E} (h : ZInv ls p n z)
    (hn : z.2.intervalFound = true → 0 < n) : RawSpec ls p n z (ls.searchInterval z.1 z.2) := by
  obtain ⟨ht, hmax, hinc, -, -⟩ := hok
  set y := ls.searchInterval z.1 z.2 with hy
  have hspos : 0 < y.1 := by
    have e : y.1 = min (if z.2.iterNum = 0 then z.1 else ls.increaseFactor * z.2.prevStepsize) ls.maxStepsize := rfl
    rw [e]
    refine lt_min ?_ hmax
    split_ifs with h0
    · exact h.start (by rw [← h.iter]; exact h0)
    · exact mul_pos hinc (h.prevPos (by rw [← h.iter]; omega))
  have hsmax : y.1 ≤ ls.maxStepsize := min_le_right _ _
  -- errors at the new step
  set step := p.x + y.1 • p.d with hstep
  set dec := Zoom.clipErr (ls.decreaseError y.1 (ls.f step) (ls.vdot (ls.grad step) p.d) (.fin p.v0) (.fin p.sl0)) with hdec
  set cur := Zoom.clipErr (ls.curvatureError (ls.vdot (ls.grad step) p.d) (.fin p.sl0)) with hcur
  have estep : z.2.params + y.1 • z.2.dir = step := by rw [h.params, h.dir]
  have edec : y.2.decreaseError = dec := by
    rw [hdec, ← estep, ← h.valueInit, ← h.slopeInit, ← h.dir]; rfl
  have eerr : y.2.error = Ext.max dec cur := by
    rw [hdec, hcur, ← estep, ← h.valueInit, ← h.slopeInit, ← h.dir]; rfl
  have efound : y.2.intervalFound = ((Ext.gt y.2.decreaseError (.fin 0) ||
      (Ext.le z.2.prevValue y.2.prevValue && decide (z.2.iterNum > 0))) || (Ext.le (.fin 0) y.2.prevSlope &&
      !(Ext.gt y.2.decreaseError (.fin 0) || (Ext.le z.2.prevValue y.2.prevValue && decide (z.2.iterNum > 0)))) ||
      Ext.le y.2.error (.fin ls.tol)) := rfl
  have edone : y.2.done = (Ext.le y.2.error (.fin ls.tol) || (decide (y.1 ≥ ls.maxStepsize) && !y.2.intervalFound)) := rfl
  have hdecOK : Ext.le dec (.fin ls.tol) = true ↔ DecreaseOK ls p.x p.d p.v0 p.sl0 y.1 := clip_decrease_le ls ht _ _ _ _ _
  have hcurOK : Ext.le cur (.fin ls.tol) = true ↔ CurvatureOK ls p.x p.d p.sl0 y.1 := clip_curvature_le ls ht _ _ _ _
  have esafe : y.2.safeStepsize = if Ext.le y.2.decreaseError (.fin ls.tol) then y.1 else z.2.safeStepsize := rfl
  have eparams : y.2.params = if y.2.done then z.2.params + y.1 • z.2.dir else z.2.params := rfl
  have evalue : y.2.value = if y.2.done then ls.f (z.2.params + y.1 • z.2.dir) else z.2.valueInit := rfl
  have egrad : y.2.grad = if y.2.done then ls.grad (z.2.params + y.1 • z.2.dir) else z.2.grad := rfl
  have efail : y.2.failed = (decide (z.2.iterNum + 1 ≥ ls.maxiter) && !y.2.done) := rfl
  refine ⟨⟨le_of_lt hspos, hsmax⟩, ?_, h.valueInit, h.slopeInit, h.dir, ?_, ?_, ?_, ?_, ?_, ⟨le_of_lt hspos, hsmax⟩, hspos, ?_, ?_, ?_, ?_, ?_, ?_⟩
  · show z.2.iterNum + 1 = n + 1; rw [h.iter]
  · intro hd
    rw [edone, Bool.or_eq_true] at hd
    rcases hd with hd | hd
    · rw [eerr, Ext.max_le_iff, hdecOK, hcurOK] at hd
      exact ⟨hd.1, Or.inl hd.2⟩
    · simp only [Bool.and_eq_true, Bool.not_eq_true', decide_eq_true_eq] at hd
      obtain ⟨h1, h2⟩ := hd
      rw [efound] at h2
      simp only [Bool.or_eq_false_iff] at h2
      have h3 := h2.1.1.1
      have h4 := h2.1.2
      have h5 : (Ext.gt y.2.decreaseError (.fin 0) || (Ext.le z.2.prevValue y.2.prevValue && decide (z.2.iterNum > 0))) = false := by
        rw [h2.1.1.1, h2.1.1.2]; rfl
      rw [h5, Bool.not_false, Bool.and_true] at h4
      have h6 : y.2.prevSlope = ls.vdot (ls.grad step) p.d := by rw [← estep, ← h.dir]; rfl
      rw [edec] at h3
      exact ⟨clip_decrease_gt ls ht _ _ _ _ _ h3, Or.inr ⟨le_antisymm hsmax h1, by rw [← h6]; exact h4⟩⟩
  · intro hd
    have hp : y.2.params = step := by rw [eparams, hd, if_pos rfl, estep]
    refine ⟨hp, ?_, ?_⟩
    · rw [evalue, hd, if_pos rfl, hp, estep]
    · rw [egrad, hd, if_pos rfl, hp, estep]
  · intro hd
    rw [eparams, hd]; simpa using h.params
  · intro hf
    rw [efail] at hf
    simp only [Bool.and_eq_true, Bool.not_eq_true'] at hf
    exact hf.2
  · intro hd hf
    rw [efail, hd, h.iter] at hf
    simpa using hf
  · have e : y.2.low = if (Ext.le (.fin 0) y.2.prevSlope &&
      !(Ext.gt y.2.decreaseError (.fin 0) || (Ext.le z.2.prevValue y.2.prevValue && decide (z.2.iterNum > 0)))) then y.1
        else z.2.prevStepsize := rfl
    rw [e]; split_ifs
    · exact ⟨le_of_lt hspos, hsmax⟩
    · exact h.prev
  · have e : y.2.high = if (Ext.le (.fin 0) y.2.prevSlope &&
      !(Ext.gt y.2.decreaseError (.fin 0) || (Ext.le z.2.prevValue y.2.prevValue && decide (z.2.iterNum > 0))))
        then z.2.prevStepsize else y.1 := rfl
    rw [e]; split_ifs
    · exact h.prev
    · exact ⟨le_of_lt hspos, hsmax⟩
  · rw [esafe]; split_ifs
    · exact ⟨le_of_lt hspos, hsmax⟩
    · exact h.safe
  · rw [esafe, edec]; split_ifs with hc
    · right; exact hdecOK.mp hc
    · exact h.safeOK
  · intro hD hpos
    rw [esafe, edec, if_pos (hdecOK.mpr hD)]; exact hpos
  · intro hpos
    rw [esafe]; split_ifs
    · exact hspos
    · exact hpos

theorem middle_range {ls : Zoom K E} (hok : ZoomOK ls) (st : ZState K E) (hl : 0 ≤ st.low ∧ st.low ≤ ls.maxStepsize)
    (hh : 0 ≤ st.high ∧ st.high ≤ ls.maxStepsize) : 0 ≤ ls.middle st ∧ ls.middle st ≤ ls.maxStepsize := by
  have key : ∀ (m : Ext K) (chk : K), 0 ≤ chk →
      (Ext.gt m (.fin (min st.high st.low + chk)) && Ext.lt m (.fin (max st.high st.low - chk))) = true →
      0 ≤ (match m with | .fin x => x | _ => st.cubicRef) ∧
        (match m with | .fin x => x | _ => st.cubicRef) ≤ ls.maxStepsize := by
    intro m chk hc hv
    have h1 : 0 ≤ min st.high st.low := le_min hh.1 hl.1
    have h2 : max st.high st.low ≤ ls.maxStepsize := max_le hh.2 hl.2
    cases m with
    | fin x =>
      simp only [Ext.gt, Ext.lt, Bool.and_eq_true, decide_eq_true_eq] at hv
      constructor <;> simp only <;> linarith [hv.1, hv.2]
    | _ => simp [Ext.gt, Ext.lt] at hv
  unfold Zoom.middle
  simp only
  split_ifs with h1 h2
  · exact key _ _ (mul_nonneg hok.cubic (abs_nonneg _)) h1
  · exact key _ _ (mul_nonneg hok.quad (abs_nonneg _)) h2
  · constructor
    · have := hl.1; have := hh.1; linarith
    · have := hl.2; have := hh.2; linarith

theorem zoom_spec {ls : Zoom K E} (hok : ZoomOK ls) {p : Setup K E} {n : ℕ} {z : K × ZState K E} (h : ZInv ls p n z)
    (hn : 0 < n) : RawSpec ls p n z (ls.zoomIntoInterval z.2) := by
  have hrange := middle_range hok z.2 h.low h.high
  obtain ⟨ht, hmax, hinc, -, -⟩ := hok
  set y := ls.zoomIntoInterval z.2 with hy
  have hy1 : y.1 = ls.middle z.2 := rfl
  rw [← hy1] at hrange
  set step := p.x + y.1 • p.d with hstep
  set dec := Zoom.clipErr (ls.decreaseError y.1 (ls.f step) (ls.vdot (ls.grad step) p.d) (.fin p.v0) (.fin p.sl0)) with hdec
  set cur := Zoom.clipErr (ls.curvatureError (ls.vdot (ls.grad step) p.d) (.fin p.sl0)) with hcur
  have estep : z.2.params + y.1 • z.2.dir = step := by rw [h.params, h.dir]
  have edec : y.2.decreaseError = dec := by
    rw [hdec, ← estep, ← h.valueInit, ← h.slopeInit, ← h.dir]; rfl
  have eerr : y.2.error = Ext.max dec cur := by
    rw [hdec, hcur, ← estep, ← h.valueInit, ← h.slopeInit, ← h.dir]; rfl
  have edone : y.2.done = Ext.le y.2.error (.fin ls.tol) := rfl
  have hdecOK : Ext.le dec (.fin ls.tol) = true ↔ DecreaseOK ls p.x p.d p.v0 p.sl0 y.1 := clip_decrease_le ls ht _ _ _ _ _
  have hcurOK : Ext.le cur (.fin ls.tol) = true ↔ CurvatureOK ls p.x p.d p.sl0 y.1 := clip_curvature_le ls ht _ _ _ _
  have esafe : y.2.safeStepsize = max (if Ext.le y.2.decreaseError (.fin ls.tol) then y.1 else z.2.safeStepsize)
      z.2.safeStepsize := rfl
  have eparams : y.2.params = if y.2.done then z.2.params + y.1 • z.2.dir else z.2.params := rfl
  have evalue : y.2.value = if y.2.done then ls.f (z.2.params + y.1 • z.2.dir) else z.2.valueInit := rfl
  have egrad : y.2.grad = if y.2.done then ls.grad (z.2.params + y.1 • z.2.dir) else z.2.grad := rfl
  have efail : y.2.failed = ((decide (z.2.iterNum + 1 ≥ ls.maxiter) ||
      (decide (|z.2.high - z.2.low| ≤ ls.intervalThreshold) && decide (y.2.safeStepsize > 0))) && !y.2.done) := rfl
  refine ⟨hrange, ?_, h.valueInit, h.slopeInit, h.dir, ?_, ?_, ?_, ?_, ?_, h.prev, h.prevPos hn, ?_, ?_, ?_, ?_, ?_, ?_⟩
  · show z.2.iterNum + 1 = n + 1; rw [h.iter]
  · intro hd
    rw [edone, eerr, Ext.max_le_iff, hdecOK, hcurOK] at hd
    exact ⟨hd.1, Or.inl hd.2⟩
  · intro hd
    have hp : y.2.params = step := by rw [eparams, hd, if_pos rfl, estep]
    refine ⟨hp, ?_, ?_⟩
    · rw [evalue, hd, if_pos rfl, hp, estep]
    · rw [egrad, hd, if_pos rfl, hp, estep]
  · intro hd
    rw [eparams, hd]; simpa using h.params
  · intro hf
    rw [efail] at hf
    simp only [Bool.and_eq_true, Bool.not_eq_true'] at hf
    exact hf.2
  · intro hd hf
    rw [efail, hd, h.iter] at hf
    simp only [Bool.not_false, Bool.and_true, Bool.or_eq_false_iff, decide_eq_false_iff_not] at hf
    omega
  · have e : y.2.low = if (!(Ext.gt y.2.decreaseError (.fin 0) || Ext.le z.2.valueLow (ls.f (z.2.params + y.1 • z.2.dir))))
        then y.1 else z.2.low := rfl
    rw [e]; split_ifs
    · exact hrange
    · exact h.low
  · have e : y.2.high = if (Ext.le (.fin 0) (Ext.smul (z.2.high - z.2.low)
          (ls.vdot (ls.grad (z.2.params + y.1 • z.2.dir)) z.2.dir)) &&
          !(Ext.gt y.2.decreaseError (.fin 0) || Ext.le z.2.valueLow (ls.f (z.2.params + y.1 • z.2.dir)))) then z.2.low
        else if (Ext.gt y.2.decreaseError (.fin 0) || Ext.le z.2.valueLow (ls.f (z.2.params + y.1 • z.2.dir))) then y.1
          else z.2.high := rfl
    rw [e]; split_ifs
    · exact h.low
    · exact hrange
    · exact h.high
  · rw [esafe]
    constructor
    · exact le_trans h.safe.1 (le_max_right _ _)
    · refine max_le ?_ h.safe.2
      split_ifs
      · exact hrange.2
      · exact h.safe.2
  · rw [esafe, edec]
    by_cases hc : Ext.le dec (.fin ls.tol) = true
    · rw [if_pos hc]
      rcases max_choice y.1 z.2.safeStepsize with e | e
      · rw [e]; right; exact hdecOK.mp hc
      · rw [e]; exact h.safeOK
    · rw [if_neg hc, max_self]; exact h.safeOK
  · intro hD hpos
    rw [esafe, edec, if_pos (hdecOK.mpr hD)]; exact lt_of_lt_of_le hpos (le_max_left _ _)
  · intro hpos
    rw [esafe]; exact lt_of_lt_of_le hpos (le_max_right _ _)

/-- Invariant of unfinished searches including the phase. -/
def Unfinished (ls : Zoom K E) (p : Setup K E) (n : ℕ) (z : K × ZState K E) : Prop :=
  ZInv ls p n z ∧ (z.2.intervalFound = true → 0 < n)

theorem raw_spec {ls : Zoom K E} (hok : ZoomOK ls) {p : Setup K E} {n : ℕ} {z : K × ZState K E}
    (h : Unfinished ls p n z) : RawSpec ls p n z (ls.rawUpdate z) := by
  unfold Zoom.rawUpdate
  split_ifs with hf
  · exact zoom_spec hok h.1 (h.2 hf)
  · exact search_spec hok h.1 h.2

theorem next_unfinished {ls : Zoom K E} {p : Setup K E} {n : ℕ} {z : K × ZState K E}
    (h : RawSpec ls p n z (ls.rawUpdate z)) (hd : (ls.rawUpdate z).2.done = false)
    (hf : (ls.rawUpdate z).2.failed = false) :
    ls.update z = ls.rawUpdate z ∧ Unfinished ls p (n + 1) (ls.update z) := by
  have e : ls.update z = ls.rawUpdate z := by simp [Zoom.update, hf]
  rw [e]
  exact ⟨rfl, ⟨⟨h.iter, h.params hd, h.valueInit, h.slopeInit, h.dir, fun h0 => by omega, h.prev, fun _ => h.prevPos,
    h.low, h.high, h.safe, h.safeOK⟩, fun _ => by omega⟩⟩

/-- The stepsize tried by update number `j + 1` of a search started at `z`. -/
def triedStep (ls : Zoom K E) (z : K × ZState K E) (j : ℕ) : K := (ls.rawUpdate (ls.update^[j] z)).1

/-- **C20** (partial: the clause "a failed search with a positive step has sufficient decrease" is false, see
`C20_failed_step_unsafe_false`; what holds is the last clause here).  For a search started with a positive stepsize at a point with finite value `v0` and slope `sl0`:
the returned step lies in `[0, max_stepsize]`; params, value and grad of the state are those at the returned step; exactly
one of `done` and `failed` is reported; `done` implies sufficient decrease and (curvature, or `max_stepsize` reached with the objective still decreasing);
`failed` implies that if any tried step gave sufficient decrease then the returned one does. -/
theorem C20_zoom_partial (ls : Zoom K E) (hok : ZoomOK ls) (hm : 1 ≤ ls.maxiter) (init : K) (hinit : 0 < init) (x g0 : E)
    (v0 sl0 : K) (value : Option (Ext K)) (grad dir : Option E)
    (hstart : (value = some (.fin v0) ∧ grad = some g0) ∨ ((value = none ∨ grad = none) ∧ ls.f x = .fin v0 ∧ ls.grad x = g0))
    (hslope : ls.vdot g0 (dir.getD (-g0)) = .fin sl0)
    (stepsize : K) (st : ZState K E) (hrun : ls.run init x value grad dir = .ok (stepsize, st)) :
    let d := dir.getD (-g0)
    0 ≤ stepsize ∧ stepsize ≤ ls.maxStepsize ∧
    st.params = x + stepsize • d ∧ st.value = ls.f st.params ∧ st.grad = ls.grad st.params ∧
    (st.done = true ↔ st.failed = false) ∧
    (st.done = true → DecreaseOK ls x d v0 sl0 stepsize ∧ (CurvatureOK ls x d sl0 stepsize ∨
      (stepsize = ls.maxStepsize ∧ Ext.le (.fin 0) (ls.vdot (ls.grad (x + stepsize • d)) d) = false))) ∧
    (∃ k, 1 ≤ k ∧ k ≤ ls.maxiter ∧ (stepsize, st) = ls.update^[k] (init, ls.initState x value grad dir) ∧
      (st.failed = true → ∀ j < k, 0 < triedStep ls (init, ls.initState x value grad dir) j →
        DecreaseOK ls x d v0 sl0 (triedStep ls (init, ls.initState x value grad dir) j) →
        0 < stepsize ∧ DecreaseOK ls x d v0 sl0 stepsize)) := by
  intro d
  set z0 := (init, ls.initState x value grad dir) with hz0
  set p : Setup K E := ⟨x, g0, d, v0, sl0⟩ with hp
  have hvg : (ls.initState x value grad dir).valueInit = .fin v0 ∧ (ls.initState x value grad dir).grad = g0 ∧
      (ls.initState x value grad dir).dir = d ∧ (ls.initState x value grad dir).slopeInit = .fin sl0 := by
    rcases hstart with ⟨h1, h2⟩ | ⟨h1, h2, h3⟩
    · subst h1; subst h2
      cases dir with
      | none => simp [Zoom.initState, d] at hslope ⊢; exact hslope
      | some e => simp [Zoom.initState, d] at hslope ⊢; exact hslope
    · have e : ls.initState x value grad dir = ls.initState x none none dir := by
        rcases h1 with h1 | h1
        · subst h1; cases grad <;> rfl
        · subst h1; cases value <;> rfl
      rw [e]
      cases dir with
      | none => simp [Zoom.initState, d, h2, h3] at hslope ⊢; exact hslope
      | some e => simp [Zoom.initState, d, h2, h3] at hslope ⊢; exact hslope
  have h0 : Unfinished ls p 0 z0 := by
    have hmax := hok.max
    refine ⟨⟨rfl, rfl, hvg.1, hvg.2.2.2, hvg.2.2.1, fun _ => hinit, ⟨le_refl _, le_of_lt hmax⟩, fun h => by omega,
      ⟨le_refl _, le_of_lt hmax⟩, ⟨le_refl _, le_of_lt hmax⟩, ⟨le_refl _, le_of_lt hmax⟩, Or.inl rfl⟩, ?_⟩
    intro h; cases h
  obtain ⟨k, hk1, hk2, hr, hc1, hc2⟩ := runS_spec hm hrun
  rw [← hz0] at hr hc1 hc2
  -- unfinished up to k - 1, with the record of successes
  have hun : ∀ j, j < k → Unfinished ls p j (ls.update^[j] z0) ∧
      ∀ i < j, 0 < triedStep ls z0 i → DecreaseOK ls x d v0 sl0 (triedStep ls z0 i) → 0 < (ls.update^[j] z0).2.safeStepsize := by
    intro j
    induction j with
    | zero => intro _; exact ⟨h0, fun i hi => by omega⟩
    | succ j ih =>
      intro hj
      obtain ⟨hu, hrec⟩ := ih (by omega)
      have hraw := raw_spec hok hu
      have hc := hc1 (j + 1) (by omega) hj
      rw [Function.iterate_succ_apply'] at hc ⊢
      have hnf : (ls.rawUpdate (ls.update^[j] z0)).2.failed = false := by
        cases hf : (ls.rawUpdate (ls.update^[j] z0)).2.failed
        · rfl
        · simp [Zoom.update, hf, Zoom.makeSafeStep] at hc
      have hnd : (ls.rawUpdate (ls.update^[j] z0)).2.done = false := by
        cases hd : (ls.rawUpdate (ls.update^[j] z0)).2.done
        · rfl
        · simp [Zoom.update, hnf, hd] at hc
      obtain ⟨e, hnext⟩ := next_unfinished hraw hnd hnf
      refine ⟨hnext, fun i hi hpos hD => ?_⟩
      rw [e]
      rcases Nat.lt_or_ge i j with hij | hij
      · exact hraw.keep (hrec i hij hpos hD)
      · have : i = j := by omega
        subst this
        exact hraw.record hD hpos
  obtain ⟨hu, hrec⟩ := hun (k - 1) (by omega)
  have hraw := raw_spec hok hu
  have ek : ls.update^[k] z0 = ls.update (ls.update^[k - 1] z0) := by
    rw [← Function.iterate_succ_apply' ls.update, Nat.succ_eq_add_one, Nat.sub_add_cancel hk1]
  have hrec' : ∀ j < k, 0 < triedStep ls z0 j → DecreaseOK ls x d v0 sl0 (triedStep ls z0 j) →
      0 < (ls.rawUpdate (ls.update^[k - 1] z0)).2.safeStepsize := by
    intro j hj hpos hD
    rcases Nat.lt_or_ge j (k - 1) with h | h
    · exact hraw.keep (hrec j h hpos hD)
    · have : j = k - 1 := by omega
      subst this
      exact hraw.record hD hpos
  rw [ek] at hr hc2
  set y := ls.rawUpdate (ls.update^[k - 1] z0) with hydef
  cases hf : y.2.failed
  · have e : ls.update (ls.update^[k - 1] z0) = y := by simp [Zoom.update, ← hydef, hf]
    have hd : y.2.done = true := by
      cases hd : y.2.done
      · exfalso
        have hb := hraw.budget hd hf
        rcases hc2 with hc2 | hc2
        · omega
        · rw [e] at hc2; simp [hf, hd] at hc2
      · rfl
    rw [e] at hr
    have hs : stepsize = y.1 := congrArg Prod.fst hr
    have hst : st = y.2 := congrArg Prod.snd hr
    obtain ⟨q1, q2, q3⟩ := hraw.doneParams hd
    rw [hs, hst]
    refine ⟨hraw.range.1, hraw.range.2, q1, q2, q3, by simp [hd, hf], hraw.doneOK, k, hk1, hk2, by rw [ek, e], ?_⟩
    intro hcon; rw [hf] at hcon; cases hcon
  · have hd := hraw.excl hf
    have e : ls.update (ls.update^[k - 1] z0) = ls.makeSafeStep y := by simp [Zoom.update, ← hydef, hf]
    rw [e] at hr
    have hs : stepsize = (ls.makeSafeStep y).1 := congrArg Prod.fst hr
    have hst : st = (ls.makeSafeStep y).2 := congrArg Prod.snd hr
    have es : (ls.makeSafeStep y).1 = if y.2.safeStepsize > 0 ∨ Ext.isInf y.2.decreaseError = true then y.2.safeStepsize
        else y.1 := rfl
    have ep : (ls.makeSafeStep y).2.params = y.2.params + (ls.makeSafeStep y).1 • y.2.dir := rfl
    have ev : (ls.makeSafeStep y).2.value = ls.f (ls.makeSafeStep y).2.params := rfl
    have eg : (ls.makeSafeStep y).2.grad = ls.grad (ls.makeSafeStep y).2.params := rfl
    have ed : (ls.makeSafeStep y).2.done = y.2.done := rfl
    have ef : (ls.makeSafeStep y).2.failed = y.2.failed := rfl
    rw [hs, hst]
    have hrange : 0 ≤ (ls.makeSafeStep y).1 ∧ (ls.makeSafeStep y).1 ≤ ls.maxStepsize := by
      rw [es]; split_ifs
      · exact hraw.safe
      · exact hraw.range
    refine ⟨hrange.1, hrange.2, by rw [ep, hraw.params hd, hraw.dir], ev, eg, by rw [ed, ef, hd, hf]; simp, ?_, k, hk1, hk2, by rw [ek, e], ?_⟩
    · intro hcon; rw [ed, hd] at hcon; cases hcon
    · intro _ j hj hpos hD
      have hsp := hrec' j hj hpos hD
      rw [es, if_pos (Or.inl hsp)]
      refine ⟨hsp, ?_⟩
      rcases hraw.safeOK with h | h
      · rw [h] at hsp; exact absurd hsp (lt_irrefl _)
      · exact h

/-- Example search on `ℚ`: `f(x) = x²` from `1`; interpolators disabled. -/
def exampleZoom (maxiter : ℕ) : Zoom ℚ ℚ :=
  { f := fun x => .fin (x * x), grad := fun x => 2 * x, vdot := fun u v => .fin (u * v), c1 := 1 / 10000, c2 := 9 / 10,
    c3 := 1 / 1000000, relTolCubic := 1 / 5, relTolQuad := 1 / 10, intervalThreshold := 1 / 1000000, increaseFactor := 2,
    tol := 0, maxiter := maxiter, maxStepsize := 10, cubicmin := fun _ _ _ _ _ _ _ => .nan,
    quadmin := fun _ _ _ _ _ => .nan, unroll := true, jit := false }

/-- Non-vacuity: started with a step that is too long, the search zooms and succeeds. -/
example : ((exampleZoom 5).run 2 1 none none none).toOption.map (fun r => (r.1, r.2.params, r.2.done, r.2.failed))
    = some (1 / 2, 0, true, false) := by decide +kernel

example : ZoomOK (exampleZoom 5) := by constructor <;> norm_num [exampleZoom]

/-- A failed search does *not* always return a step with sufficient decrease: when no tried step has one, the last tried
step is returned although it increases the objective from `1` to `9`. -/
theorem C20_failed_step_unsafe_false : ¬ ∀ (ls : Zoom ℚ ℚ) (init x : ℚ) (r : ℚ × ZState ℚ ℚ), ZoomOK ls → 1 ≤ ls.maxiter →
    0 < init → ls.run init x none none none = .ok r → r.2.failed = true → 0 < r.1 → Ext.le r.2.value (ls.f x) = true := by
  intro h
  have e : ∃ r, (exampleZoom 1).run 2 1 none none none = .ok r ∧ r.2.failed = true ∧ 0 < r.1 ∧
      Ext.le r.2.value ((exampleZoom 1).f 1) = false := by
    refine ⟨(((exampleZoom 1).run 2 1 none none none).toOption.getD (0, (exampleZoom 1).initState 1 none none none)), ?_, ?_, ?_, ?_⟩
    · rfl
    · decide +kernel
    · decide +kernel
    · decide +kernel
  obtain ⟨r, h1, h2, h3, h4⟩ := e
  have := h (exampleZoom 1) 2 1 r (by constructor <;> norm_num [exampleZoom]) (by decide) (by norm_num) h1 h2 h3
  rw [h4] at this; cases this

end Jaxopt.LineSearch
