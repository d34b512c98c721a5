import Verif.LineSearch.ZoomMessages
import Verif.LineSearch.ZoomProps
import Verif.LineSearch.Equivariance
import Mathlib.Tactic.NormNum

/-!
# Property C106: the warnings of the zoom search are true
-/

set_option autoImplicit false
set_option linter.unusedSectionVars false
set_option linter.unusedVariables false

namespace Jaxopt.LineSearch

open Jaxopt.Base

variable {K E : Type*} [Field K] [LinearOrder K] [IsStrictOrderedRing K] [AddCommGroup E] [Module K E]

/-! ### Specification -/

/-- A search with messages: started with a positive stepsize at a point with finite value `v0` and slope `sl0` along `d`, it returned
`stepsize` and `st` after `k` updates and printed `log`; `tried j` are the stepsizes it tried. -/
structure Searched (ls : Zoom K E) (eps : K) (init : K) (x d : E) (v0 sl0 : K) (tried : ℕ → K) (k : ℕ) (stepsize : K) (st : ZState K E)
    (log : List (Msg K)) : Prop where
  ok : ZoomOK ls
  budget : 1 ≤ ls.maxiter
  positive : 0 < init
  run : ∃ (value : Option (Ext K)) (grad dir : Option E) (g0 : E),
    ((value = some (.fin v0) ∧ grad = some g0) ∨ ((value = none ∨ grad = none) ∧ ls.f x = .fin v0 ∧ ls.grad x = g0)) ∧
    d = dir.getD (-g0) ∧ ls.vdot g0 d = .fin sl0 ∧ ls.runM eps init x value grad dir = .ok (stepsize, st, log) ∧
    tried = triedStep ls (init, ls.initState x value grad dir)
  count : k = st.iterNum

/-! ### One update -/

section Update

variable {ls : Zoom K E} {p : Setup K E} {n : ℕ} {z : K × ZState K E}

theorem raw_errors (h : ZInv ls p n z) :
    (ls.rawUpdate z).2.decreaseError = Zoom.clipErr (ls.decreaseError (ls.rawUpdate z).1 (ls.f (p.x + (ls.rawUpdate z).1 • p.d))
      (ls.vdot (ls.grad (p.x + (ls.rawUpdate z).1 • p.d)) p.d) (.fin p.v0) (.fin p.sl0)) ∧
    (ls.rawUpdate z).2.error = Ext.max (ls.rawUpdate z).2.decreaseError
      (Zoom.clipErr (ls.curvatureError (ls.vdot (ls.grad (p.x + (ls.rawUpdate z).1 • p.d)) p.d) (.fin p.sl0))) := by
  rw [← h.valueInit, ← h.slopeInit, ← h.dir, ← h.params]
  unfold Zoom.rawUpdate
  split_ifs <;> exact ⟨rfl, rfl⟩

theorem raw_decrease (hok : ZoomOK ls) (h : ZInv ls p n z) :
    Ext.le (ls.rawUpdate z).2.decreaseError (.fin ls.tol) = true ↔ DecreaseOK ls p.x p.d p.v0 p.sl0 (ls.rawUpdate z).1 := by
  rw [(raw_errors h).1, clip_decrease_le ls hok.tol]

theorem raw_error (hok : ZoomOK ls) (h : ZInv ls p n z) :
    Ext.le (ls.rawUpdate z).2.error (.fin ls.tol) = true ↔
      DecreaseOK ls p.x p.d p.v0 p.sl0 (ls.rawUpdate z).1 ∧ CurvatureOK ls p.x p.d p.sl0 (ls.rawUpdate z).1 := by
  rw [(raw_errors h).2, Ext.max_le_iff, raw_decrease hok h, clip_curvature_le ls hok.tol]

theorem raw_done (hok : ZoomOK ls) (h : ZInv ls p n z) :
    (ls.rawUpdate z).2.done = true ↔ (Ext.le (ls.rawUpdate z).2.error (.fin ls.tol) = true ∨ Msg.intervalNotFound ∈ ls.trialMessages z) := by
  cases hf : z.2.intervalFound
  · have e : (ls.rawUpdate z).2.done = (Ext.le (ls.rawUpdate z).2.error (.fin ls.tol) ||
      (decide ((ls.rawUpdate z).1 ≥ ls.maxStepsize) && !(ls.rawUpdate z).2.intervalFound)) := by
      simp only [Zoom.rawUpdate, hf, Bool.false_eq_true, if_false]; rfl
    rw [e, Bool.or_eq_true]
    refine or_congr Iff.rfl ?_
    simp only [Zoom.trialMessages, hf, Bool.false_eq_true, if_false, Zoom.condPrint]
    cases ls.isValueNan z <;> cases decide ((ls.rawUpdate z).1 ≥ ls.maxStepsize) && !(ls.rawUpdate z).2.intervalFound <;> simp
  · have e : (ls.rawUpdate z).2.done = Ext.le (ls.rawUpdate z).2.error (.fin ls.tol) := by
      simp only [Zoom.rawUpdate, hf, if_true]; rfl
    rw [e]
    simp only [Zoom.trialMessages, hf, if_true, Zoom.condPrint]
    cases ls.isValueNan z <;> cases decide (|z.2.high - z.2.low| ≤ ls.intervalThreshold) <;> simp

/-- The message of an exhausted search for an interval is printed for a step with sufficient decrease without curvature. -/
theorem raw_notFound (hok : ZoomOK ls) (h : ZInv ls p n z) (hm : Msg.intervalNotFound ∈ ls.trialMessages z) :
    ls.maxStepsize ≤ (ls.rawUpdate z).1 ∧ DecreaseOK ls p.x p.d p.v0 p.sl0 (ls.rawUpdate z).1 ∧
      ¬ CurvatureOK ls p.x p.d p.sl0 (ls.rawUpdate z).1 := by
  cases hf : z.2.intervalFound
  · have hmax : ls.maxStepsize ≤ (ls.rawUpdate z).1 := by
      simp only [Zoom.trialMessages, hf, Bool.false_eq_true, if_false, Zoom.condPrint, List.mem_append] at hm
      by_contra hq
      have hq' : ¬ (ls.rawUpdate z).1 ≥ ls.maxStepsize := hq
      simp only [hq', decide_false, Bool.false_and] at hm
      cases ls.isValueNan z <;> simp at hm
    have hnf : (ls.rawUpdate z).2.intervalFound = false := by
      simp only [Zoom.trialMessages, hf, Bool.false_eq_true, if_false, Zoom.condPrint, List.mem_append] at hm
      cases hq : (ls.rawUpdate z).2.intervalFound
      · rfl
      · rw [hq] at hm
        cases ls.isValueNan z <;> simp at hm
    have e : (ls.rawUpdate z).2.intervalFound = ((Ext.gt (ls.rawUpdate z).2.decreaseError (.fin 0) ||
        (Ext.le z.2.prevValue (ls.rawUpdate z).2.prevValue && decide (z.2.iterNum > 0))) ||
        (Ext.le (.fin 0) (ls.rawUpdate z).2.prevSlope && !(Ext.gt (ls.rawUpdate z).2.decreaseError (.fin 0) ||
          (Ext.le z.2.prevValue (ls.rawUpdate z).2.prevValue && decide (z.2.iterNum > 0)))) ||
        Ext.le (ls.rawUpdate z).2.error (.fin ls.tol)) := by
      simp only [Zoom.rawUpdate, hf, Bool.false_eq_true, if_false]; rfl
    rw [e] at hnf
    simp only [Bool.or_eq_false_iff] at hnf
    have h1 := hnf.1.1.1
    have h2 := hnf.2
    rw [(raw_errors h).1] at h1
    have hD := clip_decrease_gt ls hok.tol _ _ _ _ _ h1
    refine ⟨hmax, hD, fun hC => ?_⟩
    rw [(raw_error hok h).mpr ⟨hD, hC⟩] at h2
    cases h2
  · exfalso
    simp only [Zoom.trialMessages, hf, if_true, Zoom.condPrint] at hm
    cases ls.isValueNan z <;> cases decide (|z.2.high - z.2.low| ≤ ls.intervalThreshold) <;> simp at hm

/-- The safe stepsize is the former one or the one just tried. -/
theorem raw_safe (hok : ZoomOK ls) (h : ZInv ls p n z) : (ls.rawUpdate z).2.safeStepsize = z.2.safeStepsize ∨
    ((ls.rawUpdate z).2.safeStepsize = (ls.rawUpdate z).1 ∧ DecreaseOK ls p.x p.d p.v0 p.sl0 (ls.rawUpdate z).1) := by
  rw [← raw_decrease hok h]
  cases hf : z.2.intervalFound
  · have e : (ls.rawUpdate z).2.safeStepsize = if Ext.le (ls.rawUpdate z).2.decreaseError (.fin ls.tol) then (ls.rawUpdate z).1
        else z.2.safeStepsize := by
      simp only [Zoom.rawUpdate, hf, Bool.false_eq_true, if_false]; rfl
    rw [e]
    by_cases hq : Ext.le (ls.rawUpdate z).2.decreaseError (.fin ls.tol) = true
    · rw [if_pos hq]; exact .inr ⟨rfl, hq⟩
    · rw [if_neg hq]; exact .inl rfl
  · have e : (ls.rawUpdate z).2.safeStepsize = max (if Ext.le (ls.rawUpdate z).2.decreaseError (.fin ls.tol) then (ls.rawUpdate z).1
        else z.2.safeStepsize) z.2.safeStepsize := by
      simp only [Zoom.rawUpdate, hf, if_true]; rfl
    rw [e]
    by_cases hq : Ext.le (ls.rawUpdate z).2.decreaseError (.fin ls.tol) = true
    · rw [if_pos hq]
      rcases le_total (ls.rawUpdate z).1 z.2.safeStepsize with hl | hl
      · left; exact max_eq_right hl
      · right; exact ⟨max_eq_left hl, hq⟩
    · rw [if_neg hq]; left; exact max_self _

/-- A search that fails without a safe stepsize has used all its iterations. -/
theorem raw_failed (h : ZInv ls p n z) (hf : (ls.rawUpdate z).2.failed = true) (hs : ¬ 0 < (ls.rawUpdate z).2.safeStepsize) :
    ls.maxiter ≤ n + 1 := by
  rw [← h.iter]
  cases hi : z.2.intervalFound
  · have e : (ls.rawUpdate z).2.failed = (decide (z.2.iterNum + 1 ≥ ls.maxiter) && !(ls.rawUpdate z).2.done) := by
      simp only [Zoom.rawUpdate, hi, Bool.false_eq_true, if_false]; rfl
    rw [e] at hf
    simp only [Bool.and_eq_true, decide_eq_true_eq] at hf
    exact hf.1
  · have e : (ls.rawUpdate z).2.failed = ((decide (z.2.iterNum + 1 ≥ ls.maxiter) ||
        (decide (|z.2.high - z.2.low| ≤ ls.intervalThreshold) && decide ((ls.rawUpdate z).2.safeStepsize > 0))) &&
          !(ls.rawUpdate z).2.done) := by
      simp only [Zoom.rawUpdate, hi, if_true]; rfl
    rw [e] at hf
    simp only [gt_iff_lt, hs, decide_false, Bool.and_false, Bool.or_false, Bool.and_eq_true] at hf
    simpa using hf.1

/-- A search that fails before its last iteration reports a small interval. -/
theorem raw_small (h : ZInv ls p n z) (hf : (ls.rawUpdate z).2.failed = true) (hs : n + 1 < ls.maxiter) :
    0 < (ls.rawUpdate z).2.safeStepsize ∧ Msg.tooSmall ∈ ls.trialMessages z := by
  rw [← h.iter] at hs
  cases hi : z.2.intervalFound
  · have e : (ls.rawUpdate z).2.failed = (decide (z.2.iterNum + 1 ≥ ls.maxiter) && !(ls.rawUpdate z).2.done) := by
      simp only [Zoom.rawUpdate, hi, Bool.false_eq_true, if_false]; rfl
    rw [e] at hf
    simp only [Bool.and_eq_true, decide_eq_true_eq] at hf
    have := hf.1
    omega
  · have e : (ls.rawUpdate z).2.failed = ((decide (z.2.iterNum + 1 ≥ ls.maxiter) ||
        (decide (|z.2.high - z.2.low| ≤ ls.intervalThreshold) && decide ((ls.rawUpdate z).2.safeStepsize > 0))) &&
          !(ls.rawUpdate z).2.done) := by
      simp only [Zoom.rawUpdate, hi, if_true]; rfl
    rw [e] at hf
    have hn : ¬ z.2.iterNum + 1 ≥ ls.maxiter := by omega
    simp only [hn, decide_false, Bool.false_or, Bool.and_eq_true, decide_eq_true_eq] at hf
    refine ⟨hf.1.2, ?_⟩
    simp [Zoom.trialMessages, hi, Zoom.condPrint, hf.1.1]

theorem clip_isInf (s v0 sl0 : K) (v sl : Ext K) :
    Ext.isInf (Zoom.clipErr (ls.decreaseError s v sl (.fin v0) (.fin sl0))) = true ↔ v = .nan ∨ v = .pinf ∨ sl = .nan := by
  unfold Zoom.clipErr Zoom.decreaseError
  cases v <;> cases sl <;> simp [Ext.smul, Ext.abs, Ext.sub, Ext.add, Ext.neg, Ext.max, Ext.min, Ext.nanToInf, Ext.isInf]

theorem trial_only {m : Msg K} (hm : m ∈ ls.trialMessages z) : m = .tooSmall ∨ m = .nanInf ∨ m = .intervalNotFound := by
  cases hi : z.2.intervalFound
  · simp only [Zoom.trialMessages, Zoom.condPrint, hi, Bool.false_eq_true, if_false, List.mem_append] at hm
    rcases hm with hm | hm <;> split_ifs at hm <;> simp at hm <;> simp [hm]
  · simp only [Zoom.trialMessages, Zoom.condPrint, hi, if_true, List.mem_append] at hm
    rcases hm with hm | hm <;> split_ifs at hm <;> simp at hm <;> simp [hm]

theorem safe_only {eps : K} {y : K × ZState K E} {m : Msg K} (hm : m ∈ ls.safeMessages eps y) :
    m ≠ .tooSmall ∧ m ≠ .nanInf ∧ m ≠ .intervalNotFound := by
  unfold Zoom.safeMessages Zoom.failureDiagnostic Zoom.condPrint at hm
  by_cases h : y.2.safeStepsize > 0
  · rw [if_pos h] at hm
    simp only [List.mem_singleton] at hm
    subst hm
    exact ⟨nofun, nofun, nofun⟩
  · rw [if_neg h] at hm
    simp only [List.mem_append, List.mem_singleton] at hm
    rcases hm with (((((hm | hm) | hm) | hm) | hm) | hm) | hm
    · subst hm; exact ⟨nofun, nofun, nofun⟩
    all_goals
      split_ifs at hm
      · simp only [List.mem_singleton] at hm
        subst hm; exact ⟨nofun, nofun, nofun⟩
      · simp at hm

end Update

/-! ### One search -/

/-- The states of a search. -/
structure Trace (ls : Zoom K E) (eps : K) (p : Setup K E) (z : ℕ → K × ZState K E) (k : ℕ) (r : K × ZState K E) (log : List (Msg K)) : Prop where
  pos : 1 ≤ k
  le : k ≤ ls.maxiter
  unfinished : ∀ j < k, Unfinished ls p j (z j)
  going : ∀ j, j + 1 < k → (ls.rawUpdate (z j)).2.done = false ∧ (ls.rawUpdate (z j)).2.failed = false
  ended : (ls.rawUpdate (z (k - 1))).2.done = true ∨ (ls.rawUpdate (z (k - 1))).2.failed = true
  result : r = ls.update (z (k - 1))
  log : ∀ m, m ∈ log ↔ ∃ j < k, m ∈ ls.messages eps (z j)
  record : ∀ j < k, 0 < (ls.rawUpdate (z j)).1 → DecreaseOK ls p.x p.d p.v0 p.sl0 (ls.rawUpdate (z j)).1 →
    0 < (ls.rawUpdate (z (k - 1))).2.safeStepsize
  safe : (ls.rawUpdate (z (k - 1))).2.done = false → (ls.rawUpdate (z (k - 1))).2.safeStepsize = 0 ∨
    (DecreaseOK ls p.x p.d p.v0 p.sl0 (ls.rawUpdate (z (k - 1))).2.safeStepsize ∧
      ¬ CurvatureOK ls p.x p.d p.sl0 (ls.rawUpdate (z (k - 1))).2.safeStepsize)
  safeTried : 0 < (ls.rawUpdate (z (k - 1))).2.safeStepsize →
    ∃ j < k, (ls.rawUpdate (z j)).1 = (ls.rawUpdate (z (k - 1))).2.safeStepsize ∧ DecreaseOK ls p.x p.d p.v0 p.sl0 (ls.rawUpdate (z j)).1
  start : (z 0).2.low = 0 ∧ (z 0).2.high = 0 ∧ (z 0).2.prevStepsize = 0
  next : ∀ j, j + 1 < k → z (j + 1) = ls.rawUpdate (z j)

theorem update_iterNum (ls : Zoom K E) (z : K × ZState K E) : (ls.update z).2.iterNum = z.2.iterNum + 1 := by
  have h : (ls.rawUpdate z).2.iterNum = z.2.iterNum + 1 := by
    unfold Zoom.rawUpdate
    split_ifs <;> rfl
  unfold Zoom.update
  dsimp only
  split_ifs
  · exact h
  · exact h

theorem Searched.trace {ls : Zoom K E} {eps init : K} {x d : E} {v0 sl0 : K} {tried : ℕ → K} {k : ℕ} {stepsize : K} {st : ZState K E}
    {log : List (Msg K)} (h : Searched ls eps init x d v0 sl0 tried k stepsize st log) :
    ∃ (p : Setup K E) (z : ℕ → K × ZState K E), p.x = x ∧ p.d = d ∧ p.v0 = v0 ∧ p.sl0 = sl0 ∧
      (∀ j, tried j = (ls.rawUpdate (z j)).1) ∧ Trace ls eps p z k (stepsize, st) log := by
  obtain ⟨hok, hm, hinit, ⟨value, grad, dir, g0, hstart, hd, hslope, hrun, htried⟩, hcount⟩ := h
  subst hd
  set d := dir.getD (-g0) with hdd
  set z0 := (init, ls.initState x value grad dir) with hz0
  set p : Setup K E := ⟨x, g0, d, v0, sl0⟩ with hp
  have hvg : (ls.initState x value grad dir).valueInit = .fin v0 ∧ (ls.initState x value grad dir).grad = g0 ∧
      (ls.initState x value grad dir).dir = d ∧ (ls.initState x value grad dir).slopeInit = .fin sl0 := by
    rcases hstart with ⟨h1, h2⟩ | ⟨h1, h2, h3⟩
    · subst h1; subst h2
      cases dir with
      | none => simp [Zoom.initState, d] at hslope ⊢; exact hslope
      | some e => simp [Zoom.initState, d] at hslope ⊢; exact hslope
    · have e : ls.initState x value grad dir = ls.initState x none none dir := by
        rcases h1 with h1 | h1
        · subst h1; cases grad <;> rfl
        · subst h1; cases value <;> rfl
      rw [e]
      cases dir with
      | none => simp [Zoom.initState, d, h2, h3] at hslope ⊢; exact hslope
      | some e => simp [Zoom.initState, d, h2, h3] at hslope ⊢; exact hslope
  have h0 : Unfinished ls p 0 z0 := by
    have hmax := hok.max
    refine ⟨⟨rfl, rfl, hvg.1, hvg.2.2.2, hvg.2.2.1, fun _ => hinit, ⟨le_refl _, le_of_lt hmax⟩, fun h => by omega,
      ⟨le_refl _, le_of_lt hmax⟩, ⟨le_refl _, le_of_lt hmax⟩, ⟨le_refl _, le_of_lt hmax⟩, Or.inl rfl⟩, ?_⟩
    intro h; cases h
  obtain ⟨k', hk1, hk2, hr, hc1, hc2⟩ := runS_spec hm hrun
  -- the states of the search with messages
  have hit : ∀ j, (ls.updateM eps)^[j] (init, ls.initState x value grad dir, []) =
      ((ls.update^[j] z0).1, (ls.update^[j] z0).2, (List.range j).flatMap fun i => ls.messages eps (ls.update^[i] z0)) := by
    intro j
    induction j with
    | zero => rfl
    | succ j ih =>
      rw [Function.iterate_succ_apply', ih, Function.iterate_succ_apply', List.range_succ, List.flatMap_append]
      simp only [Zoom.updateM, List.flatMap_cons, List.flatMap_nil, List.append_nil]
  have hnum : ∀ j, (ls.update^[j] z0).2.iterNum = j := by
    intro j
    induction j with
    | zero => rfl
    | succ j ih => rw [Function.iterate_succ_apply', update_iterNum, ih]
  rw [hit] at hr
  simp only [Prod.mk.injEq] at hr
  obtain ⟨hr1, hr2, hr3⟩ := hr
  have hkk : k = k' := by rw [hcount, hr2, hnum]
  subst hkk
  have hgo : ∀ j, Unfinished ls p j (ls.update^[j] z0) → j + 1 < k →
      (ls.rawUpdate (ls.update^[j] z0)).2.done = false ∧ (ls.rawUpdate (ls.update^[j] z0)).2.failed = false := by
    intro j hu hj
    have hc := hc1 (j + 1) (by omega) hj
    rw [hit] at hc
    rw [Function.iterate_succ_apply'] at hc
    have hnf : (ls.rawUpdate (ls.update^[j] z0)).2.failed = false := by
      cases hf : (ls.rawUpdate (ls.update^[j] z0)).2.failed
      · rfl
      · simp [Zoom.update, hf, Zoom.makeSafeStep] at hc
    refine ⟨?_, hnf⟩
    cases hd : (ls.rawUpdate (ls.update^[j] z0)).2.done
    · rfl
    · simp [Zoom.update, hnf, hd] at hc
  have hsafe : ∀ {j : ℕ} {w : K × ZState K E}, Unfinished ls p j w → (w.2.safeStepsize = 0 ∨
      (DecreaseOK ls x d v0 sl0 w.2.safeStepsize ∧ ¬ CurvatureOK ls x d sl0 w.2.safeStepsize)) →
      (ls.rawUpdate w).2.done = false → ((ls.rawUpdate w).2.safeStepsize = 0 ∨
      (DecreaseOK ls x d v0 sl0 (ls.rawUpdate w).2.safeStepsize ∧ ¬ CurvatureOK ls x d sl0 (ls.rawUpdate w).2.safeStepsize)) := by
    intro j w hu hw hdone
    rcases raw_safe hok hu.1 with e | ⟨e, hD⟩
    · rw [e]; exact hw
    · rw [e]
      refine .inr ⟨hD, fun hC => ?_⟩
      rw [(raw_done hok hu.1).mpr (.inl ((raw_error hok hu.1).mpr ⟨hD, hC⟩))] at hdone
      cases hdone
  have hun : ∀ j, j < k → Unfinished ls p j (ls.update^[j] z0) ∧
      (∀ i < j, 0 < (ls.rawUpdate (ls.update^[i] z0)).1 → DecreaseOK ls x d v0 sl0 (ls.rawUpdate (ls.update^[i] z0)).1 →
        0 < (ls.update^[j] z0).2.safeStepsize) ∧
      ((ls.update^[j] z0).2.safeStepsize = 0 ∨ (DecreaseOK ls x d v0 sl0 (ls.update^[j] z0).2.safeStepsize ∧
        ¬ CurvatureOK ls x d sl0 (ls.update^[j] z0).2.safeStepsize)) ∧
      (0 < (ls.update^[j] z0).2.safeStepsize → ∃ i < j, (ls.rawUpdate (ls.update^[i] z0)).1 = (ls.update^[j] z0).2.safeStepsize ∧
        DecreaseOK ls x d v0 sl0 (ls.rawUpdate (ls.update^[i] z0)).1) := by
    intro j
    induction j with
    | zero => intro _; exact ⟨h0, fun i hi => by omega, .inl rfl, fun h => absurd h (lt_irrefl _)⟩
    | succ j ih =>
      intro hj
      obtain ⟨hu, hrec, hs, htd⟩ := ih (by omega)
      have hraw := raw_spec hok hu
      obtain ⟨hnd, hnf⟩ := hgo j hu hj
      rw [Function.iterate_succ_apply']
      obtain ⟨e, hnext⟩ := next_unfinished hraw hnd hnf
      refine ⟨hnext, fun i hi hpos hD => ?_, ?_, ?_⟩
      · rw [e]
        rcases Nat.lt_or_ge i j with hij | hij
        · exact hraw.keep (hrec i hij hpos hD)
        · have : i = j := by omega
          subst this
          exact hraw.record hD hpos
      · rw [e]; exact hsafe hu hs hnd
      · rw [e]
        rcases raw_safe hok hu.1 with e' | ⟨e', hD⟩
        · rw [e']
          intro hpos
          obtain ⟨i, hi, e2⟩ := htd hpos
          exact ⟨i, by omega, e2⟩
        · rw [e']
          exact fun _ => ⟨j, by omega, rfl, hD⟩
  obtain ⟨hu, hrec, hs, htd⟩ := hun (k - 1) (by omega)
  have hraw := raw_spec hok hu
  refine ⟨p, fun j => ls.update^[j] z0, rfl, rfl, rfl, rfl, fun j => by rw [htried]; rfl, ?_⟩
  have ek : ls.update^[k] z0 = ls.update (ls.update^[k - 1] z0) := by
    rw [← Function.iterate_succ_apply' ls.update, Nat.succ_eq_add_one, Nat.sub_add_cancel hk1]
  refine ⟨hk1, hk2, fun j hj => (hun j hj).1, fun j hj => hgo j (hun j (by omega)).1 hj, ?_, ?_, ?_, ?_, ?_, ?_,
    ⟨rfl, rfl, rfl⟩, fun j hj => ?_⟩
  · cases hd : (ls.rawUpdate (ls.update^[k - 1] z0)).2.done
    · cases hf : (ls.rawUpdate (ls.update^[k - 1] z0)).2.failed
      · exfalso
        have hb := hraw.budget hd hf
        rcases hc2 with hc2 | hc2
        · omega
        · rw [hit, ek] at hc2
          simp [Zoom.update, hf, hd] at hc2
      · exact .inr rfl
    · exact .inl rfl
  · show (stepsize, st) = ls.update (ls.update^[k - 1] z0)
    rw [← ek, hr1, hr2]
  · intro m
    rw [hr3]
    simp only [List.mem_flatMap, List.mem_range]
  · intro j hj hpos hD
    rcases Nat.lt_or_ge j (k - 1) with h | h
    · exact hraw.keep (hrec j h hpos hD)
    · have : j = k - 1 := by omega
      subst this
      exact hraw.record hD hpos
  · exact hsafe hu hs
  · show 0 < (ls.rawUpdate (ls.update^[k - 1] z0)).2.safeStepsize → _
    rcases raw_safe hok hu.1 with e' | ⟨e', hD⟩
    · rw [e']
      intro hpos
      obtain ⟨i, hi, e2⟩ := htd hpos
      exact ⟨i, by omega, e2⟩
    · rw [e']
      exact fun _ => ⟨k - 1, by omega, rfl, hD⟩
  · show ls.update^[j + 1] z0 = _
    rw [Function.iterate_succ_apply']
    have hj' := hun j (by omega)
    obtain ⟨hnd, hnf⟩ := hgo j hj'.1 hj
    exact (next_unfinished (raw_spec hok hj'.1) hnd hnf).1

section Log

variable {ls : Zoom K E} {eps : K} {p : Setup K E} {z : ℕ → K × ZState K E} {k : ℕ} {r : K × ZState K E} {log : List (Msg K)}

theorem Trace.final (h : Trace ls eps p z k r log) {m : Msg K} (h1 : m ≠ .tooSmall) (h2 : m ≠ .nanInf) (h3 : m ≠ .intervalNotFound) :
    m ∈ log ↔ (ls.rawUpdate (z (k - 1))).2.failed = true ∧ m ∈ ls.safeMessages eps (ls.rawUpdate (z (k - 1))) := by
  have hk := h.pos
  rw [h.log]
  constructor
  · rintro ⟨j, hj, hm⟩
    simp only [Zoom.messages, List.mem_append] at hm
    rcases hm with hm | hm
    · rcases trial_only hm with e | e | e
      · exact absurd e h1
      · exact absurd e h2
      · exact absurd e h3
    · cases hf : (ls.rawUpdate (z j)).2.failed
      · rw [hf] at hm; simp at hm
      · have : j = k - 1 := by
          by_contra hne
          have := (h.going j (by omega)).2
          rw [hf] at this; cases this
        subst this
        rw [hf, if_pos rfl] at hm
        exact ⟨hf, hm⟩
  · rintro ⟨hf, hm⟩
    refine ⟨k - 1, by omega, ?_⟩
    simp only [Zoom.messages, List.mem_append, hf, if_true]
    exact .inr hm

theorem Trace.trial (h : Trace ls eps p z k r log) {m : Msg K} (hm : m = .tooSmall ∨ m = .nanInf ∨ m = .intervalNotFound) :
    m ∈ log ↔ ∃ j < k, m ∈ ls.trialMessages (z j) := by
  rw [h.log]
  refine exists_congr fun j => and_congr_right fun hj => ?_
  simp only [Zoom.messages, List.mem_append]
  refine or_iff_left fun hq => ?_
  split_ifs at hq
  · obtain ⟨a, b, c⟩ := safe_only hq
    rcases hm with e | e | e
    · exact a e
    · exact b e
    · exact c e
  · simp at hq

theorem Trace.notFound (h : Trace ls eps p z k r log) (hok : ZoomOK ls) :
    Msg.intervalNotFound ∈ log ↔ Msg.intervalNotFound ∈ ls.trialMessages (z (k - 1)) := by
  have hk := h.pos
  rw [h.trial (.inr (.inr rfl))]
  constructor
  · rintro ⟨j, hj, hm⟩
    have : j = k - 1 := by
      by_contra hne
      have h1 := (h.going j (by omega)).1
      rw [(raw_done hok (h.unfinished j hj).1).mpr (.inr hm)] at h1
      cases h1
    rwa [← this]
  · intro hm
    exact ⟨k - 1, by omega, hm⟩

theorem Trace.curvature (h : Trace ls eps p z k r log) : Msg.curvature ∈ log ↔
    (ls.rawUpdate (z (k - 1))).2.failed = true ∧ 0 < (ls.rawUpdate (z (k - 1))).2.safeStepsize := by
  rw [h.final (by simp) (by simp) (by simp)]
  refine and_congr_right fun _ => ?_
  unfold Zoom.safeMessages
  by_cases hs : (ls.rawUpdate (z (k - 1))).2.safeStepsize > 0
  · simp only [if_pos hs, List.mem_singleton, true_iff]; exact hs
  · rw [if_neg hs]
    refine iff_of_false ?_ hs
    simp only [Zoom.failureDiagnostic, Zoom.condPrint, List.mem_append, List.mem_singleton]
    intro hm
    rcases hm with (((((hm | hm) | hm) | hm) | hm) | hm) | hm
    · cases hm
    all_goals split_ifs at hm <;> simp at hm

theorem Trace.noStepsize (h : Trace ls eps p z k r log) : Msg.noStepsize ∈ log ↔
    (ls.rawUpdate (z (k - 1))).2.failed = true ∧ ¬ 0 < (ls.rawUpdate (z (k - 1))).2.safeStepsize := by
  rw [h.final (by simp) (by simp) (by simp)]
  refine and_congr_right fun _ => ?_
  unfold Zoom.safeMessages
  by_cases hs : (ls.rawUpdate (z (k - 1))).2.safeStepsize > 0
  · rw [if_pos hs]
    exact iff_of_false (by simp) (not_not.mpr hs)
  · rw [if_neg hs]
    refine iff_of_true ?_ hs
    simp [Zoom.failureDiagnostic]

/-- The messages of the diagnosis. -/
theorem Trace.diagnosis (h : Trace ls eps p z k r log) {m : Msg K} (h1 : m ≠ .tooSmall) (h2 : m ≠ .nanInf) (h3 : m ≠ .intervalNotFound)
    (h4 : m ≠ .curvature) : m ∈ log ↔ Msg.noStepsize ∈ log ∧ m ∈ ls.failureDiagnostic eps (ls.rawUpdate (z (k - 1))) := by
  rw [h.final h1 h2 h3, h.noStepsize, and_assoc]
  refine and_congr_right fun _ => ?_
  unfold Zoom.safeMessages
  by_cases hs : (ls.rawUpdate (z (k - 1))).2.safeStepsize > 0
  · rw [if_pos hs]
    refine iff_of_false ?_ (fun hq => hq.1 hs)
    simp only [List.mem_singleton]
    exact h4
  · rw [if_neg hs]
    exact (and_iff_right hs).symm

end Log

/-! ### The property -/

/-- **C106 (printing).**  The search returns the same with and without messages. -/
theorem C106_same_run (ls : Zoom K E) (eps init : K) (x : E) (value : Option (Ext K)) (grad dir : Option E) :
    ls.run init x value grad dir = (ls.runM eps init x value grad dir).map fun r => (r.1, r.2.1) :=
  runS_map id (fun q : ZState K E × List (Msg K) => q.1) init rfl (fun _ => rfl) (fun _ => rfl) _ _ _

section Main

variable {ls : Zoom K E} {eps init : K} {x d : E} {v0 sl0 : K} {tried : ℕ → K} {k : ℕ} {stepsize : K} {st : ZState K E} {log : List (Msg K)}

/-- What the last update did. -/
theorem last_step {p : Setup K E} {z : ℕ → K × ZState K E} (h : Trace ls eps p z k (stepsize, st) log) (hok : ZoomOK ls) :
    ((ls.rawUpdate (z (k - 1))).2.failed = false ∧ (ls.rawUpdate (z (k - 1))).2.done = true ∧ stepsize = (ls.rawUpdate (z (k - 1))).1 ∧
      st.failed = false) ∨
    ((ls.rawUpdate (z (k - 1))).2.failed = true ∧ (ls.rawUpdate (z (k - 1))).2.done = false ∧ st.failed = true ∧
      st.params = p.x + stepsize • p.d ∧
      stepsize = if (ls.rawUpdate (z (k - 1))).2.safeStepsize > 0 ∨ Ext.isInf (ls.rawUpdate (z (k - 1))).2.decreaseError = true
        then (ls.rawUpdate (z (k - 1))).2.safeStepsize else (ls.rawUpdate (z (k - 1))).1) := by
  have hraw := raw_spec hok (h.unfinished (k - 1) (by have := h.pos; omega))
  have hr := h.result
  cases hf : (ls.rawUpdate (z (k - 1))).2.failed
  · left
    have e : ls.update (z (k - 1)) = ls.rawUpdate (z (k - 1)) := by simp [Zoom.update, hf]
    rw [e] at hr
    refine ⟨rfl, ?_, congrArg Prod.fst hr, ?_⟩
    · rcases h.ended with hd | hd
      · exact hd
      · rw [hf] at hd; cases hd
    · have := congrArg (fun q => q.2.failed) hr
      exact this.trans hf
  · right
    have e : ls.update (z (k - 1)) = ls.makeSafeStep (ls.rawUpdate (z (k - 1))) := by simp [Zoom.update, hf]
    rw [e] at hr
    have hs : stepsize = (ls.makeSafeStep (ls.rawUpdate (z (k - 1)))).1 := congrArg Prod.fst hr
    have hst : st = (ls.makeSafeStep (ls.rawUpdate (z (k - 1)))).2 := congrArg Prod.snd hr
    have hd := hraw.excl hf
    refine ⟨rfl, hd, ?_, ?_, hs⟩
    · rw [hst]; exact hf
    · rw [hs, hst, ← hraw.params hd, ← hraw.dir]; rfl

/-- **C106 (curvature).**  One of the two warnings "sufficient decrease but curvature condition not satisfied" is printed exactly when the
returned stepsize is positive, has sufficient decrease and does not satisfy the curvature condition. -/
theorem C106_curvature (h : Searched ls eps init x d v0 sl0 tried k stepsize st log) :
    (Msg.curvature ∈ log ∨ Msg.intervalNotFound ∈ log) ↔
      0 < stepsize ∧ DecreaseOK ls x d v0 sl0 stepsize ∧ ¬ CurvatureOK ls x d sl0 stepsize := by
  have hok := h.ok
  obtain ⟨p, z, rfl, rfl, rfl, rfl, htr, ht⟩ := h.trace
  have hk := ht.pos
  have hu := (ht.unfinished (k - 1) (by omega)).1
  rw [ht.curvature, ht.notFound hok]
  constructor
  · rintro (⟨hf, hs⟩ | hm)
    · rcases last_step ht hok with ⟨hf', _⟩ | ⟨_, hd, _, _, e⟩
      · rw [hf] at hf'; cases hf'
      · rw [if_pos (Or.inl hs)] at e
        rw [e]
        refine ⟨hs, ?_⟩
        rcases ht.safe hd with h0 | h0
        · rw [h0] at hs; exact absurd hs (lt_irrefl _)
        · exact h0
    · have hd := (raw_done hok hu).mpr (.inr hm)
      obtain ⟨hmax, hD, hC⟩ := raw_notFound hok hu hm
      rcases last_step ht hok with ⟨_, _, e, _⟩ | ⟨_, hd', _⟩
      · rw [e]; exact ⟨lt_of_lt_of_le hok.max hmax, hD, hC⟩
      · rw [hd] at hd'; cases hd'
  · rintro ⟨hpos, hD, hC⟩
    rcases last_step ht hok with ⟨_, hd, e, _⟩ | ⟨hf, hd, _, _, e⟩
    · right
      rw [e] at hD hC
      rcases (raw_done hok hu).mp hd with hq | hq
      · exact absurd ((raw_error hok hu).mp hq).2 hC
      · exact hq
    · left
      refine ⟨hf, ?_⟩
      by_contra hs
      by_cases ho : Ext.isInf (ls.rawUpdate (z (k - 1))).2.decreaseError = true
      · rw [if_pos (Or.inr ho)] at e
        rw [e] at hpos
        exact hs hpos
      · rw [if_neg (by rintro (h1 | h1); exacts [hs h1, ho h1])] at e
        rw [e] at hpos hD
        exact hs (ht.record (k - 1) (by omega) hpos hD)

/-- **C106 (failure).**  "No stepsize satisfying sufficient decrease found" is printed exactly when the search fails and no stepsize that it
tried has sufficient decrease. -/
theorem C106_no_stepsize (h : Searched ls eps init x d v0 sl0 tried k stepsize st log) :
    Msg.noStepsize ∈ log ↔ st.failed = true ∧ ∀ j < k, 0 < tried j → ¬ DecreaseOK ls x d v0 sl0 (tried j) := by
  have hok := h.ok
  obtain ⟨p, z, rfl, rfl, rfl, rfl, htr, ht⟩ := h.trace
  have hk := ht.pos
  rw [ht.noStepsize]
  constructor
  · rintro ⟨hf, hs⟩
    refine ⟨?_, fun j hj hpos hD => ?_⟩
    · rcases last_step ht hok with ⟨hf', _⟩ | ⟨_, _, e, _⟩
      · rw [hf] at hf'; cases hf'
      · exact e
    · rw [htr] at hpos hD
      exact hs (ht.record j hj hpos hD)
  · rintro ⟨hf, hall⟩
    rcases last_step ht hok with ⟨_, _, _, hf'⟩ | ⟨hf', hd, _, _, _⟩
    · rw [hf] at hf'; cases hf'
    · refine ⟨hf', fun hs => ?_⟩
      obtain ⟨j, hj, e, hD⟩ := ht.safeTried hs
      have hpos : 0 < (ls.rawUpdate (z j)).1 := by rw [e]; exact hs
      have := hall j hj
      rw [htr] at this
      exact this hpos hD

/-- **C106 (advice).**  A failed search without sufficient decrease has used all its iterations; it advises more iterations exactly when
the slope at zero is negative and otherwise reports the slope. -/
theorem C106_advice (h : Searched ls eps init x d v0 sl0 tried k stepsize st log) :
    (Msg.noStepsize ∈ log → k = ls.maxiter) ∧
    (Msg.moreIterations ∈ log ↔ Msg.noStepsize ∈ log ∧ sl0 < 0) ∧
    (∀ s, Msg.notDescent s ∈ log ↔ Msg.noStepsize ∈ log ∧ 0 ≤ sl0 ∧ s = .fin sl0) ∧
    (∀ s, Msg.belowEps s ∈ log ↔ Msg.noStepsize ∈ log ∧ sl0 < 0 ∧ s < eps ∧ s = tried (k - 1)) ∧
    (Msg.largeSlope ∈ log ↔ Msg.noStepsize ∈ log ∧ sl0 < -10 ^ 16) := by
  have hok := h.ok
  obtain ⟨p, z, rfl, rfl, rfl, rfl, htr, ht⟩ := h.trace
  have hk := ht.pos
  have hu := (ht.unfinished (k - 1) (by omega)).1
  have hraw := raw_spec hok (ht.unfinished (k - 1) (by omega))
  have hdesc : Ext.lt (ls.rawUpdate (z (k - 1))).2.slopeInit (.fin 0) = decide (p.sl0 < 0) := by rw [hraw.slopeInit]; rfl
  refine ⟨fun hn => ?_, ?_, fun s => ?_, fun s => ?_, ?_⟩
  · obtain ⟨hf, hs⟩ := ht.noStepsize.mp hn
    have := raw_failed hu hf hs
    have := ht.le
    omega
  · rw [ht.diagnosis (by simp) (by simp) (by simp) (by simp)]
    refine and_congr_right fun _ => ?_
    simp only [Zoom.failureDiagnostic, Zoom.condPrint, hdesc]
    by_cases h0 : p.sl0 < 0 <;> simp [h0] <;> (try split_ifs) <;> simp
  · rw [ht.diagnosis (by simp) (by simp) (by simp) (by simp)]
    refine and_congr_right fun _ => ?_
    simp only [Zoom.failureDiagnostic, Zoom.condPrint, hraw.slopeInit]
    by_cases h0 : p.sl0 < 0
    · have h1 : ¬ 0 ≤ p.sl0 := not_le.mpr h0
      simp [h0, h1, Ext.lt]
    · have h1 : 0 ≤ p.sl0 := not_lt.mp h0
      simp [h0, h1, Ext.lt]
  · rw [ht.diagnosis (by simp) (by simp) (by simp) (by simp), htr]
    refine and_congr_right fun _ => ?_
    simp only [Zoom.failureDiagnostic, Zoom.condPrint, hdesc]
    by_cases h0 : p.sl0 < 0
    · by_cases h1 : (ls.rawUpdate (z (k - 1))).1 < eps
      · simp [h0, h1]
        rintro rfl; exact h1
      · simp [h0, h1]
        rintro h2 rfl; exact h1 h2
    · simp [h0]
  · rw [ht.diagnosis (by simp) (by simp) (by simp) (by simp)]
    refine and_congr_right fun _ => ?_
    have hhigh : Ext.gt (Ext.abs (ls.rawUpdate (z (k - 1))).2.slopeInit) (.fin (10 ^ 16)) = decide ((10 : K) ^ 16 < |p.sl0|) := by
      rw [hraw.slopeInit]; rfl
    simp only [Zoom.failureDiagnostic, Zoom.condPrint, hdesc, hhigh]
    by_cases h0 : p.sl0 < 0
    · have e : |p.sl0| = -p.sl0 := abs_of_neg h0
      have e2 : (10 : K) ^ 16 < |p.sl0| ↔ p.sl0 < -10 ^ 16 := by rw [e]; exact lt_neg
      by_cases h1 : p.sl0 < -10 ^ 16
      · simp [h0, e2, h1]
      · simp [h0, e2, h1]
    · have h1 : ¬ p.sl0 < -10 ^ 16 := fun hq => h0 (lt_of_lt_of_le hq (by norm_num))
      simp [h0, h1]

/-- **C106 (outcome of a failure).**  "Won't make a step" is printed exactly for a failure whose last trial was outside the domain, and
then the parameters do not move; otherwise "making an unsafe step" is printed and the last trial is returned.  (That "cannot even make a
step" and "does not reduce values" are too strong is `C106_outside_false` and `C106_unsafe_false`.) -/
theorem C106_outcome (h : Searched ls eps init x d v0 sl0 tried k stepsize st log) :
    (Msg.outside ∈ log ↔ Msg.noStepsize ∈ log ∧ (ls.f (x + tried (k - 1) • d) = .nan ∨ ls.f (x + tried (k - 1) • d) = .pinf ∨
      ls.vdot (ls.grad (x + tried (k - 1) • d)) d = .nan)) ∧
    (Msg.unsafeStep ∈ log ↔ Msg.noStepsize ∈ log ∧ Msg.outside ∉ log) ∧
    (Msg.outside ∈ log → stepsize = 0 ∧ st.params = x) ∧
    (Msg.unsafeStep ∈ log → stepsize = tried (k - 1)) := by
  have hok := h.ok
  obtain ⟨p, z, rfl, rfl, rfl, rfl, htr, ht⟩ := h.trace
  have hk := ht.pos
  have hu := (ht.unfinished (k - 1) (by omega)).1
  have hraw := raw_spec hok (ht.unfinished (k - 1) (by omega))
  have hinf := clip_isInf (ls := ls) (ls.rawUpdate (z (k - 1))).1 p.v0 p.sl0 (ls.f (p.x + (ls.rawUpdate (z (k - 1))).1 • p.d))
    (ls.vdot (ls.grad (p.x + (ls.rawUpdate (z (k - 1))).1 • p.d)) p.d)
  rw [← (raw_errors hu).1] at hinf
  rw [htr, ← hinf]
  have ho : Msg.outside ∈ log ↔ Msg.noStepsize ∈ log ∧ Ext.isInf (ls.rawUpdate (z (k - 1))).2.decreaseError = true := by
    rw [ht.diagnosis (by simp) (by simp) (by simp) (by simp)]
    refine and_congr_right fun _ => ?_
    simp only [Zoom.failureDiagnostic, Zoom.condPrint]
    cases Ext.isInf (ls.rawUpdate (z (k - 1))).2.decreaseError <;> simp <;> (repeat' split_ifs) <;> simp
  have hus : Msg.unsafeStep ∈ log ↔ Msg.noStepsize ∈ log ∧ ¬ Ext.isInf (ls.rawUpdate (z (k - 1))).2.decreaseError = true := by
    rw [ht.diagnosis (by simp) (by simp) (by simp) (by simp)]
    refine and_congr_right fun _ => ?_
    simp only [Zoom.failureDiagnostic, Zoom.condPrint]
    cases Ext.isInf (ls.rawUpdate (z (k - 1))).2.decreaseError <;> simp <;> (repeat' split_ifs) <;> simp
  refine ⟨ho, ?_, fun hq => ?_, fun hq => ?_⟩
  · rw [hus, ho]; tauto
  · obtain ⟨hn, hi⟩ := ho.mp hq
    obtain ⟨hf, hs⟩ := ht.noStepsize.mp hn
    rcases last_step ht hok with ⟨hf', _⟩ | ⟨_, _, _, e1, e2⟩
    · rw [hf] at hf'; cases hf'
    · rw [if_pos (Or.inr hi)] at e2
      have : stepsize = 0 := by rw [e2]; exact le_antisymm (not_lt.mp hs) hraw.safe.1
      exact ⟨this, by rw [e1, this, zero_smul, add_zero]⟩
  · obtain ⟨hn, hi⟩ := hus.mp hq
    obtain ⟨hf, hs⟩ := ht.noStepsize.mp hn
    rcases last_step ht hok with ⟨hf', _⟩ | ⟨_, _, _, e1, e2⟩
    · rw [hf] at hf'; cases hf'
    · rwa [if_neg (by rintro (h1 | h1); exacts [hs h1, hi h1])] at e2

/-- **C106 (values).**  "NaN or Inf values encountered" is printed exactly when a tried step has such a value. -/
theorem C106_nan (h : Searched ls eps init x d v0 sl0 tried k stepsize st log) :
    Msg.nanInf ∈ log ↔ ∃ j < k, ∀ v : K, ls.f (x + tried j • d) ≠ .fin v := by
  have hok := h.ok
  obtain ⟨p, z, rfl, rfl, rfl, rfl, htr, ht⟩ := h.trace
  rw [ht.trial (.inr (.inl rfl))]
  refine exists_congr fun j => and_congr_right fun hj => ?_
  have hu := (ht.unfinished j hj).1
  have e : Msg.nanInf ∈ ls.trialMessages (z j) ↔ ls.isValueNan (z j) = true := by
    cases hi : (z j).2.intervalFound
    · simp only [Zoom.trialMessages, hi, Bool.false_eq_true, if_false, Zoom.condPrint]
      cases ls.isValueNan (z j) <;> simp
    · simp only [Zoom.trialMessages, hi, if_true, Zoom.condPrint]
      cases ls.isValueNan (z j) <;> simp
  rw [e, htr]
  simp only [Zoom.isValueNan, hu.params, hu.dir]
  cases ls.f (p.x + (ls.rawUpdate (z j)).1 • p.d) <;> simp [Ext.isNan, Ext.isInf]

/-- **C106 (small interval).**  A search that fails before its last iteration has reported a small interval and returns a step with
sufficient decrease. -/
theorem C106_small (h : Searched ls eps init x d v0 sl0 tried k stepsize st log) (hf : st.failed = true) (hlt : k < ls.maxiter) :
    Msg.tooSmall ∈ log ∧ Msg.curvature ∈ log := by
  have hok := h.ok
  obtain ⟨p, z, rfl, rfl, rfl, rfl, htr, ht⟩ := h.trace
  have hk := ht.pos
  have hu := (ht.unfinished (k - 1) (by omega)).1
  rcases last_step ht hok with ⟨_, _, _, hf'⟩ | ⟨hf', _⟩
  · rw [hf] at hf'; cases hf'
  · obtain ⟨h1, h2⟩ := raw_small hu hf' (by omega)
    exact ⟨(ht.trial (.inl rfl)).mpr ⟨k - 1, by omega, h2⟩, ht.curvature.mpr ⟨hf', h1⟩⟩

/-- The interpolation point lies in the interval. -/
theorem middle_mem {ls : Zoom K E} (hok : ZoomOK ls) (st : ZState K E) :
    min st.high st.low ≤ ls.middle st ∧ ls.middle st ≤ max st.high st.low := by
  have key : ∀ (m : Ext K) (chk : K), 0 ≤ chk →
      (Ext.gt m (.fin (min st.high st.low + chk)) && Ext.lt m (.fin (max st.high st.low - chk))) = true →
      min st.high st.low ≤ (match m with | .fin x => x | _ => st.cubicRef) ∧
        (match m with | .fin x => x | _ => st.cubicRef) ≤ max st.high st.low := by
    intro m chk hc hv
    cases m with
    | fin x =>
      simp only [Ext.gt, Ext.lt, Bool.and_eq_true, decide_eq_true_eq] at hv
      constructor <;> simp only <;> linarith [hv.1, hv.2]
    | _ => simp [Ext.gt, Ext.lt] at hv
  unfold Zoom.middle
  simp only
  split_ifs with h1 h2
  · exact key _ _ (mul_nonneg hok.cubic (abs_nonneg _)) h1
  · exact key _ _ (mul_nonneg hok.quad (abs_nonneg _)) h2
  · have a1 := min_le_left st.high st.low
    have a2 := min_le_right st.high st.low
    have a3 := le_max_left st.high st.low
    have a4 := le_max_right st.high st.low
    constructor <;> linarith

/-- The ends of the interval and the previous stepsize are zero or have been tried. -/
theorem Trace.ends {p : Setup K E} {z : ℕ → K × ZState K E} {r : K × ZState K E} (h : Trace ls eps p z k r log) (j : ℕ) (hj : j < k) :
    ((z j).2.low = 0 ∨ ∃ i < j, (z j).2.low = (ls.rawUpdate (z i)).1) ∧
    ((z j).2.high = 0 ∨ ∃ i < j, (z j).2.high = (ls.rawUpdate (z i)).1) ∧
    ((z j).2.prevStepsize = 0 ∨ ∃ i < j, (z j).2.prevStepsize = (ls.rawUpdate (z i)).1) := by
  induction j with
  | zero => exact ⟨.inl h.start.1, .inl h.start.2.1, .inl h.start.2.2⟩
  | succ j ih =>
    obtain ⟨h1, h2, h3⟩ := ih (by omega)
    have up : ∀ {a : K}, (a = 0 ∨ ∃ i < j, a = (ls.rawUpdate (z i)).1) → (a = 0 ∨ ∃ i < j + 1, a = (ls.rawUpdate (z i)).1) := by
      rintro a (ha | ⟨i, hi, ha⟩)
      · exact .inl ha
      · exact .inr ⟨i, by omega, ha⟩
    have new : ∀ {a : K}, a = (ls.rawUpdate (z j)).1 → (a = 0 ∨ ∃ i < j + 1, a = (ls.rawUpdate (z i)).1) :=
      fun ha => .inr ⟨j, by omega, ha⟩
    rw [h.next j hj]
    generalize hP : (fun a : K => a = 0 ∨ ∃ i < j + 1, a = (ls.rawUpdate (z i)).1) = P
    have up' : ∀ {a : K}, (a = 0 ∨ ∃ i < j, a = (ls.rawUpdate (z i)).1) → P a := by rw [← hP]; exact up
    have new' : P (ls.rawUpdate (z j)).1 := by rw [← hP]; exact new rfl
    suffices P (ls.rawUpdate (z j)).2.low ∧ P (ls.rawUpdate (z j)).2.high ∧ P (ls.rawUpdate (z j)).2.prevStepsize by
      rw [← hP] at this; exact this
    replace h1 := up' h1
    replace h2 := up' h2
    replace h3 := up' h3
    clear hP up new up'
    unfold Zoom.rawUpdate at new' ⊢
    split_ifs at new' ⊢ with hi
    · simp only [Zoom.zoomIntoInterval] at new' ⊢
      refine ⟨?_, ?_, h3⟩
      · split_ifs <;> assumption
      · split_ifs <;> assumption
    · simp only [Zoom.searchInterval] at new' ⊢
      refine ⟨?_, ?_, new'⟩
      · by_cases hc : (Ext.le (.fin 0) (ls.vdot (ls.grad ((z j).2.params +
          min (if (z j).2.iterNum = 0 then (z j).1 else ls.increaseFactor * (z j).2.prevStepsize) ls.maxStepsize • (z j).2.dir)) (z j).2.dir) = true)
        all_goals split_ifs <;> first | assumption | simp_all
      · by_cases hc : (Ext.le (.fin 0) (ls.vdot (ls.grad ((z j).2.params +
          min (if (z j).2.iterNum = 0 then (z j).1 else ls.increaseFactor * (z j).2.prevStepsize) ls.maxStepsize • (z j).2.dir)) (z j).2.dir) = true)
        all_goals split_ifs <;> first | assumption | simp_all

/-- **C106 (small interval, meaning).**  When a small interval is reported, a tried step lies between two steps that were tried before (or
zero) and whose distance is at most the threshold. -/
theorem C106_interval (h : Searched ls eps init x d v0 sl0 tried k stepsize st log) (hm : Msg.tooSmall ∈ log) :
    ∃ j < k, ∃ a b : K, |a - b| ≤ ls.intervalThreshold ∧ (a = 0 ∨ ∃ i < j, a = tried i) ∧ (b = 0 ∨ ∃ i < j, b = tried i) ∧
      min a b ≤ tried j ∧ tried j ≤ max a b := by
  have hok := h.ok
  obtain ⟨p, z, rfl, rfl, rfl, rfl, htr, ht⟩ := h.trace
  obtain ⟨j, hj, hm⟩ := (ht.trial (.inl rfl)).mp hm
  obtain ⟨h1, h2, -⟩ := ht.ends j hj
  simp only [htr]
  cases hi : (z j).2.intervalFound
  · simp only [Zoom.trialMessages, hi, Bool.false_eq_true, if_false, Zoom.condPrint, List.mem_append] at hm
    rcases hm with hm | hm <;> split_ifs at hm <;> simp at hm
  · refine ⟨j, hj, (z j).2.high, (z j).2.low, ?_, h2, h1, ?_⟩
    · by_contra hc
      simp only [Zoom.trialMessages, hi, if_true, Zoom.condPrint, List.mem_append, hc, decide_false, Bool.false_eq_true, if_false] at hm
      rcases hm with hm | hm
      · simp at hm
      · split_ifs at hm <;> simp at hm
    · have e : (ls.rawUpdate (z j)).1 = ls.middle (z j).2 := by simp only [Zoom.rawUpdate, hi, if_true]; rfl
      rw [e]
      exact middle_mem hok _

/-- **C106 (silence).**  A search that prints nothing returns a step with sufficient decrease and curvature. -/
theorem C106_silent (h : Searched ls eps init x d v0 sl0 tried k stepsize st []) :
    DecreaseOK ls x d v0 sl0 stepsize ∧ CurvatureOK ls x d sl0 stepsize := by
  have hok := h.ok
  obtain ⟨p, z, rfl, rfl, rfl, rfl, htr, ht⟩ := h.trace
  have hk := ht.pos
  have hu := (ht.unfinished (k - 1) (by omega)).1
  rcases last_step ht hok with ⟨_, hd, e, _⟩ | ⟨hf, hd, _⟩
  · rw [e, ← raw_error hok hu]
    rcases (raw_done hok hu).mp hd with hq | hq
    · exact hq
    · exact absurd ((ht.notFound hok).mpr hq) (by simp)
  · exfalso
    by_cases hs : 0 < (ls.rawUpdate (z (k - 1))).2.safeStepsize
    · exact absurd (ht.curvature.mpr ⟨hf, hs⟩) (by simp)
    · exact absurd (ht.noStepsize.mpr ⟨hf, hs⟩) (by simp)

end Main

/-! ### Texts that are too strong, and examples -/

/-- `x²` with a hole at `-1`. -/
def holeZoom (maxiter : ℕ) : Zoom ℚ ℚ := { exampleZoom maxiter with f := fun x => if x = -1 then .nan else .fin (x * x) }

theorem exampleZoom_searched (ls : Zoom ℚ ℚ) (hok : ZoomOK ls) (hm : 1 ≤ ls.maxiter) (hf : ls.f 1 = .fin 1) (hg : ls.grad 1 = 2)
    (hv : ls.vdot 2 (-2) = .fin (-4)) (init : ℚ) (hi : 0 < init) (r : ℚ × ZState ℚ ℚ × List (Msg ℚ))
    (hr : ls.runM (1 / 10 ^ 7) init 1 none none none = .ok r) :
    Searched ls (1 / 10 ^ 7) init 1 (-2) 1 (-4) (triedStep ls (init, ls.initState 1 none none none)) r.2.1.iterNum r.1 r.2.1 r.2.2 :=
  ⟨hok, hm, hi, ⟨none, none, none, 2, .inr ⟨.inl rfl, hf, hg⟩, rfl, hv, hr, rfl⟩, rfl⟩

/-- **C106**, "cannot even make a step without getting Inf or Nan" is printed although the first step tried has a finite value: only the
last trial is looked at. -/
theorem C106_outside_false : ¬ ∀ (ls : Zoom ℚ ℚ) (eps init x d v0 sl0 : ℚ) (tried : ℕ → ℚ) (k : ℕ) (stepsize : ℚ) (st : ZState ℚ ℚ)
    (log : List (Msg ℚ)), Searched ls eps init x d v0 sl0 tried k stepsize st log → Msg.outside ∈ log →
      ∀ j < k, ∀ v : ℚ, ls.f (x + tried j • d) ≠ .fin v := by
  intro h
  obtain ⟨r, hr⟩ : ∃ r, (holeZoom 2).runM (1 / 10 ^ 7) 2 1 none none none = .ok r := ⟨_, rfl⟩
  have hs := exampleZoom_searched (holeZoom 2) (by constructor <;> norm_num [holeZoom, exampleZoom]) (by decide)
    (by decide +kernel) (by decide +kernel) (by decide +kernel) 2 (by norm_num) r hr
  have hk : r.2.1.iterNum = 2 := by
    have : ((holeZoom 2).runM (1 / 10 ^ 7) 2 1 none none none).toOption.map (fun r => r.2.1.iterNum) = some 2 := by decide +kernel
    rw [hr] at this
    simpa [Except.toOption] using this
  have hlog : (match (holeZoom 2).runM (1 / 10 ^ 7) 2 1 none none none with
      | .ok r => r.2.2.any (fun m => match m with | .outside => true | _ => false) | _ => false) = true := by decide +kernel
  rw [hr] at hlog
  obtain ⟨m, hm, e⟩ := List.any_eq_true.mp hlog
  have hm' : Msg.outside ∈ r.2.2 := by
    cases m <;> simp at e
    exact hm
  refine h _ _ _ _ _ _ _ _ _ _ _ _ hs hm' 0 (by omega) 9 ?_
  decide +kernel

/-- **C106**, "does not reduce values" is printed for a step that reduces the value, though not enough. -/
theorem C106_unsafe_false : ¬ ∀ (ls : Zoom ℚ ℚ) (eps init x d v0 sl0 : ℚ) (tried : ℕ → ℚ) (k : ℕ) (stepsize : ℚ) (st : ZState ℚ ℚ)
    (log : List (Msg ℚ)), Searched ls eps init x d v0 sl0 tried k stepsize st log → Msg.unsafeStep ∈ log →
      Ext.lt st.value (.fin v0) = false := by
  intro h
  obtain ⟨r, hr⟩ : ∃ r, (exampleZoom 1).runM (1 / 10 ^ 7) (99999 / 100000) 1 none none none = .ok r := ⟨_, rfl⟩
  have hs := exampleZoom_searched (exampleZoom 1) (by constructor <;> norm_num [exampleZoom]) (by decide)
    (by decide +kernel) (by decide +kernel) (by decide +kernel) (99999 / 100000) (by norm_num) r hr
  have hlog : (match (exampleZoom 1).runM (1 / 10 ^ 7) (99999 / 100000) 1 none none none with
      | .ok r => r.2.2.any (fun m => match m with | .unsafeStep => true | _ => false) && Ext.lt r.2.1.value (.fin 1) | _ => false) = true := by
    decide +kernel
  rw [hr] at hlog
  rw [Bool.and_eq_true] at hlog
  obtain ⟨m, hm, e⟩ := List.any_eq_true.mp hlog.1
  have hm' : Msg.unsafeStep ∈ r.2.2 := by
    cases m <;> simp at e
    exact hm
  have := h _ _ _ _ _ _ _ _ _ _ _ _ hs hm'
  rw [hlog.2] at this
  cases this

/-- A search that reports a small interval: a large threshold and a demanding curvature condition. -/
def smallZoom : Zoom ℚ ℚ := { exampleZoom 10 with c2 := 1 / 1000, intervalThreshold := 1 }

/-- The messages of three searches: an unsafe step; none; a small interval. -/
example : (((exampleZoom 1).runM (1 / 10 ^ 7) 2 1 none none none).toOption.map (fun r => (r.1, r.2.2.length, r.2.1.failed))) = some (2, 3, true) := by
  decide +kernel

example : ((exampleZoom 5).runM (1 / 10 ^ 7) 2 1 none none none).toOption.map (fun r => (r.1, r.2.2.length, r.2.1.done)) = some (1 / 2, 0, true) := by
  decide +kernel

example : (smallZoom.runM (1 / 10 ^ 7) (9 / 10) 1 none none none).toOption.map
    (fun r => (r.1, r.2.2.map (fun m => match m with | .tooSmall => 0 | .curvature => 1 | _ => 2), r.2.1.iterNum)) = some (9 / 10, [0, 1], 2) := by
  decide +kernel

end Jaxopt.LineSearch
