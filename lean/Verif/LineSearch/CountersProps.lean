import Verif.LineSearch.Counters
import Verif.LineSearch.BacktrackingProps
import Verif.LineSearch.ZoomProps
import Verif.LineSearch.HagerZhangProps

/-!
# Property C103: the evaluation counters of the line searches
-/

set_option autoImplicit false
set_option linter.unusedSectionVars false
set_option linter.unusedVariables false

namespace Jaxopt.LineSearch

open Jaxopt.Base

section HagerZhang

variable {K E : Type} [Field K] [LinearOrder K] [AddCommGroup E] [Module K E]

/-- A computation with counter agrees with a computation without, and its counter (started at `c0`) has grown by the number of
evaluations really made. -/
def Counts {α : Type} (m : HZM (α × ℕ)) (p : Option α) (c0 : ℕ) : Prop :=
  ∀ n, (p = none ∧ m n = none) ∨ ∃ r k, p = some r ∧ m n = some ((r, c0 + k), n + k)

theorem ask_run {V W : Type} (phi : V → W) (c : V) (n : ℕ) : ask phi c n = some (phi c, n + 1) := rfl

theorem bind_run {α β : Type} (m : HZM α) (f : α → HZM β) (n : ℕ) : (m >>= f) n = (m n).bind (fun p => f p.1 p.2) := rfl

theorem some_eq {α : Type} {r : α} {a b c d : ℕ} (h1 : a = c) (h2 : b = d) : (some ((r, a), b) : Option ((α × ℕ) × ℕ)) = some ((r, c), d) := by
  rw [h1, h2]

theorem pure_run {α : Type} (a : α) (n : ℕ) : (pure a : HZM α) n = some (a, n) := rfl

theorem updateBodyC_run (phi : K → Ext K × Ext K) (thr : Ext K) (s : UState K) (it n : ℕ) :
    updateBodyC phi thr (s, it) n = some ((updateBody phi thr s, it + 1), n + 1) := rfl

theorem updateLoopC_counts (phi : K → Ext K × Ext K) (thr : Ext K) (fuel : ℕ) (s : UState K) (it : ℕ) :
    Counts (updateLoopC phi thr fuel (s, it)) (updateLoop phi thr fuel s) it := by
  induction fuel generalizing s it with
  | zero =>
    intro n
    simp only [updateLoopC, updateLoop]
    by_cases h : updateCond s = true
    · rw [if_pos h, if_pos h]; exact Or.inl ⟨rfl, rfl⟩
    · rw [if_neg h, if_neg h]; exact Or.inr ⟨s, 0, rfl, rfl⟩
  | succ fuel ih =>
    intro n
    simp only [updateLoopC, updateLoop]
    by_cases h : updateCond s = true
    · rw [if_pos h, if_pos h, bind_run, updateBodyC_run]
      rcases ih (updateBody phi thr s) (it + 1) (n + 1) with ⟨h1, h2⟩ | ⟨r, k, h1, h2⟩
      · exact Or.inl ⟨h1, h2⟩
      · refine Or.inr ⟨r, k + 1, h1, ?_⟩
        rw [Option.bind_some, h2]
        exact some_eq (by (try dsimp only); omega) (by (try dsimp only); omega)
    · rw [if_neg h, if_neg h]; exact Or.inr ⟨s, 0, rfl, rfl⟩

theorem updateIntervalC_counts (phi : K → Ext K × Ext K) (thr : Ext K) (fuel : ℕ) (low high middle : K) :
    Counts (updateIntervalC phi thr fuel low high middle) (updateInterval phi thr fuel low high middle) 0 := by
  intro n
  simp only [updateIntervalC, updateInterval, bind_run, ask_run, Option.bind_some]
  rcases updateLoopC_counts phi thr fuel
    { done := decide (middle ≥ high) || decide (middle ≤ low),
      failed := failedNan (phi middle).1 (phi middle).2,
      low := low, middle := middle, high := high, vm := (phi middle).1,
      gm := (phi middle).2 } 0 (n + 1) with ⟨h1, h2⟩ | ⟨r, k, h1, h2⟩
  · rw [h1, h2]; exact Or.inl ⟨rfl, rfl⟩
  · rw [h1, h2]
    refine Or.inr ⟨_, k + 1, rfl, ?_⟩
    rw [Option.bind_some, pure_run]
    exact some_eq (by (try dsimp only); omega) (by (try dsimp only); omega)

theorem secantC_run (phi : K → Ext K × Ext K) (low high : K) (n : ℕ) :
    secantC phi low high n = some (secant phi low high, n + 2) := rfl

theorem updateEC_counts (ls : HZ K E) (x d : E) (thr : Ext K) (low high : K) (middle : Ext K) :
    Counts (ls.updateEC x d thr low high middle) (ls.updateE x d thr low high middle) 0 := by
  cases middle with
  | fin m => exact updateIntervalC_counts _ _ _ _ _ _
  | nan => exact fun n => Or.inr ⟨_, 1, rfl, rfl⟩
  | ninf => exact fun n => Or.inr ⟨_, 1, rfl, rfl⟩
  | pinf => exact fun n => Or.inr ⟨_, 1, rfl, rfl⟩

theorem secant2C_counts (ls : HZ K E) (x d : E) (thr : Ext K) (low high : K) :
    Counts (ls.secant2C x d thr low high) (ls.secant2 x d thr low high) 0 := by
  intro n
  simp only [HZ.secant2C, HZ.secant2, bind_run, secantC_run, Option.bind_some]
  rcases updateEC_counts ls x d thr low high (secant (ls.line x d) low high) (n + 2) with ⟨h1, h2⟩ | ⟨r, k, h1, h2⟩
  · rw [h1, h2]; exact Or.inl ⟨rfl, rfl⟩
  · rw [h1, h2]
    simp only [Option.bind_some, Option.bind_eq_bind]
    by_cases hc : (decide (secant (ls.line x d) low high = .fin r.2.1) ||
        decide (secant (ls.line x d) low high = .fin r.2.2)) = true
    · rw [if_pos hc, if_pos hc]
      rcases updateEC_counts ls x d thr r.2.1 r.2.2
        (if decide (secant (ls.line x d) low high = .fin r.2.1) = true then secant (ls.line x d) low r.2.1
          else if decide (secant (ls.line x d) low high = .fin r.2.2) = true then secant (ls.line x d) high r.2.2
          else secant (ls.line x d) low high) (n + 2 + k + 2 + 2) with ⟨g1, g2⟩ | ⟨r', k', g1, g2⟩
      · rw [bind_run, g1, g2]; exact Or.inl ⟨rfl, rfl⟩
      · rw [bind_run, g1, g2]
        refine Or.inr ⟨r', 6 + k + k', rfl, ?_⟩
        rw [Option.bind_some, pure_run]
        exact some_eq (by (try dsimp only); omega) (by (try dsimp only); omega)
    · rw [if_neg hc, if_neg hc]
      refine Or.inr ⟨r, 6 + k, rfl, ?_⟩
      rw [bind_run, pure_run, Option.bind_some, pure_run]
      exact some_eq (by (try dsimp only); omega) (by (try dsimp only); omega)

theorem bracketBodyC_counts (ls : HZ K E) (x d : E) (thr : Ext K) (s : HZ.BState K) (c0 : ℕ) :
    Counts (ls.bracketBodyC x d thr (s, c0)) (ls.bracketBody x d thr s) c0 := by
  intro n
  simp only [HZ.bracketBodyC, HZ.bracketBody, bind_run, ask_run, Option.bind_some]
  by_cases hc : (!(s.done || Ext.le (.fin 0) s.gm) && Ext.gt s.vm thr) = true
  · rw [if_pos hc, if_pos hc]
    rcases updateIntervalC_counts (ls.line x d) thr ls.fuel 0 s.middle (s.middle / 2) n with ⟨h1, h2⟩ | ⟨r, k, h1, h2⟩
    · rw [bind_run, h1, h2]; exact Or.inl ⟨rfl, rfl⟩
    · rw [bind_run, h1, h2]
      refine Or.inr ⟨_, k + 1, rfl, ?_⟩
      rw [Option.bind_some, bind_run, ask_run, Option.bind_some, pure_run]
      exact some_eq (by (try dsimp only); omega) (by (try dsimp only); omega)
  · rw [if_neg hc, if_neg hc]
    exact Or.inr ⟨_, 1, rfl, rfl⟩

theorem bracketLoopC_counts (ls : HZ K E) (x d : E) (thr : Ext K) (fuel : ℕ) (s : HZ.BState K) (c0 : ℕ) :
    Counts (ls.bracketLoopC x d thr fuel (s, c0)) (ls.bracketLoop x d thr fuel s) c0 := by
  induction fuel generalizing s c0 with
  | zero =>
    intro n
    simp only [HZ.bracketLoopC, HZ.bracketLoop]
    by_cases h : (!s.done && !s.failed) = true
    · rw [if_pos h, if_pos h]; exact Or.inl ⟨rfl, rfl⟩
    · rw [if_neg h, if_neg h]; exact Or.inr ⟨s, 0, rfl, rfl⟩
  | succ fuel ih =>
    intro n
    simp only [HZ.bracketLoopC, HZ.bracketLoop]
    by_cases h : (!s.done && !s.failed) = true
    · rw [if_pos h, if_pos h, bind_run]
      rcases bracketBodyC_counts ls x d thr s c0 n with ⟨h1, h2⟩ | ⟨r, k, h1, h2⟩
      · rw [h1, h2]; exact Or.inl ⟨rfl, rfl⟩
      · rw [h1, h2, Option.bind_some, Option.bind_some]
        rcases ih r (c0 + k) (n + k) with ⟨g1, g2⟩ | ⟨r', k', g1, g2⟩
        · exact Or.inl ⟨g1, g2⟩
        · refine Or.inr ⟨r', k + k', g1, ?_⟩
          rw [g2]
          exact some_eq (by (try dsimp only); omega) (by (try dsimp only); omega)
    · rw [if_neg h, if_neg h]; exact Or.inr ⟨s, 0, rfl, rfl⟩

theorem bracketC_counts (ls : HZ K E) (x d : E) (thr : Ext K) : Counts (ls.bracketC x d thr) (ls.bracket x d thr) 0 := by
  intro n
  simp only [HZ.bracketC, HZ.bracket, bind_run, ask_run, Option.bind_some]
  rcases bracketLoopC_counts ls x d thr ls.fuel
    { done := decide ((ls.line x d 1).1 = .ninf),
      failed := failedNan (ls.line x d 1).1 (ls.line x d 1).2,
      low := 0, middle := 1, high := 1, vm := (ls.line x d 1).1,
      gm := (ls.line x d 1).2, best := 0 } 0 (n + 1) with ⟨h1, h2⟩ | ⟨r, k, h1, h2⟩
  · rw [h1, h2]; exact Or.inl ⟨rfl, rfl⟩
  · rw [h1, h2]
    refine Or.inr ⟨_, k + 1, rfl, ?_⟩
    rw [Option.bind_some, pure_run]
    exact some_eq (by (try dsimp only); omega) (by (try dsimp only); omega)

theorem bestPointC_run (ls : HZ K E) (x d : E) (low high : K) (n : ℕ) :
    ls.bestPointC x d low high n = some (ls.bestPoint x d low high, n + 2) := rfl

theorem updateBracketC_counts (ls : HZ K E) (x d : E) (thr : Ext K) (st : HZState K E) :
    Counts (ls.updateBracketC x d thr st) (ls.updateBracket x d thr st) 0 := by
  intro n
  simp only [HZ.updateBracketC, HZ.updateBracket, bind_run]
  rcases secant2C_counts ls x d thr st.low st.high n with ⟨h1, h2⟩ | ⟨r, k, h1, h2⟩
  · rw [h1, h2]; exact Or.inl ⟨rfl, rfl⟩
  · rw [h1, h2]
    simp only [Option.bind_some, Option.bind_eq_bind]
    by_cases hc : (!st.done && decide ((if st.done = true then st.high else r.2.2) - (if st.done = true then st.low else r.2.1)
        > ls.shrinkage * (st.high - st.low))) = true
    · rw [if_pos hc, if_pos hc]
      rcases updateIntervalC_counts (ls.line x d) thr ls.fuel (if st.done = true then st.low else r.2.1)
        (if st.done = true then st.high else r.2.2)
        (((if st.done = true then st.low else r.2.1) + (if st.done = true then st.high else r.2.2)) / 2) (n + k)
        with ⟨g1, g2⟩ | ⟨r', k', g1, g2⟩
      · rw [bind_run, g1, g2]; exact Or.inl ⟨rfl, rfl⟩
      · rw [bind_run, g1, g2]
        refine Or.inr ⟨r', k + k', rfl, ?_⟩
        rw [Option.bind_some, pure_run]
        exact some_eq (by (try dsimp only); omega) (by (try dsimp only); omega)
    · rw [if_neg hc, if_neg hc]
      exact Or.inr ⟨_, k, rfl, rfl⟩

/-- **C103 (Hager-Zhang, initialisation).** -/
theorem C103_hager_zhang_init (ls : HZ K E) (x : E) (v0 : Ext K) (g0 d : E) :
    Counts (ls.initStateC x v0 g0 d) (ls.initState x v0 g0 d) 0 := by
  intro n
  simp only [HZ.initStateC, HZ.initState, bind_run]
  rcases bracketC_counts ls x d (ls.threshold v0) n with ⟨h1, h2⟩ | ⟨r, k, h1, h2⟩
  · rw [h1, h2]; exact Or.inl ⟨rfl, rfl⟩
  · rw [h1, h2]
    refine Or.inr ⟨_, k + 2, rfl, ?_⟩
    simp only [Option.bind_some, bestPointC_run, pure_run]
    exact some_eq (by (try dsimp only); omega) (by (try dsimp only); omega)

/-- **C103 (Hager-Zhang, update).** -/
theorem C103_hager_zhang_update (ls : HZ K E) (x : E) (v0 : Ext K) (g0 d : E) (stepsize : K) (st : HZState K E) (num : ℕ) :
    Counts (ls.updateC x v0 g0 d stepsize st num)
      (match ls.update x v0 g0 d (stepsize, some st) with
        | (s, some st') => some (s, st')
        | (_, none) => none) num := by
  intro n
  simp only [HZ.updateC, HZ.update, bind_run]
  rcases updateBracketC_counts ls x d (ls.threshold v0) st n with ⟨h1, h2⟩ | ⟨r, k, h1, h2⟩
  · rw [h1, h2]; exact Or.inl ⟨rfl, rfl⟩
  · rw [h1, h2]
    refine Or.inr ⟨_, k + 3, rfl, ?_⟩
    simp only [Option.bind_some, bestPointC_run, ask_run, pure_run]
    exact some_eq (by (try dsimp only); omega) (by (try dsimp only); omega)

end HagerZhang

/-! ### Backtracking and zoom -/

section Runs

variable {P S S' : Type}

/-- A run whose state carries more information than another run projects to that other run. -/
theorem runS_proj (proj : S' → S) {init' : P → S'} {init : P → S} {update' : P × S' → P × S'} {update : P × S → P × S}
    {cont' : P × S' → Bool} {cont : P × S → Bool} {maxiter : ℕ} {unroll jit : Bool} {x0 : P} {r : P × S'}
    (hi : ∀ x, proj (init' x) = init x)
    (hu : ∀ x, ((update' x).1, proj (update' x).2) = update (x.1, proj x.2))
    (hc : ∀ x, cont' x = cont (x.1, proj x.2)) (hm : 1 ≤ maxiter) (hb : unroll = true ∨ jit = true)
    (h : runS init' update' cont' maxiter unroll jit x0 = .ok r) :
    runS init update cont maxiter unroll jit x0 = .ok (r.1, proj r.2) := by
  obtain ⟨q, hq⟩ := runS_ok init update cont (maxiter := maxiter) (unroll := unroll) (jit := jit) x0 hm hb
  obtain ⟨k, a1, a2, a3, a4, a5⟩ := runS_spec hm h
  have hk : ∀ j, ((update'^[j] (x0, init' x0)).1, proj (update'^[j] (x0, init' x0)).2) = update^[j] (x0, init x0) := by
    intro j
    induction j with
    | zero => simp [hi]
    | succ j ih => rw [Function.iterate_succ_apply', Function.iterate_succ_apply', hu, ih]
  have : q = update^[k] (x0, init x0) := by
    refine runS_eq hq a1 a2 ?_ ?_
    · intro j h1 h2
      rw [← hk j, ← hc]; exact a4 j h1 h2
    · rcases a5 with a5 | a5
      · exact Or.inl a5
      · right; rw [← hk k, ← hc]; exact a5
  rw [hq, this, ← hk k, ← a3]

/-- A property of the initial state kept by `update` holds of the result of a run. -/
theorem runS_inv {init : P → S} {update : P × S → P × S} {cont : P × S → Bool} {maxiter : ℕ} {unroll jit : Bool} {x0 : P}
    {r : P × S} (I : P × S → Prop) (h0 : I (x0, init x0)) (hs : ∀ x, I x → I (update x)) (hm : 1 ≤ maxiter)
    (h : runS init update cont maxiter unroll jit x0 = .ok r) : I r := by
  obtain ⟨k, _, _, a3, _, _⟩ := runS_spec hm h
  rw [a3]
  have all : ∀ k, I (update^[k] (x0, init x0)) := by
    intro k
    induction k with
    | zero => exact h0
    | succ k ih => rw [Function.iterate_succ_apply']; exact hs _ ih
  exact all k

end Runs

section Backtracking

variable {K E : Type} [Field K] [LinearOrder K] [AddCommGroup E] [Module K E]

theorem Backtracking.initStateC_run (ls : Backtracking K E) (params : E) (value : Option (Ext K)) (grad : Option E) :
    (ls.initStateC params value grad).run ⟨0, 0⟩ = ((ls.initState params value grad, ⟨missing value grad, missing value grad⟩),
      ⟨missing value grad, missing value grad⟩) := by
  cases value <;> cases grad <;> rfl

/-- `1` in a state where the search has ended, lines 263-277. -/
def BState.ended (st : BState K E) : ℕ := if st.done || st.failed then 1 else 0

theorem Backtracking.updateC_run (ls : Backtracking K E) (joint : Bool) (params : E) (d : Option E) (s : K) (st : BState K E)
    (e : Evals) (c : Calls) :
    (ls.updateC joint params d (s, st, e)).run c =
      (((ls.update params d (s, st)).1, (ls.update params d (s, st)).2,
        if ls.condition = .armijo ∨ ls.condition = .goldstein then
          ⟨e.numFunEval + 1 + (ls.update params d (s, st)).2.ended, e.numGradEval + (ls.update params d (s, st)).2.ended⟩
        else ⟨e.numFunEval + 1, e.numGradEval + 1⟩),
        if ls.condition = .armijo ∨ ls.condition = .goldstein then
          ⟨c.fn + 1 + (ls.update params d (s, st)).2.ended,
            c.gr + (if joint then 1 else 0) + (ls.update params d (s, st)).2.ended⟩
        else ⟨c.fn + 1, c.gr + 1⟩) := by
  by_cases h : ls.condition = .armijo ∨ ls.condition = .goldstein
  · simp only [Backtracking.updateC, Backtracking.update, if_pos h, BState.ended]
    generalize hE : ls.computeError _ _ _ _ _ = err
    generalize hD : (st.done || err.le (.fin ls.tol)) = done
    generalize hF : (st.failed || (decide (st.iterNum + 1 = ls.maxiter) && !done)) = failed
    cases hdf : (done || failed) <;> simp [StateT.run, bind, StateT.bind, callFun, callGrad, modify, modifyGet,
      MonadStateOf.modifyGet, StateT.modifyGet, pure, StateT.pure, hE, hD, hF, hdf]
  · simp only [Backtracking.updateC, Backtracking.update, if_neg h, BState.ended]
    rfl

theorem Backtracking.update_iterNum (ls : Backtracking K E) (params : E) (d : Option E) (x : K × BState K E) :
    (ls.update params d x).2.iterNum = x.2.iterNum + 1 := rfl

theorem Backtracking.runC_run {ls : Backtracking K E} {joint : Bool} {s0 : K} {params : E} {value : Option (Ext K)}
    {grad d : Option E} {r : K × (BState K E × Evals) × Calls} (hm : 1 ≤ ls.maxiter)
    (hb : ls.unroll = true ∨ ls.jit = true) (h : ls.runC joint s0 params value grad d = .ok r) :
    ls.run s0 params value grad d = .ok (r.1, r.2.1.1) := by
  refine runS_proj (fun s => s.1.1) ?_ ?_ ?_ hm hb h
  · intro x; rw [Backtracking.initStateC_run]
  · intro x
    obtain ⟨s, ⟨st, e⟩, c⟩ := x
    simp only [Backtracking.updateC_run]
  · intro x; rfl

/-- **C103 (backtracking).**  Unless the value alone costs a gradient (`value_and_grad=True`) and the condition needs only
values, the search returns what the search without counters returns and its counters are the numbers of evaluations made. -/
theorem C103_backtracking {ls : Backtracking K E} {joint : Bool} {s0 : K} {params : E} {value : Option (Ext K)}
    {grad d : Option E} {r : K × (BState K E × Evals) × Calls} (hm : 1 ≤ ls.maxiter)
    (hb : ls.unroll = true ∨ ls.jit = true)
    (hj : joint = false ∨ ¬ (ls.condition = .armijo ∨ ls.condition = .goldstein))
    (h : ls.runC joint s0 params value grad d = .ok r) :
    ls.run s0 params value grad d = .ok (r.1, r.2.1.1) ∧
      r.2.2.fn = r.2.1.2.numFunEval ∧ r.2.2.gr = r.2.1.2.numGradEval := by
  refine ⟨Backtracking.runC_run hm hb h, ?_⟩
  refine runS_inv (fun x => x.2.2.fn = x.2.1.2.numFunEval ∧ x.2.2.gr = x.2.1.2.numGradEval) ?_ ?_ hm h
  · rw [Backtracking.initStateC_run]; exact ⟨rfl, rfl⟩
  · rintro ⟨s, ⟨st, e⟩, c⟩ ⟨h1, h2⟩
    simp only [Backtracking.updateC_run]
    by_cases hc : ls.condition = .armijo ∨ ls.condition = .goldstein
    · have : joint = false := hj.resolve_right (not_not.mpr hc)
      simp only [if_pos hc, this] at h1 h2 ⊢
      simp [h1, h2]
    · simp only [if_neg hc] at h1 h2 ⊢
      exact ⟨by rw [h1], by rw [h2]⟩

/-- **C103 (backtracking, a single function for value and gradient).**  With `value_and_grad=True` and a condition on values
only, every trial evaluates a gradient that is not counted. -/
theorem C103_backtracking_joint_false {ls : Backtracking K E} {s0 : K} {params : E} {value : Option (Ext K)}
    {grad d : Option E} {r : K × (BState K E × Evals) × Calls} (hm : 1 ≤ ls.maxiter)
    (hc : ls.condition = .armijo ∨ ls.condition = .goldstein) (h : ls.runC true s0 params value grad d = .ok r) :
    r.2.2.fn = r.2.1.2.numFunEval ∧ r.2.2.gr = r.2.1.2.numGradEval + r.2.1.1.iterNum ∧ 1 ≤ r.2.1.1.iterNum := by
  have h1 : r.2.2.fn = r.2.1.2.numFunEval ∧ r.2.2.gr = r.2.1.2.numGradEval + r.2.1.1.iterNum := by
    refine runS_inv (fun x => x.2.2.fn = x.2.1.2.numFunEval ∧ x.2.2.gr = x.2.1.2.numGradEval + x.2.1.1.iterNum) ?_ ?_ hm h
    · rw [Backtracking.initStateC_run]; exact ⟨rfl, rfl⟩
    · rintro ⟨s, ⟨st, e⟩, c⟩ ⟨h1, h2⟩
      simp only [Backtracking.updateC_run, if_pos hc, Backtracking.update_iterNum, if_true] at h1 h2 ⊢
      omega
  obtain ⟨k, a1, _, a3, _, _⟩ := runS_spec hm h
  refine ⟨h1.1, h1.2, ?_⟩
  obtain ⟨k, rfl⟩ : ∃ j, k = j + 1 := ⟨k - 1, by omega⟩
  rw [a3, Function.iterate_succ_apply']
  generalize (fun x : K × (BState K E × Evals) × Calls => _)^[k] _ = y
  obtain ⟨s, ⟨st, e⟩, c⟩ := y
  simp only [Backtracking.updateC_run, Backtracking.update_iterNum]
  omega

/-- **C103 (backtracking, closed form).**  After `k = iter_num` trials: `k` values and gradients for the Wolfe conditions; for
the Armijo and Goldstein conditions `k` values, and one value and gradient when the search has ended; in both cases one more
value and gradient when they were not given. -/
theorem C103_backtracking_closed {ls : Backtracking K E} {joint : Bool} {s0 : K} {params : E} {value : Option (Ext K)}
    {grad d : Option E} {r : K × (BState K E × Evals) × Calls} (hm : 1 ≤ ls.maxiter)
    (h : ls.runC joint s0 params value grad d = .ok r) :
    r.2.1.2 = if ls.condition = .armijo ∨ ls.condition = .goldstein then
        ⟨missing value grad + r.2.1.1.iterNum + r.2.1.1.ended, missing value grad + r.2.1.1.ended⟩
      else ⟨missing value grad + r.2.1.1.iterNum, missing value grad + r.2.1.1.iterNum⟩ := by
  obtain ⟨k, a1, a2, a3, a4, _⟩ := runS_spec hm h
  rw [a3]
  have key : ∀ j, j ≤ k → ∃ s st e c, (fun x : K × (BState K E × Evals) × Calls =>
      ((((ls.updateC joint params d (x.1, x.2.1)).run x.2.2).1.1,
        ((ls.updateC joint params d (x.1, x.2.1)).run x.2.2).1.2, ((ls.updateC joint params d (x.1, x.2.1)).run x.2.2).2) :
        K × (BState K E × Evals) × Calls))^[j] (s0, (ls.initStateC params value grad).run ⟨0, 0⟩) = (s, (st, e), c) ∧
      st.iterNum = j ∧ (j < k → st.done = false ∧ st.failed = false) ∧
      e = if ls.condition = .armijo ∨ ls.condition = .goldstein then
          ⟨missing value grad + j + st.ended, missing value grad + st.ended⟩
        else ⟨missing value grad + j, missing value grad + j⟩ := by
    intro j
    induction j with
    | zero =>
      intro _
      rw [Function.iterate_zero, id, Backtracking.initStateC_run]
      refine ⟨_, _, _, _, rfl, rfl, fun _ => ⟨rfl, rfl⟩, ?_⟩
      split_ifs <;> rfl
    | succ j ih =>
      intro hj
      obtain ⟨s, st, e, c, b1, b2, b3, b4⟩ := ih (by omega)
      obtain ⟨b5, b6⟩ := b3 (by omega)
      rw [Function.iterate_succ_apply', b1]
      simp only [Backtracking.updateC_run]
      have e0 : st.ended = 0 := by simp [BState.ended, b5, b6]
      refine ⟨_, _, _, _, rfl, by rw [Backtracking.update_iterNum, b2], ?_, ?_⟩
      · intro hjk
        have hcont := a4 (j + 1) (by omega) hjk
        rw [Function.iterate_succ_apply', b1] at hcont
        simp only [Backtracking.updateC_run] at hcont
        have herr : Ext.gt (ls.update params d (s, st)).2.error (.fin ls.tol) = true := hcont
        have hd : (ls.update params d (s, st)).2.done = false := by
          have : (ls.update params d (s, st)).2.done = (st.done || Ext.le (ls.update params d (s, st)).2.error (.fin ls.tol)) := rfl
          rw [this, b5]
          revert herr
          generalize (ls.update params d (s, st)).2.error = x
          cases x <;> simp [Ext.gt, Ext.lt, Ext.le]
        refine ⟨hd, ?_⟩
        have : (ls.update params d (s, st)).2.failed =
          (st.failed || (decide (st.iterNum + 1 = ls.maxiter) && !(ls.update params d (s, st)).2.done)) := rfl
        rw [this, b6, b2]
        simp only [Bool.false_or, Bool.and_eq_false_imp, decide_eq_true_eq]
        intro hh
        omega
      · rw [b4, e0]
        by_cases hc : ls.condition = .armijo ∨ ls.condition = .goldstein
        · simp only [if_pos hc]; congr 1
        · simp only [if_neg hc]; congr 1
  obtain ⟨s, st, e, c, b1, b2, _, b4⟩ := key k le_rfl
  rw [b1]
  dsimp only
  rw [b4, b2]

end Backtracking

section Zoom

variable {K E : Type} [Field K] [LinearOrder K] [AddCommGroup E] [Module K E]

/-- `1` when the auxiliary value has to be recomputed: it is expected, and it was not computed with the value or is `None`. -/
def recomputed {V G : Type} (hasAux auxNone : Bool) (value : Option V) (grad : Option G) : ℕ :=
  match value, grad with
  | some _, some _ => if hasAux then 1 else 0
  | _, _ => if hasAux && auxNone then 1 else 0

theorem Zoom.initStateC_run (ls : Zoom K E) (joint hasAux auxNone : Bool) (params : E) (value : Option (Ext K)) (grad : Option E)
    (dir : Option E) :
    (ls.initStateC joint hasAux auxNone params value grad dir).run ⟨0, 0⟩ = ((ls.initState params value grad dir,
      ⟨missing value grad + recomputed hasAux auxNone value grad, missing value grad + recomputed hasAux auxNone value grad⟩),
      ⟨missing value grad + recomputed hasAux auxNone value grad,
        missing value grad + if joint then recomputed hasAux auxNone value grad else 0⟩) := by
  cases value <;> cases grad <;> cases joint <;> cases hasAux <;> cases auxNone <;> rfl

theorem Zoom.updateC_run (ls : Zoom K E) (s : K) (st : ZState K E) (e : Evals) (c : Calls) :
    (ls.updateC (s, st, e)).run c = (((ls.update (s, st)).1, (ls.update (s, st)).2,
      ⟨e.numFunEval + 1 + (if (ls.rawUpdate (s, st)).2.failed then 1 else 0),
        e.numGradEval + 1 + (if (ls.rawUpdate (s, st)).2.failed then 1 else 0)⟩),
      ⟨c.fn + 1 + (if (ls.rawUpdate (s, st)).2.failed then 1 else 0),
        c.gr + 1 + (if (ls.rawUpdate (s, st)).2.failed then 1 else 0)⟩) := by
  simp only [Zoom.updateC, Zoom.update]
  cases h : (ls.rawUpdate (s, st)).2.failed <;> simp [StateT.run, bind, StateT.bind, callGrad, modify, modifyGet,
      MonadStateOf.modifyGet, StateT.modifyGet, pure, StateT.pure, h]

theorem Zoom.runC_run {ls : Zoom K E} {joint hasAux auxNone : Bool} {s0 : K} {params : E} {value : Option (Ext K)}
    {grad dir : Option E} {r : K × (ZState K E × Evals) × Calls} (hm : 1 ≤ ls.maxiter)
    (hb : ls.unroll = true ∨ ls.jit = true) (h : ls.runC joint hasAux auxNone s0 params value grad dir = .ok r) :
    ls.run s0 params value grad dir = .ok (r.1, r.2.1.1) := by
  refine runS_proj (fun s => s.1.1) ?_ ?_ ?_ hm hb h
  · intro x; rw [Zoom.initStateC_run]
  · intro x
    obtain ⟨s, ⟨st, e⟩, c⟩ := x
    simp only [Zoom.updateC_run]
  · intro x; rfl

/-- **C103 (zoom).**  The search returns what the search without counters returns, `num_fun_eval` is the number of evaluations,
and `num_grad_eval` exceeds the number of gradients by one when the auxiliary value is recomputed with the function alone. -/
theorem C103_zoom {ls : Zoom K E} {joint hasAux auxNone : Bool} {s0 : K} {params : E} {value : Option (Ext K)}
    {grad dir : Option E} {r : K × (ZState K E × Evals) × Calls} (hm : 1 ≤ ls.maxiter)
    (hb : ls.unroll = true ∨ ls.jit = true) (h : ls.runC joint hasAux auxNone s0 params value grad dir = .ok r) :
    ls.run s0 params value grad dir = .ok (r.1, r.2.1.1) ∧ r.2.2.fn = r.2.1.2.numFunEval ∧
      r.2.1.2.numGradEval = r.2.2.gr + if joint then 0 else recomputed hasAux auxNone value grad := by
  refine ⟨Zoom.runC_run hm hb h, ?_⟩
  refine runS_inv (fun x => x.2.2.fn = x.2.1.2.numFunEval ∧
    x.2.1.2.numGradEval = x.2.2.gr + if joint then 0 else recomputed hasAux auxNone value grad) ?_ ?_ hm h
  · rw [Zoom.initStateC_run]
    refine ⟨rfl, ?_⟩
    cases joint <;> simp
  · rintro ⟨s, ⟨st, e⟩, c⟩ ⟨h1, h2⟩
    simp only [Zoom.updateC_run] at h1 h2 ⊢
    omega

/-- **C103 (zoom, called by a solver).**  The solvers give the value and the gradient and expect an auxiliary value; unless the
user gives one function for value and gradient, every search counts one gradient too many. -/
theorem C103_zoom_false {ls : Zoom K E} {auxNone : Bool} {s0 : K} {params : E} {v : Ext K} {g : E} {dir : Option E}
    {r : K × (ZState K E × Evals) × Calls} (hm : 1 ≤ ls.maxiter) (hb : ls.unroll = true ∨ ls.jit = true)
    (h : ls.runC false true auxNone s0 params (some v) (some g) dir = .ok r) :
    r.2.1.2.numFunEval = r.2.2.fn ∧ r.2.1.2.numGradEval = r.2.2.gr + 1 := by
  obtain ⟨_, h1, h2⟩ := C103_zoom hm hb h
  exact ⟨h1.symm, h2⟩

end Zoom

/-! ### Hager-Zhang, whole search -/

section HagerZhangRun

variable {K E : Type} [Field K] [LinearOrder K] [AddCommGroup E] [Module K E]

theorem HZ.startC_run (ls : HZ K E) (params : E) (v0 : Ext K) (g0 d : E) (num : ℕ) (hn : num = 0 ∨ num = 1) :
    (ls.startC params v0 g0 d num 0 = none ∧ ls.initState params v0 g0 d = none) ∨
    ∃ st n, ls.startC params v0 g0 d num 0 = some ((st, n), n) ∧ ls.initState params v0 g0 d = some st := by
  unfold HZ.startC
  rcases hn with rfl | rfl
  · rcases C103_hager_zhang_init ls params v0 g0 d 0 with ⟨h1, h2⟩ | ⟨r, k, h1, h2⟩
    · left
      refine ⟨?_, h1⟩
      rw [if_neg (by decide)]
      simp only [bind_run, h2, Option.bind_none, pure_run, Option.bind_some]
    · right
      refine ⟨r, k, ?_, h1⟩
      rw [if_neg (by decide)]
      simp only [bind_run, h2, pure_run, Option.bind_some, Nat.zero_add]
  · rcases C103_hager_zhang_init ls params v0 g0 d 1 with ⟨h1, h2⟩ | ⟨r, k, h1, h2⟩
    · left
      refine ⟨?_, h1⟩
      rw [if_pos rfl]
      simp only [bind_run, ask_run, h2, Option.bind_none, pure_run, Option.bind_some]
    · right
      refine ⟨r, 1 + k, ?_, h1⟩
      rw [if_pos rfl]
      simp only [bind_run, ask_run, h2, pure_run, Option.bind_some, Nat.zero_add]

/-- **C103 (Hager-Zhang).**  The search returns what the search without counters returns, and its counter (both
`num_fun_eval` and `num_grad_eval`) is the number of evaluations made. -/
theorem C103_hager_zhang {ls : HZ K E} {s0 : K} {params : E} {value : Option (Ext K)} {grad dir : Option E}
    {r : K × Option ((HZState K E × ℕ) × ℕ)} (hm : 1 ≤ ls.maxiter) (hb : ls.unroll = true ∨ ls.jit = true)
    (h : ls.runC s0 params value grad dir = .ok r) :
    ls.run s0 params value grad dir = .ok (r.1, r.2.map fun z => z.1.1) ∧
      ∀ st num n, r.2 = some ((st, num), n) → num = n := by
  have hn : missing value grad = 0 ∨ missing value grad = 1 := by
    cases value <;> cases grad <;> simp [missing]
  have hinit := HZ.startC_run ls params (ls.resolve params value grad).1 (ls.resolve params value grad).2
    (HZ.resolveDir (K := K) (ls.resolve params value grad).2 dir) _ hn
  unfold HZ.runC at h
  dsimp only at h
  constructor
  · unfold HZ.run
    dsimp only
    refine runS_proj (fun z : Option ((HZState K E × ℕ) × ℕ) => z.map fun z => z.1.1) ?_ ?_ ?_ hm hb h
    · intro x
      rcases hinit with ⟨h1, h2⟩ | ⟨st, n, h1, h2⟩
      · rw [h1, h2]; rfl
      · rw [h1, h2]; rfl
    · rintro ⟨s, _ | ⟨⟨st, num⟩, n⟩⟩
      · rfl
      · have hu := C103_hager_zhang_update ls params (ls.resolve params value grad).1 (ls.resolve params value grad).2
          (HZ.resolveDir (K := K) (ls.resolve params value grad).2 dir) s st num n
        generalize hq : ls.update params (ls.resolve params value grad).1 (ls.resolve params value grad).2
          (HZ.resolveDir (K := K) (ls.resolve params value grad).2 dir) (s, some st) = q at hu
        obtain ⟨q1, q2⟩ := q
        cases q2 with
        | none =>
          rcases hu with ⟨_, h2⟩ | ⟨r, k, h1, h2⟩
          · simp only [h2, Option.map_none, Option.map_some, hq]
            have : q1 = s := by
              simp only [HZ.update] at hq
              split at hq
              · exact (Prod.mk.inj hq).1.symm
              · exact absurd (Prod.mk.inj hq).2 (by simp)
            rw [this]
          · cases h1
        | some q2 =>
          rcases hu with ⟨h1, _⟩ | ⟨r, k, h1, h2⟩
          · cases h1
          · cases h1
            simp only [h2, Option.map_some, hq]
    · rintro ⟨s, _ | ⟨⟨st, num⟩, n⟩⟩ <;> rfl
  · refine runS_inv (fun x => ∀ st num n, x.2 = some ((st, num), n) → num = n) ?_ ?_ hm h
    · intro st num n hh
      rcases hinit with ⟨h1, h2⟩ | ⟨st', n', h1, h2⟩
      · have := h1.symm.trans hh; cases this
      · have := h1.symm.trans hh; cases this; rfl
    · rintro ⟨s, _ | ⟨⟨st, num⟩, n⟩⟩ hI st' num' n' hh
      · cases hh
      · have := hI st num n rfl
        subst this
        have hu := C103_hager_zhang_update ls params (ls.resolve params value grad).1 (ls.resolve params value grad).2
          (HZ.resolveDir (K := K) (ls.resolve params value grad).2 dir) s st num num
        rcases hu with ⟨_, h2⟩ | ⟨r, k, h1, h2⟩
        · simp only [h2] at hh; cases hh
        · simp only [h2] at hh; cases hh; rfl

end HagerZhangRun

/-! ### The solvers -/

/-- The numbers by which the counters of the searches exceed the calls add up. -/
theorem solverC_run (searches : List (Option (Evals × Calls))) (c : ℕ)
    (hs : ∀ s, some s ∈ searches → s.1.numFunEval = s.2.fn ∧ s.1.numGradEval = s.2.gr + c) :
    ((solverC searches).run ⟨0, 0⟩).1.numFunEval = ((solverC searches).run ⟨0, 0⟩).2.fn ∧
      ((solverC searches).run ⟨0, 0⟩).1.numGradEval =
        ((solverC searches).run ⟨0, 0⟩).2.gr + c * searches.countP (·.isSome) := by
  have key : ∀ (l : List (Option (Evals × Calls))) (e : Evals) (q : Calls) (m : ℕ),
      (∀ s, some s ∈ l → s.1.numFunEval = s.2.fn ∧ s.1.numGradEval = s.2.gr + c) →
      e.numFunEval = q.fn → e.numGradEval = q.gr + m →
      ((l.foldlM (fun e s => solverUpdateC s e) e : StateM Calls Evals).run q).1.numFunEval =
        ((l.foldlM (fun e s => solverUpdateC s e) e : StateM Calls Evals).run q).2.fn ∧
      ((l.foldlM (fun e s => solverUpdateC s e) e : StateM Calls Evals).run q).1.numGradEval =
        ((l.foldlM (fun e s => solverUpdateC s e) e : StateM Calls Evals).run q).2.gr + (m + c * l.countP (·.isSome)) := by
    intro l
    induction l with
    | nil => intro e q m _ h1 h2; exact ⟨h1, h2⟩
    | cons a l ih =>
      intro e q m hl h1 h2
      cases a with
      | none =>
        have := ih ⟨e.numFunEval + 1, e.numGradEval + 1⟩ ⟨q.fn + 1, q.gr + 1⟩ m (fun s hs => hl s (List.mem_cons_of_mem _ hs))
          (by dsimp only; omega) (by dsimp only; omega)
        rw [List.countP_cons_of_neg (by simp)]
        exact this
      | some a =>
        obtain ⟨a1, a2⟩ := hl a (List.mem_cons_self)
        have := ih ⟨e.numFunEval + a.1.numFunEval, e.numGradEval + a.1.numGradEval⟩ ⟨q.fn + a.2.fn, q.gr + a.2.gr⟩ (m + c)
          (fun s hs => hl s (List.mem_cons_of_mem _ hs)) (by dsimp only; omega) (by dsimp only; omega)
        rw [List.countP_cons_of_pos (by rfl)]
        rw [show m + c * (l.countP (·.isSome) + 1) = m + c + c * l.countP (·.isSome) by ring]
        exact this
  have := key searches ⟨1, 1⟩ ⟨1, 1⟩ 0 hs rfl rfl
  rw [Nat.zero_add] at this
  exact this

/-- **C103 (solvers).**  When the counters of every search are right, so are those of the solver. -/
theorem C103_solver (searches : List (Option (Evals × Calls)))
    (hs : ∀ s, some s ∈ searches → s.1.numFunEval = s.2.fn ∧ s.1.numGradEval = s.2.gr) :
    ((solverC searches).run ⟨0, 0⟩).1.numFunEval = ((solverC searches).run ⟨0, 0⟩).2.fn ∧
      ((solverC searches).run ⟨0, 0⟩).1.numGradEval = ((solverC searches).run ⟨0, 0⟩).2.gr := by
  have := solverC_run searches 0 (by simpa using hs)
  simpa using this

/-- **C103 (solvers with their default zoom search).**  `num_fun_eval` is right; `num_grad_eval` exceeds the number of gradients
by the number of iterations. -/
theorem C103_solver_zoom_false {K E : Type} [Field K] [LinearOrder K] [AddCommGroup E] [Module K E]
    (ls : Zoom K E) (hm : 1 ≤ ls.maxiter) (hb : ls.unroll = true ∨ ls.jit = true) (searches : List (Evals × Calls))
    (hs : ∀ s ∈ searches, ∃ auxNone s0 params v g dir r,
      ls.runC false true auxNone s0 params (some v) (some g) dir = .ok r ∧ s = (r.2.1.2, r.2.2)) :
    ((solverC (searches.map some)).run ⟨0, 0⟩).1.numFunEval = ((solverC (searches.map some)).run ⟨0, 0⟩).2.fn ∧
      ((solverC (searches.map some)).run ⟨0, 0⟩).1.numGradEval =
        ((solverC (searches.map some)).run ⟨0, 0⟩).2.gr + searches.length := by
  have := solverC_run (searches.map some) 1 (by
    intro s hmem
    obtain ⟨s', h1, h2⟩ := List.mem_map.mp hmem
    cases h2
    obtain ⟨auxNone, s0, params, v, g, dir, r, h3, rfl⟩ := hs s h1
    exact C103_zoom_false hm hb h3)
  rw [Nat.one_mul] at this
  have hcount : (searches.map some).countP (·.isSome) = searches.length := by
    rw [List.countP_map]
    exact List.countP_eq_length.mpr (fun _ _ => rfl)
  rw [hcount] at this
  exact this

/-! ### Examples -/

section Examples

/-- `f(x) = x²` on the rationals. -/
private def exBack (c : Condition) : Backtracking ℚ ℚ where
  f := fun x => .fin (x * x)
  grad := fun x => 2 * x
  vdot := fun a b => a * b
  condition := c
  maxStepsize := 1
  decreaseFactor := 1 / 2
  c1 := 1 / 10000
  c2 := 9 / 10
  maxiter := 30
  tol := 0
  unroll := true
  jit := false

/-- Two trials: the step `1` is refused, the step `1/2` accepted; three values (two trials and the last one with its gradient)
and one gradient. -/
example : ((exBack .armijo).runC false 1 1 (some (.fin 1)) (some 2) none).toOption.map (fun r => (r.1, r.2.1.2, r.2.2)) =
    some (1 / 2, ⟨3, 1⟩, ⟨3, 1⟩) := by decide +kernel

/-- With one function for value and gradient, three gradients are computed and one is counted. -/
example : ((exBack .armijo).runC true 1 1 (some (.fin 1)) (some 2) none).toOption.map (fun r => (r.1, r.2.1.2, r.2.2)) =
    some (1 / 2, ⟨3, 1⟩, ⟨3, 3⟩) := by decide +kernel

/-- A zoom search as the solvers call it: four values, three gradients, four gradients counted. -/
example : ((exampleZoom 5).runC false true true 2 1 (some (.fin 1)) (some 2) (some (-2))).toOption.map
    (fun r => (r.1, r.2.1.2, r.2.2)) = some (1 / 2, ⟨4, 4⟩, ⟨4, 3⟩) := by decide +kernel

/-- A Hager-Zhang search: the counter is the number of evaluations. -/
example : (HZ.runC HZ.halfSq 1 1 none none (some (-2))).toOption.map
    (fun r => (r.1, r.2.map (fun z => (z.1.2, z.2)))) = some (1 / 2, some (17, 17)) := by decide +kernel

/-- Two iterations of a solver with that search: nine values, seven gradients, nine gradients counted. -/
example : (solverC [some (⟨4, 4⟩, ⟨4, 3⟩), some (⟨4, 4⟩, ⟨4, 3⟩)]).run ⟨0, 0⟩ = (⟨9, 9⟩, ⟨9, 7⟩) := rfl

end Examples

end Jaxopt.LineSearch
