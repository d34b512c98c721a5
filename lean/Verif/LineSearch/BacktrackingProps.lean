import Verif.LineSearch.Backtracking
import Verif.Num.Smooth
import Mathlib.Tactic.FieldSimp

/-!
# Properties C18, C19, C53: backtracking line search and starting stepsizes
-/

set_option autoImplicit false
set_option linter.unusedSectionVars false
set_option linter.unusedVariables false

namespace Jaxopt.LineSearch

open Jaxopt.Base

section C18
variable {K E : Type*} [Field K] [LinearOrder K] [IsStrictOrderedRing K] [AddCommGroup E] [Module K E]

/-- Specification of the four acceptance conditions (Nocedal & Wright (3.6a), (3.6b), (3.7b), (3.11)), up to `tol`:
`v0`, `slope` are the value and slope at the start, `v`, `newSlope` at stepsize `s`. -/
def Accept (c : Condition) (c1 c2 tol v0 slope s : K) (v : Ext K) (newSlope : K) : Prop :=
  v.AtMost (v0 + c1 * s * slope + tol) ∧
  match c with
  | .armijo => True
  | .strongWolfe => |newSlope| ≤ c2 * |slope| + tol
  | .wolfe => c2 * slope - tol ≤ newSlope
  | .goldstein => v.AtLeast (v0 + (1 - c1) * s * slope - tol)

variable (ls : Backtracking K E)

theorem computeError_ne_nan (s : K) (v0 v : Ext K) (slope ns : K) :
    ls.computeError s v0 v slope ns ≠ Ext.nan := by
  have h : ∀ d : Ext K, Ext.max (Ext.nanToInf d) (.fin 0) ≠ Ext.nan :=
    fun d => Ext.max_ne_nan (Ext.nanToInf_ne_nan d) (by simp)
  unfold Backtracking.computeError
  cases ls.condition
  · exact h _
  · exact Ext.max_ne_nan (h _) (h _)
  · exact Ext.max_ne_nan (h _) (h _)
  · exact Ext.max_ne_nan (h _) (h _)

theorem computeError_le (ht : 0 ≤ ls.tol) (s v0 : K) (v : Ext K) (slope ns : K) :
    Ext.le (ls.computeError s (.fin v0) v slope ns) (.fin ls.tol) = true ↔
      Accept ls.condition ls.c1 ls.c2 ls.tol v0 slope s v ns := by
  have key : Ext.le (Ext.max (Ext.nanToInf (Ext.sub v (Ext.add (.fin v0) (.fin (ls.c1 * s * slope))))) (.fin 0)) (.fin ls.tol)
      = true ↔ v.AtMost (v0 + ls.c1 * s * slope + ls.tol) := by
    rw [Ext.posPart_le ht]
    exact Ext.atMost_sub
  unfold Backtracking.computeError Accept
  cases ls.condition
  · simp only [key, and_true]
  · simp only [Ext.max_le_iff, key, Ext.posPart_le ht]
    refine and_congr_right fun _ => ?_
    simp only [Ext.AtMost]; constructor <;> intro h <;> linarith
  · simp only [Ext.max_le_iff, key, Ext.posPart_le ht]
    refine and_congr_right fun _ => ?_
    simp only [Ext.AtMost]; constructor <;> intro h <;> linarith
  · simp only [Ext.max_le_iff, key, Ext.posPart_le ht]
    refine and_congr_right fun _ => ?_
    exact Ext.atMost_sub'

/-- The slope used by the test at stepsize `s`: for Armijo and Goldstein it plays no role. -/
def newSlope (ls : Backtracking K E) (x d g0 : E) (s : K) : K :=
  if ls.condition = .armijo ∨ ls.condition = .goldstein then ls.vdot g0 d else ls.vdot (ls.grad (x + s • d)) d

/-- The condition at stepsize `s`. -/
def AcceptAt (ls : Backtracking K E) (x d g0 : E) (v0 s : K) : Prop :=
  Accept ls.condition ls.c1 ls.c2 ls.tol v0 (ls.vdot g0 d) s (ls.f (x + s • d)) (ls.vdot (ls.grad (x + s • d)) d)

theorem acceptAt_iff (ht : 0 ≤ ls.tol) (x d g0 : E) (v0 s : K) :
    Ext.le (ls.computeError s (.fin v0) (ls.f (x + s • d)) (ls.vdot g0 d) (newSlope ls x d g0 s)) (.fin ls.tol) = true ↔
      AcceptAt ls x d g0 v0 s := by
  rw [computeError_le ls ht]
  unfold AcceptAt newSlope Accept
  cases h : ls.condition <;> simp

/-- Step sizes tried by the search. -/
def trial (ls : Backtracking K E) (init : K) (j : ℕ) : K := min ls.maxStepsize init * ls.decreaseFactor ^ j

theorem min_trial (hmax : 0 ≤ ls.maxStepsize) (hd0 : 0 < ls.decreaseFactor) (hd1 : ls.decreaseFactor ≤ 1) (init : K) (j : ℕ) :
    min ls.maxStepsize (trial ls init j) = trial ls init j := by
  apply min_eq_right
  unfold trial
  have h1 : ls.decreaseFactor ^ j ≤ 1 := pow_le_one₀ (le_of_lt hd0) hd1
  have h0 : 0 < ls.decreaseFactor ^ j := pow_pos hd0 j
  have hm : min ls.maxStepsize init ≤ ls.maxStepsize := min_le_left _ _
  rcases le_total 0 (min ls.maxStepsize init) with h | h
  · nlinarith
  · nlinarith

/-- State of the search after `j` unsuccessful trials. -/
structure Searching (ls : Backtracking K E) (init : K) (v0 : K) (g0 : E) (j : ℕ) (z : K × BState K E) : Prop where
  step : min ls.maxStepsize z.1 = trial ls init j
  iter : z.2.iterNum = j
  done : z.2.done = false
  failed : z.2.failed = false
  value : z.2.valueInit = .fin v0
  grad : z.2.gradInit = g0

/-- One update at a `Searching` state. -/
structure Updated (ls : Backtracking K E) (init : K) (x d g0 : E) (v0 : K) (j : ℕ) (z : K × BState K E) : Prop where
  params : z.2.params = x + trial ls init j • d
  value : z.2.value = ls.f z.2.params
  done : z.2.done = true ↔ AcceptAt ls x d g0 v0 (trial ls init j)
  failed : z.2.failed = true ↔ j + 1 = ls.maxiter ∧ ¬ AcceptAt ls x d g0 v0 (trial ls init j)
  cont : Ext.gt z.2.error (.fin ls.tol) = true ↔ ¬ AcceptAt ls x d g0 v0 (trial ls init j)
  final : z.2.done = true ∨ z.2.failed = true → z.1 = trial ls init j ∧ z.2.grad = ls.grad z.2.params
  next : ¬ (z.2.done = true ∨ z.2.failed = true) → z.1 = trial ls init j * ls.decreaseFactor
  iter : z.2.iterNum = j + 1
  valueInit : z.2.valueInit = .fin v0
  gradInit : z.2.gradInit = g0

theorem update_searching (ht : 0 ≤ ls.tol) {init v0 : K} {x g0 : E} (dir : Option E) {j : ℕ} {z : K × BState K E}
    (h : Searching ls init v0 g0 j z) :
    Updated ls init x (Option.getD dir ((-1 : K) • g0)) g0 v0 j (ls.update x dir z) := by
  have hd : Backtracking.direction (K := K) z.2 dir = Option.getD dir ((-1 : K) • g0) := by
    unfold Backtracking.direction; cases dir <;> simp [h.grad]
  set d := Option.getD dir ((-1 : K) • g0) with hdd
  have herr : (ls.update x dir z).2.error =
      ls.computeError (trial ls init j) (.fin v0) (ls.f (x + trial ls init j • d)) (ls.vdot g0 d)
        (newSlope ls x d g0 (trial ls init j)) := by
    simp only [Backtracking.update, hd, h.step, h.value, h.grad, newSlope]
    by_cases hc : ls.condition = .armijo ∨ ls.condition = .goldstein
    · simp only [hc, if_true]
    · simp only [hc, if_false]
  have hdone : (ls.update x dir z).2.done = Ext.le (ls.update x dir z).2.error (.fin ls.tol) := by
    simp [Backtracking.update, h.done]
  have hfail : (ls.update x dir z).2.failed =
      (decide (j + 1 = ls.maxiter) && !(ls.update x dir z).2.done) := by
    simp [Backtracking.update, h.failed, h.iter]
  have hdone' : (ls.update x dir z).2.done = true ↔ AcceptAt ls x d g0 v0 (trial ls init j) := by
    rw [hdone, herr]; exact acceptAt_iff ls ht x d g0 v0 _
  refine ⟨?_, ?_, hdone', ?_, ?_, ?_, ?_, ?_, ?_, ?_⟩
  · simp only [Backtracking.update, hd, h.step]
  · simp only [Backtracking.update]
  · rw [hfail, ← hdone']
    simp
  · rw [Ext.gt_eq_not_le (by rw [herr]; exact computeError_ne_nan _ _ _ _ _ _), ← hdone, ← hdone']
    simp
  · intro hdf
    have hb : ((ls.update x dir z).2.done || (ls.update x dir z).2.failed) = true := by simpa using hdf
    have e1 : (ls.update x dir z).1 = if ((ls.update x dir z).2.done || (ls.update x dir z).2.failed)
        then min ls.maxStepsize z.1 else min ls.maxStepsize z.1 * ls.decreaseFactor := rfl
    have e2 : (ls.update x dir z).2.grad = if ls.condition = .armijo ∨ ls.condition = .goldstein then
        (if ((ls.update x dir z).2.done || (ls.update x dir z).2.failed)
        then ls.grad (ls.update x dir z).2.params else z.2.gradInit) else
          (if ls.condition = .armijo ∨ ls.condition = .goldstein then z.2.gradInit
            else ls.grad (ls.update x dir z).2.params) := rfl
    rw [e1, e2, hb]
    refine ⟨by simp [h.step], ?_⟩
    by_cases hc : ls.condition = .armijo ∨ ls.condition = .goldstein
    · simp only [hc, if_true]
    · simp only [hc, if_false]
  · intro hdf
    have hb : ((ls.update x dir z).2.done || (ls.update x dir z).2.failed) = false := by simpa using hdf
    have e1 : (ls.update x dir z).1 = if ((ls.update x dir z).2.done || (ls.update x dir z).2.failed)
        then min ls.maxStepsize z.1 else min ls.maxStepsize z.1 * ls.decreaseFactor := rfl
    rw [e1, hb]; simp [h.step]
  · simp [Backtracking.update, h.iter]
  · simp [Backtracking.update, h.value]
  · simp [Backtracking.update, h.grad]

theorem searching_iterate (ht : 0 ≤ ls.tol) (hmax : 0 ≤ ls.maxStepsize) (hd0 : 0 < ls.decreaseFactor)
    (hd1 : ls.decreaseFactor ≤ 1) {init v0 : K} {x g0 : E} (dir : Option E) {st0 : BState K E}
    (h0 : Searching ls init v0 g0 0 (init, st0)) (j : ℕ) (hj : j < ls.maxiter)
    (hrej : ∀ i < j, ¬ AcceptAt ls x (Option.getD dir ((-1 : K) • g0)) g0 v0 (trial ls init i)) :
    Searching ls init v0 g0 j ((ls.update x dir)^[j] (init, st0)) := by
  induction j with
  | zero => exact h0
  | succ j ih =>
    have hs := ih (by omega) fun i hi => hrej i (by omega)
    have hu := update_searching ls ht (x := x) dir hs
    rw [Function.iterate_succ_apply']
    have hna := hrej j (by omega)
    have hnd : (ls.update x dir ((ls.update x dir)^[j] (init, st0))).2.done = false := by
      have := hu.done; rw [← Bool.not_eq_true]; exact fun hh => hna (this.mp hh)
    have hnf : (ls.update x dir ((ls.update x dir)^[j] (init, st0))).2.failed = false := by
      have := hu.failed; rw [← Bool.not_eq_true]; exact fun hh => by have := (this.mp hh).1; omega
    refine ⟨?_, hu.iter, hnd, hnf, hu.valueInit, hu.gradInit⟩
    rw [hu.next (by simp [hnd, hnf])]
    have : trial ls init j * ls.decreaseFactor = trial ls init (j + 1) := by unfold trial; ring
    rw [this, min_trial ls hmax hd0 hd1]

/-- **C18**.  `v0`, `g0` are the value and gradient at `params` (passed by the caller or recomputed).  The returned step
is the `k`-th trial; all earlier trials were rejected; params, value, grad of the state are those at the returned step;
exactly one of `done`, `failed` holds, `done` iff the condition holds at the returned step, `failed` iff no trial was
accepted. -/
theorem C18_backtracking (ht : 0 ≤ ls.tol) (hmax : 0 ≤ ls.maxStepsize) (hd0 : 0 < ls.decreaseFactor)
    (hd1 : ls.decreaseFactor ≤ 1) (hm : 1 ≤ ls.maxiter) (init v0 : K) (x g0 : E) (value : Option (Ext K))
    (grad : Option E) (dir : Option E) (hinit : (value = some (.fin v0) ∧ grad = some g0) ∨
      ((value = none ∨ grad = none) ∧ ls.f x = .fin v0 ∧ ls.grad x = g0))
    (stepsize : K) (st : BState K E) (hrun : ls.run init x value grad dir = .ok (stepsize, st)) :
    let d := Option.getD dir (-g0)
    ∃ k < ls.maxiter, stepsize = min ls.maxStepsize init * ls.decreaseFactor ^ k ∧
      (∀ i < k, ¬ AcceptAt ls x d g0 v0 (min ls.maxStepsize init * ls.decreaseFactor ^ i)) ∧
      st.params = x + stepsize • d ∧ st.value = ls.f st.params ∧ st.grad = ls.grad st.params ∧
      (st.done = true ↔ AcceptAt ls x d g0 v0 stepsize) ∧
      (st.failed = true ↔ st.done = false) ∧
      (st.failed = true ↔
        ∀ i < ls.maxiter, ¬ AcceptAt ls x d g0 v0 (min ls.maxStepsize init * ls.decreaseFactor ^ i)) := by
  intro d
  have hdd : d = Option.getD dir ((-1 : K) • g0) := by simp [d]
  have h0 : Searching ls init v0 g0 0 (init, ls.initState x value grad) := by
    refine ⟨by simp [trial], rfl, rfl, rfl, ?_, ?_⟩
    · rcases hinit with ⟨h1, h2⟩ | ⟨h1, h2, h3⟩
      · simp [Backtracking.initState, h1, h2]
      · rcases h1 with h1 | h1
        · simp [Backtracking.initState, h1, h2]
        · cases value <;> simp [Backtracking.initState, h1, h2]
    · rcases hinit with ⟨h1, h2⟩ | ⟨h1, h2, h3⟩
      · simp [Backtracking.initState, h1, h2]
      · rcases h1 with h1 | h1
        · simp [Backtracking.initState, h1, h3]
        · cases value <;> simp [Backtracking.initState, h1, h3]
  obtain ⟨k, hk1, hk2, hr, hc1, hc2⟩ := runS_spec hm hrun
  have hrej : ∀ j, j < k → ∀ i < j, ¬ AcceptAt ls x d g0 v0 (trial ls init i) := by
    intro j
    induction j with
    | zero => intro _ i hi; omega
    | succ j ih =>
      intro hj i hi
      rcases Nat.lt_or_ge i j with hij | hij
      · exact ih (by omega) i hij
      · have e : i = j := by omega
        subst e
        have hs := searching_iterate ls ht hmax hd0 hd1 (x := x) dir h0 i (by omega) (by rw [← hdd]; exact ih (by omega))
        have hu := update_searching ls ht (x := x) dir hs
        have hc := hc1 (i + 1) (by omega) (by omega)
        rw [Function.iterate_succ_apply'] at hc
        rw [hdd]
        exact hu.cont.mp hc
  have hs := searching_iterate ls ht hmax hd0 hd1 (x := x) dir h0 (k - 1) (by omega)
    (by rw [← hdd]; exact hrej (k - 1) (by omega))
  have hu := update_searching ls ht (x := x) dir hs
  have e : (ls.update x dir)^[k] (init, ls.initState x value grad)
      = ls.update x dir ((ls.update x dir)^[k - 1] (init, ls.initState x value grad)) := by
    rw [← Function.iterate_succ_apply' (ls.update x dir), Nat.succ_eq_add_one, Nat.sub_add_cancel hk1]
  rw [e] at hr hc2
  rw [← hr] at hu hc2
  rw [← hdd] at hu
  have hcont := hu.cont
  have hdf : st.done = true ∨ st.failed = true := by
    by_cases ha : AcceptAt ls x d g0 v0 (trial ls init (k - 1))
    · left; exact hu.done.mpr ha
    · right
      refine hu.failed.mpr ⟨?_, ha⟩
      rcases hc2 with hc2 | hc2
      · omega
      · rw [hcont.mpr ha] at hc2; cases hc2
  obtain ⟨f1, f2⟩ := hu.final hdf
  have f1 : stepsize = trial ls init (k - 1) := f1
  have hfd : st.failed = true ↔ st.done = false := by
    constructor
    · intro hf
      have := (hu.failed.mp hf).2
      rw [← Bool.not_eq_true]; exact fun hh => this (hu.done.mp hh)
    · intro hd; rcases hdf with h | h
      · rw [h] at hd; cases hd
      · exact h
  refine ⟨k - 1, by omega, f1, hrej (k - 1) (by omega), by rw [f1]; exact hu.params, hu.value, f2, by rw [f1]; exact hu.done, hfd, ?_⟩
  constructor
  · intro hf
    obtain ⟨q1, q2⟩ := hu.failed.mp hf
    intro i hi
    rcases Nat.lt_or_ge i (k - 1) with h | h
    · exact hrej (k - 1) (by omega) i h
    · have : i = k - 1 := by omega
      rw [this]; exact q2
  · intro hall
    rw [hfd, ← Bool.not_eq_true]
    exact fun hh => hall (k - 1) (by omega) (hu.done.mp hh)

end C18

/-- Non-vacuity of C18: `f(x) = x²` on `ℚ` from `x = 1` with direction `-2`, Armijo, factor `1/2`: the step `1` is
rejected, `1/2` accepted. -/
def exampleSearch : Backtracking ℚ ℚ :=
  { f := fun x => .fin (x * x), grad := fun x => 2 * x, vdot := fun u v => u * v, maxiter := 5, tol := 0,
    condition := .armijo, c1 := 1 / 10, c2 := 9 / 10, decreaseFactor := 1 / 2, maxStepsize := 1, unroll := true,
    jit := false }

example : (exampleSearch.run 1 1 none none none).toOption.map (fun r => (r.1, r.2.params, r.2.done, r.2.failed))
    = some (1 / 2, 0, true, false) := by decide +kernel

section C19
variable {E : Type*} [NormedAddCommGroup E] [InnerProductSpace ℝ E] [CompleteSpace E]

theorem armijo_of_smooth {F : E → ℝ} {g : E → E} {L c1 : ℝ} (hL : 0 < L) (h : LSmooth F g L) (x d : E)
    (hslope : inner ℝ (g x) d < 0) {s : ℝ} (hs0 : 0 ≤ s)
    (hs : s ≤ 2 * (1 - c1) * |inner ℝ (g x) d| / (L * ‖d‖ ^ 2)) :
    F (x + s • d) ≤ F x + c1 * s * inner ℝ (g x) d := by
  have hd : d ≠ 0 := by rintro rfl; simp at hslope
  have hdn : 0 < ‖d‖ ^ 2 := by positivity
  have h1 := h.descent x (x + s • d)
  rw [add_sub_cancel_left, inner_smul_right, norm_smul, mul_pow, Real.norm_of_nonneg hs0] at h1
  rw [le_div_iff₀ (by positivity), abs_of_neg hslope] at hs
  nlinarith [mul_nonneg hs0 (sub_nonneg.mpr hs)]

/-- **C19**: for an `L`-smooth objective and a descent direction, the Armijo search returns a step of size at least
`min(init, decrease_factor · 2(1-c1)|slope| / (L‖d‖²))` (with `init` capped by `max_stepsize`), and it succeeds as soon as
`maxiter` is large enough for the last trial to be below `2(1-c1)|slope| / (L‖d‖²)`. -/
theorem C19_armijo_lower_bound (ls : Backtracking ℝ E) (F : E → ℝ) (L : ℝ) (hL : 0 < L) (hF : ls.f = fun x => .fin (F x))
    (hv : ls.vdot = fun u v => inner ℝ u v) (hsm : LSmooth F ls.grad L) (hcond : ls.condition = .armijo)
    (ht : 0 ≤ ls.tol) (hmax : 0 < ls.maxStepsize) (hd0 : 0 < ls.decreaseFactor) (hd1 : ls.decreaseFactor ≤ 1)
    (hc1 : ls.c1 < 1) (hm : 1 ≤ ls.maxiter) (init : ℝ) (hinit : 0 < init) (x : E) (dir : Option E)
    (hslope : inner ℝ (ls.grad x) (Option.getD dir (-ls.grad x)) < 0)
    (stepsize : ℝ) (st : BState ℝ E) (hrun : ls.run init x none none dir = .ok (stepsize, st)) :
    let d := Option.getD dir (-ls.grad x)
    let bound := 2 * (1 - ls.c1) * |inner ℝ (ls.grad x) d| / (L * ‖d‖ ^ 2)
    0 < bound ∧ min (min ls.maxStepsize init) (ls.decreaseFactor * bound) ≤ stepsize ∧
      (min ls.maxStepsize init * ls.decreaseFactor ^ (ls.maxiter - 1) ≤ bound → st.done = true ∧ st.failed = false) := by
  intro d bound
  have hd : d ≠ 0 := by
    intro h0
    have : inner ℝ (ls.grad x) d < 0 := hslope
    rw [h0] at this; simp at this
  have hb : 0 < bound := by
    have h1 : 0 < |inner ℝ (ls.grad x) d| := abs_pos.mpr (ne_of_lt hslope)
    have h2 : 0 < 1 - ls.c1 := by linarith
    have : 0 < ‖d‖ := norm_pos_iff.mpr hd
    positivity
  have hacc : ∀ s, 0 ≤ s → s ≤ bound → AcceptAt ls x d (ls.grad x) (F x) s := by
    intro s h1 h2
    have := armijo_of_smooth (c1 := ls.c1) hL hsm x d hslope h1 h2
    simp only [AcceptAt, Accept, hcond, hF, hv, Ext.AtMost, and_true]
    linarith
  obtain ⟨k, hk, e1, e2, e3, e4, e5, e6, e7, e8⟩ := C18_backtracking ls ht (le_of_lt hmax) hd0 hd1 hm init (F x) x (ls.grad x)
    none none dir (Or.inr ⟨Or.inl rfl, by rw [hF], rfl⟩) stepsize st hrun
  have hpos : ∀ j, 0 ≤ min ls.maxStepsize init * ls.decreaseFactor ^ j := fun j =>
    mul_nonneg (le_min (le_of_lt hmax) (le_of_lt hinit)) (pow_nonneg (le_of_lt hd0) j)
  refine ⟨hb, ?_, ?_⟩
  · rcases Nat.eq_zero_or_pos k with h0 | h0
    · rw [e1, h0, pow_zero, mul_one]; exact min_le_left _ _
    · have hr : bound < min ls.maxStepsize init * ls.decreaseFactor ^ (k - 1) := by
        by_contra hcon
        exact e2 (k - 1) (by omega) (hacc _ (hpos _) (not_lt.mp hcon))
      refine le_trans (min_le_right _ _) ?_
      have : stepsize = ls.decreaseFactor * (min ls.maxStepsize init * ls.decreaseFactor ^ (k - 1)) := by
        rw [e1]
        have : ls.decreaseFactor ^ k = ls.decreaseFactor ^ (k - 1) * ls.decreaseFactor := by
          rw [← pow_succ, Nat.sub_add_cancel h0]
        rw [this]; ring
      rw [this]
      exact mul_le_mul_of_nonneg_left (le_of_lt hr) (le_of_lt hd0)
  · intro hlast
    have hnf : st.failed = false := by
      rw [← Bool.not_eq_true]
      intro hf
      exact (e8.mp hf) (ls.maxiter - 1) (by omega) (hacc _ (hpos _) hlast)
    refine ⟨?_, hnf⟩
    cases h : st.done
    · rw [e7.mpr h] at hnf; cases hnf
    · rfl

/-- Non-vacuity: `F x = x²/2` on `ℝ` is 1-smooth and `-1` is a descent direction at `1`. -/
example : LSmooth (fun x : ℝ => x ^ 2 / 2) (fun x => x) 1 ∧ inner ℝ (1 : ℝ) (-1 : ℝ) < 0 := by
  refine ⟨⟨fun x => ?_, fun x y => by simp⟩, by norm_num⟩
  have h := (hasDerivAt_pow 2 x).div_const 2
  have e : ((2 : ℕ) : ℝ) * x ^ (2 - 1) / 2 = x := by norm_num
  rw [e] at h
  exact h.hasGradientAt'

end C19

/-! ## C53 -/

/-- **C53**: the table of strategies. -/
theorem C53_init_stepsize {K : Type*} [Field K] [LinearOrder K] [IsStrictOrderedRing K] (strategy : String)
    (maxS minS inc s : K) :
    (strategy = "max" → initStepsize strategy maxS minS inc s = .ok maxS) ∧
    (strategy = "current" → initStepsize strategy maxS minS inc s = .ok s) ∧
    (strategy = "increase" → s ≤ minS → initStepsize strategy maxS minS inc s = .ok maxS) ∧
    (strategy = "increase" → minS < s → initStepsize strategy maxS minS inc s = .ok (s * inc)) ∧
    ((strategy ≠ "max" ∧ strategy ≠ "current" ∧ strategy ≠ "increase") ↔
      ∃ e, initStepsize strategy maxS minS inc s = .error e) := by
  refine ⟨?_, ?_, ?_, ?_, ?_, ?_⟩
  · rintro rfl; simp [initStepsize]
  · rintro rfl; simp [initStepsize]
  · rintro rfl h; simp [initStepsize, h]
  · rintro rfl h; simp [initStepsize, not_le.mpr h]
  · rintro ⟨h1, h2, h3⟩; exact ⟨_, by simp only [initStepsize, h1, h2, h3, if_false]; rfl⟩
  · rintro ⟨e, he⟩
    refine ⟨?_, ?_, ?_⟩ <;> rintro rfl <;> simp [initStepsize] at he

/-- **C53**: an accepted starting step is positive whenever the inputs are. -/
theorem C53_positive {K : Type*} [Field K] [LinearOrder K] [IsStrictOrderedRing K] (strategy : String)
    (maxS minS inc s r : K) (h1 : 0 < maxS) (h2 : 0 ≤ minS) (h3 : 0 < inc) (h4 : 0 < s)
    (h : initStepsize strategy maxS minS inc s = .ok r) : 0 < r := by
  unfold initStepsize at h
  split_ifs at h <;> cases h <;> first | assumption | positivity

example : initStepsize "increase" (1 : ℚ) (1 / 1000) (3 / 2) (1 / 2) = .ok (3 / 4) ∧
    initStepsize "increase" (1 : ℚ) (1 / 1000) (3 / 2) (1 / 2000) = .ok 1 := by
  constructor <;> decide +kernel

end Jaxopt.LineSearch
