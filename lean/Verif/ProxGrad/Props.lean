import Verif.ProxGrad.Lemmas
import Verif.Num.Convex
import Verif.Base.Util
import Mathlib.Analysis.Real.Sqrt
import Mathlib.Algebra.Order.Ring.Rat
import Mathlib.Tactic.NormNum

/-!
# Properties C32 (proximal gradient), C33 (acceleration) and C54 (projected gradient)
-/

set_option autoImplicit false
set_option linter.unusedSectionVars false
set_option linter.unusedVariables false

namespace Jaxopt.ProxGrad

open Jaxopt.Base Jaxopt.Loop
open Jaxopt.QuasiNewton (Stepsize)

variable {K E : Type*} [Field K] [LinearOrder K] [IsStrictOrderedRing K] [AddCommGroup E] [Module K E]

namespace PG

/-- The iterates of a run. -/
def iterate (S : PG K E) (x0 : E) (k : ℕ) : E × PGState K E := S.update^[k] (x0, S.initState x0)

theorem iterate_succ (S : PG K E) (x0 : E) (k : ℕ) : S.iterate x0 (k + 1) = S.update (S.iterate x0 k) := by
  simp only [iterate, Function.iterate_succ_apply']

/-! ## C32: the line search -/

/-- The candidates the line search tries: step `s0·decrease_factor^k`. -/
theorem lsBody_iterate (S : PG K E) (x g : E) (s0 : K) (k : ℕ) :
    (S.lsBody x g)^[k] (S.proxGrad x g s0, s0) =
      (S.proxGrad x g (s0 * S.decreaseFactor ^ k), s0 * S.decreaseFactor ^ k) := by
  induction k with
  | zero => simp
  | succ k ih =>
    rw [Function.iterate_succ_apply', ih]
    simp only [lsBody, pow_succ, mul_assoc]

theorem lsCond_false_iff (S : PG K E) (x : E) (val : K) (g : E) (p : E × K) :
    S.lsCond x val g p = false ↔
      p.2 * (S.f p.1 - val) ≤ p.2 * S.vdot (p.1 - x) g + 1 / 2 * S.vdot (p.1 - x) (p.1 - x) + S.eps := by
  simp [lsCond]

/-- **C32**, line search: the step tried is `s0·decrease_factor^k` with `k ≤ maxls`, the result is the prox-gradient point of that
step, and unless the budget `maxls` is exhausted it satisfies the sufficient decrease condition, in which case the composite
objective `f + h` grows by at most `eps/s`. -/
theorem C32_linesearch (S : PG K E) (hv : IsVdot S.vdot) {C : Set E} {h : E → K} (hp : IsProx S.vdot C h S.prox)
    (hd : 0 < S.decreaseFactor) {x : E} (hx : x ∈ C) {s0 : K} (hs0 : 0 < s0) :
    let r := S.fistaLineSearch x (S.f x) (S.grad x) s0
    ∃ k ≤ S.maxls, r.2 = s0 * S.decreaseFactor ^ k ∧ r.1 = S.prox (x + (-r.2) • S.grad x) r.2 ∧ 0 < r.2 ∧ r.1 ∈ C ∧
      (k = S.maxls ∨ S.lsCond x (S.f x) (S.grad x) r = false) ∧
      (S.lsCond x (S.f x) (S.grad x) r = false → S.f r.1 + h r.1 ≤ S.f x + h x + S.eps / r.2) := by
  intro r
  obtain ⟨k, hk, hr, _, hend⟩ := python_spec (S.lsCond x (S.f x) (S.grad x)) (S.lsBody x (S.grad x)) S.maxls
    (S.proxGrad x (S.grad x) s0, s0)
  rw [lsBody_iterate] at hr hend
  have hrr : r = (S.proxGrad x (S.grad x) (s0 * S.decreaseFactor ^ k), s0 * S.decreaseFactor ^ k) := hr
  have hpos : 0 < r.2 := by rw [hrr]; positivity
  have hP : r.1 = S.prox (x + (-r.2) • S.grad x) r.2 := by rw [hrr]; rfl
  refine ⟨k, hk, by rw [hrr], hP, hpos, hP ▸ (hp _ _ hpos).1, ?_, fun hc => ?_⟩
  · rw [hrr]; exact hend
  · rw [lsCond_false_iff] at hc
    have h1 := prox_step hv hp hx (S.grad x) hpos
    simp only [← hP] at h1
    have h2 : r.2 * (S.f r.1 + h r.1) ≤ r.2 * (S.f x + h x + S.eps / r.2) := by
      have : r.2 * (S.f x + h x + S.eps / r.2) = r.2 * (S.f x + h x) + S.eps := by
        field_simp
      rw [this]; nlinarith
    exact le_of_mul_le_mul_left h2 hpos

/-- **C32**, line search termination: on an `L`-smooth function the condition holds as soon as the step is at most `1/L`; so if
`s0·decrease_factor^maxls ≤ 1/L` the search always succeeds, with a step that is `s0` or larger than `decrease_factor/L`. -/
theorem C32_linesearch_succeeds (S : PG K E) (hv : IsVdot S.vdot) {L : K} (hq : QuadUpper S.vdot S.f S.grad L)
    (he : 0 ≤ S.eps) (hd : 0 < S.decreaseFactor) (x : E) {s0 : K} (hs0 : 0 < s0)
    (hm : s0 * S.decreaseFactor ^ S.maxls * L ≤ 1) :
    let r := S.fistaLineSearch x (S.f x) (S.grad x) s0
    S.lsCond x (S.f x) (S.grad x) r = false ∧ (r.2 = s0 ∨ S.decreaseFactor < r.2 * L) := by
  intro r
  have hok : ∀ s, 0 < s → s * L ≤ 1 → ∀ y, S.lsCond x (S.f x) (S.grad x) (y, s) = false := by
    intro s hs hsL y
    rw [lsCond_false_iff]
    have h1 := mul_le_mul_of_nonneg_left (hq x y) hs.le
    have n := hv.nonneg (y - x)
    simp only
    nlinarith [mul_nonneg (sub_nonneg.mpr hsL) n]
  obtain ⟨k, hk, hr, hbefore, hend⟩ := python_spec (S.lsCond x (S.f x) (S.grad x)) (S.lsBody x (S.grad x)) S.maxls
    (S.proxGrad x (S.grad x) s0, s0)
  rw [lsBody_iterate] at hr hend
  have hrr : r = (S.proxGrad x (S.grad x) (s0 * S.decreaseFactor ^ k), s0 * S.decreaseFactor ^ k) := hr
  constructor
  · rw [hrr]
    rcases hend with hk' | hend
    · exact hok _ (by positivity) (by rw [hk']; exact hm) _
    · exact hend
  · rcases Nat.eq_zero_or_pos k with rfl | hk0
    · left; rw [hrr]; simp
    · right
      obtain ⟨j, rfl⟩ : ∃ j, k = j + 1 := ⟨k - 1, by omega⟩
      have hb := hbefore j (by omega)
      rw [lsBody_iterate] at hb
      by_contra hc
      have hle : r.2 * L ≤ S.decreaseFactor := not_lt.mp hc
      rw [hrr] at hle
      have : s0 * S.decreaseFactor ^ j * L ≤ 1 := by
        have e : s0 * S.decreaseFactor ^ (j + 1) * L = S.decreaseFactor * (s0 * S.decreaseFactor ^ j * L) := by ring
        simp only [e] at hle
        exact le_of_mul_le_mul_left (by linarith) hd
      have := hok (s0 * S.decreaseFactor ^ j) (by positivity) this (S.proxGrad x (S.grad x) (s0 * S.decreaseFactor ^ j))
      rw [this] at hb; cases hb

/-- The constant or scheduled stepsizes are positive and at most `1/L`. -/
def StepsBelow (S : PG K E) (L : K) : Prop :=
  (∃ a, S.stepsize = .const a ∧ 0 < a ∧ a * L ≤ 1) ∨ (∃ a, S.stepsize = .fn a ∧ ∀ k, 0 < a k ∧ a k * L ≤ 1)

theorem iter_of_stepsBelow {S : PG K E} {L : K} (hs : S.StepsBelow L) (n : ℕ) (x : E) (val : K) (g : E) (st : K) :
    ∃ s, 0 < s ∧ s * L ≤ 1 ∧ S.iter n x val g st = (S.prox (x + (-s) • g) s, s) := by
  rcases hs with ⟨a, ha, h0, h1⟩ | ⟨a, ha, h⟩
  · refine ⟨a, h0, h1, ?_⟩
    simp only [iter, ha]
    rw [if_neg (not_le.mpr h0)]; rfl
  · exact ⟨a n, (h n).1, (h n).2, by simp only [iter, ha]; rfl⟩

/-- **C32**, constant (or scheduled) stepsizes at most `1/L`, without acceleration: the objective never increases along a run
from a point of the domain. -/
theorem C32_monotone (S : PG K E) (hv : IsVdot S.vdot) {C : Set E} {h : E → K} (hp : IsProx S.vdot C h S.prox) {L : K}
    (hq : QuadUpper S.vdot S.f S.grad L) (hacc : S.acceleration = false) (hs : S.StepsBelow L) {x0 : E} (hx : x0 ∈ C) (k : ℕ) :
    (S.iterate x0 k).1 ∈ C ∧
      S.f (S.iterate x0 (k + 1)).1 + h (S.iterate x0 (k + 1)).1 ≤ S.f (S.iterate x0 k).1 + h (S.iterate x0 k).1 := by
  have step : ∀ p : E × PGState K E, p.1 ∈ C → (S.update p).1 ∈ C ∧ S.f (S.update p).1 + h (S.update p).1 ≤ S.f p.1 + h p.1 := by
    intro p hpC
    obtain ⟨s, hs0, hsL, he⟩ := iter_of_stepsBelow hs p.2.iterNum p.1 (S.f p.1) (S.grad p.1) p.2.stepsize
    have e : (S.update p).1 = S.prox (p.1 + (-s) • S.grad p.1) s := by
      simp only [update, hacc, updatePlain, he]; rfl
    rw [e]
    refine ⟨(hp _ _ hs0).1, ?_⟩
    have h1 := prox_step hv hp hpC (S.grad p.1) hs0
    set P := S.prox (p.1 + (-s) • S.grad p.1) s
    simp only at h1
    have h2 := mul_le_mul_of_nonneg_left (hq p.1 P) hs0.le
    have n := hv.nonneg (P - p.1)
    have h3 : s * (S.f P + h P) ≤ s * (S.f p.1 + h p.1) := by nlinarith [mul_nonneg (sub_nonneg.mpr hsL) n]
    exact le_of_mul_le_mul_left h3 hs0
  have hC : ∀ k, (S.iterate x0 k).1 ∈ C := by
    intro k
    induction k with
    | zero => exact hx
    | succ k ih => rw [iterate_succ]; exact (step _ ih).1
  refine ⟨hC k, ?_⟩
  rw [iterate_succ]
  exact (step _ (hC k)).2

/-- The step a plain update takes, whatever the stepsize mode. -/
theorem iter_step (S : PG K E) (hd : 0 < S.decreaseFactor)
    (hs : ∀ a, S.stepsize = .fn a → ∀ k, 0 < a k) (n : ℕ) (x : E) (val : K) (g : E) {st : K} (hst : 0 < st) :
    ∃ s, 0 < s ∧ (S.iter n x val g st).1 = S.prox (x + (-s) • g) s ∧ 0 < (S.iter n x val g st).2 := by
  cases hstep : S.stepsize with
  | const a =>
    by_cases ha : a ≤ 0
    · obtain ⟨k, hk, hr, _, _⟩ := python_spec (S.lsCond x val g) (S.lsBody x g) S.maxls (S.proxGrad x g st, st)
      rw [lsBody_iterate] at hr
      have hpos : 0 < st * S.decreaseFactor ^ k := by positivity
      refine ⟨_, hpos, ?_, ?_⟩
      · simp only [iter, hstep, if_pos ha, fistaLineSearch, hr]; rfl
      · simp only [iter, hstep, if_pos ha, fistaLineSearch, hr]
        split_ifs
        · exact one_pos
        · exact div_pos hpos hd
    · exact ⟨a, not_le.mp ha, by simp only [iter, hstep, if_neg ha]; rfl, by simp only [iter, hstep, if_neg ha]; exact not_le.mp ha⟩
  | fn a =>
    exact ⟨a n, hs a hstep n, by simp only [iter, hstep]; rfl, by simp only [iter, hstep]; exact hs a hstep n⟩

/-- All stepsizes of a run are positive. -/
theorem stepsize_pos (S : PG K E) (hd : 0 < S.decreaseFactor) (hs : ∀ a, S.stepsize = .fn a → ∀ k, 0 < a k) (x0 : E) (k : ℕ) :
    0 < (S.iterate x0 k).2.stepsize := by
  induction k with
  | zero => exact one_pos
  | succ k ih =>
    rw [iterate_succ]
    simp only [update]
    split_ifs
    · obtain ⟨_, _, _, h⟩ := iter_step S hd hs (S.iterate x0 k).2.iterNum (S.iterate x0 k).2.velocity
        (S.f (S.iterate x0 k).2.velocity) (S.grad (S.iterate x0 k).2.velocity) ih
      exact h
    · obtain ⟨_, _, _, h⟩ := iter_step S hd hs (S.iterate x0 k).2.iterNum (S.iterate x0 k).1
        (S.f (S.iterate x0 k).1) (S.grad (S.iterate x0 k).1) ih
      exact h

/-- **C32**, line search mode of the unaccelerated method: every iteration whose line search succeeded increases the objective by
at most `eps` divided by the (positive) step it took. -/
theorem C32_linesearch_run (S : PG K E) (hv : IsVdot S.vdot) {C : Set E} {h : E → K} (hp : IsProx S.vdot C h S.prox)
    (hacc : S.acceleration = false) {a : K} (hstep : S.stepsize = .const a) (ha : a ≤ 0) (hd : 0 < S.decreaseFactor) {x0 : E}
    (hx : x0 ∈ C) (k : ℕ) :
    ∃ s, 0 < s ∧ (S.iterate x0 (k + 1)).1 = S.prox ((S.iterate x0 k).1 + (-s) • S.grad (S.iterate x0 k).1) s ∧
      (s * (S.f (S.iterate x0 (k + 1)).1 - S.f (S.iterate x0 k).1) ≤
          s * S.vdot ((S.iterate x0 (k + 1)).1 - (S.iterate x0 k).1) (S.grad (S.iterate x0 k).1) +
          1 / 2 * S.vdot ((S.iterate x0 (k + 1)).1 - (S.iterate x0 k).1) ((S.iterate x0 (k + 1)).1 - (S.iterate x0 k).1) + S.eps →
        S.f (S.iterate x0 (k + 1)).1 + h (S.iterate x0 (k + 1)).1 ≤
          S.f (S.iterate x0 k).1 + h (S.iterate x0 k).1 + S.eps / s) ∧
      (s = (S.iterate x0 k).2.stepsize * S.decreaseFactor ^ S.maxls ∨
        s * (S.f (S.iterate x0 (k + 1)).1 - S.f (S.iterate x0 k).1) ≤
          s * S.vdot ((S.iterate x0 (k + 1)).1 - (S.iterate x0 k).1) (S.grad (S.iterate x0 k).1) +
          1 / 2 * S.vdot ((S.iterate x0 (k + 1)).1 - (S.iterate x0 k).1) ((S.iterate x0 (k + 1)).1 - (S.iterate x0 k).1) +
          S.eps) := by
  have hfn : ∀ b, S.stepsize = .fn b → ∀ k, 0 < b k := by intro b hb; rw [hstep] at hb; cases hb
  have hC : ∀ k, (S.iterate x0 k).1 ∈ C := by
    intro k
    induction k with
    | zero => exact hx
    | succ k ih =>
      obtain ⟨s, hs, he, _⟩ := iter_step S hd hfn (S.iterate x0 k).2.iterNum (S.iterate x0 k).1 (S.f (S.iterate x0 k).1)
        (S.grad (S.iterate x0 k).1) (stepsize_pos S hd hfn x0 k)
      rw [iterate_succ]
      simp only [update, hacc, updatePlain]
      rw [if_neg (by simp)]
      simp only [he]
      exact (hp _ _ hs).1
  obtain ⟨j, hj, h1, h2, h3, h4, h5, h6⟩ := C32_linesearch S hv hp hd (hC k) (stepsize_pos S hd hfn x0 k)
  have e : (S.iterate x0 (k + 1)).1 =
      (S.fistaLineSearch (S.iterate x0 k).1 (S.f (S.iterate x0 k).1) (S.grad (S.iterate x0 k).1) (S.iterate x0 k).2.stepsize).1 := by
    rw [iterate_succ]
    simp only [update, hacc, updatePlain, iter, hstep, if_pos ha]
    rfl
  refine ⟨_, h3, by rw [e]; exact h2, ?_, ?_⟩
  · intro hc
    rw [e] at hc ⊢
    exact h6 ((lsCond_false_iff _ _ _ _ _).mpr hc)
  · rw [e]
    rcases h5 with h5 | h5
    · left; rw [h1, h5]
    · right; exact (lsCond_false_iff _ _ _ _ _).mp h5

/-! ## C32: the error -/

/-- **C32**, error: for the unaccelerated method (any stepsize mode) the error after an update is zero exactly when the update did
not move, and then the point is a fixed point of the prox-gradient map for *every* stepsize. -/
theorem C32_error_partial (S : PG K E) (hv : IsVdot S.vdot) (hn : ∀ v, S.norm v = 0 ↔ v = 0) {C : Set E} {h : E → K}
    (hp : IsProx S.vdot C h S.prox) (hh : ConvexOn K C h) (hacc : S.acceleration = false) (hd : 0 < S.decreaseFactor)
    (hs : ∀ a, S.stepsize = .fn a → ∀ k, 0 < a k) (x0 : E) (k : ℕ) :
    (S.iterate x0 (k + 1)).2.error = .fin 0 ↔
      ((S.iterate x0 (k + 1)).1 = (S.iterate x0 k).1 ∧
        ∀ s, 0 < s → S.prox ((S.iterate x0 k).1 + (-s) • S.grad (S.iterate x0 k).1) s = (S.iterate x0 k).1) := by
  obtain ⟨s, hs0, he, hpos⟩ := iter_step S hd hs (S.iterate x0 k).2.iterNum (S.iterate x0 k).1 (S.f (S.iterate x0 k).1)
    (S.grad (S.iterate x0 k).1) (stepsize_pos S hd hs x0 k)
  have e1 : (S.iterate x0 (k + 1)).1 = S.prox ((S.iterate x0 k).1 + (-s) • S.grad (S.iterate x0 k).1) s := by
    rw [iterate_succ, ← he]; simp only [update, hacc, updatePlain]; rfl
  have e2 : (S.iterate x0 (k + 1)).2.error = .fin (S.norm ((S.iterate x0 (k + 1)).1 - (S.iterate x0 k).1) /
      (S.iter (S.iterate x0 k).2.iterNum (S.iterate x0 k).1 (S.f (S.iterate x0 k).1) (S.grad (S.iterate x0 k).1)
        (S.iterate x0 k).2.stepsize).2) := by
    rw [iterate_succ]; simp only [update, hacc, updatePlain, errorOf]; rfl
  rw [e2]
  simp only [Ext.fin.injEq, div_eq_zero_iff, hpos.ne', or_false, hn, sub_eq_zero]
  constructor
  · intro hx
    refine ⟨hx, fun s' hs' => ?_⟩
    rw [e1] at hx
    exact (fixed_iff hv hp hh _ _ hs').mpr ((fixed_iff hv hp hh _ _ hs0).mp hx)
  · exact fun h => h.1

/-- For convex `f` an unaccelerated run that stops with error zero returns a global minimiser of `f + h` on the domain. -/
theorem C32_error_optimal_partial (S : PG K E) (hv : IsVdot S.vdot) (hn : ∀ v, S.norm v = 0 ↔ v = 0) {C : Set E} {h : E → K}
    (hp : IsProx S.vdot C h S.prox) (hh : ConvexOn K C h) (hc : GradIneq S.vdot S.f S.grad) (hacc : S.acceleration = false)
    (hd : 0 < S.decreaseFactor) (hs : ∀ a, S.stepsize = .fn a → ∀ k, 0 < a k) {x0 : E} (hm : 1 ≤ S.maxiter)
    {r : E × PGState K E} (hr : S.run x0 = .ok r) (he : r.2.error = .fin 0) :
    r.1 ∈ C ∧ ∀ u ∈ C, S.f r.1 + h r.1 ≤ S.f u + h u := by
  obtain ⟨k, h1, h2, rfl, _, _⟩ := runS_spec hm hr
  obtain ⟨j, rfl⟩ : ∃ j, k = j + 1 := ⟨k - 1, by omega⟩
  have := (C32_error_partial S hv hn hp hh hacc hd hs x0 j).mp he
  have e : (S.update^[j + 1] (x0, S.initState x0)).1 = (S.iterate x0 j).1 := this.1
  rw [e]
  obtain ⟨hC, ho⟩ := (fixed_iff hv hp hh _ _ one_pos).mp (this.2 1 one_pos)
  refine ⟨hC, fun u hu => ?_⟩
  have a1 := ho u hu
  have a2 := hc (S.iterate x0 j).1 u
  linarith

/-- With acceleration error zero still certifies a fixed point when the update started without momentum (`velocity = params`). -/
theorem C32_error_accel_partial (S : PG K E) (hv : IsVdot S.vdot) (hn : ∀ v, S.norm v = 0 ↔ v = 0) {C : Set E} {h : E → K}
    (hp : IsProx S.vdot C h S.prox) (hh : ConvexOn K C h) (hacc : S.acceleration = true) (hd : 0 < S.decreaseFactor)
    (hs : ∀ a, S.stepsize = .fn a → ∀ k, 0 < a k) (x : E) (st : PGState K E) (hst : 0 < st.stepsize) (hvel : st.velocity = x) :
    (S.update (x, st)).2.error = .fin 0 ↔
      ((S.update (x, st)).1 = x ∧ ∀ s, 0 < s → S.prox (x + (-s) • S.grad x) s = x) := by
  obtain ⟨s, hs0, he, hpos⟩ := iter_step S hd hs st.iterNum x (S.f x) (S.grad x) hst
  have e1 : (S.update (x, st)).1 = S.prox (x + (-s) • S.grad x) s := by
    rw [← he]; simp only [update, hacc, updateAccel, hvel]; rfl
  have e2 : (S.update (x, st)).2.error = .fin (S.norm ((S.update (x, st)).1 - x) /
      (S.iter st.iterNum x (S.f x) (S.grad x) st.stepsize).2) := by
    simp only [update, hacc, updateAccel, errorOf, hvel]; rfl
  rw [e2]
  simp only [Ext.fin.injEq, div_eq_zero_iff, hpos.ne', or_false, hn, sub_eq_zero]
  constructor
  · intro hx
    refine ⟨hx, fun s' hs' => ?_⟩
    rw [e1] at hx
    exact (fixed_iff hv hp hh _ _ hs').mpr ((fixed_iff hv hp hh _ _ hs0).mp hx)
  · exact fun h => h.1

/-! ## C33 -/

/-- The update of `t` (`next_t`, line 268) satisfies `t'² - t' = t²` and `t' ≥ t + 1/2`. -/
theorem next_t {sqrt : K → K} (hsq : ∀ a, 0 ≤ a → 0 ≤ sqrt a ∧ sqrt a * sqrt a = a) {t : K} (ht : 0 ≤ t) :
    let t' := 1 / 2 * (1 + sqrt (1 + 4 * (t * t)))
    t' * t' - t' = t * t ∧ t + 1 / 2 ≤ t' := by
  intro t'
  obtain ⟨h1, h2⟩ := hsq (1 + 4 * (t * t)) (by nlinarith [mul_self_nonneg t])
  set q := sqrt (1 + 4 * (t * t))
  have ht' : t' = 1 / 2 * (1 + q) := rfl
  constructor
  · rw [ht']; linear_combination 1 / 4 * h2
  · rw [ht']
    have : 2 * t ≤ q := by nlinarith
    linarith

/-- The potential of the accelerated method decreases (Beck and Teboulle's argument), for a constant step `s ≤ 1/L`. -/
theorem accel_potential (S : PG K E) (hv : IsVdot S.vdot) {C : Set E} {h : E → K} (hp : IsProx S.vdot C h S.prox)
    (hh : ConvexOn K C h) {L : K} (hq : QuadUpper S.vdot S.f S.grad L) (hc : GradIneq S.vdot S.f S.grad)
    (hsq : ∀ a, 0 ≤ a → 0 ≤ S.sqrt a ∧ S.sqrt a * S.sqrt a = a) (hacc : S.acceleration = true) {s : K}
    (hstep : S.stepsize = .const s) (hs : 0 < s) (hsL : s * L ≤ 1) {u : E} (hu : u ∈ C) (x0 : E) (k : ℕ) :
    let p := S.iterate x0 k
    let z := p.1 + p.2.t • (p.2.velocity - p.1)
    (p.1 ∈ C ∨ p.2.t = 1) ∧ 1 + (k : K) / 2 ≤ p.2.t ∧ (1 ≤ k → ((k : K) + 1) * ((k : K) + 1) / 4 ≤ p.2.t * p.2.t - p.2.t) ∧
    (p.2.t * p.2.t - p.2.t) * (s * (S.f p.1 + h p.1 - (S.f u + h u))) + 1 / 2 * S.vdot (z - u) (z - u) ≤
      1 / 2 * S.vdot (x0 - u) (x0 - u) := by
  induction k with
  | zero =>
    simp only [iterate, Function.iterate_zero, id_eq, initState]
    refine ⟨Or.inr trivial, by simp, by omega, ?_⟩
    simp
  | succ k ih =>
    obtain ⟨h1, h2, h2', h3⟩ := ih
    rw [iterate_succ]
    set p := S.iterate x0 k with hpk
    have hk0 : (0 : K) ≤ k := Nat.cast_nonneg k
    have ht0 : 1 ≤ p.2.t := by linarith
    have hit : S.iter p.2.iterNum p.2.velocity (S.f p.2.velocity) (S.grad p.2.velocity) p.2.stepsize =
        (S.prox (p.2.velocity + (-s) • S.grad p.2.velocity) s, s) := by
      simp only [iter, hstep]; rw [if_neg (not_le.mpr hs)]; rfl
    have hup : S.update p = S.updateAccel p := by simp only [update, hacc]; rfl
    rw [hup]
    simp only [updateAccel, hit]
    set y := p.2.velocity with hy
    set P := S.prox (y + (-s) • S.grad y) s with hP
    obtain ⟨t1, t2⟩ := next_t hsq (show 0 ≤ p.2.t by linarith)
    set t := p.2.t with ht
    set t' := 1 / 2 * (1 + S.sqrt (1 + 4 * (t * t))) with ht'
    have ht'0 : 0 < t' := by linarith
    refine ⟨Or.inl (hp _ _ hs).1, by push_cast; linarith, fun _ => ?_, ?_⟩
    · rw [t1]; push_cast
      nlinarith
    · rw [t1]
      -- the new `z`
      have hz : P + t' • (P + ((t - 1) / t') • (P - p.1) - P) - u = t • (P - y) + (p.1 + t • (y - p.1) - u) := by
        have : t' • (P + ((t - 1) / t') • (P - p.1) - P) = (t - 1) • (P - p.1) := by
          rw [add_sub_cancel_left, smul_smul, mul_div_cancel₀ _ ht'0.ne']
        rw [this, sub_smul, one_smul, smul_sub, smul_sub, smul_sub]; abel
      rw [hz]
      have i1 := key_ineq hv hp hh hq hc y hs hsL hu
      change s * (S.f P + h P) ≤ _ at i1
      have i2 : (t - 1) * (s * (S.f P + h P)) ≤
          (t - 1) * (s * (S.f p.1 + h p.1) + 1 / 2 * S.vdot (P - y) (P - y) - S.vdot (P - y) (P - p.1)) := by
        rcases h1 with h1 | h1
        · exact mul_le_mul_of_nonneg_left (key_ineq hv hp hh hq hc y hs hsL h1) (by linarith)
        · rw [h1]; simp
      have i3 := mul_le_mul_of_nonneg_left (add_le_add i1 i2) (show 0 ≤ t by linarith)
      change _ + 1 / 2 * S.vdot (p.1 + t • (y - p.1) - u) (p.1 + t • (y - p.1) - u) ≤ _ at h3
      have e0 : p.1 + t • (y - p.1) - u = (P - u) + (t - 1) • (P - p.1) - t • (P - y) := by
        rw [sub_smul, one_smul, smul_sub, smul_sub, smul_sub]; abel
      have e1 : S.vdot (P - y) (p.1 + t • (y - p.1) - u) =
          S.vdot (P - y) (P - u) + (t - 1) * S.vdot (P - y) (P - p.1) - t * S.vdot (P - y) (P - y) := by
        rw [e0, hv.sub_right, hv.add_right, hv.smul_right, hv.smul_right]
      set z := p.1 + t • (y - p.1) - u
      simp only [hv.add_left, hv.add_right, hv.smul_left, hv.smul_right]
      rw [hv.symm z (P - y), e1]
      nlinarith

/-- **C33**: for a convex `L`-smooth function `f`, a convex `h` on a convex domain with exact prox and a constant step `s ≤ 1/L` the
accelerated iterates satisfy `F(x_k) - F(u) ≤ 2‖x0 - u‖²/(s(k+1)²)` for every `k ≥ 1` and every point `u` of the domain (in
particular a minimiser). -/
theorem C33_rate (S : PG K E) (hv : IsVdot S.vdot) {C : Set E} {h : E → K} (hp : IsProx S.vdot C h S.prox)
    (hh : ConvexOn K C h) {L : K} (hq : QuadUpper S.vdot S.f S.grad L) (hc : GradIneq S.vdot S.f S.grad)
    (hsq : ∀ a, 0 ≤ a → 0 ≤ S.sqrt a ∧ S.sqrt a * S.sqrt a = a) (hacc : S.acceleration = true) {s : K}
    (hstep : S.stepsize = .const s) (hs : 0 < s) (hsL : s * L ≤ 1) (x0 : E) {u : E} (hu : u ∈ C) (k : ℕ) (hk : 1 ≤ k) :
    S.f (S.iterate x0 k).1 + h (S.iterate x0 k).1 - (S.f u + h u) ≤
      2 * S.vdot (x0 - u) (x0 - u) / (s * (((k : K) + 1) * ((k : K) + 1))) := by
  obtain ⟨_, _, h2, h3⟩ := accel_potential S hv hp hh hq hc hsq hacc hstep hs hsL hu x0 k
  have h2 := h2 hk
  set v := S.f (S.iterate x0 k).1 + h (S.iterate x0 k).1 - (S.f u + h u)
  have hk0 : (0 : K) ≤ k := Nat.cast_nonneg k
  rw [le_div_iff₀ (by positivity)]
  rcases le_or_gt v 0 with hv0 | hv0
  · have := hv.nonneg (x0 - u)
    have h4 : 0 ≤ s * (((k : K) + 1) * ((k : K) + 1)) := by positivity
    nlinarith [mul_nonneg_of_nonpos_of_nonneg' hv0 h4]
  · have h5 : ((k : K) + 1) * ((k : K) + 1) / 4 * (s * v) ≤ 1 / 2 * S.vdot (x0 - u) (x0 - u) := by
      have h6 := mul_le_mul_of_nonneg_right h2 (mul_pos hs hv0).le
      have h7 := hv.nonneg ((S.iterate x0 k).1 + (S.iterate x0 k).2.t • ((S.iterate x0 k).2.velocity - (S.iterate x0 k).1) - u)
      linarith
    nlinarith
where
  mul_nonneg_of_nonpos_of_nonneg' {a b : K} (ha : a ≤ 0) (hb : 0 ≤ b) : 0 ≤ -(a * b) := by nlinarith

end PG

end Jaxopt.ProxGrad
