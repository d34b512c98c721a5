import Verif.FixedPoint.Iteration
import Verif.Base.Util
import Mathlib.Analysis.Normed.Group.Basic
import Mathlib.Topology.MetricSpace.Contracting
import Mathlib.Analysis.SpecificLimits.Basic
import Mathlib.Analysis.Normed.Field.Basic
import Mathlib.Analysis.Normed.Ring.Lemmas
import Mathlib.Algebra.Order.Ring.Rat
import Mathlib.Tactic.Linarith
import Mathlib.Tactic.Ring
import Mathlib.Tactic.Abel
import Mathlib.Tactic.NormNum

/-!
# Properties C30 (fixed point iteration) and C31 (iterative refinement)
-/

set_option autoImplicit false
set_option linter.unusedSectionVars false
set_option linter.unusedVariables false

namespace Jaxopt.FixedPoint

open Jaxopt.Base

variable {E A : Type*}

/-! ## C30 -/

namespace FPI

variable [NormedAddCommGroup E]

/-- The plain function behind the user's `fixed_point_fun`. -/
def map (S : FPI ℝ E A) (x : E) : E := (S.fixedPointFun.fn x).1

theorem iterate_params (S : FPI ℝ E A) (x0 : E) (k : ℕ) :
    (S.update^[k] (x0, S.initState x0)).1 = S.map^[k] x0 := by
  induction k with
  | zero => rfl
  | succ k ih =>
    rw [Function.iterate_succ_apply', Function.iterate_succ_apply']
    simp only [update, map] at ih ⊢
    rw [ih]

theorem iterate_error (S : FPI ℝ E A) (x0 : E) (k : ℕ) :
    (S.update^[k + 1] (x0, S.initState x0)).2.error = .fin (S.norm (S.map^[k + 1] x0 - S.map^[k] x0)) := by
  have := iterate_params S x0 k
  rw [Function.iterate_succ_apply', Function.iterate_succ_apply']
  simp only [update, map] at this ⊢
  rw [this]

/-- **C30**, accounting: after `k` updates `iter_num = num_fun_eval = k` and the parameters are the `k`-th Picard iterate; the
error is the distance between the last two iterates. -/
theorem C30_count (S : FPI ℝ E A) (hn : S.norm = (‖·‖)) (x0 : E) (k : ℕ) :
    (S.update^[k] (x0, S.initState x0)).2.numFunEval = k ∧ (S.update^[k] (x0, S.initState x0)).2.iterNum = k ∧
      (S.update^[k] (x0, S.initState x0)).1 = S.map^[k] x0 ∧
      (1 ≤ k → (S.update^[k] (x0, S.initState x0)).2.error = .fin (dist (S.map^[k - 1] x0) (S.map^[k] x0))) := by
  refine ⟨?_, ?_, iterate_params S x0 k, ?_⟩
  · induction k with
    | zero => rfl
    | succ k ih => rw [Function.iterate_succ_apply']; simp only [update]; rw [ih]
  · induction k with
    | zero => rfl
    | succ k ih => rw [Function.iterate_succ_apply']; simp only [update]; rw [ih]
  · intro hk
    obtain ⟨j, rfl⟩ : ∃ j, k = j + 1 := ⟨k - 1, by omega⟩
    rw [iterate_error, hn, Nat.add_sub_cancel, dist_comm, dist_eq_norm]

/-- Distances between consecutive Picard iterates contract. -/
theorem dist_iterates (f : E → E) {q : ℝ} (hq0 : 0 ≤ q) (hf : ∀ x y, dist (f x) (f y) ≤ q * dist x y) (x0 : E) (k : ℕ) :
    dist (f^[k] x0) (f^[k + 1] x0) ≤ q ^ k * dist x0 (f x0) := by
  induction k with
  | zero => simp
  | succ k ih =>
    rw [Function.iterate_succ_apply', Function.iterate_succ_apply' (n := k + 1)]
    calc _ ≤ q * dist (f^[k] x0) (f^[k + 1] x0) := hf _ _
      _ ≤ q * (q ^ k * dist x0 (f x0)) := mul_le_mul_of_nonneg_left ih hq0
      _ = _ := by ring

/-- **C30**, rate: for a `q`-contracting map the error after `k ≥ 1` updates is at most `q^(k-1)` times the first error. -/
theorem C30_rate (S : FPI ℝ E A) (hn : S.norm = (‖·‖)) {q : ℝ} (hq0 : 0 ≤ q)
    (hf : ∀ x y, dist (S.map x) (S.map y) ≤ q * dist x y) (x0 : E) (k : ℕ) (hk : 1 ≤ k) :
    ∃ e1 ek, (S.update^[1] (x0, S.initState x0)).2.error = .fin e1 ∧
      (S.update^[k] (x0, S.initState x0)).2.error = .fin ek ∧ ek ≤ q ^ (k - 1) * e1 := by
  refine ⟨_, _, (C30_count S hn x0 1).2.2.2 le_rfl, (C30_count S hn x0 k).2.2.2 hk, ?_⟩
  obtain ⟨j, rfl⟩ : ∃ j, k = j + 1 := ⟨k - 1, by omega⟩
  have := dist_iterates S.map hq0 hf x0 j
  simpa using this

variable [CompleteSpace E]

/-- **C30**, certificate: if `run` returns with `error ≤ tol`, the map has exactly one fixed point and the returned parameters
are within `q/(1-q)·tol` of it; and a run that returns a larger error used its whole budget. -/
theorem C30_certificate (S : FPI ℝ E A) (hn : S.norm = (‖·‖)) {q : ℝ} (hq0 : 0 ≤ q) (hq1 : q < 1)
    (hf : ∀ x y, dist (S.map x) (S.map y) ≤ q * dist x y) (hm : 1 ≤ S.maxiter) {x0 : E} {r : E × FPIState ℝ A}
    (hr : S.run x0 = .ok r) :
    ∃ xs, (∀ y, S.map y = y ↔ y = xs) ∧ r.2.numFunEval = r.2.iterNum ∧
      ((∃ e, r.2.error = .fin e ∧ e ≤ S.tol ∧ dist r.1 xs ≤ q / (1 - q) * e ∧ dist r.1 xs ≤ q / (1 - q) * S.tol) ∨
       ((∃ e, r.2.error = .fin e ∧ S.tol < e) ∧ r.2.iterNum = S.maxiter)) := by
  have hlip : LipschitzWith ⟨q, hq0⟩ S.map := LipschitzWith.of_dist_le_mul hf
  have hc : ContractingWith ⟨q, hq0⟩ S.map := ⟨by exact_mod_cast hq1, hlip⟩
  have hnonempty : Nonempty E := ⟨x0⟩
  refine ⟨ContractingWith.fixedPoint S.map hc, ?_, ?_⟩
  · intro y
    constructor
    · intro hy
      exact hc.fixedPoint_unique hy
    · rintro rfl
      exact hc.fixedPoint_isFixedPt
  set xs := ContractingWith.fixedPoint S.map hc with hxs
  have hfix : S.map xs = xs := hc.fixedPoint_isFixedPt
  obtain ⟨k, h1, h2, rfl, h4, h5⟩ := runS_spec hm hr
  have hcnt := C30_count S hn x0 k
  refine ⟨by rw [hcnt.1, hcnt.2.1], ?_⟩
  have herr := hcnt.2.2.2 h1
  by_cases he : dist (S.map^[k - 1] x0) (S.map^[k] x0) ≤ S.tol
  · left
    refine ⟨_, herr, he, ?_, ?_⟩
    · rw [hcnt.2.2.1]
      obtain ⟨j, rfl⟩ : ∃ j, k = j + 1 := ⟨k - 1, by omega⟩
      rw [Nat.add_sub_cancel] at he ⊢
      have e1 : S.map^[j + 1] x0 = S.map (S.map^[j] x0) := Function.iterate_succ_apply' _ _ _
      rw [e1] at he ⊢
      set a := S.map^[j] x0
      have b1 : dist (S.map a) xs ≤ q * dist a xs := by
        have := hf a xs; rwa [hfix] at this
      have b2 : dist a xs ≤ dist a (S.map a) + dist (S.map a) xs := dist_triangle _ _ _
      rw [div_mul_eq_mul_div, le_div_iff₀ (by linarith)]
      nlinarith [dist_nonneg (x := a) (y := xs)]
    · rw [hcnt.2.2.1]
      obtain ⟨j, rfl⟩ : ∃ j, k = j + 1 := ⟨k - 1, by omega⟩
      rw [Nat.add_sub_cancel] at he
      have e1 : S.map^[j + 1] x0 = S.map (S.map^[j] x0) := Function.iterate_succ_apply' _ _ _
      rw [e1] at he ⊢
      set a := S.map^[j] x0
      have b1 : dist (S.map a) xs ≤ q * dist a xs := by
        have := hf a xs; rwa [hfix] at this
      have b2 : dist a xs ≤ dist a (S.map a) + dist (S.map a) xs := dist_triangle _ _ _
      rw [div_mul_eq_mul_div, le_div_iff₀ (by linarith)]
      nlinarith [dist_nonneg (x := a) (y := xs)]
  · right
    refine ⟨⟨_, herr, not_le.mp he⟩, ?_⟩
    rcases h5 with h5 | h5
    · rw [hcnt.2.1, h5]
    · exfalso
      simp only [cont, herr, Ext.gt, Ext.lt, decide_eq_false_iff_not] at h5
      exact h5 (not_le.mp he)

/-- **C30**, termination: with a positive tolerance there is a budget from which on every accepted run ends with
`error ≤ tol` (so the certificate applies). -/
theorem C30_terminates (S : FPI ℝ E A) (hn : S.norm = (‖·‖)) {q : ℝ} (hq0 : 0 ≤ q) (hq1 : q < 1)
    (hf : ∀ x y, dist (S.map x) (S.map y) ≤ q * dist x y) (ht : 0 < S.tol) (x0 : E) :
    ∃ N, ∀ r, N ≤ S.maxiter → S.run x0 = .ok r → ∃ e, r.2.error = .fin e ∧ e ≤ S.tol := by
  obtain ⟨n, hn'⟩ := exists_pow_lt_of_lt_one (show (0 : ℝ) < S.tol / (dist x0 (S.map x0) + 1) by positivity) hq1
  refine ⟨n + 1, fun r hN hr => ?_⟩
  have hm : 1 ≤ S.maxiter := by omega
  obtain ⟨xs, _, _, h | ⟨⟨e, he, hlt⟩, hit⟩⟩ := C30_certificate S hn hq0 hq1 hf hm hr
  · obtain ⟨e, h1, h2, _⟩ := h; exact ⟨e, h1, h2⟩
  · exfalso
    obtain ⟨k, h1, h2, rfl, h4, h5⟩ := runS_spec hm hr
    have hcnt := C30_count S hn x0 k
    rw [hcnt.2.1] at hit
    have herr := hcnt.2.2.2 h1
    rw [herr] at he
    cases he
    obtain ⟨j, rfl⟩ : ∃ j, k = j + 1 := ⟨k - 1, by omega⟩
    rw [Nat.add_sub_cancel] at hlt
    have hd := dist_iterates S.map hq0 hf x0 j
    have hp : q ^ j ≤ q ^ n := pow_le_pow_of_le_one hq0 hq1.le (by omega)
    have hd0 : 0 ≤ dist x0 (S.map x0) := dist_nonneg
    have : q ^ j * dist x0 (S.map x0) ≤ S.tol := by
      rw [lt_div_iff₀ (by positivity)] at hn'
      nlinarith [pow_nonneg hq0 n]
    linarith

end FPI

/-- Non-vacuity of C30: halving on `ℝ` contracts with `q = 1/2`, and a run with two iterations is accepted. -/
example : ∃ (S : FPI ℝ ℝ Unit) (r : ℝ × FPIState ℝ Unit), S.norm = (‖·‖) ∧ 1 ≤ S.maxiter ∧ 0 < S.tol ∧
    (∀ x y, dist (S.map x) (S.map y) ≤ 1 / 2 * dist x y) ∧ S.run 1 = .ok r ∧ S.map 1 ≠ 1 := by
  let S : FPI ℝ ℝ Unit := ⟨.noAux fun x => x / 2, (‖·‖), 2, 1 / 4, true, true⟩
  obtain ⟨r, hr⟩ := runS_ok S.initState S.update S.cont (maxiter := S.maxiter) (unroll := S.unroll) (jit := S.jit) 1
    (by decide) (Or.inl rfl)
  refine ⟨S, r, rfl, by decide, by norm_num [S], ?_, hr, by norm_num [S, FPI.map, UserMap.fn]⟩
  intro x y
  simp only [S, FPI.map, UserMap.fn, Real.dist_eq]
  rw [← sub_div, abs_div, abs_two]
  exact le_of_eq (by ring)

/-! ## C31 -/

namespace Refine

variable [NormedAddCommGroup E]

/-- **C31**, tracking: after every update `target_residuals = b - A·params`, `error` is its norm, the warm start handed to the
inner solver is zero and the counters count the updates. -/
theorem C31_tracks (S : Refine ℝ E) (x0 : E) (k : ℕ) (hk : 1 ≤ k) :
    let p := S.update^[k] (x0, S.initState x0)
    p.2.targetResiduals = S.b - S.matvecA p.1 ∧ p.2.error = .fin (S.norm (S.b - S.matvecA p.1)) ∧ p.2.init = 0 ∧
      p.2.iterNum = k ∧ p.2.numSolveEval = k ∧ p.2.numMatvecEval = k := by
  intro p
  have hc : ∀ k, (S.update^[k] (x0, S.initState x0)).2.iterNum = k ∧
      (S.update^[k] (x0, S.initState x0)).2.numSolveEval = k ∧ (S.update^[k] (x0, S.initState x0)).2.numMatvecEval = k := by
    intro k
    induction k with
    | zero => exact ⟨rfl, rfl, rfl⟩
    | succ k ih =>
      rw [Function.iterate_succ_apply']; simp only [update]
      rw [ih.1, ih.2.1, ih.2.2]; exact ⟨rfl, rfl, rfl⟩
  refine ⟨?_, ?_, ?_, (hc k).1, (hc k).2.1, (hc k).2.2⟩ <;>
  · obtain ⟨j, rfl⟩ : ∃ j, k = j + 1 := ⟨k - 1, by omega⟩
    simp only [p, Function.iterate_succ_apply', update]
    first | done | rfl

/-- The inner solver reduces residuals of `A` by the factor `rho`, whatever its initial guess. -/
def Reduces (S : Refine ℝ E) (rho : ℝ) : Prop :=
  ∀ t i : E, ‖t - S.matvecA (S.solve S.opBar t i)‖ ≤ rho * ‖t‖

/-- **C31**, contraction: if `A` is additive and the inner solver reduces residuals by `rho`, each update after the first
multiplies the error by at most `rho`, and so does the first when starting from zero (the default). -/
theorem C31_contracts (S : Refine ℝ E) (hn : S.norm = (‖·‖)) (hA : ∀ x y, S.matvecA (x + y) = S.matvecA x + S.matvecA y)
    {rho : ℝ} (hr : S.Reduces rho) (x0 : E) (k : ℕ) (hk : 1 ≤ k) :
    ∃ e e', (S.update^[k] (x0, S.initState x0)).2.error = .fin e ∧
      (S.update^[k + 1] (x0, S.initState x0)).2.error = .fin e' ∧ e' ≤ rho * e ∧
      e' = ‖S.b - S.matvecA (S.update^[k + 1] (x0, S.initState x0)).1‖ ∧
      ∃ e1, (S.update^[1] ((0 : E), S.initState 0)).2.error = .fin e1 ∧ e1 ≤ rho * ‖S.b‖ := by
  have h1 := C31_tracks S x0 k hk
  have h2 := C31_tracks S x0 (k + 1) (by omega)
  have h3 := C31_tracks S 0 1 le_rfl
  have hA0 : S.matvecA 0 = 0 := by
    have := hA 0 0; simpa using this
  refine ⟨_, _, h1.2.1, h2.2.1, ?_, by rw [hn], _, h3.2.1, ?_⟩
  · rw [hn, Function.iterate_succ_apply']
    simp only [update]
    have e1 := hr (S.update^[k] (x0, S.initState x0)).2.targetResiduals (S.update^[k] (x0, S.initState x0)).2.init
    rw [hA]
    rw [h1.1] at e1 ⊢
    have : S.b - (S.matvecA (S.update^[k] (x0, S.initState x0)).1 +
        S.matvecA (S.solve S.opBar (S.b - S.matvecA (S.update^[k] (x0, S.initState x0)).1)
          (S.update^[k] (x0, S.initState x0)).2.init)) =
        S.b - S.matvecA (S.update^[k] (x0, S.initState x0)).1 -
        S.matvecA (S.solve S.opBar (S.b - S.matvecA (S.update^[k] (x0, S.initState x0)).1)
          (S.update^[k] (x0, S.initState x0)).2.init) := by abel
    rw [this]; exact e1
  · rw [hn]
    simp only [Function.iterate_one, update, initState, zero_add]
    exact hr S.b 0

/-- The error after `k ≥ 1` updates is at most `rho^(k-1)` times the first error. -/
theorem C31_rate (S : Refine ℝ E) (hn : S.norm = (‖·‖)) (hA : ∀ x y, S.matvecA (x + y) = S.matvecA x + S.matvecA y)
    {rho : ℝ} (h0 : 0 ≤ rho) (hr : S.Reduces rho) (x0 : E) (k : ℕ) (hk : 1 ≤ k) :
    ∃ e1 e, (S.update^[1] (x0, S.initState x0)).2.error = .fin e1 ∧
      (S.update^[k] (x0, S.initState x0)).2.error = .fin e ∧ e ≤ rho ^ (k - 1) * e1 := by
  have h1 := (C31_tracks S x0 1 le_rfl).2.1
  induction k with
  | zero => omega
  | succ k ih =>
    rcases Nat.eq_zero_or_pos k with rfl | hk'
    · exact ⟨_, _, h1, h1, by simp⟩
    · obtain ⟨e1, e, a1, a2, a3⟩ := ih hk'
      obtain ⟨f, f', b1, b2, b3, _⟩ := C31_contracts S hn hA hr x0 k hk'
      rw [a2] at b1; cases b1
      refine ⟨e1, f', a1, b2, b3.trans ?_⟩
      calc rho * e ≤ rho * (rho ^ (k - 1) * e1) := mul_le_mul_of_nonneg_left a3 h0
        _ = rho ^ (k - 1 + 1) * e1 := by ring
        _ = _ := by rw [Nat.sub_add_cancel hk']; simp

/-- An exact inner solver for an approximation `A_bar` of `A` reduces residuals by `rho` if `A_bar` is close to `A`: this is
the situation iterative refinement is made for (class docstring, lines 62-84). -/
theorem reduces_of_close (S : Refine ℝ E) {rho : ℝ} (hs : ∀ t i, S.opBar (S.solve S.opBar t i) = t)
    (hclose : ∀ x, ‖S.opBar x - S.matvecA x‖ ≤ rho * ‖S.opBar x‖) : S.Reduces rho := by
  intro t i
  have := hclose (S.solve S.opBar t i)
  rwa [hs] at this

/-- **C31**, exact inner solver: from the default start every returned point solves the system; from any start it does as soon
as two updates are allowed, unless the run already stopped with `‖b - A x‖ ≤ tol` after the first.  The claim "whatever the warm
start" is false without these restrictions, see `C31_warm_start_false`. -/
theorem C31_exact_partial (S : Refine ℝ E) (hn : S.norm = (‖·‖))
    (hA : ∀ x y, S.matvecA (x + y) = S.matvecA x + S.matvecA y)
    (hs : ∀ t i, S.matvecA (S.solve S.opBar t i) = t) :
    (∀ r, 1 ≤ S.maxiter → S.run none = .ok r → S.matvecA r.1 = S.b) ∧
    (∀ x0 r, 2 ≤ S.maxiter → S.run (some x0) = .ok r →
      S.matvecA r.1 = S.b ∨ (r.2.iterNum = 1 ∧ ‖S.b - S.matvecA r.1‖ ≤ S.tol)) := by
  have hA0 : S.matvecA 0 = 0 := by
    have := hA 0 0; simpa using this
  have step : ∀ x0 k, 1 ≤ k → S.matvecA (S.update^[k + 1] (x0, S.initState x0)).1 = S.b := by
    intro x0 k hk
    have h1 := C31_tracks S x0 k hk
    rw [Function.iterate_succ_apply']
    simp only [update]
    rw [hA, hs, h1.1]; abel
  constructor
  · intro r hm hr
    obtain ⟨k, h1, h2, rfl, _, _⟩ := runS_spec hm hr
    rcases Nat.lt_or_ge 1 k with hk | hk
    · obtain ⟨j, rfl⟩ : ∃ j, k = j + 1 := ⟨k - 1, by omega⟩
      exact step _ j (by omega)
    · have : k = 1 := by omega
      subst this
      simp only [Function.iterate_one, update, initState, Option.getD_none, initParams]
      rw [hA, hs, hA0]; abel
  · intro x0 r hm hr
    obtain ⟨k, h1, h2, rfl, h4, h5⟩ := runS_spec (by omega) hr
    rcases Nat.lt_or_ge 1 k with hk | hk
    · left
      obtain ⟨j, rfl⟩ : ∃ j, k = j + 1 := ⟨k - 1, by omega⟩
      exact step _ j (by omega)
    · right
      have hk1 : k = 1 := by omega
      subst hk1
      simp only [Option.getD_some] at h5 ⊢
      have ht := C31_tracks S x0 1 le_rfl
      refine ⟨ht.2.2.2.1, ?_⟩
      rcases h5 with h5 | h5
      · omega
      · simp only [cont, ht.2.1, Ext.gt, Ext.lt, decide_eq_false_iff_not, not_lt, hn] at h5
        exact h5

/-- Non-vacuity: `A = 2·` on `ℝ`, exact solver. -/
example : ∃ (S : Refine ℝ ℝ) (r : ℝ × RefineState ℝ ℝ), S.norm = (‖·‖) ∧
    (∀ x y, S.matvecA (x + y) = S.matvecA x + S.matvecA y) ∧ (∀ t i, S.matvecA (S.solve S.opBar t i) = t) ∧
    2 ≤ S.maxiter ∧ S.b ≠ 0 ∧ S.run (some 5) = .ok r := by
  let S : Refine ℝ ℝ := ⟨fun x => 2 * x, none, fun _ t _ => t / 2, (‖·‖), 3, 4, 1 / 8, true, true⟩
  obtain ⟨r, hr⟩ := runS_ok S.initState S.update S.cont (maxiter := S.maxiter) (unroll := S.unroll) (jit := S.jit) 5
    (by decide) (Or.inl rfl)
  refine ⟨S, r, rfl, fun x y => ?_, fun t i => ?_, by decide, by norm_num [S], hr⟩
  · simp only [S]; ring
  · simp only [S]; ring

/-- Non-vacuity of the contraction clause: `A = 2·`, `A_bar = (3/2)·` solved exactly reduces residuals by `1/3`. -/
example : ∃ S : Refine ℝ ℝ, S.norm = (‖·‖) ∧ (∀ x y, S.matvecA (x + y) = S.matvecA x + S.matvecA y) ∧ S.b ≠ 0 ∧
    S.Reduces (1 / 3) := by
  refine ⟨⟨fun x => 2 * x, some fun x => 3 / 2 * x, fun _ t _ => t / (3 / 2), (‖·‖), 3, 4, 1 / 8, true, true⟩, rfl,
    fun x y => by ring, by norm_num, reduces_of_close _ ?_ ?_⟩
  · intro t i
    simp only [opBar, Option.getD_some]; ring
  · intro x
    simp only [opBar, Option.getD_some]
    rw [← sub_mul, Real.norm_eq_abs, Real.norm_eq_abs, abs_mul, abs_mul]
    norm_num
    exact le_of_eq (by ring)

end Refine

/-- **C31 is false for warm starts**: with an exact inner solver and one iteration, `run` started from `5` on the system
`2·x = 3` returns `13/2`, whose residual is `-10`: the warm start is added to the solution instead of being corrected, because
`init_state` sets `target_residuals = b` (line 130) instead of `b - A·init_params`. -/
theorem C31_warm_start_false :
    ∃ (S : Refine ℚ ℚ) (r : ℚ × RefineState ℚ ℚ), (∀ x y, S.matvecA (x + y) = S.matvecA x + S.matvecA y) ∧
      (∀ t i, S.matvecA (S.solve S.opBar t i) = t) ∧ 1 ≤ S.maxiter ∧ S.run (some 5) = .ok r ∧ r.1 = 13 / 2 ∧
      S.b - S.matvecA r.1 = -10 := by
  let S : Refine ℚ ℚ := ⟨fun x => 2 * x, none, fun _ t _ => t / 2, fun x => |x|, 3, 1, 0, true, true⟩
  obtain ⟨r, hr, hv⟩ := ok_of_toOption (x := S.run (some 5)) (φ := fun r => r.1) (v := 13 / 2) (by decide +kernel)
  refine ⟨S, r, fun x y => by simp only [S]; ring, fun t i => by simp only [S]; ring, by decide, hr, hv, ?_⟩
  rw [hv]; norm_num [S]

end Jaxopt.FixedPoint
