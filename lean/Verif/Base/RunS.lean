import Verif.Base.Props

/-!
# `run` for solvers whose state is an ordinary record

Same function as `Jaxopt.Base.Solver.run` (base.py lines 296-332), for a state type without optional fields and with an
arbitrary `_cond_fun` (some solvers override it).
-/

set_option autoImplicit false

namespace Jaxopt.Base

open Jaxopt.Loop

variable {P S : Type*}

/-- `_run`, base.py lines 296-332. -/
def runS (initState : P → S) (update : P × S → P × S) (cont : P × S → Bool) (maxiter : ℕ) (unroll jit : Bool)
    (x0 : P) : Except String (P × S) := do
  let state := initState x0
  let optStep := update (x0, state)
  let manyStep ← whileLoop cont update optStep ((maxiter : Int) - 1) unroll jit
  return if maxiter = 0 then (x0, state) else manyStep

/-- With `maxiter ≥ 1` the result is the `k`-th iterate, `1 ≤ k ≤ maxiter`, where the stopping test first succeeded or the
budget ran out. -/
theorem runS_spec {initState : P → S} {update : P × S → P × S} {cont : P × S → Bool} {maxiter : ℕ} {unroll jit : Bool}
    {x0 : P} {r : P × S} (hm : 1 ≤ maxiter) (h : runS initState update cont maxiter unroll jit x0 = .ok r) :
    ∃ k, 1 ≤ k ∧ k ≤ maxiter ∧ r = update^[k] (x0, initState x0) ∧
      (∀ j, 1 ≤ j → j < k → cont (update^[j] (x0, initState x0)) = true) ∧
      (k = maxiter ∨ cont (update^[k] (x0, initState x0)) = false) := by
  have e : ((maxiter : Int) - 1) = ((maxiter - 1 : ℕ) : Int) := by omega
  rcases C01_loop_backends_agree cont update (update (x0, initState x0)) (maxiter - 1) unroll jit with
    ⟨_, _, er, he⟩ | ⟨_, s, hs, ⟨k, hk, hr, h1, h2⟩, _⟩
  · simp only [runS, e, he] at h; cases h
  · have h0 : maxiter ≠ 0 := by omega
    simp only [runS, e, hs, h0, if_false] at h
    cases h
    refine ⟨k + 1, by omega, by omega, hr, ?_, ?_⟩
    · intro j hj hjk
      have := h1 (j - 1) (by omega)
      rw [← Function.iterate_succ_apply] at this
      rwa [Nat.succ_eq_add_one, Nat.sub_add_cancel hj] at this
    · rcases h2 with h2 | h2
      · left; omega
      · right; exact h2

/-- The run is accepted unless `unroll=False, jit=False`. -/
theorem runS_ok (initState : P → S) (update : P × S → P × S) (cont : P × S → Bool) {maxiter : ℕ} {unroll jit : Bool}
    (x0 : P) (hm : 1 ≤ maxiter) (hb : unroll = true ∨ jit = true) :
    ∃ r, runS initState update cont maxiter unroll jit x0 = .ok r := by
  have e : ((maxiter : Int) - 1) = ((maxiter - 1 : ℕ) : Int) := by omega
  rcases C01_loop_backends_agree cont update (update (x0, initState x0)) (maxiter - 1) unroll jit with
    ⟨h1, h2, _⟩ | ⟨_, s, hs, _⟩
  · simp [h1, h2] at hb
  · exact ⟨_, by simp only [runS, e, hs]; rfl⟩

/-- The unique index at which a run stops. -/
theorem runS_eq {initState : P → S} {update : P × S → P × S} {cont : P × S → Bool} {maxiter : ℕ} {unroll jit : Bool}
    {x0 : P} {r : P × S} (h : runS initState update cont maxiter unroll jit x0 = .ok r) {k : ℕ} (h1 : 1 ≤ k)
    (h2 : k ≤ maxiter) (h3 : ∀ j, 1 ≤ j → j < k → cont (update^[j] (x0, initState x0)) = true)
    (h4 : k = maxiter ∨ cont (update^[k] (x0, initState x0)) = false) : r = update^[k] (x0, initState x0) := by
  obtain ⟨k', a1, a2, a3, a4, a5⟩ := runS_spec (by omega) h
  have : k' = k := by
    rcases Nat.lt_trichotomy k' k with c | c | c
    · have := h3 k' a1 c
      rcases a5 with a5 | a5
      · omega
      · simp [this] at a5
    · exact c
    · have := a4 k h1 c
      rcases h4 with h4 | h4
      · omega
      · simp [this] at h4
  rw [a3, this]

end Jaxopt.Base
