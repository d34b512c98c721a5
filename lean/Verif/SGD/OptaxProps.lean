import Verif.SGD.Optax
import Mathlib.Algebra.Order.Ring.Rat
import Mathlib.Algebra.Module.Basic
import Mathlib.Algebra.Order.Group.Abs
import Mathlib.Tactic.Ring
import Mathlib.Tactic.NormNum

/-!
# Property C72: `OptaxSolver` runs the Optax loop
-/

set_option autoImplicit false
set_option linter.unusedSectionVars false
set_option linter.unusedVariables false

namespace Jaxopt.SGD

open Jaxopt.Base

variable {K E σ A : Type*} [Field K] [LinearOrder K] [AddCommGroup E] [Module K E]

/-- The loop of the Optax documentation: `updates, state = opt.update(grads, state, params)`, `params = apply_updates(params, updates)`. -/
def optaxTrace (T : GradTransform E σ) (g : E → E) (x0 : E) : ℕ → E × σ
  | 0 => (x0, T.init x0)
  | k + 1 =>
    let p := optaxTrace T g x0 k
    ((p.1 + (T.update (g p.1) p.2 p.1).1), (T.update (g p.1) p.2 p.1).2)

namespace Optax

theorem update_eq (s : Optax K E σ A) {f : E → K} {g : E → E} {aux : E → Option A} (hf : s.fun_.Denotes f g aux)
    (hp : s.preUpdate = none) (p : E × OptaxState K σ A) :
    s.update p = (p.1 + (s.opt.update (g p.1) p.2.internalState p.1).1,
      ⟨p.2.iterNum + 1, .fin (f p.1), .fin (s.norm (g p.1)), (s.opt.update (g p.1) p.2.internalState p.1).2, aux p.1⟩) := by
  obtain ⟨-, -, h⟩ := C04_with_aux s.fun_ f g aux hf p.1
  simp only [update, hp, h]

theorem iterate_eq (s : Optax K E σ A) {f : E → K} {g : E → E} {aux : E → Option A} (hf : s.fun_.Denotes f g aux)
    (hp : s.preUpdate = none) (x0 : E) (k : ℕ) :
    (s.update^[k] (x0, s.initState x0)).1 = (optaxTrace s.opt g x0 k).1 ∧
    (s.update^[k] (x0, s.initState x0)).2.internalState = (optaxTrace s.opt g x0 k).2 ∧
    (s.update^[k] (x0, s.initState x0)).2.iterNum = k := by
  induction k with
  | zero => exact ⟨rfl, rfl, rfl⟩
  | succ k ih =>
    obtain ⟨h1, h2, h3⟩ := ih
    rw [Function.iterate_succ_apply', s.update_eq hf hp]
    simp only [h1, h2, h3, optaxTrace]
    exact ⟨trivial, trivial, trivial⟩

/-- **C72**, the run: without `pre_update` and with `maxiter ≥ 1`, the run returns the `k`-th iterate and internal state of the Optax
loop, where `k` is the first step whose gradient norm, measured before the step, is at most `tol` (or `maxiter`); the state holds the
step count and the value, gradient norm and auxiliary output at the parameters before that step.  This holds for all six ways of
giving the function. -/
theorem C72_run (s : Optax K E σ A) {f : E → K} {g : E → E} {aux : E → Option A} (hf : s.fun_.Denotes f g aux)
    (hp : s.preUpdate = none) (hm : 1 ≤ s.maxiter) (x0 : E) {r : E × OptaxState K σ A} (h : s.run x0 = .ok r) :
    ∃ k, 1 ≤ k ∧ k ≤ s.maxiter ∧ r.1 = (optaxTrace s.opt g x0 k).1 ∧ r.2.internalState = (optaxTrace s.opt g x0 k).2 ∧
      r.2.iterNum = k ∧ r.2.value = .fin (f (optaxTrace s.opt g x0 (k - 1)).1) ∧
      r.2.error = .fin (s.norm (g (optaxTrace s.opt g x0 (k - 1)).1)) ∧ r.2.aux = aux (optaxTrace s.opt g x0 (k - 1)).1 ∧
      (∀ j, j + 1 < k → s.tol < s.norm (g (optaxTrace s.opt g x0 j).1)) ∧
      (k = s.maxiter ∨ s.norm (g (optaxTrace s.opt g x0 (k - 1)).1) ≤ s.tol) := by
  obtain ⟨k, h1, h2, h3, h4, h5⟩ := runS_spec hm h
  have herr : ∀ j, s.update^[j + 1] (x0, s.initState x0) = s.update (s.update^[j] (x0, s.initState x0)) :=
    fun j => Function.iterate_succ_apply' _ _ _
  have hs : ∀ j, (s.update^[j + 1] (x0, s.initState x0)).2.value = .fin (f (optaxTrace s.opt g x0 j).1) ∧
      (s.update^[j + 1] (x0, s.initState x0)).2.error = .fin (s.norm (g (optaxTrace s.opt g x0 j).1)) ∧
      (s.update^[j + 1] (x0, s.initState x0)).2.aux = aux (optaxTrace s.opt g x0 j).1 := by
    intro j
    rw [herr, s.update_eq hf hp, (s.iterate_eq hf hp x0 j).1]
    exact ⟨rfl, rfl, rfl⟩
  obtain ⟨m, rfl⟩ : ∃ m, k = m + 1 := ⟨k - 1, by omega⟩
  obtain ⟨i1, i2, i3⟩ := s.iterate_eq hf hp x0 (m + 1)
  refine ⟨m + 1, h1, h2, by rw [h3, i1], by rw [h3, i2], by rw [h3, i3], ?_, ?_, ?_, ?_, ?_⟩
  · rw [h3, Nat.add_sub_cancel]; exact (hs m).1
  · rw [h3, Nat.add_sub_cancel]; exact (hs m).2.1
  · rw [h3, Nat.add_sub_cancel]; exact (hs m).2.2
  · intro j hj
    have := h4 (j + 1) (by omega) hj
    rw [cont, (hs j).2.1] at this
    simpa [Ext.gt, Ext.lt] using this
  · rcases h5 with h5 | h5
    · exact Or.inl h5
    · right
      rw [cont, (hs m).2.1] at h5
      rw [Nat.add_sub_cancel]
      simpa [Ext.gt, Ext.lt] using h5

/-- **C72**, the first step is always taken: unless `unroll = jit = False` every run with `maxiter ≥ 1` returns. -/
theorem C72_returns (s : Optax K E σ A) (hm : 1 ≤ s.maxiter) (hb : s.unroll = true ∨ s.jit = true) (x0 : E) :
    ∃ r, s.run x0 = .ok r := runS_ok _ _ _ x0 hm hb

/-- **C72**, `maxiter = 0`: the initial parameters come back with the initial state, whose value and error are infinite and whose
auxiliary output is that of the initial parameters. -/
theorem C72_maxiter_zero (s : Optax K E σ A) {f : E → K} {g : E → E} {aux : E → Option A} (hf : s.fun_.Denotes f g aux)
    (hm : s.maxiter = 0) (x0 : E) {r : E × OptaxState K σ A} (h : s.run x0 = .ok r) :
    r = (x0, ⟨0, .pinf, .pinf, s.opt.init x0, aux x0⟩) := by
  have ha := (C04_with_aux s.fun_ f g aux hf x0).1
  unfold run runS at h
  simp only [hm, bind, Except.bind] at h
  split at h
  · cases h
  · cases h
    simp [initState, ha]

/-- **C72**, `pre_update`: when it replaces the parameters by `pre(params)` and keeps the state, the iterates are those of the Optax
step applied to `pre(params)`, and value, error and auxiliary output belong to `pre(params)`. -/
theorem C72_pre_update (s : Optax K E σ A) {f : E → K} {g : E → E} {aux : E → Option A} (hf : s.fun_.Denotes f g aux)
    (pre : E → E) (hp : s.preUpdate = some fun p => (pre p.1, p.2)) (p : E × OptaxState K σ A) :
    s.update p = { s with preUpdate := none }.update (pre p.1, p.2) ∧
    (s.update p).1 = pre p.1 + (s.opt.update (g (pre p.1)) p.2.internalState (pre p.1)).1 ∧
    (s.update p).2.value = .fin (f (pre p.1)) ∧ (s.update p).2.error = .fin (s.norm (g (pre p.1))) ∧
    (s.update p).2.aux = aux (pre p.1) ∧ (s.update p).2.iterNum = p.2.iterNum + 1 := by
  have e : s.update p = { s with preUpdate := none }.update (pre p.1, p.2) := by
    simp only [update, hp]
  refine ⟨e, ?_⟩
  rw [e, update_eq { s with preUpdate := none } hf rfl]
  exact ⟨rfl, rfl, rfl, rfl, rfl⟩

/-- **C72**, `pre_update`, for an arbitrary function of parameters and state: the Optax step is taken from the parameters, the internal
state and the iteration number that it returns. -/
theorem C72_pre_update_state (s : Optax K E σ A) {f : E → K} {g : E → E} {aux : E → Option A} (hf : s.fun_.Denotes f g aux)
    {pre : E × OptaxState K σ A → E × OptaxState K σ A} (hp : s.preUpdate = some pre) (p : E × OptaxState K σ A) :
    let q := pre p
    let d := s.opt.update (g q.1) q.2.internalState q.1
    s.update p = (q.1 + d.1, ⟨q.2.iterNum + 1, .fin (f q.1), .fin (s.norm (g q.1)), d.2, aux q.1⟩) := by
  have e : s.update p = { s with preUpdate := none }.update (pre p) := by
    simp only [update, hp]
  rw [e, update_eq { s with preUpdate := none } hf rfl]

/-- **C72**, the optimality function used for implicit differentiation is the gradient. -/
theorem C72_optimality (s : Optax K E σ A) {f : E → K} {g : E → E} {aux : E → Option A} (hf : s.fun_.Denotes f g aux) (x : E) :
    s.optimalityFun x = g x := by
  rw [optimalityFun, (C04_with_aux s.fun_ f g aux hf x).2.1]

/-- **C72**, `optax.sgd`: the loop is gradient descent. -/
theorem C72_sgd (lr : K) (g : E → E) (x0 : E) (k : ℕ) : (optaxTrace (sgd lr) g x0 k).1 = (fun x => x - lr • g x)^[k] x0 := by
  induction k with
  | zero => rfl
  | succ k ih =>
    rw [Function.iterate_succ_apply', ← ih]
    simp only [optaxTrace, sgd, neg_smul, sub_eq_add_neg]

/-- The solver of the witness: `½x²` with `optax.sgd(10)` and `tol = 1`. -/
def exOptax : Optax ℚ ℚ Unit Unit where
  fun_ := .plain (fun x => x * x / 2) (fun x => x)
  opt := sgd (10 : ℚ)
  preUpdate := none
  maxiter := 500
  tol := 1
  jit := true
  unroll := false
  norm x := |x|

/-- **C72**, false part: the error in the state is not the gradient norm of the returned parameters, so a run that stops before
`maxiter` with `error ≤ tol` need not return parameters with a gradient norm of at most `tol`. -/
theorem C72_error_false : ¬ ∀ (s : Optax ℚ ℚ Unit Unit) (f g : ℚ → ℚ) (x0 : ℚ) (r : ℚ × OptaxState ℚ Unit Unit),
    s.fun_.Denotes f g (fun _ => none) → s.preUpdate = none → s.norm = (fun x => |x|) → 1 ≤ s.maxiter → s.run x0 = .ok r →
    r.2.iterNum < s.maxiter → s.norm (g r.1) ≤ s.tol := by
  intro h
  have hd : exOptax.fun_.Denotes (fun x : ℚ => x * x / 2) (fun x : ℚ => x) (fun _ => none) := fun x => ⟨rfl, rfl, rfl⟩
  obtain ⟨r, hr⟩ := C72_returns exOptax (by decide) (Or.inr rfl) 1
  obtain ⟨k, h1, h2, h3, h4, h5, h6, h7, h8, h9, h10⟩ := C72_run exOptax hd rfl (by decide) 1 hr
  have hk : k = 1 := by
    by_contra hne
    have := h9 0 (by omega)
    simp [optaxTrace, exOptax] at this
  subst hk
  have hx : r.1 = -9 := by rw [h3]; norm_num [optaxTrace, sgd, exOptax]
  have := h exOptax _ _ 1 r hd rfl rfl (by decide) hr (by rw [h5]; decide)
  rw [hx] at this
  revert this
  norm_num [exOptax]

/-! ## Examples -/

example : (optaxTrace (sgd (1 / 2 : ℚ)) (fun x : ℚ => x) 8 3).1 = 1 := by
  simp [optaxTrace, sgd]; norm_num

/-- A run that stops at the second step: the gradient norms before the steps are `8` and `1`. -/
example : ∃ r, ({ exOptax with opt := sgd (7 / 8 : ℚ) } : Optax ℚ ℚ Unit Unit).run 8 = .ok r ∧ r.1 = 1 / 8 ∧ r.2.iterNum = 2 := by
  set s : Optax ℚ ℚ Unit Unit := { exOptax with opt := sgd (7 / 8 : ℚ) } with hs
  have hd : s.fun_.Denotes (fun x : ℚ => x * x / 2) (fun x : ℚ => x) (fun _ => none) := fun x => ⟨rfl, rfl, rfl⟩
  obtain ⟨r, hr⟩ := s.C72_returns (by decide) (Or.inr rfl) 8
  obtain ⟨k, h1, h2, h3, h4, h5, h6, h7, h8, h9, h10⟩ := s.C72_run hd rfl (by decide) 8 hr
  have hk : k = 2 := by
    rcases Nat.lt_trichotomy k 2 with c | c | c
    · have : k = 1 := by omega
      subst this
      rcases h10 with h10 | h10
      · cases h10
      · norm_num [optaxTrace, exOptax, hs] at h10
    · exact c
    · have := h9 1 (by omega)
      norm_num [optaxTrace, exOptax, hs, sgd] at this
  subst hk
  refine ⟨r, hr, ?_, h5⟩
  rw [h3]
  norm_num [optaxTrace, exOptax, hs, sgd]

end Optax

end Jaxopt.SGD
