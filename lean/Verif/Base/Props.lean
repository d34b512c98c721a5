import Verif.Base.Run
import Verif.Base.Funs
import Mathlib.Logic.Function.Iterate
import Mathlib.Tactic.Linarith
import Mathlib.Tactic.NormNum

/-!
# Properties C01-C04: loops, `run`, `run_iterator`, objective adapters
-/

set_option autoImplicit false
set_option linter.unusedSectionVars false
set_option linter.unusedVariables false

namespace Jaxopt.Base

open Jaxopt.Loop

/-! ## C01 -/

section C01
variable {α : Type*}

/-- Specification of a bounded while loop: `r` is `body` applied `k ≤ n` times to `x`, the condition held before each
application, and the loop stopped because the budget `n` was exhausted or the condition failed. -/
def LoopSpec (cond : α → Bool) (body : α → α) (n : ℕ) (x r : α) : Prop :=
  ∃ k ≤ n, r = body^[k] x ∧ (∀ j < k, cond (body^[j] x) = true) ∧
    (k = n ∨ cond (body^[k] x) = false)

theorem LoopSpec.unique {cond : α → Bool} {body : α → α} {n : ℕ} {x r r' : α}
    (h : LoopSpec cond body n x r) (h' : LoopSpec cond body n x r') : r = r' := by
  obtain ⟨k, hk, rfl, h1, h2⟩ := h
  obtain ⟨k', hk', rfl, h1', h2'⟩ := h'
  rcases lt_trichotomy k k' with hlt | heq | hlt
  · have := h1' k hlt
    rcases h2 with h2 | h2
    · omega
    · simp [this] at h2
  · rw [heq]
  · have := h1 k' hlt
    rcases h2' with h2 | h2
    · omega
    · simp [this] at h2

theorem LoopSpec.step {cond : α → Bool} {body : α → α} {n : ℕ} {x r : α} (hc : cond x = true)
    (h : LoopSpec cond body n (body x) r) : LoopSpec cond body (n + 1) x r := by
  obtain ⟨k, hk, rfl, h1, h2⟩ := h
  refine ⟨k + 1, by omega, rfl, ?_, ?_⟩
  · intro j hj
    cases j with
    | zero => simpa using hc
    | succ j => simpa using h1 j (by omega)
  · rcases h2 with h2 | h2
    · left; omega
    · right; simpa using h2

theorem LoopSpec.stop {cond : α → Bool} {body : α → α} {n : ℕ} {x : α} (hc : cond x = false) :
    LoopSpec cond body n x x := ⟨0, by omega, rfl, by omega, Or.inr (by simpa using hc)⟩

theorem LoopSpec.zero {cond : α → Bool} {body : α → α} {x : α} :
    LoopSpec cond body 0 x x := ⟨0, by omega, rfl, by omega, Or.inl rfl⟩

theorem python_spec (cond : α → Bool) (body : α → α) (n : ℕ) (x : α) :
    LoopSpec cond body n x (whileLoopPython cond body x n) := by
  induction n generalizing x with
  | zero => exact LoopSpec.zero
  | succ n ih =>
    unfold whileLoopPython
    cases hc : cond x
    · simpa using LoopSpec.stop hc
    · simpa using LoopSpec.step hc (ih (body x))

theorem laxFrom_spec (cond : α → Bool) (body : α → α) (n : ℕ) (it : ℤ) (x : α) (maxiter : ℤ)
    (h : (maxiter - it).toNat = n) :
    LoopSpec cond body n x (whileLoopLaxFrom cond body maxiter it x) := by
  induction n generalizing x it with
  | zero =>
    unfold whileLoopLaxFrom
    rw [if_neg (by simp; omega)]
    exact LoopSpec.zero
  | succ n ih =>
    unfold whileLoopLaxFrom
    cases hc : cond x
    · simpa using LoopSpec.stop hc
    · rw [if_pos (by simp; omega)]
      exact LoopSpec.step hc (ih (it + 1) (body x) (by omega))

theorem scan_aux (cond : α → Bool) (body : α → α) (l : List ℕ) (x : α) :
    LoopSpec cond body l.length x
      (l.foldl (fun (tup : α × Bool) (_ : ℕ) =>
        if tup.2 then (body tup.1, cond (body tup.1)) else (tup.1, false)) (x, cond x)).1 := by
  have hfalse : ∀ (l : List ℕ) (x : α), l.foldl (fun (tup : α × Bool) (_ : ℕ) =>
        if tup.2 then (body tup.1, cond (body tup.1)) else (tup.1, false)) (x, false) = (x, false) := by
    intro l; induction l with
    | nil => simp
    | cons a l ih => intro x; simpa using ih x
  induction l generalizing x with
  | nil => exact LoopSpec.zero
  | cons a l ih =>
    cases hc : cond x
    · rw [hfalse]; exact LoopSpec.stop hc
    · have := LoopSpec.step hc (ih (body x))
      simpa [hc] using this

theorem scan_spec (cond : α → Bool) (body : α → α) (n : ℕ) (x : α) :
    LoopSpec cond body n x (whileLoopScan cond body x n) := by
  have := scan_aux cond body (List.range n) x
  simpa [whileLoopScan] using this

/-- **C01**: for a non-negative bound, every admissible choice of back-end returns the unique value allowed by the
specification of a bounded while loop (hence the same value whatever the back-end), and the only rejected choice is
`unroll=False, jit=False`. -/
theorem C01_loop_backends_agree (cond : α → Bool) (body : α → α) (x : α) (n : ℕ) (unroll jit : Bool) :
    (unroll = false ∧ jit = false ∧ ∃ e, whileLoop cond body x n unroll jit = .error e) ∨
    ((unroll = true ∨ jit = true) ∧ ∃ r, whileLoop cond body x n unroll jit = .ok r ∧
      LoopSpec cond body n x r ∧ ∀ r', LoopSpec cond body n x r' → r' = r) := by
  have key : ∀ r, LoopSpec cond body n x r →
      LoopSpec cond body n x r ∧ ∀ r', LoopSpec cond body n x r' → r' = r :=
    fun r h => ⟨h, fun r' h' => h'.unique h⟩
  cases unroll <;> cases jit
  · left; exact ⟨rfl, rfl, _, rfl⟩
  · right; refine ⟨by simp, _, rfl, key _ ?_⟩
    exact laxFrom_spec _ _ _ _ _ _ (by simp)
  · right; refine ⟨by simp, _, rfl, key _ ?_⟩
    simpa using python_spec cond body n x
  · right
    refine ⟨by simp, whileLoopScan cond body x n, ?_, key _ (scan_spec _ _ _ _)⟩
    simp [whileLoop]

/-- Two back-ends that both accept return the same result. -/
theorem C01_same_result (cond : α → Bool) (body : α → α) (x : α) (n : ℕ) (u j u' j' : Bool) (r r' : α)
    (h : whileLoop cond body x n u j = .ok r) (h' : whileLoop cond body x n u' j' = .ok r') : r = r' := by
  rcases C01_loop_backends_agree cond body x n u j with ⟨_, _, e, he⟩ | ⟨_, s, hs, hs', hu⟩
  · rw [h] at he; cases he
  rcases C01_loop_backends_agree cond body x n u' j' with ⟨_, _, e, he⟩ | ⟨_, t, ht, ht', _⟩
  · rw [h'] at he; cases he
  rw [h] at hs; rw [h'] at ht; cases hs; cases ht
  exact (hu _ ht').symm

/-- Non-vacuity: doubling while below 100, three back-ends, budget 5 binds, budget 50 does not. -/
example : whileLoop (fun x : ℕ => decide (x < 100)) (2 * ·) 3 5 true true = .ok 96 ∧
    whileLoop (fun x : ℕ => decide (x < 100)) (2 * ·) 3 5 true false = .ok 96 ∧
    whileLoop (fun x : ℕ => decide (x < 100)) (2 * ·) 3 50 true true = .ok 192 := by
  refine ⟨rfl, rfl, rfl⟩

end C01

/-! ## C02 -/

section C02
variable {K P ι V : Type*} [LinearOrder K]

/-- The sequence of iterates a user would obtain by calling `init_state` and then `update` `k` times. -/
def Solver.iterate (s : Solver K P ι V) (p : P) : ℕ → P × (ι → Option V)
  | 0 => (p, s.initState p)
  | k + 1 => s.update (s.iterate p k).1 (s.iterate p k).2

/-- Whether the loop wants to go on: `error > tol` with IEEE comparison. -/
def Solver.wantsMore (s : Solver K P ι V) (st : ι → Option V) : Prop := Ext.gt (s.error st) s.tol = true

theorem iterate_eq_body (s : Solver K P ι V) (p : P) (k : ℕ) :
    s.bodyFun^[k] (s.update p (s.initState p)) = s.iterate p (k + 1) := by
  induction k with
  | zero => rfl
  | succ k ih => rw [Function.iterate_succ_apply', ih]; rfl

/-- **C02**, `maxiter ≥ 1`: whatever back-end, `run` returns the params obtained by `k` consecutive updates with
`1 ≤ k ≤ maxiter`; every update but the first was asked for by `error > tol`, and if `k < maxiter` the final state does not
ask for more.  Each state field is that of the `k`-th state (a field the updates set to `None` keeps its initial value). -/
theorem C02_run_contract (s : Solver K P ι V) (p : P) (hmax : 1 ≤ s.maxiter)
    (hback : s.getUnrollOption = true ∨ s.jit = true) :
    ∃ res, s.run p = .ok res ∧ ∃ k : ℕ, 1 ≤ k ∧ (k : ℤ) ≤ s.maxiter ∧
      res.1 = (s.iterate p k).1 ∧
      (∀ i, res.2 i = ((s.iterate p k).2 i <|> s.initState p i)) ∧
      (∀ j, 1 ≤ j → j < k → s.wantsMore (s.iterate p j).2) ∧
      ((k : ℤ) < s.maxiter → ¬ s.wantsMore (s.iterate p k).2) := by
  obtain ⟨n, hn⟩ : ∃ n : ℕ, s.maxiter - 1 = n := ⟨(s.maxiter - 1).toNat, by omega⟩
  rcases C01_loop_backends_agree s.condFun s.bodyFun (s.update p (s.initState p)) n s.getUnrollOption s.jit with
    ⟨h1, h2, _⟩ | ⟨_, r, hr, ⟨k, hk, rfl, h1, h2⟩, _⟩
  · simp [h1, h2] at hback
  rw [iterate_eq_body] at hr
  have hz : decide (s.maxiter = 0) = false := by simp; omega
  refine ⟨((s.iterate p (k+1)).1, fun i => whereLeaf false (s.initState p i) ((s.iterate p (k+1)).2 i)), ?_,
    k + 1, by omega, by push_cast; omega, rfl, ?_, ?_, ?_⟩
  · unfold Solver.run
    simp [hn, hr, hz, bind, Except.bind, pure, Except.pure]
  · intro i
    simp only [whereLeaf]
    cases s.initState p i <;> cases (s.iterate p (k+1)).2 i <;> rfl
  · intro j hj hjk
    obtain ⟨j, rfl⟩ : ∃ j', j = j' + 1 := ⟨j - 1, by omega⟩
    have := h1 j (by omega)
    rw [iterate_eq_body] at this
    exact this
  · intro hlt
    rcases h2 with h2 | h2
    · push_cast at hlt; omega
    · rw [iterate_eq_body] at h2
      intro hw
      have hw' : s.condFun (s.iterate p (k+1)) = true := hw
      rw [h2] at hw'
      cases hw'

/-- **C02**, `maxiter = 0` (Python and `lax.while_loop` back-ends): params are returned unchanged and so is every state
field that is not `None` initially; a field that is `None` initially takes its value after one update. -/
theorem C02_run_maxiter_zero (s : Solver K P ι V) (p : P) (hmax : s.maxiter = 0)
    (hback : (s.getUnrollOption = true ∧ s.jit = false) ∨ (s.getUnrollOption = false ∧ s.jit = true)) :
    ∃ res, s.run p = .ok res ∧ res.1 = p ∧
      ∀ i, res.2 i = (s.initState p i <|> (s.update p (s.initState p)).2 i) := by
  have hloop : whileLoop s.condFun s.bodyFun (s.update p (s.initState p)) (s.maxiter - 1) s.getUnrollOption s.jit
      = .ok (s.update p (s.initState p)) := by
    rcases hback with ⟨h1, h2⟩ | ⟨h1, h2⟩
    · simp [whileLoop, h1, h2, hmax, whileLoopPython]
    · simp only [whileLoop, h1, h2, hmax, whileLoopLax]
      unfold whileLoopLaxFrom
      simp
  refine ⟨(p, fun i => whereLeaf true (s.initState p i) ((s.update p (s.initState p)).2 i)), ?_, rfl, ?_⟩
  · unfold Solver.run
    dsimp only
    rw [hloop]
    simp [hmax, bind, Except.bind, pure, Except.pure]
  · intro i
    simp only [whereLeaf]
    cases s.initState p i <;> cases (s.update p (s.initState p)).2 i <;> rfl

/-- **C02**, NaN: a NaN error ends the run at that update (it is not "error > tol"). -/
theorem C02_nan_stops (s : Solver K P ι V) (p : P) (hmax : 1 ≤ s.maxiter)
    (hback : s.getUnrollOption = true ∨ s.jit = true)
    (hnan : s.error (s.iterate p 1).2 = Ext.nan) :
    ∃ res, s.run p = .ok res ∧ res.1 = (s.iterate p 1).1 := by
  obtain ⟨res, hres, k, hk1, hk2, hp, _, hw, _⟩ := C02_run_contract s p hmax hback
  refine ⟨res, hres, ?_⟩
  rcases Nat.lt_or_ge 1 k with h | h
  · have := hw 1 le_rfl h
    have hlt : ∀ t : Ext K, Ext.lt t Ext.nan = false := fun t => by cases t <;> rfl
    simp [Solver.wantsMore, hnan, Ext.gt, hlt] at this
  · have : k = 1 := by omega
    rw [hp, this]

/-- Which settings are rejected: exactly an explicit `unroll=False` together with `jit=False`. -/
theorem C02_rejected_iff (s : Solver K P ι V) (p : P) (hmax : 1 ≤ s.maxiter) :
    (∃ e, s.run p = .error e) ↔ (s.unroll = some false ∧ s.jit = false) := by
  constructor
  · rintro ⟨e, he⟩
    by_contra hcon
    have hback : s.getUnrollOption = true ∨ s.jit = true := by
      unfold Solver.getUnrollOption
      cases hj : s.jit
      · left
        cases hu : s.unroll with
        | none => simp
        | some b => cases b <;> simp_all
      · right; rfl
    obtain ⟨res, hres, _⟩ := C02_run_contract s p hmax hback
    rw [hres] at he; cases he
  · rintro ⟨h1, h2⟩
    refine ⟨"unroll=False and jit=False cannot be used together", ?_⟩
    simp [Solver.run, whileLoop, Solver.getUnrollOption, h1, h2, bind, Except.bind]

/-- A concrete solver: params halve at each update, `error` is the params, field 1 is `None` initially. -/
def halvingSolver (maxiter : ℤ) : Solver ℕ ℕ (Fin 2) ℕ where
  initState _ := fun i => if i = 0 then some 1000 else none
  update p _ := (p / 2, fun _ => some (p / 2))
  error st := match st 0 with
    | some e => .fin e
    | none => .nan
  tol := .fin 10
  maxiter := maxiter
  unroll := none
  jit := false
  implicitDiff := true

example : ((halvingSolver 30).run 100).map Prod.fst = .ok 6 ∧ ((halvingSolver 2).run 100).map Prod.fst = .ok 25 ∧
    ((halvingSolver 0).run 100).map (fun r => (r.1, r.2 0, r.2 1)) = .ok (100, some 1000, some 50) ∧
    (halvingSolver 30).getUnrollOption = true := ⟨rfl, rfl, rfl, rfl⟩

end C02

/-! ## C03 -/

section C03
variable {P S D : Type*}

theorem sliceLoop_eq (update : P → S → D → P × S) (n : ℕ) (ds : List D) (ps : P × S) :
    sliceLoop update n ds ps = ((ds.take n).foldl (fun ps d => update ps.1 ps.2 d) ps, ds.drop n) := by
  induction n generalizing ds ps with
  | zero => simp [sliceLoop]
  | succ n ih =>
    cases ds with
    | nil => simp [sliceLoop]
    | cons d ds => simp [sliceLoop, ih]

/-- **C03**: the first batch is used for `init_state` only; the following `maxiter` batches (or all of them, if fewer) are
used for exactly one update each, in order; the rest of the stream is left untouched. -/
theorem C03_run_iterator (initState : P → D → S) (update : P → S → D → P × S) (maxiter : ℕ) (p : P)
    (first : D) (batches later : List D)
    (hlen : batches.length = maxiter ∨ (batches.length ≤ maxiter ∧ later = [])) :
    runIterator initState update maxiter p (first :: (batches ++ later)) =
      .ok (batches.foldl (fun ps d => update ps.1 ps.2 d) (p, initState p first), later) := by
  have : ¬ ((maxiter : ℤ) < 0) := by omega
  simp only [runIterator, this, if_false, sliceLoop_eq, Int.toNat_natCast]
  rcases hlen with h | ⟨h, rfl⟩
  · rw [List.take_left' h, List.drop_left' h]
  · simp [List.take_of_length_le h, List.drop_of_length_le h]

/-- **C03**, error branch: an exhausted iterator raises `StopIteration` before anything is evaluated. -/
theorem C03_empty (initState : P → D → S) (update : P → S → D → P × S) (maxiter : ℤ) (p : P) :
    runIterator initState update maxiter p [] = .error "StopIteration" := rfl

/-- Non-vacuity: a stream of four batches, two updates. -/
example : runIterator (fun p d => p + d) (fun p s d => (10 * p + d, s)) 2 (0 : ℕ) [7, 1, 2, 3]
    = .ok ((12, 7), [3]) := rfl

end C03

/-! ## C04 -/

section C04
variable {X V G A : Type*}

/-- What the documentation says a user function denotes: value, gradient and aux (`None` without aux).  In the separate
`value_and_grad` case the user promises that both callables return the same value (and aux). -/
def UserFun.Denotes (val : X → V) (g : X → G) (aux : X → Option A) : UserFun X V G A → Prop
  | .plain f grad => ∀ x, aux x = none ∧ f x = val x ∧ grad x = g x
  | .plainAux f grad => ∀ x, ∃ a, aux x = some a ∧ f x = (val x, a) ∧ grad x = g x
  | .joint vg => ∀ x, aux x = none ∧ vg x = (val x, g x)
  | .jointAux vg => ∀ x, ∃ a, aux x = some a ∧ vg x = ((val x, a), g x)
  | .sep f vg => ∀ x, aux x = none ∧ f x = val x ∧ vg x = (val x, g x)
  | .sepAux f vg => ∀ x, ∃ a, aux x = some a ∧ f x = (val x, a) ∧ vg x = ((val x, a), g x)

/-- **C04**: with-aux adapters return value, gradient and aux denoted by the user's function. -/
theorem C04_with_aux (u : UserFun X V G A) (val : X → V) (g : X → G) (aux : X → Option A)
    (h : u.Denotes val g aux) (x : X) :
    (makeFunsWithAux u).1 x = (val x, aux x) ∧ (makeFunsWithAux u).2.1 x = (g x, aux x) ∧
      (makeFunsWithAux u).2.2 x = ((val x, aux x), g x) := by
  cases u with
  | plain f grad =>
    obtain ⟨h1, h2, h3⟩ := h x
    simp [makeFunsWithAux, splitValueAndGradWithAux, addAuxToFun, jaxValueAndGradAux, h1, h2, h3]
  | plainAux f grad =>
    obtain ⟨a, h1, h2, h3⟩ := h x
    simp [makeFunsWithAux, splitValueAndGradWithAux, someAux, jaxValueAndGradAux, h1, h2, h3]
  | joint vg =>
    obtain ⟨h1, h2⟩ := h x
    simp [makeFunsWithAux, splitValueAndGradWithAux, addAuxToValueAndGrad, h1, h2]
  | jointAux vg =>
    obtain ⟨a, h1, h2⟩ := h x
    simp [makeFunsWithAux, splitValueAndGradWithAux, someAuxVG, h1, h2]
  | sep f vg =>
    obtain ⟨h1, h2, h3⟩ := h x
    simp [makeFunsWithAux, splitValueAndGradWithAux, addAuxToFun, addAuxToValueAndGrad, h1, h2, h3]
  | sepAux f vg =>
    obtain ⟨a, h1, h2, h3⟩ := h x
    simp [makeFunsWithAux, splitValueAndGradWithAux, someAux, someAuxVG, h1, h2, h3]

/-- **C04**: the without-aux adapters return the same value and gradient. -/
theorem C04_without_aux (u : UserFun X V G A) (val : X → V) (g : X → G) (aux : X → Option A)
    (h : u.Denotes val g aux) (x : X) :
    (makeFunsWithoutAux u).1 x = val x ∧ (makeFunsWithoutAux u).2.1 x = g x ∧
      (makeFunsWithoutAux u).2.2 x = (val x, g x) := by
  cases u with
  | plain f grad =>
    obtain ⟨h1, h2, h3⟩ := h x
    simp [makeFunsWithoutAux, jaxValueAndGrad, h2, h3]
  | plainAux f grad =>
    obtain ⟨a, h1, h2, h3⟩ := h x
    simp [makeFunsWithoutAux, removeAuxFromValueAndGrad, jaxValueAndGradAux, h2, h3]
  | joint vg =>
    obtain ⟨h1, h2⟩ := h x
    simp [makeFunsWithoutAux, removeAuxFromValueAndGrad, addAuxToValueAndGrad, h2]
  | jointAux vg =>
    obtain ⟨a, h1, h2⟩ := h x
    simp [makeFunsWithoutAux, removeAuxFromValueAndGrad, h2]
  | sep f vg =>
    obtain ⟨h1, h2, h3⟩ := h x
    simp [makeFunsWithoutAux, h2, h3]
  | sepAux f vg =>
    obtain ⟨a, h1, h2, h3⟩ := h x
    simp [makeFunsWithoutAux, removeAuxFromValueAndGrad, h2, h3]

/-- Non-vacuity: `x ↦ x²` with aux `x+1` given as a separate pair of callables. -/
example : (UserFun.sepAux (fun x : ℤ => (x ^ 2, x + 1)) (fun x => ((x ^ 2, x + 1), 2 * x))).Denotes
    (fun x => x ^ 2) (fun x => 2 * x) (fun x => some (x + 1)) := fun x => ⟨x + 1, rfl, rfl, rfl⟩

/-- **C04**: with a separate `value_and_grad` callable no promise is needed for routing: the function evaluated is the
user's `fun`, and the joint function is the user's `value_and_grad`, which also provides the gradient. -/
theorem C04_separate (f : X → V) (vg : X → V × G) (fa : X → V × A) (vga : X → (V × A) × G) (x : X) :
    ((makeFunsWithoutAux (.sep f vg : UserFun X V G A)).1 x = f x ∧
      (makeFunsWithoutAux (.sep f vg : UserFun X V G A)).2.1 x = (vg x).2 ∧
      (makeFunsWithoutAux (.sep f vg : UserFun X V G A)).2.2 x = vg x) ∧
    ((makeFunsWithAux (.sep f vg : UserFun X V G A)).1 x = (f x, none) ∧
      (makeFunsWithAux (.sep f vg : UserFun X V G A)).2.1 x = ((vg x).2, none) ∧
      (makeFunsWithAux (.sep f vg : UserFun X V G A)).2.2 x = (((vg x).1, none), (vg x).2)) ∧
    ((makeFunsWithoutAux (.sepAux fa vga)).1 x = (fa x).1 ∧
      (makeFunsWithoutAux (.sepAux fa vga)).2.1 x = (vga x).2 ∧
      (makeFunsWithoutAux (.sepAux fa vga)).2.2 x = ((vga x).1.1, (vga x).2)) ∧
    ((makeFunsWithAux (.sepAux fa vga)).1 x = ((fa x).1, some (fa x).2) ∧
      (makeFunsWithAux (.sepAux fa vga)).2.1 x = ((vga x).2, some (vga x).1.2) ∧
      (makeFunsWithAux (.sepAux fa vga)).2.2 x = (((vga x).1.1, some (vga x).1.2), (vga x).2)) := by
  simp [makeFunsWithoutAux, makeFunsWithAux, removeAuxFromValueAndGrad, splitValueAndGradWithAux, addAuxToFun,
    addAuxToValueAndGrad, someAux, someAuxVG]

/-- Two callables that disagree: the value comes from `fun`, the gradient from `value_and_grad`. -/
example : (makeFunsWithAux (.sep (fun n : ℕ => n + 1) (fun n => (n, 2 * n)) : UserFun ℕ ℕ ℕ ℕ)).1 3 = (4, none) ∧
    (makeFunsWithAux (.sep (fun n : ℕ => n + 1) (fun n => (n, 2 * n)) : UserFun ℕ ℕ ℕ ℕ)).2.1 3 = (6, none) := by
  simp [makeFunsWithAux, splitValueAndGradWithAux, addAuxToFun, addAuxToValueAndGrad]

end C04

end Jaxopt.Base
