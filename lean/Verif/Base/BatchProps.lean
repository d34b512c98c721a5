import Verif.Base.Batch
import Verif.Bisect.FloatProps

/-!
# C109: batched runs are the individual runs
-/

set_option autoImplicit false
set_option linter.unusedSectionVars false
set_option linter.unusedVariables false

namespace Jaxopt.Loop

open Jaxopt.Base

variable {ι : Type} [Fintype ι] {α β γ : Type*}

/-- `F` is the batched form of the functions `f i`: element `i` of the result depends on element `i` of the argument only. -/
def Batched (F : (ι → α) → (ι → β)) (f : ι → α → β) : Prop := ∀ s i, F s i = f i (s i)

/-- `vmap` of a composition. -/
theorem Batched.comp {G : (ι → β) → (ι → γ)} {g : ι → β → γ} {F : (ι → α) → (ι → β)} {f : ι → α → β} (hG : Batched G g) (hF : Batched F f) :
    Batched (fun s => G (F s)) (fun i x => g i (f i x)) := fun s i => by
  change G (F s) i = g i (f i (s i))
  rw [hG, hF]

/-- **C109 (branches).**  `cond` under `vmap` takes for each element the branch of that element; it is an error with `jit=False`. -/
theorem C109_cond {ifFun elseFun : (ι → α) → (ι → β)} {f g : ι → α → β} (hf : Batched ifFun f) (hg : Batched elseFun g) (pred : ι → Bool) (x : ι → α) :
    (∃ r, condV pred ifFun elseFun x true = .ok r ∧ ∀ i, r i = if pred i then f i (x i) else g i (x i)) ∧
      ∃ e, condV pred ifFun elseFun x false = .error e := by
  refine ⟨⟨_, rfl, fun i => ?_⟩, ⟨_, rfl⟩⟩
  simp only [vselect, hf x i, hg x i]

section

variable {condFun : (ι → α) → ι → Bool} {bodyFun : (ι → α) → (ι → α)} {c : ι → α → Bool} {b : ι → α → α}

theorem scanV_eq (hc : Batched condFun c) (hb : Batched bodyFun b) (x : ι → α) (n : ℕ) (i : ι) :
    whileLoopScanV condFun bodyFun x n i = whileLoopScan (c i) (b i) (x i) n := by
  have key : ∀ (l : List ℕ) (t : (ι → α) × (ι → Bool)) (t' : α × Bool), t.1 i = t'.1 → t.2 i = t'.2 →
      (l.foldl (fun (tup : (ι → α) × (ι → Bool)) (_ : ℕ) =>
        (vselect tup.2 (bodyFun tup.1) tup.1, vselect tup.2 (condFun (bodyFun tup.1)) (fun _ => false))) t).1 i =
      (l.foldl (fun (tup : α × Bool) (_ : ℕ) => if tup.2 then (b i tup.1, c i (b i tup.1)) else (tup.1, false)) t').1 := by
    intro l
    induction l with
    | nil => intro t t' h1 h2; exact h1
    | cons a l ih =>
      intro t t' h1 h2
      rw [List.foldl_cons, List.foldl_cons]
      refine ih _ _ ?_ ?_
      · simp only [vselect, h2, hb t.1 i, h1]
        cases t'.2 <;> rfl
      · simp only [vselect, h2, hc _ i, hb t.1 i, h1]
        cases t'.2 <;> rfl
  exact key (List.range n) (x, condFun x) (x i, c i (x i)) rfl (hc x i)

theorem active_eq (hc : Batched condFun c) (maxiter it : ι → Int) (x : ι → α) (i : ι) :
    activeV condFun maxiter it x i = (c i (x i) && decide (it i ≤ maxiter i - 1)) := by
  unfold activeV
  rw [hc x i]

theorem laxV_eq (hc : Batched condFun c) (hb : Batched bodyFun b) (maxiter it : ι → Int) (x : ι → α) (i : ι) :
    whileLoopLaxFromV condFun bodyFun maxiter it x i = whileLoopLaxFrom (c i) (b i) (maxiter i) (it i) (x i) := by
  induction it, x using whileLoopLaxFromV.induct condFun bodyFun maxiter with
  | case1 it x h ih =>
    rw [whileLoopLaxFromV, dif_pos h, ih]
    have ha := active_eq hc maxiter it x i
    cases hi : activeV condFun maxiter it x i
    · simp only [vselect, hi, Bool.false_eq_true, if_false]
    · simp only [vselect, hi, if_true, hb x i]
      conv_rhs => rw [whileLoopLaxFrom]
      rw [if_pos (by rw [← ha, hi])]
  | case2 it x h =>
    rw [whileLoopLaxFromV, dif_neg h, whileLoopLaxFrom, if_neg]
    rw [← active_eq hc]
    exact fun hi => h ⟨i, hi⟩

/-- **C109 (loop).**  Whatever the batch, a batched loop that is accepted returns for each element the result of the loop run on this element alone; with
`jit=True` the batched loop is accepted exactly when all individual loops are and the bound of an unrolled loop is static. -/
theorem C109_loop (hc : Batched condFun c) (hb : Batched bodyFun b) (x : ι → α) (maxiter : Bound ι) (unroll jit : Bool) {r : ι → α}
    (h : whileLoopV condFun bodyFun x maxiter unroll jit = .ok r) (i : ι) :
    whileLoop (c i) (b i) (x i) (maxiter.at i) unroll jit = .ok (r i) := by
  cases unroll <;> cases jit
  · simp [whileLoopV] at h
  · simp only [whileLoopV, Bool.false_eq_true, if_false, if_true] at h
    injection h with h
    simp only [whileLoop, Bool.false_eq_true, if_false, if_true, ← h, whileLoopLax, laxV_eq hc hb]
  · cases maxiter with
    | traced n => simp [whileLoopV] at h
    | static n =>
      by_cases hn : n ≤ 0
      · simp only [whileLoopV, Bool.false_eq_true, if_false, if_true, hn] at h
        injection h with h
        have : n.toNat = 0 := by omega
        simp only [whileLoop, Bool.false_eq_true, if_false, if_true, Bound.at, this, whileLoopPython, h]
      · simp [whileLoopV, hn] at h
  · cases maxiter with
    | traced n => simp [whileLoopV] at h
    | static n =>
      by_cases hn : n < 0
      · simp [whileLoopV, hn] at h
      · simp only [whileLoopV, if_true, hn, if_false] at h
        injection h with h
        simp only [whileLoop, if_true, Bound.at, hn, if_false, ← h, scanV_eq hc hb]

/-- **C109 (acceptance).**  Which batched loops are accepted: all of `lax.while_loop`, whatever the bound; a scan with a static bound that is not negative;
and no Python loop that does at least one pass. -/
theorem C109_accepted (condFun : (ι → α) → ι → Bool) (bodyFun : (ι → α) → (ι → α)) (x : ι → α) (maxiter : Bound ι) (unroll jit : Bool) :
    (∃ r, whileLoopV condFun bodyFun x maxiter unroll jit = .ok r) ↔
      (unroll = false ∧ jit = true) ∨ (∃ n, maxiter = .static n ∧ unroll = true ∧ ((jit = true ∧ 0 ≤ n) ∨ (jit = false ∧ n ≤ 0))) := by
  cases unroll <;> cases jit <;> cases maxiter with
  | traced n => simp [whileLoopV]
  | static n =>
    by_cases h1 : n < 0 <;> by_cases h2 : n ≤ 0 <;> simp [whileLoopV, h1, h2] <;> omega

/-- **C109 (cost).**  The body of a batched `lax.while_loop` is evaluated as often as for the element that needs most iterations. -/
theorem C109_passes (hc : Batched condFun c) (hb : Batched bodyFun b) (maxiter it : ι → Int) (x : ι → α) :
    laxPassesV condFun bodyFun maxiter it x = Finset.univ.sup fun i => laxPasses (c i) (b i) (maxiter i) (it i) (x i) := by
  induction it, x using laxPassesV.induct condFun bodyFun maxiter with
  | case1 it x h ih =>
    rw [laxPassesV, dif_pos h, ih]
    have hact : ∀ i, activeV condFun maxiter it x i = true → laxPasses (c i) (b i) (maxiter i) (it i) (x i) =
        1 + laxPasses (c i) (b i) (maxiter i) (vselect (activeV condFun maxiter it x) (fun i => it i + 1) it i)
          (vselect (activeV condFun maxiter it x) (bodyFun x) x i) := by
      intro i hi
      conv_lhs => rw [laxPasses]
      rw [if_pos (by rw [← active_eq hc, hi])]
      simp only [vselect, hi, if_true, hb x i]
    have hin : ∀ i, activeV condFun maxiter it x i = false →
        laxPasses (c i) (b i) (maxiter i) (vselect (activeV condFun maxiter it x) (fun i => it i + 1) it i)
          (vselect (activeV condFun maxiter it x) (bodyFun x) x i) = 0 := by
      intro i hi
      simp only [vselect, hi, Bool.false_eq_true, if_false]
      rw [laxPasses, if_neg (by rw [← active_eq hc, hi]; simp)]
    refine le_antisymm ?_ ?_
    · obtain ⟨i0, hi0⟩ := h
      have hpos : 1 ≤ Finset.univ.sup fun i => laxPasses (c i) (b i) (maxiter i) (it i) (x i) :=
        le_trans (by rw [hact i0 hi0]; omega)
          (Finset.le_sup (f := fun i => laxPasses (c i) (b i) (maxiter i) (it i) (x i)) (Finset.mem_univ i0))
      have : (Finset.univ.sup fun i => laxPasses (c i) (b i) (maxiter i) (vselect (activeV condFun maxiter it x) (fun i => it i + 1) it i)
          (vselect (activeV condFun maxiter it x) (bodyFun x) x i)) ≤
          (Finset.univ.sup fun i => laxPasses (c i) (b i) (maxiter i) (it i) (x i)) - 1 := by
        refine Finset.sup_le fun i _ => ?_
        cases hi : activeV condFun maxiter it x i
        · rw [hin i hi]; omega
        · have := Finset.le_sup (f := fun i => laxPasses (c i) (b i) (maxiter i) (it i) (x i)) (Finset.mem_univ i)
          rw [hact i hi] at this
          omega
      omega
    · refine Finset.sup_le fun i _ => ?_
      cases hi : activeV condFun maxiter it x i
      · have : laxPasses (c i) (b i) (maxiter i) (it i) (x i) = 0 := by
          rw [laxPasses, if_neg (by rw [← active_eq hc, hi]; simp)]
        omega
      · rw [hact i hi]
        have := Finset.le_sup (f := fun i => laxPasses (c i) (b i) (maxiter i) (vselect (activeV condFun maxiter it x) (fun i => it i + 1) it i)
          (vselect (activeV condFun maxiter it x) (bodyFun x) x i)) (Finset.mem_univ i)
        omega
  | case2 it x h =>
    rw [laxPassesV, dif_neg h]
    symm
    rw [← Nat.le_zero]
    refine Finset.sup_le fun i _ => ?_
    rw [laxPasses, if_neg]
    rw [← active_eq hc]
    exact fun hi => h ⟨i, hi⟩

/-- **C109 (nesting).**  A batched `lax.while_loop` (a line search inside an update, say) is itself the batched form of the individual loops, so that it
can be the body of another batched loop. -/
theorem C109_nested (hc : Batched condFun c) (hb : Batched bodyFun b) (maxiter : ι → Int) :
    Batched (fun s => whileLoopLaxFromV condFun bodyFun maxiter (fun _ => 0) s) (fun i x => whileLoopLax (c i) (b i) x (maxiter i)) :=
  fun s i => laxV_eq hc hb maxiter (fun _ => 0) s i

end

end Jaxopt.Loop

namespace Jaxopt.Base

open Jaxopt.Loop

variable {ι : Type} [Fintype ι] {P S : Type*}

/-- **C109 (run).**  A batched run that is accepted returns for each element what the run on this element alone returns, for each number of iterations
(one for all elements, or one for each element with `unroll=False`). -/
theorem C109_run {initState : (ι → P) → (ι → S)} {update : (ι → P × S) → (ι → P × S)} {cont : (ι → P × S) → ι → Bool}
    {is : ι → P → S} {up : ι → P × S → P × S} {co : ι → P × S → Bool} (h1 : Batched initState is) (h2 : Batched update up) (h3 : Batched cont co)
    (maxiter : Bound ι) (m : ι → ℕ) (hm : ∀ i, maxiter.at i = m i) (unroll jit : Bool) (x0 : ι → P) {r : ι → P × S}
    (h : runV initState update cont maxiter unroll jit x0 = .ok r) (i : ι) :
    runS (is i) (up i) (co i) (m i) unroll jit (x0 i) = .ok (r i) := by
  unfold runV at h
  dsimp only at h
  cases hw : whileLoopV cont update (update fun i => (x0 i, initState x0 i)) (Bound.pred maxiter) unroll jit with
  | error e => rw [hw] at h; simp [bind, Except.bind] at h
  | ok w =>
    rw [hw] at h
    simp only [bind, Except.bind, pure, Except.pure] at h
    injection h with h
    have hl := C109_loop h3 h2 _ _ unroll jit hw i
    have hat : (Bound.pred maxiter).at i = (m i : Int) - 1 := by
      rw [← hm i]
      cases maxiter <;> rfl
    rw [hat, h2, h1] at hl
    unfold runS
    dsimp only
    rw [hl]
    simp only [bind, Except.bind, pure, Except.pure]
    rw [← h]
    simp only [vselect, hm i, h1 x0 i]
    by_cases h0 : m i = 0 <;> simp [h0]

/-- With `jit=True` a batched run is accepted for each static positive number of iterations. -/
theorem C109_run_ok (initState : (ι → P) → (ι → S)) (update : (ι → P × S) → (ι → P × S)) (cont : (ι → P × S) → ι → Bool) (m : ℕ) (hm : 1 ≤ m)
    (unroll : Bool) (x0 : ι → P) : ∃ r, runV initState update cont (.static m) unroll true x0 = .ok r := by
  have hacc := (C109_accepted cont update (update fun i => (x0 i, initState x0 i)) (Bound.pred (.static (m : Int))) unroll true).mpr (by
    cases unroll
    · exact .inl ⟨rfl, rfl⟩
    · exact .inr ⟨_, rfl, rfl, .inl ⟨rfl, by omega⟩⟩)
  obtain ⟨w, hw⟩ := hacc
  exact ⟨_, by unfold runV; dsimp only; rw [hw]; rfl⟩

end Jaxopt.Base

namespace Jaxopt.Bisect.Float

open Jaxopt.Loop Jaxopt.Base

variable {ι : Type} [Fintype ι] {K : Type*} [Field K] [LinearOrder K]

/-- **C109 (bisection).**  Batched bisection without the check of the bracket is the individual runs. -/
theorem C109_bisection (A : ι → Attr K) (maxiter : ℕ) (hm : 1 ≤ maxiter) (tol : K) (unroll : Bool)
    (hA : ∀ i, (A i).maxiter = maxiter ∧ (A i).tol = tol ∧ (A i).checkBracket = false ∧ (A i).unroll = unroll ∧ (A i).jit = true) :
    ∃ r, runV A maxiter tol false unroll true = .ok r ∧ ∀ i, run (A i) = .ok (r i) := by
  obtain ⟨r, hr⟩ := C109_run_ok (fun _ : ι → Ext K => fun i => startState (A i)) (fun s => fun i => update (A i) (s i))
    (fun s => fun i => Ext.gt (s i).2.error (.fin tol)) maxiter hm unroll (fun _ => .nan)
  refine ⟨r, hr, fun i => ?_⟩
  have := C109_run (is := fun i _ => startState (A i)) (up := fun i => update (A i)) (co := fun i p => Ext.gt p.2.error (.fin tol))
    (fun _ _ => rfl) (fun _ _ => rfl) (fun _ _ => rfl) (.static maxiter) (fun _ => maxiter) (fun _ => rfl) unroll true _ hr i
  obtain ⟨e1, e2, e3, e4, e5⟩ := hA i
  unfold run
  rw [e1, e2, e3, e4, e5, if_neg (by simp)]
  exact this

/-- **With the default `check_bracket=True` bisection cannot be batched**: the check takes the truth value of a batch, whatever the brackets; here each
run alone is accepted. -/
theorem C109_check_bracket_false : ∃ A : Fin 2 → Attr ℚ, (∀ i, (A i).checkBracket = true ∧ ∃ r, run (A i) = .ok r) ∧
    ∀ unroll jit, ∃ e, runV A 30 0 true unroll jit = .error e := by
  refine ⟨fun _ => tenth, fun _ => ⟨rfl, ?_⟩, fun _ _ => ⟨_, rfl⟩⟩
  unfold run
  rw [if_neg (by
    have : (startState tenth).sign = 1 := by decide +kernel
    rw [this]; simp)]
  exact runS_ok _ _ _ _ (show 1 ≤ 30 by omega) (.inl rfl)

/-- Two brackets for the same function in a batch: the runs end after different numbers of updates. -/
example : (runV (fun i : Fin 2 => { tenth with lower := ![-1, 0] i, checkBracket := false }) 30 0 false true true).toOption.map
    (fun r => ((r 0).1, (r 0).2.iterNum, (r 1).1, (r 1).2.iterNum)) = some (.fin (3 / 10), 4, .fin (3 / 10), 3) := by
  decide +kernel

end Jaxopt.Bisect.Float

namespace Jaxopt.Loop

/-- Halving down to a threshold: two elements that need different numbers of passes. -/
example : (whileLoopV (fun (s : Fin 2 → ℕ) i => decide (3 < s i)) (fun s i => s i / 2) ![100, 9] (.static 50) true true).toOption = some ![3, 2] := by
  decide +kernel

/-- A nested loop: the inner loop is batched. -/
example : Batched (ι := Fin 2) (fun s : Fin 2 → ℕ => whileLoopLaxFromV (fun s i => decide (3 < s i)) (fun s i => s i / 2) ![5, 1] (fun _ => 0)
    (fun i => s i + 40)) (fun i x => whileLoopLax (fun x => decide (3 < x)) (fun x => x / 2) (x + 40) (![5, 1] i)) :=
  (C109_nested (c := fun _ x => decide (3 < x)) (b := fun _ x => x / 2) (fun _ _ => rfl) (fun _ _ => rfl) ![5, 1]).comp
    (f := fun _ x => x + 40) (fun _ _ => rfl)

end Jaxopt.Loop
