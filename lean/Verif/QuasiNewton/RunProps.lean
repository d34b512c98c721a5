import Verif.QuasiNewton.Run
import Verif.QuasiNewton.LbfgsProps
import Verif.QuasiNewton.BfgsProps
import Verif.QuasiNewton.BroydenProps
import Verif.QuasiNewton.LbfgsbProps
import Verif.QuasiNewton.NonlinearCGProps

/-!
# Property C74: what a quasi-Newton run returns

The state describes the returned parameters, and the loop stops for the documented reasons only.
-/

set_option autoImplicit false
set_option linter.unusedSectionVars false
set_option linter.unusedVariables false

namespace Jaxopt.QuasiNewton

open Jaxopt.Base

variable {K : Type*} [Field K] [LinearOrder K] [IsStrictOrderedRing K]

theorem gt_fin {a b : K} : Ext.gt (.fin a) (.fin b) = true ↔ b < a := by simp [Ext.gt, Ext.lt]

/-! ## L-BFGS -/

namespace Lbfgs

variable {E V : Type*} [AddCommGroup E] [Module K E]

/-- The line search reports the value and the gradient at the point it returns. -/
def LsSound (S : Lbfgs K E V) : Prop :=
  ∀ s x v g d, (S.runLs s x v g d).value = S.f (S.runLs s x v g d).params ∧
    (S.runLs s x v g d).grad = S.grad (S.runLs s x v g d).params

theorem step_sound (S : Lbfgs K E V) (hl : S.LsSound) (x : E) (st : LbfgsState K E V) (d : E) :
    (S.step x st d).value = S.f (S.step x st d).params ∧ (S.step x st d).grad = S.grad (S.step x st d).params := by
  unfold step
  split
  · split
    · exact hl _ _ _ _ _
    · exact ⟨rfl, rfl⟩
  · exact ⟨rfl, rfl⟩

/-- **C74, L-BFGS.** At every iterate the value and the gradient of the state are those at the parameters, and from the first update on
the error is the norm of that gradient. -/
theorem C74_lbfgs_state (S : Lbfgs K E V) (hl : S.LsSound) (x0 : E) (k : ℕ) :
    (S.iter x0 k).2.value = S.f (S.iter x0 k).1 ∧ (S.iter x0 k).2.grad = S.grad (S.iter x0 k).1 ∧ (S.iter x0 k).2.iterNum = k ∧
      (1 ≤ k → (S.iter x0 k).2.error = .fin (S.norm (S.grad (S.iter x0 k).1))) := by
  refine ⟨?_, ?_, S.iterNum_iter x0 k, ?_⟩
  · cases k with
    | zero => rfl
    | succ k => rw [iter_succ]; exact (S.step_sound hl _ _ _).1
  · cases k with
    | zero => rfl
    | succ k => rw [iter_succ]; exact (S.step_sound hl _ _ _).2
  · intro hk
    obtain ⟨k, rfl⟩ := Nat.exists_eq_add_of_le' hk
    rw [iter_succ]
    simp only [update]
    rw [(S.step_sound hl _ _ _).2]

/-- **C74, L-BFGS.** A run with `maxiter ≥ 1` returns the first iterate (after at least one update) whose gradient norm is at most
`tol`, or whose line search failed when `stop_if_linesearch_fails` is set, or the iterate number `maxiter`. -/
theorem C74_lbfgs_run (S : Lbfgs K E V) (hl : S.LsSound) (hm : 1 ≤ S.maxiter) (x0 : E) {r : E × LbfgsState K E V}
    (hr : S.run x0 = .ok r) :
    ∃ k, 1 ≤ k ∧ k ≤ S.maxiter ∧ r = S.iter x0 k ∧
      (k = S.maxiter ∨ S.norm (S.grad r.1) ≤ S.tol ∨ S.stopIfLinesearchFails = true ∧ r.2.failedLinesearch = true) ∧
      ∀ j, 1 ≤ j → j < k → S.tol < S.norm (S.grad (S.iter x0 j).1) ∧
        (S.stopIfLinesearchFails = true → (S.iter x0 j).2.failedLinesearch = false) := by
  obtain ⟨k, h1, h2, h3, h4, h5⟩ := runS_spec hm hr
  have hr' : r = S.iter x0 k := h3
  refine ⟨k, h1, h2, hr', ?_, fun j hj hjk => ?_⟩
  · rcases h5 with h5 | h5
    · exact Or.inl h5
    · right
      have h5 : S.cont (S.iter x0 k) = false := h5
      rw [cont, (S.C74_lbfgs_state hl x0 k).2.2.2 h1, Bool.and_eq_false_iff] at h5
      rw [hr']
      rcases h5 with h5 | h5
      · left
        by_contra hc
        rw [gt_fin.mpr (not_le.mp hc)] at h5
        cases h5
      · right
        simpa using h5
  · have h4 : S.cont (S.iter x0 j) = true := h4 j hj hjk
    rw [cont, (S.C74_lbfgs_state hl x0 j).2.2.2 hj, Bool.and_eq_true, gt_fin] at h4
    refine ⟨h4.1, fun hs => ?_⟩
    have := h4.2
    rw [hs] at this
    simpa using this

end Lbfgs

/-! ## BFGS -/

namespace Bfgs

variable {ι V : Type*} [Fintype ι] [DecidableEq ι]

/-- The line search reports the value and the gradient at the point it returns. -/
def LsSound (S : Bfgs K ι V) : Prop :=
  ∀ s x v g d, (S.runLs s x v g d).value = S.f (S.runLs s x v g d).params ∧
    (S.runLs s x v g d).grad = S.grad (S.runLs s x v g d).params

theorem step_sound (S : Bfgs K ι V) (hl : S.LsSound) (x : ι → K) (st : BfgsState K ι V) (d : ι → K) :
    (S.step x st d).value = S.f (S.step x st d).params ∧ (S.step x st d).grad = S.grad (S.step x st d).params := by
  unfold step
  split
  · split
    · exact hl _ _ _ _ _
    · exact ⟨rfl, rfl⟩
  · exact ⟨rfl, rfl⟩

/-- **C74, BFGS.** As for L-BFGS. -/
theorem C74_bfgs_state (S : Bfgs K ι V) (hl : S.LsSound) (x0 : ι → K) (k : ℕ) :
    (S.iter x0 k).2.value = S.f (S.iter x0 k).1 ∧ (S.iter x0 k).2.grad = S.grad (S.iter x0 k).1 ∧ (S.iter x0 k).2.iterNum = k ∧
      (1 ≤ k → (S.iter x0 k).2.error = .fin (S.norm (S.grad (S.iter x0 k).1))) := by
  refine ⟨?_, ?_, ?_, ?_⟩
  · cases k with
    | zero => rfl
    | succ k => rw [iter_succ]; exact (S.step_sound hl _ _ _).1
  · cases k with
    | zero => rfl
    | succ k => rw [iter_succ]; exact (S.step_sound hl _ _ _).2
  · induction k with
    | zero => rfl
    | succ k ih => rw [iter_succ]; simp only [update, ih]
  · intro hk
    obtain ⟨k, rfl⟩ := Nat.exists_eq_add_of_le' hk
    rw [iter_succ]
    simp only [update]
    rw [(S.step_sound hl _ _ _).2]

/-- **C74, BFGS.** A run with `maxiter ≥ 1` returns the first iterate (after at least one update) whose gradient norm is at most
`tol`, or the iterate number `maxiter`. -/
theorem C74_bfgs_run (S : Bfgs K ι V) (hl : S.LsSound) (hm : 1 ≤ S.maxiter) (x0 : ι → K) {r : (ι → K) × BfgsState K ι V}
    (hr : S.run x0 = .ok r) :
    ∃ k, 1 ≤ k ∧ k ≤ S.maxiter ∧ r = S.iter x0 k ∧ (k = S.maxiter ∨ S.norm (S.grad r.1) ≤ S.tol) ∧
      ∀ j, 1 ≤ j → j < k → S.tol < S.norm (S.grad (S.iter x0 j).1) := by
  obtain ⟨k, h1, h2, h3, h4, h5⟩ := runS_spec hm hr
  have hr' : r = S.iter x0 k := h3
  refine ⟨k, h1, h2, hr', ?_, fun j hj hjk => ?_⟩
  · rcases h5 with h5 | h5
    · exact Or.inl h5
    · right
      have h5 : Ext.gt (S.iter x0 k).2.error (.fin S.tol) = false := h5
      rw [(S.C74_bfgs_state hl x0 k).2.2.2 h1] at h5
      rw [hr']
      by_contra hc
      rw [gt_fin.mpr (not_le.mp hc)] at h5
      cases h5
  · have h4 : Ext.gt (S.iter x0 j).2.error (.fin S.tol) = true := h4 j hj hjk
    rwa [(S.C74_bfgs_state hl x0 j).2.2.2 hj, gt_fin] at h4

end Bfgs

/-! ## Broyden -/

namespace Broyden

open Finset

variable {E L : Type*} [AddCommGroup E] [Module K E] [Fintype L]

/-- The line search reports the residual at the point it returns. -/
def LsSound (S : Broyden K E L) : Prop := ∀ s x v d, (S.runLs s x v d).value = S.f (S.runLs s x v d).params

theorem step_sound (S : Broyden K E L) (hl : S.LsSound) (x : L → E) (st : BroydenState K E L) :
    (S.step x st).value = S.f (S.step x st).params := by
  unfold step
  simp only
  split
  · split
    · exact hl _ _ _ _
    · rfl
  · rfl

/-- **C74, Broyden.** At every iterate the value of the state is the residual at the parameters, and from the first update on the error
is its norm. -/
theorem C74_broyden_state (S : Broyden K E L) (hl : S.LsSound) (x0 : L → E) (k : ℕ) :
    (S.iter x0 k).2.value = S.f (S.iter x0 k).1 ∧ (S.iter x0 k).2.iterNum = k ∧
      (1 ≤ k → (S.iter x0 k).2.error = .fin (S.norm (S.f (S.iter x0 k).1))) := by
  refine ⟨?_, S.iterNum_iter x0 k, ?_⟩
  · cases k with
    | zero => rfl
    | succ k => rw [iter_succ]; exact S.step_sound hl _ _
  · intro hk
    obtain ⟨k, rfl⟩ := Nat.exists_eq_add_of_le' hk
    rw [iter_succ]
    simp only [update]
    rw [S.step_sound hl]

/-- **C74, Broyden.** Every step goes along minus the inverse-Jacobian approximation `B` applied to the residual, by the stepsize
recorded in the state: `x_{k+1} = x_k - stepsize_{k+1} B f(x_k)`. -/
theorem C74_broyden_step (S : Broyden K E L) (hl : S.LsSound)
    (hls : ∀ s x v d, (S.runLs s x v d).params = x + (S.runLs s x v d).stepsize • d) (x0 : L → E) (k : ℕ) :
    (S.iter x0 (k + 1)).1 =
      (S.iter x0 k).1 - (S.iter x0 (k + 1)).2.stepsize • S.jacProd (S.iter x0 k).2 (S.f (S.iter x0 k).1) := by
  rw [iter_succ, ← (S.C74_broyden_state hl x0 k).1]
  simp only [update]
  have : ∀ (x : L → E) (st : BroydenState K E L), (S.step x st).params = x - (S.step x st).stepsize • S.jacProd st st.value := by
    intro x st
    have e : ∀ t : K, x - t • S.jacProd st st.value = x + t • ((-1 : K) • S.jacProd st st.value) := fun t => by
      rw [neg_smul, one_smul, smul_neg, sub_eq_add_neg]
    rw [e]
    unfold step
    simp only
    split
    · split
      · exact hls _ _ _ _
      · rfl
    · rfl
  exact this _ _

/-- **C74, Broyden.** `inv_jacobian_rproduct` is the transpose of `inv_jacobian_product`: on every state, for every number of leaves and
every buffer. -/
theorem C74_broyden_transpose (S : Broyden K E L) (hl : IsVdot S.ldot) (st : BroydenState K E L) (u v : L → E) :
    leafVdot S.ldot (S.jacProd st u) v = leafVdot S.ldot u (S.jacRprod st v) := by
  have hsum : ∀ (f : ℕ → E) (w : E) (N : ℕ), S.ldot (∑ j ∈ range N, f j) w = ∑ j ∈ range N, S.ldot (f j) w := by
    intro f w N
    induction N with
    | zero => simp [hl.zero_left]
    | succ N ih => rw [Finset.sum_range_succ, Finset.sum_range_succ, hl.add_left, ih]
  unfold leafVdot
  refine Finset.sum_congr rfl fun l _ => ?_
  have h1 := S.jacProd_apply st u l
  have h2 : S.jacRprod st v l = st.gamma • v l + ∑ j ∈ range S.historySize, S.ldot (st.c j l) (v l) • st.d j l := by
    simp only [jacRprod, invJacobianRproduct, invJacobianProduct, invJacobianProductLeaf, brMatvec]
    rw [sum_cyclic]
  rw [h1, h2, hl.add_left, hl.smul_left, hl.add_right, hl.smul_right, hsum, hl.symm (u l) (∑ j ∈ _, _), hsum]
  congr 1
  refine Finset.sum_congr rfl fun j _ => ?_
  rw [hl.smul_left, hl.smul_left, mul_comm]

/-- **C74, Broyden.** A run with `maxiter ≥ 1` returns the first iterate (after at least one update) whose residual norm is at most
`tol`, or whose line search failed when `stop_if_linesearch_fails` is set, or the iterate number `maxiter`. -/
theorem C74_broyden_run (S : Broyden K E L) (hl : S.LsSound) (A : LoopAttr K) (hm : 1 ≤ A.maxiter) (x0 : L → E)
    {r : (L → E) × BroydenState K E L} (hr : S.run A x0 = .ok r) :
    ∃ k, 1 ≤ k ∧ k ≤ A.maxiter ∧ r = S.iter x0 k ∧
      (k = A.maxiter ∨ S.norm (S.f r.1) ≤ A.tol ∨ A.stopIfLinesearchFails = true ∧ r.2.failedLinesearch = true) ∧
      ∀ j, 1 ≤ j → j < k → A.tol < S.norm (S.f (S.iter x0 j).1) ∧
        (A.stopIfLinesearchFails = true → (S.iter x0 j).2.failedLinesearch = false) := by
  obtain ⟨k, h1, h2, h3, h4, h5⟩ := runS_spec hm hr
  have hr' : r = S.iter x0 k := h3
  refine ⟨k, h1, h2, hr', ?_, fun j hj hjk => ?_⟩
  · rcases h5 with h5 | h5
    · exact Or.inl h5
    · right
      have h5 : cont A (S.iter x0 k) = false := h5
      rw [cont, (S.C74_broyden_state hl x0 k).2.2 h1, Bool.and_eq_false_iff] at h5
      rw [hr']
      rcases h5 with h5 | h5
      · left
        by_contra hc
        rw [gt_fin.mpr (not_le.mp hc)] at h5
        cases h5
      · right
        simpa using h5
  · have h4 : cont A (S.iter x0 j) = true := h4 j hj hjk
    rw [cont, (S.C74_broyden_state hl x0 j).2.2 hj, Bool.and_eq_true, gt_fin] at h4
    refine ⟨h4.1, fun hs => ?_⟩
    have := h4.2
    rw [hs] at this
    simpa using this

end Broyden

/-! ## L-BFGS-B -/

namespace Lbfgsb

variable {V : Type*} {n h : ℕ}

/-- The line search reports the value and the gradient at the point it returns. -/
def LsSound (S : Lbfgsb K V n h) : Prop :=
  ∀ s x v g d, (S.runLs s x v g d).value = S.f (S.runLs s x v g d).params ∧
    (S.runLs s x v g d).grad = S.grad (S.runLs s x v g d).params

theorem step_sound (S : Lbfgsb K V n h) (hl : S.LsSound) {lower upper : Fin n → Ext K} {x : Fin n → K} {st : LbfgsbState K V n h}
    {d : Fin n → K} {o : LsOut K (Fin n → K) V} (ho : S.step lower upper x st d = some o) :
    o.value = S.f o.params ∧ o.grad = S.grad o.params := by
  have hfixed : ∀ (a : K), (finite fun j => clipE (x j + a * d j) (lower j) (upper j)).map
      (fun x' => (⟨a, x', S.f x', S.grad x', false⟩ : LsOut K (Fin n → K) V)) = some o →
      o.value = S.f o.params ∧ o.grad = S.grad o.params := by
    intro a ha
    obtain ⟨x', -, rfl⟩ := Option.map_eq_some_iff.mp ha
    exact ⟨rfl, rfl⟩
  unfold step at ho
  simp only at ho
  split at ho
  · split at ho
    · cases ho
      exact hl _ _ _ _ _
    · exact hfixed _ ho
  · exact hfixed _ ho

/-- **C74, L-BFGS-B.** At every iterate the value and the gradient of the state are those at the parameters, and the error is the
infinity norm of the projected gradient step there. -/
theorem C74_lbfgsb_state (S : Lbfgsb K V n (h + 1)) (hl : S.LsSound) (lower upper : Fin n → Ext K) (x0 : Fin n → K) (k : ℕ)
    {p : (Fin n → K) × LbfgsbState K V n (h + 1)} (hp : S.iter lower upper x0 k = some p) :
    p.2.value = S.f p.1 ∧ p.2.grad = S.grad p.1 ∧ p.2.iterNum = k ∧ p.2.error = lbfgsbError p.1 (S.grad p.1) lower upper := by
  induction k generalizing p with
  | zero => cases hp; exact ⟨rfl, rfl, rfl, rfl⟩
  | succ k ih =>
    simp only [iter] at hp
    obtain ⟨q, hq, hu⟩ := Option.bind_eq_some_iff.mp hp
    unfold update at hu
    simp only at hu
    obtain ⟨xs, -, hu⟩ := Option.bind_eq_some_iff.mp hu
    obtain ⟨o, ho, rfl⟩ := Option.map_eq_some_iff.mp hu
    obtain ⟨e1, e2⟩ := S.step_sound hl ho
    exact ⟨e1, e2, congrArg (· + 1) (ih hq).2.2.1, by simp only [e2]⟩

theorem loop_spec (S : Lbfgsb K V n (h + 1)) (A : LoopAttr K) (lower upper : Fin n → Ext K) (x0 : Fin n → K) (m i : ℕ)
    {p r : (Fin n → K) × LbfgsbState K V n (h + 1)} (hp : S.iter lower upper x0 i = some p) (hr : S.loop A lower upper m p = some r) :
    ∃ k, i ≤ k ∧ k ≤ i + m ∧ S.iter lower upper x0 k = some r ∧ (k = i + m ∨ cont A r = false) ∧
      ∀ j, i ≤ j → j < k → ∃ q, S.iter lower upper x0 j = some q ∧ cont A q = true := by
  induction m generalizing i p with
  | zero => cases hr; exact ⟨i, le_rfl, by omega, hp, Or.inl rfl, fun j h1 h2 => by omega⟩
  | succ m ih =>
    unfold loop at hr
    by_cases hc : cont A p = true
    · rw [if_pos hc] at hr
      obtain ⟨q, hq, hr⟩ := Option.bind_eq_some_iff.mp hr
      have hi : S.iter lower upper x0 (i + 1) = some q := by simp only [iter, hp, Option.bind_some, hq]
      obtain ⟨k, h1, h2, h3, h4, h5⟩ := ih (i + 1) hi hr
      refine ⟨k, by omega, by omega, h3, ?_, fun j hj hjk => ?_⟩
      · rcases h4 with h4 | h4
        · left; omega
        · exact Or.inr h4
      · rcases Nat.eq_or_lt_of_le hj with rfl | hj
        · exact ⟨p, hp, hc⟩
        · exact h5 j hj hjk
    · rw [if_neg hc] at hr
      cases hr
      exact ⟨i, le_rfl, by omega, hp, Or.inr (by simpa using hc), fun j h1 h2 => by omega⟩

/-- **C74, L-BFGS-B.** A run with `maxiter ≥ 1` returns the first iterate (after at least one update) whose projected gradient step has
infinity norm at most `tol` (or NaN), or whose line search failed when `stop_if_linesearch_fails` is set, or the iterate number
`maxiter`. -/
theorem C74_lbfgsb_run (S : Lbfgsb K V n (h + 1)) (hl : S.LsSound) (A : LoopAttr K) (hm : 1 ≤ A.maxiter) (lower upper : Fin n → Ext K)
    (x0 : Fin n → K) {r : (Fin n → K) × LbfgsbState K V n (h + 1)} (hr : S.run A lower upper x0 = some r) :
    ∃ k, 1 ≤ k ∧ k ≤ A.maxiter ∧ S.iter lower upper x0 k = some r ∧
      (k = A.maxiter ∨ Ext.gt (lbfgsbError r.1 (S.grad r.1) lower upper) (.fin A.tol) = false ∨
        A.stopIfLinesearchFails = true ∧ r.2.failedLinesearch = true) ∧
      ∀ j, 1 ≤ j → j < k → ∃ q, S.iter lower upper x0 j = some q ∧
        Ext.gt (lbfgsbError q.1 (S.grad q.1) lower upper) (.fin A.tol) = true ∧
        (A.stopIfLinesearchFails = true → q.2.failedLinesearch = false) := by
  unfold run at hr
  obtain ⟨p, hp, hr⟩ := Option.bind_eq_some_iff.mp hr
  have hi : S.iter lower upper x0 1 = some p := by simp only [iter, Option.bind_some, hp]
  obtain ⟨k, h1, h2, h3, h4, h5⟩ := S.loop_spec A lower upper x0 _ 1 hi hr
  refine ⟨k, h1, by omega, h3, ?_, fun j hj hjk => ?_⟩
  · rcases h4 with h4 | h4
    · left; omega
    · right
      rw [cont, (S.C74_lbfgsb_state hl lower upper x0 k h3).2.2.2, Bool.and_eq_false_iff] at h4
      rcases h4 with h4 | h4
      · exact Or.inl h4
      · right; simpa using h4
  · obtain ⟨q, hq, hc⟩ := h5 j hj hjk
    rw [cont, (S.C74_lbfgsb_state hl lower upper x0 j hq).2.2.2, Bool.and_eq_true] at hc
    refine ⟨q, hq, hc.1, fun hs => ?_⟩
    have := hc.2
    rw [hs] at this
    simpa using this

end Lbfgsb

/-! ## Non-linear conjugate gradient -/

namespace NCG

variable {E V : Type*} [AddCommGroup E] [Module K E]

/-- **C74, conjugate gradient.** A run with `maxiter ≥ 1` returns an iterate whose *predecessor* has gradient norm at most `tol`, or the
iterate number `maxiter` (the error lags by one step, see C34). -/
theorem C74_ncg_run (S : NCG K E V) (hl : S.LsSound) (hm : 1 ≤ S.maxiter) (x0 : E) {r : E × NCGState K E V} (hr : S.run x0 = .ok r) :
    ∃ k, 1 ≤ k ∧ k ≤ S.maxiter ∧ r = S.iterate x0 k ∧ (k = S.maxiter ∨ S.norm (S.grad (S.iterate x0 (k - 1)).1) ≤ S.tol) ∧
      ∀ j, 1 ≤ j → j < k → S.tol < S.norm (S.grad (S.iterate x0 (j - 1)).1) := by
  obtain ⟨k, h1, h2, h3, h4, h5⟩ := runS_spec hm hr
  have he : ∀ j, 1 ≤ j → (S.iterate x0 j).2.error = .fin (S.norm (S.grad (S.iterate x0 (j - 1)).1)) := by
    intro j hj
    obtain ⟨j, rfl⟩ := Nat.exists_eq_add_of_le' hj
    exact S.C34_error_partial hl x0 j
  refine ⟨k, h1, h2, h3, ?_, fun j hj hjk => ?_⟩
  · rcases h5 with h5 | h5
    · exact Or.inl h5
    · right
      have h5 : Ext.gt (S.iterate x0 k).2.error (.fin S.tol) = false := h5
      rw [he k h1] at h5
      by_contra hc
      rw [gt_fin.mpr (not_le.mp hc)] at h5
      cases h5
  · have h4 : Ext.gt (S.iterate x0 j).2.error (.fin S.tol) = true := h4 j hj hjk
    rwa [he j hj, gt_fin] at h4

end NCG

/-- **C74, conjugate gradient.** The three names select the three formulas (denominators bounded below by `1e-6`, positive part), and
every other name raises. -/
theorem C74_ncg_method {E : Type*} [AddCommGroup E] [Module K E] (vdot : E → E → K) (g g' d : E) (name : String) :
    (∃ e, CGMethod.ofString name = .error e) ∧ name ≠ "polak-ribiere" ∧ name ≠ "fletcher-reeves" ∧ name ≠ "hestenes-stiefel" ∨
    ∃ m, CGMethod.ofString name = .ok m ∧
      (name = "polak-ribiere" ∧ cgBeta vdot m g g' d = max (vdot (g' - g) g' / max (vdot g g) (1 / 1000000)) 0 ∨
       name = "fletcher-reeves" ∧ cgBeta vdot m g g' d = max (vdot g' g' / max (vdot g g) (1 / 1000000)) 0 ∨
       name = "hestenes-stiefel" ∧ cgBeta vdot m g g' d = max (vdot (g' - g) g' / max (vdot (g' - g) d) (1 / 1000000)) 0) := by
  have relu_eq : ∀ a : K, Jaxopt.Proj.relu a = max a 0 := fun a => by simp [Jaxopt.Proj.relu]
  have clip_eq : ∀ a : K, clipEps a = max a (1 / 1000000) := fun a => by
    unfold clipEps cgEps
    split_ifs with hc
    · exact (max_eq_left hc).symm
    · exact (max_eq_right (not_le.mp hc).le).symm
  by_cases h1 : name = "polak-ribiere"
  · exact Or.inr ⟨.polakRibiere, by rw [CGMethod.ofString, if_pos h1], Or.inl ⟨h1, by simp only [cgBeta, relu_eq, clip_eq]⟩⟩
  by_cases h2 : name = "fletcher-reeves"
  · exact Or.inr ⟨.fletcherReeves, by rw [CGMethod.ofString, if_neg h1, if_pos h2],
      Or.inr (Or.inl ⟨h2, by simp only [cgBeta, relu_eq, clip_eq]⟩)⟩
  by_cases h3 : name = "hestenes-stiefel"
  · exact Or.inr ⟨.hestenesStiefel, by rw [CGMethod.ofString, if_neg h1, if_neg h2, if_pos h3],
      Or.inr (Or.inr ⟨h3, by simp only [cgBeta, relu_eq, clip_eq]⟩)⟩
  · exact Or.inl ⟨⟨_, by rw [CGMethod.ofString, if_neg h1, if_neg h2, if_neg h3]⟩, h1, h2, h3⟩

/-! ## Witnesses -/

/-- Non-vacuity for L-BFGS: a sound line search, and a run that stops after fewer than `maxiter` updates. -/
example : let S : Lbfgs ℚ (ℚ × ℚ) ℚ :=
      { Lbfgs.exS with stepsize := .const 1, runLs := fun s x v g d => ⟨s, x + s • d, Lbfgs.exS.f (x + s • d), Lbfgs.exS.grad (x + s • d), false⟩ }
    S.LsSound ∧ ((S.run (1, 1)).toOption.map fun r => (decide (r.2.iterNum < 10), decide (S.norm (S.grad r.1) ≤ S.tol))) = some (true, true) :=
  ⟨fun _ _ _ _ _ => ⟨rfl, rfl⟩, by decide +kernel⟩

/-- Non-vacuity for L-BFGS with `stop_if_linesearch_fails`: a line search that always fails stops the run after one update. -/
example : let S : Lbfgs ℚ (ℚ × ℚ) ℚ :=
      { Lbfgs.exS with stepsize := .const 0, stopIfLinesearchFails := true,
                       runLs := fun s x v g d => ⟨s, x, Lbfgs.exS.f x, Lbfgs.exS.grad x, true⟩ }
    S.LsSound ∧ ((S.run (1, 1)).toOption.map fun r => r.2.iterNum) = some 1 :=
  ⟨fun _ _ _ _ _ => ⟨rfl, rfl⟩, by decide +kernel⟩

/-- Non-vacuity for Broyden: `x² = 2` from `1` stops after fewer than `maxiter` updates. -/
example : let S : Broyden ℚ ℚ Unit := { Broyden.exHist 3 with runLs := fun s x v d => ⟨s, x + s • d, (Broyden.exHist 3).f (x + s • d), false⟩ }
    S.LsSound ∧ IsVdot S.ldot ∧ (∀ s x v d, (S.runLs s x v d).params = x + (S.runLs s x v d).stepsize • d) ∧
    ((S.run ⟨false, 1 / 1000, 10, false, true⟩ (fun _ => 1)).toOption.map fun r =>
      (decide (r.2.iterNum < 10), decide (S.norm (S.f r.1) ≤ 1 / 1000))) = some (true, true) :=
  ⟨fun _ _ _ _ => rfl, IsVdot.mul, fun _ _ _ _ => rfl, by decide +kernel⟩

/-- Non-vacuity for L-BFGS-B: the run on the box `[0, 1]` stops before `maxiter`. -/
example : let S : Lbfgsb ℚ (Ext ℚ) 1 1 :=
      { Lbfgsb.exFixed with runLs := fun s x v g d => ⟨s, x + s • d, Lbfgsb.exFixed.f (x + s • d), Lbfgsb.exFixed.grad (x + s • d), false⟩ }
    S.LsSound ∧ ((S.run ⟨false, 1 / 1000, 10, false, true⟩ (fun _ => .fin 0) (fun _ => .fin 1) ![1 / 2]).map fun r =>
      decide (r.2.iterNum < 10)) = some true :=
  ⟨fun _ _ _ _ _ => ⟨rfl, rfl⟩, by decide +kernel⟩

end Jaxopt.QuasiNewton
