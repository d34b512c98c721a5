import Verif.QP.BoxCDProps
import Mathlib.Algebra.Order.Archimedean.Basic
import Mathlib.Algebra.Order.Chebyshev
import Mathlib.Algebra.BigOperators.Field
import Mathlib.Tactic.Ring

/-!
# Property C94: box coordinate descent stops, is accurate when it stops, and converges linearly

For `BoxCDQP` (`Verif/QP/BoxCD.lean`) with a positive semidefinite `Q` whose diagonal is at least `q > 0`:

* `C94_sufficient_decrease`: an epoch from a feasible point decreases the objective by at least `q / (2 n)` times the square of the
  error it reports;
* `C94_certificate`: whatever the start, the point after an epoch with error `e` has an objective at most `M e Σ (u_i - l_i)` above
  that of any feasible point, where `M` bounds the entries of `Q`;
* `C94_terminates`: if `maxiter` exceeds an explicit bound the run stops by its tolerance, and then its result is within
  `M tol Σ (u_i - l_i)` of the optimum;
* `C94_epsilon`: for every `ε > 0` there are a tolerance and an iteration count such that every run with at least that count is
  `ε`-optimal;
* `C94_linear_rate`: if `Q` is positive definite the gap to the optimum shrinks by a constant factor per epoch.

`C94_diagonal_false` shows that the sign of the diagonal matters: with a zero diagonal entry the run stops at once at the worst point of
the box.
-/

set_option autoImplicit false
set_option linter.unusedSectionVars false
set_option linter.unusedVariables false

namespace Jaxopt.QP

open Jaxopt.Base Jaxopt.Proj

open scoped Matrix

variable {K : Type*} [Field K] [LinearOrder K] [IsStrictOrderedRing K] {n : ℕ}

/-! ## One epoch -/

theorem clip_vi {w l u y : K} (hl : l ≤ y) (hu : y ≤ u) : (y - clip w l u) * (w - clip w l u) ≤ 0 := by
  unfold clip
  rcases le_total w l with h | h
  · rw [max_eq_right h, min_eq_left (hl.trans hu)]
    exact mul_nonpos_of_nonneg_of_nonpos (by linarith) (by linarith)
  · rw [max_eq_left h]
    rcases le_total w u with h' | h'
    · rw [min_eq_left h']; simp
    · rw [min_eq_right h']
      exact mul_nonpos_of_nonpos_of_nonneg (by linarith) (by linarith)

section loop

variable (Q : Matrix (Fin n) (Fin n) K) (c l u : Fin n → K)

theorem epochOver_notMem (is : List (Fin n)) (t : (Fin n → K) × K) (j : Fin n) (hj : j ∉ is) :
    (epochOver Q c l u is t).1 j = t.1 j := by
  induction is generalizing t with
  | nil => rfl
  | cons i is ih =>
    have h1 := ih (boxBody Q c l u i t) (fun h => hj (List.mem_cons_of_mem _ h))
    have h4 : epochOver Q c l u (i :: is) t = epochOver Q c l u is (boxBody Q c l u i t) := rfl
    rw [h4, h1]
    simp only [boxBody]
    exact Function.update_of_ne (fun h => hj (by rw [h]; exact List.mem_cons_self)) _ _

theorem dot_update (x : Fin n → K) (i j : Fin n) (z : K) :
    Q i ⬝ᵥ Function.update x j z = Q i ⬝ᵥ x + Q i j * (z - x j) := by
  have e : Function.update x j z = x + Pi.single j (z - x j) := by
    ext k
    by_cases h : k = j
    · subst h; simp
    · simp [h]
  rw [e, dotProduct_add, dotProduct_single]

/-- How much a row product can move while the loop runs. -/
theorem epochOver_dot {M : K} (hM : ∀ i j, |Q i j| ≤ M) (is : List (Fin n)) (t : (Fin n → K) × K) (i : Fin n) :
    |Q i ⬝ᵥ (epochOver Q c l u is t).1 - Q i ⬝ᵥ t.1| ≤ M * ((epochOver Q c l u is t).2 - t.2) := by
  induction is generalizing t with
  | nil => simp [epochOver]
  | cons j is ih =>
    have h4 : epochOver Q c l u (j :: is) t = epochOver Q c l u is (boxBody Q c l u j t) := rfl
    have h1 := ih (boxBody Q c l u j t)
    have h2 : |Q i ⬝ᵥ (boxBody Q c l u j t).1 - Q i ⬝ᵥ t.1| ≤ M * ((boxBody Q c l u j t).2 - t.2) := by
      simp only [boxBody]
      rw [dot_update, add_sub_cancel_left, add_sub_cancel_left, abs_mul]
      exact mul_le_mul_of_nonneg_right (hM i j) (abs_nonneg _)
    rw [h4]
    have h3 := abs_sub_le (Q i ⬝ᵥ (epochOver Q c l u is (boxBody Q c l u j t)).1) (Q i ⬝ᵥ (boxBody Q c l u j t).1) (Q i ⬝ᵥ t.1)
    linarith

/-- After its own update a coordinate satisfies its first-order condition exactly. -/
theorem boxBody_vi (i : Fin n) (hi : 0 < Q i i) (t : (Fin n → K) × K) {y : K} (hl : l i ≤ y) (hu : y ≤ u i) :
    0 ≤ (y - (boxBody Q c l u i t).1 i) * (Q i ⬝ᵥ (boxBody Q c l u i t).1 + c i) := by
  simp only [boxBody]
  rw [dot_update, if_neg hi.ne']
  simp only [Function.update_self]
  have h := clip_vi (w := t.1 i - (Q i ⬝ᵥ t.1 + c i) / Q i i) hl hu
  set z := clip (t.1 i - (Q i ⬝ᵥ t.1 + c i) / Q i i) (l i) (u i)
  have e : (y - z) * (Q i ⬝ᵥ t.1 + Q i i * (z - t.1 i) + c i)
      = Q i i * (-((y - z) * (t.1 i - (Q i ⬝ᵥ t.1 + c i) / Q i i - z))) := by
    field_simp; ring
  rw [e]
  exact mul_nonneg hi.le (by linarith)

/-- At the end of the loop every visited coordinate satisfies its first-order condition up to what moved afterwards. -/
theorem epochOver_vi {M : K} (hM : ∀ i j, |Q i j| ≤ M) (hd : ∀ i, 0 < Q i i) (is : List (Fin n)) (hnd : is.Nodup)
    (t : (Fin n → K) × K) (i : Fin n) (hi : i ∈ is) {y : K} (hl : l i ≤ y) (hu : y ≤ u i) :
    -(M * ((epochOver Q c l u is t).2 - t.2) * |y - (epochOver Q c l u is t).1 i|)
      ≤ (y - (epochOver Q c l u is t).1 i) * (Q i ⬝ᵥ (epochOver Q c l u is t).1 + c i) := by
  have hM0 : 0 ≤ M := (abs_nonneg _).trans (hM i i)
  induction is generalizing t with
  | nil => cases hi
  | cons j is ih =>
    have h4 : epochOver Q c l u (j :: is) t = epochOver Q c l u is (boxBody Q c l u j t) := rfl
    rw [h4]
    have h2 : t.2 ≤ (boxBody Q c l u j t).2 := epochOver_error_le Q c l u [j] t
    rw [List.nodup_cons] at hnd
    set s := boxBody Q c l u j t with hs
    have hmono : M * ((epochOver Q c l u is s).2 - s.2) * |y - (epochOver Q c l u is s).1 i|
        ≤ M * ((epochOver Q c l u is s).2 - t.2) * |y - (epochOver Q c l u is s).1 i| :=
      mul_le_mul_of_nonneg_right (mul_le_mul_of_nonneg_left (by linarith) hM0) (abs_nonneg _)
    rcases List.mem_cons.mp hi with h | h
    · subst h
      have h5 := epochOver_notMem Q c l u is s i hnd.1
      have h6 := boxBody_vi Q c l u i (hd i) t hl hu
      rw [← hs] at h6
      have h7 := epochOver_dot Q c l u hM is s i
      rw [h5] at hmono ⊢
      have h8 : (y - s.1 i) * (Q i ⬝ᵥ (epochOver Q c l u is s).1 + c i)
          = (y - s.1 i) * (Q i ⬝ᵥ s.1 + c i) + (y - s.1 i) * (Q i ⬝ᵥ (epochOver Q c l u is s).1 - Q i ⬝ᵥ s.1) := by ring
      have h9 := neg_abs_le ((y - s.1 i) * (Q i ⬝ᵥ (epochOver Q c l u is s).1 - Q i ⬝ᵥ s.1))
      rw [abs_mul] at h9
      have h10 := mul_le_mul_of_nonneg_left h7 (abs_nonneg (y - s.1 i))
      rw [h8]; linarith
    · have := ih hnd.2 s h
      linarith

/-- The decrease of the objective in terms of what moved. -/
theorem epochOver_decrease (hQ : IsPSD Q) (hlu : ∀ i, l i ≤ u i) {q : K} (hq : ∀ i, q ≤ Q i i) (is : List (Fin n))
    (hnd : is.Nodup) (t : (Fin n → K) × K) (hx : InBox l u t.1) :
    qpObj Q c (epochOver Q c l u is t).1
        + q / 2 * (is.map fun i => ((epochOver Q c l u is t).1 i - t.1 i) ^ 2).sum ≤ qpObj Q c t.1 ∧
      (epochOver Q c l u is t).2 = t.2 + (is.map fun i => |(epochOver Q c l u is t).1 i - t.1 i|).sum := by
  induction is generalizing t with
  | nil => simp [epochOver]
  | cons j is ih =>
    have h4 : epochOver Q c l u (j :: is) t = epochOver Q c l u is (boxBody Q c l u j t) := rfl
    rw [h4]
    rw [List.nodup_cons] at hnd
    have h1 := boxBody_obj Q c l u hQ j t hx
    have hbox : InBox l u (boxBody Q c l u j t).1 := fun i => epochOver_keep Q c l u hlu [j] t i (hx i)
    have herr : (boxBody Q c l u j t).2 = t.2 + |(boxBody Q c l u j t).1 j - t.1 j| := by
      simp only [boxBody, Function.update_self]
    have hkeep : ∀ i, i ≠ j → (boxBody Q c l u j t).1 i = t.1 i := fun i hi => by
      simp only [boxBody]; exact Function.update_of_ne hi _ _
    set s := boxBody Q c l u j t with hs
    obtain ⟨i1, i2⟩ := ih hnd.2 s hbox
    have h5 := epochOver_notMem Q c l u is s j hnd.1
    have e1 : (is.map fun i => ((epochOver Q c l u is s).1 i - s.1 i) ^ 2)
        = is.map fun i => ((epochOver Q c l u is s).1 i - t.1 i) ^ 2 :=
      List.map_congr_left fun i hi => by rw [hkeep i (fun h => hnd.1 (h ▸ hi))]
    have e2 : (is.map fun i => |(epochOver Q c l u is s).1 i - s.1 i|)
        = is.map fun i => |(epochOver Q c l u is s).1 i - t.1 i| :=
      List.map_congr_left fun i hi => by rw [hkeep i (fun h => hnd.1 (h ▸ hi))]
    rw [e1] at i1
    rw [e2] at i2
    simp only [List.map_cons, List.sum_cons]
    rw [h5]
    refine ⟨?_, by rw [i2, herr]; ring⟩
    have h6 : q * (s.1 j - t.1 j) ^ 2 ≤ Q j j * (s.1 j - t.1 j) ^ 2 := mul_le_mul_of_nonneg_right (hq j) (sq_nonneg _)
    linarith

end loop

theorem finRange_sum (f : Fin n → K) : ((List.finRange n).map f).sum = ∑ i, f i := by
  rw [← List.ofFn_eq_map, List.sum_ofFn]

/-! ## The solver -/

namespace BoxCDQP

/-- The error of the epoch that starts at `x`, lines 117-128. -/
def epochError (S : BoxCDQP K n) (x : Fin n → K) : K := (epochOver S.Q S.c S.l S.u (List.finRange n) (x, 0)).2

theorem update_error (S : BoxCDQP K n) (p : (Fin n → K) × BoxCDQPState K) : (S.update p).2.error = .fin (S.epochError p.1) := rfl

theorem epochError_nonneg (S : BoxCDQP K n) (x : Fin n → K) : 0 ≤ S.epochError x :=
  epochOver_error_le S.Q S.c S.l S.u (List.finRange n) (x, 0)

/-- **C94**, decrease: an epoch from a feasible point decreases the objective by at least `q / (2 n)` times the square of the error it
reports. -/
theorem C94_sufficient_decrease (S : BoxCDQP K n) (hQ : IsPSD S.Q) {q : K} (hq0 : 0 < q) (hq : ∀ i, q ≤ S.Q i i)
    (p : (Fin n → K) × BoxCDQPState K) (hx : InBox S.l S.u p.1) {e : K} (he : (S.update p).2.error = .fin e) :
    q * e ^ 2 ≤ 2 * n * (qpObj S.Q S.c p.1 - qpObj S.Q S.c (S.update p).1) := by
  rw [update_error] at he
  obtain rfl : S.epochError p.1 = e := by simpa using he
  have hlu : ∀ i, S.l i ≤ S.u i := fun i => (hx i).1.trans (hx i).2
  obtain ⟨h1, h2⟩ := epochOver_decrease S.Q S.c S.l S.u hQ hlu hq (List.finRange n) (List.nodup_finRange n) (p.1, 0) hx
  rw [finRange_sum] at h1 h2
  rw [zero_add] at h2
  have e1 : (S.update p).1 = (epochOver S.Q S.c S.l S.u (List.finRange n) (p.1, 0)).1 := rfl
  have e2 : S.epochError p.1 = (epochOver S.Q S.c S.l S.u (List.finRange n) (p.1, 0)).2 := rfl
  rw [e1, e2, h2]
  set z := (epochOver S.Q S.c S.l S.u (List.finRange n) (p.1, 0)).1
  have h3 := sq_sum_le_card_mul_sum_sq (s := Finset.univ) (f := fun i : Fin n => |z i - p.1 i|)
  simp only [sq_abs, Finset.card_univ, Fintype.card_fin] at h3
  have h4 := mul_le_mul_of_nonneg_left h3 hq0.le
  have h5 : (n : K) * (q / 2 * ∑ i, (z i - p.1 i) ^ 2) ≤ n * (qpObj S.Q S.c p.1 - qpObj S.Q S.c z) :=
    mul_le_mul_of_nonneg_left (by simp only at h1; linarith) (Nat.cast_nonneg n)
  linarith

/-- The first-order condition after an epoch, up to the error of the epoch. -/
theorem update_vi (S : BoxCDQP K n) {M : K} (hM : ∀ i j, |S.Q i j| ≤ M) (hd : ∀ i, 0 < S.Q i i)
    (p : (Fin n → K) × BoxCDQPState K) (i : Fin n) {y : K} (hl : S.l i ≤ y) (hu : y ≤ S.u i) :
    -(M * S.epochError p.1 * |y - (S.update p).1 i|) ≤ (y - (S.update p).1 i) * (S.Q i ⬝ᵥ (S.update p).1 + S.c i) := by
  have := epochOver_vi S.Q S.c S.l S.u hM hd (List.finRange n) (List.nodup_finRange n) (p.1, 0) i (List.mem_finRange i) hl hu
  simp only [sub_zero] at this
  exact this

/-- The gap after an epoch in terms of the distance to the comparison point. -/
theorem gap_le (S : BoxCDQP K n) (hQ : IsPSD S.Q) {M : K} (hM : ∀ i j, |S.Q i j| ≤ M) (hd : ∀ i, 0 < S.Q i i)
    (p : (Fin n → K) × BoxCDQPState K) (y : Fin n → K) (hy : InBox S.l S.u y) :
    qpObj S.Q S.c (S.update p).1 - qpObj S.Q S.c y ≤ M * S.epochError p.1 * ∑ i, |y i - (S.update p).1 i| := by
  set x := (S.update p).1 with hx
  have e : y = x + (y - x) := by abel
  have h0 := qpObj_add hQ.1 S.c x (y - x)
  rw [← e] at h0
  have h2 := hQ.2 (y - x)
  have h1 : -(M * S.epochError p.1 * ∑ i, |y i - x i|) ≤ ∑ i, (y - x) i * (S.Q i ⬝ᵥ x + S.c i) := by
    rw [Finset.mul_sum, ← Finset.sum_neg_distrib]
    exact Finset.sum_le_sum fun i _ => S.update_vi hM hd p i (hy i).1 (hy i).2
  rw [h0]; linarith

/-- **C94**, certificate: the error of an epoch bounds the suboptimality of the point it returns, whatever the start. -/
theorem C94_certificate (S : BoxCDQP K n) (hQ : IsPSD S.Q) {M : K} (hM : ∀ i j, |S.Q i j| ≤ M) (hd : ∀ i, 0 < S.Q i i)
    (hlu : ∀ i, S.l i ≤ S.u i) (p : (Fin n → K) × BoxCDQPState K) {e : K} (he : (S.update p).2.error = .fin e)
    (y : Fin n → K) (hy : InBox S.l S.u y) :
    qpObj S.Q S.c (S.update p).1 - qpObj S.Q S.c y ≤ M * e * ∑ i, (S.u i - S.l i) := by
  rw [update_error] at he
  obtain rfl : S.epochError p.1 = e := by simpa using he
  refine (S.gap_le hQ hM hd p y hy).trans ?_
  have hx := S.C36_feasible hlu p
  have h1 : ∑ i, |y i - (S.update p).1 i| ≤ ∑ i, (S.u i - S.l i) := by
    refine Finset.sum_le_sum fun i _ => abs_le.mpr ⟨?_, ?_⟩
    · have := (hx i).2; have := (hy i).1; linarith
    · have := (hx i).1; have := (hy i).2; linarith
  by_cases hn : n = 0
  · subst hn; simp
  · have i0 : Fin n := ⟨0, Nat.pos_of_ne_zero hn⟩
    exact mul_le_mul_of_nonneg_left h1 (mul_nonneg ((abs_nonneg _).trans (hM i0 i0)) (S.epochError_nonneg _))

/-- The iterates are feasible from the first epoch on. -/
theorem iter_feasible (S : BoxCDQP K n) (hlu : ∀ i, S.l i ≤ S.u i) (x0 : Fin n → K) (k : ℕ) :
    InBox S.l S.u (S.update^[k + 1] (x0, S.initState x0)).1 := by
  rw [Function.iterate_succ_apply']
  exact S.C36_feasible hlu _

/-- Every epoch after the first that reports an error above the tolerance uses up part of the range of the objective. -/
theorem iter_budget (S : BoxCDQP K n) (hQ : IsPSD S.Q) {q : K} (hq0 : 0 < q) (hq : ∀ i, q ≤ S.Q i i) (hlu : ∀ i, S.l i ≤ S.u i)
    (htol : 0 ≤ S.tol) (x0 : Fin n → K) (k : ℕ)
    (h : ∀ j, 1 ≤ j → j ≤ k + 1 → S.cont (S.update^[j] (x0, S.initState x0)) = true) :
    k * (q * S.tol ^ 2) ≤ 2 * n * (qpObj S.Q S.c (S.update^[1] (x0, S.initState x0)).1
      - qpObj S.Q S.c (S.update^[k + 1] (x0, S.initState x0)).1) := by
  induction k with
  | zero => simp
  | succ k ih =>
    have h1 := ih (fun j hj hj' => h j hj (by omega))
    have h2 := h (k + 2) (by omega) (by omega)
    have e : S.update^[k + 2] (x0, S.initState x0) = S.update (S.update^[k + 1] (x0, S.initState x0)) :=
      Function.iterate_succ_apply' _ _ _
    have h3 : S.tol < S.epochError (S.update^[k + 1] (x0, S.initState x0)).1 := by
      rw [e] at h2
      unfold cont at h2
      rw [update_error] at h2
      exact of_decide_eq_true h2
    have h4 := S.C94_sufficient_decrease hQ hq0 hq _ (S.iter_feasible hlu x0 k) (S.update_error _)
    have h5 : q * S.tol ^ 2 ≤ q * S.epochError (S.update^[k + 1] (x0, S.initState x0)).1 ^ 2 :=
      mul_le_mul_of_nonneg_left (pow_le_pow_left₀ htol h3.le 2) hq0.le
    rw [e]
    push_cast
    linarith

/-- **C94**, termination: if `maxiter` exceeds `1 + 2 n D / (q tol²)`, where `D` bounds the variation of the objective over the box, a run
from any start stops by its tolerance, and its result is within `M tol Σ (u_i - l_i)` of the optimum. -/
theorem C94_terminates (S : BoxCDQP K n) (hQ : IsPSD S.Q) {q M D : K} (hq0 : 0 < q) (hq : ∀ i, q ≤ S.Q i i)
    (hM : ∀ i j, |S.Q i j| ≤ M) (hlu : ∀ i, S.l i ≤ S.u i) (htol : 0 < S.tol)
    (hD : ∀ x y, InBox S.l S.u x → InBox S.l S.u y → qpObj S.Q S.c x - qpObj S.Q S.c y ≤ D)
    (hm : 1 ≤ S.maxiter) (hN : 2 * n * D < (S.maxiter - 1 : K) * (q * S.tol ^ 2)) (x0 : Fin n → K)
    {r : (Fin n → K) × BoxCDQPState K} (h : S.run x0 = .ok r) :
    (∃ e, r.2.error = .fin e ∧ e ≤ S.tol) ∧ InBox S.l S.u r.1 ∧
      ∀ y, InBox S.l S.u y → qpObj S.Q S.c r.1 - qpObj S.Q S.c y ≤ M * S.tol * ∑ i, (S.u i - S.l i) := by
  obtain ⟨k, hk1, hk2, hk, hrun, hend⟩ := runS_spec hm h
  have hstop : S.cont (S.update^[k] (x0, S.initState x0)) = false := by
    rcases hend with hend | hend
    · by_contra hne
      rw [Bool.not_eq_false] at hne
      obtain ⟨j, rfl⟩ : ∃ j, k = j + 1 := ⟨k - 1, by omega⟩
      have h1 := S.iter_budget hQ hq0 hq hlu htol.le x0 j (fun i hi hi' => by
        rcases Nat.lt_or_ge i (j + 1) with hlt | hge
        · exact hrun i hi hlt
        · have : i = j + 1 := by omega
          rw [this]; exact hne)
      have h2 := hD _ _ (S.iter_feasible hlu x0 0) (S.iter_feasible hlu x0 j)
      rw [← hend] at hN
      push_cast at hN
      have h3 := mul_le_mul_of_nonneg_left h2 (by positivity : (0 : K) ≤ 2 * n)
      simp only [zero_add] at h3
      have e : ((j : K) + 1 - 1) = j := by ring
      rw [e] at hN
      linarith
    · exact hend
  obtain ⟨j, rfl⟩ : ∃ j, k = j + 1 := ⟨k - 1, by omega⟩
  rw [Function.iterate_succ_apply'] at hstop hk
  have herr : S.epochError (S.update^[j] (x0, S.initState x0)).1 ≤ S.tol := by
    unfold cont at hstop
    rw [update_error] at hstop
    exact not_lt.mp (of_decide_eq_false hstop)
  rw [hk]
  refine ⟨⟨_, S.update_error _, herr⟩, S.C36_feasible hlu _, fun y hy => ?_⟩
  refine (S.C94_certificate hQ hM (fun i => hq0.trans_le (hq i)) hlu _ (S.update_error _) y hy).trans ?_
  have hw : 0 ≤ ∑ i, (S.u i - S.l i) := Finset.sum_nonneg fun i _ => sub_nonneg.mpr (hlu i)
  by_cases hn : n = 0
  · subst hn; simp
  · have i0 : Fin n := ⟨0, Nat.pos_of_ne_zero hn⟩
    exact mul_le_mul_of_nonneg_right (mul_le_mul_of_nonneg_left herr ((abs_nonneg _).trans (hM i0 i0))) hw

/-- The objective varies by a bounded amount over a box. -/
theorem variation_bounded (S : BoxCDQP K n) : ∃ D : K, ∀ x y, InBox S.l S.u x → InBox S.l S.u y →
    qpObj S.Q S.c x - qpObj S.Q S.c y ≤ D := by
  have hb : ∃ B : K, ∀ x, InBox S.l S.u x → |qpObj S.Q S.c x| ≤ B := by
    refine ⟨1 / 2 * (∑ i, ∑ j, (|S.l i| + |S.u i|) * (|S.Q i j| * (|S.l j| + |S.u j|))) + ∑ i, |S.c i| * (|S.l i| + |S.u i|), ?_⟩
    intro x hx
    have hxi : ∀ i, |x i| ≤ |S.l i| + |S.u i| := by
      intro i
      have h1 := neg_abs_le (S.l i)
      have h2 := le_abs_self (S.u i)
      have h3 := abs_nonneg (S.l i)
      have h4 := abs_nonneg (S.u i)
      exact abs_le.mpr ⟨by linarith [(hx i).1], by linarith [(hx i).2]⟩
    unfold qpObj
    refine (abs_add_le _ _).trans (add_le_add ?_ ?_)
    · rw [abs_mul, abs_of_nonneg (by norm_num : (0 : K) ≤ 1 / 2)]
      refine mul_le_mul_of_nonneg_left ?_ (by norm_num)
      refine (Finset.abs_sum_le_sum_abs _ _).trans (Finset.sum_le_sum fun i _ => ?_)
      have e : ∑ j, x i * S.Q i j * x j = x i * ∑ j, S.Q i j * x j := by
        rw [Finset.mul_sum]; exact Finset.sum_congr rfl fun j _ => by ring
      rw [e, abs_mul, ← Finset.mul_sum]
      refine mul_le_mul (hxi i) ?_ (abs_nonneg _) (by positivity)
      refine (Finset.abs_sum_le_sum_abs _ _).trans (Finset.sum_le_sum fun j _ => ?_)
      rw [abs_mul]
      exact mul_le_mul_of_nonneg_left (hxi j) (abs_nonneg _)
    · refine (Finset.abs_sum_le_sum_abs _ _).trans (Finset.sum_le_sum fun i _ => ?_)
      rw [abs_mul]
      exact mul_le_mul_of_nonneg_left (hxi i) (abs_nonneg _)
  obtain ⟨B, hB⟩ := hb
  refine ⟨2 * B, fun x y hx hy => ?_⟩
  have h1 := (abs_le.mp (hB x hx)).2
  have h2 := (abs_le.mp (hB y hy)).1
  linarith

/-- **C94**, accuracy on demand: for every `ε > 0` there are a tolerance and an iteration count such that every run with that tolerance
and at least that many iterations, from any start and with either loop backend, returns an `ε`-optimal feasible point. -/
theorem C94_epsilon [Archimedean K] (S : BoxCDQP K n) (hQ : IsPSD S.Q) (hd : ∀ i, 0 < S.Q i i) (hlu : ∀ i, S.l i ≤ S.u i)
    {ε : K} (hε : 0 < ε) :
    ∃ tol > 0, ∃ N : ℕ, ∀ m, N ≤ m → ∀ unroll jit x0 r,
      BoxCDQP.run { S with tol := tol, maxiter := m, unroll := unroll, jit := jit } x0 = .ok r →
        InBox S.l S.u r.1 ∧ ∀ y, InBox S.l S.u y → qpObj S.Q S.c r.1 ≤ qpObj S.Q S.c y + ε := by
  obtain ⟨q, hq0, hq⟩ : ∃ q > 0, ∀ i, q ≤ S.Q i i := by
    by_cases hn : n = 0
    · subst hn; exact ⟨1, one_pos, fun i => i.elim0⟩
    · have i0 : Fin n := ⟨0, Nat.pos_of_ne_zero hn⟩
      obtain ⟨i, -, hi⟩ := Finset.exists_min_image Finset.univ (fun i => S.Q i i) ⟨i0, Finset.mem_univ _⟩
      exact ⟨S.Q i i, hd i, fun j => hi j (Finset.mem_univ j)⟩
  obtain ⟨D, hD⟩ := S.variation_bounded
  set M : K := ∑ i, ∑ j, |S.Q i j| with hMdef
  have hM : ∀ i j, |S.Q i j| ≤ M := fun i j =>
    (Finset.single_le_sum (f := fun j => |S.Q i j|) (fun _ _ => abs_nonneg _) (Finset.mem_univ j)).trans
      (Finset.single_le_sum (f := fun i => ∑ j, |S.Q i j|) (fun _ _ => Finset.sum_nonneg fun _ _ => abs_nonneg _) (Finset.mem_univ i))
  have hM0 : 0 ≤ M := Finset.sum_nonneg fun _ _ => Finset.sum_nonneg fun _ _ => abs_nonneg _
  set W : K := ∑ i, (S.u i - S.l i) with hW
  have hW0 : 0 ≤ W := Finset.sum_nonneg fun i _ => sub_nonneg.mpr (hlu i)
  have hden : 0 < M * W + 1 := by positivity
  set tol : K := ε / (M * W + 1) with htol
  have htol0 : 0 < tol := div_pos hε hden
  obtain ⟨N, hN⟩ := exists_nat_gt (2 * n * D / (q * tol ^ 2))
  refine ⟨tol, htol0, N + 1, fun m hm unroll jit x0 r h => ?_⟩
  have hb : 2 * (n : K) * D < ((m : K) - 1) * (q * tol ^ 2) := by
    have hp : 0 < q * tol ^ 2 := by positivity
    rw [div_lt_iff₀ hp] at hN
    have h1 : (N : K) + 1 ≤ m := by exact_mod_cast hm
    have h2 : (N : K) * (q * tol ^ 2) ≤ ((m : K) - 1) * (q * tol ^ 2) := mul_le_mul_of_nonneg_right (by linarith) hp.le
    linarith
  obtain ⟨-, h2, h3⟩ := C94_terminates { S with tol := tol, maxiter := m, unroll := unroll, jit := jit } hQ hq0 hq hM hlu htol0 hD
    (by simp only; omega) hb x0 h
  refine ⟨h2, fun y hy => ?_⟩
  have h4 := h3 y hy
  have h5 : M * tol * W ≤ ε := by
    have e : M * tol * W = ε * (M * W / (M * W + 1)) := by rw [htol]; field_simp
    rw [e]
    have : M * W / (M * W + 1) ≤ 1 := by rw [div_le_one hden]; linarith
    nlinarith
  have h6 : qpObj S.Q S.c r.1 - qpObj S.Q S.c y ≤ M * tol * W := h4
  linarith

/-- **C94**, linear rate: if the quadratic form of `Q` is at least `μ` times the squared length, the gap to the optimum is multiplied by at
most `C / (1 + C)` per epoch, with `C = 4 n² M² / (μ q)`. -/
theorem C94_linear_rate (S : BoxCDQP K n) (hQ : IsPSD S.Q) {q M μ : K} (hq0 : 0 < q) (hq : ∀ i, q ≤ S.Q i i)
    (hM : ∀ i j, |S.Q i j| ≤ M) (hμ0 : 0 < μ) (hμ : ∀ d : Fin n → K, μ * ∑ i, d i ^ 2 ≤ ∑ i, ∑ j, d i * S.Q i j * d j)
    (xs : Fin n → K) (hxs : S.Optimal xs) (x0 : Fin n → K) (hx0 : InBox S.l S.u x0) (k : ℕ) :
    qpObj S.Q S.c (S.update^[k] (x0, S.initState x0)).1 - qpObj S.Q S.c xs
      ≤ (4 * n ^ 2 * M ^ 2 / (μ * q) / (1 + 4 * n ^ 2 * M ^ 2 / (μ * q))) ^ k * (qpObj S.Q S.c x0 - qpObj S.Q S.c xs) := by
  have hlu : ∀ i, S.l i ≤ S.u i := fun i => (hx0 i).1.trans (hx0 i).2
  set C : K := 4 * n ^ 2 * M ^ 2 / (μ * q) with hC
  have hC0 : 0 ≤ C := by positivity
  have step : ∀ p : (Fin n → K) × BoxCDQPState K, InBox S.l S.u p.1 →
      qpObj S.Q S.c (S.update p).1 - qpObj S.Q S.c xs ≤ C / (1 + C) * (qpObj S.Q S.c p.1 - qpObj S.Q S.c xs) := by
    intro p hp
    set x := (S.update p).1 with hx
    set e := S.epochError p.1 with he
    have hxb : InBox S.l S.u x := S.C36_feasible hlu p
    have hdec := S.C94_sufficient_decrease hQ hq0 hq p hp (S.update_error p)
    rw [← he, ← hx] at hdec
    have hgap := S.gap_le hQ hM (fun i => hq0.trans_le (hq i)) p xs hxs.1
    rw [← he, ← hx] at hgap
    -- strong convexity at the optimum
    have hvi : ∀ i, 0 ≤ (x i - xs i) * (S.Q i ⬝ᵥ xs + S.c i) := by
      intro i
      have h1 := (S.C36_optimality_fun hQ hlu xs).mpr hxs
      have h2 : clip (xs i - (S.Q i ⬝ᵥ xs + S.c i)) (S.l i) (S.u i) = xs i := by
        have := congrFun h1 i
        unfold optimalityFun fixedPointFun at this
        exact sub_eq_zero.mp this
      exact clip_fixed_vi h2 (hlu i) (hxb i).1 (hxb i).2
    have hsc : μ / 2 * ∑ i, (x i - xs i) ^ 2 ≤ qpObj S.Q S.c x - qpObj S.Q S.c xs := by
      have e1 : x = xs + (x - xs) := by abel
      have h0 := qpObj_add hQ.1 S.c xs (x - xs)
      rw [← e1] at h0
      have h1 : 0 ≤ ∑ i, (x - xs) i * (S.Q i ⬝ᵥ xs + S.c i) := Finset.sum_nonneg fun i _ => hvi i
      have h2 := hμ (x - xs)
      simp only [Pi.sub_apply] at h2
      rw [h0]
      simp only [Pi.sub_apply] at h1 ⊢
      linarith
    set g := qpObj S.Q S.c x - qpObj S.Q S.c xs with hg
    set g0 := qpObj S.Q S.c p.1 - qpObj S.Q S.c xs with hg0
    have hg_nn : 0 ≤ g := sub_nonneg.mpr (hxs.2 x hxb)
    have hcs : (∑ i, |xs i - x i|) ^ 2 ≤ n * ∑ i, (x i - xs i) ^ 2 := by
      have h3 := sq_sum_le_card_mul_sum_sq (s := Finset.univ) (f := fun i : Fin n => |xs i - x i|)
      simp only [sq_abs, Finset.card_univ, Fintype.card_fin] at h3
      have e1 : ∑ i, (xs i - x i) ^ 2 = ∑ i, (x i - xs i) ^ 2 := Finset.sum_congr rfl fun i _ => by ring
      rwa [e1] at h3
    have hdec' : q * e ^ 2 ≤ 2 * n * (g0 - g) := by
      have e1 : g0 - g = qpObj S.Q S.c p.1 - qpObj S.Q S.c x := by rw [hg, hg0]; ring
      rw [e1]; exact hdec
    have key : g ≤ C * (g0 - g) := by
      rcases eq_or_lt_of_le hg_nn with h0 | hpos
      · rw [← h0]
        have hg0' : 0 ≤ g0 := sub_nonneg.mpr (hxs.2 _ hp)
        have : 0 ≤ C * (g0 - 0) := mul_nonneg hC0 (by linarith)
        exact this
      · -- g² ≤ M² e² n (2/μ) g
        have h1 : g ^ 2 ≤ (M * e * ∑ i, |xs i - x i|) ^ 2 := pow_le_pow_left₀ hg_nn hgap 2
        have h2 : (M * e * ∑ i, |xs i - x i|) ^ 2 ≤ (M * e) ^ 2 * (n * ∑ i, (x i - xs i) ^ 2) := by
          rw [mul_pow]; exact mul_le_mul_of_nonneg_left hcs (sq_nonneg _)
        have h3 : μ * g ^ 2 ≤ (M * e) ^ 2 * (2 * n * g) := by
          have h4 : (M * e) ^ 2 * n * (μ / 2 * ∑ i, (x i - xs i) ^ 2) ≤ (M * e) ^ 2 * n * g :=
            mul_le_mul_of_nonneg_left hsc (by positivity)
          have h5 := mul_le_mul_of_nonneg_left (h1.trans h2) hμ0.le
          linarith
        have h6 : μ * g ≤ 2 * n * (M * e) ^ 2 := by
          have : (μ * g) * g ≤ (2 * n * (M * e) ^ 2) * g := by linarith
          exact le_of_mul_le_mul_right this hpos
        have h7 : μ * q * g ≤ 4 * n ^ 2 * M ^ 2 * (g0 - g) := by
          have h8 := mul_le_mul_of_nonneg_left hdec' (by positivity : 0 ≤ 2 * n * M ^ 2)
          have h9 := mul_le_mul_of_nonneg_left h6 hq0.le
          linarith
        rw [hC, div_mul_eq_mul_div, le_div_iff₀ (mul_pos hμ0 hq0)]
        linarith
    rw [div_mul_eq_mul_div, le_div_iff₀ (by linarith)]
    linarith
  have inv : ∀ k, InBox S.l S.u (S.update^[k] (x0, S.initState x0)).1 := by
    intro k
    cases k with
    | zero => exact hx0
    | succ k => exact S.iter_feasible hlu x0 k
  induction k with
  | zero => simp
  | succ k ih =>
    rw [Function.iterate_succ_apply']
    refine (step _ (inv k)).trans ?_
    rw [pow_succ']
    rw [mul_assoc]
    exact mul_le_mul_of_nonneg_left ih (by positivity)

end BoxCDQP

/-! ## Witnesses -/

/-- **C94**, the diagonal: with a zero diagonal entry the claims fail.  `min x` over `[0, 1]` started at `1` stops after one epoch with error
`0`, for every tolerance and every iteration limit, at the worst point of the box. -/
theorem C94_diagonal_false (tol : ℚ) (htol : 0 ≤ tol) (m : ℕ) (hm : 1 ≤ m) (unroll jit : Bool) {r : (Fin 1 → ℚ) × BoxCDQPState ℚ}
    (h : BoxCDQP.run { exBoxLin with tol := tol, maxiter := m, unroll := unroll, jit := jit } (fun _ => 1) = .ok r) :
    r.1 = (fun _ => 1) ∧ r.2.error = .fin 0 ∧ InBox exBoxLin.l exBoxLin.u (fun _ => 0) ∧
      qpObj exBoxLin.Q exBoxLin.c (fun _ => 0) + 1 = qpObj exBoxLin.Q exBoxLin.c r.1 := by
  set S : BoxCDQP ℚ 1 := { exBoxLin with tol := tol, maxiter := m, unroll := unroll, jit := jit } with hS
  obtain ⟨k, hk1, -, hk, -⟩ := runS_spec (by exact hm) h
  have step : ∀ s : BoxCDQPState ℚ, S.update ((fun _ => 1), s) = ((fun _ => 1), ⟨s.iterNum + 1, .fin 0⟩) := by
    intro s
    have e : epochOver exBoxLin.Q exBoxLin.c exBoxLin.l exBoxLin.u (List.finRange 1) ((fun _ => 1), 0) = ((fun _ => 1), 0) := by
      decide +kernel
    have e' : epochOver S.Q S.c S.l S.u (List.finRange 1) ((fun _ => 1), 0) = ((fun _ => 1), 0) := e
    rw [BoxCDQP.update_eq]
    simp only [e']
  have inv : ∀ k, (S.update^[k + 1] ((fun _ => 1), S.initState (fun _ => 1))).1 = (fun _ => 1) ∧
      (S.update^[k + 1] ((fun _ => 1), S.initState (fun _ => 1))).2.error = .fin 0 := by
    intro k
    induction k with
    | zero =>
      rw [zero_add, Function.iterate_one, step]; exact ⟨rfl, rfl⟩
    | succ k ih =>
      rw [Function.iterate_succ_apply']
      have e : S.update^[k + 1] ((fun _ => 1), S.initState (fun _ => 1))
          = ((fun _ => 1), (S.update^[k + 1] ((fun _ => 1), S.initState (fun _ => 1))).2) := Prod.ext ih.1 rfl
      rw [e, step]; exact ⟨rfl, rfl⟩
  obtain ⟨j, rfl⟩ : ∃ j, k = j + 1 := ⟨k - 1, by omega⟩
  rw [hk]
  refine ⟨(inv j).1, (inv j).2, fun i => by simp [exBoxLin], ?_⟩
  rw [(inv j).1]
  decide +kernel

/-- `min x² + xy + y² - 2x - 3y` over the unit square. -/
def exBoxConv : BoxCDQP ℚ 2 := ⟨!![2, 1; 1, 2], ![-2, -3], fun _ => 0, fun _ => 1, 1 / 10, 2000, true, true⟩

theorem exBoxConv_psd : IsPSD exBoxConv.Q := by
  refine ⟨fun i j => by fin_cases i <;> fin_cases j <;> rfl, fun v => ?_⟩
  simp only [exBoxConv, Fin.sum_univ_two, Matrix.of_apply, Matrix.cons_val', Matrix.cons_val_zero, Matrix.cons_val_one,
    Matrix.cons_val_fin_one]
  nlinarith [sq_nonneg (v 0 + v 1), sq_nonneg (v 0), sq_nonneg (v 1)]

example : (exBoxConv.update ((fun _ => 0), exBoxConv.initState fun _ => 0)).2.error = .fin 2 ∧
    2 * (2 : ℚ) ^ 2 ≤ 2 * 2 * (qpObj exBoxConv.Q exBoxConv.c (fun _ => 0)
      - qpObj exBoxConv.Q exBoxConv.c (exBoxConv.update ((fun _ => 0), exBoxConv.initState fun _ => 0)).1) := by
  refine ⟨by decide +kernel, ?_⟩
  have := exBoxConv.C94_sufficient_decrease exBoxConv_psd (q := 2) (by norm_num) (by decide +kernel)
    ((fun _ => 0), exBoxConv.initState fun _ => 0) (fun i => by simp [exBoxConv]) (e := 2) (by decide +kernel)
  exact this

example : ∃ r, exBoxConv.run (fun _ => 0) = .ok r ∧ (∃ e, r.2.error = .fin e ∧ e ≤ 1 / 10) ∧
    ∀ y, InBox exBoxConv.l exBoxConv.u y → qpObj exBoxConv.Q exBoxConv.c r.1 - qpObj exBoxConv.Q exBoxConv.c y ≤ 2 / 5 := by
  obtain ⟨r, hr⟩ := runS_ok exBoxConv.initState exBoxConv.update exBoxConv.cont (maxiter := 2000) (unroll := true) (jit := true)
    (fun _ => 0) (by norm_num) (Or.inr rfl)
  have hr' : exBoxConv.run (fun _ => 0) = .ok r := hr
  obtain ⟨h1, -, h3⟩ := exBoxConv.C94_terminates exBoxConv_psd (q := 2) (M := 2) (D := 8) (by norm_num) (by decide +kernel)
    (by decide +kernel) (fun i => by simp [exBoxConv]) (by norm_num [exBoxConv]) (fun x y hx hy => by
      have a0 := hx 0; have a1 := hx 1; have b0 := hy 0; have b1 := hy 1
      simp only [exBoxConv] at a0 a1 b0 b1
      simp only [qpObj, exBoxConv, Fin.sum_univ_two, Matrix.of_apply, Matrix.cons_val', Matrix.cons_val_zero, Matrix.cons_val_one,
        Matrix.cons_val_fin_one]
      nlinarith [mul_nonneg b0.1 b1.1, mul_nonneg (sub_nonneg.mpr a0.2) a1.1, mul_nonneg (sub_nonneg.mpr a0.2) a0.1,
        mul_nonneg (sub_nonneg.mpr a1.2) a1.1, sq_nonneg (y 0), sq_nonneg (y 1)])
    (by norm_num [exBoxConv]) (by norm_num [exBoxConv]) (fun _ => 0) hr'
  refine ⟨r, hr', h1, fun y hy => (h3 y hy).trans ?_⟩
  norm_num [exBoxConv, Fin.sum_univ_two]

end Jaxopt.QP
