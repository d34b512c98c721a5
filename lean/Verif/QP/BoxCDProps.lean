import Verif.QP.BoxCD
import Verif.Base.Util
import Mathlib.Algebra.Order.Ring.Rat
import Mathlib.LinearAlgebra.Matrix.Notation
import Mathlib.Algebra.BigOperators.Fin
import Mathlib.Tactic.FieldSimp
import Mathlib.Tactic.NormNum
import Mathlib.Tactic.FinCases
import Mathlib.Algebra.Order.Field.Basic
import Mathlib.Algebra.Order.BigOperators.Group.Finset
import Mathlib.Tactic.Linarith
import Mathlib.Tactic.Abel

/-!
# Property C36: box-constrained coordinate descent for quadratic programs
-/

set_option autoImplicit false
set_option linter.unusedSectionVars false
set_option linter.unusedVariables false

namespace Jaxopt.QP

open Jaxopt.Base Jaxopt.Proj

variable {K : Type*} [Field K] [LinearOrder K] [IsStrictOrderedRing K] {n : ℕ}

/-! ## Specification -/

/-- The objective `½⟨x, Qx⟩ + ⟨c, x⟩`. -/
def qpObj (Q : Matrix (Fin n) (Fin n) K) (c x : Fin n → K) : K := 1 / 2 * (∑ i, ∑ j, x i * Q i j * x j) + ∑ i, c i * x i

/-- Symmetric positive semidefinite. -/
def IsPSD (Q : Matrix (Fin n) (Fin n) K) : Prop := (∀ i j, Q i j = Q j i) ∧ ∀ v : Fin n → K, 0 ≤ ∑ i, ∑ j, v i * Q i j * v j

/-- The box `l ≤ x ≤ u`. -/
def InBox (l u x : Fin n → K) : Prop := ∀ i, l i ≤ x i ∧ x i ≤ u i

/-! ## Lemmas -/

theorem qpObj_add {Q : Matrix (Fin n) (Fin n) K} (hs : ∀ i j, Q i j = Q j i) (c x d : Fin n → K) :
    qpObj Q c (x + d) = qpObj Q c x + ∑ i, d i * (Q i ⬝ᵥ x + c i) + 1 / 2 * ∑ i, ∑ j, d i * Q i j * d j := by
  have h1 : ∑ i, ∑ j, (x + d) i * Q i j * (x + d) j =
      ∑ i, ∑ j, x i * Q i j * x j + 2 * (∑ i, d i * ∑ j, Q i j * x j) + ∑ i, ∑ j, d i * Q i j * d j := by
    have h2 : ∑ i, ∑ j, x i * Q i j * d j = ∑ i, d i * ∑ j, Q i j * x j := by
      rw [Finset.sum_comm]
      refine Finset.sum_congr rfl fun i _ => ?_
      rw [Finset.mul_sum]
      refine Finset.sum_congr rfl fun j _ => ?_
      rw [hs j i]; ring
    have h3 : ∑ i, ∑ j, d i * Q i j * x j = ∑ i, d i * ∑ j, Q i j * x j := by
      refine Finset.sum_congr rfl fun i _ => ?_
      rw [Finset.mul_sum]
      exact Finset.sum_congr rfl fun j _ => by ring
    have h4 : ∑ i, ∑ j, (x + d) i * Q i j * (x + d) j = ∑ i, ∑ j, x i * Q i j * x j + ∑ i, ∑ j, x i * Q i j * d j +
        ∑ i, ∑ j, d i * Q i j * x j + ∑ i, ∑ j, d i * Q i j * d j := by
      simp only [← Finset.sum_add_distrib]
      refine Finset.sum_congr rfl fun i _ => Finset.sum_congr rfl fun j _ => ?_
      simp only [Pi.add_apply]; ring
    rw [h4, h2, h3]; ring
  have h5 : ∑ i, c i * (x + d) i = ∑ i, c i * x i + ∑ i, d i * c i := by
    rw [← Finset.sum_add_distrib]
    exact Finset.sum_congr rfl fun i _ => by simp only [Pi.add_apply]; ring
  have h6 : ∑ i, d i * (Q i ⬝ᵥ x + c i) = ∑ i, d i * ∑ j, Q i j * x j + ∑ i, d i * c i := by
    rw [← Finset.sum_add_distrib]
    exact Finset.sum_congr rfl fun i _ => by rw [dotProduct]; ring
  unfold qpObj
  rw [h1, h5, h6]; ring

theorem qpObj_single {Q : Matrix (Fin n) (Fin n) K} (hs : ∀ i j, Q i j = Q j i) (c x : Fin n → K) (i : Fin n) (a : K) :
    qpObj Q c (Function.update x i (x i + a)) = qpObj Q c x + a * (Q i ⬝ᵥ x + c i) + 1 / 2 * (a * Q i i * a) := by
  have e : Function.update x i (x i + a) = x + Pi.single i a := by
    ext j
    by_cases h : j = i
    · subst h; simp
    · simp [h]
  rw [e, qpObj_add hs]
  congr 1
  · congr 1
    rw [Finset.sum_eq_single i]
    · simp
    · intro j _ hj; simp [Pi.single_eq_of_ne hj]
    · intro h; exact absurd (Finset.mem_univ _) h
  · congr 1
    rw [Finset.sum_eq_single i]
    · rw [Finset.sum_eq_single i]
      · simp
      · intro j _ hj; simp [Pi.single_eq_of_ne hj]
      · intro h; exact absurd (Finset.mem_univ _) h
    · intro j _ hj; simp [Pi.single_eq_of_ne hj]
    · intro h; exact absurd (Finset.mem_univ _) h

theorem psd_diag {Q : Matrix (Fin n) (Fin n) K} (h : IsPSD Q) (i : Fin n) : 0 ≤ Q i i := by
  have := h.2 (Pi.single i 1)
  rw [Finset.sum_eq_single i] at this
  · rw [Finset.sum_eq_single i] at this
    · simpa using this
    · intro j _ hj; simp [Pi.single_eq_of_ne hj]
    · intro h; exact absurd (Finset.mem_univ _) h
  · intro j _ hj; simp [Pi.single_eq_of_ne hj]
  · intro h; exact absurd (Finset.mem_univ _) h

/-- A positive semidefinite matrix with a zero on the diagonal has a zero row there. -/
theorem psd_zero_row {Q : Matrix (Fin n) (Fin n) K} (h : IsPSD Q) {i : Fin n} (hi : Q i i = 0) (j : Fin n) : Q i j = 0 := by
  by_contra hne
  have hij : i ≠ j := by rintro rfl; exact hne hi
  -- the quadratic form along `t e_i + e_j`
  have key : ∀ t : K, 0 ≤ t * Q i j + 1 / 2 * Q j j := by
    intro t
    set z : Fin n → K := 0 with hz
    set e : Fin n → K := Function.update z j (z j + 1) with he
    have h0 : ∀ x : Fin n → K, 0 ≤ qpObj Q z x := by
      intro x
      have := h.2 x
      simp only [qpObj, hz, Pi.zero_apply, zero_mul, Finset.sum_const_zero]; linarith
    have h1 := h0 (Function.update e i (e i + t))
    rw [qpObj_single h.1, he, qpObj_single h.1, ← he, hi] at h1
    have h2 : Q i ⬝ᵥ e = Q i j := by
      have : e = Pi.single j 1 := by
        ext k
        by_cases hk : k = j
        · subst hk; simp [he, hz]
        · simp [he, hz, hk]
      rw [this]; simp
    have h3 : qpObj Q z z = 0 := by simp [qpObj, hz]
    have h4 : Q j ⬝ᵥ z = 0 := by simp [hz]
    rw [h2, h3, h4] at h1
    simp only [hz, Pi.zero_apply] at h1
    linarith
  have := key (-(1 / 2 * Q j j + 1) / Q i j)
  rw [div_mul_cancel₀ _ hne] at this
  linarith

/-- The scalar step: clipping the Newton step minimises the one-dimensional model over the interval. -/
theorem clip_newton {g h l u x : K} (hh : 0 < h) (hlx : l ≤ x) (hxu : x ≤ u) :
    (clip (x - g / h) l u - x) * g + h * (clip (x - g / h) l u - x) ^ 2 ≤ 0 := by
  have e : g = h * (g / h) := by field_simp
  set q := g / h
  rw [e]
  unfold clip
  have key : ∀ d : K, (d ≤ 0 ∧ -q ≤ d) ∨ (0 ≤ d ∧ d ≤ -q) → d * (h * q) + h * d ^ 2 ≤ 0 := by
    rintro d (⟨h1, h2⟩ | ⟨h1, h2⟩)
    · have : h * (d * (q + d)) ≤ 0 := mul_nonpos_of_nonneg_of_nonpos hh.le (mul_nonpos_of_nonpos_of_nonneg h1 (by linarith))
      nlinarith
    · have : h * (d * (q + d)) ≤ 0 := mul_nonpos_of_nonneg_of_nonpos hh.le (mul_nonpos_of_nonneg_of_nonpos h1 (by linarith))
      nlinarith
  apply key
  rcases le_total 0 q with hq | hq
  · left
    have h1 : max (x - q) l ≤ x := max_le (by linarith) hlx
    have h2 : min (max (x - q) l) u = max (x - q) l := min_eq_left (h1.trans hxu)
    rw [h2]
    exact ⟨by linarith, by have := le_max_left (x - q) l; linarith⟩
  · right
    have h1 : max (x - q) l = x - q := max_eq_left (by linarith)
    rw [h1]
    exact ⟨by have : x ≤ min (x - q) u := le_min (by linarith) hxu; linarith, by have := min_le_left (x - q) u; linarith⟩

theorem clip_mem {x l u : K} (h : l ≤ u) : l ≤ clip x l u ∧ clip x l u ≤ u :=
  ⟨le_min (le_max_right _ _) h, min_le_right _ _⟩

section loop

variable (Q : Matrix (Fin n) (Fin n) K) (c l u : Fin n → K)

/-- The state of the loop after the coordinates in `is`. -/
def epochOver (is : List (Fin n)) (t : (Fin n → K) × K) : (Fin n → K) × K := is.foldl (fun s i => boxBody Q c l u i s) t

theorem epochOver_error_le (is : List (Fin n)) (t : (Fin n → K) × K) : t.2 ≤ (epochOver Q c l u is t).2 := by
  induction is generalizing t with
  | nil => exact le_rfl
  | cons i is ih =>
    refine le_trans ?_ (ih (boxBody Q c l u i t))
    simp only [boxBody]
    have := abs_nonneg (clip (t.1 i - if Q i i = 0 then 0 else (Q i ⬝ᵥ t.1 + c i) / Q i i) (l i) (u i) - t.1 i)
    linarith

theorem epochOver_keep (hlu : ∀ i, l i ≤ u i) (is : List (Fin n)) (t : (Fin n → K) × K) (j : Fin n)
    (h : l j ≤ t.1 j ∧ t.1 j ≤ u j) : l j ≤ (epochOver Q c l u is t).1 j ∧ (epochOver Q c l u is t).1 j ≤ u j := by
  induction is generalizing t with
  | nil => exact h
  | cons i is ih =>
    refine ih _ ?_
    simp only [boxBody]
    by_cases hj : j = i
    · subst hj
      simp only [Function.update_self]
      exact clip_mem (hlu j)
    · rw [Function.update_of_ne hj]; exact h

theorem epochOver_box (hlu : ∀ i, l i ≤ u i) (is : List (Fin n)) (t : (Fin n → K) × K) (j : Fin n) (hj : j ∈ is) :
    l j ≤ (epochOver Q c l u is t).1 j ∧ (epochOver Q c l u is t).1 j ≤ u j := by
  induction is generalizing t with
  | nil => cases hj
  | cons i is ih =>
    rcases List.mem_cons.mp hj with h | h
    · subst h
      refine epochOver_keep Q c l u hlu is _ j ?_
      simp only [boxBody, Function.update_self]
      exact clip_mem (hlu j)
    · exact ih _ h

theorem boxBody_obj (hQ : IsPSD Q) (i : Fin n) (t : (Fin n → K) × K) (hx : InBox l u t.1) :
    qpObj Q c (boxBody Q c l u i t).1 + 1 / 2 * (Q i i * ((boxBody Q c l u i t).1 i - t.1 i) ^ 2) ≤ qpObj Q c t.1 := by
  simp only [boxBody, Function.update_self]
  set z := clip (t.1 i - if Q i i = 0 then 0 else (Q i ⬝ᵥ t.1 + c i) / Q i i) (l i) (u i) with hz
  have e : z = t.1 i + (z - t.1 i) := by ring
  rw [e, qpObj_single hQ.1]
  by_cases hi : Q i i = 0
  · have : z = t.1 i := by
      rw [hz, if_pos hi, sub_zero, clip, max_eq_left (hx i).1, min_eq_left (hx i).2]
    rw [this]; simp
  · have hp : 0 < Q i i := lt_of_le_of_ne (psd_diag hQ i) (Ne.symm hi)
    have := clip_newton (g := Q i ⬝ᵥ t.1 + c i) hp (hx i).1 (hx i).2
    have hz' : z = clip (t.1 i - (Q i ⬝ᵥ t.1 + c i) / Q i i) (l i) (u i) := by rw [hz, if_neg hi]
    rw [← hz'] at this
    nlinarith

theorem epochOver_obj (hQ : IsPSD Q) (hlu : ∀ i, l i ≤ u i) (is : List (Fin n)) (t : (Fin n → K) × K) (hx : InBox l u t.1) :
    qpObj Q c (epochOver Q c l u is t).1 ≤ qpObj Q c t.1 := by
  induction is generalizing t with
  | nil => exact le_rfl
  | cons i is ih =>
    have h1 := boxBody_obj Q c l u hQ i t hx
    have h2 := ih (boxBody Q c l u i t) (fun j => epochOver_keep Q c l u hlu [i] t j (hx j))
    have h3 : 0 ≤ 1 / 2 * (Q i i * ((boxBody Q c l u i t).1 i - t.1 i) ^ 2) :=
      mul_nonneg (by norm_num) (mul_nonneg (psd_diag hQ i) (sq_nonneg _))
    have h4 : epochOver Q c l u (i :: is) t = epochOver Q c l u is (boxBody Q c l u i t) := rfl
    rw [h4]; linarith

/-- If the accumulated error does not grow, nothing moved and every visited coordinate is at the clipped Newton point. -/
theorem epochOver_stuck (is : List (Fin n)) (t : (Fin n → K) × K) (h : (epochOver Q c l u is t).2 = t.2) :
    (epochOver Q c l u is t).1 = t.1 ∧
      ∀ i ∈ is, clip (t.1 i - if Q i i = 0 then 0 else (Q i ⬝ᵥ t.1 + c i) / Q i i) (l i) (u i) = t.1 i := by
  induction is generalizing t with
  | nil => exact ⟨rfl, by simp⟩
  | cons i is ih =>
    have h4 : epochOver Q c l u (i :: is) t = epochOver Q c l u is (boxBody Q c l u i t) := rfl
    rw [h4] at h ⊢
    have h1 := epochOver_error_le Q c l u is (boxBody Q c l u i t)
    have h2 : t.2 ≤ (boxBody Q c l u i t).2 := epochOver_error_le Q c l u [i] t
    have h3 : (boxBody Q c l u i t).2 = t.2 := by linarith
    have h5 : clip (t.1 i - if Q i i = 0 then 0 else (Q i ⬝ᵥ t.1 + c i) / Q i i) (l i) (u i) = t.1 i := by
      simp only [boxBody] at h3
      have := abs_eq_zero.mp (by linarith : |clip (t.1 i - if Q i i = 0 then 0 else (Q i ⬝ᵥ t.1 + c i) / Q i i) (l i) (u i) - t.1 i| = 0)
      linarith
    have h6 : (boxBody Q c l u i t).1 = t.1 := by
      simp only [boxBody]; rw [h5]; exact Function.update_eq_self i t.1
    obtain ⟨i1, i2⟩ := ih (boxBody Q c l u i t) (by rw [h, h3])
    rw [h6] at i1 i2
    refine ⟨i1, fun j hj => ?_⟩
    rcases List.mem_cons.mp hj with hj | hj
    · subst hj; exact h5
    · exact i2 j hj

end loop

/-- First-order optimality over the box implies global optimality for a positive semidefinite `Q`. -/
theorem box_optimal_of_vi {Q : Matrix (Fin n) (Fin n) K} (hQ : IsPSD Q) (c l u x : Fin n → K)
    (h : ∀ i, ∀ y, l i ≤ y → y ≤ u i → 0 ≤ (y - x i) * (Q i ⬝ᵥ x + c i)) (y : Fin n → K) (hy : InBox l u y) :
    qpObj Q c x ≤ qpObj Q c y := by
  have e : y = x + (y - x) := by abel
  rw [e, qpObj_add hQ.1]
  have h1 : 0 ≤ ∑ i, (y - x) i * (Q i ⬝ᵥ x + c i) := Finset.sum_nonneg fun i _ => h i (y i) (hy i).1 (hy i).2
  have h2 := hQ.2 (y - x)
  linarith

theorem clip_fixed_vi {x d l u : K} (h : clip (x - d) l u = x) (hlu : l ≤ u) {y : K} (hy : l ≤ y) (hy' : y ≤ u) : 0 ≤ (y - x) * d := by
  unfold clip at h
  rcases le_total d 0 with hd | hd
  · rcases eq_or_lt_of_le hd with h0 | hneg
    · rw [h0]; simp
    · -- x - d > x, hence x = u
      have hx : x = u := by
        rcases le_total (max (x - d) l) u with hm | hm
        · rw [min_eq_left hm] at h
          have := le_max_left (x - d) l
          rw [h] at this; linarith
        · rw [min_eq_right hm] at h; exact h.symm
      rw [hx]; exact mul_nonneg_of_nonpos_of_nonpos (by linarith) hd
  · rcases eq_or_lt_of_le hd with h0 | hpos
    · rw [← h0]; simp
    · have hx : x = l := by
        rcases le_total (max (x - d) l) u with hm | hm
        · rw [min_eq_left hm] at h
          rcases le_total (x - d) l with hl | hl
          · rw [max_eq_right hl] at h; exact h.symm
          · rw [max_eq_left hl] at h; linarith
        · rw [min_eq_right hm] at h
          rcases le_total (x - d) l with hl | hl
          · rw [max_eq_right hl] at hm; linarith
          · rw [max_eq_left hl] at hm; linarith
      rw [hx]; exact mul_nonneg (by linarith) hd

/-! ## Theorems -/

namespace BoxCDQP

theorem update_eq (S : BoxCDQP K n) (p : (Fin n → K) × BoxCDQPState K) :
    S.update p = ((epochOver S.Q S.c S.l S.u (List.finRange n) (p.1, 0)).1,
      ⟨p.2.iterNum + 1, .fin (epochOver S.Q S.c S.l S.u (List.finRange n) (p.1, 0)).2⟩) := rfl

/-- **C36**, feasibility: after one epoch the iterate is in the box, whatever the start, and even for an indefinite `Q`. -/
theorem C36_feasible (S : BoxCDQP K n) (hlu : ∀ i, S.l i ≤ S.u i) (p : (Fin n → K) × BoxCDQPState K) :
    InBox S.l S.u (S.update p).1 := fun i =>
  epochOver_box S.Q S.c S.l S.u hlu (List.finRange n) (p.1, 0) i (List.mem_finRange i)

/-- **C36**, descent: from a feasible point an epoch does not increase the objective. -/
theorem C36_descent (S : BoxCDQP K n) (hQ : IsPSD S.Q) (p : (Fin n → K) × BoxCDQPState K) (hx : InBox S.l S.u p.1) :
    qpObj S.Q S.c (S.update p).1 ≤ qpObj S.Q S.c p.1 :=
  epochOver_obj S.Q S.c S.l S.u hQ (fun i => (hx i).1.trans (hx i).2) (List.finRange n) (p.1, 0) hx

/-- **C36**, the whole run: the returned point is feasible whatever the start, and its objective is at most that of a feasible
start. -/
theorem C36_run (S : BoxCDQP K n) (hQ : IsPSD S.Q) (hlu : ∀ i, S.l i ≤ S.u i) (hm : 1 ≤ S.maxiter) (x0 : Fin n → K)
    {r : (Fin n → K) × BoxCDQPState K} (h : S.run x0 = .ok r) :
    InBox S.l S.u r.1 ∧ (InBox S.l S.u x0 → qpObj S.Q S.c r.1 ≤ qpObj S.Q S.c x0) := by
  obtain ⟨k, hk1, -, hk, -⟩ := runS_spec hm h
  rw [hk]
  constructor
  · obtain ⟨j, rfl⟩ : ∃ j, k = j + 1 := ⟨k - 1, by omega⟩
    rw [Function.iterate_succ_apply']
    exact S.C36_feasible hlu _
  · intro hx
    have inv : ∀ k, InBox S.l S.u (S.update^[k] (x0, S.initState x0)).1 ∧
        qpObj S.Q S.c (S.update^[k] (x0, S.initState x0)).1 ≤ qpObj S.Q S.c x0 := by
      intro k
      induction k with
      | zero => exact ⟨hx, le_rfl⟩
      | succ k ih =>
        rw [Function.iterate_succ_apply']
        exact ⟨S.C36_feasible hlu _, (S.C36_descent hQ _ ih.1).trans ih.2⟩
    exact (inv k).2

/-- The objective is minimised over the box at `x`. -/
def Optimal (S : BoxCDQP K n) (x : Fin n → K) : Prop :=
  InBox S.l S.u x ∧ ∀ y, InBox S.l S.u y → qpObj S.Q S.c x ≤ qpObj S.Q S.c y

/-- **C36**, stopping: an epoch with error `0` leaves the point unchanged, and the point is optimal provided every coordinate with a
zero diagonal entry has a zero linear coefficient (for instance if the diagonal is positive).  Without the proviso the claim is
false, see `C36_stop_false`. -/
theorem C36_stop_partial (S : BoxCDQP K n) (hQ : IsPSD S.Q) (hlu : ∀ i, S.l i ≤ S.u i) (hc : ∀ i, S.Q i i = 0 → S.c i = 0)
    (p : (Fin n → K) × BoxCDQPState K) (h : (S.update p).2.error = .fin 0) : (S.update p).1 = p.1 ∧ S.Optimal (S.update p).1 := by
  rw [update_eq] at h
  have h0 : (epochOver S.Q S.c S.l S.u (List.finRange n) (p.1, 0)).2 = 0 := by simpa using h
  obtain ⟨h1, h2⟩ := epochOver_stuck S.Q S.c S.l S.u (List.finRange n) (p.1, 0) h0
  have e : (S.update p).1 = p.1 := h1
  refine ⟨e, S.C36_feasible hlu p, ?_⟩
  rw [e]
  intro y hy
  refine box_optimal_of_vi hQ S.c S.l S.u p.1 (fun i z hz hz' => ?_) y hy
  have h3 := h2 i (List.mem_finRange i)
  by_cases hi : S.Q i i = 0
  · have hrow : S.Q i ⬝ᵥ p.1 = 0 := by
      rw [dotProduct]; exact Finset.sum_eq_zero fun j _ => by rw [psd_zero_row hQ hi j, zero_mul]
    rw [hrow, hc i hi]; simp
  · have hp : 0 < S.Q i i := lt_of_le_of_ne (psd_diag hQ i) (Ne.symm hi)
    simp only [if_neg hi] at h3
    have h4 := clip_fixed_vi h3 (hlu i) hz hz'
    have e2 : (z - p.1 i) * (S.Q i ⬝ᵥ p.1 + S.c i) = S.Q i i * ((z - p.1 i) * ((S.Q i ⬝ᵥ p.1 + S.c i) / S.Q i i)) := by
      field_simp
    rw [e2]; exact mul_nonneg hp.le h4

/-- **C36**, optimality function: `optimality_fun` vanishes exactly at the minimisers over the box, for every positive
semidefinite `Q`. -/
theorem C36_optimality_fun (S : BoxCDQP K n) (hQ : IsPSD S.Q) (hlu : ∀ i, S.l i ≤ S.u i) (x : Fin n → K) :
    S.optimalityFun x = 0 ↔ S.Optimal x := by
  have hfix : S.optimalityFun x = 0 ↔ ∀ i, clip (x i - (S.Q i ⬝ᵥ x + S.c i)) (S.l i) (S.u i) = x i := by
    unfold optimalityFun fixedPointFun
    rw [sub_eq_zero, funext_iff]
    rfl
  rw [hfix]
  constructor
  · intro h
    refine ⟨fun i => h i ▸ clip_mem (hlu i), fun y hy => ?_⟩
    exact box_optimal_of_vi hQ S.c S.l S.u x (fun i z hz hz' => clip_fixed_vi (h i) (hlu i) hz hz') y hy
  · rintro ⟨hx, hopt⟩ i
    -- move coordinate i towards the clipped point
    set g := S.Q i ⬝ᵥ x + S.c i with hg
    set z := clip (x i - g) (S.l i) (S.u i) with hz
    have hzm := clip_mem (x := x i - g) (hlu i)
    rw [← hz] at hzm
    have hnewton := clip_newton (g := g) (h := 1) one_pos (hx i).1 (hx i).2
    rw [div_one, ← hz] at hnewton
    by_contra hne
    have hd : 0 < (z - x i) ^ 2 := by
      have : z - x i ≠ 0 := sub_ne_zero.mpr hne
      positivity
    -- step t (z - x_i), 0 < t ≤ 1
    have hq := psd_diag hQ i
    have hden : 0 < S.Q i i + 1 := by linarith
    set t := 1 / (S.Q i i + 1) with ht
    have ht0 : 0 < t := div_pos one_pos hden
    have ht1 : t ≤ 1 := by rw [ht, div_le_one hden]; linarith
    have htq : t * S.Q i i < 1 := by rw [ht, div_mul_eq_mul_div, one_mul, div_lt_one hden]; linarith
    have hbox : InBox S.l S.u (Function.update x i (x i + t * (z - x i))) := by
      intro j
      by_cases hj : j = i
      · subst hj
        rw [Function.update_self]
        have := hx j
        constructor <;> nlinarith
      · rw [Function.update_of_ne hj]; exact hx j
    have h1 := hopt _ hbox
    rw [qpObj_single hQ.1, ← hg] at h1
    have h2 : t * (z - x i) * g ≤ -(t * (z - x i) ^ 2) := by nlinarith
    have h3 : t * (z - x i) * S.Q i i * (t * (z - x i)) < t * (z - x i) ^ 2 := by
      have : t * S.Q i i * (t * (z - x i) ^ 2) < 1 * (t * (z - x i) ^ 2) :=
        mul_lt_mul_of_pos_right htq (mul_pos ht0 hd)
      nlinarith
    have h4 := mul_pos ht0 hd
    linarith

end BoxCDQP

/-! ## Witnesses -/

/-- `min x` over `[0, 1]`: `Q = 0`, `c = 1`. -/
def exBoxLin : BoxCDQP ℚ 1 := ⟨fun _ _ => 0, fun _ => 1, fun _ => 0, fun _ => 1, 1 / 10000, 500, true, true⟩

/-- **C36 is false for a singular diagonal**: on `min x, 0 ≤ x ≤ 1` (a positive semidefinite `Q = 0`) the run from `1` returns `1`
with error `0`, although `0` is better. -/
theorem C36_stop_false : IsPSD exBoxLin.Q ∧ ∃ r, exBoxLin.run (fun _ => 1) = .ok r ∧ r.2.error = .fin 0 ∧ r.1 = (fun _ => 1) ∧
    ¬ exBoxLin.Optimal r.1 := by
  refine ⟨⟨fun _ _ => rfl, fun v => by simp [exBoxLin]⟩, ?_⟩
  obtain ⟨r, hr, hv⟩ := ok_of_toOption (x := exBoxLin.run (fun _ => 1)) (φ := fun r => (r.2.error, r.1 0))
    (v := (.fin 0, 1)) (by decide +kernel)
  have e1 : r.2.error = .fin 0 := congrArg (·.1) hv
  have e2 : r.1 = fun _ => 1 := by ext i; have : i = 0 := Subsingleton.elim _ _; subst this; exact congrArg (·.2) hv
  refine ⟨r, hr, e1, e2, ?_⟩
  rintro ⟨-, h⟩
  have := h (fun _ => 0) (fun i => by simp [exBoxLin])
  rw [e2] at this
  simp [qpObj, exBoxLin] at this
  norm_num at this

/-- A two-dimensional problem with an active bound. -/
def exBox2 : BoxCDQP ℚ 2 := ⟨!![2, 1; 1, 2], ![-3, -3], ![0, 0], ![1 / 2, 5], 0, 500, true, true⟩

/-- Non-vacuity: the data are positive semidefinite, and an epoch with error `0` is reached at `(1/2, 5/4)` from `(0, 0)`. -/
example : IsPSD exBox2.Q ∧ (exBox2.update^[3] (![0, 0], exBox2.initState ![0, 0])).2.error = .fin 0 ∧
    (exBox2.update^[3] (![0, 0], exBox2.initState ![0, 0])).1 = ![1 / 2, 5 / 4] := by
  refine ⟨⟨?_, fun v => ?_⟩, by decide +kernel, by decide +kernel⟩
  · intro i j; fin_cases i <;> fin_cases j <;> rfl
  simp [exBox2, Fin.sum_univ_two]
  nlinarith [sq_nonneg (v 0 + v 1), sq_nonneg (v 0), sq_nonneg (v 1)]

end Jaxopt.QP
