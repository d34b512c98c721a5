import Verif.BlockCD.Props
import Verif.BlockCD.Optimality
import Mathlib.Algebra.Order.Archimedean.Basic
import Mathlib.Tactic.Ring
import Mathlib.Analysis.Real.Sqrt

/-!
# Property C95: block coordinate descent stops and its error certifies the result

For `BlockCoordinateDescent` (`Verif/BlockCD/Model.lean`) with a convex regulariser and constants that bound the growth of `fun` along
blocks:

* `C95_sufficient_decrease`: an epoch decreases the objective by at least half the smallest constant times the squared error;
* `C95_terminates`: above an explicit number of iterations every run stops by its tolerance;
* `C95_certificate`: the error of an epoch bounds the suboptimality of the point it returns;
* `C95_least_squares`: both for every least squares problem without zero columns;
* `C95_svm_false`: with the constants of the SVM dual and a small `l2reg` a run never stops, whatever `maxiter`;
* `C95_lower_bound_false`: the error is not the lower bound of the optimality error that the comment on line 144 announces.
-/

set_option autoImplicit false
set_option linter.unusedSectionVars false
set_option linter.unusedVariables false

namespace Jaxopt.BlockCD

open Jaxopt.Base Jaxopt.QP Jaxopt.ProxGrad

variable {K W : Type*} [Field K] [LinearOrder K] [IsStrictOrderedRing K] [AddCommGroup W] [Module K W] {m n : ℕ}

/-! ## Lengths without square roots -/

theorem vdot_le {vdot : W → W → K} (hv : IsVdot vdot) {a b : W} {α β : K} (hα : 0 ≤ α) (hβ : 0 ≤ β)
    (ha : vdot a a ≤ α ^ 2) (hb : vdot b b ≤ β ^ 2) : vdot a b ≤ α * β := by
  rcases eq_or_lt_of_le hα with h | hα'
  · have h0 : a = 0 := hv.eq_zero (le_antisymm (by rw [← h] at ha; simpa using ha) (hv.nonneg a))
    rw [h0, hv.zero_left]; positivity
  · rcases eq_or_lt_of_le hβ with h | hβ'
    · have h0 : b = 0 := hv.eq_zero (le_antisymm (by rw [← h] at hb; simpa using hb) (hv.nonneg b))
      rw [h0, hv.zero_right]; positivity
    · have h1 := hv.nonneg (β • a - α • b)
      rw [hv.sub_left, hv.sub_right, hv.sub_right, hv.smul_left, hv.smul_left, hv.smul_left, hv.smul_left, hv.smul_right, hv.smul_right,
        hv.smul_right, hv.smul_right, hv.symm b a] at h1
      have h2 : β ^ 2 * vdot a a ≤ β ^ 2 * α ^ 2 := mul_le_mul_of_nonneg_left ha (sq_nonneg _)
      have h3 : α ^ 2 * vdot b b ≤ α ^ 2 * β ^ 2 := mul_le_mul_of_nonneg_left hb (sq_nonneg _)
      have h4 : (α * β) * vdot a b ≤ (α * β) * (α * β) := by nlinarith
      exact le_of_mul_le_mul_left h4 (mul_pos hα' hβ')

theorem vdot_add_le {vdot : W → W → K} (hv : IsVdot vdot) {a b : W} {α β : K} (hα : 0 ≤ α) (hβ : 0 ≤ β)
    (ha : vdot a a ≤ α ^ 2) (hb : vdot b b ≤ β ^ 2) : vdot (a + b) (a + b) ≤ (α + β) ^ 2 := by
  have h := vdot_le hv hα hβ ha hb
  rw [hv.add_left, hv.add_right, hv.add_right, hv.symm b a]
  nlinarith

/-! ## Decrease -/

/-- One coordinate step decreases the objective by half the constant times the squared step. -/
theorem body_decrease (S : BCD K W m n) (hv : IsVdot S.vdot) {C : Set W} {h : W → K} (hp : IsProx S.vdot C h S.blockProx)
    (hh : ConvexOn K C h) (hL : ∀ j, 0 < S.fn.lipschitz j) (hc : CoordUpper S.vdot S.fn S.fn.lipschitz) (i : Fin n)
    (t : LoopTup K W m n) (he : Exact S t.x t.predictions t.subfunG) (hx : t.x i ∈ C) :
    objective S h (S.body i t).x + S.fn.lipschitz i / 2 * ((S.body i t).sqerror - t.sqerror) ≤ objective S h t.x := by
  have hs : 0 < S.stepsize i := div_pos one_pos (hL i)
  have hsL : S.stepsize i * S.fn.lipschitz i = 1 := by unfold BCD.stepsize; field_simp [(hL i).ne']
  have h1 := prox_vi hv hp hh (t.x i + (-S.stepsize i) • S.fn.gradAt t.x i) hs hx
  simp only [objective, BCD.body, gradElement_eq S he]
  rw [sum_update]
  have e : t.x i - S.stepsize i • S.fn.gradAt t.x i = t.x i + (-S.stepsize i) • S.fn.gradAt t.x i := by
    rw [neg_smul, sub_eq_add_neg]
  rw [e]
  set P := S.blockProx (t.x i + (-S.stepsize i) • S.fn.gradAt t.x i) (S.stepsize i)
  have h2 := hc t.x i P
  set s := S.stepsize i
  have e1 : P - (t.x i + (-s) • S.fn.gradAt t.x i) = (P - t.x i) + s • S.fn.gradAt t.x i := by rw [neg_smul]; abel
  have e2 : t.x i - P = -(P - t.x i) := by abel
  rw [e1, e2, hv.neg_right, hv.add_left, hv.smul_left, hv.symm (S.fn.gradAt t.x i)] at h1
  set q := S.vdot (P - t.x i) (P - t.x i)
  set a := S.vdot (P - t.x i) (S.fn.gradAt t.x i)
  have h3 : s * (h P + a + S.fn.lipschitz i * q) ≤ s * h (t.x i) := by
    have : s * (S.fn.lipschitz i * q) = q := by rw [← mul_assoc, hsL, one_mul]
    nlinarith
  have h4 := le_of_mul_le_mul_left h3 hs
  linarith

theorem body_sqerror (S : BCD K W m n) (hv : IsVdot S.vdot) (i : Fin n) (t : LoopTup K W m n) : t.sqerror ≤ (S.body i t).sqerror := by
  simp only [BCD.body]; exact le_add_of_nonneg_right (hv.nonneg _)

theorem over_sqerror (S : BCD K W m n) (hv : IsVdot S.vdot) (is : List (Fin n)) (t : LoopTup K W m n) :
    t.sqerror ≤ (S.over is t).sqerror := by
  induction is generalizing t with
  | nil => exact le_rfl
  | cons i is ih => exact (body_sqerror S hv i t).trans (ih (S.body i t))

theorem over_decrease (S : BCD K W m n) (hv : IsVdot S.vdot) {C : Set W} {h : W → K} (hp : IsProx S.vdot C h S.blockProx)
    (hh : ConvexOn K C h) {L0 : K} (hL0 : 0 < L0) (hL : ∀ j, L0 ≤ S.fn.lipschitz j) (hc : CoordUpper S.vdot S.fn S.fn.lipschitz)
    (is : List (Fin n)) (t : LoopTup K W m n) (he : Exact S t.x t.predictions t.subfunG) (hx : ∀ j, t.x j ∈ C) :
    objective S h (S.over is t).x + L0 / 2 * ((S.over is t).sqerror - t.sqerror) ≤ objective S h t.x := by
  have hLp : ∀ j, 0 < S.fn.lipschitz j := fun j => hL0.trans_le (hL j)
  induction is generalizing t with
  | nil => simp [BCD.over]
  | cons i is ih =>
    have e : S.over (i :: is) t = S.over is (S.body i t) := rfl
    have h1 := ih (S.body i t) (body_exact S i t he) (body_dom S hp hLp i t hx)
    have h2 := body_decrease S hv hp hh hLp hc i t he (hx i)
    have h3 : L0 / 2 * ((S.body i t).sqerror - t.sqerror) ≤ S.fn.lipschitz i / 2 * ((S.body i t).sqerror - t.sqerror) :=
      mul_le_mul_of_nonneg_right (by linarith [hL i]) (sub_nonneg.mpr (body_sqerror S hv i t))
    rw [e]; linarith

/-! ## What an epoch moves -/

theorem over_notMem (S : BCD K W m n) (is : List (Fin n)) (t : LoopTup K W m n) (j : Fin n) (hj : j ∉ is) :
    (S.over is t).x j = t.x j := by
  induction is generalizing t with
  | nil => rfl
  | cons i is ih =>
    have e : S.over (i :: is) t = S.over is (S.body i t) := rfl
    rw [e, ih _ (fun h => hj (List.mem_cons_of_mem _ h))]
    simp only [BCD.body]
    exact Function.update_of_ne (fun h => hj (by rw [h]; exact List.mem_cons_self)) _ _

theorem over_move (S : BCD K W m n) (hv : IsVdot S.vdot) (is : List (Fin n)) (hnd : is.Nodup) (t : LoopTup K W m n) :
    ∑ k, S.vdot ((S.over is t).x k - t.x k) ((S.over is t).x k - t.x k) = (S.over is t).sqerror - t.sqerror := by
  induction is generalizing t with
  | nil => simp [BCD.over, hv.zero_left]
  | cons i is ih =>
    rw [List.nodup_cons] at hnd
    have e : S.over (i :: is) t = S.over is (S.body i t) := rfl
    rw [e]
    have h1 := ih hnd.2 (S.body i t)
    have h2 : (S.body i t).sqerror = t.sqerror + S.vdot ((S.body i t).x i - t.x i) ((S.body i t).x i - t.x i) := by
      simp only [BCD.body, Function.update_self]
    have h3 := over_notMem S is (S.body i t) i hnd.1
    have h4 : ∀ k, S.vdot ((S.over is (S.body i t)).x k - t.x k) ((S.over is (S.body i t)).x k - t.x k)
        = S.vdot ((S.over is (S.body i t)).x k - (S.body i t).x k) ((S.over is (S.body i t)).x k - (S.body i t).x k)
          + if k = i then S.vdot ((S.body i t).x i - t.x i) ((S.body i t).x i - t.x i) else 0 := by
      intro k
      by_cases hk : k = i
      · subst hk
        rw [h3, if_pos rfl, sub_self, hv.zero_left, zero_add]
      · have : (S.body i t).x k = t.x k := by simp only [BCD.body]; exact Function.update_of_ne hk _ _
        rw [this, if_neg hk, add_zero]
    simp only [h4, Finset.sum_add_distrib, Finset.sum_ite_eq', Finset.mem_univ, if_true]
    rw [h1, h2]; ring

/-- The blocks of the gradient of `fun` are Lipschitz with constant `G`. -/
def GradLip (vdot : W → W → K) (F : Composite K W m n) (G : K) : Prop :=
  ∀ (x y : Fin n → W) (j : Fin n), vdot (F.gradAt x j - F.gradAt y j) (F.gradAt x j - F.gradAt y j) ≤
    G ^ 2 * ∑ k, vdot (x k - y k) (x k - y k)

/-- The first-order condition of every visited block at the end of the loop. -/
theorem over_vi (S : BCD K W m n) (hv : IsVdot S.vdot) {C : Set W} {h : W → K} (hp : IsProx S.vdot C h S.blockProx)
    (hh : ConvexOn K C h) (hLp : ∀ j, 0 < S.fn.lipschitz j) {L1 : K} (hL1 : ∀ j, S.fn.lipschitz j ≤ L1) {G : K} (hG0 : 0 ≤ G)
    (hG : GradLip S.vdot S.fn G) {E : K} (hE : 0 ≤ E) (is : List (Fin n)) (hnd : is.Nodup) (t : LoopTup K W m n)
    (he : Exact S t.x t.predictions t.subfunG) (hsq : (S.over is t).sqerror - t.sqerror ≤ E ^ 2) (i : Fin n) (hi : i ∈ is)
    {z : W} (hz : z ∈ C) {R : K} (hR : 0 ≤ R) (hzR : S.vdot (z - (S.over is t).x i) (z - (S.over is t).x i) ≤ R ^ 2) :
    -((L1 + G) * E * R) ≤ h z - h ((S.over is t).x i) + S.vdot (z - (S.over is t).x i) (S.fn.gradAt (S.over is t).x i) := by
  induction is generalizing t with
  | nil => cases hi
  | cons j is ih =>
    have hmove := over_move S hv (j :: is) hnd t
    rw [List.nodup_cons] at hnd
    have e : S.over (j :: is) t = S.over is (S.body j t) := rfl
    rw [e] at hzR hsq hmove ⊢
    rcases List.mem_cons.mp hi with hij | hij
    · subst hij
      have h3 := over_notMem S is (S.body i t) i hnd.1
      set x' := (S.over is (S.body i t)).x with hx'
      have hs : 0 < S.stepsize i := div_pos one_pos (hLp i)
      have hsL : S.stepsize i * S.fn.lipschitz i = 1 := by unfold BCD.stepsize; field_simp [(hLp i).ne']
      have hP : x' i = S.blockProx (t.x i + (-S.stepsize i) • S.fn.gradAt t.x i) (S.stepsize i) := by
        rw [h3]
        simp only [BCD.body, Function.update_self, gradElement_eq S he]
        rw [neg_smul, ← sub_eq_add_neg]
      have h1 := prox_vi hv hp hh (t.x i + (-S.stepsize i) • S.fn.gradAt t.x i) hs hz
      rw [← hP] at h1
      set s := S.stepsize i
      have e1 : x' i - (t.x i + (-s) • S.fn.gradAt t.x i) = (x' i - t.x i) + s • S.fn.gradAt t.x i := by rw [neg_smul]; abel
      rw [e1, hv.add_left, hv.smul_left] at h1
      -- divide by the step size
      have h2 : 0 ≤ (h z - h (x' i)) + S.fn.lipschitz i * S.vdot (x' i - t.x i) (z - x' i) + S.vdot (S.fn.gradAt t.x i) (z - x' i) := by
        have := mul_nonneg (hLp i).le h1
        have e2 : S.fn.lipschitz i * (s * (h z - h (x' i)) + (S.vdot (x' i - t.x i) (z - x' i) + s * S.vdot (S.fn.gradAt t.x i) (z - x' i)))
            = (s * S.fn.lipschitz i) * (h z - h (x' i)) + S.fn.lipschitz i * S.vdot (x' i - t.x i) (z - x' i)
              + (s * S.fn.lipschitz i) * S.vdot (S.fn.gradAt t.x i) (z - x' i) := by ring
        rw [e2, hsL, one_mul, one_mul] at this
        exact this
      have hd1 : S.vdot (x' i - t.x i) (x' i - t.x i) ≤ E ^ 2 := by
        refine le_trans ?_ hsq
        rw [← hmove]
        exact Finset.single_le_sum (f := fun k => S.vdot (x' k - t.x k) (x' k - t.x k)) (fun k _ => hv.nonneg _) (Finset.mem_univ i)
      have hd2 : S.vdot (S.fn.gradAt t.x i - S.fn.gradAt x' i) (S.fn.gradAt t.x i - S.fn.gradAt x' i) ≤ (G * E) ^ 2 := by
        have h5 := hG x' t.x i
        rw [hmove] at h5
        have e3 : S.fn.gradAt t.x i - S.fn.gradAt x' i = -(S.fn.gradAt x' i - S.fn.gradAt t.x i) := by abel
        rw [e3, hv.neg_right, hv.symm, hv.neg_right, neg_neg, mul_pow]
        exact h5.trans (mul_le_mul_of_nonneg_left hsq (sq_nonneg _))
      have hc1 := vdot_le hv hE hR hd1 hzR
      have hc2 := vdot_le hv (mul_nonneg hG0 hE) hR hd2 hzR
      rw [hv.sub_left] at hc2
      have hc3 : S.fn.lipschitz i * S.vdot (x' i - t.x i) (z - x' i) ≤ L1 * (E * R) :=
        (mul_le_mul_of_nonneg_left hc1 (hLp i).le).trans (mul_le_mul_of_nonneg_right (hL1 i) (mul_nonneg hE hR))
      rw [hv.symm (z - x' i)]
      linarith
    · refine ih hnd.2 (S.body j t) (body_exact S j t he) ?_ hij hzR
      have := body_sqerror S hv j t
      linarith

/-! ## Theorems -/

namespace BCD

/-- The accumulated squared steps of epoch `k + 1`. -/
def epochSq (S : BCD K W m n) (x0 : Fin n → W) (k : ℕ) : K := (S.inner x0 k n).sqerror

theorem inner_full (S : BCD K W m n) (x0 : Fin n → W) (k : ℕ) : S.inner x0 k n =
    S.over (List.finRange n) ⟨(S.iterate x0 k).1, (S.iterate x0 k).2.subfunG, (S.iterate x0 k).2.predictions, 0⟩ := by
  unfold inner
  rw [List.take_of_length_le (by simp)]

theorem iterate_x (S : BCD K W m n) (x0 : Fin n → W) (k : ℕ) : (S.iterate x0 (k + 1)).1 = (S.inner x0 k n).x := by
  rw [inner_full, iterate_succ]; rfl

theorem iterate_error (S : BCD K W m n) (x0 : Fin n → W) (k : ℕ) :
    (S.iterate x0 (k + 1)).2.error = .fin (S.sqrt (S.epochSq x0 k)) := by
  unfold epochSq
  rw [inner_full, iterate_succ]; rfl

theorem epochSq_nonneg (S : BCD K W m n) (hv : IsVdot S.vdot) (x0 : Fin n → W) (k : ℕ) : 0 ≤ S.epochSq x0 k := by
  unfold epochSq
  rw [inner_full]
  exact over_sqerror S hv (List.finRange n) ⟨_, _, _, 0⟩

/-- `sqrt` is an exact square root. -/
def SqrtSpec (S : BCD K W m n) : Prop := ∀ a, 0 ≤ a → 0 ≤ S.sqrt a ∧ S.sqrt a ^ 2 = a

/-- **C95**, decrease: an epoch from a point of the domain decreases the objective by at least half the smallest constant times the square
of the error it reports. -/
theorem C95_sufficient_decrease (S : BCD K W m n) (hv : IsVdot S.vdot) (hsq : S.SqrtSpec) {C : Set W} {h : W → K}
    (hp : IsProx S.vdot C h S.blockProx) (hh : ConvexOn K C h) {L0 : K} (hL0 : 0 < L0) (hL : ∀ j, L0 ≤ S.fn.lipschitz j)
    (hc : CoordUpper S.vdot S.fn S.fn.lipschitz) (x0 : Fin n → W) (hx0 : ∀ j, x0 j ∈ C) (k : ℕ) {e : K}
    (he : (S.iterate x0 (k + 1)).2.error = .fin e) :
    L0 / 2 * e ^ 2 ≤ objective S h (S.iterate x0 k).1 - objective S h (S.iterate x0 (k + 1)).1 := by
  rw [iterate_error] at he
  obtain rfl : S.sqrt (S.epochSq x0 k) = e := by simpa using he
  rw [(hsq _ (S.epochSq_nonneg hv x0 k)).2, iterate_x]
  unfold epochSq
  rw [inner_full]
  have hdom := (S.C35_descent hv hp (fun j => hL0.trans_le (hL j)) hc x0 hx0 k).1
  have := over_decrease S hv hp hh hL0 hL hc (List.finRange n) ⟨(S.iterate x0 k).1, (S.iterate x0 k).2.subfunG,
    (S.iterate x0 k).2.predictions, 0⟩ (S.C35_caches x0 k).1 hdom
  simp only [sub_zero] at this
  linarith

/-- **C95**, termination: if the objective is bounded below by `B` and `maxiter` exceeds `2 (F(x0) - B) / (L0 tol²)`, a run from any point
of the domain stops by its tolerance. -/
theorem C95_terminates (S : BCD K W m n) (hv : IsVdot S.vdot) (hsq : S.SqrtSpec) {C : Set W} {h : W → K}
    (hp : IsProx S.vdot C h S.blockProx) (hh : ConvexOn K C h) {L0 : K} (hL0 : 0 < L0) (hL : ∀ j, L0 ≤ S.fn.lipschitz j)
    (hc : CoordUpper S.vdot S.fn S.fn.lipschitz) (x0 : Fin n → W) (hx0 : ∀ j, x0 j ∈ C) {B : K}
    (hB : ∀ x : Fin n → W, (∀ j, x j ∈ C) → B ≤ objective S h x) (htol : 0 < S.tol) (hm : 1 ≤ S.maxiter)
    (hN : 2 * (objective S h x0 - B) < S.maxiter * (L0 * S.tol ^ 2)) {r : (Fin n → W) × BCDState K W m} (hr : S.run x0 = .ok r) :
    ∃ k, k + 1 ≤ S.maxiter ∧ r = S.iterate x0 (k + 1) ∧ ∃ e, r.2.error = .fin e ∧ e ≤ S.tol := by
  obtain ⟨k, hk1, hk2, hk, hrun, hend⟩ := runS_spec hm hr
  have hdom : ∀ k, ∀ j, (S.iterate x0 k).1 j ∈ C := fun k => (S.C35_descent hv hp (fun j => hL0.trans_le (hL j)) hc x0 hx0 k).1
  have budget : ∀ k, (∀ j, 1 ≤ j → j ≤ k → S.cont (S.iterate x0 j) = true) →
      k * (L0 * S.tol ^ 2) ≤ 2 * (objective S h x0 - objective S h (S.iterate x0 k).1) := by
    intro k
    induction k with
    | zero => intro _; simp [iterate]
    | succ k ih =>
      intro hj
      have h1 := ih (fun j h1 h2 => hj j h1 (by omega))
      have h2 := hj (k + 1) (by omega) le_rfl
      have h3 := S.C95_sufficient_decrease hv hsq hp hh hL0 hL hc x0 hx0 k (S.iterate_error x0 k)
      have h4 : S.tol < S.sqrt (S.epochSq x0 k) := by
        unfold cont at h2
        rw [iterate_error] at h2
        exact of_decide_eq_true h2
      have h5 : L0 * S.tol ^ 2 ≤ L0 * S.sqrt (S.epochSq x0 k) ^ 2 :=
        mul_le_mul_of_nonneg_left (pow_le_pow_left₀ htol.le h4.le 2) hL0.le
      push_cast
      linarith
  have hstop : S.cont (S.iterate x0 k) = false := by
    rcases hend with hend | hend
    · by_contra hne
      rw [Bool.not_eq_false] at hne
      have h1 := budget k (fun j hj hj' => by
        rcases Nat.lt_or_ge j k with hlt | hge
        · exact hrun j hj hlt
        · rw [Nat.le_antisymm hj' hge]; exact hne)
      have h2 := hB _ (hdom k)
      rw [← hend] at hN
      linarith
    · exact hend
  obtain ⟨j, rfl⟩ : ∃ j, k = j + 1 := ⟨k - 1, by omega⟩
  refine ⟨j, hk2, hk, S.sqrt (S.epochSq x0 j), by rw [hk]; exact S.iterate_error x0 j, ?_⟩
  unfold cont at hstop
  rw [iterate_error] at hstop
  exact not_lt.mp (of_decide_eq_false hstop)

/-- **C95**, certificate: if `fun` is convex with block gradients that are Lipschitz with constant `G`, the error `e` of an epoch bounds the
suboptimality of the point it returns: compared with any point of the domain whose blocks are within `R`, the objective is at most
`n (L1 + G) e R` larger. -/
theorem C95_certificate (S : BCD K W m n) (hv : IsVdot S.vdot) (hsq : S.SqrtSpec) {C : Set W} {h : W → K}
    (hp : IsProx S.vdot C h S.blockProx) (hh : ConvexOn K C h) (hLp : ∀ j, 0 < S.fn.lipschitz j) {L1 : K}
    (hL1 : ∀ j, S.fn.lipschitz j ≤ L1)
    (hconv : ∀ x y : Fin n → W, S.fn.call S.vdot x + ∑ j, S.vdot (y j - x j) (S.fn.gradAt x j) ≤ S.fn.call S.vdot y)
    {G : K} (hG0 : 0 ≤ G) (hG : GradLip S.vdot S.fn G) (x0 : Fin n → W) (k : ℕ) {e : K}
    (he : (S.iterate x0 (k + 1)).2.error = .fin e) (y : Fin n → W) (hy : ∀ j, y j ∈ C) {R : K} (hR0 : 0 ≤ R)
    (hR : ∀ j, S.vdot (y j - (S.iterate x0 (k + 1)).1 j) (y j - (S.iterate x0 (k + 1)).1 j) ≤ R ^ 2) :
    objective S h (S.iterate x0 (k + 1)).1 ≤ objective S h y + n * ((L1 + G) * e * R) := by
  rw [iterate_error] at he
  obtain rfl : S.sqrt (S.epochSq x0 k) = e := by simpa using he
  obtain ⟨hs0, hs1⟩ := hsq _ (S.epochSq_nonneg hv x0 k)
  have hvi : ∀ j, -((L1 + G) * S.sqrt (S.epochSq x0 k) * R) ≤ h (y j) - h ((S.iterate x0 (k + 1)).1 j)
      + S.vdot (y j - (S.iterate x0 (k + 1)).1 j) (S.fn.gradAt (S.iterate x0 (k + 1)).1 j) := by
    intro j
    have hRj := hR j
    rw [iterate_x] at hRj ⊢
    have hsq' : (S.inner x0 k n).sqerror ≤ S.sqrt (S.epochSq x0 k) ^ 2 := by rw [hs1]; exact le_rfl
    rw [inner_full] at hRj hsq' ⊢
    exact over_vi S hv hp hh hLp hL1 hG0 hG hs0 (List.finRange n) (List.nodup_finRange n) _ (S.C35_caches x0 k).1
      (by simpa using hsq') j (List.mem_finRange j) (hy j) hR0 hRj
  have hsum := Finset.sum_le_sum (s := Finset.univ) fun j _ => hvi j
  rw [Finset.sum_const, Finset.card_univ, Fintype.card_fin, nsmul_eq_mul, Finset.sum_add_distrib, Finset.sum_sub_distrib] at hsum
  have := hconv (S.iterate x0 (k + 1)).1 y
  unfold objective
  linarith

end BCD

/-! ## Least squares -/

/-- Cauchy's inequality for combinations of blocks. -/
theorem vdot_comb_le {vdot : W → W → K} (hv : IsVdot vdot) (c : Fin n → K) (d : Fin n → W) :
    vdot (∑ k, c k • d k) (∑ k, c k • d k) ≤ (∑ k, c k ^ 2) * ∑ k, vdot (d k) (d k) := by
  have h1 : vdot (∑ k, c k • d k) (∑ k, c k • d k) = ∑ k, ∑ l, c k * c l * vdot (d k) (d l) := by
    rw [vdot_sum_left hv]
    refine Finset.sum_congr rfl fun k _ => ?_
    rw [vdot_sum_right hv]
    exact Finset.sum_congr rfl fun l _ => by rw [hv.smul_left, hv.smul_right]; ring
  have h2 : ∀ k l, c k * c l * vdot (d k) (d l) ≤ 1 / 2 * (c l ^ 2 * vdot (d k) (d k)) + 1 / 2 * (c k ^ 2 * vdot (d l) (d l)) := by
    intro k l
    have h := hv.nonneg (c l • d k - c k • d l)
    rw [hv.sub_left, hv.sub_right, hv.sub_right, hv.smul_left, hv.smul_left, hv.smul_left, hv.smul_left, hv.smul_right, hv.smul_right,
      hv.smul_right, hv.smul_right, hv.symm (d l) (d k)] at h
    nlinarith
  rw [h1]
  refine (Finset.sum_le_sum fun k _ => Finset.sum_le_sum fun l _ => h2 k l).trans (le_of_eq ?_)
  simp only [Finset.sum_add_distrib, ← Finset.mul_sum, ← Finset.sum_mul]
  ring

/-- The Hessian of a quadratic composite, `a Aᵀ A`. -/
def hess (F : Composite K W m n) (a : K) (j k : Fin n) : K := a * ∑ i, F.A i j * F.A i k

/-- The gradient of least squares moves by the Hessian. -/
theorem leastSquares_gradAt (vdot : W → W → K) (dim : ℕ) (X : Matrix (Fin m) (Fin n) K) (y : Fin m → W) (u v : Fin n → W) (j : Fin n) :
    (leastSquares vdot dim X y).gradAt u j - (leastSquares vdot dim X y).gradAt v j
      = ∑ k, hess (leastSquares vdot dim X y) (1 / ((m * dim : ℕ) : K)) j k • (u k - v k) := by
  simp only [Composite.gradAt, leastSquares, rmatvecElement, hess, matvec, Option.getD_none, Pi.zero_apply, add_zero]
  rw [← Finset.sum_sub_distrib]
  have h1 : ∀ i, X i j • (1 / ((m * dim : ℕ) : K)) • ((∑ k, X i k • u k) - y i) - X i j • (1 / ((m * dim : ℕ) : K)) • ((∑ k, X i k • v k) - y i)
      = ∑ k, ((1 / ((m * dim : ℕ) : K)) * (X i j * X i k)) • (u k - v k) := by
    intro i
    rw [← smul_sub, ← smul_sub, sub_sub_sub_cancel_right, ← Finset.sum_sub_distrib, Finset.smul_sum, Finset.smul_sum]
    refine Finset.sum_congr rfl fun k _ => ?_
    rw [← smul_sub, smul_smul, smul_smul]
    congr 1; ring
  simp only [h1]
  rw [Finset.sum_comm]
  refine Finset.sum_congr rfl fun k _ => ?_
  rw [← Finset.sum_smul, Finset.mul_sum]

theorem leastSquares_gradLip {vdot : W → W → K} (hv : IsVdot vdot) (dim : ℕ) (X : Matrix (Fin m) (Fin n) K) (y : Fin m → W) {G : K}
    (hG : ∀ j, ∑ k, hess (leastSquares vdot dim X y) (1 / ((m * dim : ℕ) : K)) j k ^ 2 ≤ G ^ 2) :
    GradLip vdot (leastSquares vdot dim X y) G := by
  intro u v j
  rw [leastSquares_gradAt]
  refine (vdot_comb_le hv _ _).trans ?_
  exact mul_le_mul_of_nonneg_right (hG j) (Finset.sum_nonneg fun k _ => hv.nonneg _)

theorem matvec_add (A : Matrix (Fin m) (Fin n) K) (x d : Fin n → W) : matvec A (x + d) = matvec A x + matvec A d := by
  funext i
  simp only [matvec, Pi.add_apply, smul_add, Finset.sum_add_distrib]

theorem matvec_adjoint {vdot : W → W → K} (hv : IsVdot vdot) (A : Matrix (Fin m) (Fin n) K) (d : Fin n → W) (g : Fin m → W) :
    ∑ i, vdot (matvec A d i) (g i) = ∑ j, vdot (d j) (rmatvecElement A g j) := by
  have l1 : ∀ i, vdot (matvec A d i) (g i) = ∑ j, A i j * vdot (d j) (g i) := fun i => by
    unfold matvec
    rw [vdot_sum_left hv]
    exact Finset.sum_congr rfl fun j _ => by rw [hv.smul_left]
  have l2 : ∀ j, vdot (d j) (rmatvecElement A g j) = ∑ i, A i j * vdot (d j) (g i) := fun j => by
    unfold rmatvecElement
    rw [vdot_sum_right hv]
    exact Finset.sum_congr rfl fun i _ => by rw [hv.smul_right]
  rw [Finset.sum_congr rfl fun i _ => l1 i, Finset.sum_congr rfl fun j _ => l2 j]
  exact Finset.sum_comm

/-- A composite of a convex quadratic lies above its tangents. -/
theorem quadratic_convex {vdot : W → W → K} (hv : IsVdot vdot) {F : Composite K W m n} {a : K} (ha : 0 ≤ a) (hq : IsQuadratic vdot F a)
    (x y : Fin n → W) : F.call vdot x + ∑ j, vdot (y j - x j) (F.gradAt x j) ≤ F.call vdot y := by
  have e : y = x + (y - x) := by abel
  have h0 : F.call vdot y = F.subfun (matvec F.A x + matvec F.A (y - x)) + ∑ j, vdot (y j) ((F.b.getD 0) j) := by
    rw [call_eq F hv, ← matvec_add, ← e]
  rw [h0, hq, call_eq F hv]
  have h1 : ∑ i, vdot (matvec F.A (y - x) i) (F.gradSubfun (matvec F.A x) i)
      = ∑ j, vdot (y j - x j) (rmatvecElement F.A (F.gradSubfun (matvec F.A x)) j) :=
     matvec_adjoint hv F.A (y - x) _
  have h2 : ∑ j, vdot (y j - x j) (F.gradAt x j) = ∑ j, vdot (y j - x j) (rmatvecElement F.A (F.gradSubfun (matvec F.A x)) j)
      + (∑ j, vdot (y j) ((F.b.getD 0) j) - ∑ j, vdot (x j) ((F.b.getD 0) j)) := by
    simp only [Composite.gradAt, hv.add_right, Finset.sum_add_distrib]
    rw [← Finset.sum_sub_distrib]
    congr 1
    exact Finset.sum_congr rfl fun j _ => by rw [hv.sub_left]
  have h3 : 0 ≤ a / 2 * ∑ i, vdot (matvec F.A (y - x) i) (matvec F.A (y - x) i) :=
    mul_nonneg (by linarith) (Finset.sum_nonneg fun i _ => hv.nonneg _)
  rw [h2, h1]
  linarith

namespace BCD

/-- **C95**, least squares: for every data set without zero columns and every convex regulariser bounded below on its domain, a run with
`maxiter` above the explicit bound stops by its tolerance, and its result is within `n (L1 + G) tol R` of every point of the domain whose
blocks are within `R`. -/
theorem C95_least_squares (S : BCD K W m n) (hv : IsVdot S.vdot) (hsq : S.SqrtSpec) {C : Set W} {h : W → K}
    (hp : IsProx S.vdot C h S.blockProx) (hh : ConvexOn K C h) {dim : ℕ} (hm : 1 ≤ m * dim) (X : Matrix (Fin m) (Fin n) K)
    (y : Fin m → W) (hfn : S.fn = leastSquares S.vdot dim X y) {L0 L1 G hb : K} (hL0 : 0 < L0)
    (hX : ∀ j, L0 ≤ ∑ i, X i j ^ 2 ∧ ∑ i, X i j ^ 2 ≤ L1) (hG0 : 0 ≤ G)
    (hG : ∀ j, ∑ k, (1 / ((m * dim : ℕ) : K) * ∑ i, X i j * X i k) ^ 2 ≤ G ^ 2) (hhb : ∀ w ∈ C, hb ≤ h w)
    (x0 : Fin n → W) (hx0 : ∀ j, x0 j ∈ C) (htol : 0 < S.tol) (hmax : 1 ≤ S.maxiter)
    (hN : 2 * (objective S h x0 - n * hb) < S.maxiter * (L0 * S.tol ^ 2)) {r : (Fin n → W) × BCDState K W m} (hr : S.run x0 = .ok r) :
    (∃ e, r.2.error = .fin e ∧ e ≤ S.tol) ∧
      ∀ z : Fin n → W, (∀ j, z j ∈ C) → ∀ R, 0 ≤ R → (∀ j, S.vdot (z j - r.1 j) (z j - r.1 j) ≤ R ^ 2) →
        objective S h r.1 ≤ objective S h z + n * ((L1 + G) * S.tol * R) := by
  have hlip : ∀ j, S.fn.lipschitz j = ∑ i, X i j ^ 2 := by
    intro j
    rw [hfn]
    simp only [leastSquares, mul_one, columnSqNorms]
    exact Finset.sum_congr rfl fun i _ => by ring
  have hLl : ∀ j, L0 ≤ S.fn.lipschitz j := fun j => by rw [hlip]; exact (hX j).1
  have hLu : ∀ j, S.fn.lipschitz j ≤ L1 := fun j => by rw [hlip]; exact (hX j).2
  have hc : CoordUpper S.vdot S.fn S.fn.lipschitz := by rw [hfn]; exact C35_least_squares_constants hv hm X y
  have hpos : (0 : K) ≤ 1 / ((m * dim : ℕ) : K) := by positivity
  have hquad : IsQuadratic S.vdot S.fn (1 / ((m * dim : ℕ) : K)) := by rw [hfn]; exact leastSquares_quadratic hv dim X y
  have hB : ∀ x : Fin n → W, (∀ j, x j ∈ C) → n * hb ≤ objective S h x := by
    intro x hx
    have h1 : 0 ≤ S.fn.call S.vdot x := by
      rw [hfn]
      simp only [Composite.call, leastSquares]
      refine mul_nonneg (by norm_num) (div_nonneg (Finset.sum_nonneg fun i _ => hv.nonneg _) (Nat.cast_nonneg _))
    have h2 : n * hb ≤ ∑ j, h (x j) := by
      have := Finset.sum_le_sum (s := Finset.univ) fun (j : Fin n) _ => hhb (x j) (hx j)
      rw [Finset.sum_const, Finset.card_univ, Fintype.card_fin, nsmul_eq_mul] at this
      exact this
    unfold objective
    linarith
  obtain ⟨k, -, hk, e, he, hetol⟩ := S.C95_terminates hv hsq hp hh hL0 hLl hc x0 hx0 hB htol hmax hN hr
  refine ⟨⟨e, he, hetol⟩, fun z hz R hR0 hR => ?_⟩
  rw [hk] at he hR ⊢
  have hGL : GradLip S.vdot S.fn G := by
    rw [hfn]; exact leastSquares_gradLip hv dim X y (fun j => hG j)
  refine (S.C95_certificate hv hsq hp hh (fun j => hL0.trans_le (hLl j)) hLu (quadratic_convex hv hpos hquad) hG0 hGL x0 k he z hz hR0
    hR).trans ?_
  by_cases hn : n = 0
  · subst hn; simp
  · have i0 : Fin n := ⟨0, Nat.pos_of_ne_zero hn⟩
    have hL1 : 0 ≤ L1 := (hL0.le.trans (hLl i0)).trans (hLu i0)
    have h1 : (L1 + G) * e * R ≤ (L1 + G) * S.tol * R :=
      mul_le_mul_of_nonneg_right (mul_le_mul_of_nonneg_left hetol (by linarith)) hR0
    have h2 := mul_le_mul_of_nonneg_left h1 (Nat.cast_nonneg (α := K) n)
    linarith

end BCD

/-! ## Witnesses -/

/-- The SVM dual of `exSvm (1/4)` with any square root, tolerance and iteration limit. -/
def exSvmRun (sqrt : ℚ → ℚ) (tol : ℚ) (maxiter : ℕ) (unroll jit : Bool) : BCD ℚ (Fin 2 → ℚ) 1 1 :=
  { exSvm (1 / 4) with sqrt := sqrt, tol := tol, maxiter := maxiter, unroll := unroll, jit := jit }

/-- The loop tuple of an epoch from `(a, 1 - a)` with exact caches. -/
def exSvmTup (w : Fin 2 → ℚ) : LoopTup ℚ (Fin 2 → ℚ) 1 1 :=
  ⟨fun _ => w, (exSvm (1 / 4)).fn.gradSubfun (matvec (exSvm (1 / 4)).fn.A fun _ => w), matvec (exSvm (1 / 4)).fn.A fun _ => w, 0⟩

theorem exSvm_epoch1 : foriLoop 1 (exSvm (1 / 4)).body (exSvmTup ![1, 0]) = { exSvmTup ![1 / 2, 1 / 2] with sqerror := 1 / 2 } := by
  have h : (foriLoop 1 (exSvm (1 / 4)).body (exSvmTup ![1, 0])).x = (exSvmTup ![1 / 2, 1 / 2]).x ∧
      (foriLoop 1 (exSvm (1 / 4)).body (exSvmTup ![1, 0])).subfunG = (exSvmTup ![1 / 2, 1 / 2]).subfunG ∧
      (foriLoop 1 (exSvm (1 / 4)).body (exSvmTup ![1, 0])).predictions = (exSvmTup ![1 / 2, 1 / 2]).predictions ∧
      (foriLoop 1 (exSvm (1 / 4)).body (exSvmTup ![1, 0])).sqerror = 1 / 2 := by decide +kernel
  obtain ⟨h1, h2, h3, h4⟩ := h
  cases e : foriLoop 1 (exSvm (1 / 4)).body (exSvmTup ![1, 0])
  rw [e] at h1 h2 h3 h4
  simp only at h1 h2 h3 h4
  rw [h1, h2, h3, h4]

theorem exSvm_epoch2 : foriLoop 1 (exSvm (1 / 4)).body (exSvmTup ![1 / 2, 1 / 2]) = { exSvmTup ![1, 0] with sqerror := 1 / 2 } := by
  have h : (foriLoop 1 (exSvm (1 / 4)).body (exSvmTup ![1 / 2, 1 / 2])).x = (exSvmTup ![1, 0]).x ∧
      (foriLoop 1 (exSvm (1 / 4)).body (exSvmTup ![1 / 2, 1 / 2])).subfunG = (exSvmTup ![1, 0]).subfunG ∧
      (foriLoop 1 (exSvm (1 / 4)).body (exSvmTup ![1 / 2, 1 / 2])).predictions = (exSvmTup ![1, 0]).predictions ∧
      (foriLoop 1 (exSvm (1 / 4)).body (exSvmTup ![1 / 2, 1 / 2])).sqerror = 1 / 2 := by decide +kernel
  obtain ⟨h1, h2, h3, h4⟩ := h
  cases e : foriLoop 1 (exSvm (1 / 4)).body (exSvmTup ![1 / 2, 1 / 2])
  rw [e] at h1 h2 h3 h4
  simp only at h1 h2 h3 h4
  rw [h1, h2, h3, h4]

/-- **C95 is false for the SVM dual with a small `l2reg`**: from `(1, 0)` with `l2reg = 1/4` every epoch reports the error `sqrt(1/2)`, so for
every tolerance below it and every iteration limit the run uses all its iterations and reports that error; the iterates alternate for
ever. -/
theorem C95_svm_false (sqrt : ℚ → ℚ) (tol : ℚ) (htol : tol < sqrt (1 / 2)) (N : ℕ) (hN : 1 ≤ N) (unroll jit : Bool)
    {r : (Fin 1 → Fin 2 → ℚ) × BCDState ℚ (Fin 2 → ℚ) 1} (h : (exSvmRun sqrt tol N unroll jit).run (fun _ => ![1, 0]) = .ok r) :
    r.2.iterNum = N ∧ r.2.error = .fin (sqrt (1 / 2)) ∧ r.1 = if N % 2 = 0 then (fun _ => ![1, 0]) else (fun _ => ![1 / 2, 1 / 2]) := by
  set S := exSvmRun sqrt tol N unroll jit with hS
  have step1 : ∀ (j : ℕ) (er : Ext ℚ), S.update ((fun _ => ![1, 0]), ⟨j, er, (exSvmTup ![1, 0]).predictions, (exSvmTup ![1, 0]).subfunG⟩)
      = ((fun _ => ![1 / 2, 1 / 2]), ⟨j + 1, .fin (sqrt (1 / 2)), (exSvmTup ![1 / 2, 1 / 2]).predictions, (exSvmTup ![1 / 2, 1 / 2]).subfunG⟩) := by
    intro j er
    have e : foriLoop 1 S.body ⟨fun _ => ![1, 0], (exSvmTup ![1, 0]).subfunG, (exSvmTup ![1, 0]).predictions, 0⟩
        = { exSvmTup ![1 / 2, 1 / 2] with sqerror := 1 / 2 } := exSvm_epoch1
    unfold BCD.update
    simp only [e]
    rfl
  have step2 : ∀ (j : ℕ) (er : Ext ℚ), S.update ((fun _ => ![1 / 2, 1 / 2]), ⟨j, er, (exSvmTup ![1 / 2, 1 / 2]).predictions, (exSvmTup ![1 / 2, 1 / 2]).subfunG⟩)
      = ((fun _ => ![1, 0]), ⟨j + 1, .fin (sqrt (1 / 2)), (exSvmTup ![1, 0]).predictions, (exSvmTup ![1, 0]).subfunG⟩) := by
    intro j er
    have e : foriLoop 1 S.body ⟨fun _ => ![1 / 2, 1 / 2], (exSvmTup ![1 / 2, 1 / 2]).subfunG, (exSvmTup ![1 / 2, 1 / 2]).predictions, 0⟩
        = { exSvmTup ![1, 0] with sqerror := 1 / 2 } := exSvm_epoch2
    unfold BCD.update
    simp only [e]
    rfl
  have inv : ∀ k, S.update^[k + 1] ((fun _ => ![1, 0]), S.initState fun _ => ![1, 0]) =
      if (k + 1) % 2 = 0 then ((fun _ => ![1, 0]), ⟨k + 1, .fin (sqrt (1 / 2)), (exSvmTup ![1, 0]).predictions, (exSvmTup ![1, 0]).subfunG⟩)
      else ((fun _ => ![1 / 2, 1 / 2]), ⟨k + 1, .fin (sqrt (1 / 2)), (exSvmTup ![1 / 2, 1 / 2]).predictions, (exSvmTup ![1 / 2, 1 / 2]).subfunG⟩) := by
    intro k
    induction k with
    | zero =>
      have e : S.initState (fun _ => ![1, 0]) = ⟨0, .pinf, (exSvmTup ![1, 0]).predictions, (exSvmTup ![1, 0]).subfunG⟩ := rfl
      rw [zero_add, Function.iterate_one, e, step1]; rfl
    | succ k ih =>
      rw [Function.iterate_succ_apply', ih]
      by_cases hk : (k + 1) % 2 = 0
      · rw [if_pos hk, if_neg (by omega), step1]
      · rw [if_neg hk, if_pos (by omega), step2]
  obtain ⟨k, hk1, hk2, hk, -, hend⟩ := runS_spec (by exact hN) h
  obtain ⟨j, rfl⟩ : ∃ j, k = j + 1 := ⟨k - 1, by omega⟩
  have hcont : S.cont (S.update^[j + 1] ((fun _ => ![1, 0]), S.initState fun _ => ![1, 0])) = true := by
    rw [inv]
    by_cases hj : (j + 1) % 2 = 0
    · rw [if_pos hj]; exact decide_eq_true htol
    · rw [if_neg hj]; exact decide_eq_true htol
  have hjN : j + 1 = N := by
    rcases hend with h1 | h1
    · exact h1
    · rw [hcont] at h1; cases h1
  rw [hk, inv, hjN]
  by_cases hj : N % 2 = 0
  · rw [if_pos hj, if_pos hj]; exact ⟨rfl, rfl, rfl⟩
  · rw [if_neg hj, if_neg hj]; exact ⟨rfl, rfl, rfl⟩

/-- The problem of `exLs` over the reals, with the exact square root. -/
noncomputable def exLsReal : BCD ℝ ℝ 2 2 where
  fn := leastSquares (fun a b => a * b) 1 !![1, 1; 0, 2] ![1, 2]
  blockProx := fun x _ => x
  vdot := fun a b => a * b
  sqrt := Real.sqrt
  tol := 1 / 10
  maxiter := 500
  unroll := true
  jit := true

/-- Non-vacuity: the hypotheses of `C95_least_squares` hold for it, so its run stops by its tolerance. -/
example : ∃ r, exLsReal.run ![0, 0] = .ok r ∧ ∃ e, r.2.error = .fin e ∧ e ≤ 1 / 10 := by
  obtain ⟨r, hr⟩ := runS_ok exLsReal.initState exLsReal.update exLsReal.cont (maxiter := 500) (unroll := true) (jit := true)
    ![0, 0] (by norm_num) (Or.inr rfl)
  have hr' : exLsReal.run ![0, 0] = .ok r := hr
  refine ⟨r, hr', (exLsReal.C95_least_squares (C := Set.univ) (h := fun _ => 0) (dim := 1) (L0 := 1) (L1 := 5) (G := 3) (hb := 0)
    IsVdot.mul (fun a ha => ⟨Real.sqrt_nonneg a, Real.sq_sqrt ha⟩) (fun z s hs => ⟨trivial, fun u _ => ?_⟩)
    (convexOn_const 0 convex_univ) (by norm_num) !![1, 1; 0, 2] ![1, 2] rfl one_pos ?_ (by norm_num) ?_ (fun _ _ => le_rfl) ![0, 0]
    (fun _ => trivial) (by norm_num [exLsReal]) (by norm_num [exLsReal]) ?_ hr').1⟩
  · simp only [exLsReal, sub_self, mul_zero, zero_add]
    nlinarith [mul_self_nonneg (u - z)]
  · intro j; fin_cases j <;> norm_num [Fin.sum_univ_two]
  · intro j; fin_cases j <;> norm_num [Fin.sum_univ_two]
  · norm_num [objective, exLsReal, Composite.call, leastSquares, matvec, Fin.sum_univ_two]

/-- Least squares with one sample and one feature, no regulariser. -/
def exLs1 (a : ℚ) : BCD ℚ ℚ 1 1 where
  fn := leastSquares (fun a b => a * b) 1 (fun _ _ => a) (fun _ => 1)
  blockProx := fun x _ => x
  vdot := fun a b => a * b
  sqrt := fun a => a
  tol := 1 / 10000
  maxiter := 500
  unroll := true
  jit := true

/-- **C95**, the comment on line 144 ("a cheap-to-compute lower-bound of self.l2_optimality_error") is false: for the data `X = 1/2`, `y = 1`
the first epoch from `0` has squared error `4`, while the squared optimality error is `1/4` before the epoch and `0` after it. -/
theorem C95_lower_bound_false :
    (exLs1 (1 / 2)).epochSq (fun _ => 0) 0 = 4 ∧
    ∑ j, ((exLs1 (1 / 2)).optimalityFun (fun _ => 0) j) ^ 2 = 1 / 4 ∧
    ∑ j, ((exLs1 (1 / 2)).optimalityFun ((exLs1 (1 / 2)).iterate (fun _ => 0) 1).1 j) ^ 2 = 0 := by
  decide +kernel

end Jaxopt.BlockCD
