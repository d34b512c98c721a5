import Verif.FixedPoint.Anderson
import Verif.Base.Util
import Mathlib.LinearAlgebra.Matrix.ToLinearEquiv
import Mathlib.LinearAlgebra.Matrix.NonsingularInverse
import Mathlib.LinearAlgebra.Matrix.Notation
import Mathlib.Algebra.Order.Ring.Rat
import Mathlib.Data.Rat.Defs
import Mathlib.Tactic.LinearCombination
import Mathlib.Tactic.Abel
import Mathlib.Tactic.NormNum
import Mathlib.Tactic.FinCases

/-!
# Property C29: Anderson acceleration
-/

set_option autoImplicit false
set_option linter.unusedSectionVars false
set_option linter.unusedVariables false

namespace Jaxopt.FixedPoint

open Jaxopt.Base Matrix

variable {K E A T : Type*} {m : ℕ} [Field K] [LinearOrder K] [IsStrictOrderedRing K] [AddCommGroup E] [Module K E]

/-! ## Specification -/

/-- `gram` is the Gram matrix of the stored residuals. -/
def IsGram (vdot : E → E → K) (h : AHist K E m) : Prop := ∀ i j, h.gram i j = vdot (h.residuals i) (h.residuals j)

/-- An exact linear solver: it solves every non-singular system. -/
def ExactSolve (solve : LinSolve K m) : Prop := ∀ H c, IsUnit H.det → H *ᵥ solve H c = c

/-! ## The history -/

theorem updateHistory_gram {vdot : E → E → K} (hv : IsVdot vdot) (sqrt : K → K) (pos : Fin m) {h : AHist K E m}
    (hg : IsGram vdot h) (x r : E) : IsGram vdot (updateHistory vdot sqrt pos h x r).1 := by
  intro i j
  simp only [updateHistory]
  by_cases hj : j = pos
  · subst hj; simp
  · rw [Matrix.updateCol_ne hj, Function.update_of_ne hj]
    by_cases hi : i = pos
    · subst hi; simp [Function.update_of_ne hj, hv.symm r]
    · rw [Matrix.updateRow_ne hi, Function.update_of_ne hi]; exact hg i j

theorem updateHistory_error (vdot : E → E → K) (sqrt : K → K) (pos : Fin m) (h : AHist K E m) (x r : E) :
    (updateHistory vdot sqrt pos h x r).2 = sqrt (vdot r r) := by
  simp [updateHistory]

theorem start_gram {vdot : E → E → K} (hv : IsVdot vdot) (x0 : E) : IsGram vdot (AHist.start (m := m) x0) := by
  intro i j
  simp [AHist.start, hv.zero_left]

/-- The last iteration before the `k`-th that wrote slot `i`. -/
theorem slot_step [NeZero m] {k : ℕ} {i : Fin m} (h : i = Fin.ofNat m k ∨ i ≠ Fin.ofNat m k) :
    (i = Fin.ofNat m k → k % m = i.val) ∧ (i ≠ Fin.ofNat m k → k % m ≠ i.val) := by
  constructor
  · rintro rfl; rfl
  · intro h1 h2; exact h1 (Fin.ext h2.symm)

/-- What a slot of the history holds after `k` iterations, given the points `x j` and residuals `r j` of iteration `j`: the
pair of the latest iteration `j < k` with `j ≡ i (mod m)`, or the initial filling. -/
def SlotsOf (x0 : E) (x r : ℕ → E) (k : ℕ) (h : AHist K E m) : Prop :=
  ∀ i : Fin m,
    (∃ j, j < k ∧ k ≤ j + m ∧ j % m = i.val ∧ h.params i = x j ∧ h.residuals i = r j) ∨
    (k ≤ i.val ∧ h.params i = x0 ∧ h.residuals i = 0)

theorem slots_succ [NeZero m] {vdot : E → E → K} {sqrt : K → K} {x0 : E} {x r : ℕ → E} {k : ℕ} {h : AHist K E m}
    (hs : SlotsOf x0 x r k h) : SlotsOf x0 x r (k + 1) (updateHistory vdot sqrt (Fin.ofNat m k) h (x k) (r k)).1 := by
  have hm : 0 < m := Nat.pos_of_ne_zero (NeZero.ne m)
  intro i
  by_cases hi : i = Fin.ofNat m k
  · left
    refine ⟨k, by omega, by omega, (slot_step (Or.inl hi)).1 hi, ?_, ?_⟩ <;> subst hi <;> simp [updateHistory]
  · have hne := (slot_step (Or.inr hi)).2 hi
    have e1 : (updateHistory vdot sqrt (Fin.ofNat m k) h (x k) (r k)).1.params i = h.params i := by
      simp only [updateHistory]; rw [Function.update_of_ne hi]
    have e2 : (updateHistory vdot sqrt (Fin.ofNat m k) h (x k) (r k)).1.residuals i = h.residuals i := by
      simp only [updateHistory]; rw [Function.update_of_ne hi]
    rw [e1, e2]
    rcases hs i with ⟨j, h1, h2, h3, h4, h5⟩ | ⟨h1, h2, h3⟩
    · left
      refine ⟨j, by omega, ?_, h3, h4, h5⟩
      by_contra hc
      have : k = j + m := by omega
      rw [this, Nat.add_mod_right] at hne
      exact hne h3
    · right
      refine ⟨?_, h2, h3⟩
      rcases Nat.lt_or_ge k i.val with hk | hk
      · omega
      · have : k = i.val := by omega
        rw [this, Nat.mod_eq_of_lt i.isLt] at hne
        exact absurd rfl hne

/-! ## The mixing weights -/

/-- The bordered matrix is non-singular when the Gram matrix is one and the ridge is positive. -/
theorem bordered_det {vdot : E → E → K} (hv : IsVdot vdot) (hm : 0 < m) {h : AHist K E m} (hg : IsGram vdot h) {ridge : K}
    (hr : 0 < ridge) : IsUnit (bordered h.gram ridge).det := by
  rw [isUnit_iff_ne_zero]
  intro hdet
  obtain ⟨v, hv0, hHv⟩ := Matrix.exists_mulVec_eq_zero_iff.mpr hdet
  have h1 : ∑ i, v (.inr i) = 0 := by
    have := congrFun hHv (.inl ())
    simp only [bordered, Matrix.mulVec, dotProduct, Fintype.sum_sum_type, Finset.univ_unique, Finset.sum_singleton,
      Matrix.fromBlocks_apply₁₁, Matrix.fromBlocks_apply₁₂, Matrix.of_apply, Matrix.zero_apply, zero_mul, one_mul, zero_add,
      Pi.zero_apply] at this
    exact this
  have h2 : ∀ i, v (.inl ()) + (∑ j, h.gram i j * v (.inr j) + ridge * v (.inr i)) = 0 := by
    intro i
    have := congrFun hHv (.inr i)
    simp only [bordered, Matrix.mulVec, dotProduct, Fintype.sum_sum_type, Finset.univ_unique, Finset.sum_singleton,
      Matrix.fromBlocks_apply₂₁, Matrix.fromBlocks_apply₂₂, Matrix.of_apply, one_mul, Matrix.add_apply, Matrix.smul_apply,
      smul_eq_mul, add_mul, Finset.sum_add_distrib, Pi.zero_apply, Matrix.one_apply] at this
    rw [← this]
    congr 2
    simp
  -- the quadratic form
  have hq : vdot (∑ i, v (.inr i) • h.residuals i) (∑ i, v (.inr i) • h.residuals i) =
      ∑ i, v (.inr i) * ∑ j, h.gram i j * v (.inr j) := by
    have hl : ∀ (s : Finset (Fin m)) z, vdot (∑ i ∈ s, v (.inr i) • h.residuals i) z =
        ∑ i ∈ s, v (.inr i) * vdot (h.residuals i) z := by
      intro s z
      induction s using Finset.induction_on with
      | empty => simp [hv.zero_left]
      | insert a s ha ih => rw [Finset.sum_insert ha, Finset.sum_insert ha, hv.add_left, hv.smul_left, ih]
    rw [hl]
    refine Finset.sum_congr rfl fun i _ => ?_
    rw [hv.symm, hl]
    congr 1
    refine Finset.sum_congr rfl fun j _ => ?_
    rw [hg i j, hv.symm]; ring
  have hs : ∑ i, v (.inr i) * (v (.inl ()) + (∑ j, h.gram i j * v (.inr j) + ridge * v (.inr i))) = 0 := by
    simp [h2]
  simp only [mul_add, Finset.sum_add_distrib] at hs
  rw [← hq, ← Finset.sum_mul, h1, zero_mul, zero_add] at hs
  have hpos : 0 ≤ ∑ i, v (.inr i) * (ridge * v (.inr i)) := Finset.sum_nonneg fun i _ => by
    nlinarith [mul_self_nonneg (v (.inr i))]
  have hsum0 : ∑ i, v (.inr i) * (ridge * v (.inr i)) = 0 := by
    have := hv.nonneg (∑ i, v (.inr i) • h.residuals i)
    linarith
  have hw : ∀ i, v (.inr i) = 0 := by
    intro i
    have := (Finset.sum_eq_zero_iff_of_nonneg (fun i _ => by nlinarith [mul_self_nonneg (v (.inr i))])).mp hsum0 i
      (Finset.mem_univ i)
    have h3 : ridge * (v (.inr i) * v (.inr i)) = 0 := by linarith
    rcases mul_eq_zero.mp h3 with h4 | h4
    · exact absurd h4 hr.ne'
    · exact mul_self_eq_zero.mp h4
  apply hv0
  funext s
  rcases s with u | i
  · have := h2 ⟨0, hm⟩
    simpa [hw] using this
  · exact hw i

/-- The weights of an Anderson step. -/
def weights (solve : LinSolve K m) (h : AHist K E m) (ridge : K) (i : Fin m) : K :=
  minimizeResiduals solve h.gram ridge (.inr i)

theorem weights_system {vdot : E → E → K} (hv : IsVdot vdot) (hm : 0 < m) {h : AHist K E m} (hg : IsGram vdot h) {ridge : K}
    (hr : 0 < ridge) {solve : LinSolve K m} (hs : ExactSolve solve) :
    ∑ i, weights solve h ridge i = 1 ∧
    ∀ i, minimizeResiduals solve h.gram ridge (.inl ()) +
      (∑ j, h.gram i j * weights solve h ridge j + ridge * weights solve h ridge i) = 0 := by
  have hH := hs (bordered h.gram ridge) (Sum.elim (fun _ => 1) (fun _ => 0)) (bordered_det hv hm hg hr)
  constructor
  · have := congrFun hH (.inl ())
    simp only [bordered, Matrix.mulVec, dotProduct, Fintype.sum_sum_type, Finset.univ_unique, Finset.sum_singleton,
      Matrix.fromBlocks_apply₁₁, Matrix.fromBlocks_apply₁₂, Matrix.of_apply, Matrix.zero_apply, zero_mul, one_mul, zero_add,
      Sum.elim_inl] at this
    exact this
  · intro i
    have := congrFun hH (.inr i)
    simp only [bordered, Matrix.mulVec, dotProduct, Fintype.sum_sum_type, Finset.univ_unique, Finset.sum_singleton,
      Matrix.fromBlocks_apply₂₁, Matrix.fromBlocks_apply₂₂, Matrix.of_apply, one_mul, Matrix.add_apply, Matrix.smul_apply,
      smul_eq_mul, add_mul, Finset.sum_add_distrib, Sum.elim_inr, Matrix.one_apply] at this
    rw [← this]
    unfold weights minimizeResiduals bordered
    congr 2
    simp

/-- **C29**, mixing weights: with an exact linear solver, a true Gram matrix and a positive ridge the system is non-singular, the
weights sum to one, and they minimise `‖∑ w_i r_i‖² + ridge·‖w‖²` among all weights summing to one. -/
theorem C29_weights {vdot : E → E → K} (hv : IsVdot vdot) (hm : 0 < m) {h : AHist K E m} (hg : IsGram vdot h) {ridge : K}
    (hr : 0 < ridge) {solve : LinSolve K m} (hs : ExactSolve solve) :
    ∑ i, minimizeResiduals solve h.gram ridge (.inr i) = 1 ∧
    ∀ w : Fin m → K, ∑ i, w i = 1 →
      let r := fun a : Fin m → K => ∑ i, a i • h.residuals i
      let a := fun i => minimizeResiduals solve h.gram ridge (.inr i)
      vdot (r a) (r a) + ridge * ∑ i, a i * a i ≤ vdot (r w) (r w) + ridge * ∑ i, w i * w i := by
  obtain ⟨h1, h2⟩ := weights_system hv hm hg hr hs
  refine ⟨h1, ?_⟩
  intro w hw r a
  have ha : ∑ i, a i = 1 := h1
  set mu := minimizeResiduals solve h.gram ridge (.inl ()) with hmu
  -- bilinearity of the quadratic form
  have hl : ∀ (c : Fin m → K) (s : Finset (Fin m)) z, vdot (∑ i ∈ s, c i • h.residuals i) z =
      ∑ i ∈ s, c i * vdot (h.residuals i) z := by
    intro c s z
    induction s using Finset.induction_on with
    | empty => simp [hv.zero_left]
    | insert b s hb ih => rw [Finset.sum_insert hb, Finset.sum_insert hb, hv.add_left, hv.smul_left, ih]
  have hcross : ∀ c : Fin m → K, vdot (r c) (r a) + ridge * ∑ i, c i * a i = -mu * ∑ i, c i := by
    intro c
    have e1 : vdot (r c) (r a) = ∑ i, c i * ∑ j, h.gram i j * a j := by
      simp only [r]
      rw [hl]
      refine Finset.sum_congr rfl fun i _ => ?_
      rw [hv.symm, hl]
      congr 1
      refine Finset.sum_congr rfl fun j _ => ?_
      rw [hg i j, hv.symm]; ring
    rw [e1, Finset.mul_sum, ← Finset.sum_add_distrib, Finset.mul_sum]
    refine Finset.sum_congr rfl fun i _ => ?_
    have := h2 i
    simp only [weights] at this
    have e2 : ∑ j, h.gram i j * a j + ridge * a i = -mu := by
      simp only [a]; linarith
    calc c i * ∑ j, h.gram i j * a j + ridge * (c i * a i) = c i * (∑ j, h.gram i j * a j + ridge * a i) := by ring
      _ = -mu * c i := by rw [e2]; ring
  -- expand around `a`
  have hd : r w = r a + r (fun i => w i - a i) := by
    simp only [r, ← Finset.sum_add_distrib]
    refine Finset.sum_congr rfl fun i _ => ?_
    rw [← add_smul]; congr 1; ring
  have hq : ∑ i, w i * w i = ∑ i, a i * a i + 2 * ∑ i, (w i - a i) * a i + ∑ i, (w i - a i) * (w i - a i) := by
    rw [Finset.mul_sum, ← Finset.sum_add_distrib, ← Finset.sum_add_distrib]
    refine Finset.sum_congr rfl fun i _ => ?_
    ring
  have hz : ∑ i, (w i - a i) = 0 := by rw [Finset.sum_sub_distrib, hw, ha]; ring
  have hc := hcross (fun i => w i - a i)
  rw [hz, mul_zero] at hc
  rw [hq, hd]
  simp only [hv.add_left, hv.add_right]
  rw [hv.symm (r a) (r fun i => w i - a i)]
  have n1 := hv.nonneg (r fun i => w i - a i)
  have n2 : 0 ≤ ∑ i, (w i - a i) * (w i - a i) := Finset.sum_nonneg fun i _ => mul_self_nonneg _
  nlinarith [mul_nonneg hr.le n2]

/-! ## The solver -/

namespace Anderson

variable [NeZero m]

/-- The point at which the map is evaluated in iteration `j` of a run from `x0`. -/
def point (S : Anderson K E A m) (x0 : E) (j : ℕ) : E := S.extrapolated (S.update^[j] (x0, S.initState x0))

/-- **C29**, bookkeeping: after any number `k` of updates the Gram matrix is that of the stored residuals; each written slot `i`
holds `(x, f(x) - x)` for the point `x` of the latest iteration `j ≡ i`; the other slots hold the initial filling; `iter_num = k`
and the function was evaluated `k + 1` times; after at least one update the parameters are `f(x)` and the error is the norm of
`f(x) - x` for the latest point `x`. -/
theorem C29_bookkeeping (S : Anderson K E A m) (hv : IsVdot S.vdot) (x0 : E) (k : ℕ) :
    let p := S.update^[k] (x0, S.initState x0)
    let f := fun x => (S.fixedPointFun.fn x).1
    (∀ i j, p.2.hist.gram i j = S.vdot (p.2.hist.residuals i) (p.2.hist.residuals j)) ∧
    (∀ i : Fin m,
      (∃ j, j < k ∧ k ≤ j + m ∧ j % m = i.val ∧ p.2.hist.params i = S.point x0 j ∧
        p.2.hist.residuals i = f (p.2.hist.params i) - p.2.hist.params i) ∨
      (k ≤ i.val ∧ p.2.hist.params i = x0 ∧ p.2.hist.residuals i = 0)) ∧
    p.2.iterNum = k ∧ p.2.numFunEval = k + 1 ∧
    (1 ≤ k → p.1 = f (S.point x0 (k - 1)) ∧
      p.2.error = .fin (S.sqrt (S.vdot (f (S.point x0 (k - 1)) - S.point x0 (k - 1))
        (f (S.point x0 (k - 1)) - S.point x0 (k - 1))))) := by
  intro p f
  have key : ∀ k, IsGram S.vdot (S.update^[k] (x0, S.initState x0)).2.hist ∧
      SlotsOf x0 (S.point x0) (fun j => f (S.point x0 j) - S.point x0 j) k (S.update^[k] (x0, S.initState x0)).2.hist ∧
      (S.update^[k] (x0, S.initState x0)).2.iterNum = k ∧ (S.update^[k] (x0, S.initState x0)).2.numFunEval = k + 1 := by
    intro k
    induction k with
    | zero =>
      refine ⟨start_gram hv x0, fun i => ?_, rfl, rfl⟩
      right; exact ⟨Nat.zero_le _, rfl, rfl⟩
    | succ k ih =>
      obtain ⟨h1, h2, h3, h4⟩ := ih
      rw [Function.iterate_succ_apply']
      simp only [update]
      rw [h3, h4]
      refine ⟨updateHistory_gram hv _ _ h1 _ _, ?_, rfl, rfl⟩
      exact slots_succ h2
  obtain ⟨h1, h2, h3, h4⟩ := key k
  refine ⟨h1, fun i => ?_, h3, h4, fun hk => ?_⟩
  · rcases h2 i with ⟨j, a1, a2, a3, a4, a5⟩ | h
    · left; refine ⟨j, a1, a2, a3, a4, ?_⟩
      rw [a5, a4]
    · right; exact h
  · obtain ⟨j, rfl⟩ : ∃ j, k = j + 1 := ⟨k - 1, by omega⟩
    simp only [p, Function.iterate_succ_apply', update, Nat.add_sub_cancel, updateHistory_error]
    exact ⟨rfl, rfl⟩

/-- **C29**, warm-up: the first `history_size` updates are plain fixed-point iterations, and a later iteration `k` extrapolates
exactly when `mixing_frequency` divides `k`. -/
theorem C29_warmup (S : Anderson K E A m) (hv : IsVdot S.vdot) (x0 : E) :
    (∀ k, k ≤ m → (S.update^[k] (x0, S.initState x0)).1 = (fun x => (S.fixedPointFun.fn x).1)^[k] x0) ∧
    (∀ k, ¬ (S.mixingFrequency ∣ k ∧ m ≤ k) → S.point x0 k = (S.update^[k] (x0, S.initState x0)).1) ∧
    (∀ k, S.mixingFrequency ∣ k → m ≤ k →
      S.point x0 k = (∑ i, weights S.solve (S.update^[k] (x0, S.initState x0)).2.hist S.ridge i •
          (S.update^[k] (x0, S.initState x0)).2.hist.params i) +
        S.beta • ∑ i, weights S.solve (S.update^[k] (x0, S.initState x0)).2.hist S.ridge i •
          (S.update^[k] (x0, S.initState x0)).2.hist.residuals i) := by
  have hit : ∀ k, (S.update^[k] (x0, S.initState x0)).2.iterNum = k := fun k => (C29_bookkeeping S hv x0 k).2.2.1
  have h2 : ∀ k, ¬ (S.mixingFrequency ∣ k ∧ m ≤ k) → S.point x0 k = (S.update^[k] (x0, S.initState x0)).1 := by
    intro k hk
    simp only [point, extrapolated, hit]
    rw [if_neg]
    rwa [← Nat.dvd_iff_mod_eq_zero]
  refine ⟨fun k => ?_, h2, fun k h1 hm => ?_⟩
  · induction k with
    | zero => intro _; rfl
    | succ k ih =>
      intro hk
      have := (C29_bookkeeping S hv x0 (k + 1)).2.2.2.2 (by omega)
      rw [this.1, Nat.add_sub_cancel, h2 k (by omega), ih (by omega), Function.iterate_succ_apply']
  · simp only [point, extrapolated, hit]
    rw [if_pos ⟨(Nat.dvd_iff_mod_eq_zero).mp h1, hm⟩]
    rfl

/-- **C29**, fixed points: with an exact linear solver and a positive ridge a run started at a fixed point never leaves it, and its
error is zero after every update. -/
theorem C29_fixed_point_partial (S : Anderson K E A m) (hv : IsVdot S.vdot) (hr : 0 < S.ridge) (hs : ExactSolve S.solve) {x0 : E}
    (hx : (S.fixedPointFun.fn x0).1 = x0) (h0 : S.sqrt 0 = 0) (k : ℕ) :
    (S.update^[k] (x0, S.initState x0)).1 = x0 ∧
      (1 ≤ k → (S.update^[k] (x0, S.initState x0)).2.error = .fin 0) := by
  have hm : 0 < m := Nat.pos_of_ne_zero (NeZero.ne m)
  have key : ∀ k, (S.update^[k] (x0, S.initState x0)).1 = x0 ∧
      (∀ i, (S.update^[k] (x0, S.initState x0)).2.hist.params i = x0 ∧
        (S.update^[k] (x0, S.initState x0)).2.hist.residuals i = 0) := by
    intro k
    induction k with
    | zero => exact ⟨rfl, fun i => ⟨rfl, rfl⟩⟩
    | succ k ih =>
      obtain ⟨h1, h2⟩ := ih
      have hg : IsGram S.vdot (S.update^[k] (x0, S.initState x0)).2.hist := (C29_bookkeeping S hv x0 k).1
      have hext : S.extrapolated (S.update^[k] (x0, S.initState x0)) = x0 := by
        simp only [extrapolated]
        split_ifs with hc
        · have hw := (C29_weights hv hm hg hr hs).1
          simp only [andersonStep, treeAverage, h2, smul_zero, Finset.sum_const_zero, add_zero]
          rw [← Finset.sum_smul, hw, one_smul]
        · exact h1
      rw [Function.iterate_succ_apply']
      simp only [update, hext, hx]
      refine ⟨trivial, fun i => ?_⟩
      simp only [updateHistory, sub_self]
      by_cases hi : i = Fin.ofNat m (S.update^[k] (x0, S.initState x0)).2.iterNum
      · rw [← hi]; simp
      · rw [Function.update_of_ne hi, Function.update_of_ne hi]; exact h2 i
  refine ⟨(key k).1, fun hk => ?_⟩
  obtain ⟨j, rfl⟩ : ∃ j, k = j + 1 := ⟨k - 1, by omega⟩
  have he := ((C29_bookkeeping S hv x0 (j + 1)).2.2.2.2 hk).2
  have hp := ((C29_bookkeeping S hv x0 (j + 1)).2.2.2.2 hk).1
  have hpt : S.point x0 j = x0 := by
    have hg : IsGram S.vdot (S.update^[j] (x0, S.initState x0)).2.hist := (C29_bookkeeping S hv x0 j).1
    simp only [point, extrapolated]
    split_ifs with hc
    · have hw := (C29_weights hv hm hg hr hs).1
      simp only [andersonStep, treeAverage, (key j).2, smul_zero, Finset.sum_const_zero, add_zero]
      rw [← Finset.sum_smul, hw, one_smul]
    · exact (key j).1
  rw [he, Nat.add_sub_cancel, hpt]
  simp only [hx, sub_self, hv.zero_left, h0]

/-- `run` rejects a history of size one (`__post_init__`). -/
theorem C29_history_size (S : Anderson K E A m) (x0 : E) {r : E × AndersonState K E A m} (h : S.run x0 = .ok r) : 2 ≤ m := by
  by_contra hc
  simp only [run, postInit] at h
  rw [if_pos (by omega)] at h
  cases h

/-- **C29**, stopping: what `run` returns with `error ≤ tol` (as it does unless it used `maxiter` iterations) is `f(x)` for a point
`x` whose residual has norm at most `tol`. -/
theorem C29_run (S : Anderson K E A m) (hv : IsVdot S.vdot) (hm : 1 ≤ S.maxiter) {x0 : E} {r : E × AndersonState K E A m}
    (h : S.run x0 = .ok r) :
    ∃ x, r.1 = (S.fixedPointFun.fn x).1 ∧ r.2.error = .fin (S.sqrt (S.vdot (r.1 - x) (r.1 - x))) ∧
      (r.2.iterNum = S.maxiter ∨ S.sqrt (S.vdot (r.1 - x) (r.1 - x)) ≤ S.tol) := by
  have h2 := C29_history_size S x0 h
  simp only [run, postInit] at h
  rw [if_neg (by omega)] at h
  obtain ⟨k, h1, h3, rfl, h4, h5⟩ := runS_spec hm h
  have hb := C29_bookkeeping S hv x0 k
  obtain ⟨b1, b2⟩ := hb.2.2.2.2 h1
  refine ⟨S.point x0 (k - 1), b1, ?_, ?_⟩
  · rw [b2, b1]
  · rcases h5 with h5 | h5
    · left; rw [hb.2.2.1, h5]
    · right
      simp only [cont, b2, Ext.gt, Ext.lt, decide_eq_false_iff_not, not_lt] at h5
      rw [b1]; exact h5

end Anderson

namespace AWrapper

variable [NeZero m]

/-- The point from which the wrapped solver steps in iteration `j`. -/
def point (S : AWrapper K E T m) (x0 : E) (j : ℕ) : E × T := S.extrapolated (S.update^[j] (x0, S.initState x0))

/-- **C29** for the wrapper: same bookkeeping, with the wrapped solver's update in place of the map; the first `history_size`
updates are those of the wrapped solver, and the reported error is the wrapped solver's. -/
theorem C29_wrapper (S : AWrapper K E T m) (hv : IsVdot S.vdot) (x0 : E) (k : ℕ) :
    let p := S.update^[k] (x0, S.initState x0)
    (∀ i j, p.2.hist.gram i j = S.vdot (p.2.hist.residuals i) (p.2.hist.residuals j)) ∧
    (∀ i : Fin m,
      (∃ j, j < k ∧ k ≤ j + m ∧ j % m = i.val ∧ p.2.hist.params i = (S.point x0 j).1 ∧
        p.2.hist.residuals i = (S.solverUpdate (S.point x0 j).1 (S.point x0 j).2).1 - p.2.hist.params i) ∨
      (k ≤ i.val ∧ p.2.hist.params i = x0 ∧ p.2.hist.residuals i = 0)) ∧
    p.2.iterNum = k ∧ p.2.error = S.solverError p.2.solverState ∧
    (k ≤ m → (p.1, p.2.solverState) = (fun q : E × T => S.solverUpdate q.1 q.2)^[k] (x0, S.solverInit x0)) := by
  intro p
  have key : ∀ k, IsGram S.vdot (S.update^[k] (x0, S.initState x0)).2.hist ∧
      SlotsOf x0 (fun j => (S.point x0 j).1)
        (fun j => (S.solverUpdate (S.point x0 j).1 (S.point x0 j).2).1 - (S.point x0 j).1) k
        (S.update^[k] (x0, S.initState x0)).2.hist ∧
      (S.update^[k] (x0, S.initState x0)).2.iterNum = k ∧
      (S.update^[k] (x0, S.initState x0)).2.error = S.solverError (S.update^[k] (x0, S.initState x0)).2.solverState := by
    intro k
    induction k with
    | zero =>
      refine ⟨start_gram hv x0, fun i => ?_, rfl, rfl⟩
      right; exact ⟨Nat.zero_le _, rfl, rfl⟩
    | succ k ih =>
      obtain ⟨h1, h2, h3, h4⟩ := ih
      rw [Function.iterate_succ_apply']
      simp only [update]
      rw [h3]
      refine ⟨updateHistory_gram hv _ _ h1 _ _, ?_, rfl, trivial⟩
      exact slots_succ h2
  obtain ⟨h1, h2, h3, h4⟩ := key k
  refine ⟨h1, fun i => ?_, h3, h4, ?_⟩
  · rcases h2 i with ⟨j, a1, a2, a3, a4, a5⟩ | h
    · left; refine ⟨j, a1, a2, a3, a4, ?_⟩
      rw [a5, a4]
    · right; exact h
  · simp only [p]
    clear h1 h2 h3 h4 p
    induction k with
    | zero => intro _; rfl
    | succ k ih =>
      intro hk
      have ih := ih (by omega)
      rw [Function.iterate_succ_apply', Function.iterate_succ_apply', ← ih]
      have he : S.extrapolated (S.update^[k] (x0, S.initState x0)) =
          ((S.update^[k] (x0, S.initState x0)).1, (S.update^[k] (x0, S.initState x0)).2.solverState) := by
        simp only [extrapolated]
        rw [if_neg]
        rw [(key k).2.2.1]; omega
      simp only [update, he]

/-- **C29** for the wrapper, schedule: the wrapped solver steps from an extrapolated point exactly in the iterations that are at least
`history_size` and a multiple of `mixing_frequency` (of `history_size` when it is `None`), and is then re-initialised there; in all other
iterations it continues from its own iterate and state. -/
theorem C29_wrapper_schedule (S : AWrapper K E T m) (hv : IsVdot S.vdot) (x0 : E) (k : ℕ) (freq : ℕ)
    (hf : S.mixingFrequency = some freq ∨ (S.mixingFrequency = none ∧ freq = m)) :
    let p := S.update^[k] (x0, S.initState x0)
    (¬ (freq ∣ k ∧ m ≤ k) → S.point x0 k = (p.1, p.2.solverState)) ∧
    (freq ∣ k → m ≤ k → (S.point x0 k).2 = S.solverInit (S.point x0 k).1 ∧
      (S.point x0 k).1 = (∑ i, weights S.solve p.2.hist S.ridge i • p.2.hist.params i) +
        S.beta • ∑ i, weights S.solve p.2.hist S.ridge i • p.2.hist.residuals i) := by
  intro p
  have hg : S.mixingFrequency.getD m = freq := by
    rcases hf with h | ⟨h, e⟩
    · rw [h]; rfl
    · rw [h, e]; rfl
  have hk' : p.2.iterNum = k := (C29_wrapper S hv x0 k).2.2.1
  constructor
  · intro hn
    show S.extrapolated p = _
    unfold extrapolated
    rw [hg, hk', if_neg (fun hc => hn ⟨Nat.dvd_of_mod_eq_zero hc.1, hc.2⟩)]
  · intro h1 h2
    have e : S.point x0 k = S.extrapolated p := rfl
    unfold extrapolated at e
    rw [hg, hk', if_pos ⟨Nat.mod_eq_zero_of_dvd h1, h2⟩] at e
    rw [e]
    exact ⟨rfl, rfl⟩

end AWrapper

/-! ## Examples -/

/-- Cramer's rule. -/
def cramerSolve : LinSolve K m := fun H c => H.det⁻¹ • (H.adjugate *ᵥ c)

/-- An exact solver exists. -/
theorem exactSolve_cramer : ExactSolve (K := K) (m := m) cramerSolve := by
  intro H c hd
  rw [cramerSolve, Matrix.mulVec_smul, Matrix.mulVec_mulVec, Matrix.mul_adjugate, Matrix.smul_mulVec, Matrix.one_mulVec, smul_smul,
    inv_mul_cancel₀ hd.ne_zero, one_smul]

/-- Non-vacuity: `f x = x/2 + 1` on `ℚ`, history of size 2, exact solver. -/
example : ∃ S : Anderson ℚ ℚ Unit 2, IsVdot S.vdot ∧ 0 < S.ridge ∧ ExactSolve S.solve ∧ S.sqrt 0 = 0 ∧
    (S.fixedPointFun.fn 2).1 = 2 ∧ (S.fixedPointFun.fn 1).1 ≠ 1 ∧ 1 ≤ S.maxiter :=
  ⟨⟨.noAux fun x => x / 2 + 1, fun x y => x * y, id, cramerSolve, 1, 1, 1 / 100000, 5, 0, true, true⟩,
    IsVdot.mul, by norm_num, exactSolve_cramer, rfl, by norm_num [UserMap.fn], by norm_num [UserMap.fn], by decide⟩

/-- A map with fixed point `0` that sends everything except `0` and `1` to `5`. -/
def exMap (x : ℚ) : ℚ := if x = 0 ∨ x = 1 then 0 else 5

/-- Why C29 speaks of runs started at a fixed point: reaching one is not enough.  From `1` the run reaches the fixed point `0` of
`exMap` after one update and stays for another one (so `error = 0` there and `run` with `tol ≥ 0` stops); a further `update` mixes in
the older point and leaves it. -/
theorem C29_reached_fixed_point_false :
    ∃ S : Anderson ℚ ℚ Unit 2, IsVdot S.vdot ∧ 0 < S.ridge ∧ ExactSolve S.solve ∧
      (S.update^[2] (1, S.initState 1)).1 = 0 ∧ (S.fixedPointFun.fn 0).1 = 0 ∧ (S.update^[3] (1, S.initState 1)).1 = 5 := by
  refine ⟨⟨.noAux exMap, fun x y => x * y, id, cramerSolve, 1, 1 / 2, 1, 5, 0, true, true⟩,
    IsVdot.mul, by norm_num, exactSolve_cramer, by decide +kernel, by decide +kernel, by decide +kernel⟩

end Jaxopt.FixedPoint
