import Verif.SGD.Armijo
import Verif.Num.Smooth
import Mathlib.Tactic.FieldSimp
import Mathlib.Tactic.Positivity

/-!
# Property C22: ArmijoSGD step sizes
-/

set_option autoImplicit false
set_option linter.unusedSectionVars false
set_option linter.unusedVariables false

namespace Jaxopt.SGD

open Jaxopt.Base Jaxopt.Loop

variable {K E D : Type*} [Field K] [LinearOrder K] [IsStrictOrderedRing K] [AddCommGroup E] [Module K E]

namespace Armijo

/-- The Armijo condition at step `t` (up to the machine epsilon used by the code). -/
def ArmijoOK (s : Armijo K E D) (b : D) (x : E) (fc : K) (t : K) : Prop :=
  (s.f b (x - t • s.grad b x)).AtMost (fc - t * (1 - s.aggressiveness) * s.sqnorm (s.grad b x) + s.eps)

theorem not_violated_iff (eps step c fc gs : K) (fn : Ext K) :
    wolfeViolated eps step c (.fin fc) fn gs = false ↔ fn = .nan ∨ fn.AtMost (fc - step * c * gs + eps) := by
  cases fn with
  | fin y =>
    simp only [wolfeViolated, Ext.gt, Ext.lt, Ext.sub, Ext.add, Ext.neg, Ext.AtMost, decide_eq_false_iff_not, not_lt,
      reduceCtorEq, false_or]
    constructor <;> intro h <;> linarith
  | _ => simp [wolfeViolated, Ext.gt, Ext.lt, Ext.sub, Ext.add, Ext.neg, Ext.AtMost]

/-- Every loop state is the triple of its stepsize. -/
def Consistent (s : Armijo K E D) (b : D) (x g : E) (t : LSState K E) : Prop :=
  t.params = x + (-t.stepsize) • g ∧ t.fNext = s.f b (x + (-t.stepsize) • g)

theorem body_consistent (s : Armijo K E D) (b : D) (x g : E) (fc : Ext K) (t : LSState K E) (h : s.Consistent b x g t) :
    s.Consistent b x g (s.body b x g fc t) := by
  unfold body updateStepsize at_
  simp only
  split_ifs <;> first | exact h | exact ⟨rfl, rfl⟩

theorem lineSearch_cases (s : Armijo K E D) (b : D) (x : E) (fc : Ext K) (step : K) (g : E) (t : LSState K E)
    (h : s.lineSearch b x fc step g = .ok t) :
    ∃ k, k ≤ s.maxls ∧ t = (s.body b x g fc)^[k] (s.at_ b x g step true) ∧
      (∀ j < k, ((s.body b x g fc)^[j] (s.at_ b x g step true)).violated = true) ∧ (k = s.maxls ∨ t.violated = false) := by
  unfold lineSearch at h
  rcases C01_loop_backends_agree (fun t : LSState K E => t.violated) (s.body b x g fc) (s.at_ b x g step true) s.maxls
    s.unroll s.jit with ⟨_, _, e, he⟩ | ⟨_, r, hr, hs, _⟩
  · rw [he] at h; cases h
  · rw [hr] at h; cases h
    obtain ⟨k, h1, h2, h3, h4⟩ := hs
    refine ⟨k, h1, h2, h3, ?_⟩
    rcases h4 with h4 | h4
    · left; exact h4
    · right; rw [h2]; exact h4

theorem lineSearch_consistent (s : Armijo K E D) (b : D) (x : E) (fc : Ext K) (step : K) (g : E) (t : LSState K E)
    (h : s.lineSearch b x fc step g = .ok t) : s.Consistent b x g t := by
  obtain ⟨k, _, rfl, _⟩ := lineSearch_cases s b x fc step g t h
  have : ∀ k, s.Consistent b x g ((s.body b x g fc)^[k] (s.at_ b x g step true)) := by
    intro k
    induction k with
    | zero => exact ⟨rfl, rfl⟩
    | succ k ih => rw [Function.iterate_succ_apply']; exact body_consistent s b x g fc _ ih
  exact this k

/-- An invariant of the stepsize under both factors is an invariant of the search. -/
theorem lineSearch_inv (s : Armijo K E D) (b : D) (x : E) (fc : Ext K) (step : K) (g : E) (t : LSState K E)
    (h : s.lineSearch b x fc step g = .ok t) (P : K → Prop) (h0 : P step)
    (h1 : ∀ u, P u → wolfeViolated s.eps u s.coef fc (s.f b (x + (-u) • g)) (s.sqnorm g) = true →
      P (min (u * s.decreaseFactor) s.maxStepsize))
    (h2 : s.reset = .goldstein → ∀ u, P u → P (min (u * s.increaseFactor) s.maxStepsize)) : P t.stepsize := by
  obtain ⟨k, _, rfl, _⟩ := lineSearch_cases s b x fc step g t h
  clear h
  have : ∀ k, s.Consistent b x g ((s.body b x g fc)^[k] (s.at_ b x g step true)) ∧
      P ((s.body b x g fc)^[k] (s.at_ b x g step true)).stepsize := by
    intro k
    induction k with
    | zero => exact ⟨⟨rfl, rfl⟩, h0⟩
    | succ k ih =>
      rw [Function.iterate_succ_apply']
      refine ⟨body_consistent s b x g fc _ ih.1, ?_⟩
      generalize (s.body b x g fc)^[k] (s.at_ b x g step true) = t at ih
      obtain ⟨⟨c1, c2⟩, hp⟩ := ih
      have ha := h1 t.stepsize hp
      rw [← c2] at ha
      unfold body updateStepsize at_
      simp only
      split_ifs with hg hv hw hw hv
      · exact h2 hg _ (ha hv)
      · exact ha hv
      · exact h2 hg _ hp
      · exact hp
      · exact ha hv
      · exact hp
  exact (this k).2

theorem update_cases (s : Armijo K E D) (z r : E × State K E) (b : D) (h : s.update z b = .ok r) :
    ∃ t, s.lineSearch b z.1 (s.f b z.1) (s.resetStepsize z.2.stepsize) (s.grad b z.1) = .ok t ∧
      r.2.stepsize = t.stepsize ∧ r.2.value = t.fNext ∧ (s.momentum = 0 → r.1 = t.params) := by
  unfold update at h
  cases ht : s.lineSearch b z.1 (s.f b z.1) (s.resetStepsize z.2.stepsize) (s.grad b z.1) with
  | error e => simp [ht, bind, Except.bind] at h
  | ok t =>
    simp only [ht, bind, Except.bind] at h
    refine ⟨t, rfl, ?_⟩
    split_ifs at h with hm
    · cases h; exact ⟨rfl, rfl, fun _ => rfl⟩
    · cases h; exact ⟨rfl, rfl, fun hm' => absurd hm' hm⟩

theorem runBatches_inv (s : Armijo K E D) (P : K → Prop) (h0 : P s.maxStepsize)
    (hstep : ∀ z r b, P z.2.stepsize → s.update z b = .ok r → P r.2.stepsize) (x0 : E) (bs : List D) (r : E × State K E)
    (h : s.runBatches x0 bs = .ok r) : P r.2.stepsize := by
  unfold runBatches at h
  have : ∀ (bs : List D) (z : E × State K E), P z.2.stepsize → bs.foldlM s.update z = .ok r → P r.2.stepsize := by
    intro bs
    induction bs with
    | nil => intro z hz h; cases h; exact hz
    | cons b bs ih =>
      intro z hz h
      rw [List.foldlM_cons] at h
      cases hu : s.update z b with
      | error e => rw [hu] at h; cases h
      | ok q => rw [hu] at h; exact ih q (hstep z q b hz hu) h
  exact this bs _ h0 h

/-- **C22** (range).  For every objective and every sequence of batches the stepsize stays in `(0, max_stepsize]`. -/
theorem C22_range (s : Armijo K E D) (hmax : 0 < s.maxStepsize) (hdec : 0 < s.decreaseFactor) (hinc : 0 < s.increaseFactor)
    (x0 : E) (bs : List D) (r : E × State K E) (h : s.runBatches x0 bs = .ok r) :
    0 < r.2.stepsize ∧ r.2.stepsize ≤ s.maxStepsize := by
  refine runBatches_inv s (fun u => 0 < u ∧ u ≤ s.maxStepsize) ⟨hmax, le_refl _⟩ ?_ x0 bs r h
  intro z r b hz hu
  obtain ⟨t, ht, e, _⟩ := update_cases s z r b hu
  rw [e]
  refine lineSearch_inv s b z.1 _ _ _ t ht (fun u => 0 < u ∧ u ≤ s.maxStepsize) ?_ ?_ ?_
  · unfold resetStepsize
    cases s.reset with
    | increase => exact ⟨lt_min (mul_pos hz.1 hinc) hmax, min_le_right _ _⟩
    | _ => exact hz
  · exact fun u hu _ => ⟨lt_min (mul_pos hu.1 hdec) hmax, min_le_right _ _⟩
  · exact fun _ u hu => ⟨lt_min (mul_pos hu.1 hinc) hmax, min_le_right _ _⟩

/-- **C22** (conservative).  With `reset_option="conservative"` no update increases the stepsize. -/
theorem C22_conservative (s : Armijo K E D) (hr : s.reset = .conservative) (hd1 : s.decreaseFactor ≤ 1)
    (hd0 : 0 < s.decreaseFactor) (z r : E × State K E) (b : D) (hz : 0 < z.2.stepsize) (hmax : 0 < s.maxStepsize)
    (h : s.update z b = .ok r) : r.2.stepsize ≤ z.2.stepsize := by
  obtain ⟨t, ht, e, _⟩ := update_cases s z r b h
  rw [e]
  have e2 : s.resetStepsize z.2.stepsize = z.2.stepsize := by unfold resetStepsize; rw [hr]
  rw [e2] at ht
  refine (lineSearch_inv s b z.1 _ _ _ t ht (fun u => 0 < u ∧ u ≤ z.2.stepsize) ⟨hz, le_refl _⟩ ?_ ?_).2
  · intro u hu _
    refine ⟨lt_min (mul_pos hu.1 hd0) hmax, le_trans (min_le_left _ _) ?_⟩
    nlinarith [hu.1, hu.2]
  · intro hg; rw [hr] at hg; cases hg

/-- **C22** (Armijo condition).  Without momentum, the parameters after an update are `params - stepsize * grad`, the value
stored is the objective there on the same batch, and unless the line search used up its `maxls` reductions (or the
objective is NaN there, which the code accepts) the Armijo condition holds.  For reset options other than goldstein,
"used up" means the stepsize is exactly the initial one times `decrease_factor ^ maxls`. -/
theorem C22_armijo (s : Armijo K E D) (hmom : s.momentum = 0) (hreset : s.reset ≠ .goldstein)
    (hd0 : 0 < s.decreaseFactor) (hd1 : s.decreaseFactor ≤ 1) (hinc : 0 < s.increaseFactor) (z r : E × State K E) (b : D) (fc : K)
    (hfc : s.f b z.1 = .fin fc) (hz : 0 < z.2.stepsize ∧ z.2.stepsize ≤ s.maxStepsize) (h : s.update z b = .ok r) :
    r.1 = z.1 - r.2.stepsize • s.grad b z.1 ∧ r.2.value = s.f b r.1 ∧
    (r.2.value = .nan ∨ s.ArmijoOK b z.1 fc r.2.stepsize ∨
      r.2.stepsize = s.resetStepsize z.2.stepsize * s.decreaseFactor ^ s.maxls) := by
  obtain ⟨t, ht, e1, e2, e3⟩ := update_cases s z r b h
  obtain ⟨c1, c2⟩ := lineSearch_consistent s b _ _ _ _ t ht
  have hp : r.1 = z.1 - r.2.stepsize • s.grad b z.1 := by
    rw [e3 hmom, c1, e1, neg_smul, ← sub_eq_add_neg]
  have hv : r.2.value = s.f b r.1 := by rw [e2, c2, e3 hmom, c1]
  refine ⟨hp, hv, ?_⟩
  obtain ⟨k, hk, hkt, hk1, hk2⟩ := lineSearch_cases s b _ _ _ _ t ht
  rw [hfc] at hkt hk1
  set g := s.grad b z.1 with hg
  set s0 := s.resetStepsize z.2.stepsize with hs0
  have hs0r : s0 ≤ s.maxStepsize := by
    rw [hs0]; unfold resetStepsize
    cases s.reset with
    | increase => exact min_le_right _ _
    | _ => exact hz.2
  have hbody : ∀ t : LSState K E, s.body b z.1 g (.fin fc) t =
      if wolfeViolated s.eps t.stepsize s.coef (.fin fc) t.fNext (s.sqnorm g) then
        s.at_ b z.1 g (min (t.stepsize * s.decreaseFactor) s.maxStepsize) true
      else { t with violated := false } := by
    intro t
    unfold body updateStepsize at_
    simp only [if_neg hreset]
    split_ifs with hv
    · simp [hv]
    · simp [hv]
  -- while violated, the j-th state is the triple of s0 * df^j
  have hs00 : 0 ≤ s0 := by
    rw [hs0]; unfold resetStepsize
    cases s.reset with
    | increase => exact le_min (le_of_lt (mul_pos hz.1 hinc)) (le_trans (le_of_lt hz.1) hz.2)
    | _ => exact le_of_lt hz.1
  have hst : ∀ j ≤ k, ((s.body b z.1 g (.fin fc))^[j] (s.at_ b z.1 g s0 true)).violated = true →
      (s.body b z.1 g (.fin fc))^[j] (s.at_ b z.1 g s0 true) = s.at_ b z.1 g (s0 * s.decreaseFactor ^ j) true := by
    intro j
    induction j with
    | zero => intro _ _; simp
    | succ j ih =>
      intro hj hvj
      have hvj' : ((s.body b z.1 g (.fin fc))^[j] (s.at_ b z.1 g s0 true)).violated = true := hk1 j (by omega)
      have := ih (by omega) hvj'
      rw [Function.iterate_succ_apply', this, hbody] at hvj ⊢
      split_ifs at hvj ⊢ with hw
      · congr 1
        show min (s0 * s.decreaseFactor ^ j * s.decreaseFactor) s.maxStepsize = _
        rw [pow_succ, ← mul_assoc]
        apply min_eq_left
        have : s.decreaseFactor ^ j * s.decreaseFactor ≤ 1 := by
          rw [← pow_succ]; exact pow_le_one₀ (le_of_lt hd0) hd1
        have h2 : s0 * (s.decreaseFactor ^ j * s.decreaseFactor) ≤ s0 * 1 := mul_le_mul_of_nonneg_left this hs00
        rw [mul_assoc]; linarith
  rcases hvt : t.violated with _ | _
  · -- the last body found no violation
    have hk0 : k ≠ 0 := by
      intro hk0; rw [hkt, hk0] at hvt; simp [at_] at hvt
    obtain ⟨j, rfl⟩ := Nat.exists_eq_succ_of_ne_zero hk0
    rw [Function.iterate_succ_apply', hbody] at hkt
    set q := (s.body b z.1 g (.fin fc))^[j] (s.at_ b z.1 g s0 true) with hq
    split_ifs at hkt with hw
    · rw [hkt] at hvt; simp [at_] at hvt
    · have hw' : wolfeViolated s.eps q.stepsize s.coef (.fin fc) q.fNext (s.sqnorm g) = false := by simpa using hw
      have eq1 : q.stepsize = t.stepsize := by rw [hkt]
      have eq2 : q.fNext = t.fNext := by rw [hkt]
      rw [eq1, eq2, not_violated_iff] at hw'
      rcases hw' with hw' | hw'
      · left; rw [e2]; exact hw'
      · right; left
        unfold ArmijoOK
        rw [← hg, ← hp, ← hv, e2, e1]
        exact hw'
  · right; right
    have hkm : k = s.maxls := by
      rcases hk2 with h | h
      · exact h
      · rw [hvt] at h; cases h
    rw [hkt] at hvt
    have := hst k (le_refl _) hvt
    rw [e1, hkt, this, hkm]; rfl

/-- **C22** (goldstein).  With `reset_option="goldstein"`, unless `maxls` iterations were used, the accepted step meets the
Armijo condition (or the objective is NaN there). -/
theorem C22_armijo_goldstein (s : Armijo K E D) (hreset : s.reset = .goldstein) (b : D) (x : E) (fc step : K) (t : LSState K E)
    (h : s.lineSearch b x (.fin fc) step (s.grad b x) = .ok t) (hv : t.violated = false) :
    t.fNext = s.f b (x - t.stepsize • s.grad b x) ∧ (t.fNext = .nan ∨ s.ArmijoOK b x fc t.stepsize) ∧
      curvatureViolated t.stepsize s.coef (.fin fc) t.fNext (s.sqnorm (s.grad b x)) = false := by
  obtain ⟨c1, c2⟩ := lineSearch_consistent s b _ _ _ _ t h
  have c2' : t.fNext = s.f b (x - t.stepsize • s.grad b x) := by rw [c2, neg_smul, ← sub_eq_add_neg]
  refine ⟨c2', ?_⟩
  obtain ⟨k, hk, hkt, hk1, hk2⟩ := lineSearch_cases s b _ _ _ _ t h
  have hk0 : k ≠ 0 := by
    intro hk0; rw [hkt, hk0] at hv; simp [at_] at hv
  obtain ⟨j, rfl⟩ := Nat.exists_eq_succ_of_ne_zero hk0
  rw [Function.iterate_succ_apply'] at hkt
  set q := (s.body b x (s.grad b x) (.fin fc))^[j] (s.at_ b x (s.grad b x) step true) with hq
  cases hw : wolfeViolated s.eps q.stepsize s.coef (.fin fc) q.fNext (s.sqnorm (s.grad b x))
  · cases hc : curvatureViolated q.stepsize s.coef (.fin fc) q.fNext (s.sqnorm (s.grad b x))
    · have e : t = { q with violated := false } := by
        rw [hkt]; simp [body, hreset, hw, hc]
      have eq1 : q.stepsize = t.stepsize := by rw [e]
      have eq2 : q.fNext = t.fNext := by rw [e]
      rw [eq1, eq2] at hw hc
      rw [not_violated_iff] at hw
      refine ⟨?_, hc⟩
      rcases hw with hw | hw
      · left; exact hw
      · right; unfold ArmijoOK; rw [← c2']; exact hw
    · exfalso; rw [hkt] at hv; simp [body, hreset, hw, hc] at hv
  · exfalso; rw [hkt] at hv; simp [body, hreset, hw] at hv

/-- **C22** (momentum).  With momentum the iterates follow the heavy-ball recursion with the accepted stepsizes: the first update is a
plain gradient step and each later one adds `momentum` times the previous displacement.  The stored error is the gradient norm at the
parameters before the step, and the stored value belongs to the point before the displacement is added. -/
theorem C22_momentum (s : Armijo K E D) (hm : s.momentum ≠ 0) :
    (∀ (x0 : E) (b : D) (q : E × State K E), s.update (x0, s.initState) b = .ok q → q.1 = x0 - q.2.stepsize • s.grad b x0) ∧
    (∀ (p q r : E × State K E) (b1 b2 : D), s.update p b1 = .ok q → s.update q b2 = .ok r →
      r.1 = q.1 - r.2.stepsize • s.grad b2 q.1 + s.momentum • (q.1 - p.1) ∧ r.2.error = .fin (s.norm (s.grad b2 q.1)) ∧
      r.2.value = s.f b2 (r.1 - s.momentum • (q.1 - p.1)) ∧ r.2.iterNum = p.2.iterNum + 2) := by
  have key : ∀ (z r : E × State K E) (b : D), s.update z b = .ok r →
      r.1 = z.1 - r.2.stepsize • s.grad b z.1 + s.momentum • z.2.velocity.getD 0 ∧ r.2.velocity = some (r.1 - z.1) ∧
      r.2.error = .fin (s.norm (s.grad b z.1)) ∧ r.2.value = s.f b (z.1 - r.2.stepsize • s.grad b z.1) ∧
      r.2.iterNum = z.2.iterNum + 1 := by
    intro z r b h
    unfold update at h
    cases ht : s.lineSearch b z.1 (s.f b z.1) (s.resetStepsize z.2.stepsize) (s.grad b z.1) with
    | error e => simp [ht, bind, Except.bind] at h
    | ok t =>
      simp only [ht, bind, Except.bind, if_neg hm] at h
      obtain ⟨c1, c2⟩ := lineSearch_consistent s b _ _ _ _ t ht
      cases h
      refine ⟨?_, rfl, rfl, ?_, rfl⟩
      · simp only [c1, neg_smul, ← sub_eq_add_neg]
      · simp only [c2, neg_smul, ← sub_eq_add_neg]
  constructor
  · intro x0 b q h
    have := (key _ _ _ h).1
    simpa [initState, hm] using this
  · intro p q r b1 b2 h1 h2
    obtain ⟨k1, k2, k3, k4, k5⟩ := key _ _ _ h1
    obtain ⟨l1, l2, l3, l4, l5⟩ := key _ _ _ h2
    rw [k2, Option.getD_some] at l1
    refine ⟨l1, l3, ?_, by rw [l5, k5]⟩
    rw [l4]
    congr 1
    rw [l1]; abel

/-- **C22** (goldstein, curvature).  With `reset_option="goldstein"`, a step accepted at a finite value also satisfies the second
Goldstein inequality: the decrease is at most `aggressiveness` times `stepsize * ‖grad‖²`. -/
theorem C22_goldstein_curvature (s : Armijo K E D) (hreset : s.reset = .goldstein) (b : D) (x : E) (fc step : K) (t : LSState K E)
    (h : s.lineSearch b x (.fin fc) step (s.grad b x) = .ok t) (hv : t.violated = false) (fn : K)
    (hfn : s.f b (x - t.stepsize • s.grad b x) = .fin fn) :
    fc - fn ≤ s.aggressiveness * (t.stepsize * s.sqnorm (s.grad b x)) := by
  obtain ⟨h1, _, h3⟩ := C22_armijo_goldstein s hreset b x fc step t h hv
  rw [h1, hfn] at h3
  simp only [curvatureViolated, Ext.lt, Ext.sub, Ext.neg, Ext.add, coef, decide_eq_false_iff_not, not_lt] at h3
  linarith

end Armijo

section Smooth

variable {V D : Type*} [NormedAddCommGroup V] [InnerProductSpace ℝ V] [CompleteSpace V]

/-- **C22** (lower bound).  If the objective of every batch is `L`-smooth, then along every sequence of batches and for every
reset option the stepsize never drops below `min(max_stepsize, 2 * decrease_factor * aggressiveness / L)`. -/
theorem Armijo.C22_lower_bound (s : Armijo ℝ V D) (F : D → V → ℝ) (L : ℝ) (hL : 0 < L) (hf : ∀ b x, s.f b x = .fin (F b x))
    (hsm : ∀ b, LSmooth (F b) (s.grad b) L) (hsq : ∀ v, s.sqnorm v = ‖v‖ ^ 2) (heps : 0 ≤ s.eps)
    (hd0 : 0 < s.decreaseFactor) (hd1 : s.decreaseFactor ≤ 1) (hi1 : 1 ≤ s.increaseFactor)
    (ha : 0 < s.aggressiveness) (hmax : 0 < s.maxStepsize)
    (x0 : V) (bs : List D) (r : V × Armijo.State ℝ V) (h : s.runBatches x0 bs = .ok r) :
    min s.maxStepsize (2 * s.decreaseFactor * s.aggressiveness / L) ≤ r.2.stepsize := by
  set m := min s.maxStepsize (2 * s.decreaseFactor * s.aggressiveness / L) with hm
  have hm0 : 0 < m := lt_min hmax (by positivity)
  have hmM : m ≤ s.maxStepsize := min_le_left _ _
  have hinc : ∀ u, m ≤ u → m ≤ min (u * s.increaseFactor) s.maxStepsize := by
    intro u hu
    refine le_min ?_ hmM
    nlinarith
  refine Armijo.runBatches_inv s (fun u => m ≤ u) hmM ?_ x0 bs r h
  intro z r b hz hu
  obtain ⟨t, ht, e, _⟩ := Armijo.update_cases s z r b hu
  rw [e]
  refine Armijo.lineSearch_inv s b z.1 _ _ _ t ht (fun u => m ≤ u) ?_ ?_ (fun _ => hinc)
  · unfold Armijo.resetStepsize
    cases s.reset with
    | increase => exact hinc _ hz
    | _ => exact hz
  · intro u hu hv
    refine le_min ?_ hmM
    -- a violated step is longer than 2 * aggressiveness / L
    have hlong : 2 * s.aggressiveness / L < u := by
      by_contra hcon
      rw [not_lt] at hcon
      have hdesc := (hsm b).descent z.1 (z.1 + (-u) • s.grad b z.1)
      rw [add_sub_cancel_left, inner_smul_right, real_inner_self_eq_norm_sq, norm_smul, mul_pow] at hdesc
      have hn : ‖-u‖ ^ 2 = u ^ 2 := by rw [norm_neg, Real.norm_eq_abs, sq_abs]
      rw [hn] at hdesc
      have hf0 : wolfeViolated s.eps u s.coef (s.f b z.1) (s.f b (z.1 + (-u) • s.grad b z.1)) (s.sqnorm (s.grad b z.1)) = false := by
        rw [hf, hf, Armijo.not_violated_iff]
        right
        show F b _ ≤ _
        rw [hsq]
        unfold Armijo.coef
        have hLu : L * u ≤ 2 * s.aggressiveness := by
          rw [le_div_iff₀ hL] at hcon; linarith
        have hu0 : 0 ≤ u := le_trans (le_of_lt hm0) hu
        have h1 : 0 ≤ ‖s.grad b z.1‖ ^ 2 := by positivity
        have h2 : L * u * (u * ‖s.grad b z.1‖ ^ 2) ≤ 2 * s.aggressiveness * (u * ‖s.grad b z.1‖ ^ 2) :=
          mul_le_mul_of_nonneg_right hLu (mul_nonneg hu0 h1)
        nlinarith
      rw [hf0] at hv; cases hv
    have h2 : m ≤ 2 * s.decreaseFactor * s.aggressiveness / L := min_le_right _ _
    have h3 : 2 * s.decreaseFactor * s.aggressiveness / L = (2 * s.aggressiveness / L) * s.decreaseFactor := by ring
    rw [h3] at h2
    have := mul_le_mul_of_nonneg_right (le_of_lt hlong) (le_of_lt hd0)
    linarith

end Smooth

/-- Example on `ℚ`: the batch is the curvature `a` of the objective `a x² / 2`. -/
def exampleArmijo (reset : Reset) (maxStepsize aggressiveness : ℚ) : Armijo ℚ ℚ ℚ :=
  { f := fun a x => .fin (a * x * x / 2), grad := fun a x => a * x, sqnorm := fun g => g * g, norm := fun g => |g|,
    eps := 1 / 1000000, aggressiveness := aggressiveness, decreaseFactor := 4 / 5, increaseFactor := 3 / 2, reset := reset,
    momentum := 0, maxStepsize := maxStepsize, maxls := 15, unroll := true, jit := false }

/-- Non-vacuity: two batches, the second one flatter; the step is reduced, then increased again. -/
example : ((exampleArmijo .increase (3 / 2) (3 / 5)).runBatches 1 [1, 1 / 2]).toOption.map (fun r => (r.1, r.2.stepsize)) =
    some (-1 / 20, 3 / 2) := by decide +kernel

/-- The spelling of a reset option. -/
def Reset.spelling : Reset → String
  | .increase => "increase"
  | .goldstein => "goldstein"
  | .conservative => "conservative"

/-- C22.  The constructor accepts exactly the three documented reset options and the aggressiveness in the open interval `(0, 1)`, so that the
coefficient `1 - aggressiveness` of the Armijo condition is in it as well; everything else raises. -/
theorem C22_options (name : String) (a : K) :
    (∀ r, checkOptions name a = .ok r ↔ name = r.spelling ∧ 0 < a ∧ a < 1) ∧
    (∀ r, checkOptions name a = .ok r → 0 < 1 - a ∧ 1 - a < 1) ∧
    ((∃ msg, checkOptions name a = .error msg) ↔ (∀ r : Reset, name ≠ r.spelling) ∨ a ≤ 0 ∨ 1 ≤ a) := by
  have key : ∀ r, checkOptions name a = .ok r ↔ name = r.spelling ∧ 0 < a ∧ a < 1 := by
    intro r
    unfold checkOptions
    by_cases h1 : name = "increase"
    · subst h1
      by_cases h : a ≤ 0 ∨ 1 ≤ a
      · have : ¬ (0 < a ∧ a < 1) := fun h' => h.elim (not_le.mpr h'.1) (not_le.mpr h'.2)
        simp [h, this]
      · have h' : 0 < a ∧ a < 1 := by push Not at h; exact h
        cases r <;> simp [h, h', Reset.spelling]
    · by_cases h2 : name = "goldstein"
      · subst h2
        by_cases h : a ≤ 0 ∨ 1 ≤ a
        · have : ¬ (0 < a ∧ a < 1) := fun h' => h.elim (not_le.mpr h'.1) (not_le.mpr h'.2)
          simp [h, this]
        · have h' : 0 < a ∧ a < 1 := by push Not at h; exact h
          cases r <;> simp [h, h', Reset.spelling]
      · by_cases h3 : name = "conservative"
        · subst h3
          by_cases h : a ≤ 0 ∨ 1 ≤ a
          · have : ¬ (0 < a ∧ a < 1) := fun h' => h.elim (not_le.mpr h'.1) (not_le.mpr h'.2)
            simp [h, this]
          · have h' : 0 < a ∧ a < 1 := by push Not at h; exact h
            cases r <;> simp [h, h', Reset.spelling]
        · cases r <;> simp [h1, h2, h3, Reset.spelling]
  refine ⟨key, fun r h => ?_, ?_⟩
  · obtain ⟨-, h0, h1⟩ := (key r).1 h
    exact ⟨sub_pos.mpr h1, sub_lt_self 1 h0⟩
  · constructor
    · rintro ⟨msg, h⟩
      by_contra hc
      push Not at hc
      obtain ⟨⟨r, hr⟩, h0, h1⟩ := hc
      rw [(key r).2 ⟨hr, h0, h1⟩] at h
      simp at h
    · intro h
      cases hc : checkOptions name a with
      | error msg => exact ⟨msg, rfl⟩
      | ok r =>
        obtain ⟨hr, h0, h1⟩ := (key r).1 hc
        rcases h with h | h | h
        · exact absurd hr (h r)
        · exact absurd h0 (not_lt.mpr h)
        · exact absurd h1 (not_lt.mpr h)

example : checkOptions "goldstein" (9 / 10 : ℚ) = .ok .goldstein := by decide +kernel

/-- The documented guarantee "if `aggressiveness > 0.5` the stepsize is at least `min(1/L, max_stepsize)`" is false:
for `x²/2` (`L = 1`), `aggressiveness = 0.6`, `max_stepsize = 1.22` the first update uses stepsize `0.976`. -/
theorem C22_documented_bound_false : ¬ ∀ (s : Armijo ℚ ℚ ℚ) (b x0 : ℚ) (r : ℚ × Armijo.State ℚ ℚ), 1 / 2 < s.aggressiveness →
    s.aggressiveness < 1 → s.decreaseFactor = 4 / 5 → s.increaseFactor = 3 / 2 → s.momentum = 0 →
    (∀ a x, s.f a x = .fin (a * x * x / 2)) → (∀ a x, s.grad a x = a * x) → 0 < b →
    s.runBatches x0 [b] = .ok r → min (1 / b) s.maxStepsize ≤ r.2.stepsize := by
  intro hall
  have h2 : ((exampleArmijo .increase (61 / 50) (3 / 5)).runBatches 1 [1]).toOption.map (fun r => r.2.stepsize) =
      some (122 / 125) := by decide +kernel
  rw [Option.map_eq_some_iff] at h2
  obtain ⟨r, e1, f1⟩ := h2
  have e2 : (exampleArmijo .increase (61 / 50) (3 / 5)).runBatches 1 [1] = .ok r := by
    cases hr : (exampleArmijo .increase (61 / 50) (3 / 5)).runBatches 1 [1] with
    | error e => rw [hr] at e1; cases e1
    | ok r => rw [hr] at e1; cases e1; rfl
  have := hall _ 1 1 r (by norm_num [exampleArmijo]) (by norm_num [exampleArmijo]) rfl rfl rfl (fun _ _ => rfl)
    (fun _ _ => rfl) (by norm_num) e2
  rw [f1] at this
  norm_num [exampleArmijo] at this

/-- A step leading to a NaN objective is accepted. -/
theorem C22_nan_accepted_false : ¬ ∀ (s : Armijo ℚ ℚ ℚ) (b x0 : ℚ) (r : ℚ × Armijo.State ℚ ℚ), 0 < s.maxls →
    s.f b x0 ≠ .nan → s.runBatches x0 [b] = .ok r → r.2.value ≠ .nan := by
  intro hall
  let s : Armijo ℚ ℚ ℚ := { exampleArmijo .increase 1 (3 / 5) with f := fun _ x => if x = 1 then .fin 1 else .nan }
  have h2 : (s.runBatches 1 [1]).toOption.map (fun r => r.2.value) = some .nan := by decide +kernel
  rw [Option.map_eq_some_iff] at h2
  obtain ⟨r, e1, f1⟩ := h2
  have e2 : s.runBatches 1 [1] = .ok r := by
    cases hr : s.runBatches 1 [1] with
    | error e => rw [hr] at e1; cases e1
    | ok r => rw [hr] at e1; cases e1; rfl
  exact hall s 1 1 r (by decide) (by decide +kernel) e2 f1

end Jaxopt.SGD
