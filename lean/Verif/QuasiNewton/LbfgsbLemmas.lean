import Verif.QuasiNewton.Lbfgsb
import Mathlib.Tactic.FieldSimp
import Mathlib.Tactic.Positivity

set_option autoImplicit false
set_option linter.unusedSectionVars false
set_option linter.unusedVariables false

namespace Jaxopt.QuasiNewton

open Matrix

variable {K : Type*} [Field K] [LinearOrder K] [IsStrictOrderedRing K] {n h : ℕ}

/-- Specification: `lower ≤ v ≤ upper` for one coordinate. -/
def Between (l u : Ext K) (v : K) : Prop := Ext.le l (.fin v) = true ∧ Ext.le (.fin v) u = true

/-- Specification: the point is in the box. -/
def InBox (lower upper : Fin n → Ext K) (x : Fin n → K) : Prop := ∀ j, Between (lower j) (upper j) (x j)

/-- Specification of `jnp.argsort`: the permutation sorts the values. -/
def IsArgsort (t : Fin n → Ext K) (sigma : Fin n → Fin n) : Prop :=
  ∀ i j, i ≤ j → Ext.le (t (sigma i)) (t (sigma j)) = true

theorem between_fin {l u : Ext K} {v : K} :
    Between l u v ↔ (l = .ninf ∨ ∃ a, l = .fin a ∧ a ≤ v) ∧ (u = .pinf ∨ ∃ b, u = .fin b ∧ v ≤ b) := by
  cases l <;> cases u <;> simp [Between, Ext.le]

/-- What the breakpoint of a coordinate means. -/
structure GoodBreak (l u : Ext K) (x g : K) (t : Ext K) : Prop where
  nonneg : t = .pinf ∨ ∃ τ, t = .fin τ ∧ 0 ≤ τ
  inside : ∀ r : K, 0 ≤ r → Ext.le (.fin r) t = true → Between l u (x + r * (-g))

theorem goodBreak {eps : K} (he : 0 < eps) {x grad : Fin n → K} {lower upper : Fin n → Ext K}
    (hx : InBox lower upper x) (hg : ∀ j, grad j = 0 ∨ eps ≤ |grad j|) (j : Fin n) :
    GoodBreak (lower j) (upper j) (x j) (grad j) (breakpoints eps x grad lower upper j) := by
  have hb := between_fin.mp (hx j)
  by_cases h1 : |grad j| < eps
  · have h0 : grad j = 0 := by
      rcases hg j with h | h
      · exact h
      · exact absurd h1 (not_lt.mpr h)
    refine ⟨Or.inl (by simp [breakpoints, h1]), fun r _ _ => ?_⟩
    rw [h0]; simpa using hx j
  · by_cases h2 : grad j < 0
    · rcases hb with ⟨hl, hu | ⟨b, hu, hub⟩⟩
      · have e : breakpoints eps x grad lower upper j = .pinf := by
          have h3 : ¬ (0 < (grad j)⁻¹) := not_lt.mpr (inv_nonpos.mpr h2.le)
          simp [breakpoints, h1, h2, hu, Ext.sub, Ext.neg, Ext.add, Ext.smul, h3]
        refine ⟨Or.inl e, fun r hr _ => between_fin.mpr ⟨?_, Or.inl hu⟩⟩
        rcases hl with hl | ⟨a, hl, hla⟩
        · exact Or.inl hl
        · refine Or.inr ⟨a, hl, ?_⟩
          have := mul_nonneg hr (neg_nonneg.mpr h2.le)
          linarith
      · have e : breakpoints eps x grad lower upper j = .fin ((x j - b) / grad j) := by
          simp [breakpoints, h1, h2, hu, Ext.sub, Ext.neg, Ext.add, Ext.smul]
          field_simp
          ring
        refine ⟨Or.inr ⟨_, e, div_nonneg_of_nonpos (by linarith) h2.le⟩, fun r hr hle => ?_⟩
        rw [e] at hle
        simp only [Ext.le, decide_eq_true_eq] at hle
        have h4 : r * (-grad j) ≤ b - x j := by
          have := mul_le_mul_of_nonneg_right hle (neg_nonneg.mpr h2.le)
          have e2 : (x j - b) / grad j * (-grad j) = b - x j := by
            have := h2.ne
            field_simp
            ring
          linarith
        refine between_fin.mpr ⟨?_, Or.inr ⟨b, hu, by linarith⟩⟩
        rcases hl with hl | ⟨a, hl, hla⟩
        · exact Or.inl hl
        · refine Or.inr ⟨a, hl, ?_⟩
          have := mul_nonneg hr (neg_nonneg.mpr h2.le)
          linarith
    · have h2' : 0 < grad j := by
        rcases lt_trichotomy (grad j) 0 with h | h | h
        · exact absurd h h2
        · rw [h, abs_zero] at h1; exact absurd he h1
        · exact h
      rcases hb with ⟨hl | ⟨a, hl, hla⟩, hu⟩
      · have e : breakpoints eps x grad lower upper j = .pinf := by
          simp [breakpoints, h1, h2, hl, Ext.sub, Ext.neg, Ext.add, Ext.smul, h2']
        refine ⟨Or.inl e, fun r hr _ => between_fin.mpr ⟨Or.inl hl, ?_⟩⟩
        rcases hu with hu | ⟨b, hu, hub⟩
        · exact Or.inl hu
        · refine Or.inr ⟨b, hu, ?_⟩
          have := mul_nonneg hr h2'.le
          linarith
      · have e : breakpoints eps x grad lower upper j = .fin ((x j - a) / grad j) := by
          simp [breakpoints, h1, h2, hl, Ext.sub, Ext.neg, Ext.add, Ext.smul]
          field_simp
          ring
        refine ⟨Or.inr ⟨_, e, div_nonneg (by linarith) h2'.le⟩, fun r hr hle => ?_⟩
        rw [e] at hle
        simp only [Ext.le, decide_eq_true_eq] at hle
        have h4 : r * grad j ≤ x j - a := by
          have := mul_le_mul_of_nonneg_right hle h2'.le
          have e2 : (x j - a) / grad j * grad j = x j - a := div_mul_cancel₀ _ h2'.ne'
          linarith
        refine between_fin.mpr ⟨Or.inr ⟨a, hl, by linarith⟩, ?_⟩
        rcases hu with hu | ⟨b, hu, hub⟩
        · exact Or.inl hu
        · refine Or.inr ⟨b, hu, ?_⟩
          have := mul_nonneg hr h2'.le
          linarith

/-- A finite breakpoint has a finite bound in the direction of the move. -/
theorem xBound_of_finite {eps : K} (he : 0 < eps) {x grad : Fin n → K} {lower upper : Fin n → Ext K}
    (hx : InBox lower upper x) (j : Fin n) {τ : K} (ht : breakpoints eps x grad lower upper j = .fin τ) :
    ∃ b, xBound (cauchyDir eps (breakpoints eps x grad lower upper) grad) x lower upper j = .fin b := by
  have hb := between_fin.mp (hx j)
  have h1 : ¬ |grad j| < eps := by
    intro h; simp [breakpoints, h] at ht
  unfold xBound
  by_cases h0 : cauchyDir eps (breakpoints eps x grad lower upper) grad j = 0
  · rw [h0]; simp
  · have hd : cauchyDir eps (breakpoints eps x grad lower upper) grad j = -grad j := by
      unfold cauchyDir at h0 ⊢
      split_ifs with h
      · simp [h] at h0
      · rfl
    rw [hd]
    by_cases h2 : grad j < 0
    · rw [if_pos (by linarith)]
      rcases hb.2 with hu | ⟨b, hu, _⟩
      · have h3 : ¬ (0 < (grad j)⁻¹) := not_lt.mpr (inv_nonpos.mpr h2.le)
        simp [breakpoints, h1, h2, hu, Ext.sub, Ext.neg, Ext.add, Ext.smul, h3] at ht
      · exact ⟨b, hu⟩
    · have h2' : 0 < grad j := by
        rcases lt_trichotomy (grad j) 0 with h | h | h
        · exact absurd h h2
        · rw [h, abs_zero] at h1; exact absurd he h1
        · exact h
      rw [if_neg (by linarith), if_pos (by linarith)]
      rcases hb.1 with hl | ⟨a, hl, _⟩
      · simp [breakpoints, h1, h2, hl, Ext.sub, Ext.neg, Ext.add, Ext.smul, h2'] at ht
      · exact ⟨a, hl⟩

theorem xBound_between {d x : Fin n → K} {lower upper : Fin n → Ext K} (hx : InBox lower upper x) {j : Fin n} {b : K}
    (hb : xBound d x lower upper j = .fin b) : Between (lower j) (upper j) b := by
  have h := between_fin.mp (hx j)
  unfold xBound at hb
  split_ifs at hb with h1 h2
  · refine between_fin.mpr ⟨?_, Or.inr ⟨b, hb, le_rfl⟩⟩
    rcases h.2 with hu | ⟨b', hu, hle⟩
    · rw [hu] at hb; cases hb
    · rw [hu] at hb; cases hb
      rcases h.1 with hl | ⟨a, hl, hla⟩
      · exact Or.inl hl
      · exact Or.inr ⟨a, hl, by linarith⟩
  · refine between_fin.mpr ⟨Or.inr ⟨b, hb, le_rfl⟩, ?_⟩
    rcases h.1 with hl | ⟨a, hl, hla⟩
    · rw [hl] at hb; cases hb
    · rw [hl] at hb; cases hb
      rcases h.2 with hu | ⟨b', hu, hle⟩
      · exact Or.inl hu
      · exact Or.inr ⟨b', hu, by linarith⟩
  · cases hb; exact hx j

/-- Invariant of the loop. -/
structure CPInv (ts xbs : Fin n → Ext K) (s : CP K n h) : Prop where
  le : s.i ≤ n
  before : ∀ k : Fin n, k.1 < s.i → s.mask k = false
  prev : ∀ k : Fin n, k.1 < s.i → ∃ τ, ts k = .fin τ
  bound : ∀ k : Fin n, s.mask k = false → ∃ b, xbs k = .fin b

theorem dtAt_finite {ts : Fin n → Ext K} (hts : ∀ k, ts k = .pinf ∨ ∃ τ, ts k = .fin τ ∧ 0 ≤ τ) {i : Fin n} {r : K}
    (h : dtAt ts i = .fin r) : ∃ τ, ts i = .fin τ := by
  rcases hts i with h1 | ⟨τ, h1, _⟩
  · unfold dtAt at h
    rw [h1] at h
    split_ifs at h with h0
    · simp [Ext.sub, Ext.neg, Ext.add] at h
    · rcases hts ⟨i.1 - 1, by omega⟩ with h2 | ⟨τ, h2, _⟩ <;> rw [h2] at h <;> simp [Ext.sub, Ext.neg, Ext.add] at h
  · exact ⟨τ, h1⟩

theorem cpLoop_inv {eps theta : K} {grad d x : Fin n → K} {lower upper : Fin n → Ext K}
    {w : Matrix (Fin n) (Fin h ⊕ Fin h) K} {m : Matrix (Fin h ⊕ Fin h) (Fin h ⊕ Fin h) K} {sigma : Fin n → Fin n}
    {ts : Fin n → Ext K} (hts : ∀ k, ts k = .pinf ∨ ∃ τ, ts k = .fin τ ∧ 0 ≤ τ) (k : ℕ) :
    ∀ (s : CP K n h), CPInv ts (fun i => xBound d x lower upper (sigma i)) s → n ≤ s.i + k → ∀ s',
      cpLoop eps theta grad d x lower upper w m sigma ts k s = some s' →
      CPInv ts (fun i => xBound d x lower upper (sigma i)) s' ∧ cpCond ts s' = false := by
  induction k with
  | zero =>
    intro s hi hk s' he
    simp only [cpLoop, Option.some.injEq] at he
    subst he
    refine ⟨hi, ?_⟩
    unfold cpCond
    rw [dif_neg (by omega)]
  | succ k ih =>
    intro s hi hk s' he
    unfold cpLoop at he
    by_cases hin : s.i < n
    · rw [dif_pos hin] at he
      by_cases hc : cpCond ts s = true
      · rw [if_pos hc] at he
        split at he
        · rename_i r xb hr hxb
          refine ih _ ?_ (by simp only [cpBody]; omega) s' he
          obtain ⟨τ, hτ⟩ := dtAt_finite hts hr
          refine ⟨by simp only [cpBody]; omega, ?_, ?_, ?_⟩
          · intro q hq
            simp only [cpBody] at hq ⊢
            by_cases e : q = ⟨s.i, hin⟩
            · rw [e, Function.update_self]
            · rw [Function.update_of_ne e]
              have : q.1 ≠ s.i := fun e' => e (Fin.ext e')
              exact hi.before q (by omega)
          · intro q hq
            simp only [cpBody] at hq
            by_cases e : q = ⟨s.i, hin⟩
            · rw [e]; exact ⟨τ, hτ⟩
            · have : q.1 ≠ s.i := fun e' => e (Fin.ext e')
              exact hi.prev q (by omega)
          · intro q hq
            simp only [cpBody] at hq
            by_cases e : q = ⟨s.i, hin⟩
            · rw [e]; exact ⟨xb, hxb⟩
            · rw [Function.update_of_ne e] at hq
              exact hi.bound q hq
        · cases he
      · rw [if_neg hc] at he
        cases he
        exact ⟨hi, by simpa using hc⟩
    · rw [dif_neg hin] at he
      cases he
      refine ⟨hi, ?_⟩
      unfold cpCond
      rw [dif_neg hin]

theorem startInd_le (mask : Fin n → Bool) : startInd mask ≤ n := by
  have := List.findIdx_le_length (xs := List.ofFn mask) (p := id)
  simpa [startInd] using this

theorem startInd_before (mask : Fin n → Bool) (k : Fin n) (hk : k.1 < startInd mask) : mask k = false := by
  have := List.not_of_lt_findIdx (xs := List.ofFn mask) (p := id) hk
  simpa using this

end Jaxopt.QuasiNewton
