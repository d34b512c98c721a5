import Verif.QuasiNewton.LbfgsbLemmas
import Verif.LineSearch.HagerZhang
import Mathlib.Algebra.Order.Ring.Rat
import Mathlib.LinearAlgebra.Matrix.Notation

/-!
# Property C28: feasibility of the L-BFGS-B iterates
-/

set_option autoImplicit false
set_option linter.unusedSectionVars false
set_option linter.unusedVariables false

namespace Jaxopt.QuasiNewton

open Matrix

variable {K : Type*} [Field K] [LinearOrder K] [IsStrictOrderedRing K] {n h : ℕ}

/-- **C28, Cauchy point (partial).** For a feasible point and arbitrary matrices `W`, `M` and scaling `theta`, the Cauchy point
computed is finite and satisfies the bounds, provided no gradient entry lies strictly between 0 and machine epsilon in
absolute value (see `C28_small_gradient_false`). -/
theorem C28_cauchy_partial {eps : K} (he : 0 < eps) (argsort : (Fin n → Ext K) → Equiv.Perm (Fin n))
    (x grad : Fin n → K) (lower upper : Fin n → Ext K) (theta : K) (w : Matrix (Fin n) (Fin h ⊕ Fin h) K)
    (m : Matrix (Fin h ⊕ Fin h) (Fin h ⊕ Fin h) K) (hx : InBox lower upper x)
    (hsort : IsArgsort (breakpoints eps x grad lower upper) (argsort (breakpoints eps x grad lower upper)))
    (hg : ∀ j, grad j = 0 ∨ eps ≤ |grad j|) (r : (Fin n → Ext K) × (Fin h ⊕ Fin h → K) × (Fin n → Bool))
    (hr : findCauchyPoint eps argsort x grad lower upper theta w m = some r) :
    ∃ xc : Fin n → K, (∀ j, r.1 j = .fin (xc j)) ∧ InBox lower upper xc := by
  suffices hall : ∀ j, ∃ v, r.1 j = .fin v ∧ Between (lower j) (upper j) v by
    choose xc h1 h2 using hall
    exact ⟨xc, h1, h2⟩
  unfold findCauchyPoint at hr
  simp only at hr
  set t := breakpoints eps x grad lower upper with ht
  have hgood := fun j => goodBreak he hx hg j
  rw [← ht] at hgood
  split at hr
  · cases hr
  · rename_i s hs
    have hts : ∀ k, (fun i => t (argsort t i)) k = .pinf ∨ ∃ τ, (fun i => t (argsort t i)) k = .fin τ ∧ 0 ≤ τ :=
      fun k => (hgood _).nonneg
    have hmaskfin : ∀ k : Fin n, Ext.gt (t (argsort t k)) (.fin eps) = false → ∃ τ, t (argsort t k) = .fin τ := by
      intro k hk
      rcases (hgood (argsort t k)).nonneg with h1 | ⟨τ, h1, _⟩
      · rw [h1] at hk; simp [Ext.gt, Ext.lt] at hk
      · exact ⟨τ, h1⟩
    have hinv0 : CPInv (h := h) (fun i => t (argsort t i))
        (fun i => xBound (cauchyDir eps t grad) x lower upper (argsort t i))
        ⟨startInd fun i => Ext.gt (t (argsort t i)) (.fin eps), -(cauchyDir eps t grad ⬝ᵥ cauchyDir eps t grad),
          -theta * -(cauchyDir eps t grad ⬝ᵥ cauchyDir eps t grad) -
            (m *ᵥ (wᵀ *ᵥ cauchyDir eps t grad)) ⬝ᵥ (wᵀ *ᵥ cauchyDir eps t grad),
          fun i => Ext.gt (t (argsort t i)) (.fin eps), 0, wᵀ *ᵥ cauchyDir eps t grad⟩ := by
      refine ⟨startInd_le _, fun k hk => startInd_before _ k hk, fun k hk => hmaskfin k (startInd_before _ k hk), ?_⟩
      intro k hk
      obtain ⟨τ, hτ⟩ := hmaskfin k hk
      exact xBound_of_finite he hx _ hτ
    obtain ⟨hinv, hexit⟩ := cpLoop_inv hts n _ hinv0 (by omega) s hs
    split at hr
    · rename_i dtMin hdt
      simp only [Option.some.injEq] at hr
      subst hr
      intro j
      by_cases hact : s.mask ((argsort t).symm j) = true
      · simp only [hact, if_true]
        set k := (argsort t).symm j with hk
        have hjk : argsort t k = j := by rw [hk]; simp
        have hik : s.i ≤ k.1 := by
          by_contra hlt
          rw [hinv.before k (by omega)] at hact
          cases hact
        have hin : s.i < n := by omega
        -- the time reached before the last partial move
        obtain ⟨τp, hτp, hτp0⟩ : ∃ τp, (if hi : 0 < s.i then
            (if hn : s.i - 1 < n then t (argsort t ⟨s.i - 1, hn⟩) else .fin 0) else .fin 0 : Ext K) = .fin τp ∧ 0 ≤ τp := by
          by_cases h0 : 0 < s.i
          · have hn : s.i - 1 < n := by omega
            obtain ⟨τ, hτ⟩ := hinv.prev ⟨s.i - 1, hn⟩ (by simp only; omega)
            rw [dif_pos h0, dif_pos hn, hτ]
            rcases (hgood (argsort t ⟨s.i - 1, hn⟩)).nonneg with h1 | ⟨τ', h1, h2⟩
            · rw [h1] at hτ; cases hτ
            · rw [h1] at hτ; cases hτ; exact ⟨_, rfl, h2⟩
          · rw [dif_neg h0]; exact ⟨0, rfl, le_rfl⟩
        -- the step does not pass the next breakpoint
        have hstep : 0 ≤ dtMin ∧ Ext.le (.fin (τp + dtMin)) (t (argsort t ⟨s.i, hin⟩)) = true := by
          have hq0 : 0 ≤ dtMin ∧ (dtMin = 0 ∨ divE (-s.df) s.ddf = .fin dtMin) := by
            cases hq : divE (-s.df) s.ddf with
            | nan =>
              rw [hq] at hdt
              simp [Ext.max, Ext.isNan] at hdt
              exact ⟨hdt.le, Or.inl hdt.symm⟩
            | ninf =>
              rw [hq] at hdt
              simp [Ext.max, Ext.isNan] at hdt
              exact ⟨hdt.le, Or.inl hdt.symm⟩
            | pinf => rw [hq] at hdt; simp [Ext.max, Ext.isNan] at hdt
            | fin a =>
              rw [hq] at hdt
              simp [Ext.max, Ext.isNan] at hdt
              rcases le_total a 0 with h1 | h1
              · rw [max_eq_right h1] at hdt; exact ⟨hdt.le, Or.inl hdt.symm⟩
              · rw [max_eq_left h1] at hdt; exact ⟨by rw [← hdt]; exact h1, Or.inr (by rw [hdt])⟩
          refine ⟨hq0.1, ?_⟩
          rcases (hgood (argsort t ⟨s.i, hin⟩)).nonneg with h1 | ⟨τ, h1, h1'⟩
          · rw [h1]; rfl
          · rw [h1]
            have hdtv : dtAt (fun i => t (argsort t i)) ⟨s.i, hin⟩ = .fin (τ - τp) := by
              unfold dtAt
              simp only [h1]
              by_cases h0 : s.i = 0
              · rw [dif_neg (by omega)] at hτp
                cases hτp
                simp [h0, Ext.sub, Ext.neg, Ext.add]
              · rw [dif_pos (by omega), dif_pos (by omega)] at hτp
                rw [dif_neg h0, hτp]
                simp [Ext.sub, Ext.neg, Ext.add, sub_eq_add_neg]
            have hmono : τp ≤ τ := by
              by_cases h0 : s.i = 0
              · rw [dif_neg (by omega)] at hτp
                cases hτp; exact h1'
              · rw [dif_pos (by omega), dif_pos (by omega)] at hτp
                have := hsort ⟨s.i - 1, by omega⟩ ⟨s.i, hin⟩ (by simp only [Fin.mk_le_mk]; omega)
                rw [hτp, h1] at this
                simpa [Ext.le] using this
            have hlt := hexit
            unfold cpCond at hlt
            rw [dif_pos hin, hdtv] at hlt
            simp only [Ext.le, decide_eq_true_eq]
            rcases hq0.2 with h2 | h2
            · rw [h2]; linarith
            · rw [h2] at hlt
              simp only [Ext.le, decide_eq_false_iff_not, not_le] at hlt
              linarith
        have hle : Ext.le (.fin (τp + dtMin)) (t j) = true := by
          have h1 := hsort ⟨s.i, hin⟩ k (by rw [Fin.le_def]; exact hik)
          rw [hjk] at h1
          have h2 := hstep.2
          revert h1 h2
          rcases (hgood (argsort t ⟨s.i, hin⟩)).nonneg with h3 | ⟨τ, h3, _⟩ <;>
            rcases (hgood j).nonneg with h4 | ⟨τ', h4, _⟩ <;> rw [h3, h4] <;> simp [Ext.le]
          intro h5 h6; linarith
        have hbt := (hgood j).inside (τp + dtMin) (by linarith [hstep.1]) hle
        -- the coordinate is active, so its direction is either `-grad` or zero
        have hd : cauchyDir eps t grad j = -grad j ∨ cauchyDir eps t grad j = 0 := by
          unfold cauchyDir; split_ifs
          · exact Or.inr rfl
          · exact Or.inl rfl
        refine ⟨x j + cauchyDir eps t grad j * (τp + dtMin), ?_, ?_⟩
        · rw [hτp]
          simp [Ext.add, Ext.smul]
        · rcases hd with hd | hd
          · rw [hd, mul_comm]; exact hbt
          · rw [hd, zero_mul, add_zero]; exact hx j
      · have hact' : s.mask ((argsort t).symm j) = false := by simpa using hact
        simp only [hact', Bool.false_eq_true, if_false]
        obtain ⟨b, hb⟩ := hinv.bound _ hact'
        simp only [Equiv.apply_symm_apply] at hb
        exact ⟨b, hb, xBound_between hx hb⟩
    · cases hr

/-- **C28, subspace minimisation.** Whatever the direction `du`, the truncated subspace step from a feasible Cauchy point is
finite and feasible. -/
theorem C28_subspace (lower upper : Fin n → Ext K) (xc du : Fin n → K) (active : Fin n → Bool)
    (hx : InBox lower upper xc) :
    ∃ xs : Fin n → K, (∀ j, subspaceStep lower upper xc du active j = .fin (xs j)) ∧ InBox lower upper xs := by
  -- every `alpha` is a non-negative number or +inf, and it keeps its own coordinate inside
  have halpha : ∀ j, (subspaceAlpha lower upper xc du active j = .pinf ∨
      ∃ a, subspaceAlpha lower upper xc du active j = .fin a ∧ 0 ≤ a) ∧
      (active j = true → ∀ r : K, 0 ≤ r → Ext.le (.fin r) (subspaceAlpha lower upper xc du active j) = true →
        Between (lower j) (upper j) (xc j + du j * r)) := by
    intro j
    obtain ⟨hl, hu⟩ := between_fin.mp (hx j)
    unfold subspaceAlpha
    split_ifs with hc
    · have hne : du j ≠ 0 := abs_pos.mp hc.2
      rcases lt_or_gt_of_ne hne with hneg | hpos
      · have hi : (du j)⁻¹ < 0 := inv_lt_zero.mpr hneg
        have hi' : ¬ 0 < (du j)⁻¹ := not_lt.mpr hi.le
        have hup : ∀ r : K, 0 ≤ r → (upper j = .pinf ∨ ∃ b, upper j = .fin b ∧ xc j + du j * r ≤ b) := by
          intro r hr
          rcases hu with hu | ⟨b, hu, hb⟩
          · exact Or.inl hu
          · refine Or.inr ⟨b, hu, ?_⟩
            have := mul_nonpos_of_nonpos_of_nonneg hneg.le hr
            linarith
        rcases hl with hl | ⟨a, hl, ha⟩
        · have e : Ext.smul (1 / du j) (Ext.sub (lower j) (.fin (xc j))) = .pinf := by
            simp [hl, Ext.sub, Ext.neg, Ext.add, Ext.smul, hi, hi']
          have e2 : Ext.max (Ext.smul (1 / du j) (Ext.sub (upper j) (.fin (xc j)))) .pinf = .pinf := by
            rcases hu with hu | ⟨b, hu, _⟩
            · simp [hu, Ext.sub, Ext.neg, Ext.add, Ext.smul, hi, hi', Ext.max]
            · simp [hu, Ext.sub, Ext.neg, Ext.add, Ext.smul, Ext.max]
          rw [e, e2]
          exact ⟨Or.inl rfl, fun _ r hr _ => between_fin.mpr ⟨Or.inl hl, hup r hr⟩⟩
        · have e : Ext.max (Ext.smul (1 / du j) (Ext.sub (upper j) (.fin (xc j))))
              (Ext.smul (1 / du j) (Ext.sub (lower j) (.fin (xc j)))) = .fin ((a - xc j) / du j) := by
            rcases hu with hu | ⟨b, hu, hb⟩
            · simp [hl, hu, Ext.sub, Ext.neg, Ext.add, Ext.smul, hi, hi', Ext.max]
              field_simp; ring
            · simp only [hl, hu, Ext.sub, Ext.neg, Ext.add, Ext.smul, Ext.max]
              rw [max_eq_right]
              · congr 1; field_simp; ring
              · rw [one_div]
                exact mul_le_mul_of_nonpos_left (by linarith) hi.le
          rw [e]
          refine ⟨Or.inr ⟨_, rfl, div_nonneg_of_nonpos (by linarith) hneg.le⟩, fun _ r hr hle => ?_⟩
          simp only [Ext.le, decide_eq_true_eq] at hle
          refine between_fin.mpr ⟨Or.inr ⟨a, hl, ?_⟩, hup r hr⟩
          have h2 : a - xc j ≤ r * du j := (le_div_iff_of_neg hneg).mp hle
          linarith [mul_comm r (du j)]
      · have hi : 0 < (du j)⁻¹ := inv_pos.mpr hpos
        have hlo : ∀ r : K, 0 ≤ r → (lower j = .ninf ∨ ∃ a, lower j = .fin a ∧ a ≤ xc j + du j * r) := by
          intro r hr
          rcases hl with hl | ⟨a, hl, ha⟩
          · exact Or.inl hl
          · refine Or.inr ⟨a, hl, ?_⟩
            have := mul_nonneg hpos.le hr
            linarith
        rcases hu with hu | ⟨b, hu, hb⟩
        · have e2 : Ext.max (Ext.smul (1 / du j) (Ext.sub (upper j) (.fin (xc j))))
              (Ext.smul (1 / du j) (Ext.sub (lower j) (.fin (xc j)))) = .pinf := by
            rcases hl with hl | ⟨a, hl, _⟩
            · simp [hl, hu, Ext.sub, Ext.neg, Ext.add, Ext.smul, hpos, Ext.max]
            · simp [hl, hu, Ext.sub, Ext.neg, Ext.add, Ext.smul, hpos, Ext.max]
          rw [e2]
          exact ⟨Or.inl rfl, fun _ r hr _ => between_fin.mpr ⟨hlo r hr, Or.inl hu⟩⟩
        · have e : Ext.max (Ext.smul (1 / du j) (Ext.sub (upper j) (.fin (xc j))))
              (Ext.smul (1 / du j) (Ext.sub (lower j) (.fin (xc j)))) = .fin ((b - xc j) / du j) := by
            rcases hl with hl | ⟨a, hl, ha⟩
            · simp [hl, hu, Ext.sub, Ext.neg, Ext.add, Ext.smul, hpos, Ext.max]
              field_simp; ring
            · simp only [hl, hu, Ext.sub, Ext.neg, Ext.add, Ext.smul, Ext.max]
              rw [max_eq_left]
              · congr 1; field_simp; ring
              · rw [one_div]
                exact mul_le_mul_of_nonneg_left (by linarith) hi.le
          rw [e]
          refine ⟨Or.inr ⟨_, rfl, div_nonneg (by linarith) hpos.le⟩, fun _ r hr hle => ?_⟩
          simp only [Ext.le, decide_eq_true_eq] at hle
          refine between_fin.mpr ⟨hlo r hr, Or.inr ⟨b, hu, ?_⟩⟩
          have h2 : r * du j ≤ b - xc j := (le_div_iff₀ hpos).mp hle
          linarith [mul_comm r (du j)]
    · refine ⟨Or.inr ⟨1, rfl, zero_le_one⟩, fun hact r hr _ => ?_⟩
      have h0 : du j = 0 := by
        by_contra hne
        exact hc ⟨hact, abs_pos.mpr hne⟩
      rw [h0, zero_mul, add_zero]
      exact hx j
  -- the minimum of the alphas
  have hfold : ∀ (l : List (Ext K)), (∀ e ∈ l, e = .pinf ∨ ∃ a, e = .fin a ∧ 0 ≤ a) → ∀ e0 : Ext K,
      (e0 = .pinf ∨ ∃ a, e0 = .fin a ∧ 0 ≤ a) →
      (l.foldl Ext.min e0 = .pinf ∨ ∃ a, l.foldl Ext.min e0 = .fin a ∧ 0 ≤ a) ∧
      Ext.le (l.foldl Ext.min e0) e0 = true ∧ ∀ e ∈ l, Ext.le (l.foldl Ext.min e0) e = true := by
    intro l
    induction l with
    | nil =>
      intro _ e0 h0
      refine ⟨h0, ?_, by simp⟩
      rcases h0 with h0 | ⟨a, h0, _⟩ <;> simp [h0, Ext.le]
    | cons a l ih =>
      intro hl e0 h0
      have ha := hl a (by simp)
      have hm : Ext.min e0 a = .pinf ∨ ∃ b, Ext.min e0 a = .fin b ∧ 0 ≤ b := by
        rcases h0 with h0 | ⟨b, h0, hb⟩ <;> rcases ha with ha | ⟨c, ha, hc⟩ <;> simp [h0, ha, Ext.min, *]
      have hm1 : Ext.le (Ext.min e0 a) e0 = true ∧ Ext.le (Ext.min e0 a) a = true := by
        rcases h0 with h0 | ⟨b, h0, hb⟩ <;> rcases ha with ha | ⟨c, ha, hc⟩ <;> simp [h0, ha, Ext.min, Ext.le]
      obtain ⟨i1, i2, i3⟩ := ih (fun e he => hl e (by simp [he])) _ hm
      have htrans : ∀ p q r : Ext K, Ext.le p q = true → Ext.le q r = true → Ext.le p r = true := by
        intro p q r
        cases p <;> cases q <;> cases r <;> simp [Ext.le]
        intro u v; exact le_trans u v
      refine ⟨i1, htrans _ _ _ i2 hm1.1, ?_⟩
      intro e he
      rcases List.mem_cons.mp he with rfl | he
      · exact htrans _ _ _ i2 hm1.2
      · exact i3 e he
  obtain ⟨f1, _, f3⟩ := hfold (List.ofFn (subspaceAlpha lower upper xc du active))
    (fun e he => by obtain ⟨j, rfl⟩ := (List.mem_ofFn).mp he; exact (halpha j).1) .pinf (Or.inl rfl)
  obtain ⟨a, ha, ha0, hale⟩ : ∃ a : K,
      Ext.min ((List.ofFn (subspaceAlpha lower upper xc du active)).foldl Ext.min .pinf) (.fin 1) = .fin a ∧ 0 ≤ a ∧
      ∀ j, Ext.le (.fin a) (subspaceAlpha lower upper xc du active j) = true := by
    rcases f1 with f1 | ⟨b, f1, hb⟩
    · refine ⟨1, by simp [f1, Ext.min], zero_le_one, fun j => ?_⟩
      have := f3 _ (List.mem_ofFn.mpr ⟨j, rfl⟩)
      rw [f1] at this
      rcases (halpha j).1 with h1 | ⟨c, h1, _⟩
      · rw [h1]; rfl
      · rw [h1] at this; simp [Ext.le] at this
    · refine ⟨min b 1, by simp [f1, Ext.min], le_min hb zero_le_one, fun j => ?_⟩
      have := f3 _ (List.mem_ofFn.mpr ⟨j, rfl⟩)
      rw [f1] at this
      rcases (halpha j).1 with h1 | ⟨c, h1, _⟩
      · rw [h1]; rfl
      · rw [h1] at this ⊢
        simp only [Ext.le, decide_eq_true_eq] at this ⊢
        exact le_trans (min_le_left _ _) this
  refine ⟨fun j => if active j then xc j + du j * a else xc j, fun j => ?_, fun j => ?_⟩
  · unfold subspaceStep
    simp only [ha]
    split_ifs <;> simp [Ext.smul, Ext.add]
  · by_cases hact : active j = true
    · simp only [hact, if_true]
      exact (halpha j).2 hact a ha0 (hale j)
    · simp only [hact, Bool.false_eq_true, if_false]
      exact hx j

theorem cpLoop_defined {eps theta : K} (he : 0 < eps) {grad x : Fin n → K} {lower upper : Fin n → Ext K}
    {w : Matrix (Fin n) (Fin h ⊕ Fin h) K} {m : Matrix (Fin h ⊕ Fin h) (Fin h ⊕ Fin h) K} {sigma : Fin n → Fin n}
    (hx : InBox lower upper x) (hg : ∀ j, grad j = 0 ∨ eps ≤ |grad j|) (k : ℕ) :
    ∀ (s : CP K n h), CPInv (fun i => breakpoints eps x grad lower upper (sigma i))
        (fun i => xBound (cauchyDir eps (breakpoints eps x grad lower upper) grad) x lower upper (sigma i)) s →
      0 < s.ddf → ∃ s',
      cpLoop eps theta grad (cauchyDir eps (breakpoints eps x grad lower upper) grad) x lower upper w m sigma
        (fun i => breakpoints eps x grad lower upper (sigma i)) k s = some s' ∧ 0 < s'.ddf := by
  induction k with
  | zero => intro s _ hd; exact ⟨s, rfl, hd⟩
  | succ k ih =>
    intro s hi hd
    unfold cpLoop
    by_cases hin : s.i < n
    · rw [dif_pos hin]
      by_cases hc : cpCond (fun i => breakpoints eps x grad lower upper (sigma i)) s = true
      · rw [if_pos hc]
        have hgood := goodBreak he hx hg (sigma ⟨s.i, hin⟩)
        unfold cpCond at hc
        rw [dif_pos hin] at hc
        have hprev : ∃ τp, (if h : (⟨s.i, hin⟩ : Fin n).1 = 0 then .fin 0 else
            breakpoints eps x grad lower upper (sigma ⟨s.i - 1, by omega⟩) : Ext K) = .fin τp := by
          by_cases h0 : s.i = 0
          · exact ⟨0, by simp [h0]⟩
          · obtain ⟨τ, hτ⟩ := hi.prev ⟨s.i - 1, by omega⟩ (by simp only; omega)
            exact ⟨τ, by simp only [h0, dite_false]; exact hτ⟩
        obtain ⟨τp, hτp⟩ := hprev
        have hfin : ∃ τ, breakpoints eps x grad lower upper (sigma ⟨s.i, hin⟩) = .fin τ := by
          rcases hgood.nonneg with h1 | ⟨τ, h1, _⟩
          · exfalso
            unfold dtAt at hc
            simp only [h1] at hc
            rw [hτp] at hc
            simp [Ext.sub, Ext.neg, Ext.add, divE, hd.ne', Ext.le] at hc
          · exact ⟨τ, h1⟩
        obtain ⟨τ, hτ⟩ := hfin
        have hdt : dtAt (fun i => breakpoints eps x grad lower upper (sigma i)) ⟨s.i, hin⟩ = .fin (τ + -τp) := by
          unfold dtAt
          simp only [hτ]
          rw [hτp]; rfl
        obtain ⟨b, hb⟩ := xBound_of_finite he hx _ hτ
        rw [hdt, hb]
        simp only
        apply ih
        · refine ⟨by simp only [cpBody]; omega, ?_, ?_, ?_⟩
          · intro q hq
            simp only [cpBody] at hq ⊢
            by_cases e : q = ⟨s.i, hin⟩
            · rw [e, Function.update_self]
            · rw [Function.update_of_ne e]
              have : q.1 ≠ s.i := fun e' => e (Fin.ext e')
              exact hi.before q (by omega)
          · intro q hq
            simp only [cpBody] at hq
            by_cases e : q = ⟨s.i, hin⟩
            · rw [e]; exact ⟨τ, hτ⟩
            · have : q.1 ≠ s.i := fun e' => e (Fin.ext e')
              exact hi.prev q (by omega)
          · intro q hq
            simp only [cpBody] at hq
            by_cases e : q = ⟨s.i, hin⟩
            · rw [e]; exact ⟨b, hb⟩
            · rw [Function.update_of_ne e] at hq
              exact hi.bound q hq
        · exact lt_of_lt_of_le he (le_max_left _ _)
      · rw [if_neg hc]; exact ⟨s, rfl, hd⟩
    · rw [dif_neg hin]; exact ⟨s, rfl, hd⟩

/-- **C28, the Cauchy point is defined** (no infinite breakpoint enters the arithmetic) whenever the quadratic model has
positive curvature along the projected steepest descent direction. -/
theorem C28_cauchy_defined {eps : K} (he : 0 < eps) (argsort : (Fin n → Ext K) → Equiv.Perm (Fin n))
    (x grad : Fin n → K) (lower upper : Fin n → Ext K) (theta : K) (w : Matrix (Fin n) (Fin h ⊕ Fin h) K)
    (m : Matrix (Fin h ⊕ Fin h) (Fin h ⊕ Fin h) K) (hx : InBox lower upper x)
    (hg : ∀ j, grad j = 0 ∨ eps ≤ |grad j|)
    (hcurv : let d := cauchyDir eps (breakpoints eps x grad lower upper) grad
      (m *ᵥ (wᵀ *ᵥ d)) ⬝ᵥ (wᵀ *ᵥ d) < theta * (d ⬝ᵥ d)) :
    (findCauchyPoint eps argsort x grad lower upper theta w m).isSome = true := by
  unfold findCauchyPoint
  simp only at hcurv ⊢
  set t := breakpoints eps x grad lower upper with ht
  have hgood := fun j => goodBreak he hx hg j
  rw [← ht] at hgood
  have hmaskfin : ∀ k : Fin n, Ext.gt (t (argsort t k)) (.fin eps) = false → ∃ τ, t (argsort t k) = .fin τ := by
    intro k hk
    rcases (hgood (argsort t k)).nonneg with h1 | ⟨τ, h1, _⟩
    · rw [h1] at hk; simp [Ext.gt, Ext.lt] at hk
    · exact ⟨τ, h1⟩
  obtain ⟨s', hs', hdd⟩ := cpLoop_defined (h := h) (theta := theta) (w := w) (m := m) (sigma := argsort t) he hx hg n
      ⟨startInd fun i => Ext.gt (t (argsort t i)) (.fin eps), -(cauchyDir eps t grad ⬝ᵥ cauchyDir eps t grad),
          -theta * -(cauchyDir eps t grad ⬝ᵥ cauchyDir eps t grad) -
            (m *ᵥ (wᵀ *ᵥ cauchyDir eps t grad)) ⬝ᵥ (wᵀ *ᵥ cauchyDir eps t grad),
          fun i => Ext.gt (t (argsort t i)) (.fin eps), 0, wᵀ *ᵥ cauchyDir eps t grad⟩
      ⟨startInd_le _, fun k hk => startInd_before _ k hk, fun k hk => hmaskfin k (startInd_before _ k hk), by
        intro k hk
        obtain ⟨τ, hτ⟩ := hmaskfin k hk
        exact xBound_of_finite he hx _ hτ⟩ (by simp only; linarith)
  rw [← ht] at hs'
  rw [hs']
  simp only [divE, hdd.ne', ne_eq, not_false_iff, if_true, Ext.max, Ext.isNan, Bool.false_eq_true, if_false,
    Option.isSome_some]

theorem finite_spec {v : Fin n → Ext K} {a : Fin n → K} (hv : ∀ j, v j = .fin (a j)) : Lbfgsb.finite v = some a := by
  unfold Lbfgsb.finite
  have h1 : ∀ j, (Lbfgsb.toK (v j)).isSome = true := fun j => by rw [hv j]; rfl
  rw [if_pos h1]
  congr 1
  funext j
  rw [hv j]; rfl

theorem clipE_between {l u : Ext K} {x y : K} (hx : Between l u x) : ∃ v, clipE y l u = .fin v ∧ Between l u v := by
  obtain ⟨hl, hu⟩ := between_fin.mp hx
  unfold clipE
  rcases hl with hl | ⟨a, hl, ha⟩ <;> rcases hu with hu | ⟨b, hu, hb⟩
  · exact ⟨y, by simp [hl, hu, Ext.max, Ext.min], by simp [Between, hl, hu, Ext.le]⟩
  · exact ⟨min y b, by simp [hl, hu, Ext.max, Ext.min], by simp [Between, hl, hu, Ext.le]⟩
  · exact ⟨max y a, by simp [hl, hu, Ext.max, Ext.min], by simp [Between, hl, hu, Ext.le]⟩
  · refine ⟨min (max y a) b, by simp [hl, hu, Ext.max, Ext.min], ?_⟩
    simp only [Between, hl, hu, Ext.le, decide_eq_true_eq]
    exact ⟨le_min (le_max_right _ _) (by linarith), min_le_right _ _⟩

theorem between_convex {l u : Ext K} {x y a : K} (hx : Between l u x) (hy : Between l u y) (h0 : 0 ≤ a) (h1 : a ≤ 1) :
    Between l u (x + a * (y - x)) := by
  obtain ⟨hl, hu⟩ := between_fin.mp hx
  obtain ⟨hl', hu'⟩ := between_fin.mp hy
  refine between_fin.mpr ⟨?_, ?_⟩
  · rcases hl with hl | ⟨b, hl, hb⟩
    · exact Or.inl hl
    · rcases hl' with hl' | ⟨b', hl', hb'⟩
      · rw [hl] at hl'; cases hl'
      · rw [hl] at hl'; cases hl'
        refine Or.inr ⟨b, hl, ?_⟩
        nlinarith [mul_nonneg h0 (sub_nonneg.mpr hb'), mul_nonneg (sub_nonneg.mpr h1) (sub_nonneg.mpr hb)]
  · rcases hu with hu | ⟨b, hu, hb⟩
    · exact Or.inl hu
    · rcases hu' with hu' | ⟨b', hu', hb'⟩
      · rw [hu] at hu'; cases hu'
      · rw [hu] at hu'; cases hu'
        refine Or.inr ⟨b, hu, ?_⟩
        nlinarith [mul_nonneg h0 (sub_nonneg.mpr hb'), mul_nonneg (sub_nonneg.mpr h1) (sub_nonneg.mpr hb)]

namespace Lbfgsb

variable {V : Type*}

/-- **C28, one update (partial).** From a feasible point the next parameters are feasible, for every history, scaling, matrix
inverse and linear solver, provided the gradient has no entry strictly between 0 and machine epsilon in absolute value and the
line search, when there is one, moves by a fraction `a ∈ [0, 1]` of the direction (`C28_linesearch_false` shows that this is
needed: nothing in the code clips that point).  Without line search no such hypothesis is needed. -/
theorem C28_update_partial (S : Lbfgsb K V n (h + 1)) (he : 0 < S.eps) (lower upper : Fin n → Ext K)
    (hsort : ∀ t, (∀ j, t j ≠ .nan) → IsArgsort t (S.argsort t))
    (p p' : (Fin n → K) × LbfgsbState K V n (h + 1)) (hx : InBox lower upper p.1)
    (hg : ∀ j, p.2.grad j = 0 ∨ S.eps ≤ |p.2.grad j|)
    (hls : ∀ c, S.stepsize = .const c → c ≤ 0 → ∀ d, ∃ a : K, 0 ≤ a ∧ a ≤ 1 ∧
      (S.runLs (S.initStep p.2.stepsize) p.1 p.2.value p.2.grad d).params = p.1 + a • d)
    (hu : S.update lower upper p = some p') : InBox lower upper p'.1 := by
  unfold update at hu
  simp only [Option.bind_eq_some_iff, Option.map_eq_some_iff] at hu
  obtain ⟨xs, hxs, o, ho, rfl⟩ := hu
  simp only
  have hbox : InBox lower upper xs := by
    unfold subspaceMin at hxs
    simp only [Option.bind_eq_some_iff] at hxs
    obtain ⟨r, hr, xc, hxc, hfin⟩ := hxs
    have hnan : ∀ j, breakpoints S.eps p.1 p.2.grad lower upper j ≠ .nan := by
      intro j
      rcases (goodBreak he hx hg j).nonneg with h1 | ⟨τ, h1, _⟩ <;> rw [h1] <;> simp
    obtain ⟨xc', h1, h2⟩ := C28_cauchy_partial he S.argsort p.1 p.2.grad lower upper p.2.theta (wFlat p.2)
      (S.inv (mInv p.2)) hx (hsort _ hnan) hg r hr
    rw [finite_spec h1] at hxc
    cases hxc
    obtain ⟨xs', h3, h4⟩ := C28_subspace lower upper xc
      (subspaceDir S.solve p.1 p.2.grad xc r.2.1 p.2.theta (wFlat p.2) (S.inv (mInv p.2)) r.2.2) r.2.2 h2
    rw [finite_spec h3] at hfin
    cases hfin
    exact h4
  have hfixed : ∀ (a : K) (o : LsOut K (Fin n → K) V),
      ((finite fun j => clipE (p.1 j + a * (xs - p.1) j) (lower j) (upper j)).map
        fun x' => (⟨a, x', S.f x', S.grad x', false⟩ : LsOut K (Fin n → K) V)) = some o →
      InBox lower upper o.params := by
    intro a o ho
    have hall : ∀ j, ∃ v, clipE (p.1 j + a * (xs - p.1) j) (lower j) (upper j) = .fin v ∧
        Between (lower j) (upper j) v := fun j => clipE_between (hx j)
    choose v h1 h2 using hall
    rw [finite_spec h1] at ho
    simp only [Option.map_some, Option.some.injEq] at ho
    rw [← ho]
    exact h2
  unfold step at ho
  simp only at ho
  cases hst : S.stepsize with
  | const c =>
    rw [hst] at ho
    simp only at ho
    split_ifs at ho with hc
    · cases ho
      obtain ⟨a, ha0, ha1, ha⟩ := hls c hst hc (xs - p.1)
      rw [ha]
      intro j
      have := between_convex (hx j) (hbox j) ha0 ha1
      simpa using this
    · exact hfixed c o ho
  | fn c =>
    rw [hst] at ho
    simp only at ho
    exact hfixed _ o ho

/-- The `k`-th iterate. -/
def iter (S : Lbfgsb K V n (h + 1)) (lower upper : Fin n → Ext K) (x0 : Fin n → K) :
    ℕ → Option ((Fin n → K) × LbfgsbState K V n (h + 1))
  | 0 => some (x0, S.initState lower upper x0)
  | k + 1 => (iter S lower upper x0 k).bind (S.update lower upper)

/-- **C28 along a run (partial).** If the start is feasible, every iterate is feasible, under the hypotheses of
`C28_update_partial` for all gradients of the objective and all calls of the line search. -/
theorem C28_run_partial (S : Lbfgsb K V n (h + 1)) (he : 0 < S.eps) (lower upper : Fin n → Ext K)
    (hsort : ∀ t, (∀ j, t j ≠ .nan) → IsArgsort t (S.argsort t)) (x0 : Fin n → K) (hx : InBox lower upper x0)
    (hg : ∀ x j, S.grad x j = 0 ∨ S.eps ≤ |S.grad x j|)
    (hls : ∀ s x v g d, ∃ a : K, 0 ≤ a ∧ a ≤ 1 ∧ (S.runLs s x v g d).params = x + a • d ∧
      (S.runLs s x v g d).grad = S.grad (S.runLs s x v g d).params) (k : ℕ)
    (p : (Fin n → K) × LbfgsbState K V n (h + 1)) (hp : iter S lower upper x0 k = some p) :
    InBox lower upper p.1 ∧ p.2.grad = S.grad p.1 := by
  induction k generalizing p with
  | zero => cases hp; exact ⟨hx, rfl⟩
  | succ k ih =>
    simp only [iter, Option.bind_eq_some_iff] at hp
    obtain ⟨q, hq, hu⟩ := hp
    obtain ⟨h1, h2⟩ := ih q hq
    refine ⟨C28_update_partial S he lower upper hsort q p h1 (by rw [h2]; exact hg q.1) ?_ hu, ?_⟩
    · intro c _ _ d
      obtain ⟨a, a0, a1, a2, _⟩ := hls (S.initStep q.2.stepsize) q.1 q.2.value q.2.grad d
      exact ⟨a, a0, a1, a2⟩
    · unfold update at hu
      simp only [Option.bind_eq_some_iff, Option.map_eq_some_iff] at hu
      obtain ⟨xs, _, o, ho, rfl⟩ := hu
      simp only
      unfold step at ho
      simp only at ho
      cases hst : S.stepsize with
      | const c =>
        rw [hst] at ho
        simp only at ho
        split_ifs at ho with hc
        · cases ho
          obtain ⟨a, _, _, _, a3⟩ := hls (S.initStep q.2.stepsize) q.1 q.2.value q.2.grad (xs - q.1)
          exact a3
        · obtain ⟨x', _, rfl⟩ := Option.map_eq_some_iff.mp ho
          rfl
      | fn c =>
        rw [hst] at ho
        simp only at ho
        obtain ⟨x', _, rfl⟩ := Option.map_eq_some_iff.mp ho
        rfl

/-! ### Where the claim fails -/

/-- A permutation of two positions. -/
def swapSort : (Fin 2 → Ext ℚ) → Equiv.Perm (Fin 2) := fun _ => Equiv.swap 0 1

/-- **C28 fails for gradient entries below machine epsilon**: the breakpoint of such a coordinate is set to infinity but the
coordinate still moves, so a coordinate sitting at its bound leaves the box (here `x = (0, 0)`, bounds `[-1, 0] × [-1, 1]`,
gradient `(-eps/2, -1)`). -/
theorem C28_small_gradient_false :
    ¬ ∀ (x grad : Fin 2 → ℚ) (lower upper : Fin 2 → Ext ℚ) (argsort : (Fin 2 → Ext ℚ) → Equiv.Perm (Fin 2))
      (r : (Fin 2 → Ext ℚ) × (Fin 1 ⊕ Fin 1 → ℚ) × (Fin 2 → Bool)),
      InBox lower upper x →
      IsArgsort (breakpoints (1 / 4503599627370496) x grad lower upper)
        (argsort (breakpoints (1 / 4503599627370496) x grad lower upper)) →
      findCauchyPoint (h := 1) (1 / 4503599627370496) argsort x grad lower upper 1 0 0 = some r →
      ∃ xc : Fin 2 → ℚ, (∀ j, r.1 j = .fin (xc j)) ∧ InBox lower upper xc := by
  intro hall
  have hsome : ((findCauchyPoint (h := 1) (1 / 4503599627370496) swapSort ![0, 0] ![-1 / 9007199254740992, -1]
      ![.fin (-1), .fin (-1)] ![.fin 0, .fin 1] (1 : ℚ) 0 0).map fun r => r.1 0) =
        some (.fin (1 / 9007199254740992)) := by decide +kernel
  obtain ⟨r, hr, hr0⟩ := Option.map_eq_some_iff.mp hsome
  obtain ⟨xc, h1, h2⟩ := hall _ _ _ _ swapSort r (by unfold InBox Between; decide +kernel)
    (by unfold IsArgsort; decide +kernel) hr
  have h3 := (h2 0).2
  rw [← h1 0, hr0] at h3
  revert h3
  decide +kernel

/-- The one-dimensional problem `(x - 3)² / 2` on `[0, 1]` solved with the Hager-Zhang line search, whose `max_stepsize` is
not limited by the solver. -/
def exHz : LineSearch.HZ ℚ (Fin 1 → ℚ) where
  f := fun x => .fin ((x 0 - 3) * (x 0 - 3) / 2)
  grad := fun x => ![x 0 - 3]
  vdot := fun u v => .fin (u 0 * v 0)
  offLine := fun _ => (.nan, .nan)
  c1 := 1 / 10
  c2 := 9 / 10
  expansion := 5
  shrinkage := 66 / 100
  awThreshold := 1 / 1000000
  tol := 0
  maxiter := 30
  fuel := 30
  unroll := true
  jit := false

/-- The solver of the example. -/
def exS : Lbfgsb ℚ (Ext ℚ) 1 1 where
  f := exHz.f
  grad := exHz.grad
  eps := 1 / 4503599627370496
  argsort := fun _ => Equiv.refl _
  inv := fun m => 0
  solve := fun _ v => v
  stepsize := .const 0
  maxStepsize := 1
  initStep := fun _ => 1
  theta := 1
  useGamma := true
  runLs := fun s x v g d =>
    match exHz.run s x (some v) (some g) (some d) with
    | .ok (s', some st) => ⟨s', st.params, st.value, st.grad, st.failed⟩
    | _ => ⟨s, x, v, g, true⟩

/-- **C28 fails with the Hager-Zhang line search**: `max_stepsize` is not passed to it and the point it returns is not clipped;
in the example the first iterate is `5` although the box is `[0, 1]`. -/
theorem C28_linesearch_false :
    ¬ ∀ (S : Lbfgsb ℚ (Ext ℚ) 1 1) (lower upper : Fin 1 → Ext ℚ) (x0 : Fin 1 → ℚ)
      (p : (Fin 1 → ℚ) × LbfgsbState ℚ (Ext ℚ) 1 1), 0 < S.eps →
      (∀ t, (∀ j, t j ≠ .nan) → IsArgsort t (S.argsort t)) → InBox lower upper x0 →
      (∀ j, S.grad x0 j = 0 ∨ S.eps ≤ |S.grad x0 j|) →
      S.update lower upper (x0, S.initState lower upper x0) = some p → InBox lower upper p.1 := by
  intro hall
  have hsome : ((exS.update (fun _ => .fin 0) (fun _ => .fin 1)
      (![0], exS.initState (fun _ => .fin 0) (fun _ => .fin 1) ![0])).map fun r => r.1 0) = some 5 := by decide +kernel
  obtain ⟨r, hr, hr0⟩ := Option.map_eq_some_iff.mp hsome
  have h1 := hall exS (fun _ => .fin 0) (fun _ => .fin 1) ![0] r (by decide +kernel)
    (by
      intro t ht i j hij
      have e : i = j := Subsingleton.elim _ _
      subst e
      simp only [exS, Equiv.refl_apply]
      have := ht i
      cases h : t i with
      | nan => exact absurd h this
      | _ => simp [Ext.le])
    (by unfold InBox Between; decide +kernel) (by decide +kernel) hr
  have h3 := (h1 0).2
  rw [hr0] at h3
  revert h3
  decide +kernel

/-- The same solver without line search (stepsize 1). -/
def exFixed : Lbfgsb ℚ (Ext ℚ) 1 1 := { exS with stepsize := .const 1 }

/-- Without line search the run is defined and stays in the box. -/
example : ((exFixed.iter (fun _ => .fin 0) (fun _ => .fin 1) ![1 / 2] 2).map fun r => r.1 0) = some 1 := by
  decide +kernel

end Lbfgsb

/-! ### The stopping criterion -/

/-- First-order optimality of `x` for a gradient `g` on a box. -/
def BoxKKT (lower upper : Fin n → Ext K) (x g : Fin n → K) : Prop :=
  InBox lower upper x ∧ ∀ j, (g j < 0 → upper j = .fin (x j)) ∧ (0 < g j → lower j = .fin (x j))

theorem foldl_max_zero (l : List (Ext K)) (hl : ∀ e ∈ l, e = .pinf ∨ ∃ a, e = .fin a ∧ 0 ≤ a) (e0 : Ext K)
    (h0 : e0 = .pinf ∨ ∃ a, e0 = .fin a ∧ 0 ≤ a) :
    l.foldl Ext.max e0 = .fin 0 ↔ e0 = .fin 0 ∧ ∀ e ∈ l, e = .fin 0 := by
  induction l generalizing e0 with
  | nil => simp
  | cons a l ih =>
    have ha := hl a (by simp)
    have hm : Ext.max e0 a = .pinf ∨ ∃ b, Ext.max e0 a = .fin b ∧ 0 ≤ b := by
      rcases h0 with h0 | ⟨b, h0, hb⟩ <;> rcases ha with ha | ⟨c, ha, hc⟩ <;> simp [h0, ha, Ext.max]
      exact Or.inl hb
    rw [List.foldl_cons, ih (fun e he => hl e (by simp [he])) _ hm]
    have hz : Ext.max e0 a = .fin 0 ↔ e0 = .fin 0 ∧ a = .fin 0 := by
      rcases h0 with h0 | ⟨b, h0, hb⟩ <;> rcases ha with ha | ⟨c, ha, hc⟩ <;> simp [h0, ha, Ext.max]
      constructor
      · intro h
        exact ⟨le_antisymm (h ▸ le_max_left b c) hb, le_antisymm (h ▸ le_max_right b c) hc⟩
      · rintro ⟨rfl, rfl⟩; simp
    rw [hz]
    simp only [List.mem_cons, forall_eq_or_imp, and_assoc]

/-- **C28, stopping criterion.** At a feasible point the reported error is 0 exactly when the point satisfies the first-order
optimality conditions of the box-constrained problem. -/
theorem C28_error_zero_iff (lower upper : Fin n → Ext K) (x g : Fin n → K) (hx : InBox lower upper x) :
    lbfgsbError x g lower upper = .fin 0 ↔ BoxKKT lower upper x g := by
  have hclip : ∀ j, ∃ v, clipE (x j - g j) (lower j) (upper j) = .fin v ∧
      (v = x j ↔ (g j < 0 → upper j = .fin (x j)) ∧ (0 < g j → lower j = .fin (x j))) := by
    intro j
    obtain ⟨hl, hu⟩ := between_fin.mp (hx j)
    unfold clipE
    rcases hl with hl | ⟨a, hl, ha⟩ <;> rcases hu with hu | ⟨b, hu, hb⟩
    · refine ⟨x j - g j, by simp [hl, hu, Ext.max, Ext.min], ?_⟩
      simp only [hl, hu, reduceCtorEq, imp_false, not_lt]
      constructor
      · intro h; constructor <;> linarith
      · rintro ⟨h1, h2⟩; linarith
    · refine ⟨min (x j - g j) b, by simp [hl, hu, Ext.max, Ext.min], ?_⟩
      simp only [hl, hu, reduceCtorEq, imp_false, not_lt, Ext.fin.injEq]
      constructor
      · intro h
        rcases min_cases (x j - g j) b with ⟨h1, h2⟩ | ⟨h1, h2⟩
        · refine ⟨fun h3 => ?_, ?_⟩ <;> linarith
        · refine ⟨fun h3 => ?_, ?_⟩ <;> linarith
      · rintro ⟨h1, h2⟩
        rcases lt_or_eq_of_le h2 with h3 | h3
        · have := h1 h3
          rw [min_eq_right (by linarith)]; exact this
        · rw [h3, sub_zero, min_eq_left hb]
    · refine ⟨max (x j - g j) a, by simp [hl, hu, Ext.max, Ext.min], ?_⟩
      simp only [hl, hu, reduceCtorEq, imp_false, not_lt, Ext.fin.injEq]
      constructor
      · intro h
        rcases max_cases (x j - g j) a with ⟨h1, h2⟩ | ⟨h1, h2⟩
        · refine ⟨?_, fun h3 => ?_⟩ <;> linarith
        · refine ⟨?_, fun h3 => ?_⟩ <;> linarith
      · rintro ⟨h1, h2⟩
        rcases lt_or_eq_of_le h1 with h3 | h3
        · have := h2 h3
          rw [max_eq_right (by linarith)]; exact this
        · rw [← h3, sub_zero, max_eq_left ha]
    · refine ⟨min (max (x j - g j) a) b, by simp [hl, hu, Ext.max, Ext.min], ?_⟩
      simp only [hl, hu, Ext.fin.injEq]
      constructor
      · intro h
        refine ⟨fun h3 => ?_, fun h3 => ?_⟩
        · rw [max_eq_left (by linarith)] at h
          rcases min_cases (x j - g j) b with ⟨h1, h2⟩ | ⟨h1, h2⟩ <;> linarith
        · rcases max_cases (x j - g j) a with ⟨h1, h2⟩ | ⟨h1, h2⟩
          · rw [h1, min_eq_left (by linarith)] at h; linarith
          · rw [h1, min_eq_left (by linarith)] at h; exact h
      · rintro ⟨h1, h2⟩
        rcases lt_trichotomy (g j) 0 with h3 | h3 | h3
        · have := h1 h3
          rw [max_eq_left (by linarith), min_eq_right (by linarith)]; exact this
        · rw [h3, sub_zero, max_eq_left ha, min_eq_left hb]
        · have := h2 h3
          rw [max_eq_right (by linarith), min_eq_left (by linarith)]; exact this
  choose v hv hvx using hclip
  unfold lbfgsbError
  have hterm : ∀ j, Ext.abs (Ext.sub (clipE (x j - g j) (lower j) (upper j)) (.fin (x j))) = .fin |v j - x j| := by
    intro j; rw [hv j]; simp [Ext.sub, Ext.neg, Ext.add, Ext.abs, sub_eq_add_neg]
  rw [foldl_max_zero _ (by
    intro e he
    obtain ⟨j, rfl⟩ := List.mem_ofFn.mp he
    simp only [hterm j]
    exact Or.inr ⟨_, rfl, abs_nonneg _⟩) _ (Or.inr ⟨0, rfl, le_rfl⟩)]
  simp only [true_and, List.forall_mem_ofFn_iff, hterm, Ext.fin.injEq, abs_eq_zero, sub_eq_zero, hvx, BoxKKT]
  exact ⟨fun h => ⟨hx, h⟩, fun h => h.2⟩

end Jaxopt.QuasiNewton
