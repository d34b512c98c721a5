import Verif.QuasiNewton.CauchyProps
import Verif.QuasiNewton.CompactProps

/-!
# Property C76: the step of the subspace minimisation, descent along runs, and ties of breakpoints
-/

set_option autoImplicit false
set_option linter.unusedSectionVars false
set_option linter.unusedVariables false

namespace Jaxopt.QuasiNewton

open Jaxopt.Base Matrix Finset

variable {K : Type*} [Field K] [LinearOrder K] [IsStrictOrderedRing K] {n h : ℕ}

/-! ### The step length -/

/-- The step to the bound of one coordinate. -/
theorem alpha_cases {lower upper : Fin n → Ext K} {xc : Fin n → K} (du : Fin n → K) (active : Fin n → Bool)
    (hx : InBox lower upper xc) (j : Fin n) :
    subspaceAlpha lower upper xc du active j = .pinf ∨ subspaceAlpha lower upper xc du active j = .fin 1 ∨
    ∃ a, 0 ≤ a ∧ subspaceAlpha lower upper xc du active j = .fin a ∧ active j = true ∧
      ∀ b, Between (lower j) (upper j) (xc j + b * du j) → b ≤ a := by
  obtain ⟨hl, hu⟩ := between_fin.mp (hx j)
  unfold subspaceAlpha
  by_cases hc : active j = true ∧ 0 < |du j|
  · rw [if_pos hc]
    have hne : du j ≠ 0 := abs_pos.mp hc.2
    rcases lt_or_gt_of_ne hne with hneg | hpos
    · have hi : (du j)⁻¹ < 0 := inv_lt_zero.mpr hneg
      have hi' : ¬ 0 < (du j)⁻¹ := not_lt.mpr hi.le
      rcases hl with hl | ⟨a, hl, ha⟩
      · left
        rcases hu with hu | ⟨b, hu, _⟩ <;> simp [hl, hu, Ext.sub, Ext.neg, Ext.add, Ext.smul, hi, hi', Ext.max]
      · right; right
        refine ⟨(a - xc j) / du j, div_nonneg_of_nonpos (by linarith) hneg.le, ?_, hc.1, fun b hb => ?_⟩
        · rcases hu with hu | ⟨b, hu, hb⟩
          · simp [hl, hu, Ext.sub, Ext.neg, Ext.add, Ext.smul, hi, hi', Ext.max]
            field_simp; ring
          · simp only [hl, hu, Ext.sub, Ext.neg, Ext.add, Ext.smul, Ext.max]
            rw [max_eq_right]
            · congr 1; field_simp; ring
            · rw [one_div]
              exact mul_le_mul_of_nonpos_left (by linarith) hi.le
        · rcases (between_fin.mp hb).1 with h1 | ⟨a', h1, h2⟩
          · rw [hl] at h1; cases h1
          · rw [hl] at h1
            rw [le_div_iff_of_neg hneg]
            have := Ext.fin.inj h1
            linarith
    · have hi : 0 < (du j)⁻¹ := inv_pos.mpr hpos
      rcases hu with hu | ⟨b, hu, hb⟩
      · left
        rcases hl with hl | ⟨a, hl, _⟩ <;> simp [hl, hu, Ext.sub, Ext.neg, Ext.add, Ext.smul, hpos, Ext.max]
      · right; right
        refine ⟨(b - xc j) / du j, div_nonneg (by linarith) hpos.le, ?_, hc.1, fun b' hb' => ?_⟩
        · rcases hl with hl | ⟨a, hl, ha⟩
          · simp [hl, hu, Ext.sub, Ext.neg, Ext.add, Ext.smul, hpos, Ext.max]
            field_simp; ring
          · simp only [hl, hu, Ext.sub, Ext.neg, Ext.add, Ext.smul, Ext.max]
            rw [max_eq_left]
            · congr 1; field_simp; ring
            · rw [one_div]
              exact mul_le_mul_of_nonneg_left (by linarith) hi.le
        · rcases (between_fin.mp hb').2 with h1 | ⟨a', h1, h2⟩
          · rw [hu] at h1; cases h1
          · rw [hu] at h1
            rw [le_div_iff₀ hpos]
            have := Ext.fin.inj h1
            linarith
  · rw [if_neg hc]; right; left; rfl

/-- The minimum of a list of floats is one of them. -/
theorem foldl_min_mem (l : List (Ext K)) (hl : ∀ e ∈ l, e = .pinf ∨ ∃ a, e = .fin a ∧ 0 ≤ a) (e0 : Ext K)
    (h0 : e0 = .pinf ∨ ∃ a, e0 = .fin a ∧ 0 ≤ a) : l.foldl Ext.min e0 = e0 ∨ l.foldl Ext.min e0 ∈ l := by
  induction l generalizing e0 with
  | nil => exact Or.inl rfl
  | cons a l ih =>
    rw [List.foldl_cons]
    have ha := hl a (by simp)
    have hm : Ext.min e0 a = e0 ∨ Ext.min e0 a = a := by
      rcases h0 with h0 | ⟨b, h0, hb⟩ <;> rcases ha with ha | ⟨c, ha, hc⟩ <;> simp [h0, ha, Ext.min]
      exact le_total b c
    have hm0 : Ext.min e0 a = .pinf ∨ ∃ b, Ext.min e0 a = .fin b ∧ 0 ≤ b := by
      rcases hm with hm | hm <;> rw [hm]
      · exact h0
      · exact ha
    rcases ih (fun e he => hl e (by simp [he])) _ hm0 with h1 | h1
    · rw [h1]
      rcases hm with hm | hm
      · exact Or.inl hm
      · right; rw [hm]; simp
    · right; exact List.mem_cons_of_mem _ h1

/-- **C76, step length.** The truncated step is the largest `a ≤ 1` that keeps the point `xc + a du` on the free coordinates in the box. -/
theorem C76_step_length {lower upper : Fin n → Ext K} {xc : Fin n → K} (du : Fin n → K) (active : Fin n → Bool)
    (hx : InBox lower upper xc) :
    ∃ a : K, 0 ≤ a ∧ a ≤ 1 ∧ (∀ j, subspaceStep lower upper xc du active j = .fin ((xc + a • onFree active du) j)) ∧
      InBox lower upper (xc + a • onFree active du) ∧
      ∀ b, b ≤ 1 → InBox lower upper (xc + b • onFree active du) → b ≤ a := by
  have hcases := alpha_cases du active hx
  have hall : ∀ e ∈ List.ofFn (subspaceAlpha lower upper xc du active), e = .pinf ∨ ∃ a, e = .fin a ∧ 0 ≤ a := by
    intro e he
    obtain ⟨j, rfl⟩ := List.mem_ofFn.mp he
    rcases hcases j with h1 | h1 | ⟨a, h1, h2, _⟩
    · exact Or.inl h1
    · exact Or.inr ⟨1, h1, zero_le_one⟩
    · exact Or.inr ⟨a, h2, h1⟩
  have hmem := foldl_min_mem _ hall .pinf (Or.inl rfl)
  set F := (List.ofFn (subspaceAlpha lower upper xc du active)).foldl Ext.min .pinf with hF
  obtain ⟨a, ha, a0, a1, hmax⟩ : ∃ a : K, Ext.min F (.fin 1) = .fin a ∧ 0 ≤ a ∧ a ≤ 1 ∧
      ∀ b, b ≤ 1 → InBox lower upper (xc + b • onFree active du) → b ≤ a := by
    have hpinf : F = .pinf → ∃ a : K, Ext.min F (.fin 1) = .fin a ∧ 0 ≤ a ∧ a ≤ 1 ∧
        ∀ b, b ≤ 1 → InBox lower upper (xc + b • onFree active du) → b ≤ a := by
      intro e
      rw [e]
      exact ⟨1, rfl, zero_le_one, le_rfl, fun b hb _ => hb⟩
    rcases hmem with h1 | h1
    · exact hpinf h1
    · obtain ⟨j, hj⟩ := List.mem_ofFn.mp h1
      rcases hcases j with h2 | h2 | ⟨a, h2, h3, hact, h4⟩
      · exact hpinf (hj.symm.trans h2)
      · rw [← hj, h2]
        exact ⟨1, by simp [Ext.min], zero_le_one, le_rfl, fun b hb _ => hb⟩
      · rw [← hj, h3]
        refine ⟨min a 1, by simp [Ext.min], le_min h2 zero_le_one, min_le_right _ _, fun b hb hbox => le_min (h4 b ?_) hb⟩
        have := hbox j
        simpa [onFree, hact] using this
  have hval : ∀ j, subspaceStep lower upper xc du active j = .fin ((xc + a • onFree active du) j) := by
    intro j
    unfold subspaceStep
    simp only [← hF, ha]
    by_cases hj : active j = true
    · simp [hj, Ext.smul, Ext.add, onFree, mul_comm]
    · simp [hj, onFree]
  refine ⟨a, a0, a1, hval, ?_, hmax⟩
  obtain ⟨xs, h1, h2⟩ := C28_subspace lower upper xc du active hx
  intro j
  have := (hval j).symm.trans (h1 j)
  rw [Ext.fin.inj this]
  exact h2 j

theorem between_one {l u : Ext K} {p v b : K} (h0 : Between l u p) (hb : Between l u (p + b * v)) (h1 : 1 ≤ b) : Between l u (p + 1 * v) := by
  obtain ⟨l0, u0⟩ := between_fin.mp h0
  obtain ⟨lb, ub⟩ := between_fin.mp hb
  refine between_fin.mpr ⟨?_, ?_⟩
  · rcases l0 with l0 | ⟨a, l0, ha⟩
    · exact Or.inl l0
    · rcases lb with lb | ⟨a', lb, ha'⟩
      · exact Or.inl lb
      · rw [l0] at lb
        obtain rfl := Ext.fin.inj lb
        refine Or.inr ⟨a, l0, ?_⟩
        rcases le_total 0 v with hv | hv
        · linarith
        · nlinarith [mul_le_mul_of_nonpos_right h1 hv]
  · rcases u0 with u0 | ⟨a, u0, ha⟩
    · exact Or.inl u0
    · rcases ub with ub | ⟨a', ub, ha'⟩
      · exact Or.inl ub
      · rw [u0] at ub
        obtain rfl := Ext.fin.inj ub
        refine Or.inr ⟨a, u0, ?_⟩
        rcases le_total 0 v with hv | hv
        · nlinarith [mul_le_mul_of_nonneg_right h1 hv]
        · linarith

/-- **C76, truncation.** With exact linear algebra the point returned by the subspace minimisation minimises the quadratic model over
the feasible points of the line through the Cauchy point and the minimiser on the free coordinates; in particular the model is not larger
than at the Cauchy point. -/
theorem C76_truncation {lower upper : Fin n → Ext K} {x grad xc : Fin n → K} {c : Fin h ⊕ Fin h → K} {theta : K}
    {w : Matrix (Fin n) (Fin h ⊕ Fin h) K} {m : Matrix (Fin h ⊕ Fin h) (Fin h ⊕ Fin h) K} {active : Fin n → Bool}
    {B : Matrix (Fin n) (Fin n) K} (ht : 0 < theta)
    (hB : B = theta • 1 - w * m * wᵀ) (hsymm : Bᵀ = B) (hpd : ∀ v, v ≠ 0 → 0 < v ⬝ᵥ B *ᵥ v)
    {solve : Matrix (Fin h ⊕ Fin h) (Fin h ⊕ Fin h) K → (Fin h ⊕ Fin h → K) → (Fin h ⊕ Fin h → K)}
    (hsolve : ∀ N v, IsUnit N → N *ᵥ solve N v = v) (hc : c = wᵀ *ᵥ (xc - x)) (hx : InBox lower upper xc) :
    ∃ xs : Fin n → K, (∀ j, subspaceStep lower upper xc (subspaceDir solve x grad xc c theta w m active) active j = .fin (xs j)) ∧
      InBox lower upper xs ∧ (∀ j, active j = false → xs j = xc j) ∧
      ∀ b : K, InBox lower upper (xc + b • onFree active (subspaceDir solve x grad xc c theta w m active)) →
        quadModel grad B (xs - x) ≤ quadModel grad B (xc + b • onFree active (subspaceDir solve x grad xc c theta w m active) - x) := by
  obtain ⟨a, a0, a1, h1, h2, h3⟩ := C76_step_length (subspaceDir solve x grad xc c theta w m active) active hx
  have hs := fun {j : Fin n} (hj : active j = true) =>
    subspace_grad (x := x) (grad := grad) (xc := xc) ht hB (fun v => hsolve _ v (subN_unit (active := active) ht hB hpd)) hc hj
  set v := onFree active (subspaceDir solve x grad xc c theta w m active) with hv
  refine ⟨_, h1, h2, fun j hj => by simp [hv, onFree, hj], fun b hb => ?_⟩
  have horth : grad ⬝ᵥ v + v ⬝ᵥ B *ᵥ (xc - x) = -(v ⬝ᵥ B *ᵥ v) := by
    have : v ⬝ᵥ (grad + B *ᵥ (xc - x + v)) = 0 := by
      refine sum_eq_zero fun j _ => ?_
      by_cases hj : active j = true
      · rw [hs hj, mul_zero]
      · have : v j = 0 := by simp only [hv, onFree, hj, Bool.false_eq_true, if_false]
        rw [this, zero_mul]
    rw [mulVec_add, dotProduct_add, dotProduct_add] at this
    rw [dotProduct_comm grad]
    linarith
  have hsub : ∀ u : K, xc + u • v - x = (xc - x) + u • v := fun u => by funext j; simp only [Pi.add_apply, Pi.sub_apply]; ring
  rw [hsub, hsub, quadModel_add hsymm, quadModel_add hsymm, horth]
  have hq : 0 ≤ v ⬝ᵥ B *ᵥ v := by
    by_cases h0 : v = 0
    · rw [h0]; simp
    · exact (hpd _ h0).le
  rcases le_total b 1 with hb1 | hb1
  · have hba := h3 b hb1 hb
    nlinarith [mul_nonneg (mul_nonneg (sub_nonneg.mpr hba) (show 0 ≤ 2 - a - b by linarith)) hq]
  · have : (1 : K) ≤ a := by
      refine h3 1 le_rfl fun j => ?_
      exact between_one (hx j) (hb j) hb1
    have ha1 : a = 1 := le_antisymm a1 this
    rw [ha1]
    nlinarith [mul_nonneg (sq_nonneg (b - 1)) hq]

/-! ### Descent -/

/-- **C76, descent (partial).** In a state whose history is in order, with exact linear algebra: the point `xs` that the update aims at is
feasible, the quadratic model does not increase, `xs - x` is a direction of descent unless the point is first-order optimal, and `xs = x` if
it is.  Missing: gradient entries strictly between 0 and machine epsilon, and breakpoints in `(0, eps]`. -/
theorem C76_descent_partial {V : Type*} (S : Lbfgsb K V n (h + 1)) (he : 0 < S.eps) {lower upper : Fin n → Ext K}
    (hsort : ∀ t, (∀ j, t j ≠ .nan) → IsArgsort t (S.argsort t)) (hinv : ∀ M, IsUnit M → M * S.inv M = 1)
    (hsolve : ∀ N v, IsUnit N → N *ᵥ S.solve N v = v) {x : Fin n → K} {st : LbfgsbState K V n (h + 1)} (ho : Lbfgsb.HistOk st)
    (hx : InBox lower upper x) (hg : ∀ j, st.grad j = 0 ∨ S.eps ≤ |st.grad j|)
    (hsep : SepBreaks S.eps (breakpoints S.eps x st.grad lower upper)) {xs : Fin n → K}
    (hxs : S.subspaceMin lower upper x st = some xs) :
    InBox lower upper xs ∧
    st.grad ⬝ᵥ (xs - x) ≤ -((xs - x) ⬝ᵥ bfgsMatrix st.theta (Lbfgsb.bufferPairs st) *ᵥ (xs - x) / 2) ∧
    (¬ BoxKKT lower upper x st.grad → st.grad ⬝ᵥ (xs - x) < 0) ∧ (BoxKKT lower upper x st.grad → xs = x) := by
  have hm := hinv _ (Lbfgsb.C75_invertible ho)
  obtain ⟨hBeq, hsymm, hpd⟩ := Lbfgsb.C75_compact ho hm
  rw [← hBeq]
  have hB : Lbfgsb.modelMatrix st (S.inv (Lbfgsb.mInv st)) =
      st.theta • 1 - Lbfgsb.wFlat st * S.inv (Lbfgsb.mInv st) * (Lbfgsb.wFlat st)ᵀ := rfl
  set B := Lbfgsb.modelMatrix st (S.inv (Lbfgsb.mInv st)) with hBdef
  have hnan : ∀ j, breakpoints S.eps x st.grad lower upper j ≠ .nan := by
    intro j hj
    rcases (goodBreak he hx hg j).nonneg with h1 | ⟨τ, h1, _⟩ <;> rw [h1] at hj <;> cases hj
  unfold Lbfgsb.subspaceMin at hxs
  simp only at hxs
  obtain ⟨r, hr, hxs⟩ := Option.bind_eq_some_iff.mp hxs
  obtain ⟨xc', hxc', hxs⟩ := Option.bind_eq_some_iff.mp hxs
  obtain ⟨s, xc, hs0, hval, hpath, hc, hpos, hanti, -⟩ :=
    C76_cauchy_partial he S.argsort hx hg hsep (hsort _ hnan) hB hsymm hpd hr
  obtain rfl : xc = xc' := by
    rw [finite_spec hval] at hxc'
    exact Option.some.inj hxc'
  have hxcbox : InBox lower upper xc := by
    intro j
    obtain ⟨v, hv1, hv2⟩ := clipE_between (y := x j - s * st.grad j) (hx j)
    rw [hpath j] at hv1
    rw [Ext.fin.inj hv1]
    exact hv2
  obtain ⟨xs', h1, h2, h3, h4⟩ := C76_truncation (grad := st.grad) (active := r.2.2) ho.theta_pos hB hsymm hpd hsolve hc hxcbox
  obtain rfl : xs' = xs := by
    rw [finite_spec h1] at hxs
    exact Option.some.inj hxs
  have hp0 : OnPath x st.grad lower upper 0 x := fun j => by rw [zero_mul, sub_zero]; exact clipE_of_between (hx j)
  have hq0 : quadModel st.grad B (x - x) = 0 := by rw [sub_self]; simp [quadModel]
  have hle : quadModel st.grad B (xs' - x) ≤ quadModel st.grad B (xc - x) := by
    have := h4 0 (by rw [zero_smul, add_zero]; exact hxcbox)
    rwa [zero_smul, add_zero] at this
  have hcp : quadModel st.grad B (xc - x) ≤ 0 := by
    rcases hs0.eq_or_lt with h0 | h0
    · rw [← h0] at hpath
      rw [hpath.unique hp0, hq0]
    · rw [← hq0]
      exact (hanti 0 s x xc le_rfl h0 le_rfl hp0 hpath).le
  have hpsd : 0 ≤ (xs' - x) ⬝ᵥ B *ᵥ (xs' - x) := by
    by_cases h0 : xs' - x = 0
    · rw [h0]; simp
    · exact (hpd _ h0).le
  refine ⟨h2, ?_, fun hk => ?_, fun hk => ?_⟩
  · have := hle.trans hcp
    unfold quadModel at this
    linarith
  · have h0 := hpos hk
    have := hanti 0 s x xc le_rfl h0 le_rfl hp0 hpath
    rw [hq0] at this
    have := hle.trans_lt this
    unfold quadModel at this
    linarith
  · -- at a first-order point the path is constant, and no free coordinate has a gradient
    have hxc : xc = x := by
      funext j
      have hj := hpath j
      rcases lt_trichotomy (st.grad j) 0 with hgj | hgj | hgj
      · have hu := (hk.2 j).1 hgj
        have hb := between_fin.mp (hx j)
        have hnn : 0 ≤ -(s * st.grad j) := by nlinarith
        rw [hu] at hj
        rcases hb.1 with hl | ⟨a, hl, ha⟩
        · rw [hl] at hj
          simp only [clipE, Ext.max, Ext.min, Ext.fin.injEq] at hj
          rw [← hj, min_eq_right (by linarith)]
        · rw [hl] at hj
          simp only [clipE, Ext.max, Ext.min, Ext.fin.injEq] at hj
          rw [← hj, min_eq_right (le_max_of_le_left (by linarith))]
      · rw [hgj, mul_zero, sub_zero, clipE_of_between (hx j)] at hj
        exact (Ext.fin.inj hj).symm
      · have hl := (hk.2 j).2 hgj
        have hb := between_fin.mp (hx j)
        have hnn : 0 ≤ s * st.grad j := mul_nonneg hs0 hgj.le
        rw [hl] at hj
        rcases hb.2 with hu | ⟨a, hu, ha⟩
        · rw [hu] at hj
          simp only [clipE, Ext.max, Ext.min, Ext.fin.injEq] at hj
          rw [← hj, max_eq_right (by linarith)]
        · rw [hu] at hj
          simp only [clipE, Ext.max, Ext.min, Ext.fin.injEq] at hj
          rw [← hj, max_eq_right (show x j - s * st.grad j ≤ x j by linarith), min_eq_left ha]
    obtain ⟨_, _, _, _, _, _, hact, _, _⟩ := cauchy_core he S.argsort hx hg hsep (hsort _ hnan) hsymm hpd hr
    have hfree : ∀ j, r.2.2 j = true → st.grad j = 0 := by
      intro j hj
      have hgt := (hact j hj).1
      rcases break_cases he hx hg j with ⟨e, hall⟩ | ⟨h2', b, hu, hub, e⟩ | ⟨h2', a, hl, hla, e⟩
      · rcases lt_trichotomy (st.grad j) 0 with hgj | hgj | hgj
        · exfalso
          have hu := (hk.2 j).1 hgj
          rcases (between_fin.mp (hall 1 zero_le_one)).2 with h | ⟨b, h, hb⟩
          · rw [hu] at h; cases h
          · rw [hu] at h
            have := Ext.fin.inj h
            linarith
        · exact hgj
        · exfalso
          have hl := (hk.2 j).2 hgj
          rcases (between_fin.mp (hall 1 zero_le_one)).1 with h | ⟨b, h, hb⟩
          · rw [hl] at h; cases h
          · rw [hl] at h
            have := Ext.fin.inj h
            linarith
      · exfalso
        have := (hk.2 j).1 h2'
        rw [hu] at this
        rw [e, Ext.fin.inj this, sub_self, zero_div] at hgt
        simp only [Ext.gt, Ext.lt, decide_eq_true_eq] at hgt
        exact absurd hgt (not_lt.mpr he.le)
      · exfalso
        have := (hk.2 j).2 h2'
        rw [hl] at this
        rw [e, Ext.fin.inj this, sub_self, zero_div] at hgt
        simp only [Ext.gt, Ext.lt, decide_eq_true_eq] at hgt
        exact absurd hgt (not_lt.mpr he.le)
    have hgz : st.grad ⬝ᵥ (xs' - x) = 0 := by
      refine sum_eq_zero fun j _ => ?_
      by_cases hj : r.2.2 j = true
      · rw [hfree j hj, zero_mul]
      · rw [Pi.sub_apply, h3 j (by simpa using hj), hxc, sub_self, mul_zero]
    by_contra hne
    have := hpd _ (sub_ne_zero.mpr hne)
    have h5 := hle.trans hcp
    unfold quadModel at h5
    rw [hgz] at h5
    linarith

namespace Lbfgsb

/-- **C76, descent along runs (partial).** At every feasible iterate of a run the update aims at a feasible point, in a direction of
descent of the objective unless the iterate is first-order optimal; the direction is zero if it is. -/
theorem C76_run_partial {V : Type*} (S : Lbfgsb K V n (h + 1)) (hl : S.LsSound) (ht : 0 < S.theta) (he : 0 < S.eps)
    (lower upper : Fin n → Ext K)
    (hsort : ∀ t, (∀ j, t j ≠ .nan) → IsArgsort t (S.argsort t)) (hinv : ∀ M, IsUnit M → M * S.inv M = 1)
    (hsolve : ∀ N v, IsUnit N → N *ᵥ S.solve N v = v) (x0 : Fin n → K) (k : ℕ)
    {p : (Fin n → K) × LbfgsbState K V n (h + 1)} (hp : S.iter lower upper x0 k = some p) (hx : InBox lower upper p.1)
    (hg : ∀ j, S.grad p.1 j = 0 ∨ S.eps ≤ |S.grad p.1 j|)
    (hsep : SepBreaks S.eps (breakpoints S.eps p.1 (S.grad p.1) lower upper)) :
    ∃ (xs : Fin n → K) (q : (Fin n → K) × LbfgsbState K V n (h + 1)) (o : LsOut K (Fin n → K) V),
      S.iter lower upper x0 (k + 1) = some q ∧ S.step lower upper p.1 p.2 (xs - p.1) = some o ∧ q.1 = o.params ∧ InBox lower upper xs ∧
      (¬ BoxKKT lower upper p.1 (S.grad p.1) → S.grad p.1 ⬝ᵥ (xs - p.1) < 0) ∧
      (BoxKKT lower upper p.1 (S.grad p.1) → xs = p.1) := by
  have ho := S.histOk hl ht lower upper x0 k hp
  have hgr := (S.C74_lbfgsb_state hl lower upper x0 k hp).2.1
  obtain ⟨q, hq⟩ := S.C75_defined hl ht he lower upper hsort hinv x0 k hp hx hg
  have hq' := hq
  simp only [iter, hp, Option.bind_some] at hq'
  unfold update at hq'
  simp only at hq'
  obtain ⟨xs, hxs, hu⟩ := Option.bind_eq_some_iff.mp hq'
  obtain ⟨o, hstep, hpo⟩ := Option.map_eq_some_iff.mp hu
  rw [← hgr] at hg hsep ⊢
  obtain ⟨h1, -, h3, h4⟩ := C76_descent_partial S he hsort hinv hsolve ho hx hg hsep hxs
  exact ⟨xs, q, o, hq, hstep, by rw [← hpo], h1, h3, h4⟩

end Lbfgsb

/-! ### Ties -/

/-- The data of the counterexample: three coordinates, the first two reach their upper bound `1` at the same time. -/
def tieGrad : Fin 3 → ℚ := ![-1, -1, -1]
def tieUpper : Fin 3 → Ext ℚ := ![.fin 1, .fin 1, .pinf]
def tieW : Matrix (Fin 3) (Fin 1 ⊕ Fin 1) ℚ := fun j k => match k with
  | .inl _ => ![-2, 3, 1 / 2] j
  | .inr _ => 1
def tieM : Matrix (Fin 1 ⊕ Fin 1) (Fin 1 ⊕ Fin 1) ℚ := fun a b => match a, b with
  | .inl _, .inl _ => -(2 / 3)
  | .inr _, .inr _ => 1 / 3
  | _, _ => 0
def tieB : Matrix (Fin 3) (Fin 3) ℚ := !![10 / 3, -(13 / 3), -1; -(13 / 3), 20 / 3, 2 / 3; -1, 2 / 3, 5 / 6]


def tieEps : ℚ := 1 / 4503599627370496

theorem tie_matrix : tieB = (1 : ℚ) • 1 - tieW * tieM * tieWᵀ := by decide +kernel

theorem tie_symm : tieBᵀ = tieB := by decide +kernel

theorem tie_quad (v : Fin 3 → ℚ) : v ⬝ᵥ tieB *ᵥ v =
    (v 0 - v 1) ^ 2 / 3 + (v 1 - v 2) ^ 2 / 3 + (v 0 - v 2) ^ 2 / 3 + 2 / 3 * (-2 * v 0 + 3 * v 1 + v 2 / 2) ^ 2 := by
  simp only [dotProduct, mulVec, Fin.sum_univ_three, tieB, of_apply, cons_val', cons_val_zero, cons_val_one, cons_val_two, cons_val_fin_one,
    Matrix.cons_val, head_cons, tail_cons, head_fin_const]
  ring

theorem tie_pd (v : Fin 3 → ℚ) (hv : v ≠ 0) : 0 < v ⬝ᵥ tieB *ᵥ v := by
  rw [tie_quad]
  by_contra hle
  push Not at hle
  have q1 := sq_nonneg (v 0 - v 1)
  have q2 := sq_nonneg (v 1 - v 2)
  have q3 := sq_nonneg (v 0 - v 2)
  have q4 := sq_nonneg (-2 * v 0 + 3 * v 1 + v 2 / 2)
  have e1 : v 0 - v 1 = 0 := pow_eq_zero_iff (two_ne_zero) |>.mp (le_antisymm (by linarith) q1)
  have e2 : v 1 - v 2 = 0 := pow_eq_zero_iff (two_ne_zero) |>.mp (le_antisymm (by linarith) q2)
  have e4 : -2 * v 0 + 3 * v 1 + v 2 / 2 = 0 := pow_eq_zero_iff (two_ne_zero) |>.mp (le_antisymm (by linarith) q4)
  apply hv
  funext j
  fin_cases j
  · change v 0 = 0; linarith
  · change v 1 = 0; linarith
  · change v 2 = 0; linarith

theorem tie_break : breakpoints tieEps 0 tieGrad (fun _ => .ninf) tieUpper = ![.fin 1, .fin 1, .pinf] := by decide +kernel

theorem tie_dir : cauchyDir tieEps (breakpoints tieEps 0 tieGrad (fun _ => .ninf) tieUpper) tieGrad = ![1, 1, 1] := by decide +kernel

theorem tie_noclip : NoClip tieEps (cauchyDir tieEps (breakpoints tieEps 0 tieGrad (fun _ => .ninf) tieUpper) tieGrad) tieB := by
  rw [tie_dir]
  intro A hA hne
  rw [tie_quad]
  by_cases h0 : A 0 <;> by_cases h1 : A 1 <;> by_cases h2 : A 2 <;> simp [h0, h1, h2, tieEps] <;> try norm_num
  apply hne
  funext j
  fin_cases j <;> simp [h0, h1, h2]

theorem tie_sep : SepBreaks tieEps (breakpoints tieEps 0 tieGrad (fun _ => .ninf) tieUpper) := by
  rw [tie_break]
  intro j τ hτ
  fin_cases j
  · right; rw [← Ext.fin.inj hτ]; norm_num [tieEps]
  · right; rw [← Ext.fin.inj hτ]; norm_num [tieEps]
  · cases hτ

theorem tie_box : InBox (fun _ => .ninf) tieUpper (0 : Fin 3 → ℚ) := by
  intro j
  fin_cases j <;> simp [Between, Ext.le, tieUpper]

theorem tie_grad (j : Fin 3) : tieGrad j = 0 ∨ tieEps ≤ |tieGrad j| := by
  right
  fin_cases j <;> norm_num [tieGrad, tieEps]

theorem tie_sort (σ : Equiv.Perm (Fin 3)) (hσ : σ = Equiv.refl _ ∨ σ = Equiv.swap 0 1) :
    IsArgsort (breakpoints tieEps 0 tieGrad (fun _ => .ninf) tieUpper) σ := by
  rw [tie_break]
  rcases hσ with rfl | rfl <;> unfold IsArgsort <;> decide +kernel

/-- **C76 fails for equal breakpoints**: the loop removes one coordinate at a time and stops as soon as the derivative of the model, with
only some of the coordinates that hit their bound at that time removed, is positive.  In the example the first coordinate is removed, the
derivative along the second and third is `3/2`, and the loop stops, although the second coordinate is at its bound too and the model
decreases along the third: the point returned is not a local minimiser of the model along the path. -/
theorem C76_ties_false :
    ¬ ∀ (eps : ℚ) (argsort : (Fin 3 → Ext ℚ) → Equiv.Perm (Fin 3)) (x grad : Fin 3 → ℚ) (lower upper : Fin 3 → Ext ℚ) (theta : ℚ)
      (w : Matrix (Fin 3) (Fin 1 ⊕ Fin 1) ℚ) (m : Matrix (Fin 1 ⊕ Fin 1) (Fin 1 ⊕ Fin 1) ℚ) (B : Matrix (Fin 3) (Fin 3) ℚ)
      (r : (Fin 3 → Ext ℚ) × (Fin 1 ⊕ Fin 1 → ℚ) × (Fin 3 → Bool)), 0 < eps → InBox lower upper x →
      (∀ j, grad j = 0 ∨ eps ≤ |grad j|) → SepBreaks eps (breakpoints eps x grad lower upper) →
      IsArgsort (breakpoints eps x grad lower upper) (argsort (breakpoints eps x grad lower upper)) →
      B = theta • 1 - w * m * wᵀ → Bᵀ = B → (∀ v, v ≠ 0 → 0 < v ⬝ᵥ B *ᵥ v) →
      NoClip eps (cauchyDir eps (breakpoints eps x grad lower upper) grad) B →
      findCauchyPoint eps argsort x grad lower upper theta w m = some r →
      ∃ (s : ℚ) (xc : Fin 3 → ℚ) (δ : ℚ), 0 ≤ s ∧ 0 < δ ∧ (∀ j, r.1 j = .fin (xc j)) ∧ OnPath x grad lower upper s xc ∧
        ∀ u y, s ≤ u → u ≤ s + δ → OnPath x grad lower upper u y → quadModel grad B (xc - x) ≤ quadModel grad B (y - x) := by
  intro hall
  have hr : (findCauchyPoint tieEps (fun _ => Equiv.refl _) 0 tieGrad (fun _ => .ninf) tieUpper 1 tieW tieM).map Prod.fst =
    some ![.fin 1, .fin 1, .fin 1] := by decide +kernel
  obtain ⟨r, hr, hr1⟩ := Option.map_eq_some_iff.mp hr
  obtain ⟨s, xc, δ, hs, hδ, hxc, hpath, hmin⟩ := hall tieEps _ 0 tieGrad _ tieUpper 1 tieW tieM tieB r (by norm_num [tieEps]) tie_box tie_grad
    tie_sep (tie_sort _ (Or.inl rfl)) tie_matrix tie_symm tie_pd tie_noclip hr
  have e : xc = ![1, 1, 1] := by
    funext j
    have := hxc j
    rw [hr1] at this
    fin_cases j <;> exact (Ext.fin.inj this).symm
  have hs1 : s = 1 := by
    have := hpath 2
    rw [e] at this
    simp [clipE, tieGrad, tieUpper, Ext.max, Ext.min] at this
    exact this
  subst hs1
  set u : ℚ := 1 + min δ 1 with hu
  have hu1 : 0 < min δ 1 := lt_min hδ one_pos
  have hu2 : min δ 1 ≤ 1 := min_le_right _ _
  have := hmin u ![1, 1, u] (by linarith) (by linarith [min_le_left δ 1]) (by
    intro j
    fin_cases j <;> simp [clipE, tieGrad, tieUpper, Ext.max, Ext.min] <;> linarith)
  rw [e] at this
  simp only [quadModel, sub_zero, tie_quad] at this
  simp [dotProduct, Fin.sum_univ_three, tieGrad] at this
  rw [hu] at this
  nlinarith

/-- **C76, the order of ties matters.** Two permutations that both sort the breakpoints of the example lead to different points. -/
theorem C76_ties_order_false :
    ¬ ∀ (a b : (Fin 3 → Ext ℚ) → Equiv.Perm (Fin 3)) (x grad : Fin 3 → ℚ) (lower upper : Fin 3 → Ext ℚ) (eps theta : ℚ)
      (w : Matrix (Fin 3) (Fin 1 ⊕ Fin 1) ℚ) (m : Matrix (Fin 1 ⊕ Fin 1) (Fin 1 ⊕ Fin 1) ℚ),
      IsArgsort (breakpoints eps x grad lower upper) (a (breakpoints eps x grad lower upper)) →
      IsArgsort (breakpoints eps x grad lower upper) (b (breakpoints eps x grad lower upper)) →
      (findCauchyPoint eps a x grad lower upper theta w m).map Prod.fst = (findCauchyPoint eps b x grad lower upper theta w m).map Prod.fst := by
  intro hall
  have := hall (fun _ => Equiv.refl _) (fun _ => Equiv.swap 0 1) 0 tieGrad (fun _ => .ninf) tieUpper tieEps 1 tieW tieM
    (tie_sort _ (Or.inl rfl)) (tie_sort _ (Or.inr rfl))
  revert this
  decide +kernel

/-- Non-vacuity of `C76_cauchy_partial`: the hypotheses hold in the example, with the other order of the ties, and the point returned is
`(1, 1, 8/5)`. -/
example : ∃ r, findCauchyPoint tieEps (fun _ => Equiv.swap 0 1) 0 tieGrad (fun _ => .ninf) tieUpper 1 tieW tieM = some r ∧
    r.1 = ![.fin 1, .fin 1, .fin (8 / 5)] ∧
    ∃ s xc, 0 < s ∧ (∀ j, r.1 j = .fin (xc j)) ∧ OnPath 0 tieGrad (fun _ => .ninf) tieUpper s xc := by
  have hr : (findCauchyPoint tieEps (fun _ => Equiv.swap 0 1) 0 tieGrad (fun _ => .ninf) tieUpper 1 tieW tieM).map Prod.fst =
    some ![.fin 1, .fin 1, .fin (8 / 5)] := by decide +kernel
  obtain ⟨r, hr, hr1⟩ := Option.map_eq_some_iff.mp hr
  refine ⟨r, hr, hr1, ?_⟩
  obtain ⟨s, xc, h1, h2, h3, h4, h5, h6, h7⟩ := C76_cauchy_partial (eps := tieEps) (by norm_num [tieEps]) _ tie_box tie_grad tie_sep
    (tie_sort _ (Or.inr rfl)) tie_matrix tie_symm tie_pd hr
  refine ⟨s, xc, h5 fun hk => ?_, h2, h3⟩
  have := (hk.2 2).1 (by decide +kernel)
  simp [tieUpper] at this

/-- Non-vacuity of `C76_cauchy_minimiser_partial`: with the upper bound of the second coordinate at `2` the breakpoints are different, and
the point returned, `(1, 1, 1)`, is a local minimiser of the model along the path. -/
example : ∃ (s : ℚ) (xc : Fin 3 → ℚ) (δ : ℚ), xc = ![1, 1, 1] ∧ 0 < δ ∧ OnPath 0 tieGrad (fun _ => .ninf) ![.fin 1, .fin 2, .pinf] s xc ∧
    ∀ u y, s ≤ u → u ≤ s + δ → OnPath 0 tieGrad (fun _ => .ninf) ![.fin 1, .fin 2, .pinf] u y →
      quadModel tieGrad tieB xc ≤ quadModel tieGrad tieB y := by
  have hb : breakpoints tieEps 0 tieGrad (fun _ => .ninf) ![.fin 1, .fin 2, .pinf] = ![.fin 1, .fin 2, .pinf] := by decide +kernel
  have hd : cauchyDir tieEps (breakpoints tieEps 0 tieGrad (fun _ => .ninf) ![.fin 1, .fin 2, .pinf]) tieGrad =
    cauchyDir tieEps (breakpoints tieEps 0 tieGrad (fun _ => .ninf) tieUpper) tieGrad := by decide +kernel
  have hr : (findCauchyPoint tieEps (fun _ => Equiv.refl _) 0 tieGrad (fun _ => .ninf) ![.fin 1, .fin 2, .pinf] 1 tieW tieM).map Prod.fst =
    some ![.fin 1, .fin 1, .fin 1] := by decide +kernel
  obtain ⟨r, hr, hr1⟩ := Option.map_eq_some_iff.mp hr
  obtain ⟨s, xc, δ, h1, h2, h3, h4, -, h6⟩ := C76_cauchy_minimiser_partial (eps := tieEps) (by norm_num [tieEps]) _
    (by intro j; fin_cases j <;> simp [Between, Ext.le]) tie_grad
    (by
      rw [hb]; intro j τ hτ
      fin_cases j
      · right; rw [← Ext.fin.inj hτ]; norm_num [tieEps]
      · right; rw [← Ext.fin.inj hτ]; norm_num [tieEps]
      · cases hτ)
    (by rw [hb]; unfold IsArgsort; decide +kernel) tie_matrix tie_symm tie_pd (by rw [hd]; exact tie_noclip)
    (by
      rw [hb]
      intro i j τ hi hj _
      clear hb hd hr hr1
      fin_cases i <;> fin_cases j <;> first | rfl | (cases hi; done) | (cases hj; done) | (exfalso; have := Ext.fin.inj (hi.trans hj.symm); norm_num at this)) hr
  refine ⟨s, xc, δ, ?_, h2, h4, fun u y a b c => ?_⟩
  · funext j
    have := h3 j
    rw [hr1] at this
    fin_cases j <;> exact (Ext.fin.inj this).symm
  · simpa using h6 u y a b c

/-- Non-vacuity of `C76_run_partial`: in the run of `exWrap` the update at the iterate `1`, after three updates, aims at a smaller number. -/
example : ∃ p, Lbfgsb.exWrap.iter (fun _ => .ninf) (fun _ => .pinf) ![4] 3 = some p ∧ p.1 = ![1] ∧
    ∃ xs : Fin 1 → ℚ, Lbfgsb.exWrap.grad p.1 ⬝ᵥ (xs - p.1) < 0 ∧ xs 0 < 1 := by
  obtain ⟨p, hp, e⟩ := Lbfgsb.exWrap_iter 3 le_rfl
  have e1 : p.1 = ![1] := by rw [e]; norm_num
  have hgr : Lbfgsb.exWrap.grad p.1 = ![6] := by rw [e1]; norm_num [Lbfgsb.exWrap]
  obtain ⟨xs, q, o, -, -, -, -, h5, -⟩ := Lbfgsb.exWrap.C76_run_partial Lbfgsb.exWrap_sound (by norm_num [Lbfgsb.exWrap])
    (by norm_num [Lbfgsb.exWrap]) (fun _ => .ninf) (fun _ => .pinf) Lbfgsb.exWrap_sort Lbfgsb.exWrap_inv
    (fun N v hN => by
      change N *ᵥ (N⁻¹ *ᵥ v) = v
      rw [mulVec_mulVec, Matrix.mul_nonsing_inv N ((Matrix.isUnit_iff_isUnit_det N).mp hN), one_mulVec]) ![4] 3 hp
    (Lbfgsb.exWrap_box _) (fun j => by
      right; rw [hgr, Subsingleton.elim j 0]; norm_num [Lbfgsb.exWrap])
    (fun j τ hτ => by
      rw [hgr] at hτ
      rw [Subsingleton.elim j 0] at hτ
      norm_num [breakpoints, Lbfgsb.exWrap, Ext.smul, Ext.sub, Ext.neg, Ext.add] at hτ
      cases hτ)
  have h6 := h5 fun hk => by
    have := (hk.2 0).2 (by rw [hgr]; norm_num)
    cases this
  refine ⟨p, hp, e1, xs, h6, ?_⟩
  rw [hgr, e1] at h6
  simp [dotProduct] at h6
  linarith

end Jaxopt.QuasiNewton
