import Verif.QuasiNewton.CauchyLemmas

/-!
# Property C76: Cauchy point, subspace minimisation and descent in L-BFGS-B
-/

set_option autoImplicit false
set_option linter.unusedSectionVars false
set_option linter.unusedVariables false

namespace Jaxopt.QuasiNewton

open Matrix Finset

variable {K : Type*} [Field K] [LinearOrder K] [IsStrictOrderedRing K] {n h : ℕ}

/-! ### The projected path -/

/-- Specification: `y` is the point of the projected steepest-descent path at time `s`, `clip(x - s g, lower, upper)`. -/
def OnPath (x g : Fin n → K) (lower upper : Fin n → Ext K) (s : K) (y : Fin n → K) : Prop :=
  ∀ j, clipE (x j - s * g j) (lower j) (upper j) = .fin (y j)

theorem OnPath.unique {x g : Fin n → K} {lower upper : Fin n → Ext K} {s : K} {y y' : Fin n → K} (h1 : OnPath x g lower upper s y)
    (h2 : OnPath x g lower upper s y') : y = y' := by
  funext j
  have := h1 j
  rw [h2 j] at this
  exact (Ext.fin.inj this).symm

theorem clipE_of_between {l u : Ext K} {v : K} (hv : Between l u v) : clipE v l u = .fin v := by
  obtain ⟨hl, hu⟩ := between_fin.mp hv
  unfold clipE
  rcases hl with hl | ⟨a, hl, ha⟩ <;> rcases hu with hu | ⟨b, hu, hb⟩ <;> simp [hl, hu, Ext.max, Ext.min, *]

/-- The three kinds of breakpoints. -/
theorem break_cases {eps : K} (he : 0 < eps) {x grad : Fin n → K} {lower upper : Fin n → Ext K}
    (hx : InBox lower upper x) (hg : ∀ j, grad j = 0 ∨ eps ≤ |grad j|) (j : Fin n) :
    (breakpoints eps x grad lower upper j = .pinf ∧ ∀ s, 0 ≤ s → Between (lower j) (upper j) (x j - s * grad j)) ∨
    (grad j < 0 ∧ ∃ b, upper j = .fin b ∧ x j ≤ b ∧ breakpoints eps x grad lower upper j = .fin ((x j - b) / grad j)) ∨
    (0 < grad j ∧ ∃ a, lower j = .fin a ∧ a ≤ x j ∧ breakpoints eps x grad lower upper j = .fin ((x j - a) / grad j)) := by
  have hgood := goodBreak he hx hg j
  have hb := between_fin.mp (hx j)
  have hinf : breakpoints eps x grad lower upper j = .pinf → ∀ s, 0 ≤ s → Between (lower j) (upper j) (x j - s * grad j) := by
    intro e s hs
    have := hgood.inside s hs (by rw [e]; rfl)
    rwa [mul_neg, ← sub_eq_add_neg] at this
  by_cases h1 : |grad j| < eps
  · have e : breakpoints eps x grad lower upper j = .pinf := by simp [breakpoints, h1]
    exact Or.inl ⟨e, hinf e⟩
  · by_cases h2 : grad j < 0
    · rcases hb.2 with hu | ⟨b, hu, hub⟩
      · have h3 : ¬ (0 < (grad j)⁻¹) := not_lt.mpr (inv_nonpos.mpr h2.le)
        have e : breakpoints eps x grad lower upper j = .pinf := by
          simp [breakpoints, h1, h2, hu, Ext.sub, Ext.neg, Ext.add, Ext.smul, h3]
        exact Or.inl ⟨e, hinf e⟩
      · refine Or.inr (Or.inl ⟨h2, b, hu, hub, ?_⟩)
        simp [breakpoints, h1, h2, hu, Ext.sub, Ext.neg, Ext.add, Ext.smul]
        field_simp
        ring
    · have h2' : 0 < grad j := by
        rcases lt_trichotomy (grad j) 0 with h | h | h
        · exact absurd h h2
        · rw [h, abs_zero] at h1; exact absurd he h1
        · exact h
      rcases hb.1 with hl | ⟨a, hl, hla⟩
      · have e : breakpoints eps x grad lower upper j = .pinf := by
          simp [breakpoints, h1, h2, hl, Ext.sub, Ext.neg, Ext.add, Ext.smul, h2']
        exact Or.inl ⟨e, hinf e⟩
      · refine Or.inr (Or.inr ⟨h2', a, hl, hla, ?_⟩)
        simp [breakpoints, h1, h2, hl, Ext.sub, Ext.neg, Ext.add, Ext.smul]
        field_simp
        ring

/-- The hypothesis on the breakpoints: none lies in `(0, eps]`. -/
def SepBreaks (eps : K) (t : Fin n → Ext K) : Prop := ∀ j τ, t j = .fin τ → τ = 0 ∨ eps < τ

section path
variable {eps : K} (he : 0 < eps) {x grad : Fin n → K} {lower upper : Fin n → Ext K} (hx : InBox lower upper x)
  (hg : ∀ j, grad j = 0 ∨ eps ≤ |grad j|) (hsep : SepBreaks eps (breakpoints eps x grad lower upper))

/-- The direction at a coordinate: zero if its breakpoint is zero. -/
theorem cauchyDir_eq {eps : K} (he : 0 < eps) {t : Fin n → Ext K} {grad : Fin n → K} (hsep : SepBreaks eps t) (hnn : ∀ j, t j = .pinf ∨ ∃ τ, t j = .fin τ ∧ 0 ≤ τ)
    (j : Fin n) : (t j = .fin 0 ∧ cauchyDir eps t grad j = 0) ∨ (Ext.gt (t j) (.fin eps) = true ∧ cauchyDir eps t grad j = -grad j) := by
  rcases hnn j with h1 | ⟨τ, h1, _⟩
  · right; rw [cauchyDir, h1]; simp [Ext.gt, Ext.lt]
  · rcases hsep j τ h1 with h2 | h2
    · left
      subst h2
      exact ⟨h1, by rw [cauchyDir, h1]; simp [Ext.lt, he]⟩
    · right
      rw [cauchyDir, h1]
      simp [Ext.gt, Ext.lt, h2, not_lt.mpr h2.le]

include he hx hg hsep in
theorem onPath_pathZ {s : K} (hs : 0 ≤ s) :
    OnPath x grad lower upper s (x + pathZ (breakpoints eps x grad lower upper)
      (cauchyDir eps (breakpoints eps x grad lower upper) grad) s) := by
  intro j
  have hb := between_fin.mp (hx j)
  have hdir := cauchyDir_eq (grad := grad) he hsep (fun j => (goodBreak he hx hg j).nonneg) j
  simp only [Pi.add_apply, pathZ]
  rcases break_cases he hx hg j with ⟨e, hbt⟩ | ⟨h2, b, hu, hub, e⟩ | ⟨h2, a, hl, hla, e⟩
  · rcases hdir with ⟨h0, _⟩ | ⟨_, hd⟩
    · rw [e] at h0; cases h0
    · rw [clipE_of_between (hbt s hs), e, hd]
      simp only [moved]; congr 1; ring
  · have hτ : (x j - b) / grad j * grad j = x j - b := div_mul_cancel₀ _ h2.ne
    have hτ0 : 0 ≤ (x j - b) / grad j := div_nonneg_of_nonpos (by linarith) h2.le
    have hval : clipE (x j - s * grad j) (lower j) (upper j) = .fin (x j + min s ((x j - b) / grad j) * -grad j) := by
      rcases le_total s ((x j - b) / grad j) with hle | hle
      · have := (goodBreak he hx hg j).inside s hs (by rw [e]; simpa [Ext.le] using hle)
        rw [mul_neg, ← sub_eq_add_neg] at this
        rw [clipE_of_between this, min_eq_left hle]; congr 1; ring
      · rw [min_eq_right hle]
        have h3 : b ≤ x j - s * grad j := by nlinarith [mul_nonneg (sub_nonneg.mpr hle) (neg_nonneg.mpr h2.le)]
        have h4 : x j + (x j - b) / grad j * -grad j = b := by linarith
        rw [h4, clipE, hu]
        rcases hb.1 with hl | ⟨a, hl, hla⟩
        · simp [hl, Ext.max, Ext.min, h3]
        · simp only [hl, Ext.max, Ext.min]
          rw [min_eq_right (le_trans h3 (le_max_left _ _))]
    rw [hval, e]
    rcases hdir with ⟨h0, hd⟩ | ⟨_, hd⟩
    · rw [e] at h0
      rw [hd, mul_zero, Ext.fin.inj h0, min_eq_right hs, zero_mul]
    · rw [hd]; rfl
  · have hτ : (x j - a) / grad j * grad j = x j - a := div_mul_cancel₀ _ h2.ne'
    have hτ0 : 0 ≤ (x j - a) / grad j := div_nonneg (by linarith) h2.le
    have hval : clipE (x j - s * grad j) (lower j) (upper j) = .fin (x j + min s ((x j - a) / grad j) * -grad j) := by
      rcases le_total s ((x j - a) / grad j) with hle | hle
      · have := (goodBreak he hx hg j).inside s hs (by rw [e]; simpa [Ext.le] using hle)
        rw [mul_neg, ← sub_eq_add_neg] at this
        rw [clipE_of_between this, min_eq_left hle]; congr 1; ring
      · rw [min_eq_right hle]
        have h3 : x j - s * grad j ≤ a := by nlinarith [mul_nonneg (sub_nonneg.mpr hle) h2.le]
        have h4 : x j + (x j - a) / grad j * -grad j = a := by linarith
        rw [h4, clipE, hl]
        rcases hb.2 with hu | ⟨b, hu, hub⟩
        · simp [hu, Ext.max, Ext.min, h3]
        · simp only [hu, Ext.max, Ext.min]
          rw [max_eq_right h3, min_eq_left (by linarith)]
    rw [hval, e]
    rcases hdir with ⟨h0, hd⟩ | ⟨_, hd⟩
    · rw [e] at h0
      rw [hd, mul_zero, Ext.fin.inj h0, min_eq_right hs, zero_mul]
    · rw [hd]; rfl

include he hx hg hsep in
/-- The data of the loop satisfy the assumptions of the lemmas. -/
theorem cpData {argsort : (Fin n → Ext K) → Equiv.Perm (Fin n)}
    (hsort : IsArgsort (breakpoints eps x grad lower upper) (argsort (breakpoints eps x grad lower upper)))
    {theta : K} {w : Matrix (Fin n) (Fin h ⊕ Fin h) K} {m : Matrix (Fin h ⊕ Fin h) (Fin h ⊕ Fin h) K}
    (hsymm : (theta • (1 : Matrix (Fin n) (Fin n) K) - w * m * wᵀ)ᵀ = theta • 1 - w * m * wᵀ) :
    CPData eps theta grad (cauchyDir eps (breakpoints eps x grad lower upper) grad) x lower upper w m
      (breakpoints eps x grad lower upper) (argsort (breakpoints eps x grad lower upper)) (theta • 1 - w * m * wᵀ) := by
  have hdir := cauchyDir_eq (grad := grad) he hsep (fun j => (goodBreak he hx hg j).nonneg)
  refine ⟨he, hsort, ?_, ?_, ?_, rfl, hsymm⟩
  · intro j hj
    rcases hdir j with ⟨h0, _⟩ | ⟨_, hd⟩
    · rw [h0] at hj
      simp only [Ext.gt, Ext.lt, decide_eq_true_eq] at hj
      exact absurd hj (not_lt.mpr he.le)
    · exact hd
  · intro j τ hj
    rcases break_cases he hx hg j with ⟨e, _⟩ | ⟨h2, _⟩ | ⟨h2, _⟩
    · rw [e] at hj; cases hj
    · exact h2.ne
    · exact h2.ne'
  · intro j τ hj
    rcases hdir j with ⟨h0, hd⟩ | ⟨hgt, hd⟩
    · simp [xBound, hd]
    · unfold xBound
      rw [hd]
      rcases break_cases he hx hg j with ⟨e, _⟩ | ⟨h2, b, hu, hub, e⟩ | ⟨h2, a, hl, hla, e⟩
      · rw [e] at hj; cases hj
      · rw [if_pos (by linarith), hu]
        rw [hj] at e
        have hτ : (x j - b) / grad j * grad j = x j - b := div_mul_cancel₀ _ h2.ne
        rw [← Ext.fin.inj e] at hτ
        congr 1; linarith
      · rw [if_neg (by linarith), if_pos (by linarith), hl]
        rw [hj] at e
        have hτ : (x j - a) / grad j * grad j = x j - a := div_mul_cancel₀ _ h2.ne'
        rw [← Ext.fin.inj e] at hτ
        congr 1; linarith

end path

/-! ### The Cauchy point -/

theorem startInd_at (mask : Fin n → Bool) (hk : startInd mask < n) : mask ⟨startInd mask, hk⟩ = true := by
  have h1 : (List.ofFn mask).findIdx id < (List.ofFn mask).length := by simpa [startInd] using hk
  have := List.findIdx_getElem (p := id) (xs := List.ofFn mask) (w := h1)
  simpa [startInd] using this

theorem gt_of_le {a b : Ext K} {e : K} (h1 : Ext.gt a (.fin e) = true) (h2 : Ext.le a b = true) : Ext.gt b (.fin e) = true := by
  cases a <;> cases b <;> simp_all [Ext.gt, Ext.lt, Ext.le]
  exact lt_of_lt_of_le h1 h2

/-- The initial state of the loop satisfies the invariant. -/
theorem initInv {eps : K} (he : 0 < eps) {x grad : Fin n → K} {lower upper : Fin n → Ext K} (hx : InBox lower upper x)
    (hg : ∀ j, grad j = 0 ∨ eps ≤ |grad j|) (hsep : SepBreaks eps (breakpoints eps x grad lower upper)) {sigma : Equiv.Perm (Fin n)}
    (hsort : IsArgsort (breakpoints eps x grad lower upper) sigma)
    {theta : K} {w : Matrix (Fin n) (Fin h ⊕ Fin h) K} {m : Matrix (Fin h ⊕ Fin h) (Fin h ⊕ Fin h) K}
    (hpd : ∀ v, v ≠ 0 → 0 < v ⬝ᵥ (theta • (1 : Matrix (Fin n) (Fin n) K) - w * m * wᵀ) *ᵥ v)
    (hd : cauchyDir eps (breakpoints eps x grad lower upper) grad ≠ 0) :
    let t := breakpoints eps x grad lower upper
    let d := cauchyDir eps t grad
    let mask0 : Fin n → Bool := fun i => Ext.gt (t (sigma i)) (.fin eps)
    CauchyInv (h := h) eps grad d w t sigma (theta • 1 - w * m * wᵀ) 0
      ⟨startInd mask0, -(d ⬝ᵥ d), -theta * -(d ⬝ᵥ d) - (m *ᵥ (wᵀ *ᵥ d)) ⬝ᵥ (wᵀ *ᵥ d), mask0, 0, wᵀ *ᵥ d⟩ := by
  intro t d mask0
  have hnn := fun j => (goodBreak he hx hg j).nonneg
  have hdir := cauchyDir_eq (grad := grad) he hsep hnn
  have hbig : ∀ k : Fin n, startInd mask0 ≤ k.1 → Ext.gt (t (sigma k)) (.fin eps) = true := by
    intro k hk
    have h1 := startInd_at mask0 (lt_of_le_of_lt hk k.2)
    exact gt_of_le h1 (hsort _ _ (by rw [Fin.le_def]; exact hk))
  have hzero : ∀ k : Fin n, k.1 < startInd mask0 → t (sigma k) = .fin 0 ∧ d (sigma k) = 0 := by
    intro k hk
    have h1 := startInd_before mask0 k hk
    rcases hdir (sigma k) with h2 | ⟨h2, _⟩
    · exact h2
    · rw [show mask0 k = Ext.gt (t (sigma k)) (.fin eps) from rfl, h2] at h1; cases h1
  have hcur : curDir sigma d (startInd mask0) = d := by
    funext l
    obtain ⟨k, rfl⟩ := sigma.surjective l
    simp only [curDir, Equiv.symm_apply_apply]
    split_ifs with hk
    · exact (hzero k hk).2.symm
    · rfl
  have hZ : pathZ t d 0 = 0 := by
    funext j
    simp only [pathZ, Pi.zero_apply]
    rcases hnn j with h1 | ⟨τ, h1, h2⟩
    · rw [show t j = _ from h1]; simp [moved]
    · rw [show t j = _ from h1]; simp [moved, min_eq_left h2]
  have hgd : grad ⬝ᵥ d = -(d ⬝ᵥ d) := by
    simp only [dotProduct]
    rw [← sum_neg_distrib]
    refine sum_congr rfl fun j _ => ?_
    rcases hdir j with ⟨_, h1⟩ | ⟨_, h1⟩ <;> rw [show d j = _ from h1] <;> ring
  have hdd : d ⬝ᵥ (theta • (1 : Matrix (Fin n) (Fin n) K) - w * m * wᵀ) *ᵥ d = -theta * -(d ⬝ᵥ d) - (m *ᵥ (wᵀ *ᵥ d)) ⬝ᵥ (wᵀ *ᵥ d) := by
    rw [sub_mulVec, smul_mulVec, one_mulVec, dotProduct_sub, dotProduct_smul, smul_eq_mul, ← mulVec_mulVec, ← mulVec_mulVec]
    rw [dotProduct_mulVec d w, ← mulVec_transpose, dotProduct_comm (wᵀ *ᵥ d)]
    ring
  refine ⟨startInd_le _, hbig, ?_, ?_, le_rfl, Or.inr rfl, ?_, ?_, ?_, ?_, ?_, ?_, ?_, ?_, ?_⟩
  · intro k
    by_cases hk : startInd mask0 ≤ k.1
    · simp only [hk, decide_true]; exact hbig k hk
    · simp only [hk, decide_false]; exact startInd_before mask0 k (by omega)
  · unfold prevTime
    by_cases h0 : 0 < startInd mask0
    · have hle := startInd_le mask0
      rw [dif_pos h0, dif_pos (show startInd mask0 - 1 < n by omega)]
      exact (hzero ⟨startInd mask0 - 1, by omega⟩ (by simp only; omega)).1
    · rw [dif_neg h0]
  · intro k hk
    exact ⟨0, (hzero k hk).1, le_rfl⟩
  · intro k _
    rcases hnn (sigma k) with h1 | ⟨τ, h1, h2⟩
    · rw [show t (sigma k) = _ from h1]; rfl
    · rw [show t (sigma k) = _ from h1]; simpa [Ext.le] using h2
  · rw [hZ, mulVec_zero]
  · simp only [hcur]
  · simp only [hcur, hZ, mulVec_zero, dotProduct_zero, add_zero, hgd]; exact le_rfl
  · simp only [hcur, hdd]; exact le_rfl
  · simp only [← hdd]; exact hpd d hd
  · intro a b ha hab hb; linarith
  · intro _
    simp only [hcur, hZ, mulVec_zero, dotProduct_zero, add_zero, hgd, hdd]
    exact ⟨trivial, Or.inl trivial⟩

/-- Everything about the point returned, in terms of the path of the lemmas. -/
theorem cauchy_core {eps : K} (he : 0 < eps) (argsort : (Fin n → Ext K) → Equiv.Perm (Fin n)) {x grad : Fin n → K}
    {lower upper : Fin n → Ext K} (hx : InBox lower upper x)
    (hg : ∀ j, grad j = 0 ∨ eps ≤ |grad j|) (hsep : SepBreaks eps (breakpoints eps x grad lower upper))
    (hsort : IsArgsort (breakpoints eps x grad lower upper) (argsort (breakpoints eps x grad lower upper)))
    {theta : K} {w : Matrix (Fin n) (Fin h ⊕ Fin h) K} {m : Matrix (Fin h ⊕ Fin h) (Fin h ⊕ Fin h) K}
    (hsymm : (theta • (1 : Matrix (Fin n) (Fin n) K) - w * m * wᵀ)ᵀ = theta • 1 - w * m * wᵀ)
    (hpd : ∀ v, v ≠ 0 → 0 < v ⬝ᵥ (theta • (1 : Matrix (Fin n) (Fin n) K) - w * m * wᵀ) *ᵥ v)
    {r : (Fin n → Ext K) × (Fin h ⊕ Fin h → K) × (Fin n → Bool)}
    (hr : findCauchyPoint eps argsort x grad lower upper theta w m = some r) :
    let t := breakpoints eps x grad lower upper
    let d := cauchyDir eps t grad
    let B := theta • (1 : Matrix (Fin n) (Fin n) K) - w * m * wᵀ
    ∃ s : K, 0 ≤ s ∧ (∀ j, r.1 j = .fin ((x + pathZ t d s) j)) ∧ r.2.1 = wᵀ *ᵥ pathZ t d s ∧
      (d ≠ 0 → 0 < s) ∧
      (∀ a b, 0 ≤ a → a < b → b ≤ s → quadModel grad B (pathZ t d b) < quadModel grad B (pathZ t d a)) ∧
      (∀ j, r.2.2 j = true → Ext.gt (t j) (.fin eps) = true ∧ Ext.le (.fin s) (t j) = true) ∧
      (∀ j, r.2.2 j = false → ∃ τ, t j = .fin τ ∧ τ ≤ s) ∧
      (NoClip eps d B → (∀ i j τ, t i = .fin τ → t j = .fin τ → 0 < τ → i = j) →
        ∃ δ, 0 < δ ∧ ∀ u, s ≤ u → u ≤ s + δ → quadModel grad B (pathZ t d s) ≤ quadModel grad B (pathZ t d u)) := by
  intro t d B
  have hnn : ∀ j, t j = .pinf ∨ ∃ τ, t j = .fin τ ∧ 0 ≤ τ := fun j => (goodBreak he hx hg j).nonneg
  have hdir : ∀ j, (t j = .fin 0 ∧ d j = 0) ∨ (Ext.gt (t j) (.fin eps) = true ∧ d j = -grad j) := cauchyDir_eq (grad := grad) he hsep hnn
  have hZ0 : pathZ t d 0 = 0 := by
    funext j
    simp only [pathZ, Pi.zero_apply]
    rcases hnn j with h1 | ⟨τ, h1, h2⟩
    · rw [h1]; simp [moved]
    · rw [h1]; simp [moved, min_eq_left h2]
  unfold findCauchyPoint at hr
  simp only at hr
  change (match cpLoop eps theta grad d x lower upper w m (argsort t) (fun i => t (argsort t i)) n
      ⟨startInd (fun i => Ext.gt (t (argsort t i)) (.fin eps)), -(d ⬝ᵥ d), -theta * -(d ⬝ᵥ d) - (m *ᵥ (wᵀ *ᵥ d)) ⬝ᵥ (wᵀ *ᵥ d),
        fun i => Ext.gt (t (argsort t i)) (.fin eps), 0, wᵀ *ᵥ d⟩ with
    | none => none
    | some s => _) = some r at hr
  set sigma := argsort t with hsigma
  by_cases hd : d = 0
  · -- the direction vanishes
    have hloop : ∀ (k : ℕ) (s : CP K n h), s.df = 0 → s.ddf = 0 →
        cpLoop eps theta grad d x lower upper w m sigma (fun i => t (sigma i)) k s = some s := by
      intro k s h1 h2
      cases k with
      | zero => rfl
      | succ k =>
        unfold cpLoop
        by_cases hi : s.i < n
        · have hc : cpCond (fun i => t (sigma i)) s = false := by
            unfold cpCond
            rw [dif_pos hi, h1, h2]
            cases dtAt (fun i => t (sigma i)) ⟨s.i, hi⟩ <;> simp [divE, Ext.le]
          rw [dif_pos hi, if_neg (by rw [hc]; exact Bool.false_ne_true)]
        · rw [dif_neg hi]
    rw [hloop _ _ (by simp [hd]) (by simp [hd])] at hr
    have hq : Ext.max (divE (-(-(d ⬝ᵥ d))) (-theta * -(d ⬝ᵥ d) - (m *ᵥ (wᵀ *ᵥ d)) ⬝ᵥ (wᵀ *ᵥ d))) (.fin 0) = (.nan : Ext K) ∨
        Ext.max (divE (-(-(d ⬝ᵥ d))) (-theta * -(d ⬝ᵥ d) - (m *ᵥ (wᵀ *ᵥ d)) ⬝ᵥ (wᵀ *ᵥ d))) (.fin 0) = (.fin 0 : Ext K) := by
      simp [hd, divE, Ext.max]
    have hr' : r = (fun j => if Ext.gt (t (sigma (sigma.symm j))) (.fin eps) then Ext.add (.fin (x j)) (Ext.smul (d j) (Ext.add
        (prevTime (fun i => t (sigma i)) (startInd fun i => Ext.gt (t (sigma i)) (.fin eps))) (.fin 0))) else xBound d x lower upper j,
        0 + (0 : K) • (wᵀ *ᵥ d), fun j => Ext.gt (t (sigma (sigma.symm j))) (.fin eps)) := by
      rcases hq with hq | hq <;> simp only [hq, Ext.isNan, if_true, Bool.false_eq_true, if_false, Option.some.injEq] at hr <;> exact hr.symm
    have hprev : ∃ τ, prevTime (fun i => t (sigma i)) (startInd fun i => Ext.gt (t (sigma i)) (.fin eps)) = .fin τ := by
      unfold prevTime
      by_cases h0 : 0 < startInd fun i => Ext.gt (t (sigma i)) (.fin eps)
      · have hle := startInd_le fun i => Ext.gt (t (sigma i)) (.fin eps)
        rw [dif_pos h0, dif_pos (show (startInd fun i => Ext.gt (t (sigma i)) (.fin eps)) - 1 < n by omega)]
        have h1 := startInd_before (fun i => Ext.gt (t (sigma i)) (.fin eps))
          ⟨(startInd fun i => Ext.gt (t (sigma i)) (.fin eps)) - 1, by omega⟩ (by simp only; omega)
        rcases hnn (sigma ⟨(startInd fun i => Ext.gt (t (sigma i)) (.fin eps)) - 1, by omega⟩) with h2 | ⟨τ, h2, _⟩
        · rw [h2] at h1; simp [Ext.gt, Ext.lt] at h1
        · exact ⟨τ, h2⟩
      · exact ⟨0, by rw [dif_neg h0]⟩
    obtain ⟨τp, hτp⟩ := hprev
    rw [hr', hτp]
    refine ⟨0, le_rfl, ?_, ?_, fun h => absurd hd h, fun a b ha hab hb => by linarith, ?_, ?_, ?_⟩
    · intro j
      rw [hZ0]
      simp only [hd, Pi.zero_apply, add_zero, xBound, lt_irrefl, if_false]
      split_ifs <;> simp [Ext.add, Ext.smul]
    · rw [hZ0, mulVec_zero, zero_smul, add_zero]
    · intro j hj
      simp only [Equiv.apply_symm_apply] at hj
      refine ⟨hj, ?_⟩
      rcases hnn j with h2 | ⟨τ, h2, h3⟩
      · rw [h2]; rfl
      · rw [h2]; simpa [Ext.le] using h3
    · intro j hj
      simp only [Equiv.apply_symm_apply] at hj
      rcases hdir j with ⟨h2, _⟩ | ⟨h2, _⟩
      · exact ⟨0, h2, le_rfl⟩
      · rw [h2] at hj; cases hj
    · intro _ _
      refine ⟨1, one_pos, fun u _ _ => ?_⟩
      have : ∀ u, pathZ t d u = 0 := fun u => by funext j; simp [pathZ, hd]
      rw [this, this]
  · -- the loop
    have D : CPData eps theta grad d x lower upper w m t sigma B := cpData (h := h) he hx hg hsep (argsort := argsort) hsort hsymm
    have I0 := initInv (h := h) he hx hg hsep hsort hpd hd
    simp only at I0
    split at hr
    · cases hr
    · rename_i s hs
      obtain ⟨τ, I, hexit⟩ : ∃ τ, CauchyInv eps grad d w t sigma B τ s ∧ cpCond (fun k => t (sigma k)) s = false :=
        CauchyInv.loop D n 0 _ I0 (by simp) s hs
      have hq : Ext.max (divE (-s.df) s.ddf) (.fin 0) = .fin (max (-s.df / s.ddf) 0) := by
        simp [divE, I.ddf_pos.ne', Ext.max]
      simp only [hq, Ext.isNan, Bool.false_eq_true, if_false, Option.some.injEq] at hr
      set u := max (-s.df / s.ddf) 0 with hu
      have hu0 : 0 ≤ u := le_max_right _ _
      have hud : u = 0 ∨ u * s.ddf ≤ -s.df := by
        rcases le_total (-s.df / s.ddf) 0 with h1 | h1
        · left; exact max_eq_right h1
        · right; rw [hu, max_eq_left h1, div_mul_cancel₀ _ I.ddf_pos.ne']
      have hr' : r = (fun j => if s.mask (sigma.symm j) then Ext.add (.fin (x j)) (Ext.smul (d j) (Ext.add
          (prevTime (fun i => t (sigma i)) s.i) (.fin u))) else xBound d x lower upper j, s.c + u • s.p, fun j => s.mask (sigma.symm j)) :=
        hr.symm
      have hafter : ∀ k : Fin n, s.i ≤ k.1 → Ext.le (.fin (τ + u)) (t (sigma k)) = true := by
        intro k hk
        have hin : s.i < n := lt_of_le_of_lt hk k.2
        have h1 := D.sorted ⟨s.i, hin⟩ k (by rw [Fin.le_def]; exact hk)
        have h2 := I.after ⟨s.i, hin⟩ le_rfl
        have hprev : (if h : (⟨s.i, hin⟩ : Fin n).1 = 0 then .fin 0 else t (sigma ⟨s.i - 1, by omega⟩) : Ext K) = .fin τ := by
          have := I.time
          unfold prevTime at this
          by_cases h0 : s.i = 0
          · rw [dif_neg (by omega)] at this
            rw [dif_pos h0]; exact this
          · rw [dif_pos (by omega), dif_pos (by omega)] at this
            rw [dif_neg h0]; exact this
        unfold cpCond at hexit
        rw [dif_pos hin, divE, if_pos I.ddf_pos.ne', dtAt] at hexit
        rw [hprev] at hexit
        change Ext.le (t (sigma ⟨s.i, hin⟩)) (t (sigma k)) = true at h1
        rcases hnn (sigma ⟨s.i, hin⟩) with h3 | ⟨τ', h3, _⟩
        · rw [h3] at h1
          rcases hnn (sigma k) with h4 | ⟨τ'', h4, _⟩
          · rw [h4]; rfl
          · rw [h4] at h1; simp [Ext.le] at h1
        · rw [h3] at h1 h2 hexit
          simp only [Ext.sub, Ext.neg, Ext.add, Ext.le, decide_eq_false_iff_not, not_le, decide_eq_true_eq] at hexit h2
          have h5 : τ + u ≤ τ' := by
            rcases le_total (-s.df / s.ddf) 0 with h6 | h6
            · rw [hu, max_eq_right h6]; linarith
            · rw [hu, max_eq_left h6]; linarith
          rcases hnn (sigma k) with h4 | ⟨τ'', h4, _⟩
          · rw [h4]; rfl
          · rw [h4] at h1 ⊢
            simp only [Ext.le, decide_eq_true_eq] at h1 ⊢
            linarith
      have hZ : pathZ t d (τ + u) = pathZ t d τ + u • curDir sigma d s.i := pathZ_add hu0 I.before hafter
      rw [hr', I.time]
      refine ⟨τ + u, by linarith [I.nonneg], ?_, ?_, ?_, anti_extend D I hu0 hud hafter, ?_, ?_, ?_⟩
      · intro j
        obtain ⟨k, rfl⟩ := sigma.surjective j
        simp only [Equiv.symm_apply_apply, I.mask k]
        by_cases hk : s.i ≤ k.1
        · simp only [hk, decide_true, if_true, Ext.add, Ext.smul, Pi.add_apply, pathZ]
          have h1 := hafter k hk
          rcases hnn (sigma k) with h4 | ⟨τ'', h4, _⟩
          · rw [h4]; simp only [moved]; congr 1; ring
          · rw [h4] at h1 ⊢
            simp only [Ext.le, decide_eq_true_eq] at h1
            simp only [moved, min_eq_left h1]; congr 1; ring
        · simp only [hk, decide_false, Bool.false_eq_true, if_false, Pi.add_apply, pathZ]
          obtain ⟨τk, h1, h2⟩ := I.before k (by omega)
          rw [D.bound _ _ h1, h1]
          simp only [moved, min_eq_right (show τk ≤ τ + u by linarith)]
      · change s.c + u • s.p = _
        rw [hZ, I.c, I.p, mulVec_add, mulVec_smul]
      · intro _
        rcases I.start with h1 | h1
        · linarith
        · have h2 : 0 < d ⬝ᵥ d := dot_self_pos hd
          have h3 : 0 < -s.df / s.ddf := div_pos (by rw [h1]; linarith) I.ddf_pos
          have h4 : 0 < u := lt_of_lt_of_le h3 (le_max_left _ _)
          linarith [I.nonneg]
      · intro j hj
        obtain ⟨k, rfl⟩ := sigma.surjective j
        simp only [Equiv.symm_apply_apply, I.mask k, decide_eq_true_eq] at hj
        exact ⟨I.big k hj, hafter k hj⟩
      · intro j hj
        obtain ⟨k, rfl⟩ := sigma.surjective j
        simp only [Equiv.symm_apply_apply, I.mask k, decide_eq_false_iff_not] at hj
        obtain ⟨τk, h1, h2⟩ := I.before k (by omega)
        exact ⟨τk, h1, by linarith⟩
      · intro hno hdist
        obtain ⟨e1, e2⟩ := I.exact hno
        -- the model on the current segment
        have hmin : ∀ v, u ≤ v → quadModel grad B (pathZ t d τ + u • curDir sigma d s.i) ≤ quadModel grad B (pathZ t d τ + v • curDir sigma d s.i) := by
          intro v hv
          rw [quadModel_add D.symm, quadModel_add D.symm]
          rcases e2 with e2 | e2
          · rw [← e1, ← e2]
            have h1 : -s.df ≤ u * s.ddf := by
              have := le_max_left (-s.df / s.ddf) 0
              rw [← hu, div_le_iff₀ I.ddf_pos] at this
              exact this
            have h2 : (v - u) * (s.df + (u + v) / 2 * s.ddf) = (v * s.df + v ^ 2 / 2 * s.ddf) - (u * s.df + u ^ 2 / 2 * s.ddf) := by ring
            have h3 : u * s.ddf ≤ (u + v) / 2 * s.ddf := mul_le_mul_of_nonneg_right (by linarith) I.ddf_pos.le
            have h4 : 0 ≤ (v - u) * (s.df + (u + v) / 2 * s.ddf) := mul_nonneg (by linarith) (by linarith)
            linarith
          · rw [e2]; simp
        by_cases hin : s.i < n
        · -- the next breakpoint is later
          have hlater : ∀ k : Fin n, s.i ≤ k.1 → t (sigma ⟨s.i, hin⟩) = .pinf ∨ ∃ τ', t (sigma ⟨s.i, hin⟩) = .fin τ' ∧ τ + u < τ' := by
            intro k hk
            rcases hnn (sigma ⟨s.i, hin⟩) with h3 | ⟨τ', h3, _⟩
            · exact Or.inl h3
            · right
              refine ⟨τ', h3, ?_⟩
              have h1 := hafter ⟨s.i, hin⟩ le_rfl
              rw [h3] at h1
              simp only [Ext.le, decide_eq_true_eq] at h1
              refine lt_of_le_of_ne h1 fun heq => ?_
              have hbig := I.big ⟨s.i, hin⟩ le_rfl
              rw [h3] at hbig
              simp only [Ext.gt, Ext.lt, decide_eq_true_eq] at hbig
              have hprev := I.time
              unfold prevTime at hprev
              unfold cpCond at hexit
              rw [dif_pos hin, divE, if_pos I.ddf_pos.ne', dtAt] at hexit
              by_cases h0 : s.i = 0
              · rw [dif_neg (by omega)] at hprev
                rw [dif_pos h0] at hexit
                rw [h3] at hexit
                have hτ0 : (0 : K) = τ := Ext.fin.inj hprev
                simp only [Ext.sub, Ext.neg, Ext.add, Ext.le, decide_eq_false_iff_not, not_le] at hexit
                have h7 : u < τ' := by
                  rw [hu]; exact max_lt (by linarith) (by linarith)
                linarith
              · rw [dif_pos (by omega), dif_pos (by omega)] at hprev
                rw [dif_neg h0] at hexit
                simp only at hexit hprev
                rw [hprev, h3] at hexit
                simp only [Ext.sub, Ext.neg, Ext.add, Ext.le, decide_eq_false_iff_not, not_le] at hexit
                rcases le_total (-s.df / s.ddf) 0 with h6 | h6
                · have hu' : u = 0 := max_eq_right h6
                  have h8 : τ = τ' := by linarith
                  have h9 := hdist _ _ τ (by exact hprev) (by rw [h8]; exact h3) (by linarith)
                  have h10 := congrArg Fin.val (sigma.injective h9)
                  simp only at h10
                  omega
                · have hu' : u = -s.df / s.ddf := max_eq_left h6
                  linarith
          have hall : ∀ v, τ + u ≤ v → (∀ τ', t (sigma ⟨s.i, hin⟩) = .fin τ' → v ≤ τ') →
              quadModel grad B (pathZ t d (τ + u)) ≤ quadModel grad B (pathZ t d v) := by
            intro v hv hle
            have h1 : pathZ t d (τ + (v - τ)) = pathZ t d τ + (v - τ) • curDir sigma d s.i := by
              refine pathZ_add (by linarith) I.before fun k hk => ?_
              have h2 := D.sorted ⟨s.i, hin⟩ k (by rw [Fin.le_def]; exact hk)
              change Ext.le (t (sigma ⟨s.i, hin⟩)) (t (sigma k)) = true at h2
              rcases hlater k hk with h3 | ⟨τ', h3, _⟩
              · rw [h3] at h2
                rcases hnn (sigma k) with h4 | ⟨τ'', h4, _⟩
                · rw [h4]; rfl
                · rw [h4] at h2; simp [Ext.le] at h2
              · have h5 := hle τ' h3
                rw [h3] at h2
                rcases hnn (sigma k) with h4 | ⟨τ'', h4, _⟩
                · rw [h4]; rfl
                · rw [h4] at h2 ⊢
                  simp only [Ext.le, decide_eq_true_eq] at h2 ⊢
                  linarith
            rw [show τ + (v - τ) = v by ring] at h1
            rw [hZ, h1]
            exact hmin _ (by linarith)
          rcases hlater ⟨s.i, hin⟩ le_rfl with h3 | ⟨τ', h3, h4⟩
          · exact ⟨1, one_pos, fun v hv _ => hall v hv fun τ' h5 => by rw [h3] at h5; cases h5⟩
          · refine ⟨τ' - (τ + u), by linarith, fun v hv hv' => hall v hv fun τ'' h5 => ?_⟩
            rw [h3] at h5
            rw [← Ext.fin.inj h5]; linarith
        · refine ⟨1, one_pos, fun v hv _ => ?_⟩
          have h1 : pathZ t d (τ + (v - τ)) = pathZ t d τ + (v - τ) • curDir sigma d s.i :=
            pathZ_add (by linarith) I.before fun k hk => by have := k.2; omega
          rw [show τ + (v - τ) = v by ring] at h1
          rw [hZ, h1]
          exact hmin _ (by linarith)

/-- A point that is not first-order optimal has a non-zero direction. -/
theorem cauchyDir_ne_zero {eps : K} (he : 0 < eps) {x grad : Fin n → K} {lower upper : Fin n → Ext K} (hx : InBox lower upper x)
    (hg : ∀ j, grad j = 0 ∨ eps ≤ |grad j|) (hsep : SepBreaks eps (breakpoints eps x grad lower upper))
    (hk : ¬ BoxKKT lower upper x grad) : cauchyDir eps (breakpoints eps x grad lower upper) grad ≠ 0 := by
  intro hd
  refine hk ⟨hx, fun j => ?_⟩
  have hdj := congrFun hd j
  rcases cauchyDir_eq (grad := grad) he hsep (fun j => (goodBreak he hx hg j).nonneg) j with ⟨h0, _⟩ | ⟨_, h1⟩
  · rcases break_cases he hx hg j with ⟨e, _⟩ | ⟨h2, b, hu, hub, e⟩ | ⟨h2, a, hl, hla, e⟩
    · rw [e] at h0; cases h0
    · rw [e] at h0
      have h3 := div_eq_zero_iff.mp (Ext.fin.inj h0)
      rcases h3 with h3 | h3
      · exact ⟨fun _ => by rw [hu]; congr 1; linarith, fun h => absurd h (not_lt.mpr h2.le)⟩
      · exact absurd h3 h2.ne
    · rw [e] at h0
      have h3 := div_eq_zero_iff.mp (Ext.fin.inj h0)
      rcases h3 with h3 | h3
      · exact ⟨fun h => absurd h (not_lt.mpr h2.le), fun _ => by rw [hl]; congr 1; linarith⟩
      · exact absurd h3 h2.ne'
  · rw [h1, Pi.zero_apply, neg_eq_zero] at hdj
    rw [hdj]
    exact ⟨fun h => absurd h (lt_irrefl _), fun h => absurd h (lt_irrefl _)⟩

/-- **C76, Cauchy point (partial).** For a feasible point and a symmetric positive definite model matrix `B = θI - W M Wᵀ` the point
returned lies on the projected steepest-descent path at a time `s`, along the path up to `s` the quadratic model decreases strictly, `s` is
positive unless the point is first-order optimal, `c = Wᵀ (xc - x)`, and the coordinates that are not free are at a bound.  Missing: gradient
entries strictly between 0 and machine epsilon, and breakpoints in `(0, eps]`. -/
theorem C76_cauchy_partial {eps : K} (he : 0 < eps) (argsort : (Fin n → Ext K) → Equiv.Perm (Fin n)) {x grad : Fin n → K}
    {lower upper : Fin n → Ext K} (hx : InBox lower upper x)
    (hg : ∀ j, grad j = 0 ∨ eps ≤ |grad j|) (hsep : SepBreaks eps (breakpoints eps x grad lower upper))
    (hsort : IsArgsort (breakpoints eps x grad lower upper) (argsort (breakpoints eps x grad lower upper)))
    {theta : K} {w : Matrix (Fin n) (Fin h ⊕ Fin h) K} {m : Matrix (Fin h ⊕ Fin h) (Fin h ⊕ Fin h) K} {B : Matrix (Fin n) (Fin n) K}
    (hB : B = theta • 1 - w * m * wᵀ) (hsymm : Bᵀ = B) (hpd : ∀ v, v ≠ 0 → 0 < v ⬝ᵥ B *ᵥ v)
    {r : (Fin n → Ext K) × (Fin h ⊕ Fin h → K) × (Fin n → Bool)}
    (hr : findCauchyPoint eps argsort x grad lower upper theta w m = some r) :
    ∃ (s : K) (xc : Fin n → K), 0 ≤ s ∧ (∀ j, r.1 j = .fin (xc j)) ∧ OnPath x grad lower upper s xc ∧ r.2.1 = wᵀ *ᵥ (xc - x) ∧
      (¬ BoxKKT lower upper x grad → 0 < s) ∧
      (∀ a b ya yb, 0 ≤ a → a < b → b ≤ s → OnPath x grad lower upper a ya → OnPath x grad lower upper b yb →
        quadModel grad B (yb - x) < quadModel grad B (ya - x)) ∧
      (∀ j, r.2.2 j = false → lower j = .fin (xc j) ∨ upper j = .fin (xc j)) := by
  subst hB
  obtain ⟨s, hs, h1, h2, h3, h4, h5, h6, -⟩ := cauchy_core he argsort hx hg hsep hsort hsymm hpd hr
  have hpath := fun {u : K} (hu : 0 ≤ u) => onPath_pathZ he hx hg hsep hu
  refine ⟨s, _, hs, h1, hpath hs, by rw [h2, add_sub_cancel_left], fun hk => h3 (cauchyDir_ne_zero he hx hg hsep hk), ?_, ?_⟩
  · intro a b ya yb ha hab hb hya hyb
    rw [hya.unique (hpath ha), hyb.unique (hpath (ha.trans hab.le)), add_sub_cancel_left, add_sub_cancel_left]
    exact h4 a b ha hab hb
  · intro j hj
    obtain ⟨τ, e, hle⟩ := h6 j hj
    have D := cpData (h := h) he hx hg hsep hsort hsymm
    have hval : (x + pathZ (breakpoints eps x grad lower upper) (cauchyDir eps (breakpoints eps x grad lower upper) grad) s) j =
        x j + τ * cauchyDir eps (breakpoints eps x grad lower upper) grad j := by
      simp only [Pi.add_apply, pathZ, e, moved, min_eq_right hle]
    rw [hval]
    rcases cauchyDir_eq (grad := grad) he hsep (fun j => (goodBreak he hx hg j).nonneg) j with ⟨h0, hd⟩ | ⟨_, hd⟩
    · rcases break_cases he hx hg j with ⟨e', _⟩ | ⟨h2', b, hu, hub, e'⟩ | ⟨h2', a, hl, hla, e'⟩
      · rw [e'] at h0; cases h0
      · right
        rw [e'] at h0
        have := (div_eq_zero_iff.mp (Ext.fin.inj h0)).resolve_right h2'.ne
        rw [hd, hu]; congr 1; linarith
      · left
        rw [e'] at h0
        have := (div_eq_zero_iff.mp (Ext.fin.inj h0)).resolve_right h2'.ne'
        rw [hd, hl]; congr 1; linarith
    · have hb := D.bound j τ e
      unfold xBound at hb
      rcases break_cases he hx hg j with ⟨e', _⟩ | ⟨h2', b, hu, hub, e'⟩ | ⟨h2', a, hl, hla, e'⟩
      · rw [e'] at e; cases e
      · right
        rwa [if_pos (by rw [hd]; linarith)] at hb
      · left
        rwa [if_neg (by rw [hd]; linarith), if_pos (by rw [hd]; linarith)] at hb

/-- **C76, first local minimiser (partial).** If moreover the clipping of the curvature at machine epsilon takes no effect and the positive
breakpoints are different, the Cauchy point is the first local minimiser of the model along the path.  Missing: equal breakpoints, for which
the claim is false (`C76_ties_false`). -/
theorem C76_cauchy_minimiser_partial {eps : K} (he : 0 < eps) (argsort : (Fin n → Ext K) → Equiv.Perm (Fin n)) {x grad : Fin n → K}
    {lower upper : Fin n → Ext K} (hx : InBox lower upper x)
    (hg : ∀ j, grad j = 0 ∨ eps ≤ |grad j|) (hsep : SepBreaks eps (breakpoints eps x grad lower upper))
    (hsort : IsArgsort (breakpoints eps x grad lower upper) (argsort (breakpoints eps x grad lower upper)))
    {theta : K} {w : Matrix (Fin n) (Fin h ⊕ Fin h) K} {m : Matrix (Fin h ⊕ Fin h) (Fin h ⊕ Fin h) K} {B : Matrix (Fin n) (Fin n) K}
    (hB : B = theta • 1 - w * m * wᵀ) (hsymm : Bᵀ = B) (hpd : ∀ v, v ≠ 0 → 0 < v ⬝ᵥ B *ᵥ v)
    (hno : NoClip eps (cauchyDir eps (breakpoints eps x grad lower upper) grad) B)
    (hdist : ∀ i j τ, breakpoints eps x grad lower upper i = .fin τ → breakpoints eps x grad lower upper j = .fin τ → 0 < τ → i = j)
    {r : (Fin n → Ext K) × (Fin h ⊕ Fin h → K) × (Fin n → Bool)}
    (hr : findCauchyPoint eps argsort x grad lower upper theta w m = some r) :
    ∃ (s : K) (xc : Fin n → K) (δ : K), 0 ≤ s ∧ 0 < δ ∧ (∀ j, r.1 j = .fin (xc j)) ∧ OnPath x grad lower upper s xc ∧
      (∀ a b ya yb, 0 ≤ a → a < b → b ≤ s → OnPath x grad lower upper a ya → OnPath x grad lower upper b yb →
        quadModel grad B (yb - x) < quadModel grad B (ya - x)) ∧
      ∀ u y, s ≤ u → u ≤ s + δ → OnPath x grad lower upper u y → quadModel grad B (xc - x) ≤ quadModel grad B (y - x) := by
  subst hB
  obtain ⟨s, hs, h1, h2, h3, h4, h5, h6, h7⟩ := cauchy_core he argsort hx hg hsep hsort hsymm hpd hr
  have hpath := fun {u : K} (hu : 0 ≤ u) => onPath_pathZ he hx hg hsep hu
  obtain ⟨δ, hδ, h8⟩ := h7 hno hdist
  refine ⟨s, _, δ, hs, hδ, h1, hpath hs, ?_, ?_⟩
  · intro a b ya yb ha hab hb hya hyb
    rw [hya.unique (hpath ha), hyb.unique (hpath (ha.trans hab.le)), add_sub_cancel_left, add_sub_cancel_left]
    exact h4 a b ha hab hb
  · intro u y hu hu' hy
    rw [hy.unique (hpath (hs.trans hu)), add_sub_cancel_left, add_sub_cancel_left]
    exact h8 u hu hu'

/-! ### Subspace minimisation -/

/-- The part of a vector on the free coordinates. -/
def onFree (active : Fin n → Bool) (v : Fin n → K) : Fin n → K := fun j => if active j then v j else 0

section subspace
variable {x grad xc : Fin n → K} {c : Fin h ⊕ Fin h → K} {theta : K} {w : Matrix (Fin n) (Fin h ⊕ Fin h) K}
  {m : Matrix (Fin h ⊕ Fin h) (Fin h ⊕ Fin h) K} {active : Fin n → Bool} {B : Matrix (Fin n) (Fin n) K}

/-- `w_masked`. -/
def wMask (w : Matrix (Fin n) (Fin h ⊕ Fin h) K) (active : Fin n → Bool) : Matrix (Fin n) (Fin h ⊕ Fin h) K :=
  fun j k => w j k * (if active j then 1 else 0)

/-- The matrix of the system solved. -/
def subN (theta : K) (w : Matrix (Fin n) (Fin h ⊕ Fin h) K) (m : Matrix (Fin h ⊕ Fin h) (Fin h ⊕ Fin h) K) (active : Fin n → Bool) :
    Matrix (Fin h ⊕ Fin h) (Fin h ⊕ Fin h) K :=
  1 - m * ((1 / theta) • ((wMask w active)ᵀ * wMask w active))

theorem model_row (hB : B = theta • 1 - w * m * wᵀ) (z : Fin n → K) (j : Fin n) :
    (B *ᵥ z) j = theta * z j - w j ⬝ᵥ m *ᵥ (wᵀ *ᵥ z) := by
  rw [hB, sub_mulVec, smul_mulVec, one_mulVec, ← mulVec_mulVec, ← mulVec_mulVec]
  rfl

theorem wT_onFree (v : Fin n → K) : wᵀ *ᵥ onFree active v = (wMask w active)ᵀ *ᵥ v := by
  funext k
  simp only [mulVec, dotProduct, transpose_apply, onFree, wMask]
  exact sum_congr rfl fun j _ => by split_ifs <;> ring

theorem wMask_mulVec (z : Fin h ⊕ Fin h → K) (j : Fin n) : (wMask w active *ᵥ z) j = if active j then w j ⬝ᵥ z else 0 := by
  simp only [mulVec, dotProduct, wMask]
  split_ifs
  · exact sum_congr rfl fun k _ => by ring
  · exact sum_eq_zero fun k _ => by ring

theorem subN_mulVec (z : Fin h ⊕ Fin h → K) :
    subN theta w m active *ᵥ z = z - (1 / theta) • (m *ᵥ ((wMask w active)ᵀ *ᵥ (wMask w active *ᵥ z))) := by
  rw [subN, sub_mulVec, one_mulVec, ← mulVec_mulVec, smul_mulVec, mulVec_smul, ← mulVec_mulVec]

/-- The system is solvable when the model is positive definite. -/
theorem subN_unit (ht : 0 < theta) (hB : B = theta • 1 - w * m * wᵀ) (hpd : ∀ v, v ≠ 0 → 0 < v ⬝ᵥ B *ᵥ v) :
    IsUnit (subN theta w m active) := by
  rw [← mulVec_injective_iff_isUnit, ← Matrix.coe_mulVecLin, injective_iff_map_eq_zero]
  intro z hz
  rw [mulVecLin_apply, subN_mulVec, sub_eq_zero] at hz
  set u := wMask w active *ᵥ z with hu
  have hfree : onFree active u = u := by
    funext j
    simp only [onFree, hu, wMask_mulVec]
    split_ifs <;> rfl
  have hm : m *ᵥ (wᵀ *ᵥ u) = theta • z := by
    conv_lhs => rw [← hfree, wT_onFree]
    conv_rhs => rw [hz]
    rw [smul_smul, mul_one_div_cancel ht.ne', one_smul]
  have h0 : u = 0 := by
    by_contra hne
    have := hpd u hne
    have e : u ⬝ᵥ B *ᵥ u = 0 := by
      refine sum_eq_zero fun j _ => ?_
      rw [model_row hB, hm, dotProduct_smul, smul_eq_mul, hu, wMask_mulVec]
      split_ifs <;> ring
    rw [e] at this
    exact lt_irrefl _ this
  rw [hz, h0, mulVec_zero, mulVec_zero, smul_zero]

/-- The gradient of the model vanishes on the free coordinates after the full subspace step. -/
theorem subspace_grad (ht : 0 < theta) (hB : B = theta • 1 - w * m * wᵀ)
    {solve : Matrix (Fin h ⊕ Fin h) (Fin h ⊕ Fin h) K → (Fin h ⊕ Fin h → K) → (Fin h ⊕ Fin h → K)}
    (hsolve : ∀ v, subN theta w m active *ᵥ solve (subN theta w m active) v = v) (hc : c = wᵀ *ᵥ (xc - x)) {j : Fin n}
    (hj : active j = true) :
    (grad + B *ᵥ (xc - x + onFree active (subspaceDir solve x grad xc c theta w m active))) j = 0 := by
  set wm := wMask w active with hwm
  set rc := grad + theta • (xc - x) - wm *ᵥ (m *ᵥ c) with hrc
  set v0 := m *ᵥ (wmᵀ *ᵥ rc) with hv0
  set v := solve (subN theta w m active) v0 with hv
  have hdu : subspaceDir solve x grad xc c theta w m active = -((1 / theta) • rc) - (1 / (theta * theta)) • (wm *ᵥ v) := rfl
  have hNv : v - (1 / theta) • (m *ᵥ (wmᵀ *ᵥ (wm *ᵥ v))) = v0 := by rw [hwm, ← subN_mulVec]; exact hsolve v0
  have h1 : m *ᵥ (wᵀ *ᵥ onFree active (subspaceDir solve x grad xc c theta w m active)) = -((1 / theta) • v) := by
    rw [wT_onFree, ← hwm, hdu, mulVec_sub, mulVec_neg, mulVec_smul, mulVec_smul, mulVec_sub, mulVec_neg, mulVec_smul, mulVec_smul, ← hv0]
    rw [← hNv]
    funext k
    simp only [Pi.sub_apply, Pi.neg_apply, Pi.smul_apply, smul_eq_mul]
    field_simp
    ring
  rw [Pi.add_apply, model_row hB, mulVec_add, mulVec_add, h1, ← hc, dotProduct_add, dotProduct_neg, dotProduct_smul, smul_eq_mul]
  have h2 : rc j = grad j + theta * (xc - x) j - w j ⬝ᵥ m *ᵥ c := by
    simp only [hrc, Pi.sub_apply, Pi.add_apply, Pi.smul_apply, smul_eq_mul, hwm, wMask_mulVec, hj, if_true]
  have h3 : onFree active (subspaceDir solve x grad xc c theta w m active) j = -(1 / theta * rc j) - 1 / (theta * theta) * (w j ⬝ᵥ v) := by
    simp only [onFree, hj, if_true, hdu, Pi.sub_apply, Pi.neg_apply, Pi.smul_apply, smul_eq_mul, hwm, wMask_mulVec]
  rw [Pi.add_apply, h3, h2]
  field_simp
  ring

end subspace

/-- **C76, subspace minimisation.** With exact linear algebra the system solved is regular, and the full step `xc + du` on the free
coordinates minimises the quadratic model among all points that agree with the Cauchy point on the other coordinates. -/
theorem C76_subspace {x grad xc : Fin n → K} {c : Fin h ⊕ Fin h → K} {theta : K} {w : Matrix (Fin n) (Fin h ⊕ Fin h) K}
    {m : Matrix (Fin h ⊕ Fin h) (Fin h ⊕ Fin h) K} {active : Fin n → Bool} {B : Matrix (Fin n) (Fin n) K} (ht : 0 < theta)
    (hB : B = theta • 1 - w * m * wᵀ) (hsymm : Bᵀ = B) (hpd : ∀ v, v ≠ 0 → 0 < v ⬝ᵥ B *ᵥ v)
    {solve : Matrix (Fin h ⊕ Fin h) (Fin h ⊕ Fin h) K → (Fin h ⊕ Fin h → K) → (Fin h ⊕ Fin h → K)}
    (hsolve : ∀ N v, IsUnit N → N *ᵥ solve N v = v) (hc : c = wᵀ *ᵥ (xc - x)) (z : Fin n → K)
    (hz : ∀ j, active j = false → z j = xc j) :
    quadModel grad B (xc + onFree active (subspaceDir solve x grad xc c theta w m active) - x) ≤ quadModel grad B (z - x) := by
  have hs := fun {j : Fin n} (hj : active j = true) =>
    subspace_grad (x := x) (grad := grad) (xc := xc) ht hB (fun v => hsolve _ v (subN_unit (active := active) ht hB hpd)) hc hj
  set du := onFree active (subspaceDir solve x grad xc c theta w m active) with hdu
  have e : z - x = (xc - x + du) + (1 : K) • (z - (xc + du)) := by
    rw [one_smul]; funext j; simp only [Pi.add_apply, Pi.sub_apply]; ring
  rw [show xc + du - x = xc - x + du by funext j; simp only [Pi.add_apply, Pi.sub_apply]; ring, e, quadModel_add hsymm]
  have h1 : grad ⬝ᵥ (z - (xc + du)) + (z - (xc + du)) ⬝ᵥ B *ᵥ (xc - x + du) = 0 := by
    rw [dotProduct_comm grad, ← dotProduct_add]
    refine sum_eq_zero fun j _ => ?_
    by_cases hj : active j = true
    · rw [hs hj, mul_zero]
    · have hj' : active j = false := by simpa using hj
      have : (z - (xc + du)) j = 0 := by
        simp only [Pi.sub_apply, Pi.add_apply, hz j hj', hdu, onFree, hj', Bool.false_eq_true, if_false]; ring
      rw [this, zero_mul]
  rw [h1]
  have h2 : 0 ≤ (z - (xc + du)) ⬝ᵥ B *ᵥ (z - (xc + du)) := by
    by_cases h0 : z - (xc + du) = 0
    · rw [h0]; simp
    · exact (hpd _ h0).le
  linarith

end Jaxopt.QuasiNewton
