import Verif.QuasiNewton.CompactProps

/-!
# Lemmas on the Cauchy point of L-BFGS-B
-/

set_option autoImplicit false
set_option linter.unusedSectionVars false
set_option linter.unusedVariables false

namespace Jaxopt.QuasiNewton

open Matrix Finset

variable {K : Type*} [Field K] [LinearOrder K] [IsStrictOrderedRing K] {n h : ℕ}

/-- Specification: the quadratic model `gᵀz + zᵀBz / 2` of the change of the objective by the step `z`. -/
def quadModel (g : Fin n → K) (B : Matrix (Fin n) (Fin n) K) (z : Fin n → K) : K := g ⬝ᵥ z + (z ⬝ᵥ B *ᵥ z) / 2

theorem quadModel_add {g : Fin n → K} {B : Matrix (Fin n) (Fin n) K} (hB : Bᵀ = B) (z v : Fin n → K) (a : K) :
    quadModel g B (z + a • v) = quadModel g B z + a * (g ⬝ᵥ v + v ⬝ᵥ B *ᵥ z) + a ^ 2 / 2 * (v ⬝ᵥ B *ᵥ v) := by
  have e : z ⬝ᵥ B *ᵥ v = v ⬝ᵥ B *ᵥ z := by rw [dotProduct_mulVec, ← mulVec_transpose, hB, dotProduct_comm]
  simp only [quadModel, mulVec_add, mulVec_smul, dotProduct_add, add_dotProduct, dotProduct_smul, smul_dotProduct, smul_eq_mul, e]
  ring

/-- The model decreases strictly along a segment on which an upper estimate of its derivative is not positive. -/
theorem quadModel_anti {g : Fin n → K} {B : Matrix (Fin n) (Fin n) K} (hB : Bᵀ = B) {z v : Fin n → K} {df ddf r : K}
    (h1 : g ⬝ᵥ v + v ⬝ᵥ B *ᵥ z ≤ df) (h2 : v ⬝ᵥ B *ᵥ v ≤ ddf) (h3 : 0 < ddf) (hr : r * ddf ≤ -df) {a b : K} (ha : 0 ≤ a) (hab : a < b)
    (hb : b ≤ r) : quadModel g B (z + b • v) < quadModel g B (z + a • v) := by
  rw [quadModel_add hB, quadModel_add hB]
  set D := g ⬝ᵥ v + v ⬝ᵥ B *ᵥ z
  set C := v ⬝ᵥ B *ᵥ v
  have e : (quadModel g B z + b * D + b ^ 2 / 2 * C) - (quadModel g B z + a * D + a ^ 2 / 2 * C) = (b - a) * (D + (a + b) / 2 * C) := by ring
  have h4 : (a + b) / 2 * C ≤ (a + b) / 2 * ddf := mul_le_mul_of_nonneg_left h2 (by linarith)
  have h5 : (a + b) / 2 * ddf < r * ddf := mul_lt_mul_of_pos_right (by linarith) h3
  have h6 : (b - a) * (D + (a + b) / 2 * C) < 0 := mul_neg_of_pos_of_neg (by linarith) (by linarith)
  linarith

/-- How long a coordinate with breakpoint `t` has moved at time `s`. -/
def moved : Ext K → K → K
  | .fin τ, s => min s τ
  | _, s => s

/-- The displacement along the projected path. -/
def pathZ (t : Fin n → Ext K) (d : Fin n → K) (s : K) : Fin n → K := fun j => moved (t j) s * d j

/-- The direction after the first `i` breakpoints have been passed. -/
def curDir (sigma : Equiv.Perm (Fin n)) (d : Fin n → K) (i : ℕ) : Fin n → K := fun j => if (sigma.symm j).1 < i then 0 else d j

/-- The time reached before position `i`. -/
def prevTime (ts : Fin n → Ext K) (i : ℕ) : Ext K := if hi : 0 < i then (if hn : i - 1 < n then ts ⟨i - 1, hn⟩ else .fin 0) else .fin 0

theorem pathZ_add {t : Fin n → Ext K} {d : Fin n → K} {sigma : Equiv.Perm (Fin n)} {i : ℕ} {τ a : K} (ha : 0 ≤ a)
    (hbefore : ∀ k : Fin n, k.1 < i → ∃ τk, t (sigma k) = .fin τk ∧ τk ≤ τ)
    (hafter : ∀ k : Fin n, i ≤ k.1 → Ext.le (.fin (τ + a)) (t (sigma k)) = true) :
    pathZ t d (τ + a) = pathZ t d τ + a • curDir sigma d i := by
  funext j
  obtain ⟨k, rfl⟩ := sigma.surjective j
  simp only [pathZ, curDir, Pi.add_apply, Pi.smul_apply, smul_eq_mul, Equiv.symm_apply_apply]
  by_cases hk : k.1 < i
  · obtain ⟨τk, h1, h2⟩ := hbefore k hk
    rw [h1, if_pos hk, mul_zero, add_zero]
    simp only [moved, min_eq_right h2, min_eq_right (show τk ≤ τ + a by linarith)]
  · rw [if_neg hk]
    have h1 := hafter k (by omega)
    cases ht : t (sigma k) with
    | fin τk =>
      rw [ht] at h1
      simp only [Ext.le, decide_eq_true_eq] at h1
      simp only [moved, min_eq_left h1, min_eq_left (show τ ≤ τk by linarith)]
      ring
    | pinf => simp only [moved]; ring
    | ninf => rw [ht] at h1; simp [Ext.le] at h1
    | nan => rw [ht] at h1; simp [Ext.le] at h1

/-- The data of the loop. -/
structure CPData (eps theta : K) (grad d x : Fin n → K) (lower upper : Fin n → Ext K) (w : Matrix (Fin n) (Fin h ⊕ Fin h) K)
    (m : Matrix (Fin h ⊕ Fin h) (Fin h ⊕ Fin h) K) (t : Fin n → Ext K) (sigma : Equiv.Perm (Fin n)) (B : Matrix (Fin n) (Fin n) K) : Prop where
  eps_pos : 0 < eps
  sorted : ∀ i j, i ≤ j → Ext.le (t (sigma i)) (t (sigma j)) = true
  dir : ∀ j, Ext.gt (t j) (.fin eps) = true → d j = -grad j
  fin_ne : ∀ j τ, t j = .fin τ → grad j ≠ 0
  bound : ∀ j τ, t j = .fin τ → xBound d x lower upper j = .fin (x j + τ * d j)
  model : B = theta • 1 - w * m * wᵀ
  symm : Bᵀ = B

/-- The clipping of the curvature at machine epsilon never takes effect: the model has curvature at least `eps` along every
non-zero restriction of the direction to some of its coordinates. -/
def NoClip (eps : K) (d : Fin n → K) (B : Matrix (Fin n) (Fin n) K) : Prop :=
  ∀ A : Fin n → Prop, ∀ _ : DecidablePred A, (fun j => if A j then d j else 0) ≠ 0 →
    eps ≤ (fun j => if A j then d j else 0) ⬝ᵥ B *ᵥ (fun j => if A j then d j else 0)

/-- Invariant of the loop at time `τ`: `c = Wᵀ z`, `p = Wᵀ d`, and `df`, `ddf` are upper estimates of the derivatives of the model along
the current direction, exact if the clipping takes no effect. -/
structure CauchyInv (eps : K) (grad d : Fin n → K) (w : Matrix (Fin n) (Fin h ⊕ Fin h) K) (t : Fin n → Ext K)
    (sigma : Equiv.Perm (Fin n)) (B : Matrix (Fin n) (Fin n) K) (τ : K) (s : CP K n h) : Prop where
  le : s.i ≤ n
  big : ∀ k : Fin n, s.i ≤ k.1 → Ext.gt (t (sigma k)) (.fin eps) = true
  mask : ∀ k : Fin n, s.mask k = decide (s.i ≤ k.1)
  time : prevTime (fun k => t (sigma k)) s.i = .fin τ
  nonneg : 0 ≤ τ
  start : 0 < τ ∨ s.df = -(d ⬝ᵥ d)
  before : ∀ k : Fin n, k.1 < s.i → ∃ τk, t (sigma k) = .fin τk ∧ τk ≤ τ
  after : ∀ k : Fin n, s.i ≤ k.1 → Ext.le (.fin τ) (t (sigma k)) = true
  c : s.c = wᵀ *ᵥ pathZ t d τ
  p : s.p = wᵀ *ᵥ curDir sigma d s.i
  df : grad ⬝ᵥ curDir sigma d s.i + curDir sigma d s.i ⬝ᵥ B *ᵥ pathZ t d τ ≤ s.df
  ddf : curDir sigma d s.i ⬝ᵥ B *ᵥ curDir sigma d s.i ≤ s.ddf
  ddf_pos : 0 < s.ddf
  anti : ∀ a b, 0 ≤ a → a < b → b ≤ τ → quadModel grad B (pathZ t d b) < quadModel grad B (pathZ t d a)
  exact : NoClip eps d B → s.df = grad ⬝ᵥ curDir sigma d s.i + curDir sigma d s.i ⬝ᵥ B *ᵥ pathZ t d τ ∧
    (s.ddf = curDir sigma d s.i ⬝ᵥ B *ᵥ curDir sigma d s.i ∨ curDir sigma d s.i = 0)

variable {eps theta : K} {grad d x : Fin n → K} {lower upper : Fin n → Ext K} {w : Matrix (Fin n) (Fin h ⊕ Fin h) K}
  {m : Matrix (Fin h ⊕ Fin h) (Fin h ⊕ Fin h) K} {t : Fin n → Ext K} {sigma : Equiv.Perm (Fin n)} {B : Matrix (Fin n) (Fin n) K}

theorem CPData.row (D : CPData eps theta grad d x lower upper w m t sigma B) (z : Fin n → K) (j : Fin n) :
    (B *ᵥ z) j = theta * z j - w j ⬝ᵥ m *ᵥ (wᵀ *ᵥ z) := by
  rw [D.model, sub_mulVec, smul_mulVec, one_mulVec, ← mulVec_mulVec, ← mulVec_mulVec]
  rfl

/-- Decreasing on `[0, τ]` and on the next segment gives decreasing up to its end. -/
theorem anti_extend (D : CPData eps theta grad d x lower upper w m t sigma B) {τ r : K} {s : CP K n h}
    (I : CauchyInv eps grad d w t sigma B τ s) (hr : 0 ≤ r) (hrd : r = 0 ∨ r * s.ddf ≤ -s.df)
    (hafter : ∀ k : Fin n, s.i ≤ k.1 → Ext.le (.fin (τ + r)) (t (sigma k)) = true) :
    ∀ a b, 0 ≤ a → a < b → b ≤ τ + r → quadModel grad B (pathZ t d b) < quadModel grad B (pathZ t d a) := by
  have hseg : ∀ u, 0 ≤ u → u ≤ r → pathZ t d (τ + u) = pathZ t d τ + u • curDir sigma d s.i := by
    intro u hu hur
    refine pathZ_add hu I.before fun k hk => ?_
    have := hafter k hk
    cases ht : t (sigma k) with
    | fin τk =>
      rw [ht] at this
      simp only [Ext.le, decide_eq_true_eq] at this ⊢
      linarith
    | pinf => rfl
    | ninf => rw [ht] at this; simp [Ext.le] at this
    | nan => rw [ht] at this; simp [Ext.le] at this
  have hlast : ∀ a b, τ ≤ a → a < b → b ≤ τ + r → quadModel grad B (pathZ t d b) < quadModel grad B (pathZ t d a) := by
    intro a b ha hab hb
    rcases hrd with h0 | hrd
    · linarith
    · have ea := hseg (a - τ) (by linarith) (by linarith)
      have eb := hseg (b - τ) (by linarith) (by linarith)
      rw [show τ + (a - τ) = a by ring] at ea
      rw [show τ + (b - τ) = b by ring] at eb
      rw [ea, eb]
      exact quadModel_anti D.symm I.df I.ddf I.ddf_pos hrd (by linarith) (by linarith) (by linarith)
  intro a b ha hab hb
  rcases le_or_gt b τ with h1 | h1
  · exact I.anti a b ha hab h1
  · rcases le_or_gt τ a with h2 | h2
    · exact hlast a b h2 hab hb
    · exact lt_trans (hlast τ b le_rfl h1 hb) (I.anti a τ ha h2 le_rfl)

/-- One round of the loop keeps the invariant. -/
theorem CauchyInv.body (D : CPData eps theta grad d x lower upper w m t sigma B) {τ : K} {s : CP K n h}
    (I : CauchyInv eps grad d w t sigma B τ s) (hi : s.i < n) (hc : cpCond (fun k => t (sigma k)) s = true) {r xb : K}
    (hr : dtAt (fun k => t (sigma k)) ⟨s.i, hi⟩ = .fin r) (hxb : xBound d x lower upper (sigma ⟨s.i, hi⟩) = .fin xb) :
    CauchyInv eps grad d w t sigma B (τ + r) (cpBody eps theta grad d x lower upper w m sigma ⟨s.i, hi⟩ r xb s) := by
  set j := sigma ⟨s.i, hi⟩ with hj
  -- the next breakpoint
  have hprev : (if h : (⟨s.i, hi⟩ : Fin n).1 = 0 then .fin 0 else t (sigma ⟨s.i - 1, by omega⟩) : Ext K) = .fin τ := by
    have := I.time
    unfold prevTime at this
    by_cases h0 : s.i = 0
    · rw [dif_neg (by omega)] at this
      rw [dif_pos h0]; exact this
    · rw [dif_pos (by omega), dif_pos (by omega)] at this
      rw [dif_neg h0]; exact this
  have htj : t j = .fin (τ + r) := by
    unfold dtAt at hr
    simp only at hr hprev
    rw [hprev] at hr
    cases ht : t (sigma ⟨s.i, hi⟩) with
    | fin τ' =>
      rw [ht] at hr
      simp only [Ext.sub, Ext.neg, Ext.add, Ext.fin.injEq] at hr
      rw [← hr]; congr 1; ring
    | pinf => rw [ht] at hr; simp [Ext.sub, Ext.neg, Ext.add] at hr
    | ninf => rw [ht] at hr; simp [Ext.sub, Ext.neg, Ext.add] at hr
    | nan => rw [ht] at hr; simp [Ext.sub, Ext.neg, Ext.add] at hr
  have hr0 : 0 ≤ r := by
    have := I.after ⟨s.i, hi⟩ le_rfl
    rw [← hj, htj] at this
    simp only [Ext.le, decide_eq_true_eq] at this
    linarith
  have hgt := I.big ⟨s.i, hi⟩ le_rfl
  rw [← hj] at hgt
  have hdj : d j = -grad j := D.dir j hgt
  have hgj : grad j ≠ 0 := D.fin_ne j _ htj
  have hxb' : xb = x j + (τ + r) * d j := by
    have := D.bound j _ htj
    rw [hxb] at this
    exact Ext.fin.inj this
  have hrd : r * s.ddf ≤ -s.df := by
    unfold cpCond at hc
    rw [dif_pos hi, hr, divE, if_pos I.ddf_pos.ne'] at hc
    simp only [Ext.le, decide_eq_true_eq] at hc
    exact (le_div_iff₀ I.ddf_pos).mp hc
  have hafter : ∀ k : Fin n, s.i ≤ k.1 → Ext.le (.fin (τ + r)) (t (sigma k)) = true := by
    intro k hk
    have := D.sorted ⟨s.i, hi⟩ k (by rw [Fin.le_def]; exact hk)
    rwa [← hj, htj] at this
  have hZ : pathZ t d (τ + r) = pathZ t d τ + r • curDir sigma d s.i := pathZ_add hr0 I.before hafter
  have hZj : pathZ t d (τ + r) j = (τ + r) * d j := by simp [pathZ, htj, moved]
  have hcj : curDir sigma d s.i j = -grad j := by
    simp only [curDir, hj, Equiv.symm_apply_apply]
    rw [if_neg (by omega), ← hj, hdj]
  have hdir : curDir sigma d (s.i + 1) = curDir sigma d s.i + grad j • Pi.single j 1 := by
    funext l
    obtain ⟨k, rfl⟩ := sigma.surjective l
    simp only [curDir, Pi.add_apply, Pi.smul_apply, smul_eq_mul, Equiv.symm_apply_apply]
    by_cases hk : k = ⟨s.i, hi⟩
    · subst hk
      rw [if_pos (by simp), if_neg (by simp), ← hj, hdj, Pi.single_eq_same]; ring
    · have hk' : k.1 ≠ s.i := fun e => hk (Fin.ext e)
      have hne : sigma k ≠ j := fun e => hk (sigma.injective (by rw [e]))
      rw [Pi.single_eq_of_ne hne, mul_zero, add_zero]
      by_cases hlt : k.1 < s.i
      · rw [if_pos hlt, if_pos (by omega)]
      · rw [if_neg hlt, if_neg (by omega)]
  have hc' : s.c + r • s.p = wᵀ *ᵥ pathZ t d (τ + r) := by rw [I.c, I.p, hZ, mulVec_add, mulVec_smul]
  have hwj : wᵀ *ᵥ (Pi.single j 1 : Fin n → K) = w j := by
    funext k
    rw [mulVec_single_one]; rfl
  have hp' : s.p + grad j • w j = wᵀ *ᵥ curDir sigma d (s.i + 1) := by rw [I.p, hdir, mulVec_add, mulVec_smul, hwj]
  -- the derivatives along the new direction
  have hD : grad ⬝ᵥ curDir sigma d (s.i + 1) + curDir sigma d (s.i + 1) ⬝ᵥ B *ᵥ pathZ t d (τ + r) =
      (grad ⬝ᵥ curDir sigma d s.i + curDir sigma d s.i ⬝ᵥ B *ᵥ pathZ t d τ) + r * (curDir sigma d s.i ⬝ᵥ B *ᵥ curDir sigma d s.i) +
        grad j * grad j + theta * grad j * (xb - x j) - grad j * (w j ⬝ᵥ m *ᵥ (s.c + r • s.p)) := by
    have e1 : (Pi.single j 1 : Fin n → K) ⬝ᵥ B *ᵥ pathZ t d (τ + r) = theta * (xb - x j) - w j ⬝ᵥ m *ᵥ (s.c + r • s.p) := by
      rw [single_one_dotProduct, D.row, hZj, hxb', ← hc']; ring
    rw [hdir, dotProduct_add, add_dotProduct, dotProduct_smul, smul_dotProduct, smul_eq_mul, smul_eq_mul, e1, dotProduct_single_one]
    rw [hZ, mulVec_add, mulVec_smul, dotProduct_add, dotProduct_smul, smul_eq_mul]
    ring
  have hC : curDir sigma d (s.i + 1) ⬝ᵥ B *ᵥ curDir sigma d (s.i + 1) =
      (curDir sigma d s.i ⬝ᵥ B *ᵥ curDir sigma d s.i) - theta * (grad j * grad j) - 2 * grad j * (w j ⬝ᵥ m *ᵥ s.p) -
        grad j * grad j * (w j ⬝ᵥ m *ᵥ w j) := by
    have e1 : (Pi.single j 1 : Fin n → K) ⬝ᵥ B *ᵥ curDir sigma d s.i = -theta * grad j - w j ⬝ᵥ m *ᵥ s.p := by
      rw [single_one_dotProduct, D.row, hcj, ← I.p]; ring
    have e2 : curDir sigma d s.i ⬝ᵥ B *ᵥ (Pi.single j 1 : Fin n → K) = (Pi.single j 1 : Fin n → K) ⬝ᵥ B *ᵥ curDir sigma d s.i := by
      rw [dotProduct_mulVec, ← mulVec_transpose, D.symm, dotProduct_comm]
    have e3 : (Pi.single j 1 : Fin n → K) ⬝ᵥ B *ᵥ (Pi.single j 1 : Fin n → K) = theta - w j ⬝ᵥ m *ᵥ w j := by
      rw [single_one_dotProduct, D.row, hwj, Pi.single_eq_same, mul_one]
    rw [hdir]
    simp only [mulVec_add, mulVec_smul, dotProduct_add, add_dotProduct, dotProduct_smul, smul_dotProduct, smul_eq_mul, e2, e1, e3]
    ring
  refine ⟨by simp only [cpBody]; omega, ?_, ?_, ?_, by linarith [I.nonneg], Or.inl ?_, ?_, ?_, ?_, ?_, ?_, ?_, ?_, ?_, ?_⟩
  · intro k hk
    simp only [cpBody] at hk
    exact I.big k (by omega)
  · intro k
    simp only [cpBody]
    by_cases hk : k = ⟨s.i, hi⟩
    · subst hk; rw [Function.update_self]; simp
    · have hk' : k.1 ≠ s.i := fun e => hk (Fin.ext e)
      rw [Function.update_of_ne hk, I.mask k]
      congr 1
      exact propext ⟨fun _ => by omega, fun _ => by omega⟩
  · change prevTime (fun k => t (sigma k)) (s.i + 1) = .fin (τ + r)
    unfold prevTime
    rw [dif_pos (Nat.succ_pos _), dif_pos (show s.i + 1 - 1 < n by omega)]
    exact htj
  · rw [htj] at hgt
    simp only [Ext.gt, Ext.lt, decide_eq_true_eq] at hgt
    exact lt_trans D.eps_pos hgt
  · intro k hk
    simp only [cpBody] at hk
    by_cases hk' : k.1 < s.i
    · obtain ⟨τk, h1, h2⟩ := I.before k hk'
      exact ⟨τk, h1, by linarith⟩
    · have : k = ⟨s.i, hi⟩ := Fin.ext (by simp only; omega)
      exact ⟨τ + r, by rw [this, ← hj, htj], le_rfl⟩
  · intro k hk
    simp only [cpBody] at hk
    exact hafter k (by omega)
  · exact hc'
  · exact hp'
  · simp only [cpBody]
    rw [hD]
    have h1 := I.df
    have h2 := mul_le_mul_of_nonneg_left I.ddf hr0
    linarith
  · simp only [cpBody]
    rw [hC]
    refine le_trans ?_ (le_max_right _ _)
    have h2 := I.ddf
    linarith
  · simp only [cpBody]
    exact lt_of_lt_of_le D.eps_pos (le_max_left _ _)
  · exact anti_extend D I hr0 (Or.inr hrd) hafter
  · intro hno
    obtain ⟨h1, h2⟩ := I.exact hno
    have h3 : s.ddf = curDir sigma d s.i ⬝ᵥ B *ᵥ curDir sigma d s.i := by
      rcases h2 with h2 | h2
      · exact h2
      · have := congrFun h2 j
        rw [hcj] at this
        exact absurd (neg_eq_zero.mp this) hgj
    simp only [cpBody]
    refine ⟨by rw [hD, h1, h3], ?_⟩
    by_cases h0 : curDir sigma d (s.i + 1) = 0
    · exact Or.inr h0
    · left
      have hcl := hno (fun l => ¬ (sigma.symm l).1 < s.i + 1) inferInstance
      have he : (fun l => if ¬ (sigma.symm l).1 < s.i + 1 then d l else 0) = curDir sigma d (s.i + 1) := by
        funext l
        simp only [curDir, ite_not]
      rw [he] at hcl
      have hcl' := hcl h0
      rw [h3, ← hC]
      exact max_eq_right hcl'

/-- The loop keeps the invariant and ends with a false condition. -/
theorem CauchyInv.loop (D : CPData eps theta grad d x lower upper w m t sigma B) (k : ℕ) :
    ∀ (τ : K) (s : CP K n h), CauchyInv eps grad d w t sigma B τ s → n ≤ s.i + k → ∀ s',
      cpLoop eps theta grad d x lower upper w m sigma (fun k => t (sigma k)) k s = some s' →
      ∃ τ', CauchyInv eps grad d w t sigma B τ' s' ∧ cpCond (fun k => t (sigma k)) s' = false := by
  induction k with
  | zero =>
    intro τ s I hk s' he
    simp only [cpLoop, Option.some.injEq] at he
    subst he
    refine ⟨τ, I, ?_⟩
    unfold cpCond
    rw [dif_neg (by omega)]
  | succ k ih =>
    intro τ s I hk s' he
    unfold cpLoop at he
    by_cases hin : s.i < n
    · rw [dif_pos hin] at he
      by_cases hc : cpCond (fun k => t (sigma k)) s = true
      · rw [if_pos hc] at he
        split at he
        · rename_i r xb hr hxb
          exact ih _ _ (I.body D hin hc hr hxb) (by simp only [cpBody]; omega) s' he
        · cases he
      · rw [if_neg hc] at he
        cases he
        exact ⟨τ, I, by simpa using hc⟩
    · rw [dif_neg hin] at he
      cases he
      refine ⟨τ, I, ?_⟩
      unfold cpCond
      rw [dif_neg hin]

end Jaxopt.QuasiNewton
