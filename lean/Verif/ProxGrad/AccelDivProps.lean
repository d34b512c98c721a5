import Verif.ProxGrad.RampProps
import Mathlib.Order.Filter.AtTopBot.Field
import Mathlib.Topology.Algebra.Order.Field
import Mathlib.Topology.Order.Compact

/-!
# Property C100: divergence of gradient descent with all default options

The starting point is found by nested intervals: during every passage through the affine part the parameters depend affinely on their values
at its beginning, and among a range of these values some lead to a given crossing of the kink.
-/

set_option autoImplicit false
set_option linter.unusedSectionVars false
set_option linter.unusedVariables false

namespace Jaxopt.ProxGrad

open Jaxopt.Base Jaxopt.Loop Set Filter
open Jaxopt.QuasiNewton (Stepsize)

namespace PG

section Steps

variable {L eps tol : ℝ} {maxiter : ℕ} (hL : 1 ≤ L) (he : 0 ≤ eps) (he1 : eps ≤ 1)

theorem ramp_t (x0 : ℝ) (k : ℕ) : ((ramp L eps tol maxiter).iterate x0 k).2.t = tt k := by
  induction k with
  | zero => rfl
  | succ k ih =>
    rw [iterate_succ]
    change 1 / 2 * (1 + Real.sqrt (1 + 4 * (((ramp L eps tol maxiter).iterate x0 k).2.t * ((ramp L eps tol maxiter).iterate x0 k).2.t))) = _
    rw [ih]; rfl

theorem ramp_update (x0 : ℝ) (k : ℕ) :
    let S := ramp L eps tol maxiter
    let p := S.iterate x0 k
    (S.iterate x0 (k + 1)).1 = (S.search p).1 ∧
      (S.iterate x0 (k + 1)).2.velocity = (S.search p).1 + mom k * ((S.search p).1 - p.1) ∧
      (S.iterate x0 (k + 1)).2.stepsize = if (S.search p).2 ≤ 1 / 1000000 then 1 else (S.search p).2 / (1 / 2) := by
  intro S p
  rw [iterate_succ]
  have h := update_search S (a := 0) rfl le_rfl p
  refine ⟨h.1, ?_, h.2⟩
  have ht : p.2.t = tt k := ramp_t x0 k
  have ht' : (S.update p).2.t = tt (k + 1) := by
    have := ramp_t (L := L) (eps := eps) (tol := tol) (maxiter := maxiter) x0 (k + 1)
    rwa [iterate_succ] at this
  have : (S.update p).2.velocity = (S.update p).1 + (p.2.t - 1) / (S.update p).2.t * ((S.update p).1 - p.1) := by
    simp only [S, update, ramp, if_true, updateAccel, smul_eq_mul]
  rw [show S.update (S.iterate x0 k) = S.update p from rfl, this, ht, ht', h.1]
  rfl

include hL he

/-- A step that stays on the affine part is accepted and the next one is twice as long. -/
theorem ramp_left {x0 x y s : ℝ} {k : ℕ} (hx : ((ramp L eps tol maxiter).iterate x0 k).1 = x)
    (hy : ((ramp L eps tol maxiter).iterate x0 k).2.velocity = y) (hs : ((ramp L eps tol maxiter).iterate x0 k).2.stepsize = s)
    (hs1 : 1 ≤ s) (h : y + s ≤ -1 / L) :
    ((ramp L eps tol maxiter).iterate x0 (k + 1)).1 = y + s ∧
      ((ramp L eps tol maxiter).iterate x0 (k + 1)).2.velocity = y + s + mom k * (y + s - x) ∧
      ((ramp L eps tol maxiter).iterate x0 (k + 1)).2.stepsize = 2 * s := by
  obtain ⟨h1, h2, h3⟩ := ramp_update (L := L) (eps := eps) (tol := tol) (maxiter := maxiter) x0 k
  set S := ramp L eps tol maxiter
  set p := S.iterate x0 k
  have hp : S.point p = y := hy
  have hyl : y ≤ -1 / L := by linarith
  have hg : S.grad y = -1 := by change rampGrad L y = -1; unfold rampGrad; rw [if_pos hyl]
  have hpg : ∀ τ, S.proxGrad y (-1) τ = y + τ := fun τ => by
    change y + (-τ) * (-1) = _; ring
  have hsearch : S.search p = (y + s, s) := by
    have := S.search_eq p 0 (Nat.zero_le _) (fun i hi => absurd hi (Nat.not_lt_zero _)) (Or.inr ?_)
    · rw [this, hp, hg, hs, pow_zero, mul_one, hpg]
    · rw [hp, hg, hs, pow_zero, mul_one, hpg, lsCond_false_iff]
      change s * (rampFun L (y + s) - rampFun L y) ≤ s * ((y + s - y) * -1) + 1 / 2 * ((y + s - y) * (y + s - y)) + eps
      unfold rampFun
      rw [if_pos h, if_pos hyl]
      nlinarith [mul_self_nonneg s]
  rw [hsearch] at h1 h2 h3
  refine ⟨h1, by rw [h2, hx], ?_⟩
  rw [h3, if_neg (by simp only; linarith)]
  simp only
  ring

include he1

/-- Beyond the kink all 15 halvings of a long step are rejected, and the last one is used. -/
theorem ramp_cross {x0 x y kap : ℝ} {k : ℕ} (hx : ((ramp L eps tol maxiter).iterate x0 k).1 = x)
    (hy : ((ramp L eps tol maxiter).iterate x0 k).2.velocity = y) (hs : ((ramp L eps tol maxiter).iterate x0 k).2.stepsize = 2 ^ 15 * kap)
    (hk : 1 ≤ kap) (h : 1 ≤ y) :
    ((ramp L eps tol maxiter).iterate x0 (k + 1)).1 = -((L * kap - 1) * y) ∧
      ((ramp L eps tol maxiter).iterate x0 (k + 1)).2.velocity = -((L * kap - 1) * y) + mom k * (-((L * kap - 1) * y) - x) ∧
      ((ramp L eps tol maxiter).iterate x0 (k + 1)).2.stepsize = 2 * kap := by
  obtain ⟨h1, h2, h3⟩ := ramp_update (L := L) (eps := eps) (tol := tol) (maxiter := maxiter) x0 k
  set S := ramp L eps tol maxiter
  set p := S.iterate x0 k
  have hL0 : 0 < L := by linarith
  have hp : S.point p = y := hy
  have hw : -1 / L < 0 := div_neg_of_neg_of_pos (by norm_num) hL0
  have hw1 : -1 ≤ -1 / L := by rw [le_div_iff₀ hL0]; linarith
  have hyl : ¬ y ≤ -1 / L := by linarith
  have hg : S.grad y = L * y := by change rampGrad L y = _; unfold rampGrad; rw [if_neg hyl]
  have hpg : ∀ τ, S.proxGrad y (L * y) τ = -((L * τ - 1) * y) := fun τ => by
    change y + (-τ) * (L * y) = _; ring
  have hrej : ∀ τ, 2 ≤ τ → S.lsCond y (S.f y) (L * y) (-((L * τ - 1) * y), τ) = true := by
    intro τ hτ
    have e1 : 2 ≤ L * τ := by nlinarith
    have e2 : y ≤ (L * τ - 1) * y := le_mul_of_one_le_left (by linarith) (by linarith)
    change decide (τ * (rampFun L (-((L * τ - 1) * y)) - rampFun L y) >
      τ * ((-((L * τ - 1) * y) - y) * (L * y)) + 1 / 2 * ((-((L * τ - 1) * y) - y) * (-((L * τ - 1) * y) - y)) + eps) = true
    rw [decide_eq_true_eq]
    unfold rampFun
    rw [if_pos (by linarith), if_neg hyl]
    have e3 : 1 / (2 * L) ≤ 1 / 2 := by
      rw [div_le_div_iff₀ (by linarith) (by norm_num)]; linarith
    set c := 1 / (2 * L)
    have e4 : τ * (- -((L * τ - 1) * y) - c - L / 2 * (y * y)) - (τ * ((-((L * τ - 1) * y) - y) * (L * y)) +
        1 / 2 * ((-((L * τ - 1) * y) - y) * (-((L * τ - 1) * y) - y)) + eps) =
        τ * ((L * τ - 1) * y - c + L / 2 * (y * y) * (L * τ - 1)) - eps := by ring
    have e5 : 1 ≤ (L * τ - 1) * y - c + L / 2 * (y * y) * (L * τ - 1) := by
      have e6 : 1 ≤ y * y := by nlinarith
      have e7 : 1 / 2 ≤ L / 2 * (y * y) := by nlinarith
      have e8 : L / 2 * (y * y) ≤ L / 2 * (y * y) * (L * τ - 1) := le_mul_of_one_le_right (by linarith) (by linarith)
      linarith
    have e9 : 2 * 1 ≤ τ * ((L * τ - 1) * y - c + L / 2 * (y * y) * (L * τ - 1)) := mul_le_mul hτ e5 (by norm_num) (by linarith)
    linarith
  have hfin : (2 : ℝ) ^ 15 * kap * (1 / 2) ^ 15 = kap := by ring
  have hsearch : S.search p = (-((L * kap - 1) * y), kap) := by
    have := S.search_eq p 15 le_rfl ?_ (Or.inl rfl)
    · rw [this, hp, hg, hs, hpg]
      simp only [show S.decreaseFactor = 1 / 2 from rfl, hfin]
    · intro i hi
      rw [hp, hg, hs, hpg]
      apply hrej
      change (2 : ℝ) ≤ 2 ^ 15 * kap * (1 / 2) ^ i
      have : ((1 : ℝ) / 2) ^ 14 ≤ (1 / 2) ^ i := pow_le_pow_of_le_one (by norm_num) (by norm_num) (by omega)
      have e := mul_le_mul_of_nonneg_left this (by linarith : (0 : ℝ) ≤ 2 ^ 15 * kap)
      have e2 : (2 : ℝ) ^ 15 * kap * (1 / 2) ^ 14 = 2 * kap := by ring
      linarith
  rw [hsearch] at h1 h2 h3
  refine ⟨h1, by rw [h2, hx], ?_⟩
  rw [h3, if_neg (by simp only; linarith)]
  simp only
  ring

omit he1

/-- A passage through the affine part. -/
theorem ramp_phase {x0 X V kap : ℝ} {n : ℕ} {b : ℕ → ℝ} (hb : ∀ i, b (i + 1) = mom (n + i)) (hk : 1 / 2 ≤ kap)
    (hx : ((ramp L eps tol maxiter).iterate x0 n).1 = -X) (hy : ((ramp L eps tol maxiter).iterate x0 n).2.velocity = -X - b 0 * V)
    (hs : ((ramp L eps tol maxiter).iterate x0 n).2.stepsize = 2 * kap) (j : ℕ) (h : ∀ i ≤ j, posX b kap X V i ≤ -1 / L) :
    ((ramp L eps tol maxiter).iterate x0 (n + j)).1 = posX b kap X V j ∧
      ((ramp L eps tol maxiter).iterate x0 (n + j)).2.velocity = posY b kap X V j ∧
      ((ramp L eps tol maxiter).iterate x0 (n + j)).2.stepsize = 2 ^ (j + 1) * kap := by
  induction j with
  | zero =>
    refine ⟨?_, ?_, ?_⟩
    · rw [Nat.add_zero, hx]; simp [posX, pushX, drift]
    · rw [Nat.add_zero, hy]; simp only [posY, posX, velV, pushX, pushV, drift, damp]; ring
    · rw [Nat.add_zero, hs]; ring
  | succ j ih =>
    obtain ⟨i1, i2, i3⟩ := ih (fun i hi => h i (by omega))
    have hs1 : 1 ≤ 2 ^ (j + 1) * kap := by
      have : (1 : ℝ) ≤ 2 ^ j := one_le_pow₀ (by norm_num)
      have e : (2 : ℝ) ^ (j + 1) = 2 * 2 ^ j := by ring
      rw [e]; nlinarith
    have hh := h (j + 1) le_rfl
    rw [posX_succ] at hh
    obtain ⟨h1, h2, h3⟩ := ramp_left hL he i1 i2 i3 hs1 hh
    refine ⟨?_, ?_, ?_⟩
    · rw [← Nat.add_assoc, h1, posX_succ]
    · rw [← Nat.add_assoc, h2, ← posX_succ, ← hb]
      have e := posX_succ' b kap X V j
      have e2 : posY b kap X V (j + 1) = posX b kap X V (j + 1) + b (j + 1) * velV b kap V (j + 1) := rfl
      rw [e2, show velV b kap V (j + 1) = posX b kap X V (j + 1) - posX b kap X V j by linarith]
    · rw [← Nat.add_assoc, h3]; ring

end Steps

/-! ## Sub-intervals on which a continuous function runs through a given range -/

theorem sub_icc {g : ℝ → ℝ} {p q lo hi : ℝ} (hpq : p ≤ q) (hg : ContinuousOn g (Icc p q)) (hp : g p ≤ lo) (hq : hi ≤ g q) (hlh : lo ≤ hi) :
    ∃ a b, a ∈ Icc p q ∧ b ∈ Icc p q ∧ a ≤ b ∧ g a = lo ∧ g b = hi ∧ ∀ r ∈ Icc a b, lo ≤ g r ∧ g r ≤ hi := by
  have hA : IsCompact (Icc p q ∩ g ⁻¹' {lo}) := (isCompact_Icc).of_isClosed_subset
    (hg.preimage_isClosed_of_isClosed isClosed_Icc isClosed_singleton) inter_subset_left
  have hne : (Icc p q ∩ g ⁻¹' {lo}).Nonempty := by
    obtain ⟨r, hr, h⟩ := intermediate_value_Icc hpq hg ⟨hp, hlh.trans hq⟩
    exact ⟨r, hr, h⟩
  obtain ⟨a, ⟨ha, hga⟩, hmax⟩ := hA.exists_isGreatest hne
  have hga : g a = lo := hga
  have hg' : ContinuousOn g (Icc a q) := hg.mono (Icc_subset_Icc_left ha.1)
  have hB : IsCompact (Icc a q ∩ g ⁻¹' {hi}) := (isCompact_Icc).of_isClosed_subset
    (hg'.preimage_isClosed_of_isClosed isClosed_Icc isClosed_singleton) inter_subset_left
  have hne' : (Icc a q ∩ g ⁻¹' {hi}).Nonempty := by
    obtain ⟨r, hr, h⟩ := intermediate_value_Icc ha.2 hg' ⟨hga ▸ hlh, hq⟩
    exact ⟨r, hr, h⟩
  obtain ⟨b, ⟨hb, hgb⟩, hmin⟩ := hB.exists_isLeast hne'
  have hgb : g b = hi := hgb
  refine ⟨a, b, ha, ⟨ha.1.trans hb.1, hb.2⟩, hb.1, hga, hgb, fun r hr => ⟨?_, ?_⟩⟩
  · by_contra hc
    have hc := not_le.mp hc
    obtain ⟨z, hz, h⟩ := intermediate_value_Icc (hr.2.trans hb.2) (hg'.mono (Icc_subset_Icc_left hr.1)) ⟨hc.le, hlh.trans hq⟩
    have h1 : z ≤ a := hmax ⟨⟨ha.1.trans (hr.1.trans hz.1), hz.2⟩, h⟩
    have h2 : r = a := le_antisymm (hz.1.trans h1) hr.1
    rw [h2, hga] at hc
    exact lt_irrefl _ hc
  · by_contra hc
    have hc := not_le.mp hc
    obtain ⟨z, hz, h⟩ := intermediate_value_Icc hr.1 (hg'.mono (Icc_subset_Icc_right (hr.2.trans hb.2))) ⟨hga ▸ hlh, hc.le⟩
    have h1 : b ≤ z := hmin ⟨⟨hz.1, hz.2.trans (hr.2.trans hb.2)⟩, h⟩
    have h2 : r = b := le_antisymm hr.2 (h1.trans hz.2)
    rw [h2, hgb] at hc
    exact lt_irrefl _ hc

theorem sub_uIcc {g : ℝ → ℝ} {p q lo hi : ℝ} (hg : ContinuousOn g (uIcc p q)) (hp : g p ≤ lo) (hq : hi ≤ g q) (hlh : lo ≤ hi) :
    ∃ p' q', uIcc p' q' ⊆ uIcc p q ∧ g p' = hi ∧ g q' = lo ∧ ∀ r ∈ uIcc p' q', lo ≤ g r ∧ g r ≤ hi := by
  rcases le_total p q with h | h
  · rw [uIcc_of_le h] at hg ⊢
    obtain ⟨a, b, ha, hb, hab, h1, h2, h3⟩ := sub_icc h hg hp hq hlh
    refine ⟨b, a, ?_, h2, h1, ?_⟩
    · rw [uIcc_of_ge hab]; exact Icc_subset_Icc ha.1 hb.2
    · rw [uIcc_of_ge hab]; exact h3
  · rw [uIcc_of_ge h] at hg ⊢
    have hc : ContinuousOn (fun r => g (-r)) (Icc (-p) (-q)) := by
      refine hg.comp continuous_neg.continuousOn ?_
      intro r hr
      exact ⟨by linarith [hr.2], by linarith [hr.1]⟩
    obtain ⟨a, b, ha, hb, hab, h1, h2, h3⟩ := sub_icc (neg_le_neg h) hc (by simpa using hp) (by simpa using hq) hlh
    refine ⟨-b, -a, ?_, h2, h1, ?_⟩
    · rw [uIcc_of_le (neg_le_neg hab)]
      exact Icc_subset_Icc (by linarith [hb.2]) (by linarith [ha.1])
    · rw [uIcc_of_le (neg_le_neg hab)]
      intro r hr
      have := h3 (-r) ⟨by linarith [hr.2], by linarith [hr.1]⟩
      simpa using this

/-! ## Windows -/

section Windows

variable {L eps : ℝ} (hL : 1 ≤ L) (he : 0 ≤ eps) (he1 : eps ≤ 1)

/-- The parameters after `k` iterations from `-r`. -/
noncomputable def wx (L eps r : ℝ) (k : ℕ) : ℝ := ((ramp L eps 0 0).iterate (-r) k).1

/-- The extrapolated point after `k` iterations from `-r`. -/
noncomputable def wy (L eps r : ℝ) (k : ℕ) : ℝ := ((ramp L eps 0 0).iterate (-r) k).2.velocity

/-- The starting points between `-p` and `-q` are about to cross the kink at iteration `k` with the step `2^15 κ`, and the points at which they
do so range over `[128κ, 1024κ]`. -/
structure Window (L eps : ℝ) (k : ℕ) (kap p q : ℝ) : Prop where
  large : 4096 ≤ kap
  step : ∀ r ∈ uIcc p q, ((ramp L eps 0 0).iterate (-r) k).2.stepsize = 2 ^ 15 * kap
  contx : ContinuousOn (fun r => wx L eps r k) (uIcc p q)
  conty : ContinuousOn (fun r => wy L eps r k) (uIcc p q)
  x0 : ∀ r ∈ uIcc p q, wx L eps r k ≤ 0
  x1 : ∀ r ∈ uIcc p q, -(2 ^ 15 * kap) ≤ wx L eps r k
  yp : wy L eps p k = 1024 * kap
  yq : wy L eps q k = 128 * kap
  y : ∀ r ∈ uIcc p q, 128 * kap ≤ wy L eps r k ∧ wy L eps r k ≤ 1024 * kap

include hL he

theorem window_init : ∃ k kap p q, Window L eps k kap p q ∧ ∀ r ∈ uIcc p q, ∀ m ≤ k, wx L eps r m ≤ -4096 := by
  set b : ℕ → ℝ := fun i => match i with
    | 0 => 0
    | i + 1 => mom i with hbdef
  have hb0 : ∀ i, 0 ≤ b i := fun i => by cases i with
    | zero => exact le_rfl
    | succ i => exact mom_nonneg i
  have hb1 : ∀ i, b i ≤ 1 := fun i => by cases i with
    | zero => exact zero_le_one
    | succ i => exact mom_le_one i
  set T := pushX b 30 + b 30 * pushV b 30 with hT
  have hTm := pushY_mem hb0 hb1 30
  have hY : ∀ r, posY b (1 / 2) r 0 30 = 1 / 2 * T - r := fun r => by rw [posY_eq]; ring
  have key : ∀ r ∈ uIcc (1 / 2 * T - 2 ^ 25) (1 / 2 * T - 2 ^ 22), 2 ^ 22 ≤ 1 / 2 * T - r ∧ 1 / 2 * T - r ≤ 2 ^ 25 := by
    intro r hr
    rw [uIcc_of_le (by linarith [show (2 : ℝ) ^ 22 ≤ 2 ^ 25 by norm_num])] at hr
    exact ⟨by linarith [hr.2], by linarith [hr.1]⟩
  have hlow : ∀ r ∈ uIcc (1 / 2 * T - 2 ^ 25) (1 / 2 * T - 2 ^ 22), posX b (1 / 2) r 0 30 ≤ -2 ^ 25 ∧ -(2 ^ 30) ≤ posX b (1 / 2) r 0 30 ∧ 2 ^ 25 ≤ r := by
    intro r hr
    have h1 := key r hr
    have h2 := hTm.1
    rw [← hT] at h2
    norm_num at h2
    have hr0 : 2 ^ 25 ≤ r := by norm_num at h1 ⊢; linarith
    have h3 := velV_lower hb0 hb1 (kap := 1 / 2) (X := r) (V := 0) (j := 29) (by norm_num) le_rfl (le_trans (by norm_num) hr0)
      (by rw [hY]; exact le_trans (by norm_num) h1.1)
    have h4 := velV_upper hb0 hb1 (kap := 1 / 2) (V := 0) (by norm_num) le_rfl 30
    have h5 := hY r
    have h6 : 1 / 2 ≤ b 30 := mom_half (k := 29) (by norm_num)
    have h7 := hb1 30
    rw [posY] at h5
    norm_num at h3 h4 h1 h5 ⊢
    refine ⟨by nlinarith, by nlinarith, by norm_num at hr0; linarith⟩
  have hw : -4096 ≤ -1 / L := by rw [le_div_iff₀ (by linarith)]; linarith
  have hall : ∀ r ∈ uIcc (1 / 2 * T - 2 ^ 25) (1 / 2 * T - 2 ^ 22), ∀ i ≤ 30, posX b (1 / 2) r 0 i ≤ -4096 := by
    intro r hr i hi
    have h1 := hlow r hr
    refine (posX_le hb0 hb1 (by norm_num) i hi).trans (max_le ?_ ?_)
    · refine le_trans (neg_le_neg h1.2.2) (by norm_num)
    · exact h1.1.trans (by norm_num)
  have hph : ∀ r ∈ uIcc (1 / 2 * T - 2 ^ 25) (1 / 2 * T - 2 ^ 22), ∀ i ≤ 30, wx L eps r i = posX b (1 / 2) r 0 i ∧
      wy L eps r i = posY b (1 / 2) r 0 i ∧ ((ramp L eps 0 0).iterate (-r) i).2.stepsize = 2 ^ (i + 1) * (1 / 2) := by
    intro r hr i hi
    have := ramp_phase (L := L) (eps := eps) (tol := 0) (maxiter := 0) hL he (x0 := -r) (X := r) (V := 0) (kap := 1 / 2) (n := 0) (b := b)
      (fun i => by rw [Nat.zero_add]) le_rfl rfl (by rw [mul_zero, sub_zero]; rfl) (by change (1 : ℝ) = _; norm_num) i
      (fun i' hi' => (hall r hr i' (hi'.trans hi)).trans hw)
    rw [Nat.zero_add] at this
    exact this
  have hX : ∀ r, posX b (1 / 2) r 0 30 = 1 / 2 * pushX b 30 - r := fun r => by rw [posX]; ring
  refine ⟨30, 2 ^ 15, 1 / 2 * T - 2 ^ 25, 1 / 2 * T - 2 ^ 22, ⟨by norm_num, ?_, ?_, ?_, ?_, ?_, ?_, ?_, ?_⟩, ?_⟩
  · intro r hr; rw [(hph r hr 30 le_rfl).2.2]; norm_num
  · refine ContinuousOn.congr (f := fun r => 1 / 2 * pushX b 30 - r) (by fun_prop) ?_
    intro r hr
    exact ((hph r hr 30 le_rfl).1).trans (hX r)
  · refine ContinuousOn.congr (f := fun r => 1 / 2 * T - r) (by fun_prop) ?_
    intro r hr
    exact ((hph r hr 30 le_rfl).2.1).trans (hY r)
  · intro r hr; rw [(hph r hr 30 le_rfl).1]; exact (hlow r hr).1.trans (by norm_num)
  · intro r hr; rw [(hph r hr 30 le_rfl).1]; exact le_trans (by norm_num) (hlow r hr).2.1
  · rw [(hph _ left_mem_uIcc 30 le_rfl).2.1, hY]; norm_num
  · rw [(hph _ right_mem_uIcc 30 le_rfl).2.1, hY]; norm_num
  · intro r hr; rw [(hph r hr 30 le_rfl).2.1, hY]
    have := key r hr
    norm_num at this ⊢
    exact this
  · intro r hr m hm
    rw [(hph r hr m hm).1]; exact hall r hr m hm

include he1

theorem window_step {k : ℕ} {kap p q : ℝ} (w : Window L eps k kap p q) :
    ∃ k' kap' p' q', Window L eps k' kap' p' q' ∧ k < k' ∧ 2 * kap ≤ kap' ∧ uIcc p' q' ⊆ uIcc p q ∧
      ∀ r ∈ uIcc p' q', ∀ m, k < m → m ≤ k' → wx L eps r m ≤ -kap := by
  have hK := w.large
  have hk0 : 0 < kap := by linarith
  set b : ℕ → ℝ := fun i => mom (k + i) with hbdef
  have hb0 : ∀ i, 0 ≤ b i := fun i => mom_nonneg _
  have hb1 : ∀ i, b i ≤ 1 := fun i => mom_le_one _
  set X : ℝ → ℝ := fun r => (L * kap - 1) * wy L eps r k with hX
  set V : ℝ → ℝ := fun r => X r + wx L eps r k with hV
  have hLk : 4095 ≤ L * kap - 1 := by nlinarith
  have hXlo : ∀ r ∈ uIcc p q, 2 ^ 15 * kap ≤ X r := by
    intro r hr
    have h1 := mul_le_mul hLk (w.y r hr).1 (by linarith) (by linarith)
    simp only [hX]
    norm_num at h1 ⊢
    linarith
  have hV0 : ∀ r ∈ uIcc p q, 0 ≤ V r := fun r hr => by
    have := hXlo r hr
    have := w.x1 r hr
    simp only [hV]; linarith
  have hVX : ∀ r ∈ uIcc p q, V r ≤ X r := fun r hr => by
    have := w.x0 r hr
    simp only [hV]; linarith
  have hXq : X p = 8 * X q := by simp only [hX]; rw [w.yp, w.yq]; ring
  have hXq0 := hXlo q right_mem_uIcc
  have hX7 : 7 * X q ≤ X p := by rw [hXq]; linarith
  have hV7 : 7 * V q ≤ V p := by
    have h1 := w.x1 p left_mem_uIcc
    have h2 := w.x0 q right_mem_uIcc
    simp only [hV]; rw [hXq]; linarith
  obtain ⟨j, hj, hmin⟩ := exists_first hb0 hb1 (kap := kap) (X := X q) (V := V q) hk0 (by linarith) (hV0 q right_mem_uIcc)
  have hj15 : 15 ≤ j := by
    by_contra hc
    have hc : j ≤ 14 := by omega
    have h1 := mul_le_mul_of_nonneg_left (pushY_mem hb0 hb1 j).2 hk0.le
    have h2 := mul_nonneg (drift_mem hb0 hb1 (j + 1)).1 (hV0 q right_mem_uIcc)
    rw [posY_eq] at hj
    have h3 : (2 : ℝ) ^ (j + 3) ≤ 2 ^ 17 := pow_le_pow_right₀ (by norm_num) (by omega)
    have h4 := mul_le_mul_of_nonneg_left h3 hk0.le
    have h5 : X q = (L * kap - 1) * (128 * kap) := by simp only [hX]; rw [w.yq]
    have h6 := mul_le_mul_of_nonneg_right hLk (by linarith : 0 ≤ 128 * kap)
    have h7 : 0 < 2 ^ j * kap := by positivity
    norm_num at h4
    linarith
  obtain ⟨j', rfl⟩ : ∃ j', j = j' + 1 := ⟨j - 1, by omega⟩
  have hneg := far_neg hb0 hb1 hk0 (by linarith) (hV0 q right_mem_uIcc) hX7 hV7 (by omega : 2 ≤ j') (hmin j' (by omega))
  set j := j' + 1 with hjdef
  set M := (2 : ℝ) ^ j * kap with hM
  have hM0 : 0 < M := by positivity
  have hMk : 32 * kap ≤ M := by
    have : (2 : ℝ) ^ 5 ≤ 2 ^ j := pow_le_pow_right₀ (by norm_num) (by omega)
    have := mul_le_mul_of_nonneg_right this hk0.le
    norm_num at this
    exact this
  have hcX : ContinuousOn X (uIcc p q) := continuousOn_const.mul w.conty
  have hcV : ContinuousOn V (uIcc p q) := hcX.add w.contx
  have hcx : ContinuousOn (fun r => posX b kap (X r) (V r) j) (uIcc p q) := by
    unfold posX
    exact (continuousOn_const.sub hcX).sub (continuousOn_const.mul hcV)
  have hcy : ContinuousOn (fun r => posY b kap (X r) (V r) j) (uIcc p q) := by
    simp only [posY_eq]
    exact (continuousOn_const.sub hcX).sub (continuousOn_const.mul hcV)
  obtain ⟨p', q', hsub, hp', hq', hmem⟩ := sub_uIcc (lo := M / 128) (hi := M / 16) hcy (by linarith) (by linarith) (by linarith)
  have hlow : ∀ r ∈ uIcc p' q', posX b kap (X r) (V r) j ≤ -(M / 16) ∧ -(2 * M) ≤ posX b kap (X r) (V r) j := by
    intro r hr
    have h1 := hmem r hr
    have h3 := velV_lower hb0 hb1 hk0 (hV0 r (hsub hr)) (hVX r (hsub hr)) (j := j') (le_trans (by positivity) h1.1)
    have h4 := velV_upper hb0 hb1 hk0.le (hV0 r (hsub hr)) j
    have h5 : posY b kap (X r) (V r) j = posX b kap (X r) (V r) j + b j * velV b kap (V r) j := rfl
    have h6 : 1 / 2 ≤ b j := mom_half (k := k + j) (by omega)
    have h7 := hb1 j
    have e : (2 : ℝ) ^ (j + 1) * kap = 2 * M := by rw [hM]; ring
    rw [e] at h4
    have h3 : M ≤ 4 * velV b kap (V r) j := h3
    have h8 := mul_le_mul_of_nonneg_right h6 (by linarith : 0 ≤ velV b kap (V r) j)
    have h9 := mul_le_mul_of_nonneg_right h7 (by linarith : 0 ≤ velV b kap (V r) j)
    constructor <;> linarith
  have hall : ∀ r ∈ uIcc p' q', ∀ i ≤ j, posX b kap (X r) (V r) i ≤ -kap := by
    intro r hr i hi
    have h1 := hlow r hr
    refine (posX_le hb0 hb1 hk0 i hi).trans (max_le ?_ ?_)
    · have := hXlo r (hsub hr)
      norm_num at this
      linarith
    · linarith [h1.1]
  have hw : -kap ≤ -1 / L := by rw [le_div_iff₀ (by linarith)]; nlinarith
  have hph : ∀ r ∈ uIcc p' q', ∀ i ≤ j, wx L eps r (k + 1 + i) = posX b kap (X r) (V r) i ∧
      wy L eps r (k + 1 + i) = posY b kap (X r) (V r) i ∧ ((ramp L eps 0 0).iterate (-r) (k + 1 + i)).2.stepsize = 2 ^ (i + 1) * kap := by
    intro r hr i hi
    obtain ⟨c1, c2, c3⟩ := ramp_cross hL he he1 (k := k) (x0 := -r) (kap := kap) rfl rfl (w.step r (hsub hr)) (by linarith)
      (le_trans (by linarith) (w.y r (hsub hr)).1)
    refine ramp_phase (L := L) (eps := eps) (tol := 0) (maxiter := 0) hL he (x0 := -r) (X := X r) (V := V r) (kap := kap) (n := k + 1) (b := b)
      (fun i => by simp only [hbdef]; congr 1; omega) (by linarith) c1 ?_ c3 i (fun i' hi' => (hall r hr i' (hi'.trans hi)).trans hw)
    rw [c2]
    simp only [hbdef, hV, hX, Nat.add_zero, wx, wy]
    ring
  have e1 : (2 : ℝ) ^ (j + 1) * kap = 2 ^ 15 * (M / 16384) := by rw [hM]; ring
  refine ⟨k + 1 + j, M / 16384, p', q', ⟨?_, ?_, ?_, ?_, ?_, ?_, ?_, ?_, ?_⟩, by omega, ?_, hsub, ?_⟩
  · have : (2 : ℝ) ^ 14 ≤ 2 ^ j := pow_le_pow_right₀ (by norm_num) (by omega)
    have := mul_le_mul_of_nonneg_right this hk0.le
    norm_num at this
    change 4096 ≤ M / 16384
    linarith
  · intro r hr; rw [(hph r hr j le_rfl).2.2, e1]
  · exact (hcx.mono hsub).congr fun r hr => (hph r hr j le_rfl).1
  · exact (hcy.mono hsub).congr fun r hr => (hph r hr j le_rfl).2.1
  · intro r hr; rw [(hph r hr j le_rfl).1]; linarith [(hlow r hr).1]
  · intro r hr; rw [(hph r hr j le_rfl).1]; linarith [(hlow r hr).2]
  · rw [(hph _ left_mem_uIcc j le_rfl).2.1]; linarith
  · rw [(hph _ right_mem_uIcc j le_rfl).2.1]; linarith
  · intro r hr; rw [(hph r hr j le_rfl).2.1]
    have := hmem r hr
    constructor <;> linarith [this.1, this.2]
  · have : (2 : ℝ) ^ 15 ≤ 2 ^ j := pow_le_pow_right₀ (by norm_num) hj15
    have := mul_le_mul_of_nonneg_right this hk0.le
    norm_num at this
    change 2 * kap ≤ M / 16384
    linarith
  · intro r hr m hm hm'
    obtain ⟨i, rfl⟩ : ∃ i, m = k + 1 + i := ⟨m - (k + 1), by omega⟩
    rw [(hph r hr i (by omega)).1]
    exact hall r hr i (by omega)

/-- A starting point from which all iterates lie far to the left and diverge. -/
theorem exists_start : ∃ r : ℝ, (∀ k, wx L eps r k ≤ -4096) ∧ ∀ B : ℝ, ∃ N, ∀ k, N ≤ k → wx L eps r k ≤ B := by
  obtain ⟨k0, kap0, p0, q0, w0, h0⟩ := window_init (eps := eps) hL he
  let W := {z : ℕ × ℝ × ℝ × ℝ // Window L eps z.1 z.2.1 z.2.2.1 z.2.2.2}
  have hstep : ∀ z : W, ∃ z' : W, z.1.1 < z'.1.1 ∧ 2 * z.1.2.1 ≤ z'.1.2.1 ∧ uIcc z'.1.2.2.1 z'.1.2.2.2 ⊆ uIcc z.1.2.2.1 z.1.2.2.2 ∧
      ∀ r ∈ uIcc z'.1.2.2.1 z'.1.2.2.2, ∀ m, z.1.1 < m → m ≤ z'.1.1 → wx L eps r m ≤ -z.1.2.1 := by
    rintro ⟨⟨k, kap, p, q⟩, w⟩
    obtain ⟨k', kap', p', q', w', h⟩ := window_step hL he he1 w
    exact ⟨⟨⟨k', kap', p', q'⟩, w'⟩, h⟩
  choose F hF using hstep
  let z : ℕ → W := fun n => Nat.rec ⟨⟨k0, kap0, p0, q0⟩, w0⟩ (fun _ z => F z) n
  have hz : ∀ n, z (n + 1) = F (z n) := fun n => rfl
  obtain ⟨r, hr⟩ := IsCompact.nonempty_iInter_of_sequence_nonempty_isCompact_isClosed
    (fun n => uIcc (z n).1.2.2.1 (z n).1.2.2.2) (fun n => by rw [hz]; exact (hF (z n)).2.2.1) (fun n => nonempty_uIcc) isCompact_uIcc
    (fun n => isClosed_Icc)
  rw [mem_iInter] at hr
  have hkap : ∀ n, 4096 * 2 ^ n ≤ (z n).1.2.1 := by
    intro n
    induction n with
    | zero => rw [pow_zero, mul_one]; exact w0.large
    | succ n ih =>
      have := (hF (z n)).2.1
      rw [hz, pow_succ]; linarith
  have hkap_mono : ∀ n, ∀ d, (z n).1.2.1 ≤ (z (n + d)).1.2.1 := by
    intro n d
    induction d with
    | zero => exact le_rfl
    | succ d ih =>
      have := (hF (z (n + d))).2.1
      have h2 := (z (n + d)).2.large
      change _ ≤ (z (n + d + 1)).1.2.1
      rw [hz]; linarith
  have hk : ∀ n, n ≤ (z n).1.1 := by
    intro n
    induction n with
    | zero => exact Nat.zero_le _
    | succ n ih => have := (hF (z n)).1; rw [hz]; omega
  have hfar : ∀ n d, ∀ m, (z n).1.1 < m → m ≤ (z (n + d)).1.1 → wx L eps r m ≤ -(z n).1.2.1 := by
    intro n d
    induction d with
    | zero => intro m h1 h2; exact absurd h2 (not_le.mpr h1)
    | succ d ih =>
      intro m h1 h2
      by_cases hc : m ≤ (z (n + d)).1.1
      · exact ih m h1 hc
      · have h3 := (hF (z (n + d))).2.2.2 r (hr (n + d + 1)) m (not_le.mp hc) h2
        exact h3.trans (neg_le_neg (hkap_mono n d))
  have hfar' : ∀ n m, (z n).1.1 < m → wx L eps r m ≤ -(z n).1.2.1 := fun n m h =>
    hfar n m m h (le_trans (by omega) (hk (n + m)))
  refine ⟨r, fun m => ?_, fun B => ?_⟩
  · by_cases hm : m ≤ k0
    · exact h0 r (hr 0) m hm
    · exact (hfar' 0 m (not_le.mp hm)).trans (neg_le_neg w0.large)
  · obtain ⟨n, hn⟩ := pow_unbounded_of_one_lt (-B) (by norm_num : (1 : ℝ) < 2)
    refine ⟨(z n).1.1 + 1, fun m hm => (hfar' n m (by omega)).trans ?_⟩
    have := hkap n
    have h2 : (0 : ℝ) < 2 ^ n := by positivity
    linarith

/-- **C100, the iterates**: gradient descent with the default attributes (acceleration, line search with at most 15 halvings) diverges on the
convex function `ramp`, whose gradient is `L`-Lipschitz, from some starting point: the objective, whose minimum is 0, is at least 4095 at all
iterates and tends to infinity. -/
theorem C100_diverges : ∃ x0 : ℝ, ∀ (tol : ℝ) (maxiter : ℕ),
    (∀ k, 4095 ≤ (ramp L eps tol maxiter).f ((ramp L eps tol maxiter).iterate x0 k).1) ∧
      Tendsto (fun k => (ramp L eps tol maxiter).f ((ramp L eps tol maxiter).iterate x0 k).1) atTop atTop := by
  obtain ⟨r, h1, h2⟩ := exists_start hL he he1
  have hw : -4096 ≤ -1 / L := by rw [le_div_iff₀ (by linarith)]; linarith
  have hc : 1 / (2 * L) ≤ 1 / 2 := by
    rw [div_le_div_iff₀ (by linarith) (by norm_num)]; linarith
  have hf : ∀ x, x ≤ -4096 → -x - 1 / 2 ≤ rampFun L x := fun x hx => by
    unfold rampFun; rw [if_pos (by linarith)]; linarith
  refine ⟨-r, fun tol maxiter => ⟨fun k => ?_, ?_⟩⟩
  · have := h1 k
    have h3 := hf _ this
    change 4095 ≤ rampFun L (wx L eps r k)
    linarith
  · rw [tendsto_atTop_atTop]
    intro B
    obtain ⟨N, hN⟩ := h2 (-B - 1)
    refine ⟨N, fun k hk => ?_⟩
    have h3 := hf _ (h1 k)
    have h4 := hN k hk
    change B ≤ rampFun L (wx L eps r k)
    linarith

/-- **C100, the runs**: from this starting point the run with the default attributes and any `maxiter` and `tol` returns a point whose objective
exceeds the minimum by at least 4095. -/
theorem C100_run : ∃ x0 : ℝ, ∀ (tol : ℝ) (maxiter : ℕ), 1 ≤ maxiter →
    ∃ r, (ramp L eps tol maxiter).run x0 = .ok r ∧ (ramp L eps tol maxiter).f 0 + 4095 ≤ (ramp L eps tol maxiter).f r.1 := by
  obtain ⟨x0, h⟩ := C100_diverges hL he he1
  refine ⟨x0, fun tol maxiter hm => ?_⟩
  obtain ⟨r, hr⟩ := runS_ok (ramp L eps tol maxiter).initState (ramp L eps tol maxiter).update (ramp L eps tol maxiter).cont
    (maxiter := maxiter) (unroll := true) (jit := true) x0 hm (by simp)
  refine ⟨r, hr, ?_⟩
  obtain ⟨k, _, _, h3, _, _⟩ := runS_spec hm hr
  have h3 : r = (ramp L eps tol maxiter).iterate x0 k := h3
  have h0 : (ramp L eps tol maxiter).f 0 = 0 := by
    change rampFun L 0 = 0
    unfold rampFun
    rw [if_neg (by rw [not_le]; exact div_neg_of_neg_of_pos (by norm_num) (by linarith))]; ring
  rw [h0, zero_add, h3]
  exact (h tol maxiter).1 k

end Windows

end PG

end Jaxopt.ProxGrad
