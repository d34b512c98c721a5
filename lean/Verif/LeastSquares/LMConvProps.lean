import Verif.LeastSquares.LMProps
import Verif.ProxGrad.RealProps
import Mathlib.Algebra.Order.Archimedean.Basic
import Mathlib.Tactic.Linarith
import Mathlib.Tactic.FieldSimp

/-!
# Property C91: Levenberg-Marquardt converges globally

The gradients of the iterates come arbitrarily close to zero, from every start and every damping parameter, whenever the cost is smooth
enough along the steps with a constant of at most `damping_factor_max = 2^32`; above that constant the claim is false of the code.
-/

set_option autoImplicit false
set_option linter.unusedSectionVars false
set_option linter.unusedVariables false

namespace Jaxopt.LeastSquares

open Jaxopt.Base

section
variable {K : Type*} [Field K] [LinearOrder K] [IsStrictOrderedRing K] [Archimedean K]

/-- A non-increasing non-negative sequence has eventually small decreases. -/
theorem decrease_small {F : ℕ → K} (hanti : ∀ k, F (k + 1) ≤ F k) (hnn : ∀ k, 0 ≤ F k) {d : K} (hd : 0 < d) :
    ∃ N, ∀ k, N ≤ k → F k - F (k + 1) < d := by
  by_contra hc
  push Not at hc
  have hmono : ∀ i j, i ≤ j → F j ≤ F i := by
    intro i j hij
    induction j, hij using Nat.le_induction with
    | base => exact le_refl _
    | succ j _ ih => exact le_trans (hanti j) ih
  have key : ∀ n : ℕ, ∃ k, F k ≤ F 0 - n * d := by
    intro n
    induction n with
    | zero => exact ⟨0, by simp⟩
    | succ n ih =>
      obtain ⟨k, hk⟩ := ih
      obtain ⟨j, hj, hdj⟩ := hc k
      refine ⟨j + 1, ?_⟩
      have := hmono k j hj
      push_cast
      linarith
  obtain ⟨n, hn⟩ := exists_nat_gt (F 0 / d)
  obtain ⟨k, hk⟩ := key n
  rw [div_lt_iff₀ hd] at hn
  have := hnn k
  linarith

/-- The damping rule cannot keep the predicted decrease away from zero for ever (`mu`: damping, `nu`: increase factor, `rho`: gain ratio,
`F`: cost, `c`: lower bound of the squared gradients, `cap`: `damping_factor_max`). -/
theorem damping_rule {mu nu rho F : ℕ → K} {B L c cap : K} (hB : 0 ≤ B) (hL : 0 < L) (hc : 0 < c) (hcap : L ≤ cap)
    (hmu : ∀ k, 0 < mu k) (hnu : ∀ k, 2 ≤ nu k) (hF : ∀ k, 0 ≤ F k) (hanti : ∀ k, F (k + 1) ≤ F k)
    (hlarge : ∀ k, L ≤ mu k → 1 / 2 ≤ rho k)
    (hstep : ∀ k, (0 < rho k ∧ mu (k + 1) = mu k * max (1 / 3) (1 - (2 * rho k - 1) ^ 3) ∧ nu (k + 1) = 2 ∧
        rho k * c ≤ (F k - F (k + 1)) * (B + mu k)) ∨
      (rho k ≤ 0 ∧ mu (k + 1) = min (mu k * nu k) cap ∧ mu k ≤ L / 2)) : False := by
  -- above `L` every step is accepted and does not raise the damping
  have hacc : ∀ k, L ≤ mu k → (0 < rho k ∧ mu (k + 1) = mu k * max (1 / 3) (1 - (2 * rho k - 1) ^ 3) ∧ nu (k + 1) = 2 ∧
      rho k * c ≤ (F k - F (k + 1)) * (B + mu k)) ∧ mu (k + 1) ≤ mu k ∧ mu k / 3 ≤ mu (k + 1) := by
    intro k hk
    have hr := hlarge k hk
    rcases hstep k with h | ⟨h, -, -⟩
    · refine ⟨h, ?_, ?_⟩
      · rw [h.2.1]
        have : max (1 / 3) (1 - (2 * rho k - 1) ^ 3) ≤ 1 := by
          refine max_le (by norm_num) ?_
          have : 0 ≤ (2 * rho k - 1) ^ 3 := pow_nonneg (by linarith) 3
          linarith
        nlinarith [hmu k]
      · rw [h.2.1]
        have := le_max_left (1 / 3) (1 - (2 * rho k - 1) ^ 3)
        nlinarith [hmu k]
    · exfalso; linarith
  -- the damping is at most `L` again and again
  have hlow : ∀ N, ∃ k, N ≤ k ∧ mu k ≤ L := by
    intro N
    by_contra hn
    push Not at hn
    have hle : ∀ k, N ≤ k → mu k ≤ mu N := by
      intro k hk
      induction k, hk using Nat.le_induction with
      | base => exact le_refl _
      | succ k hk ih => exact le_trans (hacc k (hn k hk).le).2.1 ih
    have hpos : 0 < B + mu N := by have := hmu N; linarith
    obtain ⟨M, hM⟩ := decrease_small hanti hF (d := c / 2 / (B + mu N)) (by positivity)
    have h1 := hM (max N M) (le_max_right _ _)
    obtain ⟨⟨-, -, -, h2⟩, -, -⟩ := hacc (max N M) (hn _ (le_max_left _ _)).le
    have h3 := hlarge (max N M) (hn _ (le_max_left _ _)).le
    have h4 := hle (max N M) (le_max_left _ _)
    have h5 := hanti (max N M)
    rw [lt_div_iff₀ hpos] at h1
    have h6 : (F (max N M) - F (max N M + 1)) * (B + mu (max N M)) ≤ (F (max N M) - F (max N M + 1)) * (B + mu N) :=
      mul_le_mul_of_nonneg_left (by linarith) (by linarith)
    nlinarith
  -- eventually no step with a damping of at most `2 L` has a gain ratio of at least `1/4`
  have hpos : 0 < B + 2 * L := by linarith
  obtain ⟨N, hN⟩ := decrease_small hanti hF (d := c / 4 / (B + 2 * L)) (by positivity)
  have hbad : ∀ k, N ≤ k → mu k ≤ 2 * L → rho k < 1 / 4 := by
    intro k hk hmk
    rcases hstep k with ⟨-, -, -, h⟩ | ⟨h, -, -⟩
    · by_contra hr
      push Not at hr
      have h1 := hN k hk
      rw [lt_div_iff₀ hpos] at h1
      have h6 : (F k - F (k + 1)) * (B + mu k) ≤ (F k - F (k + 1)) * (B + 2 * L) :=
        mul_le_mul_of_nonneg_left (by linarith) (by linarith [hanti k])
      nlinarith
    · linarith
  -- hence below `L` the damping grows
  have hgrow : ∀ k, N ≤ k → mu k ≤ L → 9 / 8 * mu k ≤ mu (k + 1) ∧ mu k * 9 / 8 ≤ mu (k + 1) := by
    intro k hk hmk
    have hr := hbad k hk (by linarith)
    have hm := hmu k
    have : 9 / 8 * mu k ≤ mu (k + 1) := by
      rcases hstep k with ⟨h0, h, -, -⟩ | ⟨-, h, h2⟩
      · rw [h]
        have h3 : 9 / 8 ≤ 1 - (2 * rho k - 1) ^ 3 := by
          have : (1 / 2) ^ 3 ≤ (1 - 2 * rho k) ^ 3 := pow_le_pow_left₀ (by norm_num) (by linarith) 3
          have e : (2 * rho k - 1) ^ 3 = -(1 - 2 * rho k) ^ 3 := by ring
          rw [e]
          norm_num at this ⊢
          linarith
        have h4 := le_trans h3 (le_max_right (1 / 3) (1 - (2 * rho k - 1) ^ 3))
        nlinarith
      · rw [h]
        have h5 := hnu k
        exact le_min (by nlinarith) (by linarith)
    exact ⟨this, by linarith⟩
  have hhigh : ∀ M, N ≤ M → ∃ k, M ≤ k ∧ L < mu k := by
    intro M hM
    by_contra hn
    push Not at hn
    have hpow : ∀ j : ℕ, (9 / 8) ^ j * mu M ≤ mu (M + j) := by
      intro j
      induction j with
      | zero => simp
      | succ j ih =>
        have := (hgrow (M + j) (by omega) (hn _ (by omega))).1
        rw [pow_succ]
        have e : M + (j + 1) = M + j + 1 := by omega
        rw [e]
        nlinarith
    obtain ⟨j, hj⟩ := pow_unbounded_of_one_lt (L / mu M) (by norm_num : (1 : K) < 9 / 8)
    rw [div_lt_iff₀ (hmu M)] at hj
    have := hn (M + j) (by omega)
    linarith [hpow j]
  -- a step from above `L` to below
  obtain ⟨k1, hk1, hk1L⟩ := hhigh N (le_refl _)
  obtain ⟨k2, hk2, hk2L⟩ := hlow k1
  have hcross : ∃ k, k1 ≤ k ∧ L < mu k ∧ mu (k + 1) ≤ L := by
    by_contra hn
    push Not at hn
    have : ∀ k, k1 ≤ k → L < mu k := by
      intro k hk
      induction k, hk using Nat.le_induction with
      | base => exact hk1L
      | succ k hk ih => exact hn k hk ih
    linarith [this k2 hk2]
  obtain ⟨k, hkk, hk, hk'⟩ := hcross
  have hinv : ∀ m, k + 1 ≤ m → L / 3 ≤ mu m ∧ mu m ≤ L ∧ (nu m = 2 ∨ L / 2 < mu m) := by
    intro m hm
    induction m, hm using Nat.le_induction with
    | base =>
      obtain ⟨⟨-, -, h1, -⟩, -, h2⟩ := hacc k hk.le
      exact ⟨by linarith, hk', Or.inl h1⟩
    | succ m hm ih =>
      obtain ⟨i1, i2, i3⟩ := ih
      have hg := (hgrow m (by omega) i2).1
      have hm0 := hmu m
      rcases hstep m with ⟨h0, h, hn2, -⟩ | ⟨-, h, h2⟩
      · refine ⟨by linarith, ?_, Or.inl hn2⟩
        by_contra hgt
        push Not at hgt
        have h2 : mu (m + 1) ≤ 2 * L := by
          rw [h]
          have := (multiplier_bounds h0).2
          nlinarith
        have := hbad (m + 1) (by omega) h2
        have := hlarge (m + 1) hgt.le
        linarith
      · have hn2 : nu m = 2 := by
          rcases i3 with i3 | i3
          · exact i3
          · exact absurd h2 (not_le.mpr i3)
        have e : mu (m + 1) = mu m * 2 := by
          rw [h, hn2]; exact min_eq_left (by linarith)
        exact ⟨by linarith, by linarith, Or.inr (by linarith)⟩
  obtain ⟨m, hm, hmL⟩ := hhigh (k + 1) (by omega)
  linarith [(hinv m hm).2.1]

end

section
variable {K E F M A : Type*} [Field K] [LinearOrder K] [IsStrictOrderedRing K] [AddCommGroup E] [Module K E] [AddCommGroup F] [Module K F]
  [AddCommGroup M] [Module K M] [AddCommGroup A] [Module K A]

/-! ## Specification -/

/-- The gradient of the cost: the adjoint of the Jacobian applied to the residual (`C43_gradient`). -/
def lmGrad (S : LM K E F M A) (x : E) : E := S.vjp x (S.residualFun x).1

/-- The smoothness that is used, on the points whose cost is at most `T`: the cost has a quadratic upper bound with constant `L` around the
point, within the radius `2 ‖gradient‖ / L`, and the Jacobian is bounded (`‖J v‖² ≤ B ‖v‖²`).  For twice continuously differentiable
residuals and bounded level sets both hold with some `L` and `B`. -/
structure LMSmooth (S : LM K E F M A) (vdotE : E → E → K) (vdotF : F → F → K) (T L B : K) : Prop where
  upper : ∀ x y, lmCost S vdotF x ≤ T → L * L * vdotE (y - x) (y - x) ≤ 4 * vdotE (lmGrad S x) (lmGrad S x) →
    lmCost S vdotF y ≤ lmCost S vdotF x + vdotE (y - x) (lmGrad S x) + L / 2 * vdotE (y - x) (y - x)
  nonneg : 0 ≤ B
  pos : 0 < L
  jac : ∀ x v, lmCost S vdotF x ≤ T → vdotF (S.jvp x v) (S.jvp x v) ≤ B * vdotE v v

variable {S : LM K E F M A} {vdotE : E → E → K} {vdotF : F → F → K} {T L B : K}

/-- The adjoint has the same bound as the Jacobian. -/
theorem vjp_bound (h : LMSpec S vdotE vdotF) (hs : LMSmooth S vdotE vdotF T L B) {x : E} (hx : lmCost S vdotF x ≤ T) (w : F) :
    vdotE (S.vjp x w) (S.vjp x w) ≤ B * vdotF w w := by
  set z := S.vjp x w
  have h1 : vdotE z z = vdotF (S.jvp x z) w := (h.ad.adjoint x z w).symm
  have h2 := h.hF.cauchy (S.jvp x z) w
  have h3 := hs.jac x z hx
  have h4 := h.hF.nonneg w
  have h5 := h.hE.nonneg z
  rw [← h1] at h2
  rcases h5.eq_or_lt with h5 | h5
  · rw [← h5]
    exact mul_nonneg hs.nonneg h4
  · have : vdotE z z * vdotE z z ≤ (B * vdotF w w) * vdotE z z := by nlinarith
    exact le_of_mul_le_mul_right this h5

/-- What a step achieves: the facts that `damping_rule` uses. -/
theorem step_facts (h : LMSpec S vdotE vdotF) (hs : LMSmooth S vdotE vdotF T L B) {p : E × LMState K E F M A} (hi : LMInv S vdotF p)
    (hx : lmCost S vdotF p.1 ≤ T) (hg : 0 < vdotE (lmGrad S p.1) (lmGrad S p.1)) :
    let v := S.velocity p.1 p.2
    let rho := gainRatio S vdotE vdotF p
    (0 ≤ rho → rho * (vdotE (lmGrad S p.1) (lmGrad S p.1) / 2) ≤
      (lmCost S vdotF p.1 - lmCost S vdotF (p.1 - v)) * (B + p.2.dampingFactor)) ∧
    (rho ≤ 0 → p.2.dampingFactor ≤ L / 2) ∧ (L ≤ p.2.dampingFactor → 1 / 2 ≤ rho) := by
  intro v rho
  have e : S.jtjOp p.1 v + p.2.dampingFactor • v = lmGrad S p.1 := by
    have := velocity_exact h hi
    rw [hi.gradient] at this
    exact this
  set mu := p.2.dampingFactor with hmu
  set g := lmGrad S p.1 with hgdef
  set a := vdotE v v with ha
  set b := vdotF (S.jvp p.1 v) (S.jvp p.1 v) with hb
  have hmu0 : 0 < mu := hi.damping
  have hb0 : 0 ≤ b := h.hF.nonneg _
  have hvg : vdotE v g = b + mu * a := by
    rw [← e, h.hE.add_right, h.hE.smul_right]
    unfold LM.jtjOp
    rw [← h.ad.adjoint]
  have hv : v ≠ 0 := by
    intro hv
    have hz : S.jtjOp p.1 v = 0 := by
      have h1 := vjp_bound h hs hx (S.jvp p.1 v)
      rw [hv, h.ad.zero, h.hF.zero_left, mul_zero] at h1
      rw [hv]
      unfold LM.jtjOp
      rw [h.ad.zero]
      exact h.hE.eq_zero (le_antisymm h1 (h.hE.nonneg _))
    rw [hz, hv, smul_zero, add_zero] at e
    rw [← e, h.hE.zero_left] at hg
    exact lt_irrefl _ hg
  have ha0 : 0 < a := h.hE.pos v hv
  have hjb := hs.jac p.1 v hx
  -- upper bound for the gradient
  have hgg : vdotE g g ≤ (B + mu) * (b + mu * a) := by
    have h1 := vjp_bound h hs hx (S.jvp p.1 v)
    have h2 : vdotE (S.jtjOp p.1 v) v = b := by
      rw [h.hE.symm]
      unfold LM.jtjOp
      rw [← h.ad.adjoint]
    have h3 : vdotE g g = vdotE (S.jtjOp p.1 v) (S.jtjOp p.1 v) + 2 * mu * b + mu * mu * a := by
      rw [← e]
      simp only [h.hE.add_left, h.hE.add_right, h.hE.smul_left, h.hE.smul_right, h.hE.symm v (S.jtjOp p.1 v), h2]
      ring
    have h4 : vdotE (S.jtjOp p.1 v) (S.jtjOp p.1 v) ≤ B * b := h1
    nlinarith [mul_le_mul_of_nonneg_left hjb hmu0.le]
  -- lower bound for the gradient
  have hlow : mu * mu * a ≤ vdotE g g := by
    have h1 := h.hE.cauchy v g
    rw [hvg] at h1
    have h2 : (mu * a) * (mu * a) ≤ (b + mu * a) * (b + mu * a) :=
      mul_self_le_mul_self (by positivity) (by linarith)
    have h3 : (mu * mu * a) * a ≤ vdotE g g * a := by nlinarith
    exact le_of_mul_le_mul_right h3 ha0
  have hden : vdotE (-v) (mu • -v - p.2.gradient) = 2 * mu * a + b := denom_eq h hi
  have hrho : rho = (lmCost S vdotF p.1 - lmCost S vdotF (p.1 - v)) / ((2 * mu * a + b) / 2) := by
    have : rho = (lmCost S vdotF p.1 - lmCost S vdotF (p.1 - v)) / (vdotE (-v) (mu • -v - p.2.gradient) / 2) := rfl
    rw [this, hden]
  have hdpos : 0 < (2 * mu * a + b) / 2 := by positivity
  have hmul : rho * ((2 * mu * a + b) / 2) = lmCost S vdotF p.1 - lmCost S vdotF (p.1 - v) := by
    rw [hrho, div_mul_cancel₀ _ hdpos.ne']
  -- the decrease for large damping
  have hdec : L / 2 ≤ mu → b + (mu - L / 2) * a ≤ lmCost S vdotF p.1 - lmCost S vdotF (p.1 - v) := by
    intro hL
    have hL0 := hs.pos
    have hd : p.1 - v - p.1 = -v := by abel
    have h1 := hs.upper p.1 (p.1 - v) hx (by
      rw [hd, h.hE.neg_left, h.hE.neg_right, neg_neg]
      have : L * L * a ≤ 4 * (mu * mu * a) := by
        have : L * L ≤ 4 * (mu * mu) := by nlinarith
        nlinarith
      change L * L * a ≤ 4 * vdotE g g
      linarith)
    rw [hd, h.hE.neg_left, h.hE.neg_left, h.hE.neg_right, neg_neg] at h1
    have h2 : vdotE v (lmGrad S p.1) = b + mu * a := hvg
    rw [h2] at h1
    change lmCost S vdotF (p.1 - v) ≤ lmCost S vdotF p.1 + -(b + mu * a) + L / 2 * a at h1
    linarith
  refine ⟨fun hr => ?_, fun hr => ?_, fun hL => ?_⟩
  · rw [← hmul]
    have hB := hs.nonneg
    have h1 : vdotE g g / 2 ≤ (2 * mu * a + b) / 2 * (B + mu) := by
      have : 0 ≤ (B + mu) * (mu * a) := by positivity
      nlinarith
    have := mul_le_mul_of_nonneg_left h1 hr
    linarith
  · by_contra hc
    push Not at hc
    have h1 := hdec hc.le
    have h2 : 0 < (mu - L / 2) * a := mul_pos (by linarith) ha0
    have h3 : rho * ((2 * mu * a + b) / 2) ≤ 0 := mul_nonpos_of_nonpos_of_nonneg hr hdpos.le
    rw [hmul] at h3
    linarith
  · have hL0 := hs.pos
    have h1 := hdec (by linarith)
    rw [← hmul] at h1
    have h2 : 1 / 2 * ((2 * mu * a + b) / 2) ≤ rho * ((2 * mu * a + b) / 2) := by nlinarith
    exact le_of_mul_le_mul_right h2 hdpos

/-- **C91**, global convergence.  From every consistent state, whatever its damping, the gradients of the iterates come arbitrarily close to
zero, arbitrarily late, if the cost is smooth with a constant of at most `damping_factor_max = 2^32` on the level set of the start.
Partial: above this constant the damping cannot become large enough (`C91_cap_false`). -/
theorem C91_liminf_partial [Archimedean K] (h : LMSpec S vdotE vdotF) {p : E × LMState K E F M A} (hi : LMInv S vdotF p)
    (hs : LMSmooth S vdotE vdotF (lmCost S vdotF p.1) L B) (hcap : L ≤ 2 ^ 32) {e : K} (he : 0 < e) (N : ℕ) :
    ∃ k, N ≤ k ∧ vdotE (lmGrad S (S.update^[k] p).1) (lmGrad S (S.update^[k] p).1) < e := by
  by_contra hc
  push Not at hc
  set P : ℕ → E × LMState K E F M A := fun k => S.update^[N + k] p with hP
  have hinv : ∀ k, LMInv S vdotF (P k) := fun k => (C44_history h hi (N + k)).1
  have hlev : ∀ k, lmCost S vdotF (P k).1 ≤ lmCost S vdotF p.1 := fun k => (C44_history h hi (N + k)).2 0 (Nat.zero_le _)
  have hPs : ∀ k, P (k + 1) = S.update (P k) := by
    intro k
    have : N + (k + 1) = (N + k) + 1 := by omega
    simp only [hP]
    rw [this, Function.iterate_succ_apply']
  have hg : ∀ k, e ≤ vdotE (lmGrad S (P k).1) (lmGrad S (P k).1) := fun k => hc (N + k) (by omega)
  have hfacts := fun k => step_facts h hs (hinv k) (hlev k) (lt_of_lt_of_le he (hg k))
  refine damping_rule (mu := fun k => (P k).2.dampingFactor) (nu := fun k => (P k).2.increaseFactor)
    (rho := fun k => gainRatio S vdotE vdotF (P k)) (F := fun k => lmCost S vdotF (P k).1) (c := e / 2) (cap := 2 ^ 32)
    hs.nonneg hs.pos (by linarith) hcap (fun k => (hinv k).damping) (fun k => (hinv k).incLow) (fun k => ?_) (fun k => ?_) (fun k => ?_)
    (fun k => ?_)
  · unfold lmCost
    have := h.hF.nonneg (S.residualFun (P k).1).1
    linarith
  · have := (C44_history h hi (N + (k + 1))).2 (N + k) (by omega)
    exact this
  · exact (hfacts k).2.2
  · simp only [hPs]
    rcases update_closed h (hinv k) with ⟨c0, c1, -, -, -, -, c6, c7, -⟩ | ⟨c0, -, -, -, -, -, c6, c7, -⟩
    · refine Or.inl ⟨c0, c6, c7, ?_⟩
      rw [c1]
      refine le_trans (mul_le_mul_of_nonneg_left ?_ c0.le) ((hfacts k).1 c0.le)
      have := hg k
      linarith
    · exact Or.inr ⟨c0, c6, (hfacts k).2.1 c0⟩

/-- **C91**: with a positive tolerance on the gradient norm, every run with a large enough budget stops by the tolerance, at a point whose
gradient norm is at most `tol`. -/
theorem C91_run_partial [Archimedean K] (h : LMSpec S vdotE vdotF) (hn : ∀ v, 0 ≤ S.norm v ∧ S.norm v * S.norm v = vdotE v v)
    (hstop : S.stopCriterion = .gradL2Norm) (htol : 0 < S.tol) {x0 : E} (hd : 0 < S.dampingParameter) (hdiag : 0 < S.maxDiag x0)
    (hs : LMSmooth S vdotE vdotF (lmCost S vdotF x0) L B) (hcap : L ≤ 2 ^ 32) :
    ∃ N, ∀ m, N ≤ m → ∀ r, ({ S with maxiter := m } : LM K E F M A).run x0 = .ok r →
      S.norm (lmGrad S r.1) ≤ S.tol ∧ r.2.iterNum ≤ N ∧ lmCost S vdotF r.1 ≤ lmCost S vdotF x0 := by
  have hi := init_inv h hd hdiag
  obtain ⟨N, hN, hg⟩ := C91_liminf_partial h hi hs hcap (mul_pos htol htol) 1
  have hiter : ∀ k, (S.update^[k] (x0, S.initState x0)).2.iterNum = k := by
    intro k
    induction k with
    | zero => rfl
    | succ k ih =>
      rw [Function.iterate_succ_apply']
      change (S.update^[k] (x0, S.initState x0)).2.iterNum + 1 = k + 1
      rw [ih]
  have hcont : ∀ k, S.cont (S.update^[k] (x0, S.initState x0)) = false ↔ S.norm (lmGrad S (S.update^[k] (x0, S.initState x0)).1) ≤ S.tol := by
    intro k
    have hk := (C44_history h hi k).1
    unfold LM.cont
    rw [hstop, h.ar]
    simp only [exactArith, decide_eq_false_iff_not, not_lt]
    rw [hk.error, hk.gradient]
    rfl
  have hNtol : S.norm (lmGrad S (S.update^[N] (x0, S.initState x0)).1) ≤ S.tol := by
    obtain ⟨h1, h2⟩ := hn (lmGrad S (S.update^[N] (x0, S.initState x0)).1)
    rw [← h2] at hg
    by_contra hc
    push Not at hc
    nlinarith
  refine ⟨N, fun m hm r hr => ?_⟩
  unfold LM.run at hr
  cases hp : ({ S with maxiter := m } : LM K E F M A).postInit with
  | error er => rw [hp] at hr; cases hr
  | ok u =>
    rw [hp] at hr
    obtain ⟨k, h1, h2, h3, h4, h5⟩ := runS_spec (le_trans hN hm) hr
    change r = S.update^[k] (x0, S.initState x0) at h3
    change ∀ j, 1 ≤ j → j < k → S.cont (S.update^[j] (x0, S.initState x0)) = true at h4
    change k = m ∨ S.cont (S.update^[k] (x0, S.initState x0)) = false at h5
    have hkN : k ≤ N := by
      by_contra hc
      have := h4 N hN (by omega)
      rw [(hcont N).mpr hNtol] at this
      cases this
    have hfin : S.norm (lmGrad S (S.update^[k] (x0, S.initState x0)).1) ≤ S.tol := by
      rcases h5 with h5 | h5
      · have : k = N := by omega
        rw [this]; exact hNtol
      · exact (hcont k).mp h5
    rw [h3, hiter]
    exact ⟨hfin, hkN, (C44_history h hi k).2 0 (Nat.zero_le _)⟩

/-- **C91**: if the rows of the Jacobian are uniformly independent on the level set (`‖Jᵀ w‖² ≥ s ‖w‖²`), the cost converges to zero. -/
theorem C91_zero_residual_partial [Archimedean K] (h : LMSpec S vdotE vdotF) {p : E × LMState K E F M A} (hi : LMInv S vdotF p)
    (hs : LMSmooth S vdotE vdotF (lmCost S vdotF p.1) L B) (hcap : L ≤ 2 ^ 32) {s : K} (hs0 : 0 < s)
    (hrow : ∀ x w, lmCost S vdotF x ≤ lmCost S vdotF p.1 → s * vdotF w w ≤ vdotE (S.vjp x w) (S.vjp x w)) {e : K} (he : 0 < e) :
    ∃ N, ∀ k, N ≤ k → lmCost S vdotF (S.update^[k] p).1 < e := by
  obtain ⟨N, -, hN⟩ := C91_liminf_partial h hi hs hcap (e := 2 * s * e) (by positivity) 0
  refine ⟨N, fun k hk => lt_of_le_of_lt ((C44_history h hi k).2 N hk) ?_⟩
  have h1 := hrow (S.update^[N] p).1 (S.residualFun (S.update^[N] p).1).1 ((C44_history h hi N).2 0 (Nat.zero_le _))
  have h2 : s * vdotF (S.residualFun (S.update^[N] p).1).1 (S.residualFun (S.update^[N] p).1).1 < s * (2 * e) := by
    refine lt_of_le_of_lt h1 ?_
    have : s * (2 * e) = 2 * s * e := by ring
    rw [this]
    exact hN
  have h3 := lt_of_mul_lt_mul_left h2 hs0.le
  unfold lmCost
  linarith

end

/-- The assumption holds for costs with a Lipschitz continuous gradient and residuals with bounded Jacobians (for every level). -/
theorem LMSmooth.of_lsmooth {E F M A : Type*} [NormedAddCommGroup E] [InnerProductSpace ℝ E] [CompleteSpace E] [NormedAddCommGroup F]
    [InnerProductSpace ℝ F]
    [AddCommGroup M] [Module ℝ M] [AddCommGroup A] [Module ℝ A] {S : LM ℝ E F M A} {L b : ℝ} (hL : 0 < L) (T : ℝ)
    (hs : LSmooth (lmCost S (fun u w => inner ℝ u w)) (lmGrad S) L) (hb : ∀ x v, ‖S.jvp x v‖ ≤ b * ‖v‖) :
    LMSmooth S (fun u w => inner ℝ u w) (fun u w => inner ℝ u w) T L (b ^ 2) where
  nonneg := sq_nonneg b
  pos := hL
  upper := fun x y _ _ => ProxGrad.LSmooth.quadUpper hs x y
  jac := by
    intro x v _
    rw [real_inner_self_eq_norm_sq, real_inner_self_eq_norm_sq, ← mul_pow]
    exact pow_le_pow_left₀ (norm_nonneg _) (hb x v) 2

/-! ## The bound on the damping matters -/

/-- `exLM` with the documented default stopping test. -/
def exLM2 (c mu : ℚ) : LM ℚ ℚ ℚ ℚ Unit := { exLM c mu with stopCriterion := .gradL2Norm }

theorem exLM2_spec (c mu : ℚ) : LMSpec (exLM2 c mu) (fun x y => x * y) (fun x y => x * y) := by
  have h := exLM_spec c mu
  exact ⟨h.ar, h.hE, h.hF, h.dot, h.sumSq, h.ad, h.mat, h.exactMat, h.exactFn, h.geodesic⟩

/-- **C91** is false of the code for strongly curved residuals, because the damping cannot exceed `damping_factor_max = 2^32`: for
`r(x) = 1 + (x - 1) + 2^33 (x - 1)^2` and the start `1` every step is rejected, for ever; the gradient there is `1`, and the cost has a
point of lower cost.  The run uses up every budget. -/
theorem C91_cap_false : ∀ mu : ℚ, 0 < mu → mu ≤ 2 ^ 32 → ∀ k,
    let q := (exLM2 (2 ^ 33) mu).update^[k] (1, (exLM2 (2 ^ 33) mu).initState 1)
    q.1 = 1 ∧ q.2.gradient = 1 ∧ (exLM2 (2 ^ 33) mu).cont q = true ∧
    lmCost (exLM2 (2 ^ 33) mu) (fun x y => x * y) (1 - 1 / 2 ^ 34) < lmCost (exLM2 (2 ^ 33) mu) (fun x y => x * y) q.1 := by
  intro mu hmu hmu2 k
  set S := exLM2 (2 ^ 33) mu with hS
  have hspec : LMSpec S (fun x y => x * y) (fun x y => x * y) := exLM2_spec _ _
  have hinit : LMInv S (fun x y => x * y) ((1 : ℚ), S.initState 1) := by
    refine init_inv hspec hmu ?_
    change (0 : ℚ) < (1 + 2 * 2 ^ 33 * (1 - 1)) * (1 + 2 * 2 ^ 33 * (1 - 1))
    norm_num
  have key : ∀ k, (S.update^[k] (1, S.initState 1)).1 = 1 ∧ (S.update^[k] (1, S.initState 1)).2.dampingFactor ≤ 2 ^ 32 := by
    intro k
    induction k with
    | zero =>
      refine ⟨rfl, ?_⟩
      change mu * ((1 + 2 * 2 ^ 33 * (1 - 1)) * (1 + 2 * 2 ^ 33 * (1 - 1))) ≤ 2 ^ 32
      norm_num at hmu2 ⊢
      linarith
    | succ k ih =>
      rw [Function.iterate_succ_apply']
      have hi := (C44_history hspec hinit k).1
      set p := S.update^[k] (1, S.initState 1)
      obtain ⟨ih1, ih2⟩ := ih
      have e := velocity_exact hspec hi
      have hgr := hi.gradient
      set v := S.velocity p.1 p.2
      have hd := hi.damping
      have hJ : S.jtjOp p.1 v = v := by
        rw [ih1]
        change (1 + 2 * 2 ^ 33 * (1 - 1)) * ((1 + 2 * 2 ^ 33 * (1 - 1)) * v) = v
        ring
      have hg1 : p.2.gradient = 1 := by
        rw [hgr, ih1]
        change (1 + 2 * 2 ^ 33 * (1 - 1)) * (1 + (1 - 1) + 2 ^ 33 * ((1 - 1) * (1 - 1))) = (1 : ℚ)
        ring
      rw [hJ, hg1, smul_eq_mul] at e
      have hv : v * (1 + p.2.dampingFactor) = 1 := by linarith
      have hv0 : 0 < v := by
        by_contra hc
        push Not at hc
        nlinarith
      have hcv : 1 ≤ 2 ^ 33 * v := by
        have : (1 + p.2.dampingFactor) * v ≤ 2 ^ 33 * v := mul_le_mul_of_nonneg_right (by norm_num at ih2 ⊢; linarith) hv0.le
        linarith
      rcases update_closed hspec hi with ⟨c0, -⟩ | ⟨-, c1, -, -, -, -, c6, -, -⟩
      · exfalso
        have hlt := (gainRatio_pos_iff hspec hi).mp c0
        change lmCost S (fun x y => x * y) (p.1 - v) < lmCost S (fun x y => x * y) p.1 at hlt
        rw [ih1] at hlt
        have e1 : lmCost S (fun x y => x * y) (1 - v) = (1 - v + 2 ^ 33 * (v * v)) * (1 - v + 2 ^ 33 * (v * v)) / 2 := by
          change (1 + (1 - v - 1) + 2 ^ 33 * ((1 - v - 1) * (1 - v - 1))) * (1 + (1 - v - 1) + 2 ^ 33 * ((1 - v - 1) * (1 - v - 1))) / 2 = _
          ring
        have e2 : lmCost S (fun x y => x * y) 1 = 1 / 2 := by
          change (1 + (1 - 1) + 2 ^ 33 * ((1 - 1) * (1 - 1))) * (1 + (1 - 1) + 2 ^ 33 * ((1 - 1) * (1 - 1))) / 2 = (1 / 2 : ℚ)
          ring
        rw [e1, e2] at hlt
        have h1 : 1 ≤ 1 - v + 2 ^ 33 * (v * v) := by nlinarith
        nlinarith
      · exact ⟨by rw [c1, ih1], by rw [c6]; exact min_le_right _ _⟩
  intro q
  have hq1 : q.1 = 1 := (key k).1
  have hi := (C44_history hspec hinit k).1
  have hq2 : q.2.gradient = 1 := by
    have := hi.gradient
    rw [(key k).1] at this
    rw [show q.2.gradient = (S.update^[k] (1, S.initState 1)).2.gradient from rfl, this]
    change (1 + 2 * 2 ^ 33 * (1 - 1)) * (1 + (1 - 1) + 2 ^ 33 * ((1 - 1) * (1 - 1))) = (1 : ℚ)
    ring
  refine ⟨hq1, hq2, ?_, ?_⟩
  · have herr : q.2.error = 1 := by
      have : q.2.error = |q.2.gradient| := hi.error
      rw [this, hq2, abs_one]
    change decide ((1 / 1000 : ℚ) < q.2.error) = true
    rw [herr]
    norm_num
  · rw [hq1]
    change (1 + (1 - 1 / 2 ^ 34 - 1) + 2 ^ 33 * ((1 - 1 / 2 ^ 34 - 1) * (1 - 1 / 2 ^ 34 - 1))) *
        (1 + (1 - 1 / 2 ^ 34 - 1) + 2 ^ 33 * ((1 - 1 / 2 ^ 34 - 1) * (1 - 1 / 2 ^ 34 - 1))) / 2 <
      (1 + (1 - 1) + 2 ^ 33 * ((1 - 1) * (1 - 1))) * (1 + (1 - 1) + 2 ^ 33 * ((1 - 1) * (1 - 1))) / (2 : ℚ)
    norm_num

/-! ## Non-vacuity -/

/-- The smoothness assumption for `r(x) = 1 + (x - 1) + (x - 1)^2` on the level set of the start `1`. -/
theorem exLM2_smooth (mu : ℚ) : LMSmooth (exLM2 1 mu) (fun x y => x * y) (fun x y => x * y) (1 / 2) 10 1 where
  nonneg := by norm_num
  pos := by norm_num
  upper := by
    intro x y hx hy
    change (1 + (x - 1) + 1 * ((x - 1) * (x - 1))) * (1 + (x - 1) + 1 * ((x - 1) * (x - 1))) / 2 ≤ 1 / 2 at hx
    change 10 * 10 * ((y - x) * (y - x)) ≤ 4 * ((1 + 2 * 1 * (x - 1)) * (1 + (x - 1) + 1 * ((x - 1) * (x - 1))) *
      ((1 + 2 * 1 * (x - 1)) * (1 + (x - 1) + 1 * ((x - 1) * (x - 1))))) at hy
    change (1 + (y - 1) + 1 * ((y - 1) * (y - 1))) * (1 + (y - 1) + 1 * ((y - 1) * (y - 1))) / 2 ≤
      (1 + (x - 1) + 1 * ((x - 1) * (x - 1))) * (1 + (x - 1) + 1 * ((x - 1) * (x - 1))) / 2 +
      (y - x) * ((1 + 2 * 1 * (x - 1)) * (1 + (x - 1) + 1 * ((x - 1) * (x - 1)))) + 10 / 2 * ((y - x) * (y - x))
    obtain ⟨u, rfl⟩ : ∃ u, x = 1 + u := ⟨x - 1, by ring⟩
    obtain ⟨d, rfl⟩ : ∃ d, y = 1 + u + d := ⟨y - (1 + u), by ring⟩
    set r := 1 + u + u * u with hr
    set j := 1 + 2 * u with hj
    have e1 : 1 + (1 + u - 1) + 1 * ((1 + u - 1) * (1 + u - 1)) = r := by rw [hr]; ring
    have e2 : 1 + 2 * 1 * (1 + u - 1) = j := by rw [hj]; ring
    have e3 : 1 + (1 + u + d - 1) + 1 * ((1 + u + d - 1) * (1 + u + d - 1)) = r + j * d + d * d := by rw [hr, hj]; ring
    have e4 : 1 + u + d - (1 + u) = d := by ring
    rw [e1] at hx
    rw [e1, e2, e4] at hy
    rw [e1, e2, e3, e4]
    have hrj : 4 * r = 3 + j * j := by rw [hr, hj]; ring
    have hr0 : 0 < r := by nlinarith [mul_self_nonneg j]
    have hr1 : r ≤ 1 := by nlinarith
    have hj1 : j * j ≤ 1 := by linarith
    have hd1 : d * d ≤ 1 := by nlinarith [mul_self_nonneg j, mul_self_nonneg (j * r)]
    have hjd : j * d ≤ 1 := by nlinarith [mul_self_nonneg (j - d)]
    have h1 : (j * j / 2 + r + j * d + d * d / 2) * (d * d) ≤ 5 * (d * d) :=
      mul_le_mul_of_nonneg_right (by linarith) (mul_self_nonneg d)
    nlinarith
  jac := by
    intro x v hx
    change (1 + (x - 1) + 1 * ((x - 1) * (x - 1))) * (1 + (x - 1) + 1 * ((x - 1) * (x - 1))) / 2 ≤ 1 / 2 at hx
    change (1 + 2 * 1 * (x - 1)) * v * ((1 + 2 * 1 * (x - 1)) * v) ≤ 1 * (v * v)
    set j := 1 + 2 * 1 * (x - 1) with hj
    have hrj : 1 + (x - 1) + 1 * ((x - 1) * (x - 1)) = (3 + j * j) / 4 := by rw [hj]; ring
    rw [hrj] at hx
    have hj1 : j * j ≤ 1 := by nlinarith [mul_self_nonneg j]
    have := mul_le_mul_of_nonneg_right hj1 (mul_self_nonneg v)
    linarith

/-- For `r(x) = 1 + (x - 1) + (x - 1)^2`, every damping parameter and the start `1`, the iterates approach the stationary point `1/2`. -/
example (mu : ℚ) (hmu : 0 < mu) (e : ℚ) (he : 0 < e) (N : ℕ) : ∃ k, N ≤ k ∧
    lmGrad (exLM2 1 mu) ((exLM2 1 mu).update^[k] (1, (exLM2 1 mu).initState 1)).1 *
      lmGrad (exLM2 1 mu) ((exLM2 1 mu).update^[k] (1, (exLM2 1 mu).initState 1)).1 < e := by
  refine C91_liminf_partial (exLM2_spec 1 mu) (init_inv (exLM2_spec 1 mu) hmu ?_) (L := 10) (B := 1) ?_ (by norm_num) he N
  · change (0 : ℚ) < (1 + 2 * 1 * (1 - 1)) * (1 + 2 * 1 * (1 - 1))
    norm_num
  · have : lmCost (exLM2 1 mu) (fun x y => x * y) 1 = 1 / 2 := by
      change (1 + (1 - 1) + 1 * ((1 - 1) * (1 - 1))) * (1 + (1 - 1) + 1 * ((1 - 1) * (1 - 1))) / 2 = (1 / 2 : ℚ)
      norm_num
    rw [this]
    exact exLM2_smooth mu

end Jaxopt.LeastSquares
