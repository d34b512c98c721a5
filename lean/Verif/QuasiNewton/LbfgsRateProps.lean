import Verif.QuasiNewton.LbfgsProps
import Verif.QuasiNewton.ZoutendijkProps

/-!
# Property C83: L-BFGS converges linearly on strongly convex functions

The line search is any function that satisfies the (weak) Wolfe conditions along descent directions, as the zoom line search does when
it succeeds (C20).
-/

set_option autoImplicit false
set_option linter.unusedSectionVars false
set_option linter.unusedVariables false

namespace Jaxopt.QuasiNewton

open Jaxopt.Base

variable {V : Type*} [NormedAddCommGroup V] [InnerProductSpace ℝ V] [CompleteSpace V]

/-- `f` is `μ`-strongly convex with gradient `g`. -/
def StrongConvexWith (f : V → ℝ) (g : V → V) (μ : ℝ) : Prop := ∀ x y, f x + inner ℝ (g x) (y - x) + μ / 2 * ‖y - x‖ ^ 2 ≤ f y

omit [CompleteSpace V] in
theorem StrongConvexWith.mono {f : V → ℝ} {g : V → V} {μ : ℝ} (h : StrongConvexWith f g μ) (x y : V) :
    μ * ‖y - x‖ ^ 2 ≤ inner ℝ (y - x) (g y - g x) := by
  have h1 := h x y
  have h2 := h y x
  have e : ‖x - y‖ = ‖y - x‖ := norm_sub_rev x y
  rw [e] at h2
  have e2 : inner ℝ (g y) (x - y) = -inner ℝ (g y) (y - x) := by rw [← neg_sub y x, inner_neg_right]
  rw [e2] at h2
  rw [inner_sub_right, real_inner_comm (g y) (y - x), real_inner_comm (g x) (y - x)]
  linarith

omit [CompleteSpace V] in
/-- Strong convexity bounds the excess over any value by the squared gradient norm. -/
theorem StrongConvexWith.grad_bound {f : V → ℝ} {g : V → V} {μ : ℝ} (hμ : 0 < μ) (h : StrongConvexWith f g μ) (x y : V) :
    2 * μ * (f x - f y) ≤ ‖g x‖ ^ 2 := by
  have h1 := h x y
  have h2 := norm_add_sq_real (g x) (μ • (y - x))
  rw [inner_smul_right, norm_smul, mul_pow, Real.norm_eq_abs, sq_abs] at h2
  have h3 : 0 ≤ ‖g x + μ • (y - x)‖ ^ 2 := by positivity
  nlinarith

/-- The gradient of a convex `L`-smooth function is `1/L`-cocoercive. -/
theorem _root_.Jaxopt.LSmooth.cocoercive {f : V → ℝ} {g : V → V} {L : ℝ} (hL : 0 < L) (h : LSmooth f g L)
    (hc : ∀ x y, f x + inner ℝ (g x) (y - x) ≤ f y) (x y : V) : ‖g y - g x‖ ^ 2 ≤ L * inner ℝ (y - x) (g y - g x) := by
  have key : ∀ x y, f x + inner ℝ (g x) (y - x) + ‖g y - g x‖ ^ 2 / (2 * L) ≤ f y := by
    intro x y
    set w := g y - g x with hw
    set z := y - (1 / L) • w with hz
    have h1 := hc x z
    have h2 := h.descent y z
    have e : z - y = (-(1 / L)) • w := by rw [hz, neg_smul]; abel
    rw [e, inner_smul_right, norm_smul, mul_pow, norm_neg, Real.norm_eq_abs, sq_abs] at h2
    have e2 : z - x = (y - x) + (-(1 / L)) • w := by rw [hz, neg_smul]; abel
    rw [e2, inner_add_right, inner_smul_right] at h1
    have e3 : inner ℝ (g y) w - inner ℝ (g x) w = ‖w‖ ^ 2 := by rw [← inner_sub_left, ← hw, real_inner_self_eq_norm_sq]
    have e4 : ‖w‖ ^ 2 / (2 * L) = 1 / L * ‖w‖ ^ 2 - L / 2 * ((1 / L) ^ 2 * ‖w‖ ^ 2) := by field_simp; ring
    have e5 : 1 / L * (inner ℝ (g y) w - inner ℝ (g x) w) = 1 / L * ‖w‖ ^ 2 := by rw [e3]
    rw [mul_sub] at e5
    rw [e4]
    have e6 : (-(1 / L)) ^ 2 = (1 / L) ^ 2 := by ring
    first | linarith | (rw [e6] at h2; linarith)
  have h1 := key x y
  have h2 := key y x
  have e1 : ‖g x - g y‖ = ‖g y - g x‖ := norm_sub_rev _ _
  have e2 : inner ℝ (g y) (x - y) = -inner ℝ (g y) (y - x) := by rw [← neg_sub y x, inner_neg_right]
  rw [e1, e2] at h2
  rw [inner_sub_right, real_inner_comm (g y) (y - x), real_inner_comm (g x) (y - x)]
  have h3 : ‖g y - g x‖ ^ 2 / (2 * L) + ‖g y - g x‖ ^ 2 / (2 * L) ≤ inner ℝ (g y) (y - x) - inner ℝ (g x) (y - x) := by linarith
  have e5 : ‖g y - g x‖ ^ 2 / (2 * L) + ‖g y - g x‖ ^ 2 / (2 * L) = ‖g y - g x‖ ^ 2 / L := by field_simp; ring
  rw [e5, div_le_iff₀ hL] at h3
  linarith

/-- A pair of differences of points and gradients of a smooth and strongly convex function. -/
def GoodPair (μ L : ℝ) (p : V × V) : Prop := μ * ‖p.1‖ ^ 2 ≤ inner ℝ p.1 p.2 ∧ ‖p.2‖ ^ 2 ≤ L * inner ℝ p.1 p.2

/-- Spectral bounds of an operator: `h ‖v‖² ≤ ⟨v, H v⟩` and `‖H v‖ ≤ C ‖v‖`. -/
def OpBounds (h C : ℝ) (H : V → V) : Prop := ∀ v, h * ‖v‖ ^ 2 ≤ inner ℝ v (H v) ∧ ‖H v‖ ≤ C * ‖v‖

omit [CompleteSpace V] in
theorem opBounds_mono {h h' C C' : ℝ} {H : V → V} (hh : h' ≤ h) (hC : C ≤ C') (hb : OpBounds h C H) : OpBounds h' C' H := fun v =>
  ⟨le_trans (mul_le_mul_of_nonneg_right hh (by positivity)) (hb v).1,
    le_trans (hb v).2 (mul_le_mul_of_nonneg_right hC (norm_nonneg v))⟩

omit [CompleteSpace V] in
/-- One BFGS update keeps the bounds under control. -/
theorem opBounds_update {μ L h C : ℝ} (hμ : 0 < μ) (hL : μ ≤ L) (hh : 0 < h) (hC : 0 ≤ C) {H : V → V} (hb : OpBounds h C H) {p : V × V}
    (hp : GoodPair μ L p) :
    OpBounds (1 / (1 / h + L)) (C * (1 + L / μ) ^ 2 + 1 / μ) (bfgsUpdate (fun u v => inner ℝ u v) H p) := by
  obtain ⟨s, y⟩ := p
  obtain ⟨hp1, hp2⟩ := hp
  simp only at hp1 hp2
  have hL0 : 0 < L := lt_of_lt_of_le hμ hL
  have hκ : 1 ≤ L / μ := by rw [le_div_iff₀ hμ]; linarith
  have hlow : 1 / (1 / h + L) ≤ h := by
    rw [div_le_iff₀ (by positivity)]
    have : h * (1 / h + L) = 1 + h * L := by field_simp
    rw [this]; nlinarith
  by_cases h0 : inner ℝ s y = 0
  · have e : bfgsUpdate (fun u v => inner ℝ u v) H (s, y) = H := by simp only [bfgsUpdate, h0, if_true]
    rw [e]
    refine opBounds_mono hlow ?_ hb
    have h1 : 1 ≤ (1 + L / μ) ^ 2 := by nlinarith
    have h2 : 0 < 1 / μ := by positivity
    nlinarith
  · have hsy : 0 < inner ℝ s y := by
      have : 0 ≤ inner ℝ s y := le_trans (by positivity) hp1
      exact lt_of_le_of_ne this (Ne.symm h0)
    set ρ := 1 / inner ℝ s y with hρ
    have hρ0 : 0 < ρ := by rw [hρ]; positivity
    have hρs : ρ * inner ℝ s y = 1 := by rw [hρ]; field_simp
    -- ρ ‖s‖ ‖y‖ ≤ L / μ and ρ ‖s‖² ≤ 1 / μ
    have hss : ρ * ‖s‖ ^ 2 ≤ 1 / μ := by
      rw [le_div_iff₀ hμ]
      have := mul_le_mul_of_nonneg_left hp1 hρ0.le
      rw [hρs] at this
      linarith
    have hyy : ρ * ‖y‖ ^ 2 ≤ L := by
      have := mul_le_mul_of_nonneg_left hp2 hρ0.le
      have e : ρ * (L * inner ℝ s y) = L * (ρ * inner ℝ s y) := by ring
      rw [e, hρs] at this
      linarith
    have hsyn : ρ * (‖s‖ * ‖y‖) ≤ L / μ := by
      have h1 : (ρ * (‖s‖ * ‖y‖)) ^ 2 ≤ L / μ := by
        have e : (ρ * (‖s‖ * ‖y‖)) ^ 2 = (ρ * ‖s‖ ^ 2) * (ρ * ‖y‖ ^ 2) := by ring
        rw [e]
        calc _ ≤ 1 / μ * L := mul_le_mul hss hyy (by positivity) (by positivity)
          _ = L / μ := by ring
      by_contra hcon
      rw [not_le] at hcon
      nlinarith
    have hα : ∀ v, |ρ * inner ℝ s v| ≤ ρ * (‖s‖ * ‖v‖) := by
      intro v
      rw [abs_mul, abs_of_pos hρ0]
      exact mul_le_mul_of_nonneg_left (abs_real_inner_le_norm s v) hρ0.le
    intro v
    have e : bfgsUpdate (fun u v => inner ℝ u v) H (s, y) v =
        H (v - (ρ * inner ℝ s v) • y) - (ρ * inner ℝ y (H (v - (ρ * inner ℝ s v) • y))) • s + (ρ * inner ℝ s v) • s := by
      simp only [bfgsUpdate, h0, if_false]; rfl
    rw [e]
    set α := ρ * inner ℝ s v with hαd
    set w := v - α • y with hw
    set u := H w with hu
    obtain ⟨b1, b2⟩ := hb w
    constructor
    · have e2 : inner ℝ v (u - (ρ * inner ℝ y u) • s + α • s) = inner ℝ w u + α ^ 2 * inner ℝ s y := by
        rw [inner_add_right, inner_sub_right, inner_smul_right, inner_smul_right, hw, inner_sub_left, inner_smul_left,
          real_inner_comm s v]
        simp only [RCLike.conj_to_real]
        have h3 : α ^ 2 * inner ℝ s y = α * inner ℝ s v := by
          rw [sq, mul_assoc]
          congr 1
          rw [hαd]
          calc ρ * inner ℝ s v * inner ℝ s y = (ρ * inner ℝ s y) * inner ℝ s v := by ring
            _ = inner ℝ s v := by rw [hρs, one_mul]
        rw [h3, hαd]; ring
      rw [e2]
      have h4 : α ^ 2 * ‖y‖ ^ 2 / L ≤ α ^ 2 * inner ℝ s y := by
        rw [div_le_iff₀ hL0]
        have := mul_le_mul_of_nonneg_left hp2 (sq_nonneg α)
        linarith
      have h5 : ‖v‖ ≤ ‖w‖ + |α| * ‖y‖ := by
        have e3 : v = w + α • y := by rw [hw]; abel
        calc ‖v‖ = ‖w + α • y‖ := by rw [← e3]
          _ ≤ ‖w‖ + ‖α • y‖ := norm_add_le _ _
          _ = ‖w‖ + |α| * ‖y‖ := by rw [norm_smul, Real.norm_eq_abs]
      -- minimise h a² + b²/L subject to a + b ≥ ‖v‖
      set a := ‖w‖ with ha
      set b := |α| * ‖y‖ with hbd
      have hb2 : α ^ 2 * ‖y‖ ^ 2 = b ^ 2 := by rw [hbd, mul_pow |α| ‖y‖ 2, sq_abs]
      rw [hb2] at h4
      have h6 : 1 / (1 / h + L) * ‖v‖ ^ 2 ≤ h * a ^ 2 + b ^ 2 / L := by
        rw [div_mul_eq_mul_div, one_mul, div_le_iff₀ (by positivity)]
        have h7 : ‖v‖ ^ 2 ≤ (a + b) ^ 2 := pow_le_pow_left₀ (norm_nonneg v) h5 2
        refine le_trans h7 ?_
        have e4 : (h * a ^ 2 + b ^ 2 / L) * (1 / h + L) = a ^ 2 + b ^ 2 + (h * L * a ^ 2 + b ^ 2 / (h * L)) := by field_simp; ring
        rw [e4]
        have h8 : 2 * a * b ≤ h * L * a ^ 2 + b ^ 2 / (h * L) := by
          have hhl : 0 < h * L := by positivity
          have e5 : h * L * a ^ 2 + b ^ 2 / (h * L) - 2 * a * b = (h * L * a - b) ^ 2 / (h * L) := by field_simp; ring
          have : 0 ≤ (h * L * a - b) ^ 2 / (h * L) := by positivity
          linarith
        nlinarith
      linarith
    · have hαv := hα v
      rw [← hαd] at hαv
      have hwn : ‖w‖ ≤ (1 + L / μ) * ‖v‖ := by
        calc ‖w‖ ≤ ‖v‖ + ‖α • y‖ := norm_sub_le _ _
          _ = ‖v‖ + |α| * ‖y‖ := by rw [norm_smul, Real.norm_eq_abs]
          _ ≤ ‖v‖ + ρ * (‖s‖ * ‖v‖) * ‖y‖ := by
              have := mul_le_mul_of_nonneg_right hαv (norm_nonneg y); linarith
          _ = ‖v‖ + ρ * (‖s‖ * ‖y‖) * ‖v‖ := by ring
          _ ≤ ‖v‖ + L / μ * ‖v‖ := by
              have := mul_le_mul_of_nonneg_right hsyn (norm_nonneg v); linarith
          _ = (1 + L / μ) * ‖v‖ := by ring
      have hun : ‖u‖ ≤ C * ((1 + L / μ) * ‖v‖) := le_trans b2 (mul_le_mul_of_nonneg_left hwn hC)
      have hbeta : ‖(ρ * inner ℝ y u) • s‖ ≤ L / μ * ‖u‖ := by
        rw [norm_smul, Real.norm_eq_abs, abs_mul, abs_of_pos hρ0]
        have h1 := abs_real_inner_le_norm y u
        calc ρ * |inner ℝ y u| * ‖s‖ ≤ ρ * (‖y‖ * ‖u‖) * ‖s‖ := by
              exact mul_le_mul_of_nonneg_right (mul_le_mul_of_nonneg_left h1 hρ0.le) (norm_nonneg s)
          _ = ρ * (‖s‖ * ‖y‖) * ‖u‖ := by ring
          _ ≤ L / μ * ‖u‖ := mul_le_mul_of_nonneg_right hsyn (norm_nonneg u)
      have halpha : ‖α • s‖ ≤ 1 / μ * ‖v‖ := by
        rw [norm_smul, Real.norm_eq_abs]
        calc |α| * ‖s‖ ≤ ρ * (‖s‖ * ‖v‖) * ‖s‖ := mul_le_mul_of_nonneg_right hαv (norm_nonneg s)
          _ = ρ * ‖s‖ ^ 2 * ‖v‖ := by ring
          _ ≤ 1 / μ * ‖v‖ := mul_le_mul_of_nonneg_right hss (norm_nonneg v)
      calc ‖u - (ρ * inner ℝ y u) • s + α • s‖ ≤ ‖u - (ρ * inner ℝ y u) • s‖ + ‖α • s‖ := norm_add_le _ _
        _ ≤ ‖u‖ + ‖(ρ * inner ℝ y u) • s‖ + ‖α • s‖ := by linarith [norm_sub_le u ((ρ * inner ℝ y u) • s)]
        _ ≤ (1 + L / μ) * ‖u‖ + 1 / μ * ‖v‖ := by linarith
        _ ≤ (1 + L / μ) * (C * ((1 + L / μ) * ‖v‖)) + 1 / μ * ‖v‖ := by
            have := mul_le_mul_of_nonneg_left hun (show 0 ≤ 1 + L / μ by positivity)
            linarith
        _ = (C * (1 + L / μ) ^ 2 + 1 / μ) * ‖v‖ := by ring

/-- The upper bound after `m` updates. -/
noncomputable def lbfgsUpper (μ L : ℝ) (m : ℕ) : ℝ := (fun C => C * (1 + L / μ) ^ 2 + 1 / μ)^[m] (max 1 (1 / μ))

/-- The lower bound after `m` updates. -/
noncomputable def lbfgsLower (L : ℝ) (m : ℕ) : ℝ := 1 / (max 1 L + m * L)

theorem lbfgsUpper_pos {μ L : ℝ} (hμ : 0 < μ) (hL : μ ≤ L) (m : ℕ) : 0 < lbfgsUpper μ L m := by
  induction m with
  | zero => exact lt_of_lt_of_le one_pos (le_max_left _ _)
  | succ m ih =>
    have hL0 : 0 < L := lt_of_lt_of_le hμ hL
    unfold lbfgsUpper at ih ⊢
    rw [Function.iterate_succ_apply']
    positivity

theorem lbfgsUpper_mono {μ L : ℝ} (hμ : 0 < μ) (hL : μ ≤ L) {m n : ℕ} (h : m ≤ n) : lbfgsUpper μ L m ≤ lbfgsUpper μ L n := by
  induction n, h using Nat.le_induction with
  | base => exact le_refl _
  | succ n _ ih =>
    refine le_trans ih ?_
    have hp := lbfgsUpper_pos hμ hL n
    have hκ : 0 ≤ L / μ := div_nonneg (le_trans hμ.le hL) hμ.le
    have e : lbfgsUpper μ L (n + 1) = lbfgsUpper μ L n * (1 + L / μ) ^ 2 + 1 / μ := by
      unfold lbfgsUpper; rw [Function.iterate_succ_apply']
    rw [e]
    have h1 : 1 ≤ (1 + L / μ) ^ 2 := by nlinarith
    have h2 : 0 < 1 / μ := by positivity
    nlinarith

omit [CompleteSpace V] in
/-- The matrix built from good pairs and an admissible scaling is uniformly bounded above and below. -/
theorem opBounds_inverse {μ L γ : ℝ} (hμ : 0 < μ) (hL : μ ≤ L) (hγ1 : 1 / max 1 L ≤ γ) (hγ2 : γ ≤ max 1 (1 / μ)) (pairs : List (V × V))
    (hp : ∀ p ∈ pairs, GoodPair μ L p) :
    OpBounds (lbfgsLower L pairs.length) (lbfgsUpper μ L pairs.length) (bfgsInverse (fun u v => inner ℝ u v) γ pairs) := by
  have hL0 : 0 < L := lt_of_lt_of_le hμ hL
  have hm1 : 0 < max 1 L := lt_of_lt_of_le one_pos (le_max_left _ _)
  induction pairs using List.reverseRecOn with
  | nil =>
    intro v
    simp only [bfgsInverse, List.foldl_nil, lbfgsLower, lbfgsUpper, List.length_nil, Function.iterate_zero, id, Nat.cast_zero, zero_mul,
      add_zero]
    have hγ0 : 0 ≤ γ := le_trans (by positivity) hγ1
    rw [inner_smul_right, real_inner_self_eq_norm_sq, norm_smul, Real.norm_of_nonneg hγ0]
    exact ⟨mul_le_mul_of_nonneg_right hγ1 (by positivity), mul_le_mul_of_nonneg_right hγ2 (norm_nonneg v)⟩
  | append_singleton l p ih =>
    have hl := ih (fun q hq => hp q (by simp [hq]))
    have e : bfgsInverse (fun u v => inner ℝ u v) γ (l ++ [p]) =
        bfgsUpdate (fun u v => inner ℝ u v) (bfgsInverse (fun u v : V => inner ℝ u v) γ l) p := by
      simp only [bfgsInverse, List.foldl_append, List.foldl_cons, List.foldl_nil]
    have hlow : 0 < lbfgsLower L l.length := by unfold lbfgsLower; positivity
    have h1 := opBounds_update hμ hL hlow (lbfgsUpper_pos hμ hL l.length).le hl (hp p (by simp))
    rw [e]
    refine opBounds_mono (le_of_eq ?_) (le_of_eq ?_) h1
    · simp only [lbfgsLower, List.length_append, List.length_singleton, one_div_one_div]
      push_cast
      congr 1; ring
    · simp only [List.length_append, List.length_singleton]
      unfold lbfgsUpper; rw [Function.iterate_succ_apply']

theorem lbfgsLower_pos {L : ℝ} (hL : 0 < L) (m : ℕ) : 0 < lbfgsLower L m := by
  have hm1 : 0 < max 1 L := lt_of_lt_of_le one_pos (le_max_left _ _)
  unfold lbfgsLower; positivity

theorem lbfgsLower_anti {L : ℝ} (hL : 0 < L) {m n : ℕ} (h : m ≤ n) : lbfgsLower L n ≤ lbfgsLower L m := by
  have hm1 : 0 < max 1 L := lt_of_lt_of_le one_pos (le_max_left _ _)
  unfold lbfgsLower
  apply one_div_le_one_div_of_le (by positivity)
  have : (m : ℝ) ≤ n := by exact_mod_cast h
  nlinarith

namespace Lbfgs

/-- The line search returns the gradient at the parameters it returns (C18, C20, C22). -/
def GradSound (S : Lbfgs ℝ V ℝ) : Prop := ∀ a x v g d, (S.runLs a x v g d).grad = S.grad (S.runLs a x v g d).params

theorem grad_iter (S : Lbfgs ℝ V ℝ) (hl : S.GradSound) (x0 : V) (n : ℕ) : (S.iter x0 n).2.grad = S.grad (S.iter x0 n).1 := by
  cases n with
  | zero => rfl
  | succ n =>
    rw [iter_succ]
    simp only [update, step]
    split
    · split
      · exact hl _ _ _ _ _
      · rfl
    · rfl

/-- The contraction factor per iteration is `1 - lbfgsRate`. -/
noncomputable def _root_.Jaxopt.QuasiNewton.lbfgsRate (μ L c1 c2 : ℝ) (m : ℕ) : ℝ :=
  2 * μ * (c1 * (1 - c2) / L) * (lbfgsLower L m / lbfgsUpper μ L m) ^ 2

/-- **C83** (uniform bounds).  On a `μ`-strongly convex `L`-smooth function, with any steps at all, the L-BFGS directions make a uniform
angle with the gradient: `⟨g, d⟩ ≤ -h ‖g‖²` and `‖d‖ ≤ C ‖g‖`, with `h`, `C` depending only on `μ`, `L` and the history size. -/
theorem C83_direction (S : Lbfgs ℝ V ℝ) (hvd : ∀ u v, S.vdot u v = inner ℝ u v) (hl : S.GradSound) (μ L : ℝ) (hμ : 0 < μ) (hL : μ ≤ L)
    (hsm : LSmooth S.f S.grad L) (hsc : StrongConvexWith S.f S.grad μ) (x0 : V) (k : ℕ) :
    inner ℝ (S.grad (S.iter x0 k).1) (S.direction (S.iter x0 k).2) ≤
      -(lbfgsLower L S.historySize * ‖S.grad (S.iter x0 k).1‖ ^ 2) ∧
    ‖S.direction (S.iter x0 k).2‖ ≤ lbfgsUpper μ L S.historySize * ‖S.grad (S.iter x0 k).1‖ := by
  have hL0 : 0 < L := lt_of_lt_of_le hμ hL
  have hv : IsVdot S.vdot :=
    { add_left := fun x y z => by rw [hvd, hvd, hvd, inner_add_left]
      smul_left := fun a x z => by rw [hvd, hvd, inner_smul_left]; rfl
      symm := fun x y => by rw [hvd, hvd, real_inner_comm]
      pos := fun x hx => by
        rw [hvd, real_inner_self_eq_norm_sq]
        have := norm_pos_iff.mpr hx
        positivity }
  have hve : S.vdot = fun u v => inner ℝ u v := funext fun u => funext fun v => hvd u v
  have hgr := S.grad_iter hl x0
  have hcx : ∀ x y, S.f x + inner ℝ (S.grad x) (y - x) ≤ S.f y := fun x y => by
    have := hsc x y
    have h2 : 0 ≤ μ / 2 * ‖y - x‖ ^ 2 := by positivity
    linarith
  have hgood : ∀ j, GoodPair μ L (S.pair x0 j) := by
    intro j
    simp only [GoodPair, pair, hgr]
    exact ⟨hsc.mono _ _, Jaxopt.LSmooth.cocoercive hL0 hsm hcx _ _⟩
  set g := S.grad (S.iter x0 k).1 with hg
  have hb : OpBounds (lbfgsLower L S.historySize) (lbfgsUpper μ L S.historySize)
      (bfgsInverse (fun u v => inner ℝ u v) (S.iter x0 k).2.gamma (S.lastPairs x0 k)) := by
    have hm1 : 0 < max 1 L := lt_of_lt_of_le one_pos (le_max_left _ _)
    have hγ : 1 / max 1 L ≤ (S.iter x0 k).2.gamma ∧ (S.iter x0 k).2.gamma ≤ max 1 (1 / μ) := by
      have h1 : 1 / max 1 L ≤ 1 ∧ (1 : ℝ) ≤ max 1 (1 / μ) :=
        ⟨by rw [div_le_one hm1]; exact le_max_left _ _, le_max_left _ _⟩
      cases k with
      | zero => rw [(S.C24_gamma hv x0 0).1]; exact h1
      | succ k =>
        obtain ⟨_, c1, c2, _⟩ := S.C24_gamma hv x0 k
        by_cases hc : S.historySize = 0 ∨ S.useGamma = false ∨ (S.pair x0 k).2 = 0
        · rw [c2 hc]; exact h1
        · push Not at hc
          rw [c1 (by omega) (by simpa using hc.2.1) hc.2.2, hvd, hvd, real_inner_self_eq_norm_sq, real_inner_comm]
          obtain ⟨g1, g2⟩ := hgood k
          have hyn : 0 < ‖(S.pair x0 k).2‖ ^ 2 := by
            have := norm_pos_iff.mpr hc.2.2
            positivity
          have hsy : 0 < inner ℝ (S.pair x0 k).1 (S.pair x0 k).2 := by
            by_contra hcon
            rw [not_lt] at hcon
            nlinarith
          constructor
          · refine le_trans (one_div_le_one_div_of_le hL0 (le_max_right 1 L)) ?_
            rw [div_le_div_iff₀ hL0 hyn]
            linarith
          · refine le_trans ?_ (le_max_right 1 (1 / μ))
            rw [div_le_div_iff₀ hyn hμ]
            have hcs := abs_real_inner_le_norm (S.pair x0 k).1 (S.pair x0 k).2
            rw [abs_of_pos hsy] at hcs
            set a := ‖(S.pair x0 k).1‖
            set b := ‖(S.pair x0 k).2‖
            set c := inner ℝ (S.pair x0 k).1 (S.pair x0 k).2
            -- μ a² ≤ c ≤ a b, so μ a ≤ b and c μ ≤ b²
            have ha : 0 < a := by
              by_contra hcon
              have h0 : a = 0 := le_antisymm (not_lt.mp hcon) (norm_nonneg _)
              rw [h0, zero_mul] at hcs
              linarith
            have h3 : μ * a ≤ b := by
              by_contra hcon
              rw [not_le] at hcon
              nlinarith
            have hb0 : 0 ≤ b := norm_nonneg _
            nlinarith
    have hlen : (S.lastPairs x0 k).length ≤ S.historySize := by
      simp only [lastPairs, List.length_map, List.length_range']
      exact min_le_right _ _
    refine opBounds_mono (lbfgsLower_anti hL0 hlen) (lbfgsUpper_mono hμ hL hlen)
      (opBounds_inverse hμ hL hγ.1 hγ.2 (S.lastPairs x0 k) ?_)
    intro p hp
    simp only [lastPairs, List.mem_map] at hp
    obtain ⟨j, _, rfl⟩ := hp
    exact hgood j
  by_cases hm : S.historySize = 0
  · rw [(S.C24_gamma hv x0 k).2.2.2 hm, hgr, ← hg, inner_neg_right, real_inner_self_eq_norm_sq, norm_neg, hm]
    have h1 : lbfgsLower L 0 ≤ 1 := by
      simp only [lbfgsLower, Nat.cast_zero, zero_mul, add_zero]
      rw [div_le_one (lt_of_lt_of_le one_pos (le_max_left _ _))]
      exact le_max_left _ _
    have h2 : 1 ≤ lbfgsUpper μ L 0 := le_max_left _ _
    have h3 : 0 ≤ ‖g‖ ^ 2 := by positivity
    exact ⟨by nlinarith, by nlinarith [norm_nonneg g]⟩
  · rw [S.C24_direction hv (by omega) x0 k, hgr, ← hg, hve]
    obtain ⟨b1, b2⟩ := hb (-g)
    rw [norm_neg] at b1 b2
    rw [inner_neg_left] at b1
    exact ⟨by linarith, b2⟩

/-- **C83** (linear convergence).  On a `μ`-strongly convex `L`-smooth function, with a line search that satisfies the weak Wolfe
conditions (constants `0 < c1`, `c2 < 1`) along the directions it is given, L-BFGS with any history size, with or without `use_gamma`,
converges linearly: the excess over the value at any point `y` contracts by the same factor `1 - lbfgsRate < 1` per iteration, and so do
the squared distances to the minimiser, up to a constant. -/
theorem C83_linear (S : Lbfgs ℝ V ℝ) (hvd : ∀ u v, S.vdot u v = inner ℝ u v) (hl : S.GradSound) (μ L : ℝ) (hμ : 0 < μ) (hL : μ ≤ L)
    (hsm : LSmooth S.f S.grad L) (hsc : StrongConvexWith S.f S.grad μ) (c1 c2 : ℝ) (hc1 : 0 < c1) (hc2 : c2 < 1) (x0 : V) (n : ℕ)
    (hne : ∀ k < n, S.grad (S.iter x0 k).1 ≠ 0)
    (hw : ∀ k < n, inner ℝ (S.grad (S.iter x0 k).1) (S.direction (S.iter x0 k).2) < 0 →
      WeakWolfe S.f S.grad c1 c2 (S.iter x0 k).1 (S.direction (S.iter x0 k).2) (S.iter x0 (k + 1)).1) :
    0 < lbfgsRate μ L c1 c2 S.historySize ∧
    (∀ y, S.f (S.iter x0 n).1 - S.f y ≤ (1 - lbfgsRate μ L c1 c2 S.historySize) ^ n * (S.f x0 - S.f y)) ∧
    (∀ xs, S.grad xs = 0 →
      ‖(S.iter x0 n).1 - xs‖ ^ 2 ≤ 2 / μ * ((1 - lbfgsRate μ L c1 c2 S.historySize) ^ n * (S.f x0 - S.f xs))) := by
  have hL0 : 0 < L := lt_of_lt_of_le hμ hL
  set m := S.historySize with hmd
  have hh := lbfgsLower_pos hL0 m
  have hC := lbfgsUpper_pos hμ hL m
  set h := lbfgsLower L m with hhd
  set C := lbfgsUpper μ L m with hCd
  have hA : 0 < c1 * (1 - c2) / L := div_pos (mul_pos hc1 (by linarith)) hL0
  set A := c1 * (1 - c2) / L with hAd
  have hδe : lbfgsRate μ L c1 c2 m = 2 * μ * (A * (h / C) ^ 2) := by
    simp only [lbfgsRate]; rw [← hhd, ← hCd, ← hAd]; ring
  have hδ0 : 0 < lbfgsRate μ L c1 c2 m := by rw [hδe]; positivity
  set δ := lbfgsRate μ L c1 c2 m with hδd
  -- one iteration
  have one : ∀ k < n, A * (h / C) ^ 2 * ‖S.grad (S.iter x0 k).1‖ ^ 2 ≤ S.f (S.iter x0 k).1 - S.f (S.iter x0 (k + 1)).1 := by
    intro k hk
    obtain ⟨d1, d2⟩ := S.C83_direction hvd hl μ L hμ hL hsm hsc x0 k
    rw [← hmd, ← hhd] at d1
    rw [← hmd, ← hCd] at d2
    have hgn : 0 < ‖S.grad (S.iter x0 k).1‖ := norm_pos_iff.mpr (hne k hk)
    have hneg : inner ℝ (S.grad (S.iter x0 k).1) (S.direction (S.iter x0 k).2) < 0 := by
      have : 0 < h * ‖S.grad (S.iter x0 k).1‖ ^ 2 := by positivity
      linarith
    have hdec := C82_decrease S.f S.grad L hL0 hsm c1 c2 hc1.le hc2.le _ _ _ hneg (hw k hk hneg)
    rw [← hAd] at hdec
    refine le_trans ?_ hdec
    set G := ‖S.grad (S.iter x0 k).1‖
    set s := inner ℝ (S.grad (S.iter x0 k).1) (S.direction (S.iter x0 k).2)
    set D := ‖S.direction (S.iter x0 k).2‖
    have hD0 : 0 ≤ D := norm_nonneg _
    have hDp : 0 < D := by
      rcases lt_or_eq_of_le hD0 with h1 | h1
      · exact h1
      · have h2 : S.direction (S.iter x0 k).2 = 0 := norm_eq_zero.mp h1.symm
        have h3 : s = 0 := by show inner ℝ _ (S.direction (S.iter x0 k).2) = 0; rw [h2, inner_zero_right]
        linarith
    rw [mul_assoc]
    apply mul_le_mul_of_nonneg_left _ hA.le
    rw [le_div_iff₀ (by positivity), div_pow, div_mul_eq_mul_div, div_mul_eq_mul_div, div_le_iff₀ (by positivity)]
    have h1 : (h * G ^ 2) ^ 2 ≤ s ^ 2 := by
      have : 0 ≤ h * G ^ 2 := by positivity
      nlinarith
    have h2 : D ^ 2 ≤ (C * G) ^ 2 := pow_le_pow_left₀ hD0 d2 2
    calc h ^ 2 * G ^ 2 * D ^ 2 ≤ h ^ 2 * G ^ 2 * (C * G) ^ 2 := mul_le_mul_of_nonneg_left h2 (by positivity)
      _ = (h * G ^ 2) ^ 2 * C ^ 2 := by ring
      _ ≤ s ^ 2 * C ^ 2 := mul_le_mul_of_nonneg_right h1 (by positivity)
  have contr : ∀ k < n, ∀ y, S.f (S.iter x0 (k + 1)).1 - S.f y ≤ (1 - δ) * (S.f (S.iter x0 k).1 - S.f y) := by
    intro k hk y
    have h1 := one k hk
    have h2 := hsc.grad_bound hμ (S.iter x0 k).1 y
    have hq : 0 ≤ A * (h / C) ^ 2 := by positivity
    have h3 := mul_le_mul_of_nonneg_left h2 hq
    rw [hδe]
    nlinarith
  have hδ1 : 0 < n → δ ≤ 1 := by
    intro hn
    have h1 := one 0 hn
    have h2 := contr 0 hn (S.iter x0 1).1
    have hgn : 0 < ‖S.grad (S.iter x0 0).1‖ := norm_pos_iff.mpr (hne 0 hn)
    have hq : 0 < A * (h / C) ^ 2 * ‖S.grad (S.iter x0 0).1‖ ^ 2 := by positivity
    have h4 : 0 < S.f (S.iter x0 0).1 - S.f (S.iter x0 1).1 := lt_of_lt_of_le hq h1
    rw [zero_add, sub_self] at h2
    by_contra hcon
    rw [not_le] at hcon
    nlinarith
  have main : ∀ y, S.f (S.iter x0 n).1 - S.f y ≤ (1 - δ) ^ n * (S.f x0 - S.f y) := by
    intro y
    have : ∀ k ≤ n, S.f (S.iter x0 k).1 - S.f y ≤ (1 - δ) ^ k * (S.f x0 - S.f y) := by
      intro k
      induction k with
      | zero => intro _; simp [iter]
      | succ k ih =>
        intro hk
        have h1 := contr k (by omega) y
        have h2 := mul_le_mul_of_nonneg_left (ih (by omega)) (show 0 ≤ 1 - δ by have := hδ1 (by omega); linarith)
        rw [pow_succ']
        linarith
    exact this n (le_refl _)
  refine ⟨hδ0, main, ?_⟩
  intro xs hxs
  have h1 := hsc xs (S.iter x0 n).1
  rw [hxs, inner_zero_left, add_zero] at h1
  have h2 := main xs
  rw [div_mul_eq_mul_div, le_div_iff₀ hμ]
  linarith

/-! ### Example: `x² / 2` on the reals, stepsize `1/2`, five memory slots -/

/-- The example solver. -/
noncomputable def exHalf : Lbfgs ℝ ℝ ℝ where
  f := fun x => x ^ 2 / 2
  grad := fun x => x
  vdot := fun x y => inner ℝ x y
  norm := fun x => |x|
  historySize := 5
  useGamma := true
  stepsize := .const (1 / 2)
  maxStepsize := 1
  initStep := fun s => s
  stopIfLinesearchFails := false
  tol := 1 / 1000
  maxiter := 10
  unroll := false
  jit := true
  runLs := fun s x v g d => ⟨s, x, v, x, true⟩

theorem exHalf_iter (x0 : ℝ) (k : ℕ) : (exHalf.iter x0 k).2.grad = (exHalf.iter x0 k).1 := exHalf.grad_iter (fun _ _ _ _ _ => rfl) x0 k

theorem exHalf_dir (x0 : ℝ) (k : ℕ) : exHalf.direction (exHalf.iter x0 k).2 = -(exHalf.iter x0 k).1 := by
  have hv : IsVdot exHalf.vdot :=
    { add_left := fun x y z => inner_add_left x y z
      smul_left := fun a x z => by show inner ℝ (a • x) z = _; rw [inner_smul_left]; rfl
      symm := fun x y => real_inner_comm y x
      pos := fun x hx => by
        show 0 < inner ℝ x x
        rw [real_inner_self_eq_norm_sq]
        have := norm_pos_iff.mpr hx
        positivity }
  have hs : ∀ j, (exHalf.pair x0 j).2 = (exHalf.pair x0 j).1 := fun j => by simp only [pair, exHalf_iter]
  have hγ : (exHalf.iter x0 k).2.gamma = 1 := by
    cases k with
    | zero => rfl
    | succ k =>
      obtain ⟨_, c1, c2, _⟩ := exHalf.C24_gamma hv x0 k
      by_cases h0 : (exHalf.pair x0 k).2 = 0
      · exact c2 (Or.inr (Or.inr h0))
      · rw [c1 (by show 1 ≤ 5; omega) rfl h0, hs]
        rw [hs] at h0
        exact div_self (hv.pos _ h0).ne'
  have hid : ∀ (l : List (ℝ × ℝ)) (H : ℝ → ℝ), (∀ v, H v = v) → (∀ p ∈ l, p.2 = p.1) → ∀ v, l.foldl (bfgsUpdate exHalf.vdot) H v = v := by
    intro l
    induction l with
    | nil => intro H hH _ v; exact hH v
    | cons p l ih =>
      intro H hH hp v
      rw [List.foldl_cons]
      refine ih _ ?_ (fun q hq => hp q (List.mem_cons_of_mem _ hq)) v
      intro w
      have hpe := hp p List.mem_cons_self
      unfold bfgsUpdate
      by_cases h0 : exHalf.vdot p.1 p.2 = 0
      · rw [if_pos h0]; exact hH w
      · rw [if_neg h0]
        simp only [hH, hpe]
        rw [hpe] at h0
        have e : ∀ a b : ℝ, exHalf.vdot a b = a * b := fun a b => by show inner ℝ a b = a * b; simp [mul_comm]
        simp only [e, smul_eq_mul] at h0 ⊢
        have h1 : p.1 ≠ 0 := fun h => h0 (by rw [h, mul_zero])
        field_simp
        ring
  rw [exHalf.C24_direction hv (by show 1 ≤ 5; omega) x0 k, hγ, exHalf_iter]
  refine hid _ _ (fun v => one_smul ℝ v) ?_ _
  intro p hp
  simp only [lastPairs, List.mem_map] at hp
  obtain ⟨j, _, rfl⟩ := hp
  exact hs j

/-- The hypotheses of `C83_linear` hold along the whole run from `1` (which halves the point at every iteration). -/
example (n : ℕ) : 0 < lbfgsRate 1 1 (1 / 4) (1 / 2) 5 ∧
    (∀ y : ℝ, (exHalf.iter 1 n).1 ^ 2 / 2 - y ^ 2 / 2 ≤ (1 - lbfgsRate 1 1 (1 / 4) (1 / 2) 5) ^ n * (1 ^ 2 / 2 - y ^ 2 / 2)) := by
  have hx : ∀ k, (exHalf.iter 1 (k + 1)).1 = (exHalf.iter 1 k).1 / 2 := by
    intro k
    rw [iter_succ]
    have e : (exHalf.update (exHalf.iter 1 k)).1 =
        (exHalf.iter 1 k).1 + (1 / 2 : ℝ) • exHalf.direction (exHalf.iter 1 k).2 := by
      have h : ¬ ((1 / 2 : ℝ) ≤ 0) := by norm_num
      simp only [update, step, exHalf, h, if_false]
    rw [e, exHalf_dir, smul_eq_mul]; ring
  have hpos : ∀ k, 0 < (exHalf.iter 1 k).1 := by
    intro k
    induction k with
    | zero => exact one_pos
    | succ k ih => rw [hx]; linarith
  have hin : ∀ a b : ℝ, inner ℝ a b = a * b := fun a b => by simp [mul_comm]
  have h := exHalf.C83_linear (fun _ _ => rfl) (fun _ _ _ _ _ => rfl) 1 1 one_pos (le_refl _)
    (by
      refine ⟨fun x => ?_, fun x y => by show ‖x - y‖ ≤ 1 * ‖x - y‖; rw [one_mul]⟩
      have h1 : HasDerivAt (fun x : ℝ => x ^ 2 / 2) x x := by
        have := (hasDerivAt_pow 2 x).div_const 2
        simpa using this
      exact h1.hasGradientAt') (by
      intro x y
      show x ^ 2 / 2 + inner ℝ x (y - x) + 1 / 2 * ‖y - x‖ ^ 2 ≤ y ^ 2 / 2
      rw [hin, Real.norm_eq_abs, sq_abs]
      nlinarith) (1 / 4) (1 / 2) (by norm_num) (by norm_num) 1 n (fun k _ => (hpos k).ne') (by
      intro k _ _
      refine ⟨1 / 2, by norm_num, ?_, ?_, ?_⟩
      · rw [hx, exHalf_dir, smul_eq_mul]; ring
      · rw [hx, exHalf_dir]
        show ((exHalf.iter 1 k).1 / 2) ^ 2 / 2 ≤ (exHalf.iter 1 k).1 ^ 2 / 2 + 1 / 4 * (1 / 2) * inner ℝ (exHalf.iter 1 k).1 _
        rw [hin]
        nlinarith [sq_nonneg (exHalf.iter 1 k).1]
      · rw [hx, exHalf_dir]
        show 1 / 2 * inner ℝ (exHalf.iter 1 k).1 _ ≤ inner ℝ ((exHalf.iter 1 k).1 / 2) _
        rw [hin, hin]
        nlinarith)
  exact ⟨h.1, h.2.1⟩

end Lbfgs

end Jaxopt.QuasiNewton
