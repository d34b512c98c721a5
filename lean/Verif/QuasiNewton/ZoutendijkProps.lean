import Verif.QuasiNewton.NonlinearCGProps
import Verif.LineSearch.Zoom
import Verif.Num.Smooth
import Mathlib.Analysis.PSeries

/-!
# Property C82: convergence of NonlinearCG with Wolfe line searches

Zoutendijk's bound for steps satisfying the Wolfe conditions (what the zoom line search guarantees when it succeeds, see C20), the
global convergence of the Fletcher-Reeves method it implies when the curvature constant is below `1/2`, and what happens with the default
curvature constant `0.9` of the line searches (zoom_linesearch.py line 236), which `_setup_linesearch` does not change for NonlinearCG
(linesearch_util.py lines 48-58).
-/

set_option autoImplicit false
set_option linter.unusedSectionVars false
set_option linter.unusedVariables false

namespace Jaxopt.QuasiNewton

open Jaxopt.Base

section Real
variable {V : Type*} [NormedAddCommGroup V] [InnerProductSpace ℝ V] [CompleteSpace V]

/-- `x'` is reached from `x` by a step along `d` that satisfies the strong Wolfe conditions with constants `c1`, `c2`. -/
def StrongWolfe (f : V → ℝ) (g : V → V) (c1 c2 : ℝ) (x d x' : V) : Prop :=
  ∃ t : ℝ, 0 ≤ t ∧ x' = x + t • d ∧ f x' ≤ f x + c1 * t * inner ℝ (g x) d ∧ |inner ℝ (g x') d| ≤ c2 * |inner ℝ (g x) d|

/-- The weak form: the curvature condition bounds the slope from one side only. -/
def WeakWolfe (f : V → ℝ) (g : V → V) (c1 c2 : ℝ) (x d x' : V) : Prop :=
  ∃ t : ℝ, 0 ≤ t ∧ x' = x + t • d ∧ f x' ≤ f x + c1 * t * inner ℝ (g x) d ∧ c2 * inner ℝ (g x) d ≤ inner ℝ (g x') d

omit [CompleteSpace V] in
theorem StrongWolfe.weak {f : V → ℝ} {g : V → V} {c1 c2 : ℝ} {x d x' : V} (hd : inner ℝ (g x) d < 0) (h : StrongWolfe f g c1 c2 x d x') :
    WeakWolfe f g c1 c2 x d x' := by
  obtain ⟨t, h1, h2, h3, h4⟩ := h
  refine ⟨t, h1, h2, h3, ?_⟩
  rw [abs_of_neg hd] at h4
  have := (abs_le.mp h4).1
  linarith

/-- **C82** (Zoutendijk).  On an `L`-smooth function, a step along a descent direction that satisfies the Wolfe conditions decreases the
function by at least `c1 (1 - c2) / L * ⟨g, d⟩² / ‖d‖²`. -/
theorem C82_decrease (f : V → ℝ) (g : V → V) (L : ℝ) (hL : 0 < L) (hsm : LSmooth f g L) (c1 c2 : ℝ) (hc1 : 0 ≤ c1) (hc2 : c2 ≤ 1)
    (x d x' : V) (hd : inner ℝ (g x) d < 0) (hw : WeakWolfe f g c1 c2 x d x') :
    c1 * (1 - c2) / L * ((inner ℝ (g x) d) ^ 2 / ‖d‖ ^ 2) ≤ f x - f x' := by
  obtain ⟨t, ht, hx, ha, h1⟩ := hw
  set s := inner ℝ (g x) d with hs
  have hdn : 0 < ‖d‖ ^ 2 := by
    have : d ≠ 0 := by
      intro h0; rw [hs, h0, inner_zero_right] at hd; exact lt_irrefl _ hd
    have := norm_pos_iff.mpr this
    positivity
  have h2 : inner ℝ (g x' - g x) d ≤ L * t * ‖d‖ ^ 2 := by
    have a1 := real_inner_le_norm (g x' - g x) d
    have a2 := hsm.lip x' x
    have e : x' - x = t • d := by rw [hx]; abel
    rw [e, norm_smul, Real.norm_of_nonneg ht] at a2
    have a3 := mul_le_mul_of_nonneg_right a2 (norm_nonneg d)
    nlinarith
  rw [inner_sub_left] at h2
  have h3 : (1 - c2) * (-s) / (L * ‖d‖ ^ 2) ≤ t := by
    rw [div_le_iff₀ (by positivity)]
    nlinarith
  have h4 : c1 * (-s) * ((1 - c2) * (-s) / (L * ‖d‖ ^ 2)) ≤ c1 * (-s) * t :=
    mul_le_mul_of_nonneg_left h3 (mul_nonneg hc1 (by linarith))
  have h5 : c1 * (-s) * ((1 - c2) * (-s) / (L * ‖d‖ ^ 2)) = c1 * (1 - c2) / L * (s ^ 2 / ‖d‖ ^ 2) := by
    field_simp
  rw [h5] at h4
  linarith

/-- **C82** (sum).  Along a sequence of such steps the terms `⟨g, d⟩² / ‖d‖²` are summable: their sum is at most
`L / (c1 (1 - c2))` times the total decrease of the function.  This holds for the iterates of every solver of this library with such
steps, whatever the directions. -/
theorem C82_zoutendijk (f : V → ℝ) (g : V → V) (L : ℝ) (hL : 0 < L) (hsm : LSmooth f g L) (c1 c2 : ℝ) (hc1 : 0 < c1) (hc2 : c2 < 1)
    (x d : ℕ → V) (n : ℕ) (hd : ∀ k < n, inner ℝ (g (x k)) (d k) < 0)
    (hw : ∀ k < n, WeakWolfe f g c1 c2 (x k) (d k) (x (k + 1))) :
    ∑ k ∈ Finset.range n, (inner ℝ (g (x k)) (d k)) ^ 2 / ‖d k‖ ^ 2 ≤ L / (c1 * (1 - c2)) * (f (x 0) - f (x n)) := by
  have hpos : 0 < c1 * (1 - c2) := mul_pos hc1 (by linarith)
  have key : ∀ m ≤ n, c1 * (1 - c2) / L * ∑ k ∈ Finset.range m, (inner ℝ (g (x k)) (d k)) ^ 2 / ‖d k‖ ^ 2 ≤ f (x 0) - f (x m) := by
    intro m
    induction m with
    | zero => intro _; simp
    | succ m ih =>
      intro hm
      have h1 := ih (by omega)
      have h2 := C82_decrease f g L hL hsm c1 c2 hc1.le hc2.le (x m) (d m) (x (m + 1)) (hd m (by omega)) (hw m (by omega))
      rw [Finset.sum_range_succ, mul_add]
      linarith
  have h1 := key n (le_refl _)
  rw [div_mul_eq_mul_div, div_le_iff₀ hL] at h1
  rw [div_mul_eq_mul_div, le_div_iff₀ hpos]
  linarith

/-- **C82** (Fletcher-Reeves).  Let the objective be `L`-smooth and bounded below, the method Fletcher-Reeves, and let every line search
along a descent direction satisfy the strong Wolfe conditions with constants `0 < c1` and `c2 < 1/2`.  Then gradients of arbitrarily small
norm occur among the iterates (also with the clipped denominators of beta), so a run with `tol > 0` and enough iterations stops. -/
theorem C82_fletcher_reeves (S : NCG ℝ V ℝ) (hvd : ∀ u v, S.vdot u v = inner ℝ u v) (hm : S.method = .fletcherReeves) (hl : S.LsSound)
    (L : ℝ) (hL : 0 < L) (hsm : LSmooth S.f S.grad L) (fmin : ℝ) (hmin : ∀ x, fmin ≤ S.f x) (c1 c2 : ℝ) (hc1 : 0 < c1) (hc2 : 0 ≤ c2)
    (hc2' : c2 < 1 / 2) (x0 : V)
    (hw : ∀ k, inner ℝ (S.grad (S.iterate x0 k).1) (S.iterate x0 k).2.descentDirection < 0 →
      StrongWolfe S.f S.grad c1 c2 (S.iterate x0 k).1 (S.iterate x0 k).2.descentDirection (S.iterate x0 (k + 1)).1)
    (ε : ℝ) (hε : 0 < ε) : ∃ k, ‖S.grad (S.iterate x0 k).1‖ ≤ ε := by
  by_contra hcon
  push Not at hcon
  have hv : IsVdot S.vdot :=
    { add_left := fun x y z => by rw [hvd, hvd, hvd, inner_add_left]
      smul_left := fun a x z => by rw [hvd, hvd, inner_smul_left]; rfl
      symm := fun x y => by rw [hvd, hvd, real_inner_comm]
      pos := fun x hx => by
        rw [hvd, real_inner_self_eq_norm_sq]
        have := norm_pos_iff.mpr hx
        positivity }
  have hgr : ∀ l, (S.iterate x0 l).2.grad = S.grad (S.iterate x0 l).1 := fun l => (S.grad_iterate hl x0 l).1
  have hne : ∀ l, (S.iterate x0 l).2.grad ≠ 0 := by
    intro l h0
    have := hcon l
    rw [← hgr, h0, norm_zero] at this
    linarith
  set G : ℕ → ℝ := fun l => ‖S.grad (S.iterate x0 l).1‖ ^ 2 with hG
  set D : ℕ → ℝ := fun l => ‖(S.iterate x0 l).2.descentDirection‖ ^ 2 with hD
  set s : ℕ → ℝ := fun l => inner ℝ (S.grad (S.iterate x0 l).1) (S.iterate x0 l).2.descentDirection with hs
  have hGe : ∀ l, ε ^ 2 ≤ G l := fun l => by
    have := hcon l
    simp only [hG]
    nlinarith [norm_nonneg (S.grad (S.iterate x0 l).1)]
  have hε2 : 0 < ε ^ 2 := by positivity
  have hGp : ∀ l, 0 < G l := fun l => lt_of_lt_of_le hε2 (hGe l)
  have curv : ∀ j, s j < 0 → |inner ℝ (S.grad (S.iterate x0 (j + 1)).1) (S.iterate x0 j).2.descentDirection| ≤ c2 * |s j| := by
    intro j hj
    obtain ⟨t, _, _, _, h⟩ := hw j hj
    exact h
  -- the bounds on the slopes
  have hb : ∀ k, ∀ j ≤ k, 0 < -s j ∧ -s j * (1 - c2) ≤ G j ∧ (1 - 2 * c2) * G j ≤ -s j * (1 - c2) := by
    intro k
    have conv : ∀ k, (∀ j < k, s j < 0) → ∀ j ≤ k, 0 < -s j ∧ -s j * (1 - c2) ≤ G j ∧ (1 - 2 * c2) * G j ≤ -s j * (1 - c2) := by
      intro k hk j hj
      have := S.fletcher_reeves_bounds hv hm hc2 hc2' x0 k (fun i hi => by
        rw [hvd, hvd, hgr, hgr]; exact curv i (hk i hi)) (fun i _ => hne i) j hj
      rw [hvd, hvd, hgr, real_inner_self_eq_norm_sq] at this
      exact this
    induction k with
    | zero => exact conv 0 (fun j hj => by omega)
    | succ k ih => exact conv (k + 1) (fun j hj => by have := (ih j (by omega)).1; linarith)
  have hneg : ∀ j, s j < 0 := fun j => by have := (hb j j (le_refl _)).1; linarith
  have hup : ∀ j, -s j * (1 - c2) ≤ G j := fun j => (hb j j (le_refl _)).2.1
  have hlo : ∀ j, (1 - 2 * c2) * G j ≤ -s j * (1 - c2) := fun j => (hb j j (le_refl _)).2.2
  have hq : 0 < 1 - c2 := by linarith
  set B := (1 + c2) / (1 - c2) with hB
  have hB1 : 1 ≤ B := by rw [hB, le_div_iff₀ hq]; linarith
  -- growth of the directions
  have hgrow : ∀ k : ℕ, D k ≤ B * ((k : ℝ) + 1) / ε ^ 2 * G k ^ 2 := by
    intro k
    induction k with
    | zero =>
      have e : D 0 = G 0 := by
        simp only [hD, hG]
        show ‖(-1 : ℝ) • S.grad x0‖ ^ 2 = ‖S.grad x0‖ ^ 2
        rw [neg_smul, one_smul, norm_neg]
      rw [e]
      have h1 := hGe 0
      have h2 := hGp 0
      rw [Nat.cast_zero, zero_add, mul_one, div_mul_eq_mul_div, le_div_iff₀ hε2]
      have : G 0 * ε ^ 2 ≤ G 0 * G 0 := mul_le_mul_of_nonneg_left h1 h2.le
      nlinarith
    | succ k ih =>
      have hGk := hGp k
      have hGk' := hGp (k + 1)
      set β := G (k + 1) / clipEps (G k) with hβ
      have hc := clipEps_pos (G k)
      have hβ0 : 0 ≤ β := div_nonneg hGk'.le hc.le
      have hβ1 : β ≤ G (k + 1) / G k := div_le_div_of_nonneg_left hGk'.le hGk (le_clipEps _)
      have hdir : (S.iterate x0 (k + 1)).2.descentDirection = -S.grad (S.iterate x0 (k + 1)).1 + β • (S.iterate x0 k).2.descentDirection := by
        have e1 : (S.iterate x0 (k + 1)).2.descentDirection = (-1 : ℝ) • (S.iterate x0 (k + 1)).2.grad +
            cgBeta S.vdot S.method (S.iterate x0 k).2.grad (S.iterate x0 (k + 1)).2.grad (S.iterate x0 k).2.descentDirection •
              (S.iterate x0 k).2.descentDirection := by
          rw [NCG.iterate_succ]; rfl
        have e2 : cgBeta S.vdot S.method (S.iterate x0 k).2.grad (S.iterate x0 (k + 1)).2.grad (S.iterate x0 k).2.descentDirection = β := by
          rw [hm]
          simp only [cgBeta, Jaxopt.Proj.relu, hvd, hgr, real_inner_self_eq_norm_sq]
          exact max_eq_left hβ0
        rw [e1, e2, hgr, neg_smul, one_smul]
      set a := inner ℝ (S.grad (S.iterate x0 (k + 1)).1) (S.iterate x0 k).2.descentDirection with ha
      have hexp : D (k + 1) = G (k + 1) - 2 * β * a + β ^ 2 * D k := by
        simp only [hD, hG]
        rw [hdir, ← sub_eq_neg_add, norm_sub_sq_real, norm_smul, mul_pow, Real.norm_eq_abs, sq_abs, inner_smul_left,
          real_inner_comm]
        simp only [ha, RCLike.conj_to_real]
        ring
      have hca : |a| * (1 - c2) ≤ c2 * G k := by
        have h1 := curv k (hneg k)
        rw [abs_of_neg (hneg k)] at h1
        have h2 := hup k
        have h3 : |a| * (1 - c2) ≤ c2 * (-s k) * (1 - c2) := mul_le_mul_of_nonneg_right h1 hq.le
        nlinarith
      have hba : -(2 * β * a) ≤ 2 * c2 / (1 - c2) * G (k + 1) := by
        have h1 : -a ≤ |a| := neg_le_abs a
        have h2 : β * |a| ≤ G (k + 1) / G k * |a| := mul_le_mul_of_nonneg_right hβ1 (abs_nonneg a)
        have h3 : G (k + 1) / G k * |a| ≤ c2 / (1 - c2) * G (k + 1) := by
          rw [div_mul_eq_mul_div, div_mul_eq_mul_div, div_le_div_iff₀ hGk hq]
          nlinarith
        have h4 : β * (-a) ≤ β * |a| := mul_le_mul_of_nonneg_left h1 hβ0
        have h5 : 2 * c2 / (1 - c2) * G (k + 1) = 2 * (c2 / (1 - c2) * G (k + 1)) := by ring
        rw [h5]
        linarith
      have hbd : β ^ 2 * D k ≤ B * ((k : ℝ) + 1) / ε ^ 2 * G (k + 1) ^ 2 := by
        have h1 : β ^ 2 ≤ (G (k + 1) / G k) ^ 2 := pow_le_pow_left₀ hβ0 hβ1 2
        have h2 : (0 : ℝ) ≤ D k := by simp only [hD]; positivity
        calc β ^ 2 * D k ≤ (G (k + 1) / G k) ^ 2 * D k := mul_le_mul_of_nonneg_right h1 h2
          _ ≤ (G (k + 1) / G k) ^ 2 * (B * ((k : ℝ) + 1) / ε ^ 2 * G k ^ 2) := mul_le_mul_of_nonneg_left ih (sq_nonneg _)
          _ = B * ((k : ℝ) + 1) / ε ^ 2 * G (k + 1) ^ 2 := by field_simp
      have hfirst : G (k + 1) + 2 * c2 / (1 - c2) * G (k + 1) = B * G (k + 1) := by
        rw [hB]; field_simp; ring
      have hlast : B * G (k + 1) ≤ B / ε ^ 2 * G (k + 1) ^ 2 := by
        have e : B / ε ^ 2 * G (k + 1) ^ 2 = B * G (k + 1) ^ 2 / ε ^ 2 := by ring
        rw [e, le_div_iff₀ hε2]
        have : G (k + 1) * ε ^ 2 ≤ G (k + 1) * G (k + 1) := mul_le_mul_of_nonneg_left (hGe _) hGk'.le
        nlinarith
      rw [hexp]
      push_cast
      have e3 : B * ((k : ℝ) + 1 + 1) / ε ^ 2 * G (k + 1) ^ 2 =
          B / ε ^ 2 * G (k + 1) ^ 2 + B * ((k : ℝ) + 1) / ε ^ 2 * G (k + 1) ^ 2 := by ring
      rw [e3]
      linarith
  -- the terms of Zoutendijk's sum are at least C / (k + 1)
  set C := ((1 - 2 * c2) / (1 - c2)) ^ 2 * ε ^ 2 / B with hC
  have hCp : 0 < C := by
    rw [hC]
    have : 0 < (1 - 2 * c2) / (1 - c2) := div_pos (by linarith) hq
    positivity
  have hterm : ∀ k : ℕ, C * (1 / ((k : ℝ) + 1)) ≤ s k ^ 2 / D k := by
    intro k
    have hDp : 0 < D k := by
      have : (S.iterate x0 k).2.descentDirection ≠ 0 := by
        intro h0
        have := hneg k
        simp only [hs] at this
        rw [h0, inner_zero_right] at this
        exact lt_irrefl _ this
      have := norm_pos_iff.mpr this
      simp only [hD]; positivity
    have h1 : (1 - 2 * c2) / (1 - c2) * G k ≤ -s k := by
      rw [div_mul_eq_mul_div, div_le_iff₀ hq]; exact hlo k
    have h2 : ((1 - 2 * c2) / (1 - c2) * G k) ^ 2 ≤ s k ^ 2 := by
      have h3 : 0 ≤ (1 - 2 * c2) / (1 - c2) * G k := mul_nonneg (div_nonneg (by linarith) hq.le) (hGp k).le
      have := pow_le_pow_left₀ h3 h1 2
      rwa [neg_sq] at this
    rw [le_div_iff₀ hDp]
    refine le_trans ?_ h2
    have hk1 : (0 : ℝ) < (k : ℝ) + 1 := by positivity
    have h4 := mul_le_mul_of_nonneg_left (hgrow k) (show 0 ≤ C * (1 / ((k : ℝ) + 1)) by positivity)
    refine le_trans h4 (le_of_eq ?_)
    rw [hC]
    have hBp : B ≠ 0 := by linarith
    field_simp
  have hsum : ∀ n : ℕ, C * ∑ k ∈ Finset.range n, (1 / ((k : ℝ) + 1)) ≤ L / (c1 * (1 - c2)) * (S.f x0 - fmin) := by
    intro n
    have hz := C82_zoutendijk S.f S.grad L hL hsm c1 c2 hc1 (by linarith) (fun k => (S.iterate x0 k).1)
      (fun k => (S.iterate x0 k).2.descentDirection) n (fun k _ => hneg k) (fun k _ => (hw k (hneg k)).weak (hneg k))
    have h1 : C * ∑ k ∈ Finset.range n, (1 / ((k : ℝ) + 1)) ≤ ∑ k ∈ Finset.range n, s k ^ 2 / D k := by
      rw [Finset.mul_sum]
      exact Finset.sum_le_sum fun k _ => hterm k
    have h2 : L / (c1 * (1 - c2)) * (S.f (S.iterate x0 0).1 - S.f (S.iterate x0 n).1) ≤ L / (c1 * (1 - c2)) * (S.f x0 - fmin) := by
      refine mul_le_mul_of_nonneg_left ?_ (div_nonneg hL.le (mul_nonneg hc1.le hq.le))
      have := hmin (S.iterate x0 n).1
      have e : (S.iterate x0 0).1 = x0 := rfl
      rw [e]; linarith
    exact le_trans h1 (le_trans hz h2)
  have ht := Real.tendsto_sum_range_one_div_nat_succ_atTop
  rw [Filter.tendsto_atTop] at ht
  obtain ⟨n, hn⟩ := (ht ((L / (c1 * (1 - c2)) * (S.f x0 - fmin)) / C + 1)).exists
  have h1 := hsum n
  have h2 := mul_le_mul_of_nonneg_left hn hCp.le
  rw [mul_add, mul_div_cancel₀ _ (ne_of_gt hCp)] at h2
  linarith

end Real

/-- Non-vacuity: on `x²/2`, the step `1/2` from `1` along `-1` satisfies the strong Wolfe conditions with `c1 = 1/4`, `c2 = 1/2`. -/
example : StrongWolfe (fun x : ℝ => x ^ 2 / 2) id (1 / 4) (1 / 2) 1 (-1) (1 / 2) ∧ inner ℝ (id (1 : ℝ)) (-1 : ℝ) < 0 := by
  refine ⟨⟨1 / 2, by norm_num, by norm_num, ?_, ?_⟩, ?_⟩ <;> simp [RCLike.inner_apply] <;> norm_num

/-! ## The default curvature constant -/

/-- The zoom line search as `_setup_linesearch` creates it for `NonlinearCG` (all attributes at their defaults, zoom_linesearch.py lines
225-246; `max_stepsize = 1`, `maxls = 30` from nonlinear_cg.py lines 124-128) on `f(x) = 37/40 x²`; the interpolation formulas are
arbitrary. -/
def exZoom (cubicmin : ℚ → Ext ℚ → Ext ℚ → ℚ → Ext ℚ → ℚ → Ext ℚ → Ext ℚ) (quadmin : ℚ → Ext ℚ → Ext ℚ → ℚ → Ext ℚ → Ext ℚ)
    (unroll : Bool) : Jaxopt.LineSearch.Zoom ℚ ℚ :=
  { f := fun x => .fin (37 / 40 * (x * x)), grad := fun x => 37 / 20 * x, vdot := fun x y => .fin (x * y), c1 := 1 / 10000, c2 := 9 / 10,
    c3 := 1 / 1000000, relTolCubic := 1 / 5, relTolQuad := 1 / 10, intervalThreshold := 1 / 1000000, increaseFactor := 2, tol := 0,
    maxiter := 30, maxStepsize := 1, cubicmin := cubicmin, quadmin := quadmin, unroll := unroll, jit := true }

/-- `NonlinearCG` with all attributes at their defaults (nonlinear_cg.py lines 114-138), with the given method. -/
def exNCGZoom (cubicmin : ℚ → Ext ℚ → Ext ℚ → ℚ → Ext ℚ → ℚ → Ext ℚ → Ext ℚ) (quadmin : ℚ → Ext ℚ → Ext ℚ → ℚ → Ext ℚ → Ext ℚ)
    (unroll : Bool) (m : CGMethod) : NCG ℚ ℚ (Ext ℚ) where
  f := fun x => .fin (37 / 40 * (x * x))
  grad := fun x => 37 / 20 * x
  vdot := fun x y => x * y
  norm := fun x => |x|
  method := m
  linesearch := "zoom"
  maxStepsize := 1
  initStep := fun s => if s ≤ 1 / 1000000 then 1 else s * (6 / 5)
  tol := 1 / 1000
  maxiter := 100
  unroll := unroll
  jit := true
  runLs := fun s x v g d =>
    match (exZoom cubicmin quadmin unroll).run s x (some v) (some g) d with
    | .ok r => ⟨r.1, r.2.params, r.2.value, r.2.grad, r.2.failed⟩
    | .error _ => ⟨0, x, v, g, true⟩

/-- The first update of the line search does not interpolate. -/
theorem exZoom_first (c : ℚ → Ext ℚ → Ext ℚ → ℚ → Ext ℚ → ℚ → Ext ℚ → Ext ℚ) (q : ℚ → Ext ℚ → Ext ℚ → ℚ → Ext ℚ → Ext ℚ) (unroll : Bool)
    (s x g d : ℚ) (v : Ext ℚ) :
    (exZoom c q unroll).update (s, (exZoom c q unroll).initState x (some v) (some g) (some d)) =
      (exZoom (fun _ _ _ _ _ _ _ => .nan) (fun _ _ _ _ _ => .nan) true).update
        (s, (exZoom (fun _ _ _ _ _ _ _ => .nan) (fun _ _ _ _ _ => .nan) true).initState x (some v) (some g) (some d)) := rfl

/-- **C82, the default options give no descent direction.**  With all options at their defaults (Polak-Ribière, zoom with `c2 = 0.9`) on
the convex quadratic `37/40 x²` from `x = 1`: the first line search succeeds with step `1`, the new point `-17/20` satisfies the strong Wolfe
conditions, and the next search direction is an *ascent* direction.  (`c2 < 1/2`, recommended for conjugate gradient methods, is not set by
`_setup_linesearch`.) -/
theorem C82_default_ascent_false (c : ℚ → Ext ℚ → Ext ℚ → ℚ → Ext ℚ → ℚ → Ext ℚ → Ext ℚ)
    (q : ℚ → Ext ℚ → Ext ℚ → ℚ → Ext ℚ → Ext ℚ) (unroll : Bool) :
    let S := exNCGZoom c q unroll .polakRibiere
    (S.lineSearch (S.iterate 1 0)).failed = false ∧ (S.iterate 1 1).1 = -17 / 20 ∧ (S.iterate 1 1).2.stepsize = 1 ∧
    (S.iterate 1 1).2.grad = S.grad (S.iterate 1 1).1 ∧
    0 < S.vdot (S.grad (S.iterate 1 1).1) (S.iterate 1 1).2.descentDirection := by
  intro S
  set Z := exZoom c q unroll with hZ
  set N := exZoom (fun _ _ _ _ _ _ _ => .nan) (fun _ _ _ _ _ => .nan) true with hN
  have hfirst := exZoom_first c q unroll (6 / 5) 1 (37 / 20) (-37 / 20) (.fin (37 / 40))
  rw [← hZ, ← hN] at hfirst
  have hfacts : (N.update (6 / 5, N.initState 1 (some (.fin (37 / 40))) (some (37 / 20)) (some (-37 / 20)))).2.done = true ∧
      (N.update (6 / 5, N.initState 1 (some (.fin (37 / 40))) (some (37 / 20)) (some (-37 / 20)))).2.failed = false ∧
      (N.update (6 / 5, N.initState 1 (some (.fin (37 / 40))) (some (37 / 20)) (some (-37 / 20)))).1 = 1 ∧
      (N.update (6 / 5, N.initState 1 (some (.fin (37 / 40))) (some (37 / 20)) (some (-37 / 20)))).2.params = -17 / 20 ∧
      (N.update (6 / 5, N.initState 1 (some (.fin (37 / 40))) (some (37 / 20)) (some (-37 / 20)))).2.grad = -629 / 400 := by
    rw [hN]; decide +kernel
  obtain ⟨f1, f2, f3, f4, f5⟩ := hfacts
  rw [← hfirst] at f1 f2 f3 f4 f5
  have hrun : Z.run (6 / 5) 1 (some (.fin (37 / 40))) (some (37 / 20)) (some (-37 / 20)) =
      .ok (Z.update (6 / 5, Z.initState 1 (some (.fin (37 / 40))) (some (37 / 20)) (some (-37 / 20)))) := by
    unfold Jaxopt.LineSearch.Zoom.run
    have hm : 1 ≤ Z.maxiter := by show 1 ≤ 30; omega
    have hj : Z.unroll = true ∨ Z.jit = true := Or.inr rfl
    obtain ⟨r, hr⟩ := runS_ok (fun _ => Z.initState 1 (some (.fin (37 / 40))) (some (37 / 20)) (some (-37 / 20))) Z.update
      (fun x => !(x.2.done || x.2.failed)) (6 / 5) hm hj
    rw [hr]
    congr 1
    refine runS_eq hr (k := 1) (le_refl _) hm (fun j h1 h2 => by omega) (Or.inr ?_)
    rw [Function.iterate_one, f1]
    rfl
  have h0 : S.lineSearch (S.iterate 1 0) = ⟨1, -17 / 20, (Z.update (6 / 5, Z.initState 1 (some (.fin (37 / 40))) (some (37 / 20))
      (some (-37 / 20)))).2.value, -629 / 400, false⟩ := by
    have e : S.lineSearch (S.iterate 1 0) = S.runLs (S.initStep 1) 1 (S.f 1) (S.grad 1) (some ((-1 : ℚ) • S.grad 1)) := by
      simp only [NCG.lineSearch, NCG.iterate, Function.iterate_zero, id, NCG.initState]
      rfl
    have e1 : S.initStep 1 = 6 / 5 := by
      show (if (1 : ℚ) ≤ 1 / 1000000 then (1 : ℚ) else 1 * (6 / 5)) = 6 / 5
      norm_num
    have e2 : S.grad 1 = 37 / 20 := by show (37 / 20 * 1 : ℚ) = _; norm_num
    have e3 : S.f 1 = .fin (37 / 40) := by show Ext.fin (37 / 40 * (1 * 1) : ℚ) = _; norm_num
    have e4 : (-1 : ℚ) • (37 / 20 : ℚ) = -37 / 20 := by norm_num
    rw [e, e1, e2, e3, e4]
    show (match Z.run (6 / 5) 1 (some (.fin (37 / 40))) (some (37 / 20)) (some (-37 / 20)) with
      | .ok r => (⟨r.1, r.2.params, r.2.value, r.2.grad, r.2.failed⟩ : LsOut ℚ ℚ (Ext ℚ))
      | .error _ => ⟨0, 1, .fin (37 / 40), 37 / 20, true⟩) = _
    rw [hrun]
    simp only [f2, f3, f4, f5]
  have hit : S.iterate 1 1 = S.update (S.iterate 1 0) := S.iterate_succ 1 0
  have hgrad : (S.iterate 1 1).2.grad = -629 / 400 := by rw [hit]; simp only [NCG.update, h0]
  have hx : (S.iterate 1 1).1 = -17 / 20 := by rw [hit]; simp only [NCG.update, h0]
  have hd : (S.iterate 1 1).2.descentDirection = (-1 : ℚ) • (-629 / 400 : ℚ) +
      cgBeta (fun x y : ℚ => x * y) .polakRibiere (37 / 20 * 1) (-629 / 400) ((-1 : ℚ) • (37 / 20 * 1)) • ((-1 : ℚ) • (37 / 20 * 1 : ℚ)) := by
    rw [hit]; simp only [NCG.update, h0]; rfl
  have hg2 : S.grad (S.iterate 1 1).1 = -629 / 400 := by
    rw [hx]; show (37 / 20 * (-17 / 20) : ℚ) = _; norm_num
  refine ⟨by rw [h0], hx, by rw [hit]; simp only [NCG.update, h0], by rw [hgrad, hg2], ?_⟩
  rw [hg2, hd]
  show (0 : ℚ) < (-629 / 400) * _
  decide +kernel

end Jaxopt.QuasiNewton
