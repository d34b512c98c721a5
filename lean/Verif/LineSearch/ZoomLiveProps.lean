import Verif.LineSearch.ZoomProps
import Verif.Num.Smooth

/-!
# Property C84: the zoom line search succeeds on smooth functions

With enough iterations the search never fails on a smooth convex function, nor on any smooth function when `1 - 2 c1 ≤ c2`; with the default
constants `c1 = 1e-4`, `c2 = 0.9` it can fail on a smooth function however many iterations are allowed.
-/

set_option autoImplicit false
set_option linter.unusedSectionVars false
set_option linter.unusedVariables false

namespace Jaxopt.LineSearch

open Jaxopt.Base

section Live
variable {E : Type*} [AddCommGroup E] [Module ℝ E]

/-- The restriction of the objective to the line: value `φ`, slope `φ'`, with `M`-Lipschitz slopes and a descent direction. -/
structure SmoothLine (ls : Zoom ℝ E) (p : Setup ℝ E) (φ φ' : ℝ → ℝ) (M : ℝ) : Prop where
  val : ∀ s, ls.f (p.x + s • p.d) = .fin (φ s)
  slope : ∀ s, ls.vdot (ls.grad (p.x + s • p.d)) p.d = .fin (φ' s)
  deriv : ∀ s, HasDerivAt φ (φ' s) s
  lip : ∀ s t, |φ' s - φ' t| ≤ M * |s - t|
  v0 : φ 0 = p.v0
  sl0 : φ' 0 = p.sl0
  neg : p.sl0 < 0

/-- The decrease condition with zero tolerance. -/
def Dec (ls : Zoom ℝ E) (p : Setup ℝ E) (φ φ' : ℝ → ℝ) (s : ℝ) : Prop :=
  φ s ≤ p.v0 + ls.c1 * s * p.sl0 ∨ (φ' s ≤ (2 * ls.c1 - 1) * p.sl0 ∧ φ s ≤ p.v0 + ls.c3 * |p.v0|)

theorem dec_iff (ls : Zoom ℝ E) (p : Setup ℝ E) (φ φ' : ℝ → ℝ) (s : ℝ) :
    Ext.gt (Zoom.clipErr (ls.decreaseError s (.fin (φ s)) (.fin (φ' s)) (.fin p.v0) (.fin p.sl0))) (.fin 0) = false ↔
      Dec ls p φ φ' s := by
  unfold Zoom.clipErr
  rw [Ext.nanToInf_max_gt_zero, decreaseError_atMost]
  simp [Dec, Ext.AtMost]

theorem dec_le (ls : Zoom ℝ E) (p : Setup ℝ E) (φ φ' : ℝ → ℝ) (s : ℝ) (ht : 0 ≤ ls.tol) (h : Dec ls p φ φ' s) :
    Ext.le (Zoom.clipErr (ls.decreaseError s (.fin (φ s)) (.fin (φ' s)) (.fin p.v0) (.fin p.sl0))) (.fin ls.tol) = true := by
  rw [← dec_iff] at h
  unfold Zoom.clipErr at h ⊢
  rw [Ext.nanToInf_max_gt_zero] at h
  rw [Ext.posPart_le' ht]
  exact h.mono ht

theorem cur_iff (ls : Zoom ℝ E) (p : Setup ℝ E) (φ' : ℝ → ℝ) (s : ℝ) (ht : 0 ≤ ls.tol) :
    Ext.le (Zoom.clipErr (ls.curvatureError (.fin (φ' s)) (.fin p.sl0))) (.fin ls.tol) = true ↔
      |φ' s| ≤ ls.c2 * |p.sl0| + ls.tol := by
  unfold Zoom.clipErr Zoom.curvatureError
  rw [Ext.posPart_le' ht]
  simp only [Ext.smul, Ext.abs]
  rw [Ext.atMost_sub]
  simp [Ext.AtMost]

/-- A decrease point that did not end the search violates the curvature condition. -/
theorem not_done_slope (ls : Zoom ℝ E) (p : Setup ℝ E) (φ φ' : ℝ → ℝ) (s : ℝ) (ht : 0 ≤ ls.tol) (h : Dec ls p φ φ' s)
    (hd : Ext.le (Ext.max (Zoom.clipErr (ls.decreaseError s (.fin (φ s)) (.fin (φ' s)) (.fin p.v0) (.fin p.sl0)))
      (Zoom.clipErr (ls.curvatureError (.fin (φ' s)) (.fin p.sl0)))) (.fin ls.tol) = false) : ls.c2 * |p.sl0| < |φ' s| := by
  by_contra hcon
  rw [not_lt] at hcon
  have : Ext.le (Ext.max (Zoom.clipErr (ls.decreaseError s (.fin (φ s)) (.fin (φ' s)) (.fin p.v0) (.fin p.sl0)))
      (Zoom.clipErr (ls.curvatureError (.fin (φ' s)) (.fin p.sl0)))) (.fin ls.tol) = true := by
    rw [Ext.max_le_iff]
    exact ⟨dec_le ls p φ φ' s ht h, (cur_iff ls p φ' s ht).mpr (by linarith)⟩
  rw [this] at hd
  cases hd

/-- Conditions on the attributes under which the search is live. -/
structure LiveOK (ls : Zoom ℝ E) (r : ℝ) : Prop where
  tol : 0 ≤ ls.tol
  max : 0 < ls.maxStepsize
  inc : 1 < ls.increaseFactor
  r0 : 0 < r
  half : r ≤ 1 / 2
  cubic : r ≤ ls.relTolCubic
  quad : r ≤ ls.relTolQuad
  c1 : 0 ≤ ls.c1
  c1' : ls.c1 ≤ 1 / 2
  c12 : ls.c1 < ls.c2
  c2 : ls.c2 < 1

theorem LiveOK.zoomOK {ls : Zoom ℝ E} {r : ℝ} (h : LiveOK ls r) : ZoomOK ls :=
  ⟨h.tol, h.max, lt_trans one_pos h.inc, le_trans h.r0.le h.cubic, le_trans h.r0.le h.quad⟩

/-- The bracket of the zoom phase. -/
structure Bracket (ls : Zoom ℝ E) (p : Setup ℝ E) (φ φ' : ℝ → ℝ) (low high : ℝ) : Prop where
  dec : Dec ls p φ φ' low
  sign : φ' low * (high - low) < 0
  steep : ls.c2 * |p.sl0| < |φ' low|
  hi : ¬ Dec ls p φ φ' high ∨ φ low ≤ φ high ∨ 0 ≤ φ' high * (high - low)

/-- A bracket cannot be short. -/
theorem Bracket.gap {ls : Zoom ℝ E} {r : ℝ} (hok : LiveOK ls r) {p : Setup ℝ E} {φ φ' : ℝ → ℝ} {M : ℝ} (hl : SmoothLine ls p φ φ' M)
    (hc : (∀ s t, s ≤ t → φ' s ≤ φ' t) ∨ 1 - 2 * ls.c1 ≤ ls.c2) {low high : ℝ} (hb : Bracket ls p φ φ' low high) :
    (ls.c2 - ls.c1) * |p.sl0| < M * |high - low| := by
  have hm := hl.neg
  have hM : 0 ≤ M := by
    have := hl.lip 1 0
    norm_num at this
    exact le_trans (abs_nonneg _) this
  rw [abs_of_neg hm]
  have hst := hb.steep
  rw [abs_of_neg hm] at hst
  have h1 := hok.c1
  have h2 := hok.c1'
  have h3 := hok.c12
  have hc2m : 0 < ls.c2 * -p.sl0 := mul_pos (by linarith) (by linarith)
  have hc1m : 0 ≤ ls.c1 * -p.sl0 := mul_nonneg h1 (by linarith)
  -- mean value
  have mv : ∀ a b : ℝ, a < b → ∃ ξ, a ≤ ξ ∧ ξ ≤ b ∧ φ' ξ * (b - a) = φ b - φ a := by
    intro a b hab
    obtain ⟨ξ, hξ, he⟩ := exists_hasDerivAt_eq_slope φ φ' hab (fun x _ => (hl.deriv x).continuousAt.continuousWithinAt)
      (fun x _ => hl.deriv x)
    refine ⟨ξ, hξ.1.le, hξ.2.le, ?_⟩
    rw [he, div_mul_cancel₀ _ (by linarith)]
  -- a change of slope between low and a point of the interval
  have chg : ∀ ξ, |ξ - low| ≤ |high - low| → ∀ c, c ≤ |φ' ξ - φ' low| → c ≤ M * |high - low| := by
    intro ξ h c hcle
    exact le_trans hcle (le_trans (hl.lip ξ low) (mul_le_mul_of_nonneg_left h hM))
  rcases lt_trichotomy low high with hlt | heq | hgt
  · have hpos : 0 < high - low := by linarith
    have hneg : φ' low < 0 := by
      by_contra hcon
      rw [not_lt] at hcon
      have := mul_nonneg hcon hpos.le
      have := hb.sign
      linarith
    rw [abs_of_neg hneg] at hst
    obtain ⟨ξ, x1, x2, x3⟩ := mv low high hlt
    have hξ : |ξ - low| ≤ |high - low| := by rw [abs_of_nonneg (by linarith), abs_of_pos hpos]; linarith
    -- it is enough to find a point with slope at least c1 * sl0
    have fin : ∀ η, |η - low| ≤ |high - low| → ls.c1 * p.sl0 ≤ φ' η → (ls.c2 - ls.c1) * -p.sl0 < M * |high - low| := by
      intro η hη h
      have := chg η hη _ (le_abs_self _)
      linarith
    have val : φ low + ls.c1 * p.sl0 * (high - low) ≤ φ high → (ls.c2 - ls.c1) * -p.sl0 < M * |high - low| := by
      intro h
      refine fin ξ hξ ?_
      by_contra hcon
      rw [not_le] at hcon
      have := mul_lt_mul_of_pos_right hcon hpos
      linarith
    have val0 : φ low ≤ φ high → (ls.c2 - ls.c1) * -p.sl0 < M * |high - low| := by
      intro h
      apply val
      have := mul_nonneg hc1m hpos.le
      linarith
    have sl : ls.c1 * p.sl0 ≤ φ' high → (ls.c2 - ls.c1) * -p.sl0 < M * |high - low| := fin high (le_refl _)
    rcases hb.hi with h | h | h
    · unfold Dec at h
      push Not at h
      rcases hb.dec with hd | ⟨hd1, hd2⟩
      · apply val
        have := h.1
        linarith
      · by_cases hs : φ' high ≤ (2 * ls.c1 - 1) * p.sl0
        · have := h.2 hs
          exact val0 (by linarith)
        · rw [not_le] at hs
          apply sl
          have : 0 ≤ (1 - 2 * ls.c1) * -p.sl0 := mul_nonneg (by linarith) (by linarith)
          linarith
    · exact val0 h
    · apply sl
      have : 0 ≤ φ' high := by
        by_contra hcon
        rw [not_le] at hcon
        have := mul_neg_of_neg_of_pos hcon hpos
        linarith
      linarith
  · have := hb.sign
    rw [heq, sub_self, mul_zero] at this
    exact absurd this (lt_irrefl _)
  · have hneg : high - low < 0 := by linarith
    have hpos : 0 < φ' low := by
      by_contra hcon
      rw [not_lt] at hcon
      have := mul_nonneg_of_nonpos_of_nonpos hcon hneg.le
      have := hb.sign
      linarith
    rw [abs_of_pos hpos] at hst
    obtain ⟨ξ, x1, x2, x3⟩ := mv high low hgt
    have hξ : |ξ - low| ≤ |high - low| := by rw [abs_of_nonpos (by linarith), abs_of_neg hneg]; linarith
    have fin : ∀ η, |η - low| ≤ |high - low| → φ' η ≤ 0 → (ls.c2 - ls.c1) * -p.sl0 < M * |high - low| := by
      intro η hη h
      have h4 := neg_le_abs (φ' η - φ' low)
      have := chg η hη _ h4
      linarith
    have val : φ low ≤ φ high → (ls.c2 - ls.c1) * -p.sl0 < M * |high - low| := by
      intro h
      refine fin ξ hξ ?_
      by_contra hcon
      rw [not_le] at hcon
      have := mul_pos hcon (show 0 < low - high by linarith)
      linarith
    rcases hb.hi with h | h | h
    · unfold Dec at h
      push Not at h
      rcases hb.dec with hd | ⟨hd1, hd2⟩
      · apply val
        have := h.1
        have : 0 ≤ ls.c1 * -p.sl0 * (low - high) := mul_nonneg hc1m (by linarith)
        linarith
      · by_cases hs : φ' high ≤ (2 * ls.c1 - 1) * p.sl0
        · have := h.2 hs
          exact val (by linarith)
        · rw [not_le] at hs
          exfalso
          rcases hc with hc | hc
          · have := hc high low hgt.le
            linarith
          · have : (1 - 2 * ls.c1) * -p.sl0 ≤ ls.c2 * -p.sl0 := mul_le_mul_of_nonneg_right hc (by linarith)
            linarith
    · exact val h
    · apply fin high (le_refl _)
      by_contra hcon
      rw [not_le] at hcon
      have := mul_neg_of_pos_of_neg hcon hneg
      linarith

/-- The interpolated point divides the interval in a proportion bounded away from 0 and 1. -/
theorem middle_ratio {ls : Zoom ℝ E} {r : ℝ} (hok : LiveOK ls r) (st : ZState ℝ E) (hne : st.high ≠ st.low) :
    ∃ θ, r ≤ θ ∧ θ ≤ 1 - r ∧ ls.middle st = st.low + θ * (st.high - st.low) := by
  have hd : 0 < |st.high - st.low| := abs_pos.mpr (sub_ne_zero.mpr hne)
  have key : ∀ x chk : ℝ, r * |st.high - st.low| ≤ chk → min st.high st.low + chk < x → x < max st.high st.low - chk →
      ∃ θ, r ≤ θ ∧ θ ≤ 1 - r ∧ x = st.low + θ * (st.high - st.low) := by
    intro x chk hc h1 h2
    refine ⟨(x - st.low) / (st.high - st.low), ?_, ?_, ?_⟩
    · rcases lt_or_gt_of_ne hne with h | h
      · rw [min_eq_left h.le] at h1
        rw [max_eq_right h.le] at h2
        rw [abs_of_neg (by linarith)] at hc
        rw [le_div_iff_of_neg (by linarith)]
        linarith
      · rw [min_eq_right h.le] at h1
        rw [max_eq_left h.le] at h2
        rw [abs_of_pos (by linarith)] at hc
        rw [le_div_iff₀ (by linarith)]
        linarith
    · rcases lt_or_gt_of_ne hne with h | h
      · rw [min_eq_left h.le] at h1
        rw [max_eq_right h.le] at h2
        rw [abs_of_neg (by linarith)] at hc
        rw [div_le_iff_of_neg (by linarith)]
        linarith
      · rw [min_eq_right h.le] at h1
        rw [max_eq_left h.le] at h2
        rw [abs_of_pos (by linarith)] at hc
        rw [div_le_iff₀ (by linarith)]
        linarith
    · rw [div_mul_cancel₀ _ (sub_ne_zero.mpr hne)]; ring
  have key2 : ∀ (m : Ext ℝ) (chk : ℝ), r * |st.high - st.low| ≤ chk →
      (Ext.gt m (.fin (min st.high st.low + chk)) && Ext.lt m (.fin (max st.high st.low - chk))) = true →
      ∃ x, m = .fin x ∧ ∃ θ, r ≤ θ ∧ θ ≤ 1 - r ∧ x = st.low + θ * (st.high - st.low) := by
    intro m chk hc hv
    cases m with
    | fin x =>
      simp only [Ext.gt, Ext.lt, Bool.and_eq_true, decide_eq_true_eq] at hv
      exact ⟨x, rfl, key x chk hc hv.1 hv.2⟩
    | _ => simp [Ext.gt, Ext.lt] at hv
  unfold Zoom.middle
  simp only
  split_ifs with h1 h2
  · obtain ⟨x, hx, h⟩ := key2 _ _ (mul_le_mul_of_nonneg_right hok.cubic hd.le) h1
    rw [hx]; exact h
  · obtain ⟨x, hx, h⟩ := key2 _ _ (mul_le_mul_of_nonneg_right hok.quad hd.le) h2
    rw [hx]; exact h
  · exact ⟨1 / 2, hok.half, by have := hok.half; linarith, by ring⟩

/-- Invariant of a live search after `n` updates, started with stepsize `init`. -/
structure Live (ls : Zoom ℝ E) (p : Setup ℝ E) (φ φ' : ℝ → ℝ) (r init : ℝ) (Ns n : ℕ) (z : ℝ × ZState ℝ E) : Prop where
  base : Unfinished ls p n z
  start : n = 0 → z.1 = init ∧ z.2.prevStepsize = 0
  search : z.2.intervalFound = false → z.2.prevValue = .fin (φ z.2.prevStepsize) ∧ Dec ls p φ φ' z.2.prevStepsize ∧
    φ' z.2.prevStepsize < ls.c2 * p.sl0 ∧ z.2.prevStepsize < ls.maxStepsize ∧
    (0 < n → init * ls.increaseFactor ^ (n - 1) = z.2.prevStepsize)
  zoom : z.2.intervalFound = true → z.2.valueLow = .fin (φ z.2.low) ∧ Bracket ls p φ φ' z.2.low z.2.high ∧
    |z.2.high - z.2.low| ≤ (1 - r) ^ (n - (Ns + 1)) * (init * ls.increaseFactor ^ Ns)

/-- The steps at which the search phase can continue are below `init * increaseFactor ^ Ns`. -/
def Capped (ls : Zoom ℝ E) (p : Setup ℝ E) (φ φ' : ℝ → ℝ) (init : ℝ) (Ns : ℕ) : Prop :=
  ∀ s, 0 < s → s < ls.maxStepsize → Dec ls p φ φ' s → φ' s < ls.c2 * p.sl0 → s < init * ls.increaseFactor ^ Ns

theorem Live.search_bound {ls : Zoom ℝ E} {r : ℝ} (hok : LiveOK ls r) {p : Setup ℝ E} {φ φ' : ℝ → ℝ} {init : ℝ} (hi : 0 < init)
    {Ns n : ℕ} (hN : Capped ls p φ φ' init Ns) {z : ℝ × ZState ℝ E} (h : Live ls p φ φ' r init Ns n z)
    (hf : z.2.intervalFound = false) : n ≤ Ns := by
  rcases Nat.eq_zero_or_pos n with h0 | h0
  · omega
  · obtain ⟨_, hD, hS, h1, h2⟩ := h.search hf
    have h3 := h2 h0
    have h6 := hN _ (h.base.1.prevPos h0) h1 hD hS
    by_contra hcon
    have h4 : ls.increaseFactor ^ Ns ≤ ls.increaseFactor ^ (n - 1) := pow_le_pow_right₀ hok.inc.le (by omega)
    have h5 := mul_le_mul_of_nonneg_left h4 hi.le
    linarith

theorem Live.next_search {ls : Zoom ℝ E} {r : ℝ} (hok : LiveOK ls r) {p : Setup ℝ E} {φ φ' : ℝ → ℝ} {M : ℝ}
    (hl : SmoothLine ls p φ φ' M) {init : ℝ} (hi : 0 < init) {Ns n : ℕ} (hN : Capped ls p φ φ' init Ns)
    {z : ℝ × ZState ℝ E} (h : Live ls p φ φ' r init Ns n z) (hf : z.2.intervalFound = false)
    (hd : (ls.searchInterval z.1 z.2).2.done = false) (hb : Unfinished ls p (n + 1) (ls.searchInterval z.1 z.2)) :
    Live ls p φ φ' r init Ns (n + 1) (ls.searchInterval z.1 z.2) := by
  obtain ⟨s1, s2, s3, s4, s5⟩ := h.search hf
  have hn := h.search_bound hok hi hN hf
  have hz := h.base.1
  have hm := hl.neg
  set y := ls.searchInterval z.1 z.2 with hy
  have e1 : y.1 = min (if z.2.iterNum = 0 then z.1 else ls.increaseFactor * z.2.prevStepsize) ls.maxStepsize := rfl
  have ecand : (if z.2.iterNum = 0 then z.1 else ls.increaseFactor * z.2.prevStepsize) = init * ls.increaseFactor ^ n := by
    rw [hz.iter]
    rcases Nat.eq_zero_or_pos n with h0 | h0
    · rw [if_pos h0, (h.start h0).1, h0, pow_zero, mul_one]
    · rw [if_neg (by omega), ← s5 h0]
      obtain ⟨k, rfl⟩ := Nat.exists_eq_succ_of_ne_zero (by omega : n ≠ 0)
      simp only [Nat.succ_eq_add_one, Nat.add_sub_cancel, pow_succ]; ring
  rw [ecand] at e1
  -- the new step is beyond the previous one
  have hprev : z.2.prevStepsize < y.1 := by
    rw [e1]
    refine lt_min ?_ s4
    rcases Nat.eq_zero_or_pos n with h0 | h0
    · rw [(h.start h0).2]
      have : 0 < ls.increaseFactor := lt_trans one_pos hok.inc
      positivity
    · rw [← s5 h0]
      apply mul_lt_mul_of_pos_left _ hi
      exact pow_lt_pow_right₀ hok.inc (by omega)
  have hp0 : 0 ≤ z.2.prevStepsize := hz.prev.1
  have hmax : y.1 ≤ ls.maxStepsize := min_le_right _ _
  have estep : z.2.params + y.1 • z.2.dir = p.x + y.1 • p.d := by rw [hz.params, hz.dir]
  set dec := Zoom.clipErr (ls.decreaseError y.1 (.fin (φ y.1)) (.fin (φ' y.1)) (.fin p.v0) (.fin p.sl0)) with hdec
  set cur := Zoom.clipErr (ls.curvatureError (.fin (φ' y.1)) (.fin p.sl0)) with hcur
  have ev : y.2.prevValue = .fin (φ y.1) := by rw [← hl.val, ← estep]; rfl
  have es : y.2.prevSlope = .fin (φ' y.1) := by rw [← hl.slope, ← estep, ← hz.dir]; rfl
  have edec : y.2.decreaseError = dec := by
    rw [hdec, ← hl.val, ← hl.slope, ← estep, ← hz.valueInit, ← hz.slopeInit, ← hz.dir]; rfl
  have eerr : y.2.error = Ext.max dec cur := by
    rw [hdec, hcur, ← hl.val, ← hl.slope, ← estep, ← hz.valueInit, ← hz.slopeInit, ← hz.dir]; rfl
  set setHigh : Bool := (Ext.gt y.2.decreaseError (.fin 0) || (Ext.le z.2.prevValue y.2.prevValue && decide (z.2.iterNum > 0))) with hsh
  set setLow : Bool := (Ext.le (.fin 0) y.2.prevSlope && !setHigh) with hsl
  have efound : y.2.intervalFound = (setHigh || setLow || Ext.le y.2.error (.fin ls.tol)) := rfl
  have edone : y.2.done = (Ext.le y.2.error (.fin ls.tol) || (decide (y.1 ≥ ls.maxStepsize) && !y.2.intervalFound)) := rfl
  have eprev : y.2.prevStepsize = y.1 := rfl
  have elow : y.2.low = if setLow then y.1 else z.2.prevStepsize := rfl
  have evlow : y.2.valueLow = if setLow then y.2.prevValue else z.2.prevValue := rfl
  have ehigh : y.2.high = if setLow then z.2.prevStepsize else y.1 := rfl
  rw [edone, Bool.or_eq_false_iff] at hd
  obtain ⟨hd1, hd2⟩ := hd
  have hd1' := hd1
  rw [eerr] at hd1'
  have hdecS : setHigh = false → Dec ls p φ φ' y.1 := by
    intro hh
    rw [hsh, Bool.or_eq_false_iff, edec] at hh
    exact (dec_iff ls p φ φ' y.1).mp hh.1
  have hsteep : setHigh = false → ls.c2 * |p.sl0| < |φ' y.1| := fun hh => not_done_slope ls p φ φ' y.1 hok.tol (hdecS hh) hd1'
  have hneg1 : φ' z.2.prevStepsize < 0 := by
    have := hok.c1; have := hok.c12
    have : ls.c2 * p.sl0 < 0 := mul_neg_of_pos_of_neg (by linarith) hm
    linarith
  refine ⟨hb, fun h0 => by omega, ?_, ?_⟩
  · intro hnf
    rw [efound, hd1, Bool.or_false, Bool.or_eq_false_iff] at hnf
    obtain ⟨hh, hlo⟩ := hnf
    rw [hsl, hh, Bool.not_false, Bool.and_true, es] at hlo
    have hsn : φ' y.1 < 0 := by simpa [Ext.le] using hlo
    have hst := hsteep hh
    rw [abs_of_neg hm, abs_of_neg hsn] at hst
    have hlt : y.1 < ls.maxStepsize := by
      have hfd : y.2.intervalFound = false := by
        rw [efound, hd1, hh]
        rw [hsl, hh, Bool.not_false, Bool.and_true, es, hlo]; rfl
      rw [hfd] at hd2
      simpa using hd2
    rw [eprev]
    refine ⟨ev, hdecS hh, by linarith, hlt, fun _ => ?_⟩
    rw [Nat.add_sub_cancel, e1, min_eq_left]
    by_contra hcon
    rw [not_le] at hcon
    rw [e1, min_eq_right hcon.le] at hlt
    exact lt_irrefl _ hlt
  · intro hfd
    have hlen : ∀ a : ℝ, |a| ≤ y.1 → |a| ≤ (1 - r) ^ (n + 1 - (Ns + 1)) * (init * ls.increaseFactor ^ Ns) := by
      intro a ha
      have : n + 1 - (Ns + 1) = 0 := by omega
      rw [this, pow_zero, one_mul]
      refine le_trans ha ?_
      rw [e1]
      refine le_trans (min_le_left _ _) ?_
      exact mul_le_mul_of_nonneg_left (pow_le_pow_right₀ hok.inc.le hn) hi.le
    cases hlo : setLow
    · have hh : setHigh = true := by
        rw [efound, hd1, hlo, Bool.or_false, Bool.or_false] at hfd
        exact hfd
      rw [hlo] at elow evlow ehigh
      simp only [Bool.false_eq_true, if_false] at elow evlow ehigh
      rw [elow, evlow, ehigh]
      refine ⟨s1, ⟨s2, mul_neg_of_neg_of_pos hneg1 (by linarith), ?_, ?_⟩, hlen _ ?_⟩
      · rw [abs_of_neg hm, abs_of_neg hneg1]; linarith
      · rw [hsh, Bool.or_eq_true] at hh
        rcases hh with hh | hh
        · left
          intro hD
          rw [edec, (dec_iff ls p φ φ' y.1).mpr hD] at hh
          cases hh
        · right; left
          rw [Bool.and_eq_true, s1, ev] at hh
          simpa [Ext.le] using hh.1
      · rw [abs_of_pos (by linarith)]; linarith
    · have hh : setHigh = false := by
        rw [hsl, Bool.and_eq_true] at hlo
        simpa using hlo.2
      have hsn : 0 ≤ φ' y.1 := by
        rw [hsl, Bool.and_eq_true, es] at hlo
        simpa [Ext.le] using hlo.1
      have hst := hsteep hh
      rw [hlo] at elow evlow ehigh
      simp only [if_true] at elow evlow ehigh
      rw [elow, evlow, ehigh]
      have hsp : 0 < φ' y.1 := by
        rcases lt_or_eq_of_le hsn with h1 | h1
        · exact h1
        · rw [← h1, abs_zero] at hst
          have := hok.c1; have := hok.c12
          have : 0 ≤ ls.c2 * |p.sl0| := mul_nonneg (by linarith) (abs_nonneg _)
          linarith
      refine ⟨ev, ⟨hdecS hh, mul_neg_of_pos_of_neg hsp (by linarith), hst, ?_⟩, hlen _ ?_⟩
      · right; right
        exact mul_nonneg_of_nonpos_of_nonpos hneg1.le (by linarith)
      · rw [abs_of_neg (by linarith)]; linarith

theorem Live.next_zoom {ls : Zoom ℝ E} {r : ℝ} (hok : LiveOK ls r) {p : Setup ℝ E} {φ φ' : ℝ → ℝ} {M : ℝ}
    (hl : SmoothLine ls p φ φ' M) {init : ℝ} (hi : 0 < init) {Ns n : ℕ}
    {z : ℝ × ZState ℝ E} (h : Live ls p φ φ' r init Ns n z) (hf : z.2.intervalFound = true)
    (hd : (ls.zoomIntoInterval z.2).2.done = false) (hb : Unfinished ls p (n + 1) (ls.zoomIntoInterval z.2)) :
    Live ls p φ φ' r init Ns (n + 1) (ls.zoomIntoInterval z.2) := by
  obtain ⟨s1, s2, s3⟩ := h.zoom hf
  have hz := h.base.1
  have hm := hl.neg
  set y := ls.zoomIntoInterval z.2 with hy
  set low := z.2.low with hlow
  set high := z.2.high with hhigh
  have hne : high ≠ low := by
    intro e
    have := s2.sign
    rw [e, sub_self, mul_zero] at this
    exact lt_irrefl _ this
  obtain ⟨θ, t1, t2, t3⟩ := middle_ratio hok z.2 hne
  rw [← hlow, ← hhigh] at t3
  have e1 : y.1 = low + θ * (high - low) := t3
  have hr0 := hok.r0
  have hθ0 : 0 < θ := by linarith
  have hθ1 : 0 < 1 - θ := by linarith
  have a1 : y.1 - low = θ * (high - low) := by rw [e1]; ring
  have a2 : high - y.1 = (1 - θ) * (high - low) := by rw [e1]; ring
  have a3 : low - y.1 = -(θ * (high - low)) := by rw [e1]; ring
  have estep : z.2.params + y.1 • z.2.dir = p.x + y.1 • p.d := by rw [hz.params, hz.dir]
  set dec := Zoom.clipErr (ls.decreaseError y.1 (.fin (φ y.1)) (.fin (φ' y.1)) (.fin p.v0) (.fin p.sl0)) with hdec
  set cur := Zoom.clipErr (ls.curvatureError (.fin (φ' y.1)) (.fin p.sl0)) with hcur
  have ev : ls.f (z.2.params + y.1 • z.2.dir) = .fin (φ y.1) := by rw [← hl.val, ← estep]
  have es : ls.vdot (ls.grad (z.2.params + y.1 • z.2.dir)) z.2.dir = .fin (φ' y.1) := by rw [← hl.slope, ← estep, ← hz.dir]
  have edec : y.2.decreaseError = dec := by
    rw [hdec, ← hl.val, ← hl.slope, ← estep, ← hz.valueInit, ← hz.slopeInit, ← hz.dir]; rfl
  have eerr : y.2.error = Ext.max dec cur := by
    rw [hdec, hcur, ← hl.val, ← hl.slope, ← estep, ← hz.valueInit, ← hz.slopeInit, ← hz.dir]; rfl
  set setHigh : Bool := (Ext.gt y.2.decreaseError (.fin 0) || Ext.le z.2.valueLow (ls.f (z.2.params + y.1 • z.2.dir))) with hsh
  set toLow : Bool := (Ext.le (.fin 0) (Ext.smul (high - low) (ls.vdot (ls.grad (z.2.params + y.1 • z.2.dir)) z.2.dir)) && !setHigh)
    with htl
  have edone : y.2.done = Ext.le y.2.error (.fin ls.tol) := rfl
  have elow : y.2.low = if !setHigh then y.1 else low := rfl
  have evlow : y.2.valueLow = if !setHigh then ls.f (z.2.params + y.1 • z.2.dir) else z.2.valueLow := rfl
  have ehigh : y.2.high = if toLow then low else if setHigh then y.1 else high := rfl
  have efound : y.2.intervalFound = z.2.intervalFound := rfl
  rw [edone, eerr] at hd
  have hdecS : setHigh = false → Dec ls p φ φ' y.1 ∧ φ y.1 < φ low := by
    intro hh
    rw [hsh, Bool.or_eq_false_iff, edec, s1, ev] at hh
    exact ⟨(dec_iff ls p φ φ' y.1).mp hh.1, by simpa [Ext.le] using hh.2⟩
  have hsteep : setHigh = false → ls.c2 * |p.sl0| < |φ' y.1| := fun hh => not_done_slope ls p φ φ' y.1 hok.tol (hdecS hh).1 hd
  have hpow : ∀ q : ℝ, 0 ≤ q → q ≤ 1 - r → ∀ a : ℝ, |a| = q * |high - low| → |a| ≤ (1 - r) ^ (n + 1 - (Ns + 1)) * (init * ls.increaseFactor ^ Ns) := by
    intro q hq0 hq a ha
    have hmx : 0 < init * ls.increaseFactor ^ Ns := mul_pos hi (pow_pos (lt_trans one_pos hok.inc) _)
    have hhalf := hok.half
    rw [ha]
    have c1 : q * |high - low| ≤ (1 - r) * ((1 - r) ^ (n - (Ns + 1)) * (init * ls.increaseFactor ^ Ns)) :=
      mul_le_mul hq s3 (abs_nonneg _) (by linarith)
    refine le_trans c1 ?_
    rw [← mul_assoc, ← pow_succ']
    apply mul_le_mul_of_nonneg_right _ hmx.le
    exact pow_le_pow_of_le_one (by linarith) (by linarith) (by omega)
  refine ⟨hb, fun h0 => by omega, fun hcon => absurd (efound.trans hf) (by rw [hcon]; decide), fun _ => ?_⟩
  cases hh : setHigh
  · obtain ⟨hD, hV⟩ := hdecS hh
    have hst := hsteep hh
    have hs0 : φ' y.1 ≠ 0 := by
      intro h0
      rw [h0, abs_zero] at hst
      have := hok.c1; have := hok.c12
      have : 0 ≤ ls.c2 * |p.sl0| := mul_nonneg (by linarith) (abs_nonneg _)
      linarith
    rw [hh] at elow evlow
    simp only [Bool.not_false, if_true] at elow evlow
    rw [elow, evlow, ev]
    cases ht : toLow
    · rw [ht, hh] at ehigh
      simp only [Bool.false_eq_true, if_false] at ehigh
      rw [ehigh]
      have hsec : (high - low) * φ' y.1 < 0 := by
        rw [htl, hh, es] at ht
        simpa [Ext.le, Ext.smul] using ht
      refine ⟨rfl, ⟨hD, ?_, hst, ?_⟩, hpow (1 - θ) hθ1.le (by linarith) _ (by rw [a2, abs_mul, abs_of_pos hθ1])⟩
      · rw [a2]
        have := mul_neg_of_pos_of_neg hθ1 hsec
        linarith
      · rcases s2.hi with c | c | c
        · exact Or.inl c
        · exact Or.inr (Or.inl (by linarith))
        · right; right
          rw [a2]
          have := mul_nonneg hθ1.le c
          linarith
    · rw [ht] at ehigh
      simp only [if_true] at ehigh
      rw [ehigh]
      have hsec : 0 ≤ (high - low) * φ' y.1 := by
        rw [htl, hh, es] at ht
        simpa [Ext.le, Ext.smul] using ht
      have hsec' : 0 < (high - low) * φ' y.1 :=
        lt_of_le_of_ne hsec (Ne.symm (mul_ne_zero (sub_ne_zero.mpr hne) hs0))
      refine ⟨rfl, ⟨hD, ?_, hst, ?_⟩, hpow θ hθ0.le t2 _ (by rw [a3, abs_neg, abs_mul, abs_of_pos hθ0])⟩
      · rw [a3]
        have := mul_pos hθ0 hsec'
        linarith
      · right; right
        rw [a3]
        have := mul_neg_of_pos_of_neg hθ0 s2.sign
        linarith
  · have ht : toLow = false := by rw [htl, hh]; simp
    rw [hh] at elow evlow
    rw [ht, hh] at ehigh
    simp only [Bool.not_true, Bool.false_eq_true, if_false, if_true] at elow evlow ehigh
    rw [elow, evlow, ehigh]
    refine ⟨s1, ⟨s2.dec, ?_, s2.steep, ?_⟩, hpow θ hθ0.le t2 _ (by rw [a1, abs_mul, abs_of_pos hθ0])⟩
    · rw [a1]
      have := mul_neg_of_pos_of_neg hθ0 s2.sign
      linarith
    · rw [hsh, Bool.or_eq_true] at hh
      rcases hh with hh | hh
      · left
        intro hD
        rw [edec, (dec_iff ls p φ φ' y.1).mpr hD] at hh
        cases hh
      · right; left
        rw [s1, ev] at hh
        simpa [Ext.le] using hh

/-- The number of updates of an unfinished search is bounded. -/
theorem Live.bound {ls : Zoom ℝ E} {r : ℝ} (hok : LiveOK ls r) {p : Setup ℝ E} {φ φ' : ℝ → ℝ} {M : ℝ} (hl : SmoothLine ls p φ φ' M)
    (hc : (∀ s t, s ≤ t → φ' s ≤ φ' t) ∨ 1 - 2 * ls.c1 ≤ ls.c2) {init : ℝ} (hi : 0 < init) {Ns Nz n : ℕ}
    (hN : Capped ls p φ φ' init Ns)
    (hNz : M * ((1 - r) ^ Nz * (init * ls.increaseFactor ^ Ns)) ≤ (ls.c2 - ls.c1) * |p.sl0|)
    {z : ℝ × ZState ℝ E} (h : Live ls p φ φ' r init Ns n z) : n ≤ Ns + Nz := by
  cases hf : z.2.intervalFound
  · have := h.search_bound hok hi hN hf
    omega
  · obtain ⟨_, hb, hlen⟩ := h.zoom hf
    have hg := hb.gap hok hl hc
    by_contra hcon
    have hM : 0 ≤ M := by
      have := hl.lip 1 0
      norm_num at this
      exact le_trans (abs_nonneg _) this
    have h1 : (1 - r) ^ (n - (Ns + 1)) ≤ (1 - r) ^ Nz :=
      pow_le_pow_of_le_one (by have := hok.half; linarith) (by have := hok.r0; linarith) (by omega)
    have h2 := mul_le_mul_of_nonneg_right h1 (mul_pos hi (pow_pos (lt_trans one_pos hok.inc) Ns)).le
    have h3 := mul_le_mul_of_nonneg_left (le_trans hlen h2) hM
    linarith

/-- With enough iterations the search does not fail. -/
theorem live_run {ls : Zoom ℝ E} {r : ℝ} (hok : LiveOK ls r) {p : Setup ℝ E} {φ φ' : ℝ → ℝ} {M : ℝ} (hl : SmoothLine ls p φ φ' M)
    (hc : (∀ s t, s ≤ t → φ' s ≤ φ' t) ∨ 1 - 2 * ls.c1 ≤ ls.c2) {init : ℝ} (hi : 0 < init) {Ns Nz : ℕ}
    (hN : Capped ls p φ φ' init Ns)
    (hNz : M * ((1 - r) ^ Nz * (init * ls.increaseFactor ^ Ns)) ≤ (ls.c2 - ls.c1) * |p.sl0|)
    (hthr : M * ls.intervalThreshold ≤ (ls.c2 - ls.c1) * |p.sl0|) (hmax : Ns + Nz + 1 < ls.maxiter)
    {st0 : ZState ℝ E} (h0 : Unfinished ls p 0 (init, st0)) (hprev : st0.prevStepsize = 0) (hpv : st0.prevValue = .fin p.v0)
    (hif : st0.intervalFound = false) {k : ℕ} (hk : 1 ≤ k)
    (hcont : ∀ j, 1 ≤ j → j < k → (!((ls.update^[j] (init, st0)).2.done || (ls.update^[j] (init, st0)).2.failed)) = true) :
    (ls.update^[k] (init, st0)).2.failed = false := by
  have hm := hl.neg
  have hM : 0 ≤ M := by
    have := hl.lip 1 0
    norm_num at this
    exact le_trans (abs_nonneg _) this
  set z0 := (init, st0) with hz0
  have hlive0 : Live ls p φ φ' r init Ns 0 z0 := by
    refine ⟨h0, fun _ => ⟨rfl, hprev⟩, fun _ => ?_, fun hcon => ?_⟩
    · have e : z0.2.prevStepsize = 0 := hprev
      rw [e]
      refine ⟨by rw [hl.v0]; exact hpv, Or.inl (by rw [hl.v0]; simp), ?_, hok.max, fun h => by omega⟩
      rw [hl.sl0]
      have := hok.c2
      nlinarith
    · have : z0.2.intervalFound = false := hif
      rw [this] at hcon; cases hcon
  -- a live state does not fail
  have nofail : ∀ n z, Live ls p φ φ' r init Ns n z → (ls.rawUpdate z).2.failed = false := by
    intro n z h
    have hn := h.bound hok hl hc hi hN hNz
    have hit := h.base.1.iter
    unfold Zoom.rawUpdate
    cases hf : z.2.intervalFound
    · simp only [Bool.false_eq_true, if_false]
      have e : (ls.searchInterval z.1 z.2).2.failed =
          (decide (z.2.iterNum + 1 ≥ ls.maxiter) && !(ls.searchInterval z.1 z.2).2.done) := rfl
      rw [e, hit]
      have : ¬ (n + 1 ≥ ls.maxiter) := by omega
      simp [this]
    · simp only [if_true]
      have e : (ls.zoomIntoInterval z.2).2.failed = ((decide (z.2.iterNum + 1 ≥ ls.maxiter) ||
          (decide (|z.2.high - z.2.low| ≤ ls.intervalThreshold) && decide ((ls.zoomIntoInterval z.2).2.safeStepsize > 0))) &&
            !(ls.zoomIntoInterval z.2).2.done) := rfl
      rw [e, hit]
      have h1 : ¬ (n + 1 ≥ ls.maxiter) := by omega
      obtain ⟨_, hb, _⟩ := h.zoom hf
      have hg := hb.gap hok hl hc
      have h2 : ¬ (|z.2.high - z.2.low| ≤ ls.intervalThreshold) := by
        intro hcon
        have := mul_le_mul_of_nonneg_left hcon hM
        linarith
      simp [h1, h2]
  have hlive : ∀ j, j < k → Live ls p φ φ' r init Ns j (ls.update^[j] z0) := by
    intro j
    induction j with
    | zero => intro _; exact hlive0
    | succ j ih =>
      intro hj
      have hL := ih (by omega)
      have hraw := raw_spec hok.zoomOK hL.base
      have hnf := nofail _ _ hL
      have hcj := hcont (j + 1) (by omega) hj
      rw [Function.iterate_succ_apply'] at hcj ⊢
      have e : ls.update (ls.update^[j] z0) = ls.rawUpdate (ls.update^[j] z0) := by simp [Zoom.update, hnf]
      rw [e] at hcj
      have hnd : (ls.rawUpdate (ls.update^[j] z0)).2.done = false := by
        cases hd : (ls.rawUpdate (ls.update^[j] z0)).2.done
        · rfl
        · rw [hd] at hcj; simp at hcj
      obtain ⟨_, hnext⟩ := next_unfinished hraw hnd hnf
      rw [e] at hnext ⊢
      generalize ls.update^[j] z0 = z at *
      unfold Zoom.rawUpdate at hnext hnd ⊢
      cases hf : z.2.intervalFound
      · simp only [hf, Bool.false_eq_true, if_false] at hnext hnd ⊢
        exact hL.next_search hok hl hi hN hf hnd hnext
      · simp only [hf, if_true] at hnext hnd ⊢
        exact hL.next_zoom hok hl hi hf hnd hnext
  obtain ⟨j, rfl⟩ := Nat.exists_eq_succ_of_ne_zero (by omega : k ≠ 0)
  have hnf := nofail _ _ (hlive j (by omega))
  rw [Nat.succ_eq_add_one, Function.iterate_succ_apply']
  simp [Zoom.update, hnf]

end Live

section Smooth
variable {V : Type*} [NormedAddCommGroup V] [InnerProductSpace ℝ V] [CompleteSpace V]

/-- The search works on the real objective `f` with gradient `g`. -/
structure OnReal (ls : Zoom ℝ V) (f : V → ℝ) (g : V → V) : Prop where
  f : ∀ x, ls.f x = .fin (f x)
  grad : ∀ x, ls.grad x = g x
  vdot : ∀ u v, ls.vdot u v = .fin (inner ℝ u v)

/-- The restriction to a line. -/
theorem smoothLine (ls : Zoom ℝ V) (f : V → ℝ) (g : V → V) (hr : OnReal ls f g) (L : ℝ) (hsm : LSmooth f g L) (x d : V)
    (hd : inner ℝ (g x) d < 0) :
    SmoothLine ls ⟨x, g x, d, f x, inner ℝ (g x) d⟩ (fun s => f (x + s • d)) (fun s => inner ℝ (g (x + s • d)) d) (L * ‖d‖ ^ 2) where
  val s := hr.f _
  slope s := by rw [hr.grad, hr.vdot]
  deriv s := hsm.deriv_line x d s
  lip s t := by
    rw [← inner_sub_left]
    have h1 := abs_real_inner_le_norm (g (x + s • d) - g (x + t • d)) d
    have h2 := hsm.lip (x + s • d) (x + t • d)
    have e : x + s • d - (x + t • d) = (s - t) • d := by rw [sub_smul]; abel
    rw [e, norm_smul, Real.norm_eq_abs] at h2
    have h3 := mul_le_mul_of_nonneg_right h2 (norm_nonneg d)
    calc _ ≤ _ := h1
      _ ≤ L * (|s - t| * ‖d‖) * ‖d‖ := h3
      _ = L * ‖d‖ ^ 2 * |s - t| := by ring
  v0 := by simp
  sl0 := by simp
  neg := hd

/-- What a successful search returns: the state belongs to the step, which satisfies the decrease condition (exact or approximate) and the
curvature condition, or is the maximal step with the objective still decreasing. -/
structure Success (ls : Zoom ℝ V) (f : V → ℝ) (g : V → V) (x d : V) (s : ℝ) (st : ZState ℝ V) : Prop where
  done : st.done = true
  failed : st.failed = false
  pos : 0 ≤ s ∧ s ≤ ls.maxStepsize
  params : st.params = x + s • d
  decrease : f (x + s • d) ≤ f x + ls.c1 * s * inner ℝ (g x) d + ls.tol ∨
    (inner ℝ (g (x + s • d)) d ≤ (2 * ls.c1 - 1) * inner ℝ (g x) d + ls.tol ∧ f (x + s • d) ≤ f x + ls.c3 * |f x| + ls.tol)
  curvature : |inner ℝ (g (x + s • d)) d| ≤ ls.c2 * |inner ℝ (g x) d| + ls.tol ∨
    (s = ls.maxStepsize ∧ inner ℝ (g (x + s • d)) d < 0)

theorem success_of_capped (ls : Zoom ℝ V) (r : ℝ) (hok : LiveOK ls r) (f : V → ℝ) (g : V → V) (hr : OnReal ls f g) (L : ℝ)
    (hsm : LSmooth f g L) (hc : (∀ x y, f x + inner ℝ (g x) (y - x) ≤ f y) ∨ 1 - 2 * ls.c1 ≤ ls.c2) (x d : V) (hd : inner ℝ (g x) d < 0)
    (init : ℝ) (hi : 0 < init) (Ns Nz : ℕ)
    (hN : Capped ls ⟨x, g x, d, f x, inner ℝ (g x) d⟩ (fun s => f (x + s • d)) (fun s => inner ℝ (g (x + s • d)) d) init Ns)
    (hNz : L * ‖d‖ ^ 2 * ((1 - r) ^ Nz * (init * ls.increaseFactor ^ Ns)) ≤ (ls.c2 - ls.c1) * |inner ℝ (g x) d|)
    (hthr : L * ‖d‖ ^ 2 * ls.intervalThreshold ≤ (ls.c2 - ls.c1) * |inner ℝ (g x) d|) (hmax : Ns + Nz + 1 < ls.maxiter)
    (value : Option (Ext ℝ)) (grad : Option V) (hv : value = none ∨ value = some (.fin (f x))) (hgr : grad = none ∨ grad = some (g x))
    (s : ℝ) (st : ZState ℝ V) (hrun : ls.run init x value grad (some d) = .ok (s, st)) : Success ls f g x d s st := by
  have hl := smoothLine ls f g hr L hsm x d hd
  set p : Setup ℝ V := ⟨x, g x, d, f x, inner ℝ (g x) d⟩ with hp
  have hm1 : 1 ≤ ls.maxiter := by omega
  have hinit : ls.initState x value grad (some d) = ls.initState x none none (some d) := by
    rcases hv with rfl | rfl <;> rcases hgr with rfl | rfl <;> simp [Zoom.initState, hr.f, hr.grad]
  have hC := C20_zoom_partial ls hok.zoomOK hm1 init hi x (g x) (f x) (inner ℝ (g x) d) value grad (some d)
    (by
      rcases hv with rfl | rfl <;> rcases hgr with rfl | rfl
      · exact Or.inr ⟨Or.inl rfl, hr.f x, hr.grad x⟩
      · exact Or.inr ⟨Or.inl rfl, hr.f x, hr.grad x⟩
      · exact Or.inr ⟨Or.inr rfl, hr.f x, hr.grad x⟩
      · exact Or.inl ⟨rfl, rfl⟩) (by simp [hr.vdot]) s st hrun
  simp only [Option.getD_some] at hC
  obtain ⟨q1, q2, q3, q4, q5, q6, q7, q8⟩ := hC
  have hfail : st.failed = false := by
    obtain ⟨k, hk1, hk2, hrk, hc1, hc2⟩ := runS_spec hm1 hrun
    have hmono : (∀ a b : ℝ, a ≤ b → inner ℝ (g (x + a • d)) d ≤ inner ℝ (g (x + b • d)) d) ∨ 1 - 2 * ls.c1 ≤ ls.c2 := by
      rcases hc with hc | hc
      · left
        intro a b hab
        have h1 := hc (x + a • d) (x + b • d)
        have h2 := hc (x + b • d) (x + a • d)
        have e1 : x + b • d - (x + a • d) = (b - a) • d := by rw [sub_smul]; abel
        have e2 : x + a • d - (x + b • d) = (-(b - a)) • d := by rw [neg_smul, sub_smul]; abel
        rw [e1, inner_smul_right] at h1
        rw [e2, inner_smul_right] at h2
        rcases lt_or_eq_of_le hab with h3 | h3
        · by_contra hcon
          rw [not_le] at hcon
          have := mul_lt_mul_of_pos_left hcon (show 0 < b - a by linarith)
          linarith
        · rw [h3]
      · exact Or.inr hc
    have hmx := hok.max
    have h0 : Unfinished ls p 0 (init, ls.initState x value grad (some d)) := by
      rw [hinit]
      refine ⟨⟨rfl, rfl, ?_, ?_, rfl, fun _ => hi, ⟨le_refl _, hmx.le⟩, fun h => by omega,
        ⟨le_refl _, hmx.le⟩, ⟨le_refl _, hmx.le⟩, ⟨le_refl _, hmx.le⟩, Or.inl rfl⟩, fun h => by cases h⟩
      · exact hr.f x
      · show ls.vdot (ls.grad x) d = _
        rw [hr.grad, hr.vdot]
    have := live_run hok hl hmono hi hN hNz hthr hmax h0 (by rw [hinit]; rfl) (by rw [hinit]; exact hr.f x) (by rw [hinit]; rfl) hk1 hc1
    rw [← hrk] at this
    exact this
  have hdone := q6.mpr hfail
  obtain ⟨w1, w2⟩ := q7 hdone
  refine ⟨hdone, hfail, ⟨q1, q2⟩, q3, ?_, ?_⟩
  · obtain ⟨_, _, h⟩ := w1
    rw [hr.f, hr.grad, hr.vdot] at h
    exact h
  · rcases w2 with h | ⟨h1, h2⟩
    · left
      unfold CurvatureOK at h
      rw [hr.grad, hr.vdot] at h
      exact h
    · right
      rw [hr.grad, hr.vdot] at h2
      exact ⟨h1, by simpa [Ext.le] using h2⟩

/-- **C84.**  Let the objective have an `L`-Lipschitz gradient and be convex (or let `1 - 2 c1 ≤ c2`), and the direction be a descent
direction.  If the budget of iterations exceeds the number `Ns` of increases from `init` to `max_stepsize` plus the number `Nz` of
reductions by `1 - r` (`r` the smaller of the two relative tolerances) that lead to an interval of length
`(c2 - c1) |slope| / (L ‖d‖²)`, and `interval_threshold` is not above this length, then the search succeeds, whatever the interpolation
formulas return. -/
theorem C84_succeeds (ls : Zoom ℝ V) (r : ℝ) (hok : LiveOK ls r) (f : V → ℝ) (g : V → V) (hr : OnReal ls f g) (L : ℝ)
    (hsm : LSmooth f g L) (hc : (∀ x y, f x + inner ℝ (g x) (y - x) ≤ f y) ∨ 1 - 2 * ls.c1 ≤ ls.c2) (x d : V) (hd : inner ℝ (g x) d < 0)
    (init : ℝ) (hi : 0 < init) (Ns Nz : ℕ) (hNs : ls.maxStepsize ≤ init * ls.increaseFactor ^ Ns)
    (hNz : L * ‖d‖ ^ 2 * ((1 - r) ^ Nz * (init * ls.increaseFactor ^ Ns)) ≤ (ls.c2 - ls.c1) * |inner ℝ (g x) d|)
    (hthr : L * ‖d‖ ^ 2 * ls.intervalThreshold ≤ (ls.c2 - ls.c1) * |inner ℝ (g x) d|) (hmax : Ns + Nz + 1 < ls.maxiter)
    (value : Option (Ext ℝ)) (grad : Option V) (hv : value = none ∨ value = some (.fin (f x))) (hgr : grad = none ∨ grad = some (g x))
    (s : ℝ) (st : ZState ℝ V) (hrun : ls.run init x value grad (some d) = .ok (s, st)) : Success ls f g x d s st :=
  success_of_capped ls r hok f g hr L hsm hc x d hd init hi Ns Nz (fun s _ h _ _ => lt_of_lt_of_le h hNs) hNz hthr hmax value grad hv hgr
    s st hrun

/-- **C84** (bounded below).  For a convex objective bounded below by `fmin` the number `Ns` of increases only has to lead from `init` to
`(f(x) - fmin) / (c2 |slope|)`, whatever `max_stepsize` (by default `2 ** maxiter`) is; and if `max_stepsize` is not below this length the
returned step satisfies the curvature condition. -/
theorem C84_bounded (ls : Zoom ℝ V) (r : ℝ) (hok : LiveOK ls r) (f : V → ℝ) (g : V → V) (hr : OnReal ls f g) (L : ℝ)
    (hsm : LSmooth f g L) (hc : ∀ x y, f x + inner ℝ (g x) (y - x) ≤ f y) (fmin : ℝ) (hmin : ∀ y, fmin ≤ f y) (x d : V)
    (hd : inner ℝ (g x) d < 0) (init : ℝ) (hi : 0 < init) (Ns Nz : ℕ)
    (hNs : f x - fmin ≤ ls.c2 * |inner ℝ (g x) d| * (init * ls.increaseFactor ^ Ns))
    (hNz : L * ‖d‖ ^ 2 * ((1 - r) ^ Nz * (init * ls.increaseFactor ^ Ns)) ≤ (ls.c2 - ls.c1) * |inner ℝ (g x) d|)
    (hthr : L * ‖d‖ ^ 2 * ls.intervalThreshold ≤ (ls.c2 - ls.c1) * |inner ℝ (g x) d|) (hmax : Ns + Nz + 1 < ls.maxiter)
    (value : Option (Ext ℝ)) (grad : Option V) (hv : value = none ∨ value = some (.fin (f x))) (hgr : grad = none ∨ grad = some (g x))
    (s : ℝ) (st : ZState ℝ V) (hrun : ls.run init x value grad (some d) = .ok (s, st)) :
    Success ls f g x d s st ∧
    (f x - fmin ≤ ls.c2 * |inner ℝ (g x) d| * ls.maxStepsize →
      |inner ℝ (g (x + s • d)) d| ≤ ls.c2 * |inner ℝ (g x) d| + ls.tol) := by
  have hcx : ∀ t : ℝ, 0 < t → inner ℝ (g (x + t • d)) d < ls.c2 * inner ℝ (g x) d → ls.c2 * |inner ℝ (g x) d| * t < f x - fmin := by
    intro t ht h
    have h1 := hc (x + t • d) x
    have e : x - (x + t • d) = (-t) • d := by rw [neg_smul]; abel
    rw [e, inner_smul_right] at h1
    have h2 := hmin (x + t • d)
    have h3 := mul_lt_mul_of_pos_left h ht
    rw [abs_of_neg hd]
    linarith
  have hS : Success ls f g x d s st := by
    refine success_of_capped ls r hok f g hr L hsm (Or.inl hc) x d hd init hi Ns Nz ?_ hNz hthr hmax value grad hv hgr s st hrun
    intro t ht _ _ h
    have h1 := hcx t ht h
    have hpos : 0 < ls.c2 * |inner ℝ (g x) d| :=
      mul_pos (lt_of_le_of_lt hok.c1 hok.c12) (abs_pos.mpr hd.ne)
    exact lt_of_mul_lt_mul_left (lt_of_lt_of_le h1 hNs) hpos.le
  refine ⟨hS, fun hb => ?_⟩
  rcases hS.curvature with h | ⟨h1, h2⟩
  · exact h
  · have hmx : 0 < s := by rw [h1]; exact hok.max
    rw [← h1] at hb
    have h3 : ls.c2 * inner ℝ (g x) d ≤ inner ℝ (g (x + s • d)) d := by
      by_contra hcon
      rw [not_le] at hcon
      have := hcx s hmx hcon
      linarith
    rw [abs_of_neg h2, abs_of_neg hd]
    have := hok.tol
    linarith

end Smooth

/-! ### A smooth function on which the default constants fail -/

theorem hasDerivAt_posPart_sq (t : ℝ) : HasDerivAt (fun t : ℝ => (max t 0) ^ 2) (2 * max t 0) t := by
  rcases lt_trichotomy t 0 with h | h | h
  · have e : (fun t : ℝ => (max t 0) ^ 2) =ᶠ[nhds t] fun _ => 0 := by
      filter_upwards [Iio_mem_nhds h] with s hs
      rw [max_eq_right (le_of_lt hs)]; norm_num
    rw [max_eq_right h.le, mul_zero]
    exact (hasDerivAt_const t (0 : ℝ)).congr_of_eventuallyEq e
  · subst h
    rw [max_self, mul_zero, hasDerivAt_iff_isLittleO_nhds_zero]
    refine Asymptotics.IsBigO.trans_isLittleO (g := fun h : ℝ => h ^ 2) ?_ ?_
    · refine Asymptotics.IsBigO.of_bound 1 (Filter.Eventually.of_forall fun h => ?_)
      simp only [zero_add, max_self, smul_zero, sub_zero, Real.norm_eq_abs, one_mul]
      norm_num
      rcases le_total h 0 with h0 | h0
      · rw [max_eq_right h0]; nlinarith [sq_nonneg h]
      · rw [max_eq_left h0]
    · have := Asymptotics.isLittleO_pow_id (𝕜 := ℝ) (n := 2) (by norm_num)
      simpa using this
  · have e : (fun t : ℝ => (max t 0) ^ 2) =ᶠ[nhds t] fun t => t ^ 2 := by
      filter_upwards [Ioi_mem_nhds h] with s hs
      rw [max_eq_left (le_of_lt hs)]
    rw [max_eq_left h.le]
    have := (hasDerivAt_pow 2 t).congr_of_eventuallyEq e
    simpa using this

/-- The slope falls linearly from `-1`, rises to `2` on `[0, 1/10]` and falls to `0.95` on `[1/10, 1]`. -/
noncomputable def hardF (t : ℝ) : ℝ :=
  10 ^ 7 - t + 15 * (max t 0) ^ 2 - (15 + 7 / 12) * (max (t - 1 / 10) 0) ^ 2 + 7 / 12 * (max (t - 1) 0) ^ 2

/-- The derivative of `hardF`. -/
noncomputable def hardG (t : ℝ) : ℝ :=
  -1 + 15 * (2 * max t 0) - (15 + 7 / 12) * (2 * max (t - 1 / 10) 0) + 7 / 12 * (2 * max (t - 1) 0)

theorem hardF_deriv (t : ℝ) : HasDerivAt hardF (hardG t) t := by
  have h1 := (hasDerivAt_posPart_sq t).const_mul 15
  have sh : ∀ c : ℝ, HasDerivAt (fun t : ℝ => (max (t - c) 0) ^ 2) (2 * max (t - c) 0) t := by
    intro c
    have := (hasDerivAt_posPart_sq (t - c)).comp t ((hasDerivAt_id t).sub_const c)
    rw [mul_one] at this
    exact this
  have h2 := (sh (1 / 10)).const_mul (15 + 7 / 12)
  have h3 := (sh 1).const_mul (7 / 12)
  have h4 := ((((hasDerivAt_id t).const_sub (10 ^ 7 : ℝ)).add h1).sub h2).add h3
  exact h4

theorem hard_lip (s t : ℝ) : |hardG s - hardG t| ≤ 100 * |s - t| := by
  have h : ∀ c : ℝ, |max (s - c) 0 - max (t - c) 0| ≤ |s - t| := by
    intro c
    have := abs_max_sub_max_le_abs (s - c) (t - c) 0
    simpa using this
  have h0 := h 0
  rw [sub_zero, sub_zero] at h0
  have h1 := h (1 / 10)
  have h2 := h 1
  unfold hardG
  rw [abs_le] at h0 h1 h2
  rw [abs_le]
  have hn := abs_nonneg (s - t)
  constructor <;> linarith [h0.1, h0.2, h1.1, h1.2, h2.1, h2.2]

theorem hard_smooth : LSmooth hardF hardG 100 where
  grad x := by
    have := (hardF_deriv x).hasGradientAt
    simpa using this
  lip x y := by
    rw [Real.norm_eq_abs, Real.norm_eq_abs]; exact hard_lip x y

/-- Values and slopes on `[1/10, 1]`. -/
theorem hard_mid {t : ℝ} (h1 : 1 / 10 ≤ t) (h2 : t ≤ 1) :
    hardG t = 2 - 7 / 6 * (t - 1 / 10) ∧ hardF t = 10 ^ 7 + 1 / 20 + 2 * (t - 1 / 10) - 7 / 12 * (t - 1 / 10) ^ 2 := by
  unfold hardG hardF
  rw [max_eq_left (by linarith : (0 : ℝ) ≤ t), max_eq_left (by linarith : (0 : ℝ) ≤ t - 1 / 10), max_eq_right (by linarith : t - 1 ≤ 0)]
  constructor <;> ring

theorem hard_zero : hardG 0 = -1 ∧ hardF 0 = 10 ^ 7 := by
  unfold hardG hardF
  norm_num

/-- Every point of `[1/10, 1]` violates the curvature condition. -/
theorem hard_steep {t : ℝ} (h1 : 1 / 10 ≤ t) (h2 : t ≤ 1) : 9 / 10 < hardG t := by
  rw [(hard_mid h1 h2).1]; linarith

/-- The default constants (lines 233-243), with any interpolation formulas, budget, increase factor and interval threshold. -/
structure DefaultZoom (ls : Zoom ℝ ℝ) : Prop where
  real : OnReal ls hardF hardG
  c1 : ls.c1 = 1 / 10000
  c2 : ls.c2 = 9 / 10
  c3 : ls.c3 = 1 / 1000000
  cubic : ls.relTolCubic = 1 / 5
  quad : ls.relTolQuad = 1 / 10
  tol : ls.tol = 0
  inc : 1 < ls.increaseFactor
  max : 1 ≤ ls.maxStepsize

theorem DefaultZoom.ok {ls : Zoom ℝ ℝ} (h : DefaultZoom ls) : LiveOK ls (1 / 10) := by
  constructor
  · rw [h.tol]
  · have := h.max; linarith
  · exact h.inc
  · norm_num
  · norm_num
  · rw [h.cubic]; norm_num
  · rw [h.quad]
  · rw [h.c1]; norm_num
  · rw [h.c1]; norm_num
  · rw [h.c1, h.c2]; norm_num
  · rw [h.c2]; norm_num

/-- The search is stuck: all further trial points lie in `[1/10, 1]`. -/
structure Stuck (z : ℝ × ZState ℝ ℝ) : Prop where
  params : z.2.params = 0
  dir : z.2.dir = 1
  valueInit : z.2.valueInit = .fin (10 ^ 7)
  slopeInit : z.2.slopeInit = .fin (-1)
  found : z.2.intervalFound = true
  done : z.2.done = false
  safe : z.2.safeStepsize = 1
  ne : z.2.high ≠ z.2.low
  low : 1 / 10 ≤ z.2.low ∧ z.2.low ≤ 1
  high : (z.2.low = 1 ∧ z.2.high = 0) ∨ (1 / 10 ≤ z.2.high ∧ z.2.high ≤ 1)

theorem stuck_done {ls : Zoom ℝ ℝ} (hd : DefaultZoom ls) {t : ℝ} (h1 : 1 / 10 ≤ t) (h2 : t ≤ 1) (dec : Ext ℝ) :
    Ext.le (Ext.max dec (Zoom.clipErr (ls.curvatureError (.fin (hardG t)) (.fin (-1))))) (.fin ls.tol) = false := by
  rw [Bool.eq_false_iff]
  intro hcon
  rw [Ext.max_le_iff] at hcon
  have := (cur_iff ls (⟨0, hardG 0, 1, 10 ^ 7, -1⟩ : Setup ℝ ℝ) hardG t (by rw [hd.tol])).mp hcon.2
  have h3 := hard_steep h1 h2
  rw [hd.c2, hd.tol, abs_of_pos (by linarith)] at this
  norm_num at this
  linarith

theorem stuck_next {ls : Zoom ℝ ℝ} (hd : DefaultZoom ls) {z : ℝ × ZState ℝ ℝ} (h : Stuck z) : Stuck (ls.zoomIntoInterval z.2) := by
  obtain ⟨θ, t1, t2, t3⟩ := middle_ratio hd.ok z.2 h.ne
  set y := ls.zoomIntoInterval z.2 with hy
  have e1 : y.1 = z.2.low + θ * (z.2.high - z.2.low) := t3
  have hr : 1 / 10 ≤ y.1 ∧ y.1 ≤ 1 := by
    have hl := h.low
    rw [e1]
    rcases h.high with ⟨a, b⟩ | ⟨a, b⟩
    · rw [a, b]; constructor <;> linarith
    · constructor
      · nlinarith
      · nlinarith
  have hyl : y.1 ≠ z.2.low := by
    rw [e1]
    intro hcon
    have : θ * (z.2.high - z.2.low) = 0 := by linarith
    rcases mul_eq_zero.mp this with h0 | h0
    · linarith
    · exact h.ne (by linarith)
  have hyh : y.1 ≠ z.2.high := by
    rw [e1]
    intro hcon
    have : (1 - θ) * (z.2.high - z.2.low) = 0 := by linarith
    rcases mul_eq_zero.mp this with h0 | h0
    · linarith
    · exact h.ne (by linarith)
  have estep : z.2.params + y.1 • z.2.dir = y.1 := by rw [h.params, h.dir]; simp
  have esl : ls.vdot (ls.grad (z.2.params + y.1 • z.2.dir)) z.2.dir = .fin (hardG y.1) := by
    rw [estep, h.dir, hd.real.grad, hd.real.vdot]; simp
  have edone : y.2.done = false := by
    have e : y.2.done = Ext.le (Ext.max y.2.decreaseError (Zoom.clipErr (ls.curvatureError
      (ls.vdot (ls.grad (z.2.params + y.1 • z.2.dir)) z.2.dir) z.2.slopeInit))) (.fin ls.tol) := rfl
    rw [e, esl, h.slopeInit]
    exact stuck_done hd hr.1 hr.2 _
  have eparams : y.2.params = if y.2.done then z.2.params + y.1 • z.2.dir else z.2.params := rfl
  have esafe : y.2.safeStepsize = max (if Ext.le y.2.decreaseError (.fin ls.tol) then y.1 else z.2.safeStepsize) z.2.safeStepsize := rfl
  set setHigh : Bool := (Ext.gt y.2.decreaseError (.fin 0) || Ext.le z.2.valueLow (ls.f (z.2.params + y.1 • z.2.dir))) with hsh
  set toLow : Bool := (Ext.le (.fin 0) (Ext.smul (z.2.high - z.2.low) (ls.vdot (ls.grad (z.2.params + y.1 • z.2.dir)) z.2.dir)) && !setHigh)
    with htl
  have elow : y.2.low = if !setHigh then y.1 else z.2.low := rfl
  have ehigh : y.2.high = if toLow then z.2.low else if setHigh then y.1 else z.2.high := rfl
  -- the slope is positive, so a step back to the origin can only become the upper end
  have hfar : z.2.high = 0 → z.2.low = 1 → setHigh = true := by
    intro h0 hlo
    have hs9 : y.1 ≤ 9 / 10 := by rw [e1, h0, hlo]; linarith
    have hD : ¬ Dec ls (⟨0, hardG 0, 1, 10 ^ 7, -1⟩ : Setup ℝ ℝ) hardF hardG y.1 := by
      obtain ⟨a, b⟩ := hard_mid hr.1 hr.2
      rintro (hcon | ⟨hcon, _⟩)
      · rw [b, hd.c1] at hcon
        simp only at hcon
        nlinarith
      · rw [a, hd.c1] at hcon
        simp only at hcon
        linarith
    rw [hsh, Bool.or_eq_true]
    left
    have hD' := mt (dec_iff ls (⟨0, hardG 0, 1, 10 ^ 7, -1⟩ : Setup ℝ ℝ) hardF hardG y.1).mp hD
    have edec : y.2.decreaseError = Zoom.clipErr (ls.decreaseError y.1 (.fin (hardF y.1)) (.fin (hardG y.1)) (.fin (10 ^ 7)) (.fin (-1))) := by
      have e : y.2.decreaseError = Zoom.clipErr (ls.decreaseError y.1 (ls.f (z.2.params + y.1 • z.2.dir))
        (ls.vdot (ls.grad (z.2.params + y.1 • z.2.dir)) z.2.dir) z.2.valueInit z.2.slopeInit) := rfl
      rw [e, esl, estep, hd.real.f, h.valueInit, h.slopeInit]
    rw [edec]
    simpa using hD'
  refine ⟨by rw [eparams, edone]; exact h.params, h.dir, h.valueInit, h.slopeInit, h.found, edone, ?_, ?_, ?_, ?_⟩
  · rw [esafe, h.safe]
    apply max_eq_right
    split_ifs
    · exact hr.2
    · exact le_refl _
  · rw [elow, ehigh]
    cases hh : setHigh
    · cases ht : toLow
      · simpa using Ne.symm hyh
      · simpa using Ne.symm hyl
    · have ht : toLow = false := by rw [htl, hh]; simp
      rw [ht]
      simpa using hyl
  · rw [elow]
    cases hh : setHigh
    · simpa using hr
    · simpa using h.low
  · right
    rw [ehigh]
    cases hh : setHigh
    · cases ht : toLow
      · simp only [Bool.false_eq_true, if_false]
        rcases h.high with ⟨a, b⟩ | c
        · rw [hfar b a] at hh; cases hh
        · exact c
      · simpa using h.low
    · have ht : toLow = false := by rw [htl, hh]; simp
      rw [ht]
      simpa using hr

theorem stuck_start {ls : Zoom ℝ ℝ} (hd : DefaultZoom ls) : Stuck (ls.searchInterval 1 (ls.initState 0 none none (some 1))) := by
  obtain ⟨g0, f0⟩ := hard_zero
  obtain ⟨g1, f1⟩ := hard_mid (t := 1) (by norm_num) (le_refl _)
  set st := ls.initState 0 none none (some (1 : ℝ)) with hst
  have i1 : st.params = 0 := rfl
  have i2 : st.dir = 1 := rfl
  have i3 : st.valueInit = .fin (10 ^ 7) := by
    show ls.f 0 = _
    rw [hd.real.f, f0]
  have i4 : st.slopeInit = .fin (-1) := by
    show ls.vdot (ls.grad 0) 1 = _
    rw [hd.real.grad, hd.real.vdot, g0]; simp
  set y := ls.searchInterval 1 st with hy
  have e1 : y.1 = 1 := by
    show min (1 : ℝ) ls.maxStepsize = 1
    exact min_eq_left hd.max
  have estep : st.params + y.1 • st.dir = 1 := by rw [e1, i1, i2]; simp
  have esl : ls.vdot (ls.grad (st.params + y.1 • st.dir)) st.dir = .fin (hardG 1) := by
    rw [estep, i2, hd.real.grad, hd.real.vdot]; simp
  have edec : y.2.decreaseError = Zoom.clipErr (ls.decreaseError 1 (.fin (hardF 1)) (.fin (hardG 1)) (.fin (10 ^ 7)) (.fin (-1))) := by
    have e : y.2.decreaseError = Zoom.clipErr (ls.decreaseError y.1 (ls.f (st.params + y.1 • st.dir))
      (ls.vdot (ls.grad (st.params + y.1 • st.dir)) st.dir) st.valueInit st.slopeInit) := rfl
    rw [e, esl, estep, e1, hd.real.f, i3, i4]
  have hD : Dec ls (⟨0, hardG 0, 1, 10 ^ 7, -1⟩ : Setup ℝ ℝ) hardF hardG 1 := by
    right
    constructor
    · show hardG 1 ≤ (2 * ls.c1 - 1) * -1
      rw [g1, hd.c1]; norm_num
    · show hardF 1 ≤ 10 ^ 7 + ls.c3 * |10 ^ 7|
      rw [f1, hd.c3]; norm_num
  have hgt := (dec_iff ls (⟨0, hardG 0, 1, 10 ^ 7, -1⟩ : Setup ℝ ℝ) hardF hardG 1).mpr hD
  have hle := dec_le ls (⟨0, hardG 0, 1, 10 ^ 7, -1⟩ : Setup ℝ ℝ) hardF hardG 1 (by rw [hd.tol]) hD
  simp only at hgt hle
  rw [← edec] at hgt hle
  have hsh : (Ext.gt y.2.decreaseError (.fin 0) || (Ext.le st.prevValue y.2.prevValue && decide (st.iterNum > 0))) = false := by
    rw [hgt]
    have : st.iterNum = 0 := rfl
    rw [this]; simp
  have hslope : y.2.prevSlope = .fin (hardG 1) := by rw [← esl]; rfl
  have hsl : (Ext.le (.fin 0) y.2.prevSlope &&
      !(Ext.gt y.2.decreaseError (.fin 0) || (Ext.le st.prevValue y.2.prevValue && decide (st.iterNum > 0)))) = true := by
    rw [hsh, hslope, g1]
    simp [Ext.le]
    norm_num
  have herr : Ext.le y.2.error (.fin ls.tol) = false := by
    have e : y.2.error = Ext.max y.2.decreaseError (Zoom.clipErr (ls.curvatureError
      (ls.vdot (ls.grad (st.params + y.1 • st.dir)) st.dir) st.slopeInit)) := rfl
    rw [e, esl, i4]
    exact stuck_done hd (by norm_num) (le_refl _) _
  have efound : y.2.intervalFound = true := by
    have e : y.2.intervalFound = ((Ext.gt y.2.decreaseError (.fin 0) ||
      (Ext.le st.prevValue y.2.prevValue && decide (st.iterNum > 0))) || (Ext.le (.fin 0) y.2.prevSlope &&
      !(Ext.gt y.2.decreaseError (.fin 0) || (Ext.le st.prevValue y.2.prevValue && decide (st.iterNum > 0)))) ||
      Ext.le y.2.error (.fin ls.tol)) := rfl
    rw [e, hsl]; simp
  have edone : y.2.done = false := by
    have e : y.2.done = (Ext.le y.2.error (.fin ls.tol) || (decide (y.1 ≥ ls.maxStepsize) && !y.2.intervalFound)) := rfl
    rw [e, herr, efound]; simp
  have elow : y.2.low = 1 := by
    have e : y.2.low = if (Ext.le (.fin 0) y.2.prevSlope &&
      !(Ext.gt y.2.decreaseError (.fin 0) || (Ext.le st.prevValue y.2.prevValue && decide (st.iterNum > 0)))) then y.1
        else st.prevStepsize := rfl
    rw [e, hsl, if_pos rfl, e1]
  have ehigh : y.2.high = 0 := by
    have e : y.2.high = if (Ext.le (.fin 0) y.2.prevSlope &&
      !(Ext.gt y.2.decreaseError (.fin 0) || (Ext.le st.prevValue y.2.prevValue && decide (st.iterNum > 0))))
        then st.prevStepsize else y.1 := rfl
    rw [e, hsl, if_pos rfl]; rfl
  have eparams : y.2.params = if y.2.done then st.params + y.1 • st.dir else st.params := rfl
  have esafe : y.2.safeStepsize = if Ext.le y.2.decreaseError (.fin ls.tol) then y.1 else st.safeStepsize := rfl
  refine ⟨by rw [eparams, edone]; rfl, i2, i3, i4, efound, edone, by rw [esafe, hle, if_pos rfl, e1], by rw [elow, ehigh]; norm_num,
    by rw [elow]; norm_num, Or.inl ⟨elow, ehigh⟩⟩

/-- **C84** (negation for the default constants without convexity).  There are a smooth function, bounded below, and a descent direction
along which steps satisfying the exact strong Wolfe conditions exist, but on which the zoom search with the default constants fails
whatever the number of iterations, the maximal step, the increase factor, the interval threshold and the interpolation formulas; it
returns the step 1, where the objective is larger than at the start. -/
theorem C84_default_fails_false : LSmooth hardF hardG 100 ∧ (∀ t, 10 ^ 7 - 1 ≤ hardF t) ∧ inner ℝ (hardG 0) (1 : ℝ) < 0 ∧
    (hardF (1 / 30) ≤ hardF 0 + 1 / 10000 * (1 / 30) * inner ℝ (hardG 0) (1 : ℝ) ∧ inner ℝ (hardG (1 / 30)) (1 : ℝ) = 0) ∧
    hardF 0 < hardF 1 ∧
    ∀ (ls : Zoom ℝ ℝ), DefaultZoom ls → 1 ≤ ls.maxiter → ∀ (s : ℝ) (st : ZState ℝ ℝ),
      ls.run 1 0 none none (some 1) = .ok (s, st) → st.failed = true ∧ s = 1 ∧ st.params = 1 := by
  obtain ⟨g0, f0⟩ := hard_zero
  have hin : ∀ a : ℝ, inner ℝ a (1 : ℝ) = a := fun a => by simp
  refine ⟨hard_smooth, ?_, ?_, ?_, ?_, ?_⟩
  · intro t
    unfold hardF
    rcases le_total t 0 with h | h
    · rw [max_eq_right h, max_eq_right (by linarith), max_eq_right (by linarith)]; nlinarith
    · rcases le_total t (1 / 10) with h2 | h2
      · rw [max_eq_left h, max_eq_right (by linarith : t - 1 / 10 ≤ 0), max_eq_right (by linarith : t - 1 ≤ 0)]; nlinarith
      · rcases le_total t 1 with h3 | h3
        · rw [max_eq_left h, max_eq_left (by linarith : 0 ≤ t - 1 / 10), max_eq_right (by linarith : t - 1 ≤ 0)]; nlinarith
        · rw [max_eq_left h, max_eq_left (by linarith : 0 ≤ t - 1 / 10), max_eq_left (by linarith : 0 ≤ t - 1)]; nlinarith
  · rw [hin, g0]; norm_num
  · rw [hin, hin, g0, f0]
    unfold hardF hardG
    norm_num
  · rw [f0, (hard_mid (t := 1) (by norm_num) (le_refl _)).2]; norm_num
  · intro ls hd hm s st hrun
    have hC := C20_zoom_partial ls hd.ok.zoomOK hm 1 one_pos 0 (hardG 0) (10 ^ 7) (-1) none none (some 1)
      (Or.inr ⟨Or.inl rfl, by rw [hd.real.f, f0], hd.real.grad 0⟩) (by rw [hd.real.vdot, g0]; simp) s st hrun
    obtain ⟨_, _, q3, _, _, q6, _, _⟩ := hC
    obtain ⟨k, hk1, hk2, hrk, hc1, _⟩ := runS_spec hm hrun
    set z0 := ((1 : ℝ), ls.initState 0 none none (some (1 : ℝ))) with hz0
    have hraw : ∀ j, j < k → Stuck (ls.rawUpdate (ls.update^[j] z0)) := by
      intro j
      induction j with
      | zero =>
        intro _
        have := stuck_start hd
        exact this
      | succ j ih =>
        intro hj
        have h1 := ih (by omega)
        have h2 := hc1 (j + 1) (by omega) hj
        rw [Function.iterate_succ_apply'] at h2 ⊢
        have hnf : (ls.rawUpdate (ls.update^[j] z0)).2.failed = false := by
          cases hf : (ls.rawUpdate (ls.update^[j] z0)).2.failed
          · rfl
          · simp [Zoom.update, hf, Zoom.makeSafeStep] at h2
        have e : ls.update (ls.update^[j] z0) = ls.rawUpdate (ls.update^[j] z0) := by simp [Zoom.update, hnf]
        rw [e]
        have := stuck_next hd h1
        unfold Zoom.rawUpdate at this h1 ⊢
        rw [if_pos h1.found]
        exact this
    obtain ⟨j, rfl⟩ := Nat.exists_eq_succ_of_ne_zero (by omega : k ≠ 0)
    have hS := hraw j (by omega)
    rw [Nat.succ_eq_add_one, Function.iterate_succ_apply'] at hrk
    have hfail : st.failed = true := by
      cases hf : st.failed
      · have hdn := q6.mpr hf
        have e : (ls.update (ls.update^[j] z0)).2.done = (ls.rawUpdate (ls.update^[j] z0)).2.done := by
          unfold Zoom.update
          simp only
          split_ifs <;> rfl
        have e2 : st.done = (ls.update (ls.update^[j] z0)).2.done := congrArg (fun r => r.2.done) hrk
        rw [e2, e, hS.done] at hdn
        cases hdn
      · rfl
    have hs1 : s = 1 := by
      have e2 : st.failed = (ls.update (ls.update^[j] z0)).2.failed := congrArg (fun r => r.2.failed) hrk
      have e3 : s = (ls.update (ls.update^[j] z0)).1 := congrArg Prod.fst hrk
      have hf : (ls.rawUpdate (ls.update^[j] z0)).2.failed = true := by
        rw [hfail] at e2
        unfold Zoom.update at e2
        simp only at e2
        split_ifs at e2 with h
        · exact h
        · exact e2.symm
      have e : ls.update (ls.update^[j] z0) = ls.makeSafeStep (ls.rawUpdate (ls.update^[j] z0)) := by simp [Zoom.update, hf]
      rw [e3, e]
      unfold Zoom.makeSafeStep
      simp only
      rw [hS.safe, if_pos (Or.inl one_pos)]
    refine ⟨hfail, hs1, ?_⟩
    rw [q3, hs1]; simp

/-- The counterexample applies to the default attributes. -/
example (n : ℕ) (c q) : DefaultZoom (⟨fun x => .fin (hardF x), hardG, fun u v => .fin (inner ℝ u v), 1 / 10000, 9 / 10, 1 / 1000000, 1 / 5, 1 / 10,
    1 / 1000000, 2, 0, n, 2 ^ n, c, q, true, true⟩ : Zoom ℝ ℝ) :=
  ⟨⟨fun _ => rfl, fun _ => rfl, fun _ _ => rfl⟩, rfl, rfl, rfl, rfl, rfl, rfl, by norm_num, one_le_pow₀ (by norm_num)⟩

/-- The hypotheses of `C84_bounded` hold, e.g. for `x² / 2` from `1` along `-1` with the default constants. -/
example (c q) (s : ℝ) (st : ZState ℝ ℝ)
    (hrun : Zoom.run (⟨fun x => .fin (x ^ 2 / 2), fun x => x, fun u v => .fin (inner ℝ u v), 1 / 10000, 9 / 10, 1 / 1000000, 1 / 5, 1 / 10,
      1 / 1000000, 2, 0, 30, 2 ^ 30, c, q, true, true⟩ : Zoom ℝ ℝ) 1 1 none none (some (-1)) = .ok (s, st)) :
    st.failed = false ∧ |(1 + s * (-1)) * (-1)| ≤ 9 / 10 := by
  have h := C84_bounded (⟨fun x => .fin (x ^ 2 / 2), fun x => x, fun u v => .fin (inner ℝ u v), 1 / 10000, 9 / 10, 1 / 1000000, 1 / 5, 1 / 10,
      1 / 1000000, 2, 0, 30, 2 ^ 30, c, q, true, true⟩ : Zoom ℝ ℝ) (1 / 10)
    (by constructor <;> norm_num) (fun x => x ^ 2 / 2) (fun x => x) ⟨fun _ => rfl, fun _ => rfl, fun _ _ => rfl⟩ 1
    ⟨fun x => by
      have h1 : HasDerivAt (fun x : ℝ => x ^ 2 / 2) x x := by
        have := (hasDerivAt_pow 2 x).div_const 2
        simpa using this
      exact h1.hasGradientAt', fun x y => by rw [one_mul]⟩
    (fun x y => by
      have : inner ℝ x (y - x) = x * (y - x) := by simp [mul_comm]
      rw [this]; nlinarith [sq_nonneg (y - x)]) 0 (fun y => by positivity) 1 (-1) (by simp) 1 one_pos 0 2
    (by simp; norm_num) (by simp; norm_num) (by simp; norm_num) (by norm_num) none none (Or.inl rfl) (Or.inl rfl) s st hrun
  refine ⟨h.1.failed, ?_⟩
  have := h.2 (by simp; norm_num)
  simpa [mul_comm] using this

end Jaxopt.LineSearch
