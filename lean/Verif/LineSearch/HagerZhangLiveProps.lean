import Verif.LineSearch.HagerZhangInterval
import Verif.Num.Smooth
import Verif.Loss.Props
import Mathlib.Algebra.Order.Archimedean.Basic
import Mathlib.Analysis.SpecialFunctions.ExpDeriv
import Mathlib.Analysis.SpecialFunctions.Log.Deriv
import Mathlib.Analysis.Calculus.Deriv.Inv
import Mathlib.Analysis.Calculus.MeanValue

/-!
# Property C96: when the Hager-Zhang line search ends and succeeds

On a smooth function every loop of the search ends and the search succeeds, as soon as one of the probes `1, e, e², …` of the bracketing loop
has an upward slope or a value above the threshold; otherwise the bracketing loop never ends.
-/

set_option autoImplicit false
set_option linter.unusedSectionVars false
set_option linter.unusedVariables false

namespace Jaxopt.LineSearch

open Jaxopt.Base

/-- `F` has a value satisfying `P` which is the same for every sufficient amount of fuel. -/
def Settles {α : Type*} (F : ℕ → Option α) (P : α → Prop) : Prop := ∃ N r, P r ∧ ∀ n, N ≤ n → F n = some r

theorem Settles.bind {α β : Type*} {F : ℕ → Option α} {P : α → Prop} {G : α → ℕ → Option β} {Q : β → Prop} (h : Settles F P)
    (hG : ∀ r, P r → Settles (G r) Q) : Settles (fun n => (F n).bind (fun r => G r n)) Q := by
  obtain ⟨N, r, hr, hN⟩ := h
  obtain ⟨N', r', hr', hN'⟩ := hG r hr
  exact ⟨max N N', r', hr', fun n hn => by
    show (F n).bind (fun r => G r n) = some r'
    rw [hN n (le_trans (le_max_left _ _) hn), Option.bind_some, hN' n (le_trans (le_max_right _ _) hn)]⟩

theorem Settles.map {α β : Type*} {F : ℕ → Option α} {P : α → Prop} {G : α → β} {Q : β → Prop} (h : Settles F P)
    (hG : ∀ r, P r → Q (G r)) : Settles (fun n => (F n).map G) Q := by
  obtain ⟨N, r, hr, hN⟩ := h
  exact ⟨N, G r, hG r hr, fun n hn => by simp only [hN n hn, Option.map_some]⟩

theorem Settles.const {α : Type*} {P : α → Prop} {r : α} (h : P r) : Settles (fun _ => some r) P := ⟨0, r, h, fun _ _ => rfl⟩

theorem Settles.mono {α : Type*} {F : ℕ → Option α} {P Q : α → Prop} (h : Settles F P) (hPQ : ∀ r, P r → Q r) : Settles F Q := by
  obtain ⟨N, r, hr, hN⟩ := h
  exact ⟨N, r, hPQ r hr, hN⟩

/-- `P` may use that the value is attained. -/
theorem Settles.attained {α : Type*} {F : ℕ → Option α} {P : α → Prop} (h : Settles F P) : Settles F (fun r => P r ∧ ∃ n, F n = some r) := by
  obtain ⟨N, r, hr, hN⟩ := h
  exact ⟨N, r, ⟨hr, N, hN N (le_refl _)⟩, hN⟩

/-- A line function with finite values. -/
def finLine (φ φ' : ℝ → ℝ) (c : ℝ) : Ext ℝ × Ext ℝ := (.fin (φ c), .fin (φ' c))

/-- One iteration of the loop of `_update` on a line with finite values: it ends the loop, or the upper end moves to the middle and the middle
to the midpoint of the *old* interval. -/
theorem updateBody_cases (φ φ' : ℝ → ℝ) (t l m h : ℝ) :
    ((updateBody (finLine φ φ') (.fin t) ⟨false, false, l, m, h, .fin (φ m), .fin (φ' m)⟩).done = true ∧
      (updateBody (finLine φ φ') (.fin t) ⟨false, false, l, m, h, .fin (φ m), .fin (φ' m)⟩).failed = false) ∨
    (t < φ m ∧ updateBody (finLine φ φ') (.fin t) ⟨false, false, l, m, h, .fin (φ m), .fin (φ' m)⟩ =
      ⟨false, false, l, (l + h) / 2, m, .fin (φ ((l + h) / 2)), .fin (φ' ((l + h) / 2))⟩) := by
  by_cases h1 : 0 ≤ φ' m
  · left; simp [updateBody, Ext.le, h1, failedNan, Ext.isNan]
  · by_cases h2 : φ m ≤ t
    · left; simp [updateBody, Ext.le, h1, h2, failedNan, Ext.isNan]
    · right; simp [updateBody, Ext.le, h1, h2, failedNan, Ext.isNan, finLine]; exact lt_of_not_ge h2

theorem updateLoop_stop {phi : ℝ → Ext ℝ × Ext ℝ} {thr : Ext ℝ} {s : UState ℝ} (h : updateCond s = false) (n : ℕ) :
    updateLoop phi thr n s = some s := by
  cases n <;> simp [updateLoop, h]

/-- The loop of `_update` ends when the function is not above the threshold near the lower end. -/
theorem updateLoop_settles (φ φ' : ℝ → ℝ) (t l δ : ℝ) (hδ : ∀ m, l < m → m < l + δ → φ m ≤ t) (k : ℕ) :
    ∀ m h : ℝ, l < m → m < h → (3 / 4) ^ k * (4 * (m - l) + 3 * (h - l)) < 4 * δ →
      ∃ s, s.failed = false ∧ ∀ n, k + 1 ≤ n → updateLoop (finLine φ φ') (.fin t) n ⟨false, false, l, m, h, .fin (φ m), .fin (φ' m)⟩ = some s := by
  induction k with
  | zero =>
    intro m h hlm hmh hk
    rcases updateBody_cases φ φ' t l m h with ⟨h1, h2⟩ | ⟨h1, _⟩
    · refine ⟨_, h2, fun n hn => ?_⟩
      obtain ⟨n, rfl⟩ := Nat.exists_eq_add_of_le' hn
      rw [updateLoop, if_pos (by simp [updateCond, hlm, hmh])]
      exact updateLoop_stop (by simp [updateCond, h1]) n
    · exact absurd (hδ m hlm (by rw [pow_zero, one_mul] at hk; linarith)) (not_le.mpr h1)
  | succ k ih =>
    intro m h hlm hmh hk
    rcases updateBody_cases φ φ' t l m h with ⟨h1, h2⟩ | ⟨h1, h2⟩
    · refine ⟨_, h2, fun n hn => ?_⟩
      obtain ⟨n, rfl⟩ := Nat.exists_eq_add_of_le' (le_trans (by omega : 1 ≤ k + 1 + 1) hn)
      rw [updateLoop, if_pos (by simp [updateCond, hlm, hmh])]
      exact updateLoop_stop (by simp [updateCond, h1]) n
    · by_cases hc : (l + h) / 2 < m
      · obtain ⟨s, hs, hN⟩ := ih ((l + h) / 2) m (by linarith) hc (by
          refine lt_of_le_of_lt ?_ hk
          rw [pow_succ, mul_assoc]
          exact mul_le_mul_of_nonneg_left (by linarith) (by positivity))
        refine ⟨s, hs, fun n hn => ?_⟩
        obtain ⟨n, rfl⟩ := Nat.exists_eq_add_of_le' (le_trans (by omega : 1 ≤ k + 1 + 1) hn)
        rw [updateLoop, if_pos (by simp [updateCond, hlm, hmh]), h2]
        exact hN n (by omega)
      · refine ⟨⟨false, false, l, (l + h) / 2, m, .fin (φ ((l + h) / 2)), .fin (φ' ((l + h) / 2))⟩, rfl, fun n hn => ?_⟩
        obtain ⟨n, rfl⟩ := Nat.exists_eq_add_of_le' (le_trans (by omega : 1 ≤ k + 1 + 1) hn)
        rw [updateLoop, if_pos (by simp [updateCond, hlm, hmh]), h2]
        exact updateLoop_stop (by simp [updateCond, hc]) n

/-- A differentiable line function with Lipschitz slopes. -/
structure SmoothPhi (φ φ' : ℝ → ℝ) (M : ℝ) : Prop where
  deriv : ∀ s, HasDerivAt φ (φ' s) s
  lip : ∀ s t, |φ' s - φ' t| ≤ M * |s - t|

namespace SmoothPhi
variable {φ φ' : ℝ → ℝ} {M : ℝ}

theorem nonneg (h : SmoothPhi φ φ' M) : 0 ≤ M := by
  have := h.lip 1 0
  norm_num at this
  exact le_trans (abs_nonneg _) this

theorem mean (h : SmoothPhi φ φ' M) {a b : ℝ} (hab : a < b) : ∃ ξ, a ≤ ξ ∧ ξ ≤ b ∧ φ' ξ * (b - a) = φ b - φ a := by
  obtain ⟨ξ, hξ, he⟩ := exists_hasDerivAt_eq_slope φ φ' hab (fun x _ => (h.deriv x).continuousAt.continuousWithinAt) (fun x _ => h.deriv x)
  refine ⟨ξ, hξ.1.le, hξ.2.le, ?_⟩
  rw [he, div_mul_cancel₀ _ (by linarith)]

/-- To the right of a point with a downward slope the function is smaller for a while. -/
theorem decreases (h : SmoothPhi φ φ' M) {l : ℝ} (hl : φ' l < 0) : ∃ δ, 0 < δ ∧ ∀ m, l < m → m < l + δ → φ m ≤ φ l := by
  have hM := h.nonneg
  refine ⟨-φ' l / (M + 1), div_pos (by linarith) (by linarith), fun m h1 h2 => ?_⟩
  obtain ⟨ξ, a, b, e⟩ := h.mean h1
  have h3 := h.lip ξ l
  rw [abs_of_nonneg (by linarith : (0 : ℝ) ≤ ξ - l)] at h3
  have h4 := (abs_le.mp h3).2
  have h5 : (ξ - l) * (M + 1) ≤ -φ' l := by
    rw [← le_div_iff₀ (by linarith)]; linarith
  have h6 : φ' ξ ≤ 0 := by nlinarith
  have := mul_nonpos_of_nonpos_of_nonneg h6 (by linarith : 0 ≤ m - l)
  linarith

end SmoothPhi

/-- **C96**, inner loop: on a smooth line function the loop of `_update` ends, without failure, whatever point is tried, when the lower end has
a downward slope and a value within the threshold. -/
theorem C96_update_ends {φ φ' : ℝ → ℝ} {M : ℝ} (hs : SmoothPhi φ φ' M) {t low : ℝ} (hl : φ' low < 0) (ht : φ low ≤ t) (high middle : ℝ) :
    ∃ N r, r.1 = false ∧ ∀ fuel, N ≤ fuel → updateInterval (finLine φ φ') (.fin t) fuel low high middle = some r := by
  unfold updateInterval
  by_cases hc : low < middle ∧ middle < high
  · obtain ⟨δ, hδ, hd⟩ := hs.decreases hl
    obtain ⟨k, hk⟩ := exists_pow_lt_of_lt_one (show (0 : ℝ) < 4 * δ / (7 * (high - low)) from div_pos (by linarith) (by linarith [hc.1, hc.2]))
      (by norm_num : (3 / 4 : ℝ) < 1)
    have hpos : 0 < 7 * (high - low) := by linarith [hc.1, hc.2]
    rw [lt_div_iff₀ hpos] at hk
    obtain ⟨s, h1, h2⟩ := updateLoop_settles φ φ' t low δ (fun m a b => le_trans (hd m a b) ht) k middle high hc.1 hc.2
      (lt_of_le_of_lt (mul_le_mul_of_nonneg_left (by linarith [hc.1, hc.2]) (by positivity)) hk)
    refine ⟨k + 1, (s.failed, s.low, s.high), h1, fun n hn => ?_⟩
    have e1 : ¬ (middle ≥ high) := not_le.mpr hc.2
    have e2 : ¬ (middle ≤ low) := not_le.mpr hc.1
    simp only [e1, e2, decide_false, Bool.or_self]
    rw [show (finLine φ φ' middle) = (.fin (φ middle), .fin (φ' middle)) from rfl]
    simp only [failedNan, Ext.isNan, Bool.or_self]
    rw [h2 n hn]
    rfl
  · refine ⟨0, (false, low, high), rfl, fun n _ => ?_⟩
    dsimp only
    rw [updateLoop_stop]
    · rfl
    · simp only [updateCond]
      rw [not_and_or, not_lt, not_lt] at hc
      rcases hc with hc | hc
      · simp [not_lt.mpr hc]
      · simp [not_lt.mpr hc]

namespace HZ

section Line
variable {E : Type*} [AddCommGroup E] [Module ℝ E]

/-- The same search with another amount of fuel. -/
def withFuel (ls : HZ ℝ E) (n : ℕ) : HZ ℝ E := { ls with fuel := n }

/-- The objective restricted to the line has finite values and is smooth. -/
structure SmoothLine (ls : HZ ℝ E) (x d : E) (φ φ' : ℝ → ℝ) (M : ℝ) : Prop extends SmoothPhi φ φ' M where
  line : ls.line x d = finLine φ φ'

variable {ls : HZ ℝ E} {x d : E} {φ φ' : ℝ → ℝ} {M t : ℝ}

theorem SmoothLine.left (h : SmoothLine ls x d φ φ' M) {a : ℝ} : LeftOK (ls.line x d) t a ↔ φ' a < 0 ∧ φ a ≤ t := by
  rw [h.line]; simp [LeftOK, finLine, Ext.lt, Ext.AtMost]

theorem SmoothLine.right (h : SmoothLine ls x d φ φ' M) {b : ℝ} : RightWeak (ls.line x d) t b ↔ 0 ≤ φ' b ∨ t < φ b := by
  rw [h.line]; simp [RightWeak, RightOK, finLine, Ext.le, Ext.gt, Ext.lt]

/-- What the interval updates return: a bracket inside the old one. -/
def Inside (ls : HZ ℝ E) (x d : E) (t low high : ℝ) (r : Bool × ℝ × ℝ) : Prop :=
  ls.Bracket x d t r.2.1 r.2.2 ∧ low ≤ r.2.1 ∧ r.2.2 ≤ high

theorem updateInterval_settles (h : SmoothLine ls x d φ φ' M) {low high : ℝ} (hb : ls.Bracket x d t low high) (m : ℝ) :
    Settles (fun n => updateInterval (ls.line x d) (.fin t) n low high m) (fun r => ls.Inside x d t low high r ∧ r.1 = false) := by
  obtain ⟨h1, h2⟩ := h.left.mp hb.2.2.1
  obtain ⟨N, r, h3, h4⟩ := C96_update_ends h.toSmoothPhi h1 h2 high m
  rw [← h.line] at h4
  exact ⟨N, r, ⟨hb.update (h4 N (le_refl _)), h3⟩, h4⟩

/-- Evaluating the objective at a non-finite step gives no NaN. -/
def OffOK (ls : HZ ℝ E) : Prop := ∀ c, failedNan (ls.offLine c).1 (ls.offLine c).2 = false

theorem updateE_settles (h : SmoothLine ls x d φ φ' M) {low high : ℝ} (hb : ls.Bracket x d t low high) (m : Ext ℝ) :
    Settles (fun n => (ls.withFuel n).updateE x d (.fin t) low high m)
      (fun r => ls.Inside x d t low high r ∧ (ls.OffOK → r.1 = false)) := by
  cases m with
  | fin m => exact (updateInterval_settles h hb m).mono (fun r hr => ⟨hr.1, fun _ => hr.2⟩)
  | pinf => exact Settles.const (r := (failedNan (ls.offLine .pinf).1 (ls.offLine .pinf).2, low, high)) ⟨⟨hb, le_refl _, le_refl _⟩, fun ho => ho _⟩
  | ninf => exact Settles.const (r := (failedNan (ls.offLine .ninf).1 (ls.offLine .ninf).2, low, high)) ⟨⟨hb, le_refl _, le_refl _⟩, fun ho => ho _⟩
  | nan => exact Settles.const (r := (failedNan (ls.offLine .nan).1 (ls.offLine .nan).2, low, high)) ⟨⟨hb, le_refl _, le_refl _⟩, fun ho => ho _⟩

theorem secant2_settles (h : SmoothLine ls x d φ φ' M) {low high : ℝ} (hb : ls.Bracket x d t low high) :
    Settles (fun n => (ls.withFuel n).secant2 x d (.fin t) low high)
      (fun r => ls.Inside x d t low high r ∧ (ls.OffOK → r.1 = false)) := by
  refine Settles.bind (G := fun r n =>
    let c := secant (ls.line x d) low high
    let onLeft := decide (c = .fin r.2.1)
    let onRight := decide (c = .fin r.2.2)
    let c1 := if onRight then secant (ls.line x d) high r.2.2 else c
    let c2 := if onLeft then secant (ls.line x d) low r.2.1 else c1
    if onLeft || onRight then (ls.withFuel n).updateE x d (.fin t) r.2.1 r.2.2 c2 else some r)
    (updateE_settles h hb (secant (ls.line x d) low high)) (fun r hr => ?_)
  obtain ⟨⟨h1, h2, h3⟩, h4⟩ := hr
  dsimp only
  split_ifs
  all_goals first
    | exact Settles.const ⟨⟨h1, h2, h3⟩, h4⟩
    | exact (updateE_settles h h1 _).mono (fun q hq => ⟨⟨hq.1.1, le_trans h2 hq.1.2.1, le_trans hq.1.2.2 h3⟩, hq.2⟩)

theorem updateBracket_settles (h : SmoothLine ls x d φ φ' M) (hsh : 0 ≤ ls.shrinkage) {st : HZState ℝ E}
    (hb : ls.Bracket x d t st.low st.high) :
    Settles (fun n => (ls.withFuel n).updateBracket x d (.fin t) st)
      (fun r => ls.Inside x d t st.low st.high r ∧ (ls.OffOK → st.failed = false → r.1 = false) ∧
        (st.done = false → r.2.2 - r.2.1 ≤ max ls.shrinkage (1 / 2) * (st.high - st.low))) := by
  have hw : 0 ≤ st.high - st.low := by linarith [hb.2.1]
  unfold updateBracket
  refine (secant2_settles h hb).bind (fun r hr => ?_)
  obtain ⟨⟨h1, h2, h3⟩, h4⟩ := hr
  cases hd : st.done
  · simp only [Bool.false_eq_true, if_false, Bool.not_false, Bool.true_and]
    by_cases hc : r.2.2 - r.2.1 > ls.shrinkage * (st.high - st.low)
    · have e : ∀ n, (ls.withFuel n).shrinkage = ls.shrinkage := fun _ => rfl
      simp only [e, hc, decide_true, if_true]
      have hlt : r.2.1 < r.2.2 := by
        have := mul_nonneg hsh hw
        linarith
      have hm : 1 / 2 * (st.high - st.low) ≤ max ls.shrinkage (1 / 2) * (st.high - st.low) :=
        mul_le_mul_of_nonneg_right (le_max_right _ _) hw
      obtain ⟨q, hq, hq1, hq2⟩ : ∃ q, (∀ k, updateInterval (ls.line x d) (.fin t) (k + 1) r.2.1 r.2.2 ((r.2.1 + r.2.2) / 2) = some q) ∧
          q.1 = false ∧ q.2.2 - q.2.1 = 1 / 2 * (r.2.2 - r.2.1) := by
        refine ⟨_, fun k => C21_midpoint _ t k _ _ hlt, ?_, ?_⟩
        all_goals
          have hn : failedNan (ls.line x d ((r.2.1 + r.2.2) / 2)).1 (ls.line x d ((r.2.1 + r.2.2) / 2)).2 = false := by rw [h.line]; rfl
          cases hA : Ext.le (.fin 0) (ls.line x d ((r.2.1 + r.2.2) / 2)).2 <;>
            cases hB : Ext.le (ls.line x d ((r.2.1 + r.2.2) / 2)).1 (.fin t) <;>
            simp only [hn, hA, hB, Bool.false_eq_true, if_false, if_true] <;> ring
      have hin := h1.update (hq 0)
      refine ⟨1, q, ⟨⟨hin.1, le_trans h2 hin.2.1, le_trans hin.2.2 h3⟩, fun _ _ => hq1, fun _ => by linarith⟩, fun n hn => ?_⟩
      obtain ⟨k, rfl⟩ := Nat.exists_eq_add_of_le' hn
      exact hq k
    · have e : ∀ n, (ls.withFuel n).shrinkage = ls.shrinkage := fun _ => rfl
      simp only [e, hc, decide_false, Bool.false_eq_true, if_false]
      have hm : ls.shrinkage * (st.high - st.low) ≤ max ls.shrinkage (1 / 2) * (st.high - st.low) :=
        mul_le_mul_of_nonneg_right (le_max_left _ _) hw
      exact Settles.const ⟨⟨h1, h2, h3⟩, fun ho hf => by simp [hf, h4 ho], fun _ => by simp only; linarith⟩
  · simp only [Bool.not_true, Bool.false_and, Bool.false_eq_true, if_false, if_true]
    exact Settles.const ⟨⟨hb, le_refl _, le_refl _⟩, fun ho hf => by simp [hf, h4 ho], fun hh => by cases hh⟩

/-- In a short bracket the slopes are small, so that the approximate Wolfe conditions hold at the better end. -/
theorem wolfe_of_short (h : SmoothLine ls x d φ φ' M) (htol : 0 ≤ ls.tol) (v0 sl0 : ℝ) {low high : ℝ} (hb : ls.Bracket x d t low high)
    (hw : M * (high - low) ≤ min ls.c2 (1 - 2 * ls.c1) * -sl0) (hsl : sl0 ≤ 0) :
    Ext.le (ls.wolfeError (ls.bestPoint x d low high).1 (ls.bestPoint x d low high).2.2 (ls.bestPoint x d low high).2.1 (.fin v0) (.fin sl0)
      (.fin t)) (.fin ls.tol) = true := by
  obtain ⟨h0, hlh, hL, hR⟩ := hb
  obtain ⟨l1, l2⟩ := h.left.mp hL
  have hR' := h.right.mp hR
  have hM := h.nonneg
  have hw1 : M * (high - low) ≤ ls.c2 * -sl0 := le_trans hw (mul_le_mul_of_nonneg_right (min_le_left _ _) (by linarith))
  have hw2 : M * (high - low) ≤ (1 - 2 * ls.c1) * -sl0 := le_trans hw (mul_le_mul_of_nonneg_right (min_le_right _ _) (by linarith))
  have hξ : ∃ ξ, low ≤ ξ ∧ ξ ≤ high ∧ 0 ≤ φ' ξ := by
    rcases hR' with h1 | h1
    · exact ⟨high, hlh, le_refl _, h1⟩
    · have hlt : low < high := by
        rcases lt_or_eq_of_le hlh with h2 | h2
        · exact h2
        · rw [h2] at l2; linarith
      obtain ⟨ξ, a, b, e⟩ := h.mean hlt
      refine ⟨ξ, a, b, ?_⟩
      by_contra hcon
      rw [not_le] at hcon
      have := mul_neg_of_neg_of_pos hcon (by linarith : 0 < high - low)
      linarith
  obtain ⟨ξ, ξ1, ξ2, ξ3⟩ := hξ
  have key : ∀ b, low ≤ b → b ≤ high → ls.c2 * sl0 ≤ φ' b ∧ φ' b ≤ (2 * ls.c1 - 1) * sl0 := by
    intro b b1 b2
    have e1 := h.lip b ξ
    have e2 := h.lip b low
    have e3 : |b - ξ| ≤ high - low := by rw [abs_le]; constructor <;> linarith
    have e4 : |b - low| ≤ high - low := by rw [abs_le]; constructor <;> linarith
    have e5 := (abs_le.mp (le_trans e1 (mul_le_mul_of_nonneg_left e3 hM))).1
    have e6 := (abs_le.mp (le_trans e2 (mul_le_mul_of_nonneg_left e4 hM))).2
    constructor <;> linarith
  have hbest : ∃ b, low ≤ b ∧ b ≤ high ∧ (ls.bestPoint x d low high).2.1 = .fin (φ' b) ∧
      ∃ v, v ≤ t ∧ (ls.bestPoint x d low high).2.2 = .fin v := by
    have el : ls.line x d low = (.fin (φ low), .fin (φ' low)) := by rw [h.line]; rfl
    have eh : ls.line x d high = (.fin (φ high), .fin (φ' high)) := by rw [h.line]; rfl
    unfold bestPoint
    by_cases hlt : Ext.lt (ls.line x d low).1 (ls.line x d high).1 = true
    · rw [if_pos hlt, el, eh]
      exact ⟨low, le_refl _, hlh, rfl, min (φ low) (φ high), le_trans (min_le_left _ _) l2, rfl⟩
    · rw [if_neg hlt, el, eh]
      exact ⟨high, hlh, le_refl _, rfl, min (φ low) (φ high), le_trans (min_le_left _ _) l2, rfl⟩
  obtain ⟨b, b1, b2, b3, v, b4, b5⟩ := hbest
  obtain ⟨k1, k2⟩ := key b b1 b2
  rw [b3, b5, le_fin_iff]
  unfold wolfeError
  simp only [Ext.smul, Ext.add]
  rw [Ext.atMost_min]
  simp only [ne_eq, Ext.max_eq_nan, Ext.sub_fin_eq_nan, Ext.atMost_max, Ext.atMost_sub, Ext.atMost_sub']
  refine ⟨by simp [Ext.sub], by simp [Ext.sub], Or.inr ⟨⟨⟨?_, ?_⟩, ?_⟩, ?_⟩⟩ <;> simp only [Ext.AtMost, Ext.AtLeast] <;> linarith

/-- On a line with finite values the error is not NaN. -/
theorem wolfeError_num (h : SmoothLine ls x d φ φ' M) (v0 sl0 low high : ℝ) :
    ls.wolfeError (ls.bestPoint x d low high).1 (ls.bestPoint x d low high).2.2 (ls.bestPoint x d low high).2.1 (.fin v0) (.fin sl0)
      (.fin t) ≠ .nan := by
  have el : ls.line x d low = (.fin (φ low), .fin (φ' low)) := by rw [h.line]; rfl
  have eh : ls.line x d high = (.fin (φ high), .fin (φ' high)) := by rw [h.line]; rfl
  have : ∃ v g, (ls.bestPoint x d low high).2.2 = .fin v ∧ (ls.bestPoint x d low high).2.1 = .fin g := by
    unfold bestPoint
    by_cases hlt : Ext.lt (ls.line x d low).1 (ls.line x d high).1 = true
    · rw [if_pos hlt, el, eh]; exact ⟨_, _, rfl, rfl⟩
    · rw [if_neg hlt, el, eh]; exact ⟨_, _, rfl, rfl⟩
  obtain ⟨v, g, e1, e2⟩ := this
  rw [e1, e2]
  simp [wolfeError, Ext.smul, Ext.add, Ext.sub, Ext.neg, Ext.max, Ext.min]

/-- A probe of the bracketing loop that ends it. -/
def Probe (φ φ' : ℝ → ℝ) (t c : ℝ) : Prop := 0 ≤ φ' c ∨ t < φ c

/-- One iteration of the bracketing loop at a probe that does not end it. -/
theorem bracketBody_expand (h : SmoothLine ls x d φ φ' M) (n : ℕ) (s : BState ℝ) (hd : s.done = false) (hf : s.failed = false)
    (hv : s.vm = .fin (φ s.middle)) (hg : s.gm = .fin (φ' s.middle)) (hp : ¬ Probe φ φ' t s.middle) :
    (ls.withFuel n).bracketBody x d (.fin t) s = some ⟨false, false, s.low, ls.expansion * s.middle, s.high,
      .fin (φ (ls.expansion * s.middle)), .fin (φ' (ls.expansion * s.middle)), s.middle⟩ := by
  have hl : ∀ c, (ls.withFuel n).line x d c = (.fin (φ c), .fin (φ' c)) := fun c => by
    show ls.line x d c = _
    rw [h.line]; rfl
  have h1 : ¬ 0 ≤ φ' s.middle := fun h => hp (Or.inl h)
  have h2 : ¬ t < φ s.middle := fun h => hp (Or.inr h)
  have he : (ls.withFuel n).expansion = ls.expansion := rfl
  simp [bracketBody, hd, hf, hv, hg, Ext.le, Ext.gt, Ext.lt, h1, h2, hl, not_lt.mp h2, failedNan, Ext.isNan, he]

/-- One iteration of the bracketing loop at a probe that ends it. -/
theorem bracketBody_end (h : SmoothLine ls x d φ φ' M) (h0 : LeftOK (ls.line x d) t 0) (s : BState ℝ) (hd : s.done = false)
    (hf : s.failed = false) (hv : s.vm = .fin (φ s.middle)) (hg : s.gm = .fin (φ' s.middle)) (hm : 0 < s.middle)
    (hp : Probe φ φ' t s.middle) :
    Settles (fun n => (ls.withFuel n).bracketBody x d (.fin t) s) (fun s' => s'.done = true ∧ s'.failed = false ∧ s'.high ≤ s.middle) := by
  have hl : ∀ n c, (ls.withFuel n).line x d c = (.fin (φ c), .fin (φ' c)) := fun n c => by
    show ls.line x d c = _
    rw [h.line]; rfl
  by_cases h1 : 0 ≤ φ' s.middle
  · refine ⟨0, ⟨true, false, s.best, s.middle, s.middle, .fin (φ s.middle), .fin (φ' s.middle), s.best⟩, ⟨rfl, rfl, le_refl _⟩, fun n _ => ?_⟩
    simp [bracketBody, hd, hf, hv, hg, Ext.le, h1, hl, failedNan, Ext.isNan]
  · have h2 : t < φ s.middle := hp.resolve_left h1
    have hb : ls.Bracket x d t 0 s.middle := ⟨le_refl _, hm.le, h0, h.right.mpr (Or.inr h2)⟩
    obtain ⟨N, r, ⟨⟨_, _, r2⟩, r3⟩, hN⟩ := updateInterval_settles h hb (s.middle / 2)
    refine ⟨N, ⟨true, false, r.2.1, s.middle, r.2.2, .fin (φ s.middle), .fin (φ' s.middle), s.best⟩, ⟨rfl, rfl, r2⟩, fun n hn => ?_⟩
    have e : updateInterval ((ls.withFuel n).line x d) (.fin t) (ls.withFuel n).fuel 0 s.middle (s.middle / 2) = some r := hN n hn
    simp [bracketBody, hd, hf, hv, hg, Ext.le, Ext.gt, Ext.lt, h1, h2, hl, failedNan, Ext.isNan, e, r3]

/-- The bracketing loop ends at the first probe that ends it. -/
theorem bracketLoop_settles (h : SmoothLine ls x d φ φ' M) (hexp : 1 ≤ ls.expansion) (h0 : LeftOK (ls.line x d) t 0) (m : ℕ) :
    ∀ s : BState ℝ, s.done = false → s.failed = false → s.vm = .fin (φ s.middle) → s.gm = .fin (φ' s.middle) → 0 < s.middle →
      (∀ i, i < m → ¬ Probe φ φ' t (ls.expansion ^ i * s.middle)) → Probe φ φ' t (ls.expansion ^ m * s.middle) →
      ∃ N r, (r.failed = false ∧ r.high ≤ ls.expansion ^ m * s.middle) ∧
        ∀ n k, N ≤ n → N ≤ k → (ls.withFuel n).bracketLoop x d (.fin t) k s = some r := by
  induction m with
  | zero =>
    intro s hd hf hv hg hm _ hp
    rw [pow_zero, one_mul] at hp ⊢
    obtain ⟨N, r, ⟨r1, r2, r3⟩, hN⟩ := bracketBody_end h h0 s hd hf hv hg hm hp
    refine ⟨max N 1, r, ⟨r2, r3⟩, fun n k hn hk => ?_⟩
    obtain ⟨k, rfl⟩ := Nat.exists_eq_add_of_le' (le_trans (le_max_right N 1) hk)
    have e : (ls.withFuel n).bracketBody x d (.fin t) s = some r := hN n (le_trans (le_max_left _ _) hn)
    rw [bracketLoop, if_pos (by simp [hd, hf]), e, Option.bind_some]
    cases k <;> simp [bracketLoop, r1]
  | succ m ih =>
    intro s hd hf hv hg hm hi hp
    have h1 : ¬ Probe φ φ' t s.middle := by simpa using hi 0 (by omega)
    have he : 0 < ls.expansion := lt_of_lt_of_le one_pos hexp
    obtain ⟨N, r, ⟨r1, r2⟩, hN⟩ := ih ⟨false, false, s.low, ls.expansion * s.middle, s.high, .fin (φ (ls.expansion * s.middle)),
      .fin (φ' (ls.expansion * s.middle)), s.middle⟩ rfl rfl rfl rfl (mul_pos he hm)
      (fun i hi' => by have := hi (i + 1) (by omega); rwa [pow_succ, mul_assoc] at this)
      (by rwa [pow_succ, mul_assoc] at hp)
    refine ⟨N + 1, r, ⟨r1, by rw [pow_succ, mul_assoc]; exact r2⟩, fun n k hn hk => ?_⟩
    obtain ⟨k, rfl⟩ := Nat.exists_eq_add_of_le' (le_trans (by omega : 1 ≤ N + 1) hk)
    rw [bracketLoop, if_pos (by simp [hd, hf]), bracketBody_expand h n s hd hf hv hg h1, Option.bind_some]
    exact hN n k (by omega) (by omega)

/-- The bracketing loop does not end when no probe ends it. -/
theorem bracketLoop_never (h : SmoothLine ls x d φ φ' M) (n k : ℕ) :
    ∀ s : BState ℝ, s.done = false → s.failed = false → s.vm = .fin (φ s.middle) → s.gm = .fin (φ' s.middle) →
      (∀ i, ¬ Probe φ φ' t (ls.expansion ^ i * s.middle)) → (ls.withFuel n).bracketLoop x d (.fin t) k s = none := by
  induction k with
  | zero => intro s hd hf _ _ _; simp [bracketLoop, hd, hf]
  | succ k ih =>
    intro s hd hf hv hg hi
    rw [bracketLoop, if_pos (by simp [hd, hf]), bracketBody_expand h n s hd hf hv hg (by simpa using hi 0), Option.bind_some]
    exact ih _ rfl rfl rfl rfl (fun i => by have := hi (i + 1); rwa [pow_succ, mul_assoc] at this)

theorem bracket_settles (h : SmoothLine ls x d φ φ' M) (hexp : 1 ≤ ls.expansion) (h0 : LeftOK (ls.line x d) t 0) {k : ℕ}
    (hk : Probe φ φ' t (ls.expansion ^ k)) :
    Settles (fun n => (ls.withFuel n).bracket x d (.fin t))
      (fun r => r.1 = false ∧ ls.Bracket x d t r.2.1 r.2.2 ∧ r.2.2 ≤ ls.expansion ^ k) := by
  classical
  have hl1 : ls.line x d 1 = (.fin (φ 1), .fin (φ' 1)) := by rw [h.line]; rfl
  have hex : ∃ k, Probe φ φ' t (ls.expansion ^ k) := ⟨k, hk⟩
  obtain ⟨N, r, ⟨r1, r2⟩, hN⟩ := bracketLoop_settles h hexp h0 (Nat.find hex)
    ⟨false, false, 0, 1, 1, .fin (φ 1), .fin (φ' 1), 0⟩ rfl rfl rfl rfl one_pos
    (fun i hi => by rw [mul_one]; exact Nat.find_min hex hi) (by rw [mul_one]; exact Nat.find_spec hex)
  have e : ∀ n, N ≤ n → (ls.withFuel n).bracket x d (.fin t) = some (r.failed, r.low, r.high) := by
    intro n hn
    have hl : (ls.withFuel n).line x d 1 = (.fin (φ 1), .fin (φ' 1)) := hl1
    have := hN n n hn hn
    unfold bracket
    simp only [hl, failedNan, Ext.isNan, Bool.or_self]
    rw [show decide ((Ext.fin (φ 1) : Ext ℝ) = .ninf) = false from by simp]
    rw [show (ls.withFuel n).fuel = n from rfl, this]
    rfl
  refine ⟨N, (r.failed, r.low, r.high), ⟨r1, ?_, ?_⟩, e⟩
  · exact bracket_spec (ls := ls.withFuel N) hexp h0 (by
      show (ls.line x d 1).1 ≠ .ninf
      rw [hl1]; simp) (e N (le_refl _)) r1
  · refine le_trans r2 ?_
    rw [mul_one]
    exact pow_le_pow_right₀ hexp (Nat.find_min' hex hk)

/-- **C96**, bracketing loop: `init_state` never ends exactly when no probe `1, e, e², …` (`e = expansion_factor`) has an upward slope or a
value above the threshold, for a smooth line function and a descent direction. -/
theorem C96_bracket_ends (h : SmoothLine ls x d φ φ' M) (hexp : 1 ≤ ls.expansion) (h0 : φ' 0 < 0 ∧ φ 0 ≤ t) :
    (∃ n r, (ls.withFuel n).bracket x d (.fin t) = some r) ↔ ∃ k : ℕ, 0 ≤ φ' (ls.expansion ^ k) ∨ t < φ (ls.expansion ^ k) := by
  constructor
  · rintro ⟨n, r, hr⟩
    by_contra hcon
    have hl : (ls.withFuel n).line x d 1 = (.fin (φ 1), .fin (φ' 1)) := by
      show ls.line x d 1 = _
      rw [h.line]; rfl
    have hn := bracketLoop_never h (t := t) n n ⟨false, false, 0, 1, 1, .fin (φ 1), .fin (φ' 1), 0⟩ rfl rfl rfl rfl
      (fun i hi => hcon ⟨i, by rw [mul_one] at hi; exact hi⟩)
    unfold bracket at hr
    simp only [hl, failedNan, Ext.isNan, Bool.or_self] at hr
    rw [show decide ((Ext.fin (φ 1) : Ext ℝ) = .ninf) = false from by simp, show (ls.withFuel n).fuel = n from rfl, hn] at hr
    cases hr
  · rintro ⟨k, hk⟩
    obtain ⟨N, r, _, hN⟩ := bracket_settles h hexp (h.left.mpr h0) (k := k) hk
    exact ⟨N, r, hN N (le_refl _)⟩

/-- Invariant of the iterations of `update`: `j` updates were made. -/
structure LiveInv (ls : HZ ℝ E) (x d : E) (M t sl0 w0 : ℝ) (j : ℕ) (st : HZState ℝ E) : Prop where
  bracket : ls.Bracket x d t st.low st.high
  iter : st.iterNum = j
  done : st.done = Ext.le st.error (.fin ls.tol)
  num : st.error ≠ .nan
  short : st.done = false → st.high - st.low ≤ max ls.shrinkage (1 / 2) ^ j * w0
  ends : M * (st.high - st.low) ≤ min ls.c2 (1 - 2 * ls.c1) * -sl0 → st.done = true

theorem init_settles (h : SmoothLine ls x d φ φ' M) (hexp : 1 ≤ ls.expansion) (htol : 0 ≤ ls.tol) {v0 sl0 : ℝ} {g0 : E}
    (hthr : ls.threshold (.fin v0) = .fin t) (hsl : ls.vdot g0 d = .fin sl0) (hneg : sl0 ≤ 0)
    (h0 : LeftOK (ls.line x d) t 0) {k : ℕ} (hk : Probe φ φ' t (ls.expansion ^ k)) :
    Settles (fun n => (ls.withFuel n).initState x (.fin v0) g0 d)
      (fun st => LiveInv ls x d M t sl0 (ls.expansion ^ k) 0 st ∧ st.failed = false) := by
  have e : ∀ n, (ls.withFuel n).initState x (.fin v0) g0 d = ((ls.withFuel n).bracket x d (.fin t)).map (fun r =>
      { iterNum := 0, low := r.2.1, high := r.2.2,
        error := ls.wolfeError (ls.bestPoint x d r.2.1 r.2.2).1 (ls.bestPoint x d r.2.1 r.2.2).2.2 (ls.bestPoint x d r.2.1 r.2.2).2.1 (.fin v0)
          (.fin sl0) (.fin t),
        done := Ext.le (ls.wolfeError (ls.bestPoint x d r.2.1 r.2.2).1 (ls.bestPoint x d r.2.1 r.2.2).2.2 (ls.bestPoint x d r.2.1 r.2.2).2.1
          (.fin v0) (.fin sl0) (.fin t)) (.fin ls.tol), value := .fin v0, params := x, grad := g0, failed := r.1 }) := by
    intro n
    rw [← hthr, ← hsl]
    rfl
  simp only [e]
  refine (bracket_settles h hexp h0 hk).map (fun r hr => ⟨⟨hr.2.1, rfl, rfl, wolfeError_num h v0 sl0 _ _, fun _ => ?_, fun hw => ?_⟩, hr.1⟩)
  · rw [pow_zero, one_mul]
    show r.2.2 - r.2.1 ≤ _
    linarith [hr.2.1.1, hr.2.2]
  · exact wolfe_of_short h htol v0 sl0 hr.2.1 hw hneg

theorem update_settles (h : SmoothLine ls x d φ φ' M) (htol : 0 ≤ ls.tol) (hsh : 0 ≤ ls.shrinkage) {v0 sl0 w0 : ℝ} {g0 : E}
    (hthr : ls.threshold (.fin v0) = .fin t) (hsl : ls.vdot g0 d = .fin sl0) (hneg : sl0 ≤ 0) {j : ℕ} {st : HZState ℝ E} (s : ℝ)
    (hinv : LiveInv ls x d M t sl0 w0 j st) :
    ∃ N s' st', (LiveInv ls x d M t sl0 w0 (j + 1) st' ∧ (ls.OffOK → st.failed = false → j + 1 ≠ ls.maxiter ∨ st'.done = true →
      st'.failed = false)) ∧
      ∀ n, N ≤ n → (ls.withFuel n).update x (.fin v0) g0 d (s, some st) = (s', some st') := by
  obtain ⟨N, r, ⟨⟨r1, r2, r3⟩, r4, r5⟩, hN⟩ := updateBracket_settles h hsh hinv.bracket
  have e : ∀ n, N ≤ n → (ls.withFuel n).update x (.fin v0) g0 d (s, some st) =
      (if st.done then s else (ls.bestPoint x d r.2.1 r.2.2).1,
       some { iterNum := st.iterNum + 1, value := ls.f (x + (ls.bestPoint x d r.2.1 r.2.2).1 • d),
              grad := ls.grad (x + (ls.bestPoint x d r.2.1 r.2.2).1 • d), params := x + (ls.bestPoint x d r.2.1 r.2.2).1 • d,
              low := r.2.1, high := r.2.2,
              error := if st.done then st.error else ls.wolfeError (ls.bestPoint x d r.2.1 r.2.2).1 (ls.bestPoint x d r.2.1 r.2.2).2.2
                (ls.bestPoint x d r.2.1 r.2.2).2.1 (.fin v0) (.fin sl0) (.fin t),
              done := st.done || Ext.le (if st.done then st.error else ls.wolfeError (ls.bestPoint x d r.2.1 r.2.2).1
                (ls.bestPoint x d r.2.1 r.2.2).2.2 (ls.bestPoint x d r.2.1 r.2.2).2.1 (.fin v0) (.fin sl0) (.fin t)) (.fin ls.tol),
              failed := r.1 || (decide (st.iterNum + 1 = ls.maxiter) && !(st.done || Ext.le (if st.done then st.error else
                ls.wolfeError (ls.bestPoint x d r.2.1 r.2.2).1 (ls.bestPoint x d r.2.1 r.2.2).2.2 (ls.bestPoint x d r.2.1 r.2.2).2.1 (.fin v0)
                (.fin sl0) (.fin t)) (.fin ls.tol))) }) := by
    intro n hn
    have e1 := hN n hn
    have e2 : (ls.withFuel n).threshold (.fin v0) = .fin t := hthr
    have e3 : (ls.withFuel n).vdot g0 d = .fin sl0 := hsl
    unfold update
    simp only [e2, e1, e3]
    rfl
  refine ⟨N, _, _, ⟨⟨r1, ?_, ?_, ?_, ?_, ?_⟩, ?_⟩, e⟩
  · show st.iterNum + 1 = j + 1
    rw [hinv.iter]
  · show (st.done || _) = _
    cases hd : st.done
    · simp
    · simp only [if_true, Bool.true_or]
      rw [← hinv.done, hd]
  · show (if st.done then st.error else _) ≠ _
    cases hd : st.done
    · exact wolfeError_num h v0 sl0 _ _
    · exact hinv.num
  · intro hd
    have hd' : st.done = false := by
      cases hd' : st.done
      · rfl
      · simp [hd'] at hd
    refine le_trans (r5 hd') ?_
    rw [pow_succ', mul_assoc]
    exact mul_le_mul_of_nonneg_left (hinv.short hd') (le_trans hsh (le_max_left _ _))
  · intro hw
    show (st.done || _) = true
    cases hd : st.done
    · simp only [Bool.false_eq_true, if_false, Bool.false_or]
      exact wolfe_of_short h htol v0 sl0 r1 hw hneg
    · rfl
  · intro ho hf hm
    show (r.1 || _) = false
    rw [r4 ho hf, Bool.false_or]
    rcases hm with hm | hm
    · rw [hinv.iter]; simp [hm]
    · have hm' : (st.done || Ext.le (if st.done then st.error else ls.wolfeError (ls.bestPoint x d r.2.1 r.2.2).1
                (ls.bestPoint x d r.2.1 r.2.2).2.2 (ls.bestPoint x d r.2.1 r.2.2).2.1 (.fin v0) (.fin sl0) (.fin t)) (.fin ls.tol)) = true := hm
      rw [hm']; simp

/-- The iterations of `update` all end. -/
theorem iterate_settles (h : SmoothLine ls x d φ φ' M) (hexp : 1 ≤ ls.expansion) (htol : 0 ≤ ls.tol) (hsh : 0 ≤ ls.shrinkage) {v0 sl0 : ℝ} {g0 : E}
    (hthr : ls.threshold (.fin v0) = .fin t) (hsl : ls.vdot g0 d = .fin sl0) (hneg : sl0 ≤ 0) (h0 : LeftOK (ls.line x d) t 0) {k : ℕ}
    (hk : Probe φ φ' t (ls.expansion ^ k)) (init : ℝ) (J : ℕ)
    (hJ : M * (max ls.shrinkage (1 / 2) ^ J * ls.expansion ^ k) ≤ min ls.c2 (1 - 2 * ls.c1) * -sl0) (hmax : J ≤ ls.maxiter) (j : ℕ) :
    ∃ N s st, (LiveInv ls x d M t sl0 (ls.expansion ^ k) j st ∧ (j = J → st.done = true) ∧ (J ≤ j → st.done = true) ∧
      (ls.OffOK → st.failed = false)) ∧
      ∀ n, N ≤ n → ((ls.withFuel n).update x (.fin v0) g0 d)^[j] (init, (ls.withFuel n).initState x (.fin v0) g0 d) = (s, some st) := by
  have hM := h.nonneg
  have short : ∀ {j st}, LiveInv ls x d M t sl0 (ls.expansion ^ k) j st → j = J → st.done = true := by
    intro j st hi hj
    cases hd : st.done
    · exact absurd (hi.ends (le_trans (mul_le_mul_of_nonneg_left (hi.short hd) hM) (by rw [hj]; exact hJ))) (by simp [hd])
    · rfl
  induction j with
  | zero =>
    obtain ⟨N, st, ⟨h1, h2⟩, hN⟩ := init_settles h hexp htol hthr hsl hneg h0 hk
    refine ⟨N, init, st, ⟨h1, short h1, fun hj => short h1 (by omega), fun _ => h2⟩, fun n hn => ?_⟩
    rw [Function.iterate_zero, id]
    exact congrArg _ (hN n hn)
  | succ j ih =>
    obtain ⟨N, s, st, ⟨h1, h2, h3, h4⟩, hN⟩ := ih
    obtain ⟨N', s', st', ⟨h1', h2'⟩, hN'⟩ := update_settles h htol hsh hthr hsl hneg s h1
    have hd : J ≤ j + 1 → st'.done = true := by
      intro hj
      rcases Nat.lt_or_eq_of_le hj with hj | hj
      · have h3' := h3 (by omega)
        have e := hN' N' (le_refl _)
        unfold update at e
        simp only at e
        split at e
        · simp at e
        · simp only [Prod.mk.injEq, Option.some.injEq] at e
          rw [← e.2]
          simp [h3']
      · exact short h1' hj.symm
    refine ⟨max N N', s', st', ⟨h1', short h1', hd, fun ho => h2' ho (h4 ho) ?_⟩, fun n hn => ?_⟩
    · by_cases hj : J ≤ j + 1
      · exact Or.inr (hd hj)
      · left; omega
    · rw [Function.iterate_succ_apply', hN n (le_trans (le_max_left _ _) hn), hN' n (le_trans (le_max_right _ _) hn)]

end Line

section Smooth
variable {V : Type*} [NormedAddCommGroup V] [InnerProductSpace ℝ V] [CompleteSpace V]

/-- The search works on the real objective `f` with gradient `g`. -/
structure OnReal (ls : HZ ℝ V) (f : V → ℝ) (g : V → V) : Prop where
  f : ∀ x, ls.f x = .fin (f x)
  grad : ∀ x, ls.grad x = g x
  vdot : ∀ u v, ls.vdot u v = .fin (inner ℝ u v)

/-- Conditions on the attributes. -/
structure LiveOK (ls : HZ ℝ V) : Prop where
  tol : 0 ≤ ls.tol
  expansion : 1 ≤ ls.expansion
  shrinkage : 0 ≤ ls.shrinkage
  aw : 0 ≤ ls.awThreshold

/-- The restriction of a smooth objective to a line. -/
theorem smoothLine (ls : HZ ℝ V) (f : V → ℝ) (g : V → V) (hr : OnReal ls f g) (L : ℝ) (hsm : LSmooth f g L) (x d : V) :
    SmoothLine ls x d (fun s => f (x + s • d)) (fun s => inner ℝ (g (x + s • d)) d) (L * ‖d‖ ^ 2) where
  line := by
    funext c
    simp only [HZ.line, finLine, hr.f, hr.grad, hr.vdot]
  deriv s := hsm.deriv_line x d s
  lip s t := by
    rw [← inner_sub_left]
    have h1 := abs_real_inner_le_norm (g (x + s • d) - g (x + t • d)) d
    have h2 := hsm.lip (x + s • d) (x + t • d)
    have e : x + s • d - (x + t • d) = (s - t) • d := by rw [sub_smul]; abel
    rw [e, norm_smul, Real.norm_eq_abs] at h2
    have h3 := mul_le_mul_of_nonneg_right h2 (norm_nonneg d)
    calc _ ≤ _ := h1
      _ ≤ L * (|s - t| * ‖d‖) * ‖d‖ := h3
      _ = L * ‖d‖ ^ 2 * |s - t| := by ring

/-- The step is consistent with the returned parameters and satisfies the curvature condition and the exact or approximate decrease
condition. -/
structure Accepted (ls : HZ ℝ V) (f : V → ℝ) (g : V → V) (x d : V) (s : ℝ) (params : V) : Prop where
  params : params = x + s • d
  curvature : ls.c2 * inner ℝ (g x) d - ls.tol ≤ inner ℝ (g (x + s • d)) d
  decrease : f (x + s • d) ≤ f x + ls.c1 * s * inner ℝ (g x) d + ls.tol ∨
    (inner ℝ (g (x + s • d)) d ≤ (2 * ls.c1 - 1) * inner ℝ (g x) d + ls.tol ∧
      f (x + s • d) ≤ f x + ls.awThreshold * |f x| + ls.tol)

/-- **C96.**  Let the objective have an `L`-Lipschitz gradient, not necessarily be convex, and let the direction be a descent direction.  If
some probe `e ^ k` has an upward slope or a value above the threshold and `maxiter` is at least the number `J` of reductions by
`max(shrinkage_factor, 1/2)` that lead from `e ^ k` to the length `min(c2, 1 - 2 c1) |slope| / (L ‖d‖²)`, then every loop ends and the search
is done; it reports no failure if the objective is not NaN at infinite steps; and unless the initial interval already contained an acceptable
end, the returned step satisfies the Wolfe or the approximate Wolfe conditions. -/
theorem C96_succeeds (ls : HZ ℝ V) (hok : LiveOK ls) (f : V → ℝ) (g : V → V) (hr : OnReal ls f g) (L : ℝ) (hsm : LSmooth f g L) (x d : V)
    (hd : inner ℝ (g x) d < 0) (k : ℕ)
    (hk : 0 ≤ inner ℝ (g (x + ls.expansion ^ k • d)) d ∨ f x + ls.awThreshold * |f x| < f (x + ls.expansion ^ k • d)) (J : ℕ)
    (hJ : L * ‖d‖ ^ 2 * (max ls.shrinkage (1 / 2) ^ J * ls.expansion ^ k) ≤ min ls.c2 (1 - 2 * ls.c1) * |inner ℝ (g x) d|)
    (hmax : J ≤ ls.maxiter) (hm : 1 ≤ ls.maxiter) (hb : ls.unroll = true ∨ ls.jit = true) (init : ℝ)
    (value : Option (Ext ℝ)) (grad : Option V) (hv : value = none ∨ value = some (.fin (f x))) (hgr : grad = none ∨ grad = some (g x)) :
    ∃ N, ∀ fuel, N ≤ fuel → ∃ s st, (ls.withFuel fuel).run init x value grad (some d) = .ok (s, some st) ∧ st.done = true ∧
      (ls.OffOK → st.failed = false) ∧
      (∀ st0, (ls.withFuel fuel).initState x (.fin (f x)) (g x) d = some st0 → st0.done = false → Accepted ls f g x d s st.params) := by
  have h := smoothLine ls f g hr L hsm x d
  have hthr := threshold_fin ls (f x)
  have hsl : ls.vdot (g x) d = .fin (inner ℝ (g x) d) := hr.vdot _ _
  have h0 : LeftOK (ls.line x d) (f x + ls.awThreshold * |f x|) 0 := by
    rw [h.left]
    simp only [zero_smul, add_zero]
    exact ⟨hd, by have := mul_nonneg hok.aw (abs_nonneg (f x)); linarith⟩
  rw [abs_of_neg hd] at hJ
  have key := iterate_settles h hok.expansion hok.tol hok.shrinkage hthr hsl hd.le h0 (k := k) hk init J hJ hmax
  choose N s st hP hN using key
  refine ⟨(Finset.range (ls.maxiter + 1)).sup N, fun n hn => ?_⟩
  have hN' : ∀ j, j ≤ ls.maxiter → N j ≤ n := fun j hj => le_trans (Finset.le_sup (Finset.mem_range.mpr (by omega))) hn
  have hres : (ls.withFuel n).resolve x value grad = (.fin (f x), g x) := by
    have e1 : (ls.withFuel n).f x = .fin (f x) := hr.f x
    have e2 : (ls.withFuel n).grad x = g x := hr.grad x
    rcases hv with rfl | rfl <;> rcases hgr with rfl | rfl <;> simp [resolve, e1, e2]
  have hdir : resolveDir (K := ℝ) (g x) (some d) = d := rfl
  obtain ⟨r, hrun⟩ : ∃ r, (ls.withFuel n).run init x value grad (some d) = .ok r := by
    unfold run
    exact runS_ok _ _ _ _ hm hb
  have hrun' := hrun
  unfold run at hrun'
  simp only [hres, hdir] at hrun'
  obtain ⟨i, hi1, hi2, hri, _, hc2⟩ := runS_spec hm hrun'
  rw [hN i n (hN' i hi2)] at hri hc2
  obtain ⟨p1, _, p3, p4⟩ := hP i
  have hdone : (st i).done = true := by
    rcases hc2 with hc2 | hc2
    · exact p3 (by rw [hc2]; exact hmax)
    · rw [p1.done]
      have := p1.num
      revert hc2 this
      simp only
      show Ext.gt (st i).error (.fin ls.tol) = false → _
      cases (st i).error <;> simp [Ext.gt, Ext.lt, Ext.le]
  subst hri
  refine ⟨s i, st i, hrun, hdone, p4, fun st0 hst0 hd0 => ?_⟩
  obtain ⟨q1, _, _, q4, _⟩ := C21_run_partial (ls.withFuel n) hok.tol hm init x value grad (some d) (f x) (inner ℝ (g x) d) (g x) d hres hdir
    hsl st0 hst0 hd0 (s i) (st i) hrun
  have hw := q4 hdone
  unfold WolfeOK at hw
  have e1 : (ls.withFuel n).f (x + s i • d) = .fin (f (x + s i • d)) := hr.f _
  have e2 : (ls.withFuel n).vdot ((ls.withFuel n).grad (x + s i • d)) d = .fin (inner ℝ (g (x + s i • d)) d) := by
    show ls.vdot (ls.grad _) d = _
    rw [hr.grad, hr.vdot]
  simp only [e1, e2, Ext.AtLeast, Ext.AtMost] at hw
  exact ⟨q1, hw.1, hw.2⟩

/-- **C96**, convex objectives: it is enough that the slope is not negative at some point of the ray; with the usual constants (`0 < c2`,
`c1 < 1/2`, `shrinkage_factor < 1 < expansion_factor`) there is a number of iterations that suffices. -/
theorem C96_convex (ls : HZ ℝ V) (hok : LiveOK ls) (hc1 : ls.c1 < 1 / 2) (hc2 : 0 < ls.c2) (hsh : ls.shrinkage < 1) (hexp : 1 < ls.expansion)
    (f : V → ℝ) (g : V → V) (hr : OnReal ls f g) (L : ℝ) (hsm : LSmooth f g L) (hcv : ∀ x y, f x + inner ℝ (g x) (y - x) ≤ f y) (x d : V)
    (hd : inner ℝ (g x) d < 0) (a : ℝ) (ha : 0 ≤ inner ℝ (g (x + a • d)) d) :
    ∃ J, ∀ ls' : HZ ℝ V, (∃ m, ls' = { ls with maxiter := m }) → J ≤ ls'.maxiter → 1 ≤ ls'.maxiter → (ls.unroll = true ∨ ls.jit = true) →
      ∀ init, ∃ N, ∀ fuel, N ≤ fuel → ∃ s st, (ls'.withFuel fuel).run init x none none (some d) = .ok (s, some st) ∧ st.done = true := by
  have hmono : ∀ p q : ℝ, p ≤ q → inner ℝ (g (x + p • d)) d ≤ inner ℝ (g (x + q • d)) d := by
    intro p q hpq
    have h1 := hcv (x + p • d) (x + q • d)
    have h2 := hcv (x + q • d) (x + p • d)
    have e1 : x + q • d - (x + p • d) = (q - p) • d := by rw [sub_smul]; abel
    have e2 : x + p • d - (x + q • d) = (-(q - p)) • d := by rw [neg_smul, sub_smul]; abel
    rw [e1, inner_smul_right] at h1
    rw [e2, inner_smul_right] at h2
    rcases lt_or_eq_of_le hpq with h3 | h3
    · by_contra hcon
      rw [not_le] at hcon
      have := mul_lt_mul_of_pos_left hcon (show 0 < q - p by linarith)
      linarith
    · rw [h3]
  obtain ⟨k, hk⟩ := pow_unbounded_of_one_lt a hexp
  have hM : 0 ≤ L * ‖d‖ ^ 2 := (smoothLine ls f g hr L hsm x d).nonneg
  have hpos : 0 < min ls.c2 (1 - 2 * ls.c1) * |inner ℝ (g x) d| := mul_pos (lt_min hc2 (by linarith)) (abs_pos.mpr hd.ne)
  have hek : 0 < ls.expansion ^ k := pow_pos (by linarith) k
  obtain ⟨J, hJ⟩ := exists_pow_lt_of_lt_one (show 0 < min ls.c2 (1 - 2 * ls.c1) * |inner ℝ (g x) d| / ((L * ‖d‖ ^ 2 + 1) * ls.expansion ^ k) from
    div_pos hpos (mul_pos (by linarith) hek)) (max_lt hsh (by norm_num : (1 / 2 : ℝ) < 1))
  rw [lt_div_iff₀ (mul_pos (by linarith) hek)] at hJ
  refine ⟨J, ?_⟩
  rintro ls' ⟨m, rfl⟩ hJm hm hb init
  have hρ : 0 ≤ max ls.shrinkage (1 / 2) ^ J := pow_nonneg (le_trans hok.shrinkage (le_max_left _ _)) _
  obtain ⟨N, hN⟩ := C96_succeeds { ls with maxiter := m } ⟨hok.tol, hok.expansion, hok.shrinkage, hok.aw⟩ f g ⟨hr.f, hr.grad, hr.vdot⟩ L hsm x d hd k
    (Or.inl (le_trans ha (hmono _ _ hk.le))) J (by
      show L * ‖d‖ ^ 2 * (max ls.shrinkage (1 / 2) ^ J * ls.expansion ^ k) ≤ min ls.c2 (1 - 2 * ls.c1) * |inner ℝ (g x) d|
      have := mul_nonneg hρ hek.le
      nlinarith) hJm hm hb init none none (Or.inl rfl) (Or.inl rfl)
  exact ⟨N, fun fuel hf => by
    obtain ⟨s, st, h1, h2, _⟩ := hN fuel hf
    exact ⟨s, st, h1, h2⟩⟩

/-- **C96**, the search that never ends: when every probe has a negative slope and a value within the threshold, `run` does not return,
whatever the amount of fuel. -/
theorem C96_never_ends (ls : HZ ℝ V) (hb : ls.unroll = true ∨ ls.jit = true) (hm : 1 ≤ ls.maxiter) (f : V → ℝ) (g : V → V)
    (hr : OnReal ls f g) (L : ℝ) (hsm : LSmooth f g L) (hexp : 1 ≤ ls.expansion) (haw : 0 ≤ ls.awThreshold) (x d : V)
    (hd : inner ℝ (g x) d < 0)
    (hp : ∀ k : ℕ, inner ℝ (g (x + ls.expansion ^ k • d)) d < 0 ∧ f (x + ls.expansion ^ k • d) ≤ f x + ls.awThreshold * |f x|) (init : ℝ)
    (fuel : ℕ) : (ls.withFuel fuel).run init x none none (some d) = .ok (init, none) := by
  have h := smoothLine ls f g hr L hsm x d
  have hnone : (ls.withFuel fuel).bracket x d (.fin (f x + ls.awThreshold * |f x|)) = none := by
    rcases hbr : (ls.withFuel fuel).bracket x d (.fin (f x + ls.awThreshold * |f x|)) with _ | r
    · rfl
    · obtain ⟨k, hk⟩ := (C96_bracket_ends h hexp (t := f x + ls.awThreshold * |f x|) (by
        simp only [zero_smul, add_zero]
        exact ⟨hd, by have := mul_nonneg haw (abs_nonneg (f x)); linarith⟩)).mp ⟨fuel, r, hbr⟩
      rcases hk with hk | hk
      · exact absurd hk (not_le.mpr (hp k).1)
      · exact absurd hk (not_lt.mpr (hp k).2)
  have hres : (ls.withFuel fuel).resolve x none none = (.fin (f x), g x) := by
    show (ls.f x, ls.grad x) = _
    rw [hr.f, hr.grad]
  have hdir : resolveDir (K := ℝ) (g x) (some d) = d := rfl
  have hini : (ls.withFuel fuel).initState x (.fin (f x)) (g x) d = none := by
    unfold initState
    have e : (ls.withFuel fuel).threshold (.fin (f x)) = .fin (f x + ls.awThreshold * |f x|) := rfl
    simp only [e, hnone, Option.map_none]
  obtain ⟨r, hrun⟩ : ∃ r, (ls.withFuel fuel).run init x none none (some d) = .ok r := by
    unfold run
    exact runS_ok _ _ _ _ hm hb
  rw [hrun]
  unfold run at hrun
  simp only [hres, hdir, hini] at hrun
  obtain ⟨i, _, _, hri, _⟩ := runS_spec hm hrun
  have : ∀ i, ((ls.withFuel fuel).update x (.fin (f x)) (g x) d)^[i] (init, none) = (init, none) := by
    intro i
    induction i with
    | zero => rfl
    | succ i ih => rw [Function.iterate_succ_apply', ih]; rfl
  rw [hri, this]

/-! ### Counterexamples -/

/-- The logistic loss of one sample with label 1, as a function of the logit. -/
noncomputable def logF (u : ℝ) : ℝ := Loss.binaryLogisticLoss true u

/-- Its derivative. -/
noncomputable def logG (u : ℝ) : ℝ := -(Real.exp (-u) / (Real.exp (-u) + 1))

theorem logF_eq (u : ℝ) : logF u = Real.log (Real.exp (-u) + 1) := by
  simp [logF, Loss.binaryLogisticLoss, Loss.softplus, Loss.flip]

theorem logF_deriv (u : ℝ) : HasDerivAt logF (logG u) u := by
  have h1 : HasDerivAt (fun u : ℝ => Real.exp (-u) + 1) (Real.exp (-u) * (-1)) u := ((hasDerivAt_neg u).exp).add_const 1
  have h2 := h1.log (by have := Real.exp_pos (-u); linarith)
  have e : logF = fun u => Real.log (Real.exp (-u) + 1) := funext logF_eq
  rw [e]
  refine h2.congr_deriv ?_
  unfold logG
  ring

theorem logG_deriv (u : ℝ) : HasDerivAt logG (Real.exp (-u) / (Real.exp (-u) + 1) ^ 2) u := by
  have hp := Real.exp_pos (-u)
  have h0 : HasDerivAt (fun u : ℝ => Real.exp (-u)) (Real.exp (-u) * (-1)) u := (hasDerivAt_neg u).exp
  have h1 : HasDerivAt (fun u : ℝ => Real.exp (-u) + 1) (Real.exp (-u) * (-1)) u := h0.add_const 1
  have h2 := (h0.div h1 (by linarith)).neg
  refine h2.congr_deriv ?_
  have : Real.exp (-u) + 1 ≠ 0 := by linarith
  field_simp
  ring

theorem log_smooth : LSmooth logF logG 1 where
  grad u := (logF_deriv u).hasGradientAt'
  lip a b := by
    have := Convex.norm_image_sub_le_of_norm_hasDerivWithin_le (f := logG) (f' := fun u => Real.exp (-u) / (Real.exp (-u) + 1) ^ 2)
      (s := Set.univ) (x := b) (y := a) (C := 1) (fun u _ => (logG_deriv u).hasDerivWithinAt) (fun u _ => by
        have hp := Real.exp_pos (-u)
        rw [Real.norm_of_nonneg (by positivity), div_le_one (by positivity)]
        nlinarith) convex_univ (Set.mem_univ _) (Set.mem_univ _)
    exact this

/-- The default attributes. -/
structure DefaultHZ (ls : HZ ℝ ℝ) : Prop where
  real : OnReal ls logF logG
  c1 : ls.c1 = 1 / 10
  c2 : ls.c2 = 9 / 10
  expansion : ls.expansion = 5
  shrinkage : ls.shrinkage = 66 / 100
  aw : ls.awThreshold = 1 / 1000000
  tol : ls.tol = 0

/-- **C96**, negation: the logistic loss of one sample is smooth, positive and strictly decreasing, and the first probe (step `1`) already satisfies
the Wolfe conditions, but the search does not return it: with the default attributes the bracketing loop never ends. -/
theorem C96_logistic_false : LSmooth logF logG 1 ∧ (∀ u, 0 < logF u) ∧ inner ℝ (logG 0) (1 : ℝ) < 0 ∧
    logF 1 ≤ logF 0 + 1 / 10 * 1 * inner ℝ (logG 0) (1 : ℝ) ∧ 9 / 10 * inner ℝ (logG 0) (1 : ℝ) ≤ inner ℝ (logG 1) (1 : ℝ) ∧
    ∀ ls : HZ ℝ ℝ, DefaultHZ ls → 1 ≤ ls.maxiter → (ls.unroll = true ∨ ls.jit = true) → ∀ (init : ℝ) (fuel : ℕ),
      (ls.withFuel fuel).run init 0 none none (some 1) = .ok (init, none) := by
  have hin : ∀ a : ℝ, inner ℝ a (1 : ℝ) = a := fun a => by simp
  have hneg : ∀ u, logG u < 0 := fun u => by
    have := Real.exp_pos (-u)
    unfold logG
    rw [neg_lt_zero]
    positivity
  have hanti : ∀ u, 0 ≤ u → logF u ≤ logF 0 := fun u hu => by
    rw [logF_eq, logF_eq]
    refine Real.log_le_log (by have := Real.exp_pos (-u); linarith) ?_
    have := Real.exp_le_exp.mpr (by linarith : -u ≤ -0)
    linarith
  have he : Real.exp (-1) ≤ 1 / 2 := by
    have h1 : (2 : ℝ) ≤ Real.exp 1 := by have := Real.add_one_le_exp (1 : ℝ); linarith
    rw [Real.exp_neg, inv_eq_one_div]
    exact one_div_le_one_div_of_le (by norm_num) h1
  have hp := Real.exp_pos (-1)
  have hpos : ∀ u, 0 < logF u := fun u => (Loss.C50_binary_logistic true u).2
  have g0 : logG 0 = -(1 / 2) := by unfold logG; norm_num
  refine ⟨log_smooth, hpos, by rw [hin]; exact hneg 0, ?_, ?_, ?_⟩
  · rw [hin, g0, logF_eq, logF_eq, neg_zero, Real.exp_zero]
    have h1 : Real.log (Real.exp (-1) + 1) - Real.log (1 + 1) = Real.log ((Real.exp (-1) + 1) / (1 + 1)) :=
      (Real.log_div (by linarith) (by norm_num)).symm
    have h2 := Real.log_le_sub_one_of_pos (show 0 < (Real.exp (-1) + 1) / (1 + 1) by positivity)
    linarith
  · rw [hin, hin, g0]
    unfold logG
    have : Real.exp (-1) / (Real.exp (-1) + 1) ≤ 45 / 100 := by
      rw [div_le_iff₀ (by linarith)]; linarith
    linarith
  · intro ls hls hm hb init fuel
    refine C96_never_ends ls hb hm logF logG hls.real 1 log_smooth (by rw [hls.expansion]; norm_num) (by rw [hls.aw]; norm_num) 0 1
      (by rw [hin]; exact hneg 0) (fun k => ⟨by rw [hin]; exact hneg _, ?_⟩) init fuel
    rw [hls.expansion, hls.aw]
    have h1 := hanti (0 + (5 : ℝ) ^ k • 1) (by rw [zero_add, smul_eq_mul, mul_one]; positivity)
    have := abs_nonneg (logF 0)
    linarith

/-- The search applies to `x² / 2` from `x = 1` along `d = -2`: the first probe (`k = 0`) has an upward slope, and `J = 6` reductions
suffice. -/
example (ls : HZ ℝ ℝ) (hr : OnReal ls (fun x => x ^ 2 / 2) (fun x => x)) (h1 : ls.c1 = 1 / 10) (h2 : ls.c2 = 9 / 10) (h3 : ls.expansion = 5)
    (h4 : ls.shrinkage = 66 / 100) (h5 : ls.awThreshold = 1 / 1000000) (h6 : ls.tol = 0) (h7 : ls.maxiter = 30) (h8 : ls.unroll = true) :
    ∃ N, ∀ fuel, N ≤ fuel → ∃ s st, (ls.withFuel fuel).run 1 1 none none (some (-2)) = .ok (s, some st) ∧ st.done = true := by
  obtain ⟨N, hN⟩ := C96_succeeds ls ⟨by rw [h6], by rw [h3]; norm_num, by rw [h4]; norm_num, by rw [h5]; norm_num⟩ _ _ hr 1
    ⟨fun x => by
      have : HasDerivAt (fun x : ℝ => x ^ 2 / 2) x x := by
        have := ((hasDerivAt_id x).pow 2).div_const 2
        refine this.congr_deriv ?_
        simp
      exact this.hasGradientAt', fun x y => by rw [one_mul]⟩ 1 (-2) (by norm_num) 0 (Or.inl (by norm_num)) 6
    (by rw [h1, h2, h3, h4]; norm_num [abs_of_neg]) (by omega) (by omega) (Or.inl h8) 1 none none (Or.inl rfl) (Or.inl rfl)
  exact ⟨N, fun fuel hf => by
    obtain ⟨s, st, a, b, _⟩ := hN fuel hf
    exact ⟨s, st, a, b⟩⟩

end Smooth

/-- The Huber loss with target 0 and threshold 1 (loss.py lines 29-45), and its derivative.  At an infinite argument the derivative computed by
automatic differentiation of `jnp.where` is `0 * inf`, NaN. -/
def huberHZ : HZ ℚ ℚ := exampleHZ (fun x => .fin (Loss.huberLoss 0 x 1)) (fun x => .fin (max (-1) (min x 1)))

/-- **C96**, negation: with finite values on the whole line and a step that satisfies the Wolfe conditions (error 0), the search reports a
failure: both ends of the second secant step have the same slope, the step is infinite and the derivative there is NaN. -/
theorem C96_failure_reported_false : ¬ ∀ (ls : HZ ℚ ℚ) (init x d s : ℚ) (st : HZState ℚ ℚ), (∀ c, ∃ v g, ls.line x d c = (.fin v, .fin g)) →
    ls.run init x none none (some d) = .ok (s, some st) → st.error = .fin 0 → st.done = true → st.failed = false := by
  intro h
  have hrun : ∃ s st, huberHZ.run 1 (-4) none none (some 2) = .ok (s, some st) ∧ st.error = .fin 0 ∧ st.done = true ∧ st.failed = true := by
    have : (huberHZ.run 1 (-4) none none (some 2)).toOption.bind (fun z => z.2.map (fun st => (st.error, st.done, st.failed))) =
        some (.fin 0, true, true) := by decide +kernel
    revert this
    rcases huberHZ.run 1 (-4) none none (some 2) with e | ⟨s, _ | st⟩
    · intro h; simp [Except.toOption] at h
    · intro h; simp [Except.toOption] at h
    · intro h
      simp only [Except.toOption, Option.bind_some, Option.map_some, Option.some.injEq, Prod.mk.injEq] at h
      exact ⟨s, st, rfl, h.1, h.2.1, h.2.2⟩
  obtain ⟨s, st, h1, h2, h3, h4⟩ := hrun
  have := h huberHZ 1 (-4) 2 s st (fun c => ⟨_, _, rfl⟩) h1 h2 h3
  rw [h4] at this
  cases this

end HZ

end Jaxopt.LineSearch
