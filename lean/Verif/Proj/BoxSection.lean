import Verif.Proj.Sparse
import Verif.Bisect.Props
import Mathlib.Topology.Algebra.Order.Group
import Mathlib.Topology.Order.Lattice

/-!
# Property C13: box section, accuracy of the bisection and the degenerate case
-/

set_option autoImplicit false
set_option linter.unusedVariables false

namespace Jaxopt.Proj

theorem clip_lipschitz (a b lo hi : ℝ) : |clip a lo hi - clip b lo hi| ≤ |a - b| := by
  unfold clip
  refine le_trans (abs_min_sub_min_le_max _ _ _ _) ?_
  simp only [sub_self, abs_zero]
  refine max_le ?_ (abs_nonneg _)
  refine le_trans (abs_max_sub_max_le_max _ _ _ _) ?_
  simp

theorem boxSecFun_continuous {n : ℕ} (x alpha beta w : Fin n → ℝ) (c : ℝ) :
    Continuous (boxSecFun x alpha beta w c) := by
  unfold boxSecFun clip
  fun_prop

/-- **C13** (non-degenerate part): if `w > 0`, `alpha ≤ beta` and `w·alpha < c ≤ w·beta`, after `k+1` bisection updates
every coordinate of the output is within `w_i (upper-lower)/2^(k+1)` of the exact projection (which exists).  Missing
from the full property: `c = w·alpha`, where the output is wrong, see `C13_degenerate_false`. -/
theorem C13_accuracy_partial {n : ℕ} (x alpha beta w : Fin (n + 1) → ℝ) (c : ℝ) (hw : ∀ i, 0 < w i)
    (hab : ∀ i, alpha i ≤ beta i) (hlo : ∑ i, w i * alpha i < c) (hhi : c ≤ ∑ i, w i * beta i) (k : ℕ) :
    ∃ p q, IsUniqueProj (BoxSection alpha beta w c) x p ∧
      projectionBoxSectionAfter x alpha beta w c k = .ok q ∧
      ∀ i, |q i - p i| ≤ w i * ((boxSecUpper x beta w - boxSecLower x alpha w) / 2 ^ (k + 1)) := by
  set f := boxSecFun x alpha beta w c with hf
  obtain ⟨s, hs⟩ := Bisect.C06_unchecked_accepts f (boxSecLower x alpha w) (boxSecUpper x beta w)
  have hv : Bisect.ValidBracket f (boxSecLower x alpha w) (boxSecUpper x beta w) := by
    left
    rw [hf, boxSecFun_lower x alpha beta w c hw hab, boxSecFun_upper x alpha beta w c hw hab]
    constructor <;> linarith
  obtain ⟨r, _, _, hr0, hr⟩ := Bisect.C05_accuracy f _ _ false s (boxSec_bracket_le x alpha beta w hw hab)
    (boxSecFun_continuous x alpha beta w c).continuousOn hv hs k
  refine ⟨boxSecPoint x alpha beta w r, boxSecPoint x alpha beta w (Bisect.paramsAfter f s k),
    C13_exact_root x alpha beta w c r hab hr0, ?_, fun i => ?_⟩
  · simp only [projectionBoxSectionAfter, ← hf, hs, bind, Except.bind, pure, Except.pure]
    rfl
  · refine le_trans (clip_lipschitz _ _ _ _) ?_
    have e : w i * Bisect.paramsAfter f s k + x i - (w i * r + x i) = w i * (Bisect.paramsAfter f s k - r) := by ring
    rw [e, abs_mul, abs_of_pos (hw i)]
    exact mul_le_mul_of_nonneg_left hr (le_of_lt (hw i))

/-- **C13**, infeasible problems: with `check_feasible=True` the code raises exactly when the box section is empty
(`w > 0`, `alpha ≤ beta`, at least one coordinate). -/
theorem C13_check_feasible {n : ℕ} (alpha beta w : Fin n → ℝ) (c : ℝ) (hw : ∀ i, 0 < w i)
    (hab : ∀ i, alpha i ≤ beta i) :
    boxSecCheckFeasible alpha beta w c = .ok () ↔ (BoxSection alpha beta w c).Nonempty := by
  unfold boxSecCheckFeasible
  constructor
  · intro h
    split_ifs at h with h1 h2
    have h1 := not_lt.mp h1
    have h2 := not_lt.mp h2
    rcases eq_or_lt_of_le (le_trans h1 h2) with heq | hlt
    · exact ⟨alpha, fun i => ⟨le_refl _, hab i⟩, by linarith⟩
    · -- convex combination of the two corners
      set t := (c - ∑ i, w i * alpha i) / (∑ i, w i * beta i - ∑ i, w i * alpha i) with ht
      have hd : 0 < ∑ i, w i * beta i - ∑ i, w i * alpha i := by linarith
      have ht0 : 0 ≤ t := div_nonneg (by linarith) (le_of_lt hd)
      have ht1 : t ≤ 1 := by rw [ht, div_le_one hd]; linarith
      refine ⟨fun i => alpha i + t * (beta i - alpha i), fun i => ⟨?_, ?_⟩, ?_⟩
      · have := mul_nonneg ht0 (sub_nonneg.mpr (hab i)); linarith
      · have := mul_le_mul_of_nonneg_right ht1 (sub_nonneg.mpr (hab i)); linarith
      · have e : ∑ i, w i * (alpha i + t * (beta i - alpha i))
            = ∑ i, w i * alpha i + t * (∑ i, w i * beta i - ∑ i, w i * alpha i) := by
          rw [← Finset.sum_sub_distrib, Finset.mul_sum, ← Finset.sum_add_distrib]
          exact Finset.sum_congr rfl fun i _ => by ring
        rw [e, ht, div_mul_cancel₀ _ (ne_of_gt hd)]; ring
  · rintro ⟨y, hy, hyc⟩
    have h1 : ∑ i, w i * alpha i ≤ c := by
      rw [← hyc]; exact Finset.sum_le_sum fun i _ => mul_le_mul_of_nonneg_left (hy i).1 (le_of_lt (hw i))
    have h2 : c ≤ ∑ i, w i * beta i := by
      rw [← hyc]; exact Finset.sum_le_sum fun i _ => mul_le_mul_of_nonneg_left (hy i).2 (le_of_lt (hw i))
    rw [if_neg (not_lt.mpr h1), if_neg (not_lt.mpr h2)]

/-- The one-dimensional degenerate instance `x = 0`, `0 ≤ p ≤ 1`, `p = 0`. -/
noncomputable abbrev degF : ℝ → ℝ := boxSecFun (fun _ : Fin 1 => 0) (fun _ => 0) (fun _ => 1) (fun _ => 1) 0

theorem degF_eq (t : ℝ) (h0 : 0 ≤ t) (h1 : t ≤ 1) : degF t = t := by
  simp [degF, boxSecFun, clip, h0, h1]

/-- **C13 is false in the degenerate case**: for the feasible problem `x = 0, alpha = 0, beta = 1, w = 1, c = 0` the
projection is `0`, but after `k+1` bisection steps the code returns `1 - 1/2^(k+1)`; the bisection error is
`1 - 1/2^(k+1) ≥ 1/2`, so the loop never stops early. -/
theorem C13_degenerate_false :
    boxSecCheckFeasible (fun _ : Fin 1 => (0 : ℝ)) (fun _ => 1) (fun _ => 1) 0 = .ok () ∧
    IsUniqueProj (BoxSection (fun _ : Fin 1 => (0 : ℝ)) (fun _ => 1) (fun _ => 1) 0) (fun _ => 0) (fun _ => 0) ∧
    ∀ k : ℕ, projectionBoxSectionAfter (fun _ : Fin 1 => (0 : ℝ)) (fun _ => 0) (fun _ => 1) (fun _ => 1) 0 k
      = .ok (fun _ => 1 - 1 / 2 ^ (k + 1)) ∧
      ∀ s, Bisect.initState degF 0 1 false = .ok s →
        (Bisect.stateAfter degF s (k + 1)).error = .fin (1 - 1 / 2 ^ (k + 1)) := by
  refine ⟨by simp [boxSecCheckFeasible], ?_, ?_⟩
  · have := C13_exact_root (fun _ : Fin 1 => (0 : ℝ)) (fun _ => 0) (fun _ => 1) (fun _ => 1) 0 0
      (fun _ => by norm_num) (by simp [boxSecFun, clip])
    have e : boxSecPoint (fun _ : Fin 1 => (0 : ℝ)) (fun _ => 0) (fun _ => 1) (fun _ => 1) 0 = fun _ => 0 := by
      funext i; simp [boxSecPoint, clip]
    rwa [e] at this
  · have hl : boxSecLower (fun _ : Fin 1 => (0 : ℝ)) (fun _ => 0) (fun _ => 1) = 0 := by simp [boxSecLower]
    have hu : boxSecUpper (fun _ : Fin 1 => (0 : ℝ)) (fun _ => 1) (fun _ => 1) = 1 := by simp [boxSecUpper]
    obtain ⟨s, hs⟩ := Bisect.C06_unchecked_accepts degF 0 1
    have hs0 : s.low = 0 ∧ s.high = 1 ∧ s.sign = 0 := by
      have h0 : degF 0 = 0 := degF_eq 0 (le_refl _) zero_le_one
      simp [Bisect.initState, Bisect.bracketSign, h0] at hs
      rw [← hs]; simp
    have hst : ∀ k, (Bisect.stateAfter degF s k).low = 1 - 1 / 2 ^ k ∧ (Bisect.stateAfter degF s k).high = 1 ∧
        (Bisect.stateAfter degF s k).sign = 0 := by
      intro k
      induction k with
      | zero => simpa [Bisect.stateAfter] using hs0
      | succ k ih =>
        obtain ⟨h1, h2, h3⟩ := ih
        simp only [Bisect.stateAfter, Bisect.update, h1, h2, h3]
        simp
        rw [pow_succ]; field_simp; ring
    intro k
    obtain ⟨h1, h2, h3⟩ := hst k
    have hp : Bisect.paramsAfter degF s k = 1 - 1 / 2 ^ (k + 1) := by
      simp only [Bisect.paramsAfter, Bisect.update, h1, h2]
      rw [pow_succ]; field_simp; ring
    have hpos : (0 : ℝ) < 1 / 2 ^ (k + 1) := by positivity
    have hle : (1 : ℝ) / 2 ^ (k + 1) ≤ 1 := by
      rw [div_le_one (by positivity)]; exact one_le_pow₀ (by norm_num)
    refine ⟨?_, ?_⟩
    swap
    · intro s' hs'
      rw [hs] at hs'
      cases hs'
      have : (Bisect.stateAfter degF s (k + 1)).error = .fin |degF (Bisect.paramsAfter degF s k)| := rfl
      rw [this, hp, degF_eq _ (by linarith) (by linarith), abs_of_nonneg (by linarith)]
    simp only [projectionBoxSectionAfter, hl, hu]
    show (Bisect.initState degF 0 1 false >>= fun s => pure fun i =>
      clip ((1 : ℝ) * Bisect.paramsAfter degF s k + 0) 0 1) = _
    rw [hs]
    simp only [bind, Except.bind, pure, Except.pure]
    congr 1
    funext i
    rw [hp]
    unfold clip
    rw [max_eq_left (by linarith), min_eq_left (by linarith)]
    ring

/-- Non-vacuity of `C13_accuracy_partial`: two coordinates. -/
example : (∀ i : Fin 2, (0 : ℝ) < ![1, 2] i) ∧ (∑ i, ![1, 2] i * ![0, 0] i : ℝ) < 1 ∧
    (1 : ℝ) ≤ ∑ i, ![1, 2] i * ![1, 1] i := by
  refine ⟨fun i => by fin_cases i <;> norm_num, by simp [Fin.sum_univ_two], by simp [Fin.sum_univ_two]⟩

end Jaxopt.Proj
