import Verif.QuasiNewton.ZoomRateProps
import Verif.QuasiNewton.HingeSquares
import Verif.QuasiNewton.CycleGram

/-!
# Property C97: L-BFGS with its default line search need not converge

The approximate decrease condition of the zoom line search (zoom_linesearch.py lines 261-280) accepts steps along which the objective does
not decrease.  For every history size there is a smooth strongly convex function on which L-BFGS with `max_stepsize=3` and otherwise
default options runs around a closed polygon forever.
-/

set_option autoImplicit false
set_option linter.unusedSectionVars false
set_option linter.unusedVariables false

namespace Jaxopt.QuasiNewton

open Jaxopt.Base Jaxopt.LineSearch

/-! ## A search that accepts `max_stepsize` -/

section Accept

variable {V : Type*} [NormedAddCommGroup V] [InnerProductSpace ℝ V] [CompleteSpace V]

/-- If the first trial step is `max_stepsize` and satisfies the conditions, it is returned. -/
theorem zoom_accepts_max (ls : Zoom ℝ V) {f : V → ℝ} {g : V → V} (hr : OnReal ls f g) (ht : 0 ≤ ls.tol) (hm : 1 ≤ ls.maxiter)
    (init : ℝ) (hi : ls.maxStepsize ≤ init) (x d : V)
    (h1 : f (x + ls.maxStepsize • d) ≤ f x + ls.c3 * |f x|)
    (h2 : inner ℝ (g (x + ls.maxStepsize • d)) d ≤ (2 * ls.c1 - 1) * inner ℝ (g x) d)
    (h3 : |inner ℝ (g (x + ls.maxStepsize • d)) d| ≤ ls.c2 * |inner ℝ (g x) d|)
    (s : ℝ) (st : ZState ℝ V) (hrun : ls.run init x (some (.fin (f x))) (some (g x)) (some d) = .ok (s, st)) :
    s = ls.maxStepsize ∧ st.params = x + ls.maxStepsize • d ∧ st.failed = false := by
  set z0 : ℝ × ZState ℝ V := (init, ls.initState x (some (.fin (f x))) (some (g x)) (some d)) with hz0
  let p : Setup ℝ V := ⟨x, g x, d, f x, inner ℝ (g x) d⟩
  let φ : ℝ → ℝ := fun s => f (x + s • d)
  let φ' : ℝ → ℝ := fun s => inner ℝ (g (x + s • d)) d
  have hdec := dec_le ls p φ φ' ls.maxStepsize ht (Or.inr ⟨h2, h1⟩)
  have hcur := (cur_iff ls p φ' ls.maxStepsize ht).mpr (show |φ' ls.maxStepsize| ≤ ls.c2 * |p.sl0| + ls.tol from by
    have : |φ' ls.maxStepsize| ≤ ls.c2 * |p.sl0| := h3
    linarith)
  have hmax := Ext.max_le_iff.mpr ⟨hdec, hcur⟩
  have hit0 : z0.2.iterNum = 0 := rfl
  have hraw : ls.rawUpdate z0 = ls.searchInterval init z0.2 := rfl
  have hs : (ls.searchInterval init z0.2).1 = ls.maxStepsize := by
    change min (if z0.2.iterNum = 0 then init else _) ls.maxStepsize = _
    rw [if_pos hit0, min_eq_right hi]
  have hd : (ls.searchInterval init z0.2).2.done = true := by
    have e : min (if z0.2.iterNum = 0 then init else ls.increaseFactor * z0.2.prevStepsize) ls.maxStepsize = ls.maxStepsize := by
      rw [if_pos hit0, min_eq_right hi]
    simp only [Zoom.searchInterval]
    rw [e]
    simp only [hz0, Zoom.initState, hr.f, hr.grad, hr.vdot]
    rw [Bool.or_eq_true]
    exact Or.inl hmax
  have hp : (ls.searchInterval init z0.2).2.params = x + ls.maxStepsize • d := by
    have e : (ls.searchInterval init z0.2).2.params =
        if (ls.searchInterval init z0.2).2.done = true then x + (ls.searchInterval init z0.2).1 • d else x := rfl
    rw [e, hd, hs]
    rfl
  have hf : (ls.searchInterval init z0.2).2.failed = false := by
    have e : (ls.searchInterval init z0.2).2.failed =
        (decide (z0.2.iterNum + 1 ≥ ls.maxiter) && !(ls.searchInterval init z0.2).2.done) := rfl
    rw [e, hd]
    simp
  have hup : ls.update z0 = ls.searchInterval init z0.2 := by
    unfold Zoom.update
    rw [hraw]
    simp only [hf]
    rfl
  obtain ⟨k, hk1, hk2, hrk, hcont, _⟩ := runS_spec hm hrun
  have hk : k = 1 := by
    by_contra hne
    have := hcont 1 le_rfl (by omega)
    change (!((ls.update z0).2.done || (ls.update z0).2.failed)) = true at this
    rw [hup, hd] at this
    simp at this
  rw [hk] at hrk
  change (s, st) = ls.update z0 at hrk
  rw [hup] at hrk
  have e1 : s = (ls.searchInterval init z0.2).1 := congrArg Prod.fst hrk
  have e2 : st = (ls.searchInterval init z0.2).2 := congrArg Prod.snd hrk
  rw [e1, e2]
  exact ⟨hs, hp, hf⟩

theorem bfgsInverse_concat (vdot : V → V → ℝ) (gamma : ℝ) (l : List (V × V)) (p : V × V) :
    bfgsInverse vdot gamma (l ++ [p]) = bfgsUpdate vdot (bfgsInverse vdot gamma l) p := by
  unfold bfgsInverse
  rw [List.foldl_append, List.foldl_cons, List.foldl_nil]

/-- Pairs orthogonal to a vector do not change the image of the vector. -/
theorem bfgsInverse_perp {vdot : V → V → ℝ} (hv : vdot = fun u v => inner ℝ u v) (gamma : ℝ) (l : List (V × V)) (n : V)
    (h : ∀ p ∈ l, inner ℝ p.1 n = 0 ∧ inner ℝ p.2 n = 0) : bfgsInverse vdot gamma l n = gamma • n := by
  subst hv
  unfold bfgsInverse
  have key : ∀ (l : List (V × V)) (H : V → V), (∀ p ∈ l, inner ℝ p.1 n = 0 ∧ inner ℝ p.2 n = 0) → H n = gamma • n →
      l.foldl (bfgsUpdate fun u v => inner ℝ u v) H n = gamma • n := by
    intro l
    induction l with
    | nil => intro H _ hH; exact hH
    | cons p l ih =>
      intro H hl hH
      rw [List.foldl_cons]
      refine ih _ (fun q hq => hl q (List.mem_cons_of_mem _ hq)) ?_
      obtain ⟨a1, a2⟩ := hl p List.mem_cons_self
      unfold bfgsUpdate
      by_cases h0 : inner ℝ p.1 p.2 = 0
      · rw [if_pos h0, hH]
      · rw [if_neg h0]
        simp only [a1, mul_zero, zero_smul, sub_zero, hH, real_inner_smul_right, a2, add_zero]
  exact key l _ h rfl

end Accept

/-! ## The polygon -/

namespace Cycle

/-- Unit vectors closing up after `2 (m + 1)` steps. -/
theorem exists_polygon (m : ℕ) (hm : 1 ≤ m) : ∃ s : ℕ → EuclideanSpace ℝ (ZMod (2 * (m + 1))),
    (∀ j, s (j + 2 * (m + 1)) = s j) ∧ ∑ j ∈ Finset.range (2 * (m + 1)), s j = 0 ∧
    ∀ j k, k ≤ m → inner ℝ (s j) (s (j + k)) = (-1 / 2) ^ k := by
  haveI : NeZero (2 * (m + 1)) := ⟨by omega⟩
  obtain ⟨e, he, hsum⟩ := exists_vectors (N := m + 1) (by omega)
  refine ⟨fun j => e (j : ZMod (2 * (m + 1))), ?_, ?_, ?_⟩
  · intro j
    have : ((j + 2 * (m + 1) : ℕ) : ZMod (2 * (m + 1))) = j := by
      rw [Nat.cast_add, ZMod.natCast_self, add_zero]
    simp only [this]
  · rw [← hsum]
    refine Finset.sum_nbij' (fun j => (j : ZMod (2 * (m + 1)))) (fun z => z.val) ?_ ?_ ?_ ?_ ?_
    · intro j _; exact Finset.mem_univ _
    · intro z _; exact Finset.mem_range.mpr (ZMod.val_lt z)
    · intro j hj; exact ZMod.val_cast_of_lt (Finset.mem_range.mp hj)
    · intro z _; exact ZMod.natCast_zmod_val z
    · intro j _; rfl
  · intro j k hk
    simp only [he]
    have : ((j + k : ℕ) : ZMod (2 * (m + 1))) - (j : ZMod (2 * (m + 1))) = (k : ZMod (2 * (m + 1))) := by push_cast; ring
    rw [this, corr_nat (by omega), rho, if_pos (by omega)]

theorem geom_half (k : ℕ) : ∑ i ∈ Finset.range k, ((-1 / 2 : ℝ)) ^ i = 2 / 3 * (1 - (-1 / 2) ^ k) := by
  induction k with
  | zero => simp
  | succ k ih => rw [Finset.sum_range_succ, ih, pow_succ]; ring

section Points

variable {V : Type*} [NormedAddCommGroup V] [InnerProductSpace ℝ V] {m : ℕ} {s : ℕ → V}

/-- The corners. -/
def corner (s : ℕ → V) (j : ℕ) : V := ∑ i ∈ Finset.range j, s i

theorem corner_succ (s : ℕ → V) (j : ℕ) : corner s (j + 1) = corner s j + s j := Finset.sum_range_succ _ _

theorem corner_add (s : ℕ → V) (j k : ℕ) : corner s (j + k) = corner s j + ∑ i ∈ Finset.range k, s (j + i) := by
  induction k with
  | zero => simp
  | succ k ih => rw [← add_assoc, corner_succ, ih, Finset.sum_range_succ, add_assoc]

theorem corner_period {q : ℕ} (hp : ∀ j, s (j + q) = s j) (h0 : ∑ j ∈ Finset.range q, s j = 0) (j : ℕ) :
    corner s (j + q) = corner s j := by
  rw [add_comm, corner_add]
  have h1 : corner s q = 0 := h0
  rw [h1, zero_add]
  unfold corner
  exact Finset.sum_congr rfl fun i _ => by rw [add_comm, hp]

/-- Every corner lies on the descent side of every other corner. -/
theorem separated (hm : 1 ≤ m) (hp : ∀ j, s (j + 2 * (m + 1)) = s j) (h0 : ∑ j ∈ Finset.range (2 * (m + 1)), s j = 0)
    (hin : ∀ j k, k ≤ m → inner ℝ (s j) (s (j + k)) = ((-1 / 2 : ℝ)) ^ k) (j k : ℕ) (hk : 1 ≤ k) (hk' : k < 2 * (m + 1)) :
    1 / 4 ≤ inner ℝ (s j) (corner s (j + k) - corner s j) := by
  by_cases hkm : k ≤ m + 1
  · rw [corner_add, add_sub_cancel_left, inner_sum]
    rw [Finset.sum_congr rfl fun i hi => hin j i (by have := Finset.mem_range.mp hi; omega), geom_half]
    have h1 : ((-1 / 2 : ℝ)) ^ k ≤ 1 / 4 := by
      rcases Nat.lt_or_ge k 2 with h | h
      · have : k = 1 := by omega
        rw [this]; norm_num
      · exact (abs_le.mp (half_pow_le k h)).2
    linarith
  · obtain ⟨e, he⟩ : ∃ e, j + k + e = j + 2 * (m + 1) := ⟨2 * (m + 1) - k, by omega⟩
    have h1 : corner s (j + k) - corner s j = -∑ i ∈ Finset.range e, s (j + k + i) := by
      rw [← corner_period hp h0 j, ← he, corner_add s (j + k) e]
      abel
    have h2 : ∀ i ∈ Finset.range e, inner ℝ (s j) (s (j + k + i)) = ((-1 / 2 : ℝ)) ^ (e - i) := by
      intro i hi
      have hi := Finset.mem_range.mp hi
      rw [← hp j, ← he, real_inner_comm]
      have e1 : j + k + e = j + k + i + (e - i) := by omega
      rw [e1]
      exact hin _ _ (by omega)
    rw [h1, inner_neg_right, inner_sum, Finset.sum_congr rfl h2]
    have h3 : ∑ i ∈ Finset.range e, ((-1 / 2 : ℝ)) ^ (e - i) = 2 / 3 * (1 - (-1 / 2) ^ (e + 1)) - 1 := by
      rw [← geom_half, Finset.sum_range_succ', pow_zero, add_sub_cancel_right, ← Finset.sum_range_reflect]
      refine Finset.sum_congr rfl fun i hi => ?_
      have hi := Finset.mem_range.mp hi
      congr 1
      omega
    rw [h3]
    have h4 : -(1 / 8) ≤ ((-1 / 2 : ℝ)) ^ (e + 1) := by
      obtain ⟨i, rfl⟩ : ∃ i, e = i + 1 := ⟨e - 1, by omega⟩
      rcases Nat.lt_or_ge i 1 with h | h
      · have : i = 0 := by omega
        rw [this]; norm_num
      · obtain ⟨l, rfl⟩ := Nat.exists_eq_add_of_le' h
        have e2 : ((-1 / 2 : ℝ)) ^ (l + 1 + 1 + 1) = (-1 / 2) ^ l * (-1 / 8) := by ring
        rw [e2]
        have e3 : |((-1 / 2 : ℝ)) ^ l| ≤ 1 := by
          rw [abs_pow]
          exact pow_le_one₀ (abs_nonneg _) (by rw [abs_of_neg] <;> norm_num)
        have := (abs_le.mp e3).2
        linarith
    linarith

end Points

/-- The objective: a sum of squared hinges through the corners of the polygon. -/
theorem exists_function {V : Type*} [NormedAddCommGroup V] [InnerProductSpace ℝ V] [CompleteSpace V] {m : ℕ} (hm : 1 ≤ m)
    {s : ℕ → V} (hp : ∀ j, s (j + 2 * (m + 1)) = s j) (h0 : ∑ j ∈ Finset.range (2 * (m + 1)), s j = 0)
    (hin : ∀ j k, k ≤ m → inner ℝ (s j) (s (j + k)) = ((-1 / 2 : ℝ)) ^ k) :
    ∃ (f : V → ℝ) (g : V → V) (μ L : ℝ), 0 < μ ∧ μ ≤ L ∧ LSmooth f g L ∧ StrongConvexWith f g μ ∧
      ∀ j, f (corner s j) = 1 / 48 ∧ g (corner s j) = -(1 / 3 : ℝ) • s j := by
  set q := 2 * (m + 1) with hq
  have hq0 : (0 : ℝ) < q := by
    have : 0 < q := by omega
    exact_mod_cast this
  set x := corner s with hx
  have hnorm : ∀ j, ‖s j‖ = 1 := by
    intro j
    have := hin j 0 (by omega)
    rw [add_zero, real_inner_self_eq_norm_sq, pow_zero] at this
    nlinarith [norm_nonneg (s j)]
  have hxn : ∀ j, j < q → ‖x j‖ ≤ q := by
    intro j hj
    have : ‖x j‖ ≤ ∑ i ∈ Finset.range j, ‖s i‖ := norm_sum_le _ _
    simp only [hnorm, Finset.sum_const, Finset.card_range, nsmul_eq_mul, mul_one] at this
    have hj' : (j : ℝ) ≤ q := by exact_mod_cast hj.le
    linarith
  set μ : ℝ := 1 / (48 * q ^ 2) with hμ
  have hμ0 : 0 < μ := by positivity
  have hμq : μ * (q : ℝ) ^ 2 = 1 / 48 := by rw [hμ]; field_simp
  let a : Fin q → V := fun j => -(1 / 3 : ℝ) • s j - μ • x j
  let τ : Fin q → ℝ := fun j => 1 / 24 - μ * ‖x j‖ ^ 2
  let b : Fin q → ℝ := fun j => inner ℝ (a j) (x j) - τ j
  let w : Fin q → ℝ := fun j => 1 / τ j
  have hsq : ∀ j : Fin q, μ * ‖x j‖ ^ 2 ≤ 1 / 48 := by
    intro j
    rw [← hμq]
    exact mul_le_mul_of_nonneg_left (pow_le_pow_left₀ (norm_nonneg _) (hxn j j.2) 2) hμ0.le
  have hτ : ∀ j, 0 < τ j := fun j => by
    have := hsq j
    change 0 < 1 / 24 - μ * ‖x j‖ ^ 2
    linarith
  have hw : ∀ j, 0 ≤ w j := fun j => (one_div_pos.mpr (hτ j)).le
  have hsep : ∀ i j : Fin q, i ≠ j → 1 / 4 ≤ inner ℝ (s j) (x i - x j) := by
    intro i j hij
    have hne : (i : ℕ) ≠ j := fun h => hij (Fin.ext h)
    rcases Nat.lt_or_gt_of_ne hne with h | h
    · have e : (i : ℕ) + q = j + (q + i - j) := by have := j.2; omega
      have e2 : x i = x (j + (q + i - j)) := by rw [← e]; exact (corner_period hp h0 _).symm
      rw [e2]
      have := j.2
      exact separated hm hp h0 hin j _ (by omega) (by omega)
    · have e : (i : ℕ) = j + (i - j) := by omega
      have e2 : x i = x (j + (i - j)) := by rw [← e]
      rw [e2]
      have := i.2
      exact separated hm hp h0 hin j _ (by omega) (by omega)
  have hact : ∀ i j : Fin q, i ≠ j → inner ℝ (a i) (x j) ≤ b i := by
    intro i j hij
    have h1 := hsep j i hij.symm
    have h2 : inner ℝ (x i) (x i - x j) ≤ 2 * (q : ℝ) ^ 2 := by
      refine (real_inner_le_norm _ _).trans ?_
      have h3 := hxn i i.2
      have h4 := hxn j j.2
      have h5 := norm_sub_le (x i) (x j)
      have h6 : ‖x i - x j‖ ≤ 2 * q := by linarith
      calc ‖x i‖ * ‖x i - x j‖ ≤ q * (2 * q) := mul_le_mul h3 h6 (norm_nonneg _) hq0.le
        _ = _ := by ring
    have h3 : inner ℝ (a i) (x i) - inner ℝ (a i) (x j) = 1 / 3 * inner ℝ (s i) (x j - x i) - μ * inner ℝ (x i) (x i - x j) := by
      rw [← inner_sub_right]
      change inner ℝ (-(1 / 3 : ℝ) • s i - μ • x i) (x i - x j) = _
      rw [inner_sub_left, real_inner_smul_left, real_inner_smul_left, ← neg_sub (x j) (x i), inner_neg_right (s i)]
      ring
    have h4 := mul_le_mul_of_nonneg_left h2 hμ0.le
    have h5 : τ i ≤ 1 / 24 := by
      change 1 / 24 - μ * ‖x i‖ ^ 2 ≤ 1 / 24
      have : 0 ≤ μ * ‖x i‖ ^ 2 := by positivity
      linarith
    change inner ℝ (a i) (x j) ≤ inner ℝ (a i) (x i) - τ i
    have h6 : μ * (2 * (q : ℝ) ^ 2) = 1 / 24 := by linarith
    linarith
  have hL : μ ≤ μ + ∑ i, w i * ‖a i‖ ^ 2 := by
    have : 0 ≤ ∑ i, w i * ‖a i‖ ^ 2 := Finset.sum_nonneg fun i _ => mul_nonneg (hw i) (sq_nonneg _)
    linarith
  refine ⟨hinges μ w a b, hingesGrad μ w a b, μ, μ + ∑ i, w i * ‖a i‖ ^ 2, hμ0, hL, hinges_smooth μ hμ0.le w hw a b,
    hinges_convex μ w hw a b, ?_⟩
  have main : ∀ j : Fin q, hinges μ w a b (x j) = 1 / 48 ∧ hingesGrad μ w a b (x j) = -(1 / 3 : ℝ) • s j := by
    intro j
    obtain ⟨e1, e2⟩ := hinges_at μ w a b (x j) j (τ j) (hτ j).le (by change inner ℝ (a j) (x j) - (inner ℝ (a j) (x j) - τ j) = τ j; ring)
      (one_div_mul_cancel (hτ j).ne') (fun i hi => hact i j hi)
    refine ⟨?_, ?_⟩
    · rw [e1]
      change μ / 2 * ‖x j‖ ^ 2 + (1 / 24 - μ * ‖x j‖ ^ 2) / 2 = 1 / 48
      ring
    · rw [e2]
      change μ • x j + (-(1 / 3 : ℝ) • s j - μ • x j) = _
      abel
  intro j
  have hper : ∀ n i, s (i + q * n) = s i ∧ x (i + q * n) = x i := by
    intro n
    induction n with
    | zero => intro i; simp
    | succ n ih =>
      intro i
      have e : i + q * (n + 1) = i + q * n + q := by ring
      rw [e]
      exact ⟨(hp _).trans (ih i).1, (corner_period hp h0 _).trans (ih i).2⟩
  have hq1 : 0 < q := by omega
  have hj := Nat.mod_add_div j q
  have := main ⟨j % q, Nat.mod_lt _ hq1⟩
  obtain ⟨p1, p2⟩ := hper (j / q) (j % q)
  rw [hj] at p1 p2
  rw [p1, p2]
  exact this

end Cycle

/-! ## The run -/

namespace Lbfgs

variable {V : Type*} [NormedAddCommGroup V] [InnerProductSpace ℝ V] [CompleteSpace V]

theorem cycle_iter {S : Lbfgs ℝ V ℝ} {ls : Zoom ℝ V} {r : ℝ} {strategy : String} {minStep inc : ℝ}
    (hu : S.UsesZoom ls r strategy minStep inc) (hls : 1 ≤ ls.maxiter) (hc1 : ls.c1 ≤ 1 / 4) (hc2 : 1 / 2 ≤ ls.c2) (hc3 : 0 ≤ ls.c3)
    (hm : 1 ≤ S.historySize) (hg : S.useGamma = true) (hM : S.maxStepsize = 3) (x s : ℕ → V) (hx : ∀ j, x (j + 1) = x j + s j)
    (c : ℝ) (hf : ∀ j, S.f (x j) = c) (hgr : ∀ j, S.grad (x j) = -(1 / 3 : ℝ) • s j)
    (hin : ∀ j k, k ≤ S.historySize → inner ℝ (s j) (s (j + k)) = ((-1 / 2 : ℝ)) ^ k) (n : ℕ) :
    (S.iter (x 0) n).1 = x n ∧ (S.iter (x 0) n).2.stepsize = 3 ∧ (S.iter (x 0) n).2.failedLinesearch = false := by
  have hsound := lsSound_of_zoom hu hls
  have hst := S.C74_lbfgs_state hsound (x 0)
  have hv : IsVdot S.vdot := by
    rw [hu.svdot]
    exact ⟨fun u v w => inner_add_left u v w, fun c u v => real_inner_smul_left u v c, fun u v => real_inner_comm v u,
      fun u hu => real_inner_self_pos.mpr hu⟩
  have hM' : ls.maxStepsize = 3 := hu.maxStep.symm.trans hM
  have h0 : ∀ j, inner ℝ (s j) (s j) = (1 : ℝ) := fun j => by
    have := hin j 0 (by omega)
    rwa [add_zero, pow_zero] at this
  have h1 : ∀ j, inner ℝ (s j) (s (j + 1)) = (-1 / 2 : ℝ) := fun j => by
    have := hin j 1 hm
    rwa [pow_one] at this
  induction n using Nat.strong_induction_on with
  | _ n ih =>
    cases n with
    | zero => exact ⟨rfl, hM, rfl⟩
    | succ n =>
      obtain ⟨i1, i2, i3⟩ := ih n (by omega)
      have hgn : (S.iter (x 0) n).2.grad = -(1 / 3 : ℝ) • s n := by rw [(hst n).2.1, i1, hgr]
      -- the direction
      have hdir : S.direction (S.iter (x 0) n).2 = (1 / 3 : ℝ) • s n := by
        rw [S.C24_direction hv hm (x 0) n, hgn, neg_smul, neg_neg]
        cases n with
        | zero =>
          have e : S.lastPairs (x 0) 0 = [] := by simp [lastPairs]
          rw [e]
          change (S.iter (x 0) 0).2.gamma • ((1 / 3 : ℝ) • s 0) = _
          rw [(S.C24_gamma hv (x 0) 0).1, one_smul]
        | succ k =>
          have hpair : ∀ j, j ≤ k → S.pair (x 0) j = (s j, (1 / 3 : ℝ) • (s j - s (j + 1))) := by
            intro j hj
            obtain ⟨a1, _, _⟩ := ih j (by omega)
            obtain ⟨b1, _, _⟩ := ih (j + 1) (by omega)
            unfold pair
            rw [(hst j).2.1, (hst (j + 1)).2.1, a1, b1, hgr, hgr, hx]
            refine Prod.ext (add_sub_cancel_left _ _) ?_
            change -(1 / 3 : ℝ) • s (j + 1) - -(1 / 3 : ℝ) • s j = _
            module
          have hys : inner ℝ (s k) ((1 / 3 : ℝ) • (s k - s (k + 1))) = (1 / 2 : ℝ) := by
            rw [real_inner_smul_right, inner_sub_right, h0, h1]; norm_num
          have hyy : inner ℝ ((1 / 3 : ℝ) • (s k - s (k + 1))) ((1 / 3 : ℝ) • (s k - s (k + 1))) = (1 / 3 : ℝ) := by
            rw [real_inner_smul_right, real_inner_smul_left, inner_sub_right, inner_sub_left, inner_sub_left, h0, h0,
              real_inner_comm (s k) (s (k + 1)), h1]
            norm_num
          have hγ : (S.iter (x 0) (k + 1)).2.gamma = 3 / 2 := by
            rw [(S.C24_gamma hv (x 0) k).2.1 hm hg, hpair k le_rfl, hu.svdot]
            · change inner ℝ ((1 / 3 : ℝ) • (s k - s (k + 1))) (s k) / inner ℝ ((1 / 3 : ℝ) • (s k - s (k + 1))) ((1 / 3 : ℝ) • (s k - s (k + 1))) = _
              rw [real_inner_comm, hys, hyy]; norm_num
            · rw [hpair k le_rfl]
              change (1 / 3 : ℝ) • (s k - s (k + 1)) ≠ 0
              intro h
              rw [h, inner_zero_right] at hys
              norm_num at hys
          have hlist : S.lastPairs (x 0) (k + 1) =
              (List.range' (k + 1 - S.historySize) (min (k + 1) S.historySize - 1)).map (S.pair (x 0)) ++ [S.pair (x 0) k] := by
            unfold lastPairs
            obtain ⟨b, hb⟩ : ∃ b, min (k + 1) S.historySize = b + 1 := ⟨min (k + 1) S.historySize - 1, by omega⟩
            have hk : k + 1 - S.historySize + b = k := by omega
            rw [hb, List.range'_concat, List.map_append, Nat.add_sub_cancel, one_mul, hk]
            rfl
          have hperp : ∀ p ∈ (List.range' (k + 1 - S.historySize) (min (k + 1) S.historySize - 1)).map (S.pair (x 0)),
              inner ℝ p.1 ((2 / 9 : ℝ) • (s (k + 1) + (1 / 2 : ℝ) • s k)) = 0 ∧
              inner ℝ p.2 ((2 / 9 : ℝ) • (s (k + 1) + (1 / 2 : ℝ) • s k)) = 0 := by
            intro p hp
            obtain ⟨j, hj, rfl⟩ := List.mem_map.mp hp
            rw [List.mem_range'_1] at hj
            rw [hpair j (by omega)]
            have key : ∀ i, k + 1 ≤ i + S.historySize → i ≤ k → inner ℝ (s i) (s (k + 1) + (1 / 2 : ℝ) • s k) = 0 := by
              intro i hi1 hi2
              rw [inner_add_right, real_inner_smul_right]
              have e1 := hin i (k + 1 - i) (by omega)
              have e2 := hin i (k - i) (by omega)
              rw [show i + (k + 1 - i) = k + 1 by omega, show k + 1 - i = (k - i) + 1 by omega, pow_succ] at e1
              rw [show i + (k - i) = k by omega] at e2
              rw [e1, e2]
              ring
            have k1 := key j (by omega) (by omega)
            have k2 := key (j + 1) (by omega) (by omega)
            constructor
            · change inner ℝ (s j) _ = 0
              rw [real_inner_smul_right, k1, mul_zero]
            · change inner ℝ ((1 / 3 : ℝ) • (s j - s (j + 1))) _ = 0
              rw [real_inner_smul_right, real_inner_smul_left, inner_sub_left, k1, k2]
              norm_num
          have hH := bfgsInverse_perp hu.svdot (3 / 2 : ℝ) _ _ hperp
          rw [hlist, hγ]
          rw [bfgsInverse_concat, hpair k le_rfl]
          generalize bfgsInverse S.vdot (3 / 2 : ℝ)
            ((List.range' (k + 1 - S.historySize) (min (k + 1) S.historySize - 1)).map (S.pair (x 0))) = H at hH ⊢
          unfold bfgsUpdate
          have hne : S.vdot (s k, (1 / 3 : ℝ) • (s k - s (k + 1))).1 (s k, (1 / 3 : ℝ) • (s k - s (k + 1))).2 = 1 / 2 := by
            rw [hu.svdot]; exact hys
          rw [hne, if_neg (by norm_num)]
          have e1 : S.vdot (s k, (1 / 3 : ℝ) • (s k - s (k + 1))).1 ((1 / 3 : ℝ) • s (k + 1)) = -1 / 6 := by
            rw [hu.svdot]
            change inner ℝ (s k) ((1 / 3 : ℝ) • s (k + 1)) = _
            rw [real_inner_smul_right, h1]; norm_num
          have e2 : (1 / 3 : ℝ) • s (k + 1) - ((1 / (1 / 2 : ℝ)) * (-1 / 6)) • (s k, (1 / 3 : ℝ) • (s k - s (k + 1))).2 =
              (2 / 9 : ℝ) • (s (k + 1) + (1 / 2 : ℝ) • s k) := by
            change (1 / 3 : ℝ) • s (k + 1) - ((1 / (1 / 2 : ℝ)) * (-1 / 6)) • ((1 / 3 : ℝ) • (s k - s (k + 1))) = _
            module
          simp only [e1, e2, hH]
          have e3 : S.vdot ((1 / 3 : ℝ) • (s k - s (k + 1))) ((3 / 2 : ℝ) • ((2 / 9 : ℝ) • (s (k + 1) + (1 / 2 : ℝ) • s k))) = -1 / 12 := by
            rw [hu.svdot]
            change inner ℝ _ _ = _
            rw [real_inner_smul_left, real_inner_smul_right, real_inner_smul_right, inner_sub_left, inner_add_right, inner_add_right,
              real_inner_smul_right, real_inner_smul_right, h0, h0, h1, real_inner_comm (s k) (s (k + 1)), h1]
            norm_num
          rw [e3]
          module
      -- the initial stepsize
      have hinit : ls.maxStepsize ≤ S.initStep (S.iter (x 0) n).2.stepsize := by
        have h1 := hu.init (S.iter (x 0) n).2.stepsize
        have h2 := hu.incr
        unfold initStepsize at h1
        rw [hM, i2] at h1
        rw [hM', i2]
        by_cases c1 : strategy = "max"
        · rw [if_pos c1] at h1; rw [← Except.ok.inj h1]
        · rw [if_neg c1] at h1
          by_cases c2 : strategy = "current"
          · rw [if_pos c2] at h1; rw [← Except.ok.inj h1]
          · rw [if_neg c2] at h1
            by_cases c3 : strategy = "increase"
            · rw [if_pos c3] at h1
              rw [← Except.ok.inj h1]
              by_cases c4 : (3 : ℝ) ≤ minStep
              · rw [if_pos c4]
              · rw [if_neg c4]
                nlinarith
            · rw [if_neg c3] at h1; cases h1
      obtain ⟨a, ha, ha0⟩ := hu.search
      have hstep : S.step (x n) (S.iter (x 0) n).2 ((1 / 3 : ℝ) • s n) =
          S.runLs (S.initStep (S.iter (x 0) n).2.stepsize) (x n) (S.f (x n)) (S.grad (x n)) ((1 / 3 : ℝ) • s n) := by
        unfold step
        rw [ha]
        simp only [if_pos ha0, (hst n).1, (hst n).2.1, i1]
      have hx3 : x n + ls.maxStepsize • ((1 / 3 : ℝ) • s n) = x (n + 1) := by
        rw [hM', hx, smul_smul]; norm_num
      have sl0 : inner ℝ (S.grad (x n)) ((1 / 3 : ℝ) • s n) = (-1 / 9 : ℝ) := by
        rw [hgr, real_inner_smul_left, real_inner_smul_right, h0]; norm_num
      have sl1 : inner ℝ (S.grad (x (n + 1))) ((1 / 3 : ℝ) • s n) = (1 / 18 : ℝ) := by
        rw [hgr, real_inner_smul_left, real_inner_smul_right, real_inner_comm, h1]; norm_num
      obtain ⟨st, hr, e1, e2, e3, e4⟩ := hu.runs (S.initStep (S.iter (x 0) n).2.stepsize) (x n) (S.f (x n)) (S.grad (x n))
        ((1 / 3 : ℝ) • s n)
      obtain ⟨z1, z2, z3⟩ := zoom_accepts_max ls hu.real hu.live.tol hls _ hinit (x n) ((1 / 3 : ℝ) • s n)
        (by rw [hx3, hf, hf]; nlinarith [abs_nonneg c]) (by rw [hx3, sl0, sl1]; linarith)
        (by
          rw [hx3, sl0, sl1, abs_of_pos (by norm_num), abs_of_neg (by norm_num)]
          linarith) _ st hr
      rw [iter_succ]
      have hup : (S.update (S.iter (x 0) n)).1 = (S.step (x n) (S.iter (x 0) n).2 ((1 / 3 : ℝ) • s n)).params ∧
          (S.update (S.iter (x 0) n)).2.stepsize = (S.step (x n) (S.iter (x 0) n).2 ((1 / 3 : ℝ) • s n)).stepsize ∧
          (S.update (S.iter (x 0) n)).2.failedLinesearch = (S.step (x n) (S.iter (x 0) n).2 ((1 / 3 : ℝ) • s n)).failed := by
        simp only [update, hdir, i1, and_self]
      rw [hup.1, hup.2.1, hup.2.2, hstep]
      refine ⟨?_, ?_, ?_⟩
      · rw [← e1, z2, hx3]
      · rw [z1, hM']
      · rw [← e4, z3]

/-- **C97, convergence is false.** For every history size `m ≥ 1` there is an objective on `ℝ^(2 (m+1))`, smooth and strongly convex, and a
start such that L-BFGS with `history_size=m`, `use_gamma=True`, the zoom line search with any `c1 ≤ 1/4`, `c2 ≥ 1/2`, `c3 ≥ 0` (the
defaults are `1e-4`, `0.9`, `1e-6`), any initialisation strategy and `max_stepsize=3` never makes progress: every line search succeeds,
every iterate has the value of the start, which is not optimal, and a gradient of norm `1/3`; whatever `maxiter` is, that is what `run`
returns. -/
theorem C97_cycle_false (m : ℕ) (hm : 1 ≤ m) :
    ∃ (f : EuclideanSpace ℝ (ZMod (2 * (m + 1))) → ℝ) (g : EuclideanSpace ℝ (ZMod (2 * (m + 1))) → EuclideanSpace ℝ (ZMod (2 * (m + 1))))
      (μ L : ℝ) (x0 : EuclideanSpace ℝ (ZMod (2 * (m + 1)))),
      0 < μ ∧ μ ≤ L ∧ LSmooth f g L ∧ StrongConvexWith f g μ ∧ (∃ y, f y ≤ f x0 - 1 / (18 * L)) ∧
      ∀ (S : Lbfgs ℝ (EuclideanSpace ℝ (ZMod (2 * (m + 1)))) ℝ) (ls : Zoom ℝ (EuclideanSpace ℝ (ZMod (2 * (m + 1)))))
        (r : ℝ) (strategy : String) (minStep inc : ℝ), S.UsesZoom ls r strategy minStep inc → 1 ≤ ls.maxiter → ls.c1 ≤ 1 / 4 →
        1 / 2 ≤ ls.c2 → 0 ≤ ls.c3 → S.historySize = m → S.useGamma = true → S.maxStepsize = 3 → S.f = f → S.grad = g →
        (∀ n, f (S.iter x0 n).1 = f x0 ∧ ‖g (S.iter x0 n).1‖ = 1 / 3 ∧ (S.iter x0 n).2.failedLinesearch = false) ∧
        (1 ≤ S.maxiter → (∀ v, S.norm v = ‖v‖) → S.tol < 1 / 3 → ∀ p, S.run x0 = .ok p →
          p.2.iterNum = S.maxiter ∧ f p.1 = f x0 ∧ ‖g p.1‖ = 1 / 3 ∧ p.2.error = .fin (1 / 3)) := by
  obtain ⟨s, hp, h0, hin⟩ := Cycle.exists_polygon m hm
  obtain ⟨f, g, μ, L, hμ, hL, hsm, hsc, hfg⟩ := Cycle.exists_function hm hp h0 hin
  have hL0 : 0 < L := lt_of_lt_of_le hμ hL
  have hgn : ∀ n, ‖g (Cycle.corner s n)‖ = 1 / 3 := by
    intro n
    have h1 := hin n 0 (by omega)
    rw [add_zero, real_inner_self_eq_norm_sq, pow_zero] at h1
    have h2 : ‖s n‖ = 1 := by nlinarith [norm_nonneg (s n)]
    rw [(hfg n).2, norm_smul, h2, Real.norm_eq_abs, abs_of_neg (by norm_num)]
    norm_num
  refine ⟨f, g, μ, L, Cycle.corner s 0, hμ, hL, hsm, hsc, ⟨Cycle.corner s 0 - (1 / L) • g (Cycle.corner s 0), ?_⟩, ?_⟩
  · have := hsm.descent (Cycle.corner s 0) (Cycle.corner s 0 - (1 / L) • g (Cycle.corner s 0))
    rw [sub_sub_cancel_left, inner_neg_right, real_inner_smul_right, real_inner_self_eq_norm_sq, norm_neg, norm_smul, hgn,
      Real.norm_eq_abs, abs_of_pos (by positivity)] at this
    refine this.trans (le_of_eq ?_)
    field_simp
    ring
  · intro S ls r strategy minStep inc hu hls hc1 hc2 hc3 hS hg hM hf hgr
    subst hf hgr
    have main := cycle_iter hu hls hc1 hc2 hc3 (by rw [hS]; exact hm) hg hM (Cycle.corner s) s (Cycle.corner_succ s) (1 / 48) (fun j => (hfg j).1)
      (fun j => (hfg j).2) (by rw [hS]; exact hin)
    have hall : ∀ n, S.f (S.iter (Cycle.corner s 0) n).1 = S.f (Cycle.corner s 0) ∧
        ‖S.grad (S.iter (Cycle.corner s 0) n).1‖ = 1 / 3 ∧ (S.iter (Cycle.corner s 0) n).2.failedLinesearch = false := by
      intro n
      obtain ⟨a, b, c⟩ := main n
      rw [a]
      exact ⟨by rw [(hfg n).1, (hfg 0).1], hgn n, c⟩
    refine ⟨hall, fun hmi hnorm htol p hr => ?_⟩
    obtain ⟨k, k1, k2, k3, k4, k5⟩ := S.C74_lbfgs_run (lsSound_of_zoom hu hls) hmi _ hr
    obtain ⟨a, b, c⟩ := hall k
    have hst := S.C74_lbfgs_state (lsSound_of_zoom hu hls) (Cycle.corner s 0) k
    have hk : k = S.maxiter := by
      rcases k4 with h | h | ⟨h1, h2⟩
      · exact h
      · rw [k3, hnorm, b] at h; linarith
      · rw [k3, c] at h2; cases h2
    rw [k3]
    exact ⟨hst.2.2.1.trans hk, a, b, by rw [hst.2.2.2 k1, hnorm, b]⟩

/-- The hypotheses of `C97_cycle_false` on the solver hold for the default options with `max_stepsize=3`: on some smooth strongly convex
objective the default history of ten pairs goes around a polygon with 22 corners, and `run` returns after `maxiter = 500` iterations with
the value of the start. -/
example : ∃ (f : EuclideanSpace ℝ (ZMod 22) → ℝ) (g : EuclideanSpace ℝ (ZMod 22) → EuclideanSpace ℝ (ZMod 22)) (μ L : ℝ)
    (x0 : EuclideanSpace ℝ (ZMod 22)), 0 < μ ∧ LSmooth f g L ∧ StrongConvexWith f g μ ∧ (∃ y, f y < f x0) ∧
    ∃ p, (stdLbfgs f g 10 3 30).run x0 = .ok p ∧ p.2.iterNum = 500 ∧ f p.1 = f x0 ∧ ‖g p.1‖ = 1 / 3 := by
  obtain ⟨f, g, μ, L, x0, h1, h2, h3, h4, ⟨y, hy⟩, h5⟩ := C97_cycle_false 10 (by norm_num)
  have hL : 0 < L := lt_of_lt_of_le h1 h2
  refine ⟨f, g, μ, L, x0, h1, h3, h4, ⟨y, ?_⟩, ?_⟩
  · have : 0 < 1 / (18 * L) := by positivity
    linarith
  · obtain ⟨p, hp⟩ := runS_ok (stdLbfgs f g 10 3 30).initState (stdLbfgs f g 10 3 30).update (stdLbfgs f g 10 3 30).cont
      (maxiter := 500) (unroll := false) (jit := true) x0 (by norm_num) (Or.inr rfl)
    have hp' : (stdLbfgs f g 10 3 30).run x0 = .ok p := hp
    obtain ⟨_, h6⟩ := h5 (stdLbfgs f g 10 3 30) (stdZoom f g 3 30) (1 / 10) "increase" (1 / 1000000) (3 / 2)
      (std_uses f g 10 (by norm_num) (by norm_num)) (show 1 ≤ 30 by norm_num) (show (1 / 10000 : ℝ) ≤ 1 / 4 by norm_num)
      (show (1 / 2 : ℝ) ≤ 9 / 10 by norm_num) (show (0 : ℝ) ≤ 1 / 1000000 by norm_num) rfl rfl rfl rfl rfl
    obtain ⟨a, b, c, d⟩ := h6 (show 1 ≤ 500 by norm_num) (fun _ => rfl) (show (1 / 1000 : ℝ) < 1 / 3 by norm_num) p hp'
    exact ⟨p, hp', a, b, c⟩

end Lbfgs

end Jaxopt.QuasiNewton
