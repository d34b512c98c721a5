import Verif.QuasiNewton.BoundsFloat
import Verif.Num.Binary

/-!
# Property C113: bound constraints in floating-point arithmetic
-/

set_option autoImplicit false
set_option linter.unusedSectionVars false
set_option linter.unusedVariables false

namespace Jaxopt.Bounds

open Jaxopt.Base

variable {K : Type*} [Field K] [LinearOrder K] [IsStrictOrderedRing K] {ι S : Type*}

/-! ### Specification -/

/-- The number is NaN or a finite number between the bounds. -/
def Within (l u : K) (v : Ext K) : Prop := v = .nan ∨ ∃ y, v = .fin y ∧ l ≤ y ∧ y ≤ u

/-- The number is NaN or not negative. -/
def NonNegative (v : Ext K) : Prop := v = .nan ∨ v = .pinf ∨ ∃ y : K, v = .fin y ∧ 0 ≤ y

/-! ### Solvers that end with the projection -/

theorem clip_within {l u : K} (h : l ≤ u) (v : Ext K) : Within l u (clip l u v) := by
  cases v with
  | nan => exact .inl rfl
  | fin x => exact .inr ⟨min (max x l) u, rfl, le_min (le_max_right _ _) h, min_le_right _ _⟩
  | pinf => exact .inr ⟨u, rfl, h, le_rfl⟩
  | ninf => exact .inr ⟨min l u, rfl, le_min le_rfl h, min_le_right _ _⟩

theorem relu_nonneg (v : Ext K) : NonNegative (relu v) := by
  cases v with
  | nan => exact .inl rfl
  | fin x => exact .inr (.inr ⟨max x 0, rfl, le_max_right _ _⟩)
  | pinf => exact .inr (.inl rfl)
  | ninf => exact .inr (.inr ⟨0, rfl, le_rfl⟩)

/-- What every update establishes holds of the result of a run. -/
theorem run_inv {P T : Type*} {init : P → T} {upd : P × T → P × T} {cont : P × T → Bool} {maxiter : ℕ} {unroll jit : Bool} {x0 : P} {r : P × T}
    (hm : 1 ≤ maxiter) (h : runS init upd cont maxiter unroll jit x0 = .ok r) (I : P → Prop) (hI : ∀ p, I (upd p).1) : I r.1 := by
  obtain ⟨k, hk, -, rfl, -⟩ := runS_spec hm h
  obtain ⟨j, rfl⟩ : ∃ j, k = j + 1 := ⟨k - 1, by omega⟩
  rw [Function.iterate_succ_apply']
  exact hI _

/-- **C113, L-BFGS-B without line search**: whatever the format, the function, the direction and the starting point, the returned parameters satisfy the
bounds exactly (or are NaN). -/
theorem C113_lbfgsb_fixed_step (A : Lbfgsb K ι S) (hb : ∀ i, A.lower i ≤ A.upper i) (hls : A.useLinesearch = false) (hm : 1 ≤ A.maxiter)
    {x0 : ι → Ext K} {r : (ι → Ext K) × S} (h : A.run x0 = .ok r) (i : ι) : Within (A.lower i) (A.upper i) (r.1 i) := by
  refine run_inv hm h (fun x => Within (A.lower i) (A.upper i) (x i)) fun p => ?_
  simp only [Lbfgsb.update, Lbfgsb.newParams, hls, Bool.false_eq_true, if_false]
  exact clip_within (hb i) _

/-- **C113, projected gradient on a box.** -/
theorem C113_projected_box (A : Projected K ι S) (lower upper : ι → K) (hb : ∀ i, lower i ≤ upper i) (hp : A.proj = projectionBox lower upper)
    (hm : 1 ≤ A.maxiter) {x0 : ι → Ext K} {r : (ι → Ext K) × S} (h : A.run x0 = .ok r) (i : ι) : Within (lower i) (upper i) (r.1 i) := by
  refine run_inv hm h (fun x => Within (lower i) (upper i) (x i)) fun p => ?_
  simp only [Projected.update, hp]
  exact clip_within (hb i) _

/-- **C113, projected gradient on the non-negative orthant.** -/
theorem C113_projected_non_negative (A : Projected K ι S) (hp : A.proj = projectionNonNegative)
    (hm : 1 ≤ A.maxiter) {x0 : ι → Ext K} {r : (ι → Ext K) × S} (h : A.run x0 = .ok r) (i : ι) : NonNegative (r.1 i) := by
  refine run_inv hm h (fun x => NonNegative (x i)) fun p => ?_
  simp only [Projected.update, hp]
  exact relu_nonneg _

/-- After a sweep every coordinate has been clipped. -/
theorem sweep_within {n : ℕ} (A : BoxCD K n) (hb : ∀ i, A.lower i ≤ A.upper i) (l : List (Fin n)) :
    ∀ (t : (Fin n → Ext K) × Ext K) (i : Fin n), i ∈ l ∨ Within (A.lower i) (A.upper i) (t.1 i) →
      Within (A.lower i) (A.upper i) ((l.foldl (fun s i => A.body i s) t).1 i) := by
  induction l with
  | nil =>
    intro t i h
    rcases h with h | h
    · cases h
    · exact h
  | cons j l ih =>
    intro t i h
    rw [List.foldl_cons]
    refine ih _ i ?_
    by_cases e : i = j
    · right
      subst e
      simp only [BoxCD.body, Function.update_self]
      exact clip_within (hb i) _
    · rcases h with h | h
      · rcases List.mem_cons.mp h with h | h
        · exact absurd h e
        · exact .inl h
      · right
        simp only [BoxCD.body, Function.update_of_ne e]
        exact h

/-- **C113, box coordinate descent.** -/
theorem C113_box_cd {n : ℕ} (A : BoxCD K n) (hb : ∀ i, A.lower i ≤ A.upper i) (hm : 1 ≤ A.maxiter) {x0 : Fin n → Ext K}
    {r : (Fin n → Ext K) × (ℕ × Ext K)} (h : A.run x0 = .ok r) (i : Fin n) : Within (A.lower i) (A.upper i) (r.1 i) := by
  refine run_inv hm h (fun x => Within (A.lower i) (A.upper i) (x i)) fun p => ?_
  exact sweep_within A hb _ _ i (.inl (List.mem_finRange i))

/-! ### L-BFGS-B with its default line search -/

/-- The three roundings of a step. -/
theorem move_eq (A : Lbfgsb K ι S) (x : ι → Ext K) (st : S) (i : ι) {xi zi d p : K} (hx : x i = .fin xi) (hz : A.target x st i = .fin zi)
    (hd : A.fmt.round (zi - xi) = .fin d) (hp : A.fmt.round (A.step x st * d) = .fin p) : A.move x st i = A.fmt.round (xi + p) := by
  have e1 : A.direction x st i = .fin d := by
    unfold Lbfgsb.direction
    rw [hx, hz]
    change A.fmt.round (zi + -xi) = .fin d
    rw [← sub_eq_add_neg]; exact hd
  unfold Lbfgsb.move
  rw [e1, hx]
  change A.fmt.rnd (Ext.add (.fin xi) (A.fmt.round (A.step x st * d))) = _
  rw [hp]
  rfl

/-- **C113, L-BFGS-B, exact differences**: when the difference to the target is exact and the target and the point are in the box, a step in `[0, 1]` stays
in the box in every format that contains the bounds. -/
theorem C113_lbfgsb_exact (A : Lbfgsb K ι S) (x : ι → Ext K) (st : S) (i : ι) {xi zi : K} (hx : x i = .fin xi) (hz : A.target x st i = .fin zi)
    (hl : A.fmt.mem (A.lower i)) (hu : A.fmt.mem (A.upper i)) (h0 : A.fmt.mem 0) (hxl : A.lower i ≤ xi) (hxu : xi ≤ A.upper i)
    (hzl : A.lower i ≤ zi) (hzu : zi ≤ A.upper i) (hd : A.fmt.mem (zi - xi)) (hs0 : 0 ≤ A.step x st) (hs1 : A.step x st ≤ 1) :
    ∃ y, A.newParams x st i = .fin y ∧ A.fmt.mem y ∧ A.lower i ≤ y ∧ y ≤ A.upper i := by
  -- the rounded product lies between 0 and the difference
  obtain ⟨p, hp, hp1⟩ : ∃ p, A.fmt.round (A.step x st * (zi - xi)) = .fin p ∧ (0 ≤ p ∧ p ≤ zi - xi ∨ zi - xi ≤ p ∧ p ≤ 0) := by
    rcases le_total 0 (zi - xi) with h | h
    · obtain ⟨p, a, -, b, c⟩ := A.fmt.round_between h0 hd (mul_nonneg hs0 h) (mul_le_of_le_one_left h hs1)
      exact ⟨p, a, .inl ⟨b, c⟩⟩
    · have h2 : zi - xi ≤ A.step x st * (zi - xi) := by nlinarith
      obtain ⟨p, a, -, b, c⟩ := A.fmt.round_between hd h0 h2 (mul_nonpos_of_nonneg_of_nonpos hs0 h)
      exact ⟨p, a, .inr ⟨b, c⟩⟩
  have hmove := move_eq A x st i hx hz (A.fmt.exact hd) hp
  have hlo : A.lower i ≤ xi + p := by rcases hp1 with h | h <;> linarith [h.1]
  have hup : xi + p ≤ A.upper i := by rcases hp1 with h | h <;> linarith [h.2]
  obtain ⟨y, a, b, c, d⟩ := A.fmt.round_between hl hu hlo hup
  rw [a] at hmove
  unfold Lbfgsb.newParams
  rw [hmove]
  cases A.useLinesearch
  · refine ⟨y, ?_, b, c, d⟩
    simp [clip, Ext.max, Ext.min, c, d]
  · exact ⟨y, rfl, b, c, d⟩

/-- **C113, L-BFGS-B, how far outside**: with relative rounding errors of at most `ε` a step in `[0, 1]` towards a target in the box ends at most
`(2ε + ε²)·(upper - lower)`, plus one rounding error of the result, outside. -/
theorem C113_lbfgsb_bound (A : Lbfgsb K ι S) {ε : K} (hε : 0 ≤ ε) (hround : ∀ v, ∃ w, A.fmt.round v = .fin w ∧ |w - v| ≤ ε * |v|)
    (x : ι → Ext K) (st : S) (i : ι) {xi zi : K} (hx : x i = .fin xi) (hz : A.target x st i = .fin zi) (hxl : A.lower i ≤ xi) (hxu : xi ≤ A.upper i)
    (hzl : A.lower i ≤ zi) (hzu : zi ≤ A.upper i) (hs0 : 0 ≤ A.step x st) (hs1 : A.step x st ≤ 1) {M : K} (hM1 : |A.lower i| ≤ M) (hM2 : |A.upper i| ≤ M) :
    ∃ y, A.newParams x st i = .fin y ∧
      A.lower i - ((2 * ε + ε ^ 2) * (A.upper i - A.lower i) + ε * (M + (2 * ε + ε ^ 2) * (A.upper i - A.lower i))) ≤ y ∧
      y ≤ A.upper i + ((2 * ε + ε ^ 2) * (A.upper i - A.lower i) + ε * (M + (2 * ε + ε ^ 2) * (A.upper i - A.lower i))) := by
  obtain ⟨d, hd, ed⟩ := hround (zi - xi)
  obtain ⟨p, hp, ep⟩ := hround (A.step x st * d)
  obtain ⟨y, hy, ey⟩ := hround (xi + p)
  have hmove := move_eq A x st i hx hz hd hp
  rw [hy] at hmove
  set s := A.step x st
  set D := A.upper i - A.lower i with hD
  set l := A.lower i
  set u := A.upper i
  have hD0 : 0 ≤ D := by linarith
  have hzx : |zi - xi| ≤ D := by rw [abs_le]; constructor <;> linarith
  have hdabs : |d| ≤ (1 + ε) * D := by
    have : |d| ≤ |d - (zi - xi)| + |zi - xi| := by simpa using abs_add_le (d - (zi - xi)) (zi - xi)
    nlinarith
  have hpe : |p - s * (zi - xi)| ≤ (2 * ε + ε ^ 2) * D := by
    have h1 : |p - s * (zi - xi)| ≤ |p - s * d| + |s * d - s * (zi - xi)| := by
      have := abs_add_le (p - s * d) (s * d - s * (zi - xi))
      rwa [sub_add_sub_cancel] at this
    have h2 : |s * d - s * (zi - xi)| ≤ ε * D := by
      rw [← mul_sub, abs_mul, abs_of_nonneg hs0]
      calc s * |d - (zi - xi)| ≤ 1 * |d - (zi - xi)| := mul_le_mul_of_nonneg_right hs1 (abs_nonneg _)
        _ ≤ ε * |zi - xi| := by rw [one_mul]; exact ed
        _ ≤ ε * D := mul_le_mul_of_nonneg_left hzx hε
    have h3 : |p - s * d| ≤ ε * ((1 + ε) * D) := by
      refine ep.trans (mul_le_mul_of_nonneg_left ?_ hε)
      rw [abs_mul, abs_of_nonneg hs0]
      calc s * |d| ≤ 1 * |d| := mul_le_mul_of_nonneg_right hs1 (abs_nonneg _)
        _ ≤ _ := by rw [one_mul]; exact hdabs
    nlinarith
  set δ := (2 * ε + ε ^ 2) * D with hδ
  have hin1 : l ≤ xi + s * (zi - xi) := by nlinarith
  have hin2 : xi + s * (zi - xi) ≤ u := by nlinarith
  rw [abs_le] at hpe hM1 hM2
  have hxp : |xi + p| ≤ M + δ := by rw [abs_le]; constructor <;> linarith [hpe.1, hpe.2, hM1.1, hM2.2]
  have hey : |y - (xi + p)| ≤ ε * (M + δ) := ey.trans (mul_le_mul_of_nonneg_left hxp hε)
  rw [abs_le] at hey
  have hy1 : l - (δ + ε * (M + δ)) ≤ y := by linarith [hey.1, hpe.1]
  have hy2 : y ≤ u + (δ + ε * (M + δ)) := by linarith [hey.2, hpe.2]
  unfold Lbfgsb.newParams
  rw [hmove]
  cases A.useLinesearch
  · have hpos : 0 ≤ δ + ε * (M + δ) := by
      have h1 : 0 ≤ δ := mul_nonneg (by positivity) hD0
      have h2 : 0 ≤ M := (abs_nonneg u).trans (abs_le.mpr hM2)
      positivity
    refine ⟨min (max y l) u, rfl, le_min ?_ ?_, ?_⟩
    · exact le_max_of_le_right (by linarith)
    · linarith
    · exact (min_le_right _ _).trans (by linarith)
  · exact ⟨y, rfl, hy1, hy2⟩

/-- **C113, L-BFGS-B, when it overshoots**: a full step to the upper bound ends above it as soon as the difference is rounded up and the sum is a number of
the format. -/
theorem C113_lbfgsb_overshoot (A : Lbfgsb K ι S) (hls : A.useLinesearch = true) (x : ι → Ext K) (st : S) (i : ι) {xi d : K} (hx : x i = .fin xi)
    (hz : A.target x st i = .fin (A.upper i)) (hs : A.step x st = 1) (hd : A.fmt.round (A.upper i - xi) = .fin d) (hup : A.upper i - xi < d)
    (hsum : A.fmt.mem (xi + d)) : A.newParams x st i = .fin (xi + d) ∧ A.upper i < xi + d := by
  have hp : A.fmt.round (A.step x st * d) = .fin d := by rw [hs, one_mul]; exact A.fmt.exact (A.fmt.mem_round hd)
  refine ⟨?_, by linarith⟩
  unfold Lbfgsb.newParams
  rw [hls, if_pos rfl, move_eq A x st i hx hz hd hp, A.fmt.exact hsum]

/-! ### Binary64 -/

/-- The double nearest to `0.1`. -/
def tenthDouble : ℚ := 3602879701896397 / 2 ^ 55

/-- One variable in `[-4, 0.1]`, binary64; the Cauchy point of a steeply decreasing objective is the upper bound (lbfgsb.py lines 119, 174) and the full step is taken. -/
def toUpper (ls : Bool) : Lbfgsb ℚ Unit Unit :=
  ⟨binary 52, fun _ => -4, fun _ => tenthDouble, fun _ _ _ => .fin tenthDouble, fun _ _ => 1, ls, fun _ _ _ => (), fun _ => false, fun _ => (), 50, true, true⟩

theorem tenth_mem : (binary 52).mem tenthDouble := ⟨3602879701896397, -55, by norm_num, by norm_num [tenthDouble]⟩

/-- The difference `0.1 - (-3)` is rounded up, to the double `3.1`. -/
theorem difference_rounds_up : (binary 52).round (tenthDouble - (-3)) = .fin (6980579422424269 / 2 ^ 51) := by
  have hlog : Int.log 2 |tenthDouble - (-3)| = 1 := by
    have hpos : (0 : ℚ) < tenthDouble - (-3) := by norm_num [tenthDouble]
    rw [abs_of_pos hpos]
    have h1 : (1 : ℤ) ≤ Int.log 2 (tenthDouble - (-3)) := by
      rw [← Int.zpow_le_iff_le_log one_lt_two hpos]
      norm_num [tenthDouble]
    have h2 : Int.log 2 (tenthDouble - (-3)) < 2 := by
      rw [← Int.lt_zpow_iff_log_lt one_lt_two hpos]
      norm_num [tenthDouble]
    omega
  have hexp : lastExp 52 (tenthDouble - (-3)) = -51 := by unfold lastExp; rw [hlog]; norm_num
  have hscaled : (tenthDouble - (-3)) / 2 ^ (-51 : ℤ) = 6980579422424268 + 13 / 16 := by norm_num [tenthDouble]
  have hfloor : ⌊(6980579422424268 + 13 / 16 : ℚ)⌋ = 6980579422424268 := by rw [Int.floor_eq_iff]; norm_num
  have hr : roundEven (6980579422424268 + 13 / 16) = 6980579422424269 := by
    unfold roundEven
    rw [hfloor, if_neg (by norm_num), if_pos (by norm_num)]
    norm_num
  change Ext.fin (roundBin 52 (tenthDouble - (-3))) = _
  unfold roundBin
  rw [hexp, hscaled, hr]
  norm_num

/-- **C113 fails for the default line search**: in binary64, from `-3` with the bounds `[-4, 0.1]`, all of them doubles, the run returns
`0.10000000000000009`, above the upper bound. -/
theorem C113_lbfgsb_linesearch_false :
    (binary 52).mem (-3) ∧ (binary 52).mem (-4) ∧ (binary 52).mem tenthDouble ∧
    ∃ r y, (toUpper true).run (fun _ => .fin (-3)) = .ok r ∧ r.1 () = .fin y ∧ tenthDouble < y ∧ y - tenthDouble = 3 / 2 ^ 55 := by
  refine ⟨⟨-3, 0, by norm_num, by norm_num⟩, ⟨-1, 2, by norm_num, by norm_num⟩, tenth_mem, ?_⟩
  obtain ⟨r, hr⟩ := runS_ok (toUpper true).init (toUpper true).update (fun p => (toUpper true).cont p.2) (maxiter := 50) (unroll := true) (jit := true)
    (fun _ => .fin (-3)) (by norm_num) (.inl rfl)
  have e : r = (toUpper true).update^[1] (fun _ => .fin (-3), ()) := runS_eq hr (k := 1) le_rfl (by norm_num) (fun j a b => by omega) (.inr rfl)
  have hsum : (binary 52).mem (-3 + 6980579422424269 / 2 ^ 51) := ⟨225179981368525, -51, by norm_num, by norm_num⟩
  obtain ⟨h1, h2⟩ := C113_lbfgsb_overshoot (toUpper true) rfl (fun _ => .fin (-3)) () () rfl rfl rfl difference_rounds_up
    (by norm_num [toUpper, tenthDouble]) hsum
  refine ⟨r, _, hr, ?_, h2, by norm_num [tenthDouble]⟩
  rw [e]
  exact h1

/-! ### Examples -/

/-- The same run without line search returns the bound. -/
example : ∃ r, (toUpper false).run (fun _ => .fin (-3)) = .ok r ∧ Within (-4) tenthDouble (r.1 ()) := by
  obtain ⟨r, hr⟩ := runS_ok (toUpper false).init (toUpper false).update (fun p => (toUpper false).cont p.2) (maxiter := 50) (unroll := true) (jit := true)
    (fun _ => .fin (-3)) (by norm_num) (.inl rfl)
  exact ⟨r, hr, C113_lbfgsb_fixed_step (toUpper false) (fun _ => by norm_num [toUpper, tenthDouble]) rfl (by norm_num [toUpper]) hr ()⟩

/-- The bound of the error in binary64 applies to it. -/
example : ∃ y, (toUpper true).newParams (fun _ => .fin (-3)) () () = .fin y ∧ y ≤ tenthDouble + 1 / 10 ^ 14 := by
  have hround : ∀ v : ℚ, ∃ w, (binary 52).round v = .fin w ∧ |w - v| ≤ 1 / 2 ^ 53 * |v| :=
    fun v => ⟨_, rfl, (roundBin_error 52 v).trans (le_of_eq (by ring))⟩
  obtain ⟨y, h1, -, h2⟩ := C113_lbfgsb_bound (toUpper true) (by norm_num) hround (fun _ => .fin (-3)) () () rfl rfl
    (by norm_num [toUpper]) (by norm_num [toUpper, tenthDouble]) (by norm_num [toUpper, tenthDouble]) (by norm_num [toUpper])
    (by norm_num [toUpper]) (by norm_num [toUpper]) (M := 4) (by norm_num [toUpper]) (by norm_num [toUpper, tenthDouble])
  refine ⟨y, h1, h2.trans ?_⟩
  norm_num [toUpper, tenthDouble]

end Jaxopt.Bounds
