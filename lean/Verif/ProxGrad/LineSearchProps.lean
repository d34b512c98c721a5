import Verif.ProxGrad.RateProps

/-!
# Property C98 (first part): rates of the proximal gradient methods with the default backtracking line search
-/

set_option autoImplicit false
set_option linter.unusedSectionVars false
set_option linter.unusedVariables false

namespace Jaxopt.ProxGrad

open Jaxopt.Base Jaxopt.Loop
open Jaxopt.QuasiNewton (Stepsize)

variable {K E : Type*} [Field K] [LinearOrder K] [IsStrictOrderedRing K] [AddCommGroup E] [Module K E]

namespace PG

/-! ### What a line search does -/

/-- The point at which an update evaluates the gradient: the velocity with acceleration, the parameters without. -/
def point (S : PG K E) (p : E × PGState K E) : E := if S.acceleration then p.2.velocity else p.1

/-- The result of the line search in an update: the new parameters and the accepted step. -/
def search (S : PG K E) (p : E × PGState K E) : E × K :=
  S.fistaLineSearch (S.point p) (S.f (S.point p)) (S.grad (S.point p)) p.2.stepsize

/-- The sufficient decrease condition holds at the end of the line search (it was not cut off by `maxls`). -/
def Succeeded (S : PG K E) (p : E × PGState K E) : Prop :=
  let y := S.point p
  let r := S.search p
  r.2 * (S.f r.1 - S.f y) ≤ r.2 * S.vdot (r.1 - y) (S.grad y) + 1 / 2 * S.vdot (r.1 - y) (r.1 - y) + S.eps

theorem succeeded_iff (S : PG K E) (p : E × PGState K E) :
    S.Succeeded p ↔ S.lsCond (S.point p) (S.f (S.point p)) (S.grad (S.point p)) (S.search p) = false :=
  (lsCond_false_iff _ _ _ _ _).symm

theorem update_search (S : PG K E) {a : K} (hstep : S.stepsize = .const a) (ha : a ≤ 0) (p : E × PGState K E) :
    (S.update p).1 = (S.search p).1 ∧
      (S.update p).2.stepsize = if (S.search p).2 ≤ 1 / 1000000 then 1 else (S.search p).2 / S.decreaseFactor := by
  cases hacc : S.acceleration
  · simp only [update, hacc, Bool.false_eq_true, if_false, updatePlain, iter, hstep, if_pos ha, search, point]
    exact ⟨trivial, trivial⟩
  · simp only [update, hacc, if_true, updateAccel, iter, hstep, if_pos ha, search, point]
    exact ⟨trivial, trivial⟩

/-- The search ends at the `n`-th power of the decrease factor if the powers before are rejected and that one is accepted or is the
last one allowed. -/
theorem search_eq (S : PG K E) (p : E × PGState K E) (n : ℕ) (hn : n ≤ S.maxls)
    (hrej : ∀ i < n, S.lsCond (S.point p) (S.f (S.point p)) (S.grad (S.point p))
      (S.proxGrad (S.point p) (S.grad (S.point p)) (p.2.stepsize * S.decreaseFactor ^ i), p.2.stepsize * S.decreaseFactor ^ i) = true)
    (hacc : n = S.maxls ∨ S.lsCond (S.point p) (S.f (S.point p)) (S.grad (S.point p))
      (S.proxGrad (S.point p) (S.grad (S.point p)) (p.2.stepsize * S.decreaseFactor ^ n), p.2.stepsize * S.decreaseFactor ^ n) = false) :
    S.search p = (S.proxGrad (S.point p) (S.grad (S.point p)) (p.2.stepsize * S.decreaseFactor ^ n), p.2.stepsize * S.decreaseFactor ^ n) := by
  have h1 := python_spec (S.lsCond (S.point p) (S.f (S.point p)) (S.grad (S.point p))) (S.lsBody (S.point p) (S.grad (S.point p))) S.maxls
    (S.proxGrad (S.point p) (S.grad (S.point p)) p.2.stepsize, p.2.stepsize)
  have h2 : LoopSpec (S.lsCond (S.point p) (S.f (S.point p)) (S.grad (S.point p))) (S.lsBody (S.point p) (S.grad (S.point p))) S.maxls
      (S.proxGrad (S.point p) (S.grad (S.point p)) p.2.stepsize, p.2.stepsize)
      (S.proxGrad (S.point p) (S.grad (S.point p)) (p.2.stepsize * S.decreaseFactor ^ n), p.2.stepsize * S.decreaseFactor ^ n) := by
    refine ⟨n, hn, (lsBody_iterate _ _ _ _ _).symm, ?_, ?_⟩
    · intro i hi; rw [lsBody_iterate]; exact hrej i hi
    · rw [lsBody_iterate]; exact hacc
  exact h1.unique h2

/-- The accepted step and the point it leads to. -/
theorem search_spec (S : PG K E) (p : E × PGState K E) :
    ∃ j ≤ S.maxls, (S.search p).2 = p.2.stepsize * S.decreaseFactor ^ j ∧
      (S.search p).1 = S.prox (S.point p + (-(S.search p).2) • S.grad (S.point p)) (S.search p).2 ∧
      (j = S.maxls ∨ S.Succeeded p) ∧
      ∀ i < j, S.lsCond (S.point p) (S.f (S.point p)) (S.grad (S.point p))
        (S.proxGrad (S.point p) (S.grad (S.point p)) (p.2.stepsize * S.decreaseFactor ^ i), p.2.stepsize * S.decreaseFactor ^ i) = true := by
  obtain ⟨k, hk, hr, hb, hend⟩ := python_spec (S.lsCond (S.point p) (S.f (S.point p)) (S.grad (S.point p)))
    (S.lsBody (S.point p) (S.grad (S.point p))) S.maxls (S.proxGrad (S.point p) (S.grad (S.point p)) p.2.stepsize, p.2.stepsize)
  rw [lsBody_iterate] at hr hend
  have hr : S.search p = _ := hr
  refine ⟨k, hk, by rw [hr], ?_, ?_, ?_⟩
  · rw [hr]; rfl
  · rw [succeeded_iff, hr]; exact hend
  · intro i hi
    have := hb i hi
    rwa [lsBody_iterate] at this

/-- A rejected step is longer than `1/L`. -/
theorem rejected_long (S : PG K E) (hv : IsVdot S.vdot) {L : K} (hq : QuadUpper S.vdot S.f S.grad L) (he : 0 ≤ S.eps) {y z : E} {s : K}
    (hs : 0 < s) (h : S.lsCond y (S.f y) (S.grad y) (z, s) = true) : 1 < s * L := by
  by_contra hc
  have hsL := not_lt.mp hc
  have : S.lsCond y (S.f y) (S.grad y) (z, s) = false := by
    rw [lsCond_false_iff]
    have h1 := mul_le_mul_of_nonneg_left (hq y z) hs.le
    have n := hv.nonneg (z - y)
    simp only
    nlinarith [mul_nonneg (sub_nonneg.mpr hsL) n]
  rw [this] at h; cases h

section Steps

variable (S : PG K E) {a : K} (hstep : S.stepsize = .const a) (ha : a ≤ 0) (hd : 0 < S.decreaseFactor) (hd1 : S.decreaseFactor ≤ 1)

include hstep ha hd

theorem ls_stepsize_pos (x0 : E) (k : ℕ) : 0 < (S.iterate x0 k).2.stepsize :=
  stepsize_pos S hd (by intro b hb; rw [hstep] at hb; cases hb) x0 k

theorem accepted_pos (x0 : E) (k : ℕ) : 0 < (S.search (S.iterate x0 k)).2 := by
  obtain ⟨j, _, e, _⟩ := S.search_spec (S.iterate x0 k)
  rw [e]
  exact mul_pos (S.ls_stepsize_pos hstep ha hd x0 k) (pow_pos hd j)

include hd1

/-- **C98, no step is needlessly short**: on an `L`-smooth function every step the line search takes is at least `min(1, decrease_factor/L)`,
whether the search succeeded or not. -/
theorem C98_step_lower (hv : IsVdot S.vdot) {L : K} (hq : QuadUpper S.vdot S.f S.grad L) (he : 0 ≤ S.eps) {sg : K} (h1 : sg ≤ 1)
    (h2 : sg * L ≤ S.decreaseFactor) (hL : 0 ≤ L) (x0 : E) (k : ℕ) : sg ≤ (S.search (S.iterate x0 k)).2 := by
  have hsearch : ∀ k, sg ≤ (S.iterate x0 k).2.stepsize → sg ≤ (S.search (S.iterate x0 k)).2 := by
    intro k hk
    obtain ⟨j, _, e, _, _, hrej⟩ := S.search_spec (S.iterate x0 k)
    rw [e]
    rcases Nat.eq_zero_or_pos j with rfl | hj
    · simpa using hk
    · obtain ⟨i, rfl⟩ : ∃ i, j = i + 1 := ⟨j - 1, by omega⟩
      have hpos : 0 < (S.iterate x0 k).2.stepsize * S.decreaseFactor ^ i :=
        mul_pos (S.ls_stepsize_pos hstep ha hd x0 k) (pow_pos hd i)
      have := S.rejected_long hv hq he hpos (hrej i (by omega))
      set s := (S.iterate x0 k).2.stepsize * S.decreaseFactor ^ i with hs
      have e2 : (S.iterate x0 k).2.stepsize * S.decreaseFactor ^ (i + 1) = s * S.decreaseFactor := by rw [hs, pow_succ, mul_assoc]
      rw [e2]
      have hL' : 0 < L := by
        rcases hL.lt_or_eq with h | h
        · exact h
        · rw [← h, mul_zero] at this; exact absurd this (not_lt.mpr zero_le_one)
      have h3 : sg * L ≤ s * S.decreaseFactor * L := by nlinarith
      exact le_of_mul_le_mul_right h3 hL'
  refine hsearch k ?_
  induction k with
  | zero => exact h1
  | succ k ih =>
    rw [iterate_succ, (S.update_search hstep ha _).2]
    split_ifs
    · exact h1
    · have h3 := hsearch k ih
      have h4 := S.accepted_pos hstep ha hd x0 k
      rw [le_div_iff₀ hd]
      nlinarith

/-- Along a run the step the search starts with is at most `decrease_factor^{-k}` in iteration `k`. -/
theorem stepsize_upper (x0 : E) (k : ℕ) : (S.iterate x0 k).2.stepsize * S.decreaseFactor ^ k ≤ 1 := by
  induction k with
  | zero => simp [iterate, initState]
  | succ k ih =>
    rw [iterate_succ, (S.update_search hstep ha _).2]
    split_ifs
    · rw [one_mul]; exact pow_le_one₀ hd.le hd1
    · obtain ⟨j, _, e, _⟩ := S.search_spec (S.iterate x0 k)
      rw [e, pow_succ]
      have : (S.iterate x0 k).2.stepsize * S.decreaseFactor ^ j / S.decreaseFactor * (S.decreaseFactor ^ k * S.decreaseFactor) =
          (S.iterate x0 k).2.stepsize * S.decreaseFactor ^ k * S.decreaseFactor ^ j := by field_simp
      rw [this]
      have h1 : S.decreaseFactor ^ j ≤ 1 := pow_le_one₀ hd.le hd1
      have h2 : 0 ≤ (S.iterate x0 k).2.stepsize * S.decreaseFactor ^ k :=
        mul_nonneg (S.ls_stepsize_pos hstep ha hd x0 k).le (pow_pos hd k).le
      nlinarith

/-- **C98, the first line searches succeed**: on an `L`-smooth function (convex or not, with or without acceleration) the line search of
iteration `k` succeeds if `L·decrease_factor^maxls ≤ decrease_factor^k`; with the defaults, if `L ≤ 2^(15-k)`. -/
theorem C98_succeeds_first (hv : IsVdot S.vdot) {L : K} (hq : QuadUpper S.vdot S.f S.grad L) (he : 0 ≤ S.eps) (x0 : E) (k : ℕ)
    (hk : L * S.decreaseFactor ^ S.maxls ≤ S.decreaseFactor ^ k) : S.Succeeded (S.iterate x0 k) := by
  rw [succeeded_iff]
  have h0 := S.ls_stepsize_pos hstep ha hd x0 k
  have h1 := S.stepsize_upper hstep ha hd hd1 x0 k
  exact (C32_linesearch_succeeds S hv hq he hd (S.point (S.iterate x0 k)) h0 (by nlinarith)).1

end Steps

/-! ### The rates -/

/-- The key inequality of one step whose sufficient decrease condition holds up to `eps`. -/
theorem key_eps {vdot : E → E → K} (hv : IsVdot vdot) {C : Set E} {f h : E → K} {grad : E → E} {prox : E → K → E}
    (hp : IsProx vdot C h prox) (hh : ConvexOn K C h) {mu eps : K}
    (hc : ∀ x y, f x + vdot (y - x) (grad x) + mu / 2 * vdot (y - x) (y - x) ≤ f y) (y : E) {s : K} (hs : 0 < s) {P : E}
    (hP : P = prox (y + (-s) • grad y) s)
    (hdec : s * (f P - f y) ≤ s * vdot (P - y) (grad y) + 1 / 2 * vdot (P - y) (P - y) + eps) {u : E} (hu : u ∈ C) :
    s * (f P + h P - (f u + h u)) ≤ 1 / 2 * ((1 - s * mu) * vdot (y - u) (y - u) - vdot (P - u) (P - u)) + eps := by
  have h2 := mul_le_mul_of_nonneg_left (hc y u) hs.le
  have h3 := prox_vi hv hp hh (y + (-s) • grad y) hs hu
  rw [← hP] at h3
  have e1 : P - (y + (-s) • grad y) = (P - y) + s • grad y := by rw [neg_smul]; abel
  have e2 : u - P = -(P - u) := by abel
  have e3 : u - y = (P - y) - (P - u) := by abel
  have e4 : y - u = (P - u) - (P - y) := by abel
  rw [e1, e2] at h3
  rw [e3] at h2
  rw [e4]
  set A := P - y
  set D := P - u
  simp only [hv.add_left, hv.smul_left, hv.neg_right, hv.sub_left, hv.sub_right] at h2 h3 ⊢
  simp only [hv.symm (grad y), hv.symm D A] at h2 h3 hdec ⊢
  nlinarith

section Plain

variable (S : PG K E) (hv : IsVdot S.vdot) {C : Set E} {h : E → K} (hp : IsProx S.vdot C h S.prox) (hh : ConvexOn K C h)
  {a : K} (hstep : S.stepsize = .const a) (ha : a ≤ 0) (hd : 0 < S.decreaseFactor)

include hv hp hh hstep ha hd

/-- **C98, rate without acceleration**: for convex `f` and `h`, after `k` iterations whose line searches succeeded with steps at least `σ`,
`F(x_k) - F(u) ≤ ‖x0 - u‖²/(2σk) + k·eps/σ` for every point `u` of the domain (`eps` the machine epsilon in the line search). -/
theorem C98_plain_rate (hc : GradIneq S.vdot S.f S.grad) (hacc : S.acceleration = false) (he : 0 ≤ S.eps) (x0 : E) {sg : K} (hsg : 0 < sg) {k : ℕ}
    (hk : 1 ≤ k) (hok : ∀ i < k, S.Succeeded (S.iterate x0 i)) (hlow : ∀ i < k, sg ≤ (S.search (S.iterate x0 i)).2) {u : E} (hu : u ∈ C) :
    S.f (S.iterate x0 k).1 + h (S.iterate x0 k).1 - (S.f u + h u) ≤ S.vdot (x0 - u) (x0 - u) / (2 * sg * k) + k * S.eps / sg := by
  set X := fun i => (S.iterate x0 i).1 with hX
  set s := fun i => (S.search (S.iterate x0 i)).2 with hs
  have hs0 : ∀ i, 0 < s i := fun i => S.accepted_pos hstep ha hd x0 i
  have hpt : ∀ i, S.point (S.iterate x0 i) = X i := fun i => by simp only [point, hacc, Bool.false_eq_true, if_false, hX]
  have hXs : ∀ i, X (i + 1) = (S.search (S.iterate x0 i)).1 := fun i => by
    simp only [hX, iterate_succ]; exact (S.update_search hstep ha _).1
  have hstepX : ∀ i, X (i + 1) = S.prox (X i + (-s i) • S.grad (X i)) (s i) := by
    intro i
    obtain ⟨_, _, _, e, _⟩ := S.search_spec (S.iterate x0 i)
    rw [hpt] at e
    rw [hXs, e]
  have hdec : ∀ i < k, s i * (S.f (X (i + 1)) - S.f (X i)) ≤
      s i * S.vdot (X (i + 1) - X i) (S.grad (X i)) + 1 / 2 * S.vdot (X (i + 1) - X i) (X (i + 1) - X i) + S.eps := by
    intro i hi
    have h1 := hok i hi
    simp only [Succeeded, hpt] at h1
    rw [← hXs] at h1
    exact h1
  have hkey : ∀ i < k, ∀ u ∈ C, s i * (S.f (X (i + 1)) + h (X (i + 1)) - (S.f u + h u)) ≤
      1 / 2 * ((1 - s i * 0) * S.vdot (X i - u) (X i - u) - S.vdot (X (i + 1) - u) (X (i + 1) - u)) + S.eps := by
    intro i hi u hu
    exact key_eps hv hp hh (mu := 0) (fun x y => by have := hc x y; linarith [zero_mul (S.vdot (y - x) (y - x)), zero_div (2 : K)])
      (X i) (hs0 i) (hstepX i) (hdec i hi) hu
  have hmem : ∀ i, X (i + 1) ∈ C := fun i => by rw [hstepX]; exact (hp _ _ (hs0 i)).1
  set F := fun i => S.f (X i) + h (X i) - (S.f u + h u) with hF
  have hmono : ∀ i, i + 1 < k → F (i + 2) ≤ F (i + 1) + S.eps / sg := by
    intro i hi
    have h1 := hkey (i + 1) hi (X (i + 1)) (hmem i)
    rw [sub_self] at h1
    have h0 : S.vdot (0 : E) 0 = 0 := hv.zero_left 0
    rw [h0] at h1
    have n := hv.nonneg (X (i + 1 + 1) - X (i + 1))
    have h2 : s (i + 1) * (F (i + 2) - F (i + 1)) ≤ S.eps := by simp only [hF]; linarith
    have h3 : F (i + 2) - F (i + 1) ≤ S.eps / sg := by
      rw [le_div_iff₀ hsg]
      rcases le_or_gt (F (i + 2) - F (i + 1)) 0 with h | h
      · nlinarith
      · have := hlow (i + 1) hi
        nlinarith
    linarith
  -- the last iterate is nearly the best
  have hlast : ∀ j, ∀ i, i + j + 1 = k → F k - j * (S.eps / sg) ≤ F (i + 1) := by
    intro j
    induction j with
    | zero => intro i hi; rw [← hi]; simp
    | succ j ih =>
      intro i hi
      have h1 := ih (i + 1) (by omega)
      have h2 := hmono i (by omega)
      push_cast
      linarith
  set W := F k - k * (S.eps / sg) + S.eps / sg with hW
  have heps : 0 ≤ S.eps / sg := div_nonneg he hsg.le
  have hWle : ∀ i < k, W ≤ F (i + 1) := by
    intro i hi
    have h1 := hlast (k - 1 - i) i (by omega)
    have h2 : ((k - 1 - i : ℕ) : K) ≤ (k : K) - 1 := by
      have : ((k - 1 - i : ℕ) : K) ≤ ((k - 1 : ℕ) : K) := by exact_mod_cast Nat.sub_le _ _
      have e : ((k - 1 : ℕ) : K) = k - 1 := by rw [Nat.cast_sub hk, Nat.cast_one]
      linarith
    have h3 := mul_le_mul_of_nonneg_right h2 heps
    simp only [hW]
    linarith
  have hkpos : (0 : K) < k := by exact_mod_cast hk
  have hR := hv.nonneg (x0 - u)
  have hgoal : F k = W + k * (S.eps / sg) - S.eps / sg := by simp only [hW]; ring
  have e1 : (k : K) * S.eps / sg = k * (S.eps / sg) := by ring
  rw [e1]
  change F k ≤ _
  rcases le_or_gt W 0 with hW0 | hW0
  · have : 0 ≤ S.vdot (x0 - u) (x0 - u) / (2 * sg * k) := by positivity
    linarith
  · have hsum : ∀ i ≤ k, 2 * sg * i * W + S.vdot (X i - u) (X i - u) ≤ S.vdot (x0 - u) (x0 - u) + 2 * i * S.eps := by
      intro i
      induction i with
      | zero => intro _; simp [hX, iterate]
      | succ i ih =>
        intro hi
        have h1 := hkey i (by omega) u hu
        have h2 := ih (by omega)
        have h3 := hWle i (by omega)
        have h4 := hlow i (by omega)
        have h5 : sg * W ≤ s i * F (i + 1) := by
          have := mul_le_mul h4 h3 hW0.le (hs0 i).le
          exact this
        simp only [hF] at h5
        push_cast
        nlinarith
    have h1 := hsum k le_rfl
    have n := hv.nonneg (X k - u)
    have h2 : W ≤ S.vdot (x0 - u) (x0 - u) / (2 * sg * k) + S.eps / sg := by
      have e : S.vdot (x0 - u) (x0 - u) / (2 * sg * k) + S.eps / sg = (S.vdot (x0 - u) (x0 - u) + 2 * k * S.eps) / (2 * sg * k) := by
        field_simp
      rw [e, le_div_iff₀ (by positivity)]
      linarith
    linarith

/-- **C98, linear rate without acceleration**: for `μ`-strongly convex and `L`-smooth `f`, with exact function values (`eps = 0`) and
condition number `L/μ ≤ decrease_factor^{1-maxls}` (and `L ≤ decrease_factor^{-maxls}`; with the defaults `L/μ ≤ 2^14` and `L ≤ 2^15`), every
line search of every run succeeds and the squared distance to the minimiser contracts by `1 - σμ`, `σ = min(1, decrease_factor/L)`. -/
theorem C98_linear {L mu : K} (hq : QuadUpper S.vdot S.f S.grad L)
    (hc : ∀ x y, S.f x + S.vdot (y - x) (S.grad x) + mu / 2 * S.vdot (y - x) (y - x) ≤ S.f y) (hmu : 0 < mu) (hL : 0 ≤ L)
    (hacc : S.acceleration = false) (he : S.eps = 0) (hd1 : S.decreaseFactor ≤ 1) (h1 : L * S.decreaseFactor ^ S.maxls ≤ 1)
    (h2 : L * S.decreaseFactor ^ S.maxls ≤ S.decreaseFactor * mu) {sg : K} (hsg1 : sg ≤ 1) (hsgL : sg * L ≤ S.decreaseFactor)
    (hsgm : sg * mu ≤ 1) (x0 : E) {u : E} (hu : u ∈ C) (hmin : ∀ y ∈ C, S.f u + h u ≤ S.f y + h y) (k : ℕ) :
    S.Succeeded (S.iterate x0 k) ∧
      S.vdot ((S.iterate x0 k).1 - u) ((S.iterate x0 k).1 - u) ≤ (1 - sg * mu) ^ k * S.vdot (x0 - u) (x0 - u) := by
  have hpt : ∀ i, S.point (S.iterate x0 i) = (S.iterate x0 i).1 := fun i => by
    simp only [point, hacc, Bool.false_eq_true, if_false]
  have hs0 : ∀ i, 0 < (S.search (S.iterate x0 i)).2 := fun i => S.accepted_pos hstep ha hd x0 i
  -- the search starts with a step that its budget can shorten enough, or it starts at a fixed point
  have hinv : ∀ i, S.Succeeded (S.iterate x0 i) ∧ ((S.iterate x0 i).2.stepsize * S.decreaseFactor ^ S.maxls * L ≤ 1 ∨
      ∀ s, 0 < s → S.prox ((S.iterate x0 i).1 + (-s) • S.grad (S.iterate x0 i).1) s = (S.iterate x0 i).1) := by
    have hsucc : ∀ i, ((S.iterate x0 i).2.stepsize * S.decreaseFactor ^ S.maxls * L ≤ 1 ∨
        ∀ s, 0 < s → S.prox ((S.iterate x0 i).1 + (-s) • S.grad (S.iterate x0 i).1) s = (S.iterate x0 i).1) →
        S.Succeeded (S.iterate x0 i) := by
      intro i hi
      rcases hi with hi | hi
      · rw [succeeded_iff]
        exact (C32_linesearch_succeeds S hv hq he.ge hd (S.point (S.iterate x0 i)) (S.ls_stepsize_pos hstep ha hd x0 i) hi).1
      · obtain ⟨_, _, _, e, _⟩ := S.search_spec (S.iterate x0 i)
        rw [hpt, hi _ (hs0 i)] at e
        simp only [Succeeded, hpt, e, sub_self, hv.zero_left, he, mul_zero, add_zero, le_refl]
    intro i
    induction i with
    | zero =>
      have : (S.iterate x0 0).2.stepsize = 1 := rfl
      have h : (S.iterate x0 0).2.stepsize * S.decreaseFactor ^ S.maxls * L ≤ 1 := by rw [this]; linarith
      exact ⟨hsucc 0 (Or.inl h), Or.inl h⟩
    | succ i ih =>
      suffices h : (S.iterate x0 (i + 1)).2.stepsize * S.decreaseFactor ^ S.maxls * L ≤ 1 ∨
          ∀ s, 0 < s → S.prox ((S.iterate x0 (i + 1)).1 + (-s) • S.grad (S.iterate x0 (i + 1)).1) s = (S.iterate x0 (i + 1)).1 from
        ⟨hsucc _ h, h⟩
      obtain ⟨e1, e2⟩ := S.update_search hstep ha (S.iterate x0 i)
      rw [← iterate_succ] at e1 e2
      obtain ⟨_, _, _, e, _⟩ := S.search_spec (S.iterate x0 i)
      rw [hpt] at e
      by_cases hP : (S.search (S.iterate x0 i)).1 = (S.iterate x0 i).1
      · right
        rw [e1, hP]
        intro s hs
        rw [e] at hP
        exact (fixed_iff hv hp hh _ _ hs).mpr ((fixed_iff hv hp hh _ _ (hs0 i)).mp hP)
      · left
        rw [e2]
        split_ifs
        · linarith
        · -- the accepted step is at most `1/μ`
          have hok := ih.1
          simp only [Succeeded, hpt, he, add_zero] at hok
          set s := (S.search (S.iterate x0 i)).2
          set P := (S.search (S.iterate x0 i)).1
          set y := (S.iterate x0 i).1
          have h3 := mul_le_mul_of_nonneg_left (hc y P) (hs0 i).le
          have h4 := hv.pos (P - y) (sub_ne_zero.mpr hP)
          have h5 : s * mu ≤ 1 := by
            by_contra hcon
            have := not_le.mp hcon
            nlinarith [mul_pos (sub_pos.mpr this) h4]
          have e3 : s / S.decreaseFactor * S.decreaseFactor ^ S.maxls * L = s * (L * S.decreaseFactor ^ S.maxls) / S.decreaseFactor := by ring
          rw [e3, div_le_one hd]
          have h6 := mul_le_mul_of_nonneg_left h2 (hs0 i).le
          nlinarith
  refine ⟨(hinv k).1, ?_⟩
  induction k with
  | zero => simp [iterate]
  | succ k ih =>
    have hok := (hinv k).1
    have hlow := S.C98_step_lower hstep ha hd hd1 hv hq he.ge hsg1 hsgL hL x0 k
    obtain ⟨_, _, _, e, _⟩ := S.search_spec (S.iterate x0 k)
    rw [hpt] at e
    simp only [Succeeded, hpt] at hok
    have hkey := key_eps hv hp hh hc (S.iterate x0 k).1 (hs0 k) e hok hu
    have e1 : (S.iterate x0 (k + 1)).1 = (S.search (S.iterate x0 k)).1 := by
      rw [iterate_succ]; exact (S.update_search hstep ha _).1
    have hPC : (S.search (S.iterate x0 k)).1 ∈ C := by rw [e]; exact (hp _ _ (hs0 k)).1
    rw [e1]
    have h3 := mul_nonneg (hs0 k).le (sub_nonneg.mpr (hmin _ hPC))
    rw [he] at hkey
    have n := hv.nonneg ((S.iterate x0 k).1 - u)
    have h4 : (1 - (S.search (S.iterate x0 k)).2 * mu) * S.vdot ((S.iterate x0 k).1 - u) ((S.iterate x0 k).1 - u) ≤
        (1 - sg * mu) * S.vdot ((S.iterate x0 k).1 - u) ((S.iterate x0 k).1 - u) :=
      mul_le_mul_of_nonneg_right (by nlinarith) n
    have h5 := mul_le_mul_of_nonneg_left ih (sub_nonneg.mpr hsgm)
    have e2 : (1 - sg * mu) ^ (k + 1) * S.vdot (x0 - u) (x0 - u) = (1 - sg * mu) * ((1 - sg * mu) ^ k * S.vdot (x0 - u) (x0 - u)) := by
      rw [pow_succ]; ring
    rw [e2]
    linarith

end Plain

/-- The arithmetic of one step of the potential argument. -/
theorem potential_arith (t k eps FP Fp Fu A B D Z R s : K) (ht : 0 ≤ t) (hk : 0 ≤ k) (he : 0 ≤ eps)
    (i3 : t * (s * FP + (t - 1) * (s * FP)) ≤ t * (s * Fu + 1 / 2 * A - B + eps + (t - 1) * (s * Fp + 1 / 2 * A - D + eps)))
    (h4 : (t * t - t) * (s * (Fp - Fu)) + 1 / 2 * Z ≤ 1 / 2 * R + k * (t * t - t) * eps) :
    t * t * (s * (FP - Fu)) + 1 / 2 * (t * t * A + 2 * t * (B + (t - 1) * D - t * A) + Z) ≤ 1 / 2 * R + (k + 1) * (t * t) * eps := by
  have hke : 0 ≤ k * t * eps := mul_nonneg (mul_nonneg hk ht) he
  linear_combination i3 + h4 + hke

section Accel

variable (S : PG K E) (hv : IsVdot S.vdot) {C : Set E} {h : E → K} (hp : IsProx S.vdot C h S.prox) (hh : ConvexOn K C h)
  {a : K} (hstep : S.stepsize = .const a) (ha : a ≤ 0) (hd : 0 < S.decreaseFactor)

include hv hp hh hstep ha hd

/-- The potential of the accelerated method with line search, while the accepted steps do not increase. -/
theorem accel_potential_ls (hc : GradIneq S.vdot S.f S.grad) (hsq : ∀ a, 0 ≤ a → 0 ≤ S.sqrt a ∧ S.sqrt a * S.sqrt a = a)
    (hacc : S.acceleration = true) (he : 0 ≤ S.eps) (x0 : E) {u : E} (hu : u ∈ C) (hmin : ∀ y ∈ C, S.f u + h u ≤ S.f y + h y) (k : ℕ)
    (hok : ∀ i < k, S.Succeeded (S.iterate x0 i))
    (hdec : ∀ i, i + 1 < k → (S.search (S.iterate x0 (i + 1))).2 ≤ (S.search (S.iterate x0 i)).2) :
    let p := S.iterate x0 k
    let z := p.1 + p.2.t • (p.2.velocity - p.1)
    (1 ≤ k → p.1 ∈ C) ∧ (k = 0 → p.2.t = 1) ∧ 1 + (k : K) / 2 ≤ p.2.t ∧
    (1 ≤ k → ((k : K) + 1) * ((k : K) + 1) / 4 ≤ p.2.t * p.2.t - p.2.t) ∧ ∀ s, (1 ≤ k → s = (S.search (S.iterate x0 (k - 1))).2) →
    (p.2.t * p.2.t - p.2.t) * (s * (S.f p.1 + h p.1 - (S.f u + h u))) + 1 / 2 * S.vdot (z - u) (z - u) ≤
      1 / 2 * S.vdot (x0 - u) (x0 - u) + k * (p.2.t * p.2.t - p.2.t) * S.eps := by
  induction k with
  | zero =>
    simp only [iterate, Function.iterate_zero, id_eq, initState]
    refine ⟨by omega, fun _ => trivial, by simp, by omega, fun s _ => ?_⟩
    simp
  | succ k ih =>
    obtain ⟨h1, h1', h2, h2', h3⟩ := ih (fun i hi => hok i (by omega)) (fun i hi => hdec i (by omega))
    have hokk := hok k (by omega)
    obtain ⟨_, _, _, hPe, _⟩ := S.search_spec (S.iterate x0 k)
    have hs := S.accepted_pos hstep ha hd x0 k
    have hstepk : 1 ≤ k → (S.search (S.iterate x0 k)).2 ≤ (S.search (S.iterate x0 (k - 1))).2 := by
      intro hk
      have := hdec (k - 1) (by omega)
      rwa [Nat.sub_add_cancel hk] at this
    rw [iterate_succ]
    rw [Nat.add_sub_cancel]
    set p := S.iterate x0 k with hpk
    have hk0 : (0 : K) ≤ k := Nat.cast_nonneg k
    have ht0 : 1 ≤ p.2.t := by linarith
    have hpt : S.point p = p.2.velocity := by simp only [point, hacc, if_true]
    simp only [Succeeded, hpt] at hokk
    rw [hpt] at hPe
    have hx' := (S.update_search hstep ha p).1
    have hup : S.update p = S.updateAccel p := by simp only [update, hacc]; rfl
    have hfst : (S.iter p.2.iterNum p.2.velocity (S.f p.2.velocity) (S.grad p.2.velocity) p.2.stepsize).1 = (S.search p).1 := by
      simp only [iter, hstep, if_pos ha, search, hpt]
    have ht' : (S.update p).2.t = 1 / 2 * (1 + S.sqrt (1 + 4 * (p.2.t * p.2.t))) := by rw [hup]; rfl
    have hv' : (S.update p).2.velocity = (S.search p).1 + ((p.2.t - 1) / (1 / 2 * (1 + S.sqrt (1 + 4 * (p.2.t * p.2.t))))) •
        ((S.search p).1 - p.1) := by
      rw [hup]; simp only [updateAccel, hfst]
    simp only [hx', ht', hv']
    set s := (S.search p).2 with hsdef
    set P := (S.search p).1 with hP
    set y := p.2.velocity with hy
    obtain ⟨t1, t2⟩ := next_t hsq (show 0 ≤ p.2.t by linarith)
    set t := p.2.t with ht
    set t' := 1 / 2 * (1 + S.sqrt (1 + 4 * (t * t))) with ht'
    have ht'0 : 0 < t' := by linarith
    have hPC : P ∈ C := by rw [hPe]; exact (hp _ _ hs).1
    refine ⟨fun _ => hPC, by omega, by push_cast; linarith, fun _ => ?_, fun s' hs' => ?_⟩
    · rw [t1]; push_cast
      nlinarith
    · rw [hs' (by omega), t1]
      have hz : P + t' • (P + ((t - 1) / t') • (P - p.1) - P) - u = t • (P - y) + (p.1 + t • (y - p.1) - u) := by
        have : t' • (P + ((t - 1) / t') • (P - p.1) - P) = (t - 1) • (P - p.1) := by
          rw [add_sub_cancel_left, smul_smul, mul_div_cancel₀ _ ht'0.ne']
        rw [this, sub_smul, one_smul, smul_sub, smul_sub, smul_sub]; abel
      rw [hz]
      have key : ∀ w ∈ C, s * (S.f P + h P) ≤ s * (S.f w + h w) + 1 / 2 * S.vdot (P - y) (P - y) - S.vdot (P - y) (P - w) + S.eps := by
        intro w hw
        have := key_eps hv hp hh (mu := 0) (fun x y => by have := hc x y; linarith [zero_mul (S.vdot (y - x) (y - x)), zero_div (2 : K)])
          y hs hPe hokk hw
        have e4 : y - w = (P - w) - (P - y) := by abel
        rw [e4] at this
        simp only [hv.sub_left (P - w) (P - y), hv.sub_right _ (P - w) (P - y)] at this
        rw [hv.symm (P - w) (P - y)] at this
        linarith
      have i1 := key u hu
      have i2 : (t - 1) * (s * (S.f P + h P)) ≤
          (t - 1) * (s * (S.f p.1 + h p.1) + 1 / 2 * S.vdot (P - y) (P - y) - S.vdot (P - y) (P - p.1) + S.eps) := by
        rcases Nat.eq_zero_or_pos k with hk | hk
        · rw [h1' hk]; simp
        · exact mul_le_mul_of_nonneg_left (key _ (h1 hk)) (by linarith)
      have i3 := mul_le_mul_of_nonneg_left (add_le_add i1 i2) (show 0 ≤ t by linarith)
      -- replace the previous step by the present one, which is not longer
      have h4 : (t * t - t) * (s * (S.f p.1 + h p.1 - (S.f u + h u))) + 1 / 2 * S.vdot (p.1 + t • (y - p.1) - u) (p.1 + t • (y - p.1) - u) ≤
          1 / 2 * S.vdot (x0 - u) (x0 - u) + k * (t * t - t) * S.eps := by
        rcases Nat.eq_zero_or_pos k with hk | hk
        · exact h3 s (by omega)
        · have h5 := h3 _ (fun _ => rfl)
          have h6 := hmin _ (h1 hk)
          have h7 : s * (S.f p.1 + h p.1 - (S.f u + h u)) ≤ (S.search (S.iterate x0 (k - 1))).2 * (S.f p.1 + h p.1 - (S.f u + h u)) :=
            mul_le_mul_of_nonneg_right (hstepk hk) (by linarith)
          have h8 := mul_le_mul_of_nonneg_left h7 (show 0 ≤ t * t - t by nlinarith)
          exact le_trans (add_le_add h8 le_rfl) h5
      have e0 : p.1 + t • (y - p.1) - u = (P - u) + (t - 1) • (P - p.1) - t • (P - y) := by
        rw [sub_smul, one_smul, smul_sub, smul_sub, smul_sub]; abel
      have e1 : S.vdot (P - y) (p.1 + t • (y - p.1) - u) =
          S.vdot (P - y) (P - u) + (t - 1) * S.vdot (P - y) (P - p.1) - t * S.vdot (P - y) (P - y) := by
        rw [e0, hv.sub_right, hv.add_right, hv.smul_right, hv.smul_right]
      have hzz : ∀ z : E, S.vdot (t • (P - y) + z) (t • (P - y) + z) =
          t * t * S.vdot (P - y) (P - y) + 2 * t * S.vdot (P - y) z + S.vdot z z := by
        intro z
        rw [hv.add_left, hv.add_right, hv.add_right, hv.smul_left, hv.smul_right, hv.smul_left, hv.smul_right, hv.symm z (P - y)]
        ring
      rw [hzz, e1]
      push_cast
      exact potential_arith _ _ _ _ _ _ _ _ _ _ _ _ (by linarith) hk0 he i3 h4

/-- **C98, rate with acceleration** (the default): for convex `f` and `h`, after `k` iterations whose line searches succeeded with steps that
never increased, `F(x_k) - F(u) ≤ 2‖x0 - u‖²/(s(k+1)²) + k·eps/s` for every minimiser `u`, where `s` is the last accepted step. -/
theorem C98_accel_rate (hc : GradIneq S.vdot S.f S.grad) (hsq : ∀ a, 0 ≤ a → 0 ≤ S.sqrt a ∧ S.sqrt a * S.sqrt a = a)
    (hacc : S.acceleration = true) (he : 0 ≤ S.eps) (x0 : E) {u : E} (hu : u ∈ C) (hmin : ∀ y ∈ C, S.f u + h u ≤ S.f y + h y) {k : ℕ}
    (hk : 1 ≤ k) (hok : ∀ i < k, S.Succeeded (S.iterate x0 i))
    (hdec : ∀ i, i + 1 < k → (S.search (S.iterate x0 (i + 1))).2 ≤ (S.search (S.iterate x0 i)).2) :
    let s := (S.search (S.iterate x0 (k - 1))).2
    S.f (S.iterate x0 k).1 + h (S.iterate x0 k).1 - (S.f u + h u) ≤
      2 * S.vdot (x0 - u) (x0 - u) / (s * (((k : K) + 1) * ((k : K) + 1))) + k * S.eps / s := by
  intro s
  have hs : 0 < s := S.accepted_pos hstep ha hd x0 (k - 1)
  obtain ⟨h1, _, h2, h2', h3⟩ := S.accel_potential_ls hv hp hh hstep ha hd hc hsq hacc he x0 hu hmin k hok hdec
  have h2' := h2' hk
  have h3 := h3 s (fun _ => rfl)
  have n := hv.nonneg ((S.iterate x0 k).1 + (S.iterate x0 k).2.t • ((S.iterate x0 k).2.velocity - (S.iterate x0 k).1) - u)
  have hv0 := hmin _ (h1 hk)
  set v := S.f (S.iterate x0 k).1 + h (S.iterate x0 k).1 - (S.f u + h u) with hvdef
  set T := (S.iterate x0 k).2.t * (S.iterate x0 k).2.t - (S.iterate x0 k).2.t with hT
  have hk0 : (0 : K) ≤ k := Nat.cast_nonneg k
  have hTpos : 0 < T := lt_of_lt_of_le (by positivity) h2'
  have hR := hv.nonneg (x0 - u)
  set R := S.vdot (x0 - u) (x0 - u) with hRdef
  have h4 : T * (s * v) ≤ 1 / 2 * R + k * T * S.eps := by linarith
  have h5 : s * v ≤ R / (2 * T) + k * S.eps := by
    have e : R / (2 * T) + k * S.eps = (1 / 2 * R + k * T * S.eps) / T := by field_simp
    rw [e, le_div_iff₀ hTpos]; linarith
  have h6 : R / (2 * T) ≤ 2 * R / (((k : K) + 1) * ((k : K) + 1)) := by
    rw [div_le_div_iff₀ (by positivity) (by positivity)]
    have := mul_le_mul_of_nonneg_left h2' hR
    linarith
  have e : 2 * R / (s * (((k : K) + 1) * ((k : K) + 1))) + k * S.eps / s = (2 * R / (((k : K) + 1) * ((k : K) + 1)) + k * S.eps) / s := by
    field_simp
  rw [e, le_div_iff₀ hs]
  linarith

end Accel

end PG

end Jaxopt.ProxGrad
