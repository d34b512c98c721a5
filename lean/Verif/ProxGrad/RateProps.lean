import Verif.ProxGrad.RealProps

/-!
# Property C77: gradient descent, the rates of the unaccelerated method and the meaning of its error
-/

set_option autoImplicit false
set_option linter.unusedSectionVars false
set_option linter.unusedVariables false

namespace Jaxopt.ProxGrad

open Jaxopt.Base Jaxopt.Loop
open Jaxopt.QuasiNewton (Stepsize)

variable {K E : Type*} [Field K] [LinearOrder K] [IsStrictOrderedRing K] [AddCommGroup E] [Module K E]

namespace PG

/-! ### Gradient descent -/

/-- **C77, gradient descent is the proximal gradient method of the zero function**: `prox_none` is its exact proximity operator, so
that C32 and C33 apply to `GradientDescent`. -/
theorem C77_gd_prox (S : PG K E) (hv : IsVdot S.vdot) : IsProx S.vdot Set.univ (fun _ => 0) S.gradientDescent.prox := by
  intro z s hs
  refine ⟨Set.mem_univ _, fun u _ => ?_⟩
  change s * 0 + 1 / 2 * S.vdot (z - z) (z - z) ≤ _
  have := hv.nonneg (u - z)
  have h0 : S.vdot (z - z) (z - z) = 0 := by
    rw [sub_self]
    have := hv.smul_left 0 (0 : E) 0
    rwa [zero_smul, zero_mul] at this
  rw [h0]
  linarith

theorem iterNum_iterate (S : PG K E) (x0 : E) (k : ℕ) : (S.iterate x0 k).2.iterNum = k := by
  induction k with
  | zero => rfl
  | succ k ih =>
    rw [iterate_succ]
    unfold update
    split_ifs
    · simp only [updateAccel, ih]
    · simp only [updatePlain, ih]

theorem update_of_iter (S : PG K E) (hacc : S.acceleration = false) (p : E × PGState K E) {y : E} {t : K}
    (hit : S.iter p.2.iterNum p.1 (S.f p.1) (S.grad p.1) p.2.stepsize = (y, t)) :
    S.update p = (y, ⟨p.2.iterNum + 1, t, .fin (S.norm (y - p.1) / t), p.2.velocity, 1⟩) := by
  simp only [update, hacc, Bool.false_eq_true, if_false, updatePlain, hit, errorOf]

/-- **C77, the step of gradient descent.** Without acceleration every update of `GradientDescent` is `x - s ∇f(x)`: with a constant or
scheduled positive stepsize `s` is that stepsize and the error is the norm of the gradient at the previous iterate. -/
theorem C77_gd_step (S : PG K E) (hn : ∀ (c : K) (v : E), S.norm (c • v) = |c| * S.norm v) (hacc : S.acceleration = false)
    (x0 : E) (k : ℕ) {s : K} (hs : 0 < s)
    (hstep : S.stepsize = .const s ∨ ∃ a : ℕ → K, S.stepsize = .fn a ∧ a k = s) :
    let p := S.gradientDescent.iterate x0 k
    let q := S.gradientDescent.iterate x0 (k + 1)
    q.1 = p.1 - s • S.grad p.1 ∧ q.2.stepsize = s ∧ q.2.error = .fin (S.norm (S.grad p.1)) := by
  intro p q
  have hk : p.2.iterNum = k := iterNum_iterate _ _ _
  have hit : S.gradientDescent.iter p.2.iterNum p.1 (S.f p.1) (S.grad p.1) p.2.stepsize = (p.1 - s • S.grad p.1, s) := by
    rcases hstep with h | ⟨a, h, ha⟩
    · simp only [iter, gradientDescent, h, if_neg (not_le.mpr hs), proxGrad, neg_smul, sub_eq_add_neg]
    · simp only [iter, gradientDescent, h, proxGrad, hk, ha, neg_smul, sub_eq_add_neg]
  have hq' : q = (p.1 - s • S.grad p.1, ⟨p.2.iterNum + 1, s, .fin (S.norm (p.1 - s • S.grad p.1 - p.1) / s), p.2.velocity, 1⟩) := by
    change S.gradientDescent.iterate x0 (k + 1) = _
    rw [iterate_succ]
    exact update_of_iter S.gradientDescent hacc p hit
  rw [hq']
  refine ⟨rfl, rfl, ?_⟩
  have e : p.1 - s • S.grad p.1 - p.1 = (-s) • S.grad p.1 := by rw [neg_smul]; abel
  simp only [e, hn, abs_neg, abs_of_pos hs, Ext.fin.injEq]
  field_simp

/-- **C77, the step of gradient descent with line search.** The step is `x - s ∇f(x)` with `s` the stepsize of the state times a power
`j ≤ maxls` of `decrease_factor`; `j` is the first one with `f(x - s∇f(x)) ≤ f(x) - s/2 ‖∇f(x)‖² + eps/s`, unless the budget is
exhausted.  The error is `decrease_factor ‖∇f(x)‖`, except that it is `s ‖∇f(x)‖` when `s ≤ 1e-6`. -/
theorem C77_gd_linesearch (S : PG K E) (hv : IsVdot S.vdot) (hn : ∀ (c : K) (v : E), S.norm (c • v) = |c| * S.norm v)
    (hacc : S.acceleration = false) {a : K} (hstep : S.stepsize = .const a) (ha : a ≤ 0) (hd : 0 < S.decreaseFactor) (x0 : E) (k : ℕ) :
    let p := S.gradientDescent.iterate x0 k
    let q := S.gradientDescent.iterate x0 (k + 1)
    let ok : K → Prop := fun s => S.f (p.1 - s • S.grad p.1) ≤ S.f p.1 - s / 2 * S.vdot (S.grad p.1) (S.grad p.1) + S.eps / s
    ∃ (s : K) (j : ℕ), 0 < s ∧ j ≤ S.maxls ∧ s = p.2.stepsize * S.decreaseFactor ^ j ∧ q.1 = p.1 - s • S.grad p.1 ∧
      (j < S.maxls → ok s) ∧ (∀ i < j, ¬ ok (p.2.stepsize * S.decreaseFactor ^ i)) ∧
      q.2.stepsize = (if s ≤ 1 / 1000000 then 1 else s / S.decreaseFactor) ∧
      q.2.error = .fin (if s ≤ 1 / 1000000 then s * S.norm (S.grad p.1) else S.decreaseFactor * S.norm (S.grad p.1)) := by
  intro p q ok
  have hfn : ∀ b, S.gradientDescent.stepsize = .fn b → ∀ k, 0 < b k := by
    intro b hb; change S.stepsize = _ at hb; rw [hstep] at hb; cases hb
  have hst : 0 < p.2.stepsize := stepsize_pos S.gradientDescent hd hfn x0 k
  set G := S.gradientDescent with hG
  have hpg : ∀ s, G.proxGrad p.1 (S.grad p.1) s = p.1 - s • S.grad p.1 := by
    intro s; simp only [hG, proxGrad, gradientDescent, neg_smul, sub_eq_add_neg]
  have hls : ∀ s, 0 < s → (G.lsCond p.1 (S.f p.1) (S.grad p.1) (p.1 - s • S.grad p.1, s) = false ↔ ok s) := by
    intro s hs
    rw [lsCond_false_iff]
    have e : p.1 - s • S.grad p.1 - p.1 = (-s) • S.grad p.1 := by rw [neg_smul]; abel
    simp only [e]
    change s * (S.f (p.1 - s • S.grad p.1) - S.f p.1) ≤ s * S.vdot ((-s) • S.grad p.1) (S.grad p.1) +
      1 / 2 * S.vdot ((-s) • S.grad p.1) ((-s) • S.grad p.1) + S.eps ↔ _
    rw [hv.smul_left, hv.smul_left, hv.smul_right]
    set g2 := S.vdot (S.grad p.1) (S.grad p.1)
    change _ ↔ S.f (p.1 - s • S.grad p.1) ≤ S.f p.1 - s / 2 * g2 + S.eps / s
    constructor
    · intro h
      refine le_of_mul_le_mul_left ?_ hs
      have : s * (S.f p.1 - s / 2 * g2 + S.eps / s) = s * S.f p.1 - s * s / 2 * g2 + S.eps := by field_simp
      rw [this]; linarith
    · intro h
      have h1 := mul_le_mul_of_nonneg_left h hs.le
      have : s * (S.f p.1 - s / 2 * g2 + S.eps / s) = s * S.f p.1 - s * s / 2 * g2 + S.eps := by field_simp
      rw [this] at h1; linarith
  obtain ⟨j, hj, hr, hbefore, hend⟩ := python_spec (G.lsCond p.1 (S.f p.1) (S.grad p.1)) (G.lsBody p.1 (S.grad p.1)) S.maxls
    (G.proxGrad p.1 (S.grad p.1) p.2.stepsize, p.2.stepsize)
  rw [lsBody_iterate] at hr hend
  change _ = (G.proxGrad p.1 (S.grad p.1) (p.2.stepsize * S.decreaseFactor ^ j), p.2.stepsize * S.decreaseFactor ^ j) at hr
  change _ ∨ G.lsCond p.1 (S.f p.1) (S.grad p.1)
    (G.proxGrad p.1 (S.grad p.1) (p.2.stepsize * S.decreaseFactor ^ j), p.2.stepsize * S.decreaseFactor ^ j) = false at hend
  have hpos : ∀ i : ℕ, 0 < p.2.stepsize * S.decreaseFactor ^ i := fun i => by positivity
  set s := p.2.stepsize * S.decreaseFactor ^ j with hs
  rw [hpg s] at hr hend
  have hit : G.iter p.2.iterNum p.1 (S.f p.1) (S.grad p.1) p.2.stepsize =
      (p.1 - s • S.grad p.1, if s ≤ 1 / 1000000 then 1 else s / S.decreaseFactor) := by
    have e : G.stepsize = .const a := hstep
    unfold iter
    rw [e]
    have hr' : G.fistaLineSearch p.1 (S.f p.1) (S.grad p.1) p.2.stepsize = (p.1 - s • S.grad p.1, s) := hr
    simp only [if_pos ha, hr']
    rfl
  have hq' : q = (p.1 - s • S.grad p.1, ⟨p.2.iterNum + 1, if s ≤ 1 / 1000000 then 1 else s / S.decreaseFactor,
      .fin (S.norm (p.1 - s • S.grad p.1 - p.1) / if s ≤ 1 / 1000000 then 1 else s / S.decreaseFactor), p.2.velocity, 1⟩) := by
    change G.iterate x0 (k + 1) = _
    rw [iterate_succ]
    exact update_of_iter G hacc p hit
  refine ⟨s, j, hpos j, hj, rfl, by rw [hq'], fun hjm => ?_, fun i hi => ?_, by rw [hq'], ?_⟩
  · rcases hend with h | h
    · omega
    · exact (hls s (hpos j)).mp h
  · have hb := hbefore i hi
    rw [lsBody_iterate] at hb
    change G.lsCond p.1 (S.f p.1) (S.grad p.1)
      (G.proxGrad p.1 (S.grad p.1) (p.2.stepsize * S.decreaseFactor ^ i), p.2.stepsize * S.decreaseFactor ^ i) = true at hb
    rw [hpg] at hb
    intro hok
    rw [(hls _ (hpos i)).mpr hok] at hb
    cases hb
  · have e : p.1 - s • S.grad p.1 - p.1 = (-s) • S.grad p.1 := by rw [neg_smul]; abel
    have hs0 := hpos j
    rw [← hs] at hs0
    rw [hq']
    simp only [e, hn, abs_neg, abs_of_pos hs0, Ext.fin.injEq]
    by_cases h : s ≤ 1 / 1000000
    · simp only [if_pos h, div_one]
    · simp only [if_neg h]
      field_simp

/-- **C77, gradients vanish along gradient descent**, also for functions that are not convex: with a constant stepsize `s ≤ 1/L`, among
the first `k` iterates there is one whose squared gradient norm is at most `2 (f(x0) - inf f)/(s k)`. -/
theorem C77_gd_gradient (S : PG K E) (hv : IsVdot S.vdot) {L : K} (hq : QuadUpper S.vdot S.f S.grad L) (hacc : S.acceleration = false)
    {s : K} (hstep : S.stepsize = .const s) (hs : 0 < s) (hsL : s * L ≤ 1) {low : K} (hlow : ∀ x, low ≤ S.f x) (x0 : E) {k : ℕ}
    (hk : 1 ≤ k) :
    ∃ i < k, S.vdot (S.grad (S.gradientDescent.iterate x0 i).1) (S.grad (S.gradientDescent.iterate x0 i).1) ≤
      2 * (S.f x0 - low) / (s * k) := by
  set X := fun i => (S.gradientDescent.iterate x0 i).1 with hX
  have hstepX : ∀ i, X (i + 1) = X i + (-s) • S.grad (X i) := by
    intro i
    simp only [hX, iterate_succ, update, gradientDescent, hacc, Bool.false_eq_true, if_false, updatePlain, iter, hstep,
      if_neg (not_le.mpr hs), proxGrad]
  have hdec : ∀ i, S.f (X (i + 1)) ≤ S.f (X i) - s / 2 * S.vdot (S.grad (X i)) (S.grad (X i)) := by
    intro i
    have h1 := hq (X i) (X (i + 1))
    have e : X (i + 1) - X i = (-s) • S.grad (X i) := by rw [hstepX]; abel
    rw [e, hv.smul_left, hv.smul_left, hv.smul_right] at h1
    have n := hv.nonneg (S.grad (X i))
    nlinarith [mul_nonneg (mul_nonneg hs.le (sub_nonneg.mpr hsL)) n]
  by_contra hcon
  push Not at hcon
  have hkpos : (0 : K) < k := by exact_mod_cast hk
  have hb : ∀ i ≤ k, S.f (X i) ≤ S.f x0 - i * ((S.f x0 - low) / k) ∧ (1 ≤ i → S.f (X i) < S.f x0 - i * ((S.f x0 - low) / k)) := by
    intro i hi
    induction i with
    | zero => simp [hX, iterate]
    | succ i ih =>
      have h1 := (ih (by omega)).1
      have h2 := hcon i (by omega)
      have h3 := hdec i
      have h4 : (S.f x0 - low) / k < s / 2 * S.vdot (S.grad (X i)) (S.grad (X i)) := by
        have := mul_lt_mul_of_pos_left h2 (half_pos hs)
        have e : s / 2 * (2 * (S.f x0 - low) / (s * k)) = (S.f x0 - low) / k := by field_simp
        rw [e] at this
        exact this
      have : S.f (X (i + 1)) < S.f x0 - ((i + 1 : ℕ) : K) * ((S.f x0 - low) / k) := by push_cast; linarith
      exact ⟨this.le, fun _ => this⟩
  have := (hb k le_rfl).2 hk
  rw [mul_div_cancel₀ _ hkpos.ne'] at this
  have := hlow (X k)
  linarith

/-! ### Rates of the unaccelerated proximal gradient method -/

/-- The key inequality of one step, for a function with the strong gradient inequality. -/
theorem key_strong {vdot : E → E → K} (hv : IsVdot vdot) {C : Set E} {f h : E → K} {grad : E → E} {prox : E → K → E}
    (hp : IsProx vdot C h prox) (hh : ConvexOn K C h) {mu : K}
    (hc : ∀ x y, f x + vdot (y - x) (grad x) + mu / 2 * vdot (y - x) (y - x) ≤ f y) (y : E) {s : K} (hs : 0 < s)
    (hdec : let P := prox (y + (-s) • grad y) s
      s * (f P - f y) ≤ s * vdot (P - y) (grad y) + 1 / 2 * vdot (P - y) (P - y)) {u : E} (hu : u ∈ C) :
    let P := prox (y + (-s) • grad y) s
    s * (f P + h P - (f u + h u)) ≤ 1 / 2 * ((1 - s * mu) * vdot (y - u) (y - u) - vdot (P - u) (P - u)) := by
  intro P
  have h2 := mul_le_mul_of_nonneg_left (hc y u) hs.le
  have h3 := prox_vi hv hp hh (y + (-s) • grad y) hs hu
  change 0 ≤ s * (h u - h P) + vdot (P - (y + (-s) • grad y)) (u - P) at h3
  change s * (f P - f y) ≤ s * vdot (P - y) (grad y) + 1 / 2 * vdot (P - y) (P - y) at hdec
  have e1 : P - (y + (-s) • grad y) = (P - y) + s • grad y := by rw [neg_smul]; abel
  have e2 : u - P = -(P - u) := by abel
  have e3 : u - y = (P - y) - (P - u) := by abel
  have e4 : y - u = (P - u) - (P - y) := by abel
  rw [e1, e2] at h3
  rw [e3] at h2
  rw [e4]
  set A := P - y
  set D := P - u
  simp only [hv.add_left, hv.smul_left, hv.neg_right, hv.sub_left, hv.sub_right] at h2 h3 ⊢
  simp only [hv.symm (grad y), hv.symm D A] at h2 h3 hdec ⊢
  nlinarith

/-- **C77, rate of the unaccelerated method**: for convex `f` and `h` and a constant stepsize `s ≤ 1/L`,
`F(x_k) - F(u) ≤ ‖x0 - u‖²/(2 s k)` for every point `u` of the domain. -/
theorem C77_rate (S : PG K E) (hv : IsVdot S.vdot) {C : Set E} {h : E → K} (hp : IsProx S.vdot C h S.prox)
    (hh : ConvexOn K C h) {L : K} (hq : QuadUpper S.vdot S.f S.grad L) (hc : GradIneq S.vdot S.f S.grad)
    (hacc : S.acceleration = false) {s : K} (hstep : S.stepsize = .const s) (hs : 0 < s) (hsL : s * L ≤ 1) (x0 : E) {u : E} (hu : u ∈ C)
    {k : ℕ} (hk : 1 ≤ k) :
    S.f (S.iterate x0 k).1 + h (S.iterate x0 k).1 - (S.f u + h u) ≤ S.vdot (x0 - u) (x0 - u) / (2 * s * k) := by
  set X := fun i => (S.iterate x0 i).1 with hX
  have hstepX : ∀ i, X (i + 1) = S.prox (X i + (-s) • S.grad (X i)) s := by
    intro i
    simp only [hX, iterate_succ, update, hacc, Bool.false_eq_true, if_false, updatePlain, iter, hstep, if_neg (not_le.mpr hs), proxGrad]
  have hdec : ∀ y, let P := S.prox (y + (-s) • S.grad y) s
      s * (S.f P - S.f y) ≤ s * S.vdot (P - y) (S.grad y) + 1 / 2 * S.vdot (P - y) (P - y) := by
    intro y P
    have h1 := mul_le_mul_of_nonneg_left (hq y P) hs.le
    nlinarith [mul_nonneg (sub_nonneg.mpr hsL) (hv.nonneg (P - y))]
  have hkey := fun (y u : E) (hu : u ∈ C) => key_strong (mu := 0) hv hp hh (f := S.f) (grad := S.grad)
    (fun x y => by have := hc x y; linarith [zero_mul (S.vdot (y - x) (y - x)), zero_div (2 : K)]) y hs (hdec y) hu
  have hmem : ∀ i, X (i + 1) ∈ C := fun i => by rw [hstepX]; exact (hp _ _ hs).1
  set F := fun i => S.f (X i) + h (X i) - (S.f u + h u) with hF
  have hmono : ∀ i, F (i + 2) ≤ F (i + 1) := by
    intro i
    have h1 := hkey (X (i + 1)) (X (i + 1)) (hmem i)
    simp only at h1
    rw [← hstepX, sub_self] at h1
    have h0 : S.vdot (0 : E) 0 = 0 := by have := hv.smul_left 0 (0 : E) 0; rwa [zero_smul, zero_mul] at this
    rw [h0] at h1
    have n := hv.nonneg (X (i + 2) - X (i + 1))
    have : s * (F (i + 2) - F (i + 1)) ≤ 0 := by simp only [hF]; linarith
    have := nonpos_of_mul_nonpos_right this hs
    linarith
  have hsum : ∀ i, 2 * s * ((i + 1 : ℕ) : K) * F (i + 1) + S.vdot (X (i + 1) - u) (X (i + 1) - u) ≤ S.vdot (x0 - u) (x0 - u) := by
    intro i
    induction i with
    | zero =>
      have h1 := hkey (X 0) u hu
      simp only at h1
      rw [← hstepX] at h1
      have e : X 0 = x0 := rfl
      rw [e] at h1
      simp only [hF]
      push_cast
      linarith
    | succ i ih =>
      have h1 := hkey (X (i + 1)) u hu
      simp only at h1
      rw [← hstepX] at h1
      have h2 := hmono i
      have hi : (0 : K) ≤ ((i + 1 : ℕ) : K) := Nat.cast_nonneg _
      have h3 := mul_le_mul_of_nonneg_left h2 (mul_nonneg (mul_nonneg (zero_le_two (α := K)) hs.le) hi)
      have e : (((i + 1 + 1 : ℕ) : K)) = ((i + 1 : ℕ) : K) + 1 := by push_cast; ring
      rw [e]
      simp only [hF] at h1 h3 ih ⊢
      nlinarith
  obtain ⟨i, rfl⟩ : ∃ i, k = i + 1 := ⟨k - 1, by omega⟩
  have hk0 : (0 : K) < ((i + 1 : ℕ) : K) := by exact_mod_cast hk
  rw [le_div_iff₀ (by positivity)]
  have := hsum i
  have n := hv.nonneg (X (i + 1) - u)
  simp only [hF, hX] at this n ⊢
  linarith

/-- **C77, linear rate**: if `f` is `μ`-strongly convex, the squared distance to a minimiser `u` of `F` contracts by the factor `1 - s μ`
in every iteration with a stepsize `s ≤ 1/L`. -/
theorem C77_linear (S : PG K E) (hv : IsVdot S.vdot) {C : Set E} {h : E → K} (hp : IsProx S.vdot C h S.prox)
    (hh : ConvexOn K C h) {L mu : K} (hq : QuadUpper S.vdot S.f S.grad L)
    (hc : ∀ x y, S.f x + S.vdot (y - x) (S.grad x) + mu / 2 * S.vdot (y - x) (y - x) ≤ S.f y)
    (hacc : S.acceleration = false) {s : K} (hstep : S.stepsize = .const s) (hs : 0 < s) (hsL : s * L ≤ 1) (hmu : 0 ≤ 1 - s * mu) (x0 : E)
    {u : E} (hu : u ∈ C) (hmin : ∀ y ∈ C, S.f u + h u ≤ S.f y + h y) (k : ℕ) :
    S.vdot ((S.iterate x0 k).1 - u) ((S.iterate x0 k).1 - u) ≤ (1 - s * mu) ^ k * S.vdot (x0 - u) (x0 - u) := by
  induction k with
  | zero => simp [iterate]
  | succ k ih =>
    set y := (S.iterate x0 k).1
    have e : (S.iterate x0 (k + 1)).1 = S.prox (y + (-s) • S.grad y) s := by
      simp only [iterate_succ, update, hacc, Bool.false_eq_true, if_false, updatePlain, iter, hstep, if_neg (not_le.mpr hs), proxGrad]
      rfl
    have hdec : let P := S.prox (y + (-s) • S.grad y) s
        s * (S.f P - S.f y) ≤ s * S.vdot (P - y) (S.grad y) + 1 / 2 * S.vdot (P - y) (P - y) := by
      intro P
      have h1 := mul_le_mul_of_nonneg_left (hq y P) hs.le
      nlinarith [mul_nonneg (sub_nonneg.mpr hsL) (hv.nonneg (P - y))]
    have h1 := key_strong hv hp hh hc y hs hdec hu
    simp only at h1
    rw [e]
    set P := S.prox (y + (-s) • S.grad y) s
    have h2 := hmin P (hp _ _ hs).1
    have h3 := mul_le_mul_of_nonneg_left ih hmu
    have h4 : 0 ≤ s * (S.f P + h P - (S.f u + h u)) := mul_nonneg hs.le (by linarith)
    rw [pow_succ]
    linarith [mul_comm ((1 - s * mu) ^ k) (1 - s * mu), mul_assoc (1 - s * mu) ((1 - s * mu) ^ k) (S.vdot (x0 - u) (x0 - u)),
      congrArg (· * S.vdot (x0 - u) (x0 - u)) (mul_comm ((1 - s * mu) ^ k) (1 - s * mu))]

/-! ### The error with line search -/

/-- `f(x) = 10⁷/2 x²` with line search and otherwise the default attributes (without acceleration). -/
def exRestart : PG ℚ ℚ :=
  ⟨fun x => 5000000 * x * x, fun x => 10000000 * x, fun x _ => x, fun x y => x * y, fun x => |x|, fun x => x, 1 / 4503599627370496, .const 0,
    500, 15, 1 / 1000, false, 1 / 2, true, true⟩

/-- **C77 fails with line search**: the error divides by the stepsize for the next iteration, which is reset to 1 when the step taken is at
most `1e-6`.  Gradient descent on `10⁷/2 x²` from `10⁻⁶`, where the gradient is 10, stops after two updates with an error below the
tolerance `1e-3` at a point where the gradient is larger than 1000. -/
theorem C77_error_false :
    ¬ ∀ (S : PG ℚ ℚ) (x0 : ℚ) (r : ℚ × PGState ℚ ℚ), S.acceleration = false → IsVdot S.vdot → (∀ v, S.norm v = |v|) →
      (∀ x y, S.f y = S.f x + S.grad x * (y - x) + S.grad 1 / 2 * (y - x) ^ 2) → 0 < S.decreaseFactor → S.decreaseFactor < 1 →
      S.gradientDescent.run x0 = .ok r → Ext.le r.2.error (.fin S.tol) = true →
      |S.grad r.1| ≤ 1000000 * S.tol := by
  intro hall
  have hr : ∃ r, exRestart.gradientDescent.run (1 / 1000000) = .ok r ∧ Ext.le r.2.error (.fin exRestart.tol) = true ∧
      1000 < |exRestart.grad r.1| := by
    have : (match exRestart.gradientDescent.run (1 / 1000000) with
      | .ok r => Ext.le r.2.error (.fin exRestart.tol) && decide (1000 < |exRestart.grad r.1|)
      | .error _ => false) = true := by decide +kernel
    revert this
    cases h : exRestart.gradientDescent.run (1 / 1000000) with
    | error e => intro h; cases h
    | ok r => intro h; rw [Bool.and_eq_true, decide_eq_true_eq] at h; exact ⟨r, rfl, h⟩
  obtain ⟨r, h1, h2, h3⟩ := hr
  have := hall exRestart (1 / 1000000) r rfl
    ⟨fun x y z => by simp only [exRestart]; ring, fun a x z => by simp only [exRestart, smul_eq_mul]; ring,
      fun x y => by simp only [exRestart]; ring, fun x hx => by simp only [exRestart]; exact mul_self_pos.mpr hx⟩
    (fun v => rfl) (fun x y => by simp only [exRestart]; ring) (by norm_num [exRestart]) (by norm_num [exRestart]) h1 h2
  have e : (1000000 : ℚ) * exRestart.tol = 1000 := by norm_num [exRestart]
  linarith

/-- Non-vacuity of the theorems on gradient descent: `x²/2`, `L = μ = 1`, stepsize `1/2`: three updates from 8 end at 1 with error 2, the
gradient at the iterate before. -/
def exGd : PG ℚ ℚ :=
  ⟨fun x => x * x / 2, fun x => x, fun x _ => x, fun x y => x * y, fun x => |x|, fun x => x, 0, .const (1 / 2), 3, 15, 1 / 1000, false, 1 / 2,
    true, true⟩

theorem exGd_vdot : IsVdot exGd.vdot :=
  ⟨fun x y z => by simp only [exGd]; ring, fun a x z => by simp only [exGd, smul_eq_mul]; ring,
    fun x y => by simp only [exGd]; ring, fun x hx => by simp only [exGd]; exact mul_self_pos.mpr hx⟩

example : (exGd.gradientDescent.iterate 8 3).1 = 1 ∧ (exGd.gradientDescent.iterate 8 3).2.error = .fin 2 ∧
    QuadUpper exGd.vdot exGd.f exGd.grad 1 ∧
    (∀ x y, exGd.f x + exGd.vdot (y - x) (exGd.grad x) + 1 / 2 * exGd.vdot (y - x) (y - x) ≤ exGd.f y) ∧
    exGd.vdot ((exGd.gradientDescent.iterate 8 3).1 - 0) ((exGd.gradientDescent.iterate 8 3).1 - 0) ≤ (1 - 1 / 2 * 1) ^ 3 * exGd.vdot (8 - 0) (8 - 0) := by
  have hq : QuadUpper exGd.vdot exGd.f exGd.grad 1 := fun x y => by simp only [exGd]; nlinarith
  have hc : ∀ x y, exGd.f x + exGd.vdot (y - x) (exGd.grad x) + 1 / 2 * exGd.vdot (y - x) (y - x) ≤ exGd.f y := fun x y => by
    simp only [exGd]; nlinarith
  refine ⟨by decide +kernel, by decide +kernel, hq, hc, ?_⟩
  exact exGd.gradientDescent.C77_linear (C := Set.univ) (h := fun _ => 0) (L := 1) (mu := 1) exGd_vdot (exGd.C77_gd_prox exGd_vdot)
    ⟨convex_univ, fun x _ y _ a b _ _ _ => by simp⟩ hq hc rfl rfl (by norm_num) (by norm_num) (by norm_num) 8 (Set.mem_univ 0)
    (fun y _ => by simp only [exGd, gradientDescent]; nlinarith [mul_self_nonneg y]) 3

end PG

end Jaxopt.ProxGrad
