import Verif.ProxGrad.RateProps
import Verif.ProxGrad.RealProps
import Verif.Proj.Sparse
import Verif.ProxGrad.RegressionProps
import Mathlib.Algebra.BigOperators.Field

/-!
# Property C123: the unaccelerated methods stop, at an approximately stationary point, without convexity of the function

Spec: the error test is met within an explicit number of iterations, and the final error bounds the violation of the first-order
conditions.
-/

set_option autoImplicit false
set_option linter.unusedSectionVars false
set_option linter.unusedVariables false

namespace Jaxopt.ProxGrad

open Jaxopt.Base Jaxopt.Loop Jaxopt.Proj

variable {K E : Type*} [Field K] [LinearOrder K] [IsStrictOrderedRing K] [AddCommGroup E] [Module K E]

/-- `norm` is the norm of the inner product. -/
def IsNorm (vdot : E → E → K) (norm : E → K) : Prop := ∀ v, 0 ≤ norm v ∧ norm v * norm v = vdot v v

/-- The gradient is Lipschitz continuous. -/
def GradLip (vdot : E → E → K) (grad : E → E) (L : K) : Prop :=
  ∀ x y, vdot (grad x - grad y) (grad x - grad y) ≤ L * L * vdot (x - y) (x - y)

theorem IsNorm.cauchy {vdot : E → E → K} {norm : E → K} (hv : IsVdot vdot) (hn : IsNorm vdot norm) (x y : E) : vdot x y ≤ norm x * norm y := by
  have h := hv.cauchy x y
  obtain ⟨a1, a2⟩ := hn x
  obtain ⟨b1, b2⟩ := hn y
  rw [← a2, ← b2] at h
  by_contra hcon
  push Not at hcon
  nlinarith [mul_nonneg a1 b1]

/-- The value of the penalised objective drops by at least `c` times the squared error in every iteration from a point of the domain. -/
def Drops (S : PG K E) (C : Set E) (h : E → K) (s c : K) : Prop :=
  ∀ x ∈ C, S.f (S.prox (x + (-s) • S.grad x) s) + h (S.prox (x + (-s) • S.grad x) s) ≤
    S.f x + h x - c * (S.norm (S.prox (x + (-s) • S.grad x) s - x) / s) ^ 2

theorem drops_convex {S : PG K E} (hv : IsVdot S.vdot) (hn : IsNorm S.vdot S.norm) {C : Set E} {h : E → K} (hp : IsProx S.vdot C h S.prox)
    (hh : ConvexOn K C h) {L : K} (hq : QuadUpper S.vdot S.f S.grad L) {s : K} (hs : 0 < s) : Drops S C h s (s * (1 - s * L / 2)) := by
  intro x hx
  have h1 := prox_vi hv hp hh (x + (-s) • S.grad x) hs hx
  set P := S.prox (x + (-s) • S.grad x) s
  have h2 := hq x P
  have e1 : P - (x + (-s) • S.grad x) = (P - x) + s • S.grad x := by rw [neg_smul]; abel
  have e2 : x - P = -(P - x) := by abel
  rw [e1, e2] at h1
  simp only [hv.add_left, hv.smul_left, hv.neg_right] at h1
  rw [hv.symm (S.grad x)] at h1
  have e3 : s * (1 - s * L / 2) * (S.norm (P - x) / s) ^ 2 = (1 / s - L / 2) * S.vdot (P - x) (P - x) := by
    rw [← (hn (P - x)).2]; field_simp
  rw [e3]
  have h3 : h P + S.vdot (P - x) (S.grad x) + 1 / s * S.vdot (P - x) (P - x) ≤ h x := by
    have h4 : 0 ≤ s * (h x - h P - S.vdot (P - x) (S.grad x) - 1 / s * S.vdot (P - x) (P - x)) := by
      have : s * (1 / s * S.vdot (P - x) (P - x)) = S.vdot (P - x) (P - x) := by field_simp
      linarith
    have := nonneg_of_mul_nonneg_right h4 hs
    linarith
  linarith

theorem drops_general {S : PG K E} (hv : IsVdot S.vdot) (hn : IsNorm S.vdot S.norm) {C : Set E} {h : E → K} (hp : IsProx S.vdot C h S.prox)
    {L : K} (hq : QuadUpper S.vdot S.f S.grad L) {s : K} (hs : 0 < s) : Drops S C h s (s / 2 * (1 - s * L)) := by
  intro x hx
  have h1 := prox_step hv hp hx (S.grad x) hs
  simp only at h1
  set P := S.prox (x + (-s) • S.grad x) s
  have h2 := hq x P
  have e3 : s / 2 * (1 - s * L) * (S.norm (P - x) / s) ^ 2 = (1 / (2 * s) - L / 2) * S.vdot (P - x) (P - x) := by
    rw [← (hn (P - x)).2]; field_simp
  rw [e3]
  have h3 : h P + S.vdot (P - x) (S.grad x) + 1 / (2 * s) * S.vdot (P - x) (P - x) ≤ h x := by
    have h4 : 0 ≤ s * (h x - h P - S.vdot (P - x) (S.grad x) - 1 / (2 * s) * S.vdot (P - x) (P - x)) := by
      have : s * (1 / (2 * s) * S.vdot (P - x) (P - x)) = 1 / 2 * S.vdot (P - x) (P - x) := by field_simp
      linarith
    have := nonneg_of_mul_nonneg_right h4 hs
    linarith
  linarith

namespace PG

/-- One unaccelerated update with a constant step. -/
theorem plain_succ (S : PG K E) (hacc : S.acceleration = false) {s : K} (hstep : S.stepsize = .const s) (hs : 0 < s) (x0 : E) (k : ℕ) :
    (S.iterate x0 (k + 1)).1 = S.prox ((S.iterate x0 k).1 + (-s) • S.grad (S.iterate x0 k).1) s ∧
      (S.iterate x0 (k + 1)).2.error = .fin (S.norm ((S.iterate x0 (k + 1)).1 - (S.iterate x0 k).1) / s) := by
  rw [iterate_succ]
  simp only [update, hacc, Bool.false_eq_true, if_false, updatePlain, iter, hstep, if_neg (not_le.mpr hs), proxGrad, errorOf, and_self]

/-- What a run of the unaccelerated method with constant step does when the objective drops and is bounded below. -/
theorem run_stops (S : PG K E) (hn : IsNorm S.vdot S.norm) {C : Set E} {h : E → K} (hp : IsProx S.vdot C h S.prox)
    (hacc : S.acceleration = false) {s : K} (hstep : S.stepsize = .const s) (hs : 0 < s) {c : K} (hc : 0 < c) (hd : Drops S C h s c) {low : K}
    (hlow : ∀ x ∈ C, low ≤ S.f x + h x) {x0 : E} (hx0 : x0 ∈ C) (htol : 0 ≤ S.tol) (hm : 1 ≤ S.maxiter) {r : E × PGState K E}
    (hr : S.run x0 = .ok r) :
    r.1 ∈ C ∧ S.f r.1 + h r.1 ≤ S.f x0 + h x0 ∧ ((r.2.iterNum : K) - 1) * (c * S.tol ^ 2) ≤ S.f x0 + h x0 - low ∧
      (S.f x0 + h x0 - low < S.maxiter * (c * S.tol ^ 2) → Ext.gt r.2.error (.fin S.tol) = false) ∧
      ∃ x ∈ C, r.1 = S.prox (x + (-s) • S.grad x) s ∧ r.2.error = .fin (S.norm (r.1 - x) / s) := by
  obtain ⟨k, h1, h2, rfl, h4, h5⟩ := runS_spec hm hr
  set e := fun j => S.norm ((S.iterate x0 (j + 1)).1 - (S.iterate x0 j).1) / s with he
  have hmem : ∀ j, (S.iterate x0 j).1 ∈ C := by
    intro j
    cases j with
    | zero => exact hx0
    | succ j => rw [(S.plain_succ hacc hstep hs x0 j).1]; exact (hp _ s hs).1
  have hdrop : ∀ j, S.f (S.iterate x0 (j + 1)).1 + h (S.iterate x0 (j + 1)).1 ≤ S.f (S.iterate x0 j).1 + h (S.iterate x0 j).1 - c * e j ^ 2 := by
    intro j
    have := hd _ (hmem j)
    rw [← (S.plain_succ hacc hstep hs x0 j).1] at this
    exact this
  have herr : ∀ j, (S.iterate x0 (j + 1)).2.error = .fin (e j) := fun j => (S.plain_succ hacc hstep hs x0 j).2
  have he0 : ∀ j, 0 ≤ e j := fun j => div_nonneg (hn _).1 hs.le
  have hcont : ∀ j, Ext.gt (S.iterate x0 (j + 1)).2.error (.fin S.tol) = true → S.tol < e j := by
    intro j hj
    rw [herr j] at hj
    simpa [Ext.gt, Ext.lt] using hj
  have hsum : ∀ q, (∀ j < q, S.tol ≤ e j) →
      S.f (S.iterate x0 q).1 + h (S.iterate x0 q).1 ≤ S.f x0 + h x0 - q * (c * S.tol ^ 2) := by
    intro q
    induction q with
    | zero => intro _; simp [iterate]
    | succ q ih =>
      intro hq
      have a1 := ih fun j hj => hq j (by omega)
      have a2 := hdrop q
      have a3 : S.tol ^ 2 ≤ e q ^ 2 := pow_le_pow_left₀ htol (hq q (by omega)) 2
      have a4 := mul_le_mul_of_nonneg_left a3 hc.le
      push_cast
      linarith
  have hmono : ∀ q, S.f (S.iterate x0 q).1 + h (S.iterate x0 q).1 ≤ S.f x0 + h x0 := by
    intro q
    induction q with
    | zero => simp [iterate]
    | succ q ih => have := hdrop q; nlinarith [mul_nonneg hc.le (sq_nonneg (e q))]
  have hit : (S.iterate x0 k).2.iterNum = k := PG.iterNum_iterate _ _ _
  change (S.iterate x0 k).1 ∈ C ∧ S.f (S.iterate x0 k).1 + h (S.iterate x0 k).1 ≤ _ ∧ (((S.iterate x0 k).2.iterNum : K) - 1) * _ ≤ _ ∧
    (_ → Ext.gt (S.iterate x0 k).2.error _ = false) ∧ ∃ x ∈ C, (S.iterate x0 k).1 = _ ∧ (S.iterate x0 k).2.error = .fin (S.norm ((S.iterate x0 k).1 - x) / s)
  refine ⟨hmem k, hmono k, ?_, fun hlt => ?_, ?_⟩
  · rw [hit]
    obtain ⟨q, rfl⟩ : ∃ q, k = q + 1 := ⟨k - 1, by omega⟩
    have a := hsum q fun j hj => (hcont j (h4 (j + 1) (by omega) (by omega))).le
    have b := hlow _ (hmem q)
    push_cast
    rw [add_sub_cancel_right]
    linarith
  · rcases h5 with h5 | h5
    · by_contra hcon
      have hcon : Ext.gt (S.iterate x0 k).2.error (.fin S.tol) = true := by simpa using hcon
      have a := hsum k fun j hj => by
        rcases Nat.lt_or_ge (j + 1) k with hjk | hjk
        · exact (hcont j (h4 (j + 1) (by omega) hjk)).le
        · have : j + 1 = k := by omega
          exact (hcont j (by rw [this]; exact hcon)).le
      have b := hlow _ (hmem k)
      rw [h5] at a b
      linarith
    · exact h5
  · obtain ⟨q, rfl⟩ : ∃ q, k = q + 1 := ⟨k - 1, by omega⟩
    exact ⟨(S.iterate x0 q).1, hmem q, (S.plain_succ hacc hstep hs x0 q).1, (S.plain_succ hacc hstep hs x0 q).2⟩

/-- **C123, convex penalties**: `f` smooth, not necessarily convex, bounded below on the domain together with the penalty, constant step
`s < 2/L`.  A run makes at most `1 + (F(x0) - inf F)/(s (1 - s L/2) tol²)` iterations, ends by the error test if `maxiter` allows that many,
never ends above the starting value, and its result satisfies the first-order condition up to `(1 + s L) error`. -/
theorem C123_convex (S : PG K E) (hv : IsVdot S.vdot) (hn : IsNorm S.vdot S.norm) {C : Set E} {h : E → K} (hp : IsProx S.vdot C h S.prox)
    (hh : ConvexOn K C h) {L : K} (hL : 0 ≤ L) (hq : QuadUpper S.vdot S.f S.grad L) (hg : GradLip S.vdot S.grad L)
    (hacc : S.acceleration = false) {s : K} (hstep : S.stepsize = .const s) (hs : 0 < s) (hsL : s * L < 2) {low : K}
    (hlow : ∀ x ∈ C, low ≤ S.f x + h x) {x0 : E} (hx0 : x0 ∈ C) (htol : 0 ≤ S.tol) (hm : 1 ≤ S.maxiter) {r : E × PGState K E}
    (hr : S.run x0 = .ok r) :
    r.1 ∈ C ∧ S.f r.1 + h r.1 ≤ S.f x0 + h x0 ∧
      ((r.2.iterNum : K) - 1) * (s * (1 - s * L / 2) * S.tol ^ 2) ≤ S.f x0 + h x0 - low ∧
      (S.f x0 + h x0 - low < S.maxiter * (s * (1 - s * L / 2) * S.tol ^ 2) → Ext.gt r.2.error (.fin S.tol) = false) ∧
      ∃ err, r.2.error = .fin err ∧ 0 ≤ err ∧
        ∀ u ∈ C, h r.1 ≤ h u + S.vdot (u - r.1) (S.grad r.1) + (1 + s * L) * err * S.norm (u - r.1) := by
  have hc : 0 < s * (1 - s * L / 2) := mul_pos hs (by linarith)
  obtain ⟨a1, a2, a3, a4, x, hx, a5, a6⟩ := S.run_stops hn hp hacc hstep hs hc (drops_convex hv hn hp hh hq hs) hlow hx0 htol hm hr
  refine ⟨a1, a2, a3, a4, _, a6, div_nonneg (hn _).1 hs.le, fun u hu => ?_⟩
  have h1 := prox_vi hv hp hh (x + (-s) • S.grad x) hs hu
  rw [← a5] at h1
  set P := r.1
  have e1 : P - (x + (-s) • S.grad x) = (P - x) + s • S.grad x := by rw [neg_smul]; abel
  rw [e1] at h1
  simp only [hv.add_left, hv.smul_left] at h1
  rw [hv.symm (S.grad x)] at h1
  have c1 := hn.cauchy hv (P - x) (u - P)
  have c2 : S.vdot (u - P) (S.grad x) - S.vdot (u - P) (S.grad P) ≤ L * S.norm (P - x) * S.norm (u - P) := by
    rw [← hv.sub_right, hv.symm]
    refine (hn.cauchy hv _ _).trans (mul_le_mul_of_nonneg_right ?_ (hn _).1)
    have g := hg x P
    have e : x - P = -(P - x) := by abel
    rw [e, hv.neg_left, hv.neg_right, neg_neg, ← (hn (P - x)).2, ← (hn (S.grad x - S.grad P)).2] at g
    by_contra hcon
    push Not at hcon
    nlinarith [mul_nonneg hL (hn (P - x)).1, (hn (S.grad x - S.grad P)).1]
  have h2 : 0 ≤ s * (h u - h P + S.vdot (u - P) (S.grad P) + (1 + s * L) * (S.norm (P - x) / s) * S.norm (u - P)) := by
    have e : s * ((1 + s * L) * (S.norm (P - x) / s) * S.norm (u - P)) =
        S.norm (P - x) * S.norm (u - P) + s * (L * S.norm (P - x) * S.norm (u - P)) := by field_simp
    have := mul_le_mul_of_nonneg_left c2 hs.le
    nlinarith
  have := nonneg_of_mul_nonneg_right h2 hs
  linarith

/-- **C123, arbitrary penalties and sets** (the prox or projection of something that is not convex, like the sparse simplex), step
`s < 1/L`: the same with `s (1 - s L)/2`, and the final condition has the additional term `‖u - x‖²/(2s)`. -/
theorem C123_general (S : PG K E) (hv : IsVdot S.vdot) (hn : IsNorm S.vdot S.norm) {C : Set E} {h : E → K} (hp : IsProx S.vdot C h S.prox)
    {L : K} (hL : 0 ≤ L) (hq : QuadUpper S.vdot S.f S.grad L) (hg : GradLip S.vdot S.grad L) (hacc : S.acceleration = false) {s : K}
    (hstep : S.stepsize = .const s) (hs : 0 < s) (hsL : s * L < 1) {low : K} (hlow : ∀ x ∈ C, low ≤ S.f x + h x) {x0 : E} (hx0 : x0 ∈ C)
    (htol : 0 ≤ S.tol) (hm : 1 ≤ S.maxiter) {r : E × PGState K E} (hr : S.run x0 = .ok r) :
    r.1 ∈ C ∧ S.f r.1 + h r.1 ≤ S.f x0 + h x0 ∧
      ((r.2.iterNum : K) - 1) * (s / 2 * (1 - s * L) * S.tol ^ 2) ≤ S.f x0 + h x0 - low ∧
      (S.f x0 + h x0 - low < S.maxiter * (s / 2 * (1 - s * L) * S.tol ^ 2) → Ext.gt r.2.error (.fin S.tol) = false) ∧
      ∃ err, r.2.error = .fin err ∧ 0 ≤ err ∧ ∀ u ∈ C, h r.1 ≤ h u + S.vdot (u - r.1) (S.grad r.1) +
        (1 + s * L) * err * S.norm (u - r.1) + S.norm (u - r.1) ^ 2 / (2 * s) := by
  have hc : 0 < s / 2 * (1 - s * L) := mul_pos (by linarith) (by linarith)
  obtain ⟨a1, a2, a3, a4, x, hx, a5, a6⟩ := S.run_stops hn hp hacc hstep hs hc (drops_general hv hn hp hq hs) hlow hx0 htol hm hr
  refine ⟨a1, a2, a3, a4, _, a6, div_nonneg (hn _).1 hs.le, fun u hu => ?_⟩
  have h1 := (hp (x + (-s) • S.grad x) s hs).2 u hu
  rw [← a5] at h1
  set P := r.1
  have e1 : P - (x + (-s) • S.grad x) = (P - x) + s • S.grad x := by rw [neg_smul]; abel
  have e2 : u - (x + (-s) • S.grad x) = (u - P) + ((P - x) + s • S.grad x) := by rw [neg_smul]; abel
  rw [e1, e2] at h1
  simp only [hv.add_left, hv.add_right, hv.smul_left, hv.smul_right] at h1
  rw [hv.symm (S.grad x) (u - P), hv.symm (S.grad x) (P - x), hv.symm (P - x) (u - P)] at h1
  have c1 := hn.cauchy hv (u - P) (P - x)
  have c2 : S.vdot (u - P) (S.grad x) - S.vdot (u - P) (S.grad P) ≤ L * S.norm (P - x) * S.norm (u - P) := by
    rw [← hv.sub_right, hv.symm]
    refine (hn.cauchy hv _ _).trans (mul_le_mul_of_nonneg_right ?_ (hn _).1)
    have g := hg x P
    have e : x - P = -(P - x) := by abel
    rw [e, hv.neg_left, hv.neg_right, neg_neg, ← (hn (P - x)).2, ← (hn (S.grad x - S.grad P)).2] at g
    by_contra hcon
    push Not at hcon
    nlinarith [mul_nonneg hL (hn (P - x)).1, (hn (S.grad x - S.grad P)).1]
  have n2 := (hn (u - P)).2
  have h2 : 0 ≤ s * (h u - h P + S.vdot (u - P) (S.grad P) + (1 + s * L) * (S.norm (P - x) / s) * S.norm (u - P) +
      S.norm (u - P) ^ 2 / (2 * s)) := by
    have e : s * ((1 + s * L) * (S.norm (P - x) / s) * S.norm (u - P)) =
        S.norm (P - x) * S.norm (u - P) + s * (L * S.norm (P - x) * S.norm (u - P)) := by field_simp
    have e' : s * (S.norm (u - P) ^ 2 / (2 * s)) = S.vdot (u - P) (u - P) / 2 := by rw [← n2]; field_simp
    have := mul_le_mul_of_nonneg_left c2 hs.le
    nlinarith
  have := nonneg_of_mul_nonneg_right h2 hs
  linarith

end PG

/-! ## Sparse simplex -/

section sparse

variable {n : ℕ}

theorem isNorm_dot : IsNorm (dot (n := n)) fun x => Real.sqrt (dot x x) :=
  fun v => ⟨Real.sqrt_nonneg _, Real.mul_self_sqrt (isVdot_dot.nonneg v)⟩

theorem isProx_of_closest {C : Set (Fin n → ℝ)} {projection : (Fin n → ℝ) → (Fin n → ℝ)} (hp : ∀ x, IsProj C x (projection x)) :
    IsProx dot C (fun _ => 0) fun x s => Jaxopt.Prox.makeProxFromProjection (fun x (_ : Unit) => projection x) x () s := by
  intro z s hs
  refine ⟨(hp z).1, fun u hu => ?_⟩
  have h1 := (hp z).2 u hu
  have e : ∀ y : Fin n → ℝ, dot (y - z) (y - z) = sqDist z y := fun y =>
    Finset.sum_congr rfl fun i _ => by simp only [Pi.sub_apply]; ring
  simp only [Jaxopt.Prox.makeProxFromProjection, mul_zero, zero_add, e]
  linarith

/-- The points of the simplex with at most `k` non-zeros. -/
def sparseSimplex (k : ℕ) (value : ℝ) : Set (Fin n → ℝ) := {y | (∀ i, 0 ≤ y i) ∧ ∑ i, y i = value ∧ (Finset.univ.filter fun i => y i ≠ 0).card ≤ k}

/-- **C123, `ProjectedGradient` with `projection_sparse_simplex`**: step `s < 1/L`, without acceleration, from a sparse point of the
simplex; `f` need not be convex. -/
theorem C123_sparse_simplex (S : PG ℝ (Fin n → ℝ)) (hvd : S.vdot = dot) (hnd : S.norm = fun x => Real.sqrt (dot x x)) {k : ℕ} (hk1 : 1 ≤ k)
    (hk : k ≤ n) {value : ℝ} (hval : 0 < value) {L : ℝ} (hL : 0 ≤ L) (hq : QuadUpper dot S.f S.grad L) (hg : GradLip dot S.grad L)
    (hacc : S.acceleration = false) {s : ℝ} (hstep : S.stepsize = .const s) (hs : 0 < s) (hsL : s * L < 1) {low : ℝ}
    (hlow : ∀ x ∈ sparseSimplex k value, low ≤ S.f x) {x0 : Fin n → ℝ} (hx0 : x0 ∈ sparseSimplex k value) (htol : 0 ≤ S.tol)
    (hm : 1 ≤ S.maxiter) {r : (Fin n → ℝ) × PGState ℝ (Fin n → ℝ)}
    (hr : (S.projected fun x _ => projectionSparseSimplex x k value).run x0 = .ok r) :
    r.1 ∈ sparseSimplex k value ∧ S.f r.1 ≤ S.f x0 ∧ ((r.2.iterNum : ℝ) - 1) * (s / 2 * (1 - s * L) * S.tol ^ 2) ≤ S.f x0 - low ∧
      (S.f x0 - low < S.maxiter * (s / 2 * (1 - s * L) * S.tol ^ 2) → Ext.gt r.2.error (.fin S.tol) = false) ∧
      ∃ err, r.2.error = .fin err ∧ 0 ≤ err ∧ ∀ u ∈ sparseSimplex k value,
        -(∑ i, (u i - r.1 i) * S.grad r.1 i) ≤ (1 + s * L) * err * Real.sqrt (∑ i, (u i - r.1 i) ^ 2) + (∑ i, (u i - r.1 i) ^ 2) / (2 * s) := by
  have key := (S.projected fun x _ => projectionSparseSimplex x k value).C123_general (C := sparseSimplex k value) (h := fun _ => 0)
    (by change IsVdot S.vdot; rw [hvd]; exact isVdot_dot) (by change IsNorm S.vdot S.norm; rw [hvd, hnd]; exact isNorm_dot)
    (by
      change IsProx S.vdot _ _ _
      rw [hvd]
      exact isProx_of_closest (projection := fun x => projectionSparseSimplex x k value) fun x => C12_sparse_simplex x k hk1 hk value hval)
    hL (by change QuadUpper S.vdot S.f S.grad L; rw [hvd]; exact hq) (by change GradLip S.vdot S.grad L; rw [hvd]; exact hg) hacc hstep hs hsL
    (low := low) (fun x hx => by have := hlow x hx; change low ≤ S.f x + 0; linarith) hx0 htol hm hr
  obtain ⟨b1, b2, b3, b4, err, b5, b6, b7⟩ := key
  refine ⟨b1, ?_, ?_, ?_, err, b5, b6, fun u hu => ?_⟩
  · change S.f r.1 + 0 ≤ S.f x0 + 0 at b2; linarith
  · change _ ≤ S.f x0 + 0 - low at b3; rw [add_zero] at b3; exact b3
  · change (S.f x0 + 0 - low < _ → _) at b4; rw [add_zero] at b4; exact b4
  · have h1 := b7 u hu
    change (0 : ℝ) ≤ 0 + S.vdot (u - r.1) (S.grad r.1) + (1 + s * L) * err * S.norm (u - r.1) + S.norm (u - r.1) ^ 2 / (2 * s) at h1
    rw [hvd, hnd] at h1
    have e : dot (u - r.1) (u - r.1) = ∑ i, (u i - r.1 i) ^ 2 := by simp only [dot, Pi.sub_apply, ← sq]
    have e0 : 0 ≤ ∑ i, (u i - r.1 i) ^ 2 := Finset.sum_nonneg fun i _ => sq_nonneg _
    simp only [e, Real.sq_sqrt e0] at h1
    have e2 : dot (u - r.1) (S.grad r.1) = ∑ i, (u i - r.1 i) * S.grad r.1 i := rfl
    rw [e2] at h1
    linarith

/-! ## The limits on the step are necessary -/

/-- `½ ‖w - (½, ½)‖²` with step `s`. -/
noncomputable def exHalf (s : ℝ) (maxiter : ℕ) : PG ℝ (Fin 2 → ℝ) :=
  ⟨fun w => 1 / 2 * ((w 0 - 1 / 2) ^ 2 + (w 1 - 1 / 2) ^ 2), fun w => ![w 0 - 1 / 2, w 1 - 1 / 2], fun x _ => x, dot,
    fun x => Real.sqrt (dot x x), Real.sqrt, 0, .const s, maxiter, 15, 1 / 1000, false, 1 / 2, true, true⟩

theorem exHalf_quad (s : ℝ) (maxiter : ℕ) : QuadUpper dot (exHalf s maxiter).f (exHalf s maxiter).grad 1 := by
  intro x y
  simp only [exHalf, dot, Fin.sum_univ_two, Pi.sub_apply, Matrix.cons_val_zero, Matrix.cons_val_one]
  exact le_of_eq (by ring)

theorem exHalf_lip (s : ℝ) (maxiter : ℕ) : GradLip dot (exHalf s maxiter).grad 1 := by
  intro x y
  simp only [exHalf, dot, Fin.sum_univ_two, Pi.sub_apply, Matrix.cons_val_zero, Matrix.cons_val_one]
  exact le_of_eq (by ring)

theorem run_cycles (S : PG ℝ (Fin 2 → ℝ)) (hnd : S.norm = fun x => Real.sqrt (dot x x)) (hacc : S.acceleration = false) {s : ℝ}
    (hstep : S.stepsize = .const s) (hs : 0 < s) (hs2 : s ≤ 2) (htol : S.tol = 1 / 1000) (hm : 1 ≤ S.maxiter) (hun : S.unroll = true)
    (h1 : S.prox (![1, 0] + (-s) • S.grad ![1, 0]) s = ![0, 1]) (h2 : S.prox (![0, 1] + (-s) • S.grad ![0, 1]) s = ![1, 0]) :
    ∃ r, S.run ![1, 0] = .ok r ∧ r.2.iterNum = S.maxiter ∧ Ext.gt r.2.error (.fin S.tol) = true := by
  have hx : ∀ k, ((S.iterate ![1, 0] k).1 = ![1, 0] ∧ (S.iterate ![1, 0] (k + 1)).1 = ![0, 1]) ∨
      ((S.iterate ![1, 0] k).1 = ![0, 1] ∧ (S.iterate ![1, 0] (k + 1)).1 = ![1, 0]) := by
    intro k
    induction k with
    | zero => exact .inl ⟨rfl, by rw [(S.plain_succ hacc hstep hs _ 0).1]; exact h1⟩
    | succ k ih =>
      rcases ih with ⟨_, ih⟩ | ⟨_, ih⟩
      · exact .inr ⟨ih, by rw [(S.plain_succ hacc hstep hs _ (k + 1)).1, ih]; exact h2⟩
      · exact .inl ⟨ih, by rw [(S.plain_succ hacc hstep hs _ (k + 1)).1, ih]; exact h1⟩
  have hc : ∀ k, Ext.gt (S.iterate ![1, 0] (k + 1)).2.error (.fin S.tol) = true := by
    intro k
    rw [(S.plain_succ hacc hstep hs _ k).2, hnd, htol]
    have hd : dot ((S.iterate ![1, 0] (k + 1)).1 - (S.iterate ![1, 0] k).1) ((S.iterate ![1, 0] (k + 1)).1 - (S.iterate ![1, 0] k).1) = 2 := by
      rcases hx k with ⟨e1, e2⟩ | ⟨e1, e2⟩ <;> rw [e1, e2] <;> norm_num [dot, Fin.sum_univ_two]
    simp only [Ext.gt, Ext.lt, decide_eq_true_eq]
    rw [hd, lt_div_iff₀ hs]
    have : (1 : ℝ) ≤ Real.sqrt 2 := Real.one_le_sqrt.mpr (by norm_num)
    linarith
  obtain ⟨r, hr⟩ := runS_ok S.initState S.update S.cont (maxiter := S.maxiter) (unroll := S.unroll) (jit := S.jit) ![1, 0] hm (.inl hun)
  refine ⟨r, hr, ?_⟩
  obtain ⟨k, k1, k2, rfl, k4, k5⟩ := runS_spec hm hr
  obtain ⟨q, rfl⟩ : ∃ q, k = q + 1 := ⟨k - 1, by omega⟩
  refine ⟨?_, hc q⟩
  have hit : (S.iterate ![1, 0] (q + 1)).2.iterNum = q + 1 := PG.iterNum_iterate _ _ _
  change (S.iterate ![1, 0] (q + 1)).2.iterNum = _
  rw [hit]
  rcases k5 with k5 | k5
  · exact k5
  · have := hc q
    change Ext.gt (S.iterate ![1, 0] (q + 1)).2.error _ = false at k5
    rw [k5] at this
    exact absurd this (by simp)

/-- **C123 fails at `s = 2/L`**: gradient descent on a strongly convex quadratic alternates between two points and no run meets the test. -/
theorem C123_convex_step_false (maxiter : ℕ) (hm : 1 ≤ maxiter) :
    ∃ r, (exHalf 2 maxiter).gradientDescent.run ![1, 0] = .ok r ∧ r.2.iterNum = maxiter ∧ Ext.gt r.2.error (.fin (1 / 1000)) = true :=
  run_cycles (exHalf 2 maxiter).gradientDescent rfl rfl (s := 2) rfl (by norm_num) le_rfl rfl hm rfl
    (by funext j; fin_cases j <;> norm_num [PG.gradientDescent, exHalf]) (by funext j; fin_cases j <;> norm_num [PG.gradientDescent, exHalf])

theorem sparse_two {p : Fin 2 → ℝ} (hp : p ∈ sparseSimplex 1 1) : p = ![1, 0] ∨ p = ![0, 1] := by
  obtain ⟨-, h2, h3⟩ := hp
  rw [Fin.sum_univ_two] at h2
  by_cases h0 : p 0 = 0
  · right; funext j; fin_cases j
    · simpa using h0
    · simp; linarith
  · by_cases h1 : p 1 = 0
    · left; funext j; fin_cases j
      · simp; linarith
      · simpa using h1
    · have e : (Finset.univ.filter fun i => p i ≠ 0) = Finset.univ := by
        ext i; fin_cases i <;> simp [h0, h1]
      rw [e] at h3
      simp at h3

/-- **C123 fails on the sparse simplex for steps above `1/L`** (here `3/2` with `L = 1`, allowed for convex sets): the run alternates
between the two vertices and never meets the test. -/
theorem C123_sparse_step_false (maxiter : ℕ) (hm : 1 ≤ maxiter) :
    ∃ r, ((exHalf (3 / 2) maxiter).projected fun x _ => projectionSparseSimplex x 1 1).run ![1, 0] = .ok r ∧ r.2.iterNum = maxiter ∧
      Ext.gt r.2.error (.fin (1 / 1000)) = true := by
  have key : ∀ v : Fin 2 → ℝ, (v 0 < v 1 → projectionSparseSimplex v 1 1 = ![0, 1]) ∧ (v 1 < v 0 → projectionSparseSimplex v 1 1 = ![1, 0]) := by
    intro v
    have hp := C12_sparse_simplex v 1 le_rfl (by norm_num) 1 one_pos
    have m1 : (![1, 0] : Fin 2 → ℝ) ∈ sparseSimplex 1 1 := by
      refine ⟨fun i => by fin_cases i <;> norm_num, by norm_num, ?_⟩
      have : (Finset.univ.filter fun i => (![1, 0] : Fin 2 → ℝ) i ≠ 0) = {0} := by ext i; fin_cases i <;> simp
      rw [this]; simp
    have m2 : (![0, 1] : Fin 2 → ℝ) ∈ sparseSimplex 1 1 := by
      refine ⟨fun i => by fin_cases i <;> norm_num, by norm_num, ?_⟩
      have : (Finset.univ.filter fun i => (![0, 1] : Fin 2 → ℝ) i ≠ 0) = {1} := by ext i; fin_cases i <;> simp
      rw [this]; simp
    constructor
    · intro hlt
      rcases sparse_two hp.1 with e | e
      · have h1 := hp.2 _ m2
        rw [e] at h1
        simp only [sqDist, Fin.sum_univ_two, Matrix.cons_val_zero, Matrix.cons_val_one] at h1
        nlinarith
      · exact e
    · intro hlt
      rcases sparse_two hp.1 with e | e
      · exact e
      · have h1 := hp.2 _ m1
        rw [e] at h1
        simp only [sqDist, Fin.sum_univ_two, Matrix.cons_val_zero, Matrix.cons_val_one] at h1
        nlinarith
  refine run_cycles ((exHalf (3 / 2) maxiter).projected fun x _ => projectionSparseSimplex x 1 1) rfl rfl (s := 3 / 2) rfl (by norm_num)
    (by norm_num) rfl hm rfl ((key _).1 ?_) ((key _).2 ?_)
  · norm_num [PG.projected, exHalf]
  · norm_num [PG.projected, exHalf]

/-! ## Examples -/

/-- The same problem with step `1/2`: from a vertex of the simplex at most 2 000 001 iterations are made and, if allowed, the run ends by the
test. -/
example {r : (Fin 2 → ℝ) × PGState ℝ (Fin 2 → ℝ)}
    (hr : ((exHalf (1 / 2) 2000001).projected fun x _ => projectionSparseSimplex x 1 1).run ![1, 0] = .ok r) :
    Ext.gt r.2.error (.fin (1 / 1000)) = false := by
  have hx0 : (![1, 0] : Fin 2 → ℝ) ∈ sparseSimplex 1 1 := by
    refine ⟨fun i => by fin_cases i <;> norm_num, by norm_num, ?_⟩
    have : (Finset.univ.filter fun i => (![1, 0] : Fin 2 → ℝ) i ≠ 0) = {0} := by ext i; fin_cases i <;> simp
    rw [this]; simp
  obtain ⟨-, -, -, h4, -⟩ := C123_sparse_simplex (exHalf (1 / 2) 2000001) rfl rfl le_rfl (by norm_num) one_pos zero_le_one (exHalf_quad _ _)
    (exHalf_lip _ _) rfl (s := 1 / 2) rfl (by norm_num) (by norm_num) (low := 0)
    (fun x _ => by simp only [exHalf]; positivity) hx0 (by norm_num [exHalf]) (by norm_num [exHalf]) hr
  exact h4 (by norm_num [exHalf])

/-- A concave function: `f(w) = -½ w²`, minimised on `[-1, 1]` with step 1. -/
noncomputable def exConcave (maxiter : ℕ) : PG ℝ (Fin 1 → ℝ) :=
  ⟨fun w => -(1 / 2) * w 0 ^ 2, fun w _ => -w 0, fun x _ => x, dot, fun x => Real.sqrt (dot x x), Real.sqrt, 0, .const 1, maxiter, 15, 1 / 10,
    false, 1 / 2, true, true⟩

example {r : (Fin 1 → ℝ) × PGState ℝ (Fin 1 → ℝ)}
    (hr : ((exConcave 101).projected fun x _ => projectionBox x (fun _ => -1) (fun _ => 1)).run (fun _ => 1 / 10) = .ok r) :
    Ext.gt r.2.error (.fin (1 / 10)) = false := by
  have key := ((exConcave 101).projected fun x _ => projectionBox x (fun _ => -1) (fun _ => 1)).C123_convex
    (C := {w | ∀ j, (fun _ => -1 : Fin 1 → ℝ) j ≤ w j ∧ w j ≤ (fun _ => 1 : Fin 1 → ℝ) j}) (h := fun _ => 0) isVdot_dot isNorm_dot
    (isProx_of_isUniqueProj (projection := fun x => projectionBox x (fun _ => -1) (fun _ => 1)) fun x => C07_box x _ _ fun _ => by norm_num)
    (convexOn_const 0 convex_box) (L := 1) zero_le_one
    (by
      intro x y
      simp only [PG.projected, exConcave, dot, Finset.univ_unique, Fin.default_eq_zero, Finset.sum_singleton, Pi.sub_apply]
      nlinarith [sq_nonneg (y 0 - x 0)])
    (by
      intro x y
      simp only [PG.projected, exConcave, dot, Finset.univ_unique, Fin.default_eq_zero, Finset.sum_singleton, Pi.sub_apply]
      exact le_of_eq (by ring))
    rfl (s := 1) rfl one_pos (by norm_num) (low := -(1 / 2))
    (fun x hx => by
      have := hx 0
      simp only [PG.projected, exConcave]
      nlinarith) (x0 := fun _ => 1 / 10) (fun j => by norm_num) (by norm_num [PG.projected, exConcave]) (by norm_num [PG.projected, exConcave]) hr
  exact key.2.2.2.1 (by norm_num [PG.projected, exConcave])

end sparse

end Jaxopt.ProxGrad
