import Verif.QuasiNewton.NonlinearCGProps
import Verif.QuasiNewton.RunProps
import Mathlib.LinearAlgebra.Dimension.Finite
import Mathlib.LinearAlgebra.Dimension.Constructions
import Mathlib.LinearAlgebra.Dimension.StrongRankCondition
import Mathlib.LinearAlgebra.FiniteDimensional.Basic
import Mathlib.Algebra.BigOperators.Ring.Finset

/-!
# Property C81: NonlinearCG is the linear conjugate gradient method on quadratics

For an objective with gradient `A x - b`, `A` self-adjoint, and a line search that is exact along the given direction.  The constant
`1 / 1000000` is the local `eps` of `update` (nonlinear_cg.py line 193) below which the denominators of the betas are replaced.
-/

set_option autoImplicit false
set_option linter.unusedSectionVars false
set_option linter.unusedVariables false

namespace Jaxopt.QuasiNewton

open Jaxopt.Base

variable {K E V : Type*} [Field K] [LinearOrder K] [IsStrictOrderedRing K] [AddCommGroup E] [Module K E]

/-- The objective is quadratic, and the line search is exact along the direction and reports the value and gradient at its point. -/
structure ExactQuadratic (S : NCG K E V) (A : E →ₗ[K] E) (b : E) : Prop where
  vd : IsVdot S.vdot
  grad : ∀ x, S.grad x = A x - b
  self : ∀ u v, S.vdot (A u) v = S.vdot u (A v)
  dir : S.linesearch ≠ "backtracking"
  sound : S.LsSound
  exact : ∀ s x v g d, ∃ t : K, (S.runLs s x v g (some d)).params = x + t • d ∧ S.vdot (S.grad (S.runLs s x v g (some d)).params) d = 0

namespace NCG

theorem cgEps_pos : (0 : K) < cgEps := by unfold cgEps; positivity

/-- When the line search was exact and the new gradient is orthogonal to the old one, the three betas are the quotient of the squared
gradient norms, provided the old one is at least `eps`. -/
theorem beta_eq {vdot : E → E → K} (hv : IsVdot vdot) (m : CGMethod) {g g' d : E} (h1 : vdot g' d = 0) (h2 : vdot g d = -vdot g g)
    (h3 : vdot g' g = 0) (he : 1 / 1000000 ≤ vdot g g) : cgBeta vdot m g g' d = vdot g' g' / vdot g g := by
  have hp : 0 < vdot g g := lt_of_lt_of_le (by positivity) he
  obtain ⟨_, b2, b3⟩ := C34_beta vdot g g' d
  obtain ⟨b2, b4⟩ := b2 he
  have e1 : vdot (g' - g) g' = vdot g' g' := by rw [hv.sub_left, hv.symm g g', h3, sub_zero]
  have e2 : vdot (g' - g) d = vdot g g := by rw [hv.sub_left, h1, h2]; ring
  have hn : 0 ≤ vdot g' g' / vdot g g := div_nonneg (hv.nonneg _) (le_of_lt hp)
  cases m with
  | polakRibiere => rw [b2, e1, max_eq_left hn]
  | fletcherReeves => rw [b4, max_eq_left hn]
  | hestenesStiefel => rw [b3 (by rw [e2]; exact he), e1, e2, max_eq_left hn]

/-- The facts about the first `k + 1` iterates. -/
structure Conj (S : NCG K E V) (A : E →ₗ[K] E) (x0 : E) (k : ℕ) : Prop where
  gg : ∀ i j, i < j → j ≤ k → S.vdot (S.iterate x0 j).2.grad (S.iterate x0 i).2.grad = 0
  gd : ∀ i j, i < j → j ≤ k → S.vdot (S.iterate x0 j).2.grad (S.iterate x0 i).2.descentDirection = 0
  dd : ∀ i j, i < j → j ≤ k → S.vdot (S.iterate x0 j).2.descentDirection (A (S.iterate x0 i).2.descentDirection) = 0
  gs : ∀ j, j ≤ k → S.vdot (S.iterate x0 j).2.grad (S.iterate x0 j).2.descentDirection =
    -S.vdot (S.iterate x0 j).2.grad (S.iterate x0 j).2.grad

theorem step_exact {S : NCG K E V} {A : E →ₗ[K] E} {b : E} (h : ExactQuadratic S A b) (x0 : E) (k : ℕ) :
    ∃ t : K, (S.iterate x0 (k + 1)).1 = (S.iterate x0 k).1 + t • (S.iterate x0 k).2.descentDirection ∧
      (S.iterate x0 (k + 1)).2.grad = (S.iterate x0 k).2.grad + t • A (S.iterate x0 k).2.descentDirection ∧
      S.vdot (S.iterate x0 (k + 1)).2.grad (S.iterate x0 k).2.descentDirection = 0 := by
  set p := S.iterate x0 k with hp
  obtain ⟨t, h1, h2⟩ := h.exact (S.initStep p.2.stepsize) p.1 p.2.value p.2.grad p.2.descentDirection
  have e1 : (S.iterate x0 (k + 1)).1 = (S.runLs (S.initStep p.2.stepsize) p.1 p.2.value p.2.grad (some p.2.descentDirection)).params := by
    rw [iterate_succ, ← hp]; simp only [update, lineSearch, if_neg h.dir]
  have e2 := (S.grad_iterate h.sound x0 (k + 1)).1
  have e3 := (S.grad_iterate h.sound x0 k).1
  rw [← hp] at e3
  refine ⟨t, by rw [e1, h1], ?_, ?_⟩
  · rw [e2, e1, h1, e3, h.grad, h.grad, map_add, map_smul]; abel
  · rw [e2, e1]; exact h2

theorem dir_succ (S : NCG K E V) (x0 : E) (k : ℕ) :
    (S.iterate x0 (k + 1)).2.descentDirection = -(S.iterate x0 (k + 1)).2.grad +
      cgBeta S.vdot S.method (S.iterate x0 k).2.grad (S.iterate x0 (k + 1)).2.grad (S.iterate x0 k).2.descentDirection •
        (S.iterate x0 k).2.descentDirection := by
  rw [iterate_succ]; simp only [update, neg_smul, one_smul]

theorem conj_all {S : NCG K E V} {A : E →ₗ[K] E} {b : E} (h : ExactQuadratic S A b) (x0 : E) (k : ℕ)
    (hbig : ∀ j < k, 1 / 1000000 ≤ S.vdot (S.iterate x0 j).2.grad (S.iterate x0 j).2.grad) :
    Conj S A x0 k ∧ ∀ j < k, (S.iterate x0 (j + 1)).2.descentDirection = -(S.iterate x0 (j + 1)).2.grad +
      (S.vdot (S.iterate x0 (j + 1)).2.grad (S.iterate x0 (j + 1)).2.grad / S.vdot (S.iterate x0 j).2.grad (S.iterate x0 j).2.grad) •
        (S.iterate x0 j).2.descentDirection := by
  have hv := h.vd
  induction k with
  | zero =>
    refine ⟨⟨fun i j h1 h2 => by omega, fun i j h1 h2 => by omega, fun i j h1 h2 => by omega, fun j hj => ?_⟩, fun j hj => by omega⟩
    obtain rfl : j = 0 := by omega
    show S.vdot (S.grad x0) ((-1 : K) • S.grad x0) = _
    rw [hv.smul_right, neg_one_mul]; rfl
  | succ k ih =>
    obtain ⟨⟨gg, gd, dd, gs⟩, hdir⟩ := ih (fun j hj => hbig j (by omega))
    -- the gradient in terms of directions
    have hgrad : ∀ i ≤ k, ∀ w, (∀ l ≤ i, S.vdot w (S.iterate x0 l).2.descentDirection = 0) → S.vdot w (S.iterate x0 i).2.grad = 0 := by
      intro i hi w hw
      cases i with
      | zero =>
        have := hw 0 (le_refl _)
        have e : (S.iterate x0 0).2.descentDirection = -(S.iterate x0 0).2.grad := by
          show (-1 : K) • S.grad x0 = -S.grad x0
          rw [neg_smul, one_smul]
        rw [e, hv.neg_right] at this
        linarith
      | succ i =>
        have h1 := hw (i + 1) (le_refl _)
        have h2 := hw i (by omega)
        rw [hdir i (by omega), hv.add_right, hv.neg_right, hv.smul_right, h2] at h1
        linarith
    obtain ⟨t, e1, e2, e3⟩ := step_exact h x0 k
    have hk := hbig k (by omega)
    have hkp : 0 < S.vdot (S.iterate x0 k).2.grad (S.iterate x0 k).2.grad := lt_of_lt_of_le (by positivity) hk
    have gd' : ∀ i ≤ k, S.vdot (S.iterate x0 (k + 1)).2.grad (S.iterate x0 i).2.descentDirection = 0 := by
      intro i hi
      rcases Nat.lt_or_ge i k with hik | hik
      · rw [e2, hv.add_left, hv.smul_left, gd i k hik (le_refl _), h.self, dd i k hik (le_refl _)]; ring
      · obtain rfl : i = k := by omega
        exact e3
    have gg' : ∀ i ≤ k, S.vdot (S.iterate x0 (k + 1)).2.grad (S.iterate x0 i).2.grad = 0 := fun i hi =>
      hgrad i hi _ (fun l hl => gd' l (by omega))
    have hb : cgBeta S.vdot S.method (S.iterate x0 k).2.grad (S.iterate x0 (k + 1)).2.grad (S.iterate x0 k).2.descentDirection =
        S.vdot (S.iterate x0 (k + 1)).2.grad (S.iterate x0 (k + 1)).2.grad / S.vdot (S.iterate x0 k).2.grad (S.iterate x0 k).2.grad :=
      beta_eq hv S.method e3 (gs k (le_refl _)) (gg' k (le_refl _)) hk
    have hd := S.dir_succ x0 k
    rw [hb] at hd
    have dd' : ∀ i ≤ k, S.vdot (S.iterate x0 (k + 1)).2.descentDirection (A (S.iterate x0 i).2.descentDirection) = 0 := by
      intro i hi
      obtain ⟨ti, f1, f2, f3⟩ := step_exact h x0 i
      have hti : ti ≠ 0 := by
        intro h0
        rw [h0, zero_smul, add_zero] at f2
        rw [f2, gs i hi] at f3
        have hpi : 0 < S.vdot (S.iterate x0 i).2.grad (S.iterate x0 i).2.grad :=
          lt_of_lt_of_le (by positivity) (hbig i (by omega))
        linarith
      have key : ti * S.vdot (S.iterate x0 (k + 1)).2.descentDirection (A (S.iterate x0 i).2.descentDirection) =
          S.vdot (S.iterate x0 (k + 1)).2.descentDirection (S.iterate x0 (i + 1)).2.grad -
          S.vdot (S.iterate x0 (k + 1)).2.descentDirection (S.iterate x0 i).2.grad := by
        rw [f2, hv.add_right, hv.smul_right]; ring
      have hz : ti * S.vdot (S.iterate x0 (k + 1)).2.descentDirection (A (S.iterate x0 i).2.descentDirection) = 0 := by
        rcases Nat.lt_or_ge i k with hik | hik
        · rw [hd, hv.add_left, hv.neg_left, hv.smul_left, dd i k hik (le_refl _)]
          have q : ti * S.vdot (S.iterate x0 (k + 1)).2.grad (A (S.iterate x0 i).2.descentDirection) = 0 := by
            have : ti * S.vdot (S.iterate x0 (k + 1)).2.grad (A (S.iterate x0 i).2.descentDirection) =
                S.vdot (S.iterate x0 (k + 1)).2.grad (S.iterate x0 (i + 1)).2.grad -
                S.vdot (S.iterate x0 (k + 1)).2.grad (S.iterate x0 i).2.grad := by
              rw [f2, hv.add_right, hv.smul_right]; ring
            rw [this, gg' (i + 1) (by omega), gg' i hi, sub_zero]
          linear_combination -q
        · obtain rfl : i = k := by omega
          rw [key, hd, hv.add_left, hv.add_left, hv.neg_left, hv.neg_left, hv.smul_left, hv.smul_left,
            hv.symm (S.iterate x0 i).2.descentDirection, hv.symm (S.iterate x0 i).2.descentDirection, gd' i (le_refl _),
            gs i (le_refl _), gg' i (le_refl _)]
          field_simp
          ring
      rcases mul_eq_zero.mp hz with hz | hz
      · exact absurd hz hti
      · exact hz
    refine ⟨⟨?_, ?_, ?_, ?_⟩, ?_⟩
    · intro i j hij hj
      rcases Nat.lt_or_ge j (k + 1) with hjk | hjk
      · exact gg i j hij (by omega)
      · obtain rfl : j = k + 1 := by omega
        exact gg' i (by omega)
    · intro i j hij hj
      rcases Nat.lt_or_ge j (k + 1) with hjk | hjk
      · exact gd i j hij (by omega)
      · obtain rfl : j = k + 1 := by omega
        exact gd' i (by omega)
    · intro i j hij hj
      rcases Nat.lt_or_ge j (k + 1) with hjk | hjk
      · exact dd i j hij (by omega)
      · obtain rfl : j = k + 1 := by omega
        exact dd' i (by omega)
    · intro j hj
      rcases Nat.lt_or_ge j (k + 1) with hjk | hjk
      · exact gs j (by omega)
      · obtain rfl : j = k + 1 := by omega
        rw [hd, hv.add_right, hv.neg_right, hv.smul_right, gd' k (le_refl _)]; ring
    · intro j hj
      rcases Nat.lt_or_ge j k with hjk | hjk
      · exact hdir j hjk
      · obtain rfl : j = k := by omega
        exact hd

/-- **C81** (conjugacy).  While the squared gradient norms are at least `1e-6`, each new gradient is orthogonal to all previous
gradients and directions (so each iterate is optimal in the affine space spanned by the directions so far), the directions are
`A`-conjugate and descent directions, and beta is the Fletcher-Reeves quotient whatever the selected method. -/
theorem C81_conjugate {S : NCG K E V} {A : E →ₗ[K] E} {b : E} (h : ExactQuadratic S A b) (x0 : E) (k : ℕ)
    (hbig : ∀ j < k, 1 / 1000000 ≤ S.vdot (S.grad (S.iterate x0 j).1) (S.grad (S.iterate x0 j).1)) (i j : ℕ) (hij : i < j) (hj : j ≤ k) :
    S.vdot (S.grad (S.iterate x0 j).1) (S.grad (S.iterate x0 i).1) = 0 ∧
    S.vdot (S.grad (S.iterate x0 j).1) (S.iterate x0 i).2.descentDirection = 0 ∧
    S.vdot (S.iterate x0 j).2.descentDirection (A (S.iterate x0 i).2.descentDirection) = 0 ∧
    S.vdot (S.grad (S.iterate x0 j).1) (S.iterate x0 j).2.descentDirection = -S.vdot (S.grad (S.iterate x0 j).1) (S.grad (S.iterate x0 j).1) := by
  have hg := fun l => (S.grad_iterate h.sound x0 l).1
  obtain ⟨⟨c1, c2, c3, c4⟩, _⟩ := conj_all h x0 k (fun j hj => by rw [hg]; exact hbig j hj)
  simp only [← hg]
  exact ⟨c1 i j hij hj, c2 i j hij hj, c3 i j hij hj, c4 j hj⟩

/-- **C81** (methods).  On quadratics with an exact line search the attribute `method` makes no difference as long as the squared gradient
norms are at least `1e-6`: the solver with any other method has the same iterates and states. -/
theorem C81_methods_agree {S : NCG K E V} {A : E →ₗ[K] E} {b : E} (h : ExactQuadratic S A b) (m : CGMethod) (x0 : E) (k : ℕ)
    (hbig : ∀ j < k, 1 / 1000000 ≤ S.vdot (S.grad (S.iterate x0 j).1) (S.grad (S.iterate x0 j).1)) (j : ℕ) (hj : j ≤ k) :
    NCG.iterate { S with method := m } x0 j = S.iterate x0 j := by
  have hg := fun l => (S.grad_iterate h.sound x0 l).1
  obtain ⟨⟨c1, c2, c3, c4⟩, hdir⟩ := conj_all h x0 k (fun j hj => by rw [hg]; exact hbig j hj)
  induction j with
  | zero => rfl
  | succ j ih =>
    have hb : ∀ m', cgBeta S.vdot m' (S.iterate x0 j).2.grad (S.iterate x0 (j + 1)).2.grad (S.iterate x0 j).2.descentDirection =
        S.vdot (S.iterate x0 (j + 1)).2.grad (S.iterate x0 (j + 1)).2.grad / S.vdot (S.iterate x0 j).2.grad (S.iterate x0 j).2.grad :=
      fun m' => beta_eq h.vd m' (c2 j (j + 1) (by omega) hj) (c4 j (by omega)) (c1 j (j + 1) (by omega) hj)
        (by rw [hg]; exact hbig j (by omega))
    have e1 : (S.iterate x0 (j + 1)).2.grad = (S.lineSearch (S.iterate x0 j)).grad := by rw [iterate_succ]; rfl
    rw [iterate_succ, ih (by omega), iterate_succ]
    have hl : NCG.lineSearch { S with method := m } (S.iterate x0 j) = S.lineSearch (S.iterate x0 j) := rfl
    simp only [update, hl]
    rw [← e1, hb m, hb S.method]

/-- Orthogonal non-zero vectors: there are at most as many as the dimension. -/
theorem card_le_finrank [Module.Finite K E] {vdot : E → E → K} (hv : IsVdot vdot) (g : ℕ → E) (n : ℕ)
    (horth : ∀ i j, i < j → j < n → vdot (g j) (g i) = 0) (hne : ∀ i < n, 0 < vdot (g i) (g i)) : n ≤ Module.finrank K E := by
  have hli : LinearIndependent K (fun i : Fin n => g i) := by
    rw [linearIndependent_iff']
    intro s c hsum i hi
    have hv0 : vdot (∑ j ∈ s, c j • g j) (g i) = c i * vdot (g i) (g i) := by
      have hlin : ∀ t : Finset (Fin n), vdot (∑ j ∈ t, c j • g j) (g i) = ∑ j ∈ t, c j * vdot (g j) (g i) := by
        intro t
        induction t using Finset.induction_on with
        | empty => simp [hv.zero_left]
        | insert a t ha ih => rw [Finset.sum_insert ha, Finset.sum_insert ha, hv.add_left, hv.smul_left, ih]
      rw [hlin]
      refine Finset.sum_eq_single_of_mem i hi fun j _ hji => ?_
      rcases Nat.lt_trichotomy j i with hlt | heq | hgt
      · rw [hv.symm, horth j i hlt i.isLt, mul_zero]
      · exact absurd (Fin.ext heq) hji
      · rw [horth i j hgt j.isLt, mul_zero]
    rw [hsum, hv.zero_left] at hv0
    rcases mul_eq_zero.mp hv0.symm with h0 | h0
    · exact h0
    · exact absurd h0 (ne_of_gt (hne i i.isLt))
  have := hli.fintype_card_le_finrank
  simpa using this

/-- **C81** (termination).  Some iterate with index at most the number of parameters has squared gradient norm below `1e-6`. -/
theorem C81_terminates [Module.Finite K E] {S : NCG K E V} {A : E →ₗ[K] E} {b : E} (h : ExactQuadratic S A b) (x0 : E) :
    ∃ k ≤ Module.finrank K E, S.vdot (S.grad (S.iterate x0 k).1) (S.grad (S.iterate x0 k).1) < 1 / 1000000 := by
  by_contra hcon
  push Not at hcon
  set n := Module.finrank K E with hn
  have hc := C81_conjugate h x0 n (fun j hj => hcon j (by omega))
  have := card_le_finrank h.vd (fun i => S.grad (S.iterate x0 i).1) (n + 1) (fun i j hij hj => (hc i j hij (by omega)).1)
    (fun i hi => lt_of_lt_of_le (by positivity) (hcon i (by omega)))
  omega

/-- **C81** (run).  With the default tolerance `1e-3` or a larger one, a run whose `maxiter` exceeds the number of parameters stops after
at most one iteration more than there are parameters, because of the tolerance: the gradient norm before the last step is at most `tol`. -/
theorem C81_run [Module.Finite K E] {S : NCG K E V} {A : E →ₗ[K] E} {b : E} (h : ExactQuadratic S A b)
    (hnorm : ∀ g, 0 ≤ S.norm g ∧ S.norm g * S.norm g = S.vdot g g) (htol : 1 / 1000 ≤ S.tol) (hmax : Module.finrank K E < S.maxiter)
    (x0 : E) {r : E × NCGState K E V} (hr : S.run x0 = .ok r) :
    ∃ k, 1 ≤ k ∧ k ≤ Module.finrank K E + 1 ∧ r = S.iterate x0 k ∧ r.2.iterNum = k ∧ ∃ e, r.2.error = .fin e ∧ e ≤ S.tol ∧
      e = S.norm (S.grad (S.iterate x0 (k - 1)).1) := by
  obtain ⟨k0, hk0, hsmall⟩ := C81_terminates h x0
  have hle : S.norm (S.grad (S.iterate x0 k0).1) ≤ S.tol := by
    obtain ⟨n0, n1⟩ := hnorm (S.grad (S.iterate x0 k0).1)
    rw [← n1] at hsmall
    by_contra hc
    rw [not_le] at hc
    have h1 : 1 / 1000 < S.norm (S.grad (S.iterate x0 k0).1) := lt_of_le_of_lt htol hc
    nlinarith
  obtain ⟨k, h1, h2, h3, h4, h5⟩ := C74_ncg_run S h.sound (by omega) x0 hr
  have hk : k ≤ k0 + 1 := by
    by_contra hc
    have := h5 (k0 + 1) (by omega) (by omega)
    rw [Nat.add_sub_cancel] at this
    exact absurd hle (not_le.mpr this)
  have hit : ∀ l, (S.iterate x0 l).2.iterNum = l := by
    intro l
    induction l with
    | zero => rfl
    | succ l ih => rw [iterate_succ]; simp only [update]; rw [ih]
  have herr : (S.iterate x0 k).2.error = .fin (S.norm (S.grad (S.iterate x0 (k - 1)).1)) := by
    obtain ⟨j, rfl⟩ := Nat.exists_eq_add_of_le' h1
    exact S.C34_error_partial h.sound x0 j
  refine ⟨k, h1, by omega, h3, by rw [h3]; exact hit k, _, by rw [h3]; exact herr, ?_, rfl⟩
  rcases h4 with h4 | h4
  · have : k = k0 + 1 := by omega
    rw [this, Nat.add_sub_cancel]; exact hle
  · exact h4

end NCG

/-! ## Example and the effect of the clipped denominators -/

/-- The exact line search for `x²/2 + y²`. -/
def exQuadLs : ℚ → ℚ × ℚ → ℚ → ℚ × ℚ → Option (ℚ × ℚ) → LsOut ℚ (ℚ × ℚ) ℚ := fun _ x _ g d =>
  let d := d.getD (-g)
  let t := -(x.1 * d.1 + 2 * x.2 * d.2) / (d.1 * d.1 + 2 * d.2 * d.2)
  let x' := x + t • d
  ⟨t, x', x'.1 * x'.1 / 2 + x'.2 * x'.2, (x'.1, 2 * x'.2), false⟩

/-- `f(x, y) = x²/2 + y²` on `ℚ²` with an exact line search. -/
def exQuad (m : CGMethod) : NCG ℚ (ℚ × ℚ) ℚ :=
  { exNCG "zoom" m with runLs := exQuadLs }

/-- `diag(1, 2)`. -/
def exQuadA : ℚ × ℚ →ₗ[ℚ] ℚ × ℚ where
  toFun := fun p => (p.1, 2 * p.2)
  map_add' := fun p q => by ext <;> simp; ring
  map_smul' := fun a p => by ext <;> simp; ring

theorem exQuad_spec (m : CGMethod) : ExactQuadratic (exQuad m) exQuadA 0 where
  vd := IsVdot.prod IsVdot.mul IsVdot.mul
  grad := fun x => by rw [sub_zero]; rfl
  self := fun u v => by simp only [exQuad, exNCG, exQuadA, LinearMap.coe_mk, AddHom.coe_mk]; ring
  dir := by simp only [exQuad, exNCG]; decide
  sound := fun s x v g d => ⟨rfl, rfl⟩
  exact := by
    intro s x v g d
    refine ⟨-(x.1 * d.1 + 2 * x.2 * d.2) / (d.1 * d.1 + 2 * d.2 * d.2), rfl, ?_⟩
    simp only [exQuad, exNCG, exQuadLs, Option.getD_some, Prod.fst_add, Prod.snd_add, Prod.smul_fst, Prod.smul_snd, smul_eq_mul]
    by_cases hd : d.1 * d.1 + 2 * d.2 * d.2 = 0
    · have h1 : d.1 = 0 := by nlinarith [mul_self_nonneg d.1, mul_self_nonneg d.2]
      have h2 : d.2 = 0 := by nlinarith [mul_self_nonneg d.1, mul_self_nonneg d.2]
      rw [h1, h2]; ring
    · have ht := div_mul_cancel₀ (-(x.1 * d.1 + 2 * x.2 * d.2)) hd
      linear_combination ht

/-- Non-vacuity: from `(2, 1)` the minimiser is reached exactly after two updates, which are not steepest descent steps. -/
example : ((exQuad .polakRibiere).iterate (2, 1) 1).1 = (2 / 3, -1 / 3) ∧ ((exQuad .polakRibiere).iterate (2, 1) 2).1 = (0, 0) ∧
    (((exQuad .hestenesStiefel).run (2, 1)).toOption.map fun r => (r.1, r.2.iterNum)) = some ((0, 0), 3) := by decide +kernel

/-- **C81 is false below the threshold.**  Without the hypothesis on the gradient norms the method does not terminate on quadratics: from
`(2, 1) / 10000` no iterate up to the number of parameters (nor the next one) has gradient zero, although the run from `(2, 1)` reaches
the minimiser in two steps; the betas are too small as their denominators are replaced by `1e-6`. -/
theorem C81_small_gradients_false : ¬ ∀ (S : NCG ℚ (ℚ × ℚ) ℚ) (A : ℚ × ℚ →ₗ[ℚ] ℚ × ℚ) (b x0 : ℚ × ℚ), ExactQuadratic S A b →
    ∃ k ≤ Module.finrank ℚ (ℚ × ℚ) + 1, S.grad (S.iterate x0 k).1 = 0 := by
  intro hall
  obtain ⟨k, hk, h0⟩ := hall (exQuad .polakRibiere) exQuadA 0 (2 / 10000, 1 / 10000) (exQuad_spec _)
  have e : Module.finrank ℚ (ℚ × ℚ) = 2 := by rw [Module.finrank_prod, Module.finrank_self]
  rw [e] at hk
  have : k = 0 ∨ k = 1 ∨ k = 2 ∨ k = 3 := by omega
  rcases this with rfl | rfl | rfl | rfl
  all_goals
    revert h0
    decide +kernel

end Jaxopt.QuasiNewton
