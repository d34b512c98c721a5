import Verif.Implicit.RootProps
import Verif.FixedPoint.IterationProps
import Mathlib.Analysis.Calculus.MeanValue
import Mathlib.Analysis.SpecificLimits.Normed

/-!
# Property C101: derivatives computed at an approximate solution

`root_jvp` and `root_vjp` are called with the point that the solver returned, which solves the optimality condition only up to `tol`, and with a
linear solver that is itself iterative.  The theorems bound the error of the derivatives by the error of the solution and the relative residual of
the linear solver, in general and for a run of `FixedPointIteration`; and compare with the derivative of the unrolled iteration
(`implicit_diff=False`).
-/

set_option autoImplicit false
set_option linter.unusedSectionVars false
set_option linter.unusedVariables false

namespace Jaxopt.Implicit

open ContinuousLinearMap Filter
open scoped InnerProductSpace Topology

variable {ι : Type*} [Fintype ι] [DecidableEq ι]
variable {E : Type*} [NormedAddCommGroup E] [InnerProductSpace ℝ E] [CompleteSpace E]
variable {P : ι → Type*} [∀ i, NormedAddCommGroup (P i)] [∀ i, InnerProductSpace ℝ (P i)] [∀ i, CompleteSpace (P i)]

/-! ## Specification -/

/-- A linear solver that reduces the residual of every invertible system to the fraction `η` of the right-hand side. -/
def ApproxSolve (η : ℝ) (solve : (E → E) → E → E) : Prop :=
  ∀ (A : E →L[ℝ] E), Function.Bijective A → ∀ b, ‖A (solve A b) - b‖ ≤ η * ‖b‖

theorem ExactSolve.approx {solve : (E → E) → E → E} (h : ExactSolve solve) : ApproxSolve 0 solve := fun A hA b => by
  rw [h A hA b]; simp

/-! ## Lemmas -/

theorem bijective_of_lower [FiniteDimensional ℝ E] {A : E →L[ℝ] E} {α : ℝ} (hα : 0 < α) (h : ∀ v, α * ‖v‖ ≤ ‖A v‖) : Function.Bijective A := by
  have hinj : Function.Injective A := by
    rw [injective_iff_map_eq_zero]
    intro v hv
    have := h v
    rw [hv, norm_zero] at this
    have h2 := norm_nonneg v
    exact norm_eq_zero.mp (by nlinarith)
  refine ⟨hinj, ?_⟩
  have := LinearMap.injective_iff_surjective (f := (A : E →ₗ[ℝ] E))
  exact this.mp hinj

theorem lower_adjoint {A : E →L[ℝ] E} {α : ℝ} (hα : 0 < α) (h : ∀ v, α * ‖v‖ ≤ ‖A v‖) (hs : Function.Surjective A) (v : E) :
    α * ‖v‖ ≤ ‖adjoint A v‖ := by
  obtain ⟨z, rfl⟩ := hs v
  have h1 : ‖A z‖ * ‖A z‖ = ⟪z, adjoint A (A z)⟫_ℝ := by
    rw [adjoint_inner_right, real_inner_self_eq_norm_mul_norm]
  have h2 : ⟪z, adjoint A (A z)⟫_ℝ ≤ ‖z‖ * ‖adjoint A (A z)‖ := real_inner_le_norm _ _
  have h3 := h z
  rcases (norm_nonneg (A z)).eq_or_lt with h0 | h0
  · rw [← h0, mul_zero]; exact norm_nonneg _
  · have h4 : α * (‖A z‖ * ‖A z‖) ≤ ‖A z‖ * ‖adjoint A (A z)‖ := by
      have := mul_le_mul_of_nonneg_left (h1.le.trans h2) hα.le
      have h5 := mul_le_mul_of_nonneg_right h3 (norm_nonneg (adjoint A (A z)))
      linarith
    have : ‖A z‖ * (α * ‖A z‖) ≤ ‖A z‖ * ‖adjoint A (A z)‖ := by linarith
    exact le_of_mul_le_mul_left this h0

theorem adjoint_surjective {A : E →L[ℝ] E} [FiniteDimensional ℝ E] {α : ℝ} (hα : 0 < α) (h : ∀ v, α * ‖v‖ ≤ ‖A v‖) :
    Function.Bijective (adjoint A) :=
  bijective_of_lower hα (lower_adjoint hα h (bijective_of_lower hα h).2)

theorem nadj {X Y : Type*} [NormedAddCommGroup X] [InnerProductSpace ℝ X] [CompleteSpace X] [NormedAddCommGroup Y] [InnerProductSpace ℝ Y]
    [CompleteSpace Y] (C : X →L[ℝ] Y) : ‖adjoint C‖ = ‖C‖ := LinearIsometryEquiv.norm_map _ C

/-- The lower bound at the approximate solution from the one at the solution. -/
theorem lower_perturb {A A' : E →L[ℝ] E} {α γ : ℝ} (h : ∀ v, α * ‖v‖ ≤ ‖A v‖) (hd : ‖A' - A‖ ≤ γ) (v : E) : (α - γ) * ‖v‖ ≤ ‖A' v‖ := by
  have h1 := h v
  have h2 := (A' - A).le_opNorm v
  have h3 : ‖A v‖ ≤ ‖A' v‖ + ‖(A' - A) v‖ := by
    have : A v = A' v - (A' - A) v := by simp
    rw [this]; exact norm_sub_le _ _
  have h4 := mul_le_mul_of_nonneg_right hd (norm_nonneg v)
  linarith

/-! ## C101 -/

section Root

variable [FiniteDimensional ℝ E] {F : E → (∀ i, P i) → E} {x : (∀ i, P i) → E} {θ : ∀ i, P i} (h : RootAt F x θ) {solve : (E → E) → E → E} {η : ℝ}
  (hs : ApproxSolve η solve) {z : E} {α γ β : ℝ}

include h hs

/-- **C101**, Jacobian-vector product at an approximate solution `z`: if the derivative of the optimality function in the solution is bounded below by
`α > γ` at the exact solution and differs there from the one at `z` by at most `γ`, and the derivatives in the arguments differ by at most `β`, then
`root_jvp` has an error of at most `(γ‖x'(θ)t‖ + β‖t‖ + η‖∂₂F(z)t‖)/(α-γ)`. -/
theorem C101_jvp (hα : ∀ v, α * ‖v‖ ≤ ‖fderiv ℝ (fun s => F s θ) (x θ) v‖) (hγα : γ < α)
    (hγ : ‖fderiv ℝ (fun s => F s θ) z - fderiv ℝ (fun s => F s θ) (x θ)‖ ≤ γ)
    (hβ : ‖fderiv ℝ (fun a => F z a) θ - fderiv ℝ (fun a => F (x θ) a) θ‖ ≤ β) (t : ∀ i, P i) :
    ‖rootJvp F z θ t solve - fderiv ℝ x θ t‖ ≤
      (γ * ‖fderiv ℝ x θ t‖ + β * ‖t‖ + η * ‖fderiv ℝ (fun a => F z a) θ t‖) / (α - γ) := by
  set A := fderiv ℝ (fun s => F s θ) z with hA
  set A0 := fderiv ℝ (fun s => F s θ) (x θ) with hA0
  set B := fderiv ℝ (fun a => F z a) θ with hB
  set B0 := fderiv ℝ (fun a => F (x θ) a) θ with hB0
  set j := fderiv ℝ x θ t with hj
  have hlow := lower_perturb hα hγ
  have hbij := bijective_of_lower (sub_pos.mpr hγα) hlow
  set y := rootJvp F z θ t solve with hy
  have e : ‖A y - B ((-1 : ℝ) • t)‖ ≤ η * ‖B ((-1 : ℝ) • t)‖ := hs A hbij (B ((-1 : ℝ) • t))
  have e2 : B ((-1 : ℝ) • t) = -B t := by rw [map_smul, neg_one_smul]
  rw [e2, norm_neg, sub_neg_eq_add] at e
  have himp : A0 j = -B0 t := h.implicit t
  have key : A (y - j) = (A y + B t) - (B - B0) t - (A - A0) j := by
    rw [map_sub]
    simp only [ContinuousLinearMap.sub_apply]
    rw [himp]; abel
  rw [le_div_iff₀ (sub_pos.mpr hγα), mul_comm]
  refine (hlow (y - j)).trans ?_
  rw [key]
  have n1 := (B - B0).le_opNorm t
  have n2 := (A - A0).le_opNorm j
  have n3 := mul_le_mul_of_nonneg_right hβ (norm_nonneg t)
  have n4 := mul_le_mul_of_nonneg_right hγ (norm_nonneg j)
  have n5 := norm_sub_le ((A y + B t) - (B - B0) t) ((A - A0) j)
  have n6 := norm_sub_le (A y + B t) ((B - B0) t)
  linarith

/-- **C101**, vector-Jacobian product at an approximate solution, in each argument. -/
theorem C101_vjp (hα0 : 0 < α) (hα : ∀ v, α * ‖v‖ ≤ ‖fderiv ℝ (fun s => F s θ) (x θ) v‖) (hγα : γ < α)
    (hγ : ‖fderiv ℝ (fun s => F s θ) z - fderiv ℝ (fun s => F s θ) (x θ)‖ ≤ γ) (i : ι)
    (hβ : ‖fderiv ℝ (fun s => F z (Function.update θ i s)) (θ i) - fderiv ℝ (fun s => F (x θ) (Function.update θ i s)) (θ i)‖ ≤ β) (w : E) :
    ‖rootVjp F z θ w solve i - adjoint (fderiv ℝ (fun s => x (Function.update θ i s)) (θ i)) w‖ ≤
      (‖fderiv ℝ (fun s => F z (Function.update θ i s)) (θ i)‖ * ((γ / α + η) / (α - γ)) + β / α) * ‖w‖ := by
  classical
  set A := fderiv ℝ (fun s => F s θ) z with hA
  set A0 := fderiv ℝ (fun s => F s θ) (x θ) with hA0
  set B := fderiv ℝ (fun s => F z (Function.update θ i s)) (θ i) with hB
  set B0 := fderiv ℝ (fun s => F (x θ) (Function.update θ i s)) (θ i) with hB0
  have hlow := lower_perturb hα hγ
  have hpos := sub_pos.mpr hγα
  have hlowT := lower_adjoint hpos hlow (bijective_of_lower hpos hlow).2
  have hlowT0 := lower_adjoint hα0 hα (bijective_of_lower hα0 hα).2
  -- an exact solver, for the derivative at the exact solution
  obtain ⟨ex, hex⟩ : ∃ solve : (E → E) → E → E, ExactSolve solve := by
    refine ⟨fun A b => if h : ∃ z, A z = b then h.choose else 0, fun A hA b => ?_⟩
    obtain ⟨z, hz⟩ := hA.2 b
    have hex : ∃ z, A z = b := ⟨z, hz⟩
    simp only [dif_pos hex]
    exact hex.choose_spec
  rw [← C41_vjp h hex w i]
  set u := solve (adjoint A) ((-1 : ℝ) • w) with hu
  set u0 := ex (adjoint A0) ((-1 : ℝ) • w) with hu0
  have e1 : rootVjp F z θ w solve i = adjoint B u := rfl
  have e2 : rootVjp F (x θ) θ w ex i = adjoint B0 u0 := rfl
  have r1 : ‖adjoint A u - (-1 : ℝ) • w‖ ≤ η * ‖(-1 : ℝ) • w‖ := hs (adjoint A) (adjoint_surjective hpos hlow) _
  have r2 : adjoint A0 u0 = (-1 : ℝ) • w := hex (adjoint A0) (adjoint_surjective hα0 hα) _
  have hw : ‖(-1 : ℝ) • w‖ = ‖w‖ := by rw [neg_one_smul, norm_neg]
  rw [hw] at r1
  have hu0n : α * ‖u0‖ ≤ ‖w‖ := by have := hlowT0 u0; rwa [r2, hw] at this
  have hu0n' : ‖u0‖ ≤ ‖w‖ / α := by rw [le_div_iff₀ hα0]; linarith
  have hγT : ‖adjoint A - adjoint A0‖ ≤ γ := by rw [← map_sub, nadj]; exact hγ
  have hβT : ‖adjoint B - adjoint B0‖ ≤ β := by rw [← map_sub, nadj]; exact hβ
  have key : adjoint A (u - u0) = (adjoint A u - (-1 : ℝ) • w) - (adjoint A - adjoint A0) u0 := by
    rw [map_sub]
    simp only [ContinuousLinearMap.sub_apply]
    rw [r2]; abel
  have hdiff : ‖u - u0‖ ≤ (γ / α + η) / (α - γ) * ‖w‖ := by
    have n1 := hlowT (u - u0)
    rw [key] at n1
    have n2 := norm_sub_le (adjoint A u - (-1 : ℝ) • w) ((adjoint A - adjoint A0) u0)
    have n3 := (adjoint A - adjoint A0).le_opNorm u0
    have n4 := mul_le_mul hγT hu0n' (norm_nonneg _) ((norm_nonneg _).trans hγT)
    have n5 : (α - γ) * ‖u - u0‖ ≤ (γ / α + η) * ‖w‖ := by
      have : γ * (‖w‖ / α) = γ / α * ‖w‖ := by ring
      linarith
    rw [div_mul_eq_mul_div, le_div_iff₀ hpos]; linarith
  rw [e1, e2]
  have e3 : adjoint B u - adjoint B0 u0 = adjoint B (u - u0) + (adjoint B - adjoint B0) u0 := by
    rw [map_sub]; simp only [ContinuousLinearMap.sub_apply]; abel
  rw [e3]
  have m1 := norm_add_le (adjoint B (u - u0)) ((adjoint B - adjoint B0) u0)
  have m2 := (adjoint B).le_opNorm (u - u0)
  rw [nadj] at m2
  have m3 := (adjoint B - adjoint B0).le_opNorm u0
  have m4 := mul_le_mul_of_nonneg_left hdiff (norm_nonneg B)
  have m5 := mul_le_mul hβT hu0n' (norm_nonneg _) ((norm_nonneg _).trans hβT)
  have m6 : β * (‖w‖ / α) = β / α * ‖w‖ := by ring
  linarith

end Root

/-! ## Fixed point iteration -/

section FixedPoint

variable {T : E → (∀ i, P i) → E} {x : (∀ i, P i) → E} {θ : ∀ i, P i}

theorem partials (hT : ∀ p : E × (∀ i, P i), DifferentiableAt ℝ (fun p : E × (∀ i, P i) => T p.1 p.2) p) (s : E) (θ : ∀ i, P i) :
    HasFDerivAt (fun s => T s θ) (fderiv ℝ (fun s => T s θ) s) s ∧ HasFDerivAt (fun a => T s a) (fderiv ℝ (fun a => T s a) θ) θ ∧
      ∀ u : E, ∀ t : ∀ i, P i, fderiv ℝ (fun p : E × (∀ i, P i) => T p.1 p.2) (s, θ) (u, t) =
        fderiv ℝ (fun s => T s θ) s u + fderiv ℝ (fun a => T s a) θ t := by
  have h1 := HasFDerivAt.comp s (f := fun s => (s, θ)) (hT (s, θ)).hasFDerivAt (hasFDerivAt_prodMk_left s θ)
  have h2 := HasFDerivAt.comp θ (f := fun t => (s, t)) (hT (s, θ)).hasFDerivAt (hasFDerivAt_prodMk_right s θ)
  refine ⟨h1.differentiableAt.hasFDerivAt, h2.differentiableAt.hasFDerivAt, fun u t => ?_⟩
  have e1 : fderiv ℝ (fun s => T s θ) s u = fderiv ℝ (fun p : E × (∀ i, P i) => T p.1 p.2) (s, θ) (u, 0) := by
    have := congrArg (fun L => L u) h1.fderiv
    exact this
  have e2 : fderiv ℝ (fun a => T s a) θ t = fderiv ℝ (fun p : E × (∀ i, P i) => T p.1 p.2) (s, θ) (0, t) := by
    have := congrArg (fun L => L t) h2.fderiv
    exact this
  rw [e1, e2, ← map_add]
  simp

/-- A bound on the derivative makes the map a contraction. -/
theorem contraction_of_deriv (hT : ∀ p : E × (∀ i, P i), DifferentiableAt ℝ (fun p : E × (∀ i, P i) => T p.1 p.2) p) {q : ℝ}
    (hq : ∀ s, ‖fderiv ℝ (fun s => T s θ) s‖ ≤ q) (a b : E) : dist (T a θ) (T b θ) ≤ q * dist a b := by
  rw [dist_eq_norm, dist_eq_norm]
  exact Convex.norm_image_sub_le_of_norm_fderiv_le (f := fun s => T s θ) (fun s _ => (partials hT s θ).1.differentiableAt) (fun s _ => hq s)
    convex_univ (Set.mem_univ b) (Set.mem_univ a)

theorem fderiv_optimality (hT : ∀ p : E × (∀ i, P i), DifferentiableAt ℝ (fun p : E × (∀ i, P i) => T p.1 p.2) p) (s : E) :
    fderiv ℝ (fun s => fixedPointOptimality T s θ) s = fderiv ℝ (fun s => T s θ) s - ContinuousLinearMap.id ℝ E ∧
      fderiv ℝ (fun a => fixedPointOptimality T s a) θ = fderiv ℝ (fun a => T s a) θ := by
  constructor
  · exact ((partials hT s θ).1.sub (hasFDerivAt_id s)).fderiv
  · exact ((partials hT s θ).2.1.sub_const s).fderiv

/-- **C101**, end to end for `FixedPointIteration`: if the derivative of the map in the parameters is bounded by `q < 1` and Lipschitz with constant
`γ`, and its derivative in the arguments is Lipschitz with constant `β`, then after a run that stopped by its tolerance the directional derivative
obtained by implicit differentiation differs from that of the fixed point by at most
`((γ‖x'(θ)t‖ + β‖t‖) q/(1-q) tol + η‖∂₂T(z)t‖)/(1 - q - γ q/(1-q) tol)`. -/
theorem C101_fixed_point [FiniteDimensional ℝ E] {A : Type*} (hT : ∀ p : E × (∀ i, P i), DifferentiableAt ℝ (fun p : E × (∀ i, P i) => T p.1 p.2) p)
    (hx : DifferentiableAt ℝ x θ) (hfix : ∀ᶠ t in 𝓝 θ, T (x t) t = x t) {q γ β η : ℝ} (hq1 : q < 1)
    (hq : ∀ s, ‖fderiv ℝ (fun s => T s θ) s‖ ≤ q)
    (hγ : ∀ s s', ‖fderiv ℝ (fun s => T s θ) s - fderiv ℝ (fun s => T s θ) s'‖ ≤ γ * ‖s - s'‖)
    (hβ : ∀ s s', ‖fderiv ℝ (fun a => T s a) θ - fderiv ℝ (fun a => T s' a) θ‖ ≤ β * ‖s - s'‖)
    (hγ0 : 0 ≤ γ) (hβ0 : 0 ≤ β)
    {solve : (E → E) → E → E} (hs : ApproxSolve η solve)
    (S : FixedPoint.FPI ℝ E A) (hn : S.norm = (‖·‖)) (hmap : S.map = fun s => T s θ) (hm : 1 ≤ S.maxiter) {x0 : E} {r : E × FixedPoint.FPIState ℝ A}
    (hr : S.run x0 = .ok r) {e : ℝ} (he : r.2.error = .fin e) (het : e ≤ S.tol) (hsmall : γ * (q / (1 - q) * S.tol) < 1 - q) (t : ∀ i, P i) :
    ‖rootJvp (fixedPointOptimality T) r.1 θ t solve - fderiv ℝ x θ t‖ ≤
      ((γ * ‖fderiv ℝ x θ t‖ + β * ‖t‖) * (q / (1 - q) * S.tol) + η * ‖fderiv ℝ (fun a => T r.1 a) θ t‖) / (1 - q - γ * (q / (1 - q) * S.tol)) := by
  have hq0 : 0 ≤ q := (norm_nonneg _).trans (hq 0)
  obtain ⟨xs, h1, _, h3⟩ := FixedPoint.FPI.C30_certificate S hn hq0 hq1 (by rw [hmap]; exact contraction_of_deriv hT hq) hm hr
  have hxs : xs = x θ := ((h1 (x θ)).mp (by rw [hmap]; exact hfix.self_of_nhds)).symm
  have hδ : ‖r.1 - x θ‖ ≤ q / (1 - q) * S.tol := by
    rcases h3 with ⟨e', _, _, _, h4⟩ | ⟨⟨e', h5, h6⟩, _⟩
    · rw [← dist_eq_norm, ← hxs]; exact h4
    · rw [he] at h5
      injection h5 with h5
      rw [← h5] at h6
      exact absurd h6 (not_lt.mpr het)
  set δ := q / (1 - q) * S.tol with hδdef
  have hroot : RootAt (fixedPointOptimality T) x θ := C41_fixed_point (hT (x θ, θ)) hx hfix ((hq (x θ)).trans_lt hq1)
  have := C101_jvp hroot hs (z := r.1) (α := 1 - q) (γ := γ * δ) (β := β * δ) ?_ hsmall ?_ ?_ t
  · refine this.trans (le_of_eq ?_)
    rw [(fderiv_optimality hT r.1).2]
    congr 1; ring
  · intro v
    rw [(fderiv_optimality hT (x θ)).1]
    have n1 := (fderiv ℝ (fun s => T s θ) (x θ)).le_opNorm v
    have n2 := mul_le_mul_of_nonneg_right (hq (x θ)) (norm_nonneg v)
    have n3 : ‖v‖ ≤ ‖fderiv ℝ (fun s => T s θ) (x θ) v - v‖ + ‖fderiv ℝ (fun s => T s θ) (x θ) v‖ := by
      have := norm_sub_le (fderiv ℝ (fun s => T s θ) (x θ) v) (fderiv ℝ (fun s => T s θ) (x θ) v - v)
      rw [sub_sub_cancel] at this
      linarith
    change _ ≤ ‖fderiv ℝ (fun s => T s θ) (x θ) v - v‖
    linarith
  · rw [(fderiv_optimality hT r.1).1, (fderiv_optimality hT (x θ)).1, sub_sub_sub_cancel_right]
    exact (hγ _ _).trans (mul_le_mul_of_nonneg_left hδ hγ0)
  · rw [(fderiv_optimality hT r.1).2, (fderiv_optimality hT (x θ)).2]
    exact (hβ _ _).trans (mul_le_mul_of_nonneg_left hδ hβ0)

/-! ## Unrolled differentiation -/

/-- The iterate after `k` iterations from a start that does not depend on the arguments. -/
def unrolled (T : E → (∀ i, P i) → E) (x0 : E) (k : ℕ) (θ : ∀ i, P i) : E := (fun s => T s θ)^[k] x0

theorem unrolled_succ (T : E → (∀ i, P i) → E) (x0 : E) (k : ℕ) (θ : ∀ i, P i) : unrolled T x0 (k + 1) θ = T (unrolled T x0 k θ) θ := by
  unfold unrolled; rw [Function.iterate_succ_apply']

theorem unrolled_diff (hT : ∀ p : E × (∀ i, P i), DifferentiableAt ℝ (fun p : E × (∀ i, P i) => T p.1 p.2) p) (x0 : E) (k : ℕ) (θ : ∀ i, P i) :
    DifferentiableAt ℝ (unrolled T x0 k) θ ∧ ∀ t, fderiv ℝ (unrolled T x0 (k + 1)) θ t =
      fderiv ℝ (fun s => T s θ) (unrolled T x0 k θ) (fderiv ℝ (unrolled T x0 k) θ t) + fderiv ℝ (fun a => T (unrolled T x0 k θ) a) θ t := by
  have hcomp : ∀ k, DifferentiableAt ℝ (unrolled T x0 k) θ → HasFDerivAt (unrolled T x0 (k + 1))
      ((fderiv ℝ (fun p : E × (∀ i, P i) => T p.1 p.2) (unrolled T x0 k θ, θ)).comp
        ((fderiv ℝ (unrolled T x0 k) θ).prod (ContinuousLinearMap.id ℝ _))) θ := by
    intro k hk
    have := HasFDerivAt.comp θ (f := fun t => (unrolled T x0 k t, t)) (hT (unrolled T x0 k θ, θ)).hasFDerivAt (hk.hasFDerivAt.prodMk (hasFDerivAt_id θ))
    refine this.congr_of_eventuallyEq (Eventually.of_forall fun t => ?_)
    exact unrolled_succ T x0 k t
  have hd : ∀ k, DifferentiableAt ℝ (unrolled T x0 k) θ := by
    intro k
    induction k with
    | zero => exact differentiableAt_const x0
    | succ k ih => exact (hcomp k ih).differentiableAt
  refine ⟨hd k, fun t => ?_⟩
  rw [(hcomp k (hd k)).fderiv, ← (partials hT _ θ).2.2]
  rfl

/-- **C101**, unrolled differentiation: the derivative of the `k`-th iterate converges linearly (with a factor `k`) to the derivative of the fixed point,
which implicit differentiation computes. -/
theorem C101_unrolled (hT : ∀ p : E × (∀ i, P i), DifferentiableAt ℝ (fun p : E × (∀ i, P i) => T p.1 p.2) p)
    (hx : DifferentiableAt ℝ x θ) (hfix : ∀ᶠ t in 𝓝 θ, T (x t) t = x t) {q γ β : ℝ} (hq0 : 0 ≤ q)
    (hq : ∀ s, ‖fderiv ℝ (fun s => T s θ) s‖ ≤ q)
    (hγ : ∀ s, ‖fderiv ℝ (fun s => T s θ) s - fderiv ℝ (fun s => T s θ) (x θ)‖ ≤ γ * ‖s - x θ‖)
    (hβ : ∀ s, ‖fderiv ℝ (fun a => T s a) θ - fderiv ℝ (fun a => T (x θ) a) θ‖ ≤ β * ‖s - x θ‖) (hγ0 : 0 ≤ γ) (hβ0 : 0 ≤ β)
    (x0 : E) (t : ∀ i, P i) (k : ℕ) :
    ‖fderiv ℝ (unrolled T x0 (k + 1)) θ t - fderiv ℝ x θ t‖ ≤
      q ^ (k + 1) * ‖fderiv ℝ x θ t‖ + (k + 1) * q ^ k * (‖x0 - x θ‖ * (γ * ‖fderiv ℝ x θ t‖ + β * ‖t‖)) := by
  set j := fderiv ℝ x θ t with hj
  set c := γ * ‖j‖ + β * ‖t‖ with hc
  have hc0 : 0 ≤ c := add_nonneg (mul_nonneg hγ0 (norm_nonneg _)) (mul_nonneg hβ0 (norm_nonneg _))
  have hfx : T (x θ) θ = x θ := hfix.self_of_nhds
  have hdist : ∀ k, ‖unrolled T x0 k θ - x θ‖ ≤ q ^ k * ‖x0 - x θ‖ := by
    intro k
    induction k with
    | zero => simp [unrolled]
    | succ k ih =>
      rw [unrolled_succ]
      have h1 := contraction_of_deriv hT hq (unrolled T x0 k θ) (x θ)
      rw [hfx, dist_eq_norm, dist_eq_norm] at h1
      have h2 := mul_le_mul_of_nonneg_left ih hq0
      rw [pow_succ]; linarith
  have himp : fderiv ℝ (fun s => T s θ) (x θ) j + fderiv ℝ (fun a => T (x θ) a) θ t = j := by
    have hcmp : HasFDerivAt (fun t => T (x t) t)
        ((fderiv ℝ (fun p : E × (∀ i, P i) => T p.1 p.2) (x θ, θ)).comp ((fderiv ℝ x θ).prod (ContinuousLinearMap.id ℝ _))) θ :=
      HasFDerivAt.comp θ (f := fun t => (x t, t)) (hT (x θ, θ)).hasFDerivAt (hx.hasFDerivAt.prodMk (hasFDerivAt_id θ))
    have h0 : HasFDerivAt (fun t => T (x t) t) (fderiv ℝ x θ) θ := hx.hasFDerivAt.congr_of_eventuallyEq hfix
    rw [← (partials hT (x θ) θ).2.2]
    exact congrArg (fun L => L t) (hcmp.unique h0)
  have hstep : ∀ k, ‖fderiv ℝ (unrolled T x0 (k + 1)) θ t - j‖ ≤ q * ‖fderiv ℝ (unrolled T x0 k) θ t - j‖ + q ^ k * (‖x0 - x θ‖ * c) := by
    intro k
    rw [(unrolled_diff hT x0 k θ).2 t]
    set u := unrolled T x0 k θ
    set D := fderiv ℝ (unrolled T x0 k) θ t
    have e : fderiv ℝ (fun s => T s θ) u D + fderiv ℝ (fun a => T u a) θ t - j =
        fderiv ℝ (fun s => T s θ) u (D - j) + (fderiv ℝ (fun s => T s θ) u - fderiv ℝ (fun s => T s θ) (x θ)) j +
          (fderiv ℝ (fun a => T u a) θ - fderiv ℝ (fun a => T (x θ) a) θ) t := by
      rw [map_sub]
      simp only [ContinuousLinearMap.sub_apply]
      nth_rewrite 1 [← himp]
      abel
    rw [e]
    have n1 := norm_add_le (fderiv ℝ (fun s => T s θ) u (D - j) + (fderiv ℝ (fun s => T s θ) u - fderiv ℝ (fun s => T s θ) (x θ)) j)
      ((fderiv ℝ (fun a => T u a) θ - fderiv ℝ (fun a => T (x θ) a) θ) t)
    have n2 := norm_add_le (fderiv ℝ (fun s => T s θ) u (D - j)) ((fderiv ℝ (fun s => T s θ) u - fderiv ℝ (fun s => T s θ) (x θ)) j)
    have n3 := (fderiv ℝ (fun s => T s θ) u).le_of_opNorm_le (hq u) (D - j)
    have n4 := (fderiv ℝ (fun s => T s θ) u - fderiv ℝ (fun s => T s θ) (x θ)).le_of_opNorm_le (hγ u) j
    have n5 := (fderiv ℝ (fun a => T u a) θ - fderiv ℝ (fun a => T (x θ) a) θ).le_of_opNorm_le (hβ u) t
    have n6 := mul_le_mul_of_nonneg_right (hdist k) hc0
    have n7 : γ * ‖u - x θ‖ * ‖j‖ + β * ‖u - x θ‖ * ‖t‖ = ‖u - x θ‖ * c := by rw [hc]; ring
    linarith
  induction k with
  | zero =>
    have h0 : fderiv ℝ (unrolled T x0 0) θ t = 0 := by
      have : unrolled T x0 0 = fun _ => x0 := rfl
      rw [this]; simp
    have := hstep 0
    rw [h0, zero_sub, norm_neg] at this
    simpa using this
  | succ k ih =>
    have h1 := hstep (k + 1)
    have h2 := mul_le_mul_of_nonneg_left ih hq0
    push_cast
    have e : q * (q ^ (k + 1) * ‖j‖ + (k + 1) * q ^ k * (‖x0 - x θ‖ * c)) + q ^ (k + 1) * (‖x0 - x θ‖ * c) =
        q ^ (k + 1 + 1) * ‖j‖ + ((k : ℝ) + 1 + 1) * q ^ (k + 1) * (‖x0 - x θ‖ * c) := by ring
    linarith

/-- **C101**, unrolled differentiation agrees with implicit differentiation in the limit. -/
theorem C101_unrolled_limit [FiniteDimensional ℝ E] (hT : ∀ p : E × (∀ i, P i), DifferentiableAt ℝ (fun p : E × (∀ i, P i) => T p.1 p.2) p)
    (hx : DifferentiableAt ℝ x θ) (hfix : ∀ᶠ t in 𝓝 θ, T (x t) t = x t) {q γ β : ℝ} (hq1 : q < 1)
    (hq : ∀ s, ‖fderiv ℝ (fun s => T s θ) s‖ ≤ q)
    (hγ : ∀ s, ‖fderiv ℝ (fun s => T s θ) s - fderiv ℝ (fun s => T s θ) (x θ)‖ ≤ γ * ‖s - x θ‖)
    (hβ : ∀ s, ‖fderiv ℝ (fun a => T s a) θ - fderiv ℝ (fun a => T (x θ) a) θ‖ ≤ β * ‖s - x θ‖) (hγ0 : 0 ≤ γ) (hβ0 : 0 ≤ β)
    {solve : (E → E) → E → E} (hs : ExactSolve solve) (x0 : E) (t : ∀ i, P i) :
    Tendsto (fun k => fderiv ℝ (unrolled T x0 k) θ t) atTop (𝓝 (rootJvp (fixedPointOptimality T) (x θ) θ t solve)) := by
  have hq0 : 0 ≤ q := (norm_nonneg _).trans (hq 0)
  rw [C41_jvp (C41_fixed_point (hT (x θ, θ)) hx hfix ((hq (x θ)).trans_lt hq1)) hs t, ← tendsto_add_atTop_iff_nat 1,
    tendsto_iff_norm_sub_tendsto_zero]
  have h1 : Tendsto (fun k : ℕ => q ^ (k + 1) * ‖fderiv ℝ x θ t‖) atTop (𝓝 0) := by
    have := ((tendsto_add_atTop_iff_nat 1).mpr (tendsto_pow_atTop_nhds_zero_of_lt_one hq0 hq1)).mul_const ‖fderiv ℝ x θ t‖
    rwa [zero_mul] at this
  have h2 : Tendsto (fun k : ℕ => ((k : ℝ) + 1) * q ^ k * (‖x0 - x θ‖ * (γ * ‖fderiv ℝ x θ t‖ + β * ‖t‖))) atTop (𝓝 0) := by
    have a1 := tendsto_self_mul_const_pow_of_lt_one hq0 hq1
    have a2 := tendsto_pow_atTop_nhds_zero_of_lt_one hq0 hq1
    have := (a1.add a2).mul_const (‖x0 - x θ‖ * (γ * ‖fderiv ℝ x θ t‖ + β * ‖t‖))
    rw [add_zero, zero_mul] at this
    refine this.congr fun k => ?_
    ring
  have h3 := h1.add h2
  rw [add_zero] at h3
  exact squeeze_zero (fun k => norm_nonneg _) (fun k => C101_unrolled hT hx hfix hq0 hq hγ hβ hγ0 hβ0 x0 t k) h3

end FixedPoint

/-! ## The tolerance says nothing about the unrolled derivative -/

/-- The map `x/2 + θ` with fixed point `2θ`. -/
noncomputable def halfMap : ℝ → (∀ _ : Fin 1, ℝ) → ℝ := fun s θ => s / 2 + θ 0

/-- `FixedPointIteration` on it for `θ = 1`. -/
noncomputable def halfFPI (tol : ℝ) (maxiter : ℕ) : FixedPoint.FPI ℝ ℝ Unit := ⟨.noAux fun s => halfMap s fun _ => 1, (‖·‖), maxiter, tol, true, true⟩

/-- **C101 fails for unrolled differentiation of a run that stops by its tolerance**: started at the fixed point the run stops after one iteration with
error 0, and the derivative of that iteration is 1 instead of 2, whatever the tolerance. -/
theorem C101_unrolled_tol_false (tol : ℝ) (ht : 0 ≤ tol) (maxiter : ℕ) (hm : 1 ≤ maxiter) :
    (∀ t : ∀ _ : Fin 1, ℝ, halfMap (2 * t 0) t = 2 * t 0) ∧
      ∃ r, (halfFPI tol maxiter).run 2 = .ok r ∧ r.1 = 2 ∧ r.2.error = .fin 0 ∧ r.2.iterNum = 1 ∧
        ∀ t : ∀ _ : Fin 1, ℝ, fderiv ℝ (unrolled halfMap 2 r.2.iterNum) (fun _ => 1) t = t 0 ∧
          fderiv ℝ (fun θ : ∀ _ : Fin 1, ℝ => 2 * θ 0) (fun _ => 1) t = 2 * t 0 := by
  refine ⟨fun t => by simp only [halfMap]; ring, ?_⟩
  set S := halfFPI tol maxiter with hS
  obtain ⟨r, hr⟩ := Base.runS_ok S.initState S.update S.cont (maxiter := maxiter) (unroll := true) (jit := true) (2 : ℝ) hm (by simp)
  refine ⟨r, hr, ?_⟩
  obtain ⟨k, h1, h2, h3, h4, h5⟩ := Base.runS_spec hm hr
  have hfix : ∀ n, S.map^[n] (2 : ℝ) = 2 := by
    intro n
    induction n with
    | zero => rfl
    | succ n ih =>
      rw [Function.iterate_succ_apply', ih]
      change halfMap 2 (fun _ => 1) = 2
      norm_num [halfMap]
  have herr : ∀ n, 1 ≤ n → (S.update^[n] (2, S.initState 2)).2.error = .fin 0 := by
    intro n hn
    rw [(FixedPoint.FPI.C30_count S rfl 2 n).2.2.2 hn, hfix, hfix, dist_self]
  have hk : k = 1 := by
    by_contra hc
    have h6 := h4 1 le_rfl (by omega)
    simp only [FixedPoint.FPI.cont, herr 1 le_rfl] at h6
    have : Ext.gt (.fin 0) (.fin S.tol) = false := by
      simp only [Ext.gt, Ext.lt, decide_eq_false_iff_not, not_lt]
      exact ht
    rw [this] at h6; cases h6
  subst hk
  have hit : r.2.iterNum = 1 := by rw [h3]; exact (FixedPoint.FPI.C30_count S rfl 2 1).2.1
  refine ⟨by rw [h3, FixedPoint.FPI.iterate_params, hfix], by rw [h3]; exact herr 1 le_rfl, hit, fun t => ?_⟩
  rw [hit]
  have hp : HasFDerivAt (fun θ : ∀ _ : Fin 1, ℝ => θ 0) (ContinuousLinearMap.proj 0 : (∀ _ : Fin 1, ℝ) →L[ℝ] ℝ) (fun _ => 1) :=
    (ContinuousLinearMap.proj 0 : (∀ _ : Fin 1, ℝ) →L[ℝ] ℝ).hasFDerivAt
  constructor
  · have : HasFDerivAt (unrolled halfMap 2 1) (ContinuousLinearMap.proj 0 : (∀ _ : Fin 1, ℝ) →L[ℝ] ℝ) (fun _ => 1) := hp.const_add (2 / 2)
    rw [this.fderiv]; rfl
  · rw [(hp.const_mul 2).fderiv]; rfl

/-! ## Non-vacuity -/

/-- `T(x, θ) = θ x + 1` at `θ = 1/2`: the fixed point is `1/(1-θ)`, `q = 1/2`, `γ = 0`, `β = 1`; the derivative of the `k`-th iterate from 0 tends to 4. -/
example {solve : (ℝ → ℝ) → ℝ → ℝ} (hs : ExactSolve solve) :
    Tendsto (fun k => fderiv ℝ (unrolled (fun s (θ : ∀ _ : Fin 1, ℝ) => θ 0 * s + 1) 0 k) (fun _ => 1 / 2) (fun _ => 1)) atTop
      (𝓝 (rootJvp (fixedPointOptimality fun s (θ : ∀ _ : Fin 1, ℝ) => θ 0 * s + 1) (1 / (1 - 1 / 2)) (fun _ => 1 / 2) (fun _ => 1) solve)) := by
  have hT : ∀ p : ℝ × (∀ _ : Fin 1, ℝ), DifferentiableAt ℝ (fun p : ℝ × (∀ _ : Fin 1, ℝ) => p.2 0 * p.1 + 1) p := fun p => by fun_prop
  have hp : ∀ θ : ∀ _ : Fin 1, ℝ, HasFDerivAt (fun θ : ∀ _ : Fin 1, ℝ => θ 0) (ContinuousLinearMap.proj 0 : (∀ _ : Fin 1, ℝ) →L[ℝ] ℝ) θ :=
    fun θ => (ContinuousLinearMap.proj 0 : (∀ _ : Fin 1, ℝ) →L[ℝ] ℝ).hasFDerivAt
  have d1 : ∀ s : ℝ, fderiv ℝ (fun s : ℝ => (1 / 2 : ℝ) * s + 1) s = (1 / 2 : ℝ) • ContinuousLinearMap.id ℝ ℝ := fun s =>
    (((hasFDerivAt_id (𝕜 := ℝ) s).const_smul (1 / 2 : ℝ)).add_const (1 : ℝ)).fderiv
  have d2 : ∀ s : ℝ, fderiv ℝ (fun θ : ∀ _ : Fin 1, ℝ => θ 0 * s + 1) (fun _ => 1 / 2) = s • (ContinuousLinearMap.proj 0 : (∀ _ : Fin 1, ℝ) →L[ℝ] ℝ) :=
    fun s => (((hp (fun _ => 1 / 2)).mul_const s).add_const (1 : ℝ)).fderiv
  refine C101_unrolled_limit (T := fun s (θ : ∀ _ : Fin 1, ℝ) => θ 0 * s + 1) (x := fun θ => 1 / (1 - θ 0)) (θ := fun _ => 1 / 2) (q := 1 / 2) (γ := 0)
    (β := 1) hT ?_ ?_ (by norm_num) ?_ ?_ ?_ le_rfl zero_le_one hs 0 (fun _ => 1)
  · have hd : DifferentiableAt ℝ (fun θ : ∀ _ : Fin 1, ℝ => 1 - θ 0) (fun _ => 1 / 2) := (differentiableAt_const _).sub (hp _).differentiableAt
    have h2 : DifferentiableAt ℝ (fun θ : ∀ _ : Fin 1, ℝ => (1 - θ 0)⁻¹) (fun _ => 1 / 2) :=
      DifferentiableAt.comp (fun _ => 1 / 2) (f := fun θ : ∀ _ : Fin 1, ℝ => 1 - θ 0) (g := fun s : ℝ => s⁻¹) (differentiableAt_inv (by norm_num)) hd
    simpa only [one_div] using h2
  · have : ∀ᶠ t : ∀ _ : Fin 1, ℝ in 𝓝 (fun _ => 1 / 2), 1 - t 0 ≠ 0 :=
      ContinuousAt.eventually_ne (continuous_const.sub (continuous_apply 0)).continuousAt (by norm_num)
    filter_upwards [this] with t ht
    field_simp
    ring
  · intro s
    rw [d1, norm_smul, ContinuousLinearMap.norm_id]; norm_num
  · intro s
    rw [d1, d1]; simp
  · intro s
    rw [d2, d2, one_mul]
    refine ContinuousLinearMap.opNorm_le_bound _ (norm_nonneg _) fun v => ?_
    change ‖s * v 0 - 1 / (1 - 1 / 2) * v 0‖ ≤ ‖s - 1 / (1 - 1 / 2)‖ * ‖v‖
    rw [← sub_mul, norm_mul]
    refine mul_le_mul_of_nonneg_left ?_ (norm_nonneg _)
    exact norm_le_pi_norm v 0

end Jaxopt.Implicit
