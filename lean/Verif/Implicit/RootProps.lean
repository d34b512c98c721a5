import Verif.Implicit.Root
import Mathlib.Analysis.InnerProductSpace.PiL2
import Mathlib.Analysis.Calculus.Deriv.Mul
import Mathlib.Analysis.Calculus.Deriv.Inv
import Mathlib.Tactic.FieldSimp

/-!
# Property C41: implicit differentiation of roots
-/

set_option autoImplicit false
set_option linter.unusedSectionVars false
set_option linter.unusedVariables false

namespace Jaxopt.Implicit

open ContinuousLinearMap
open scoped InnerProductSpace

variable {ι : Type*} [Fintype ι] [DecidableEq ι]
variable {E : Type*} [NormedAddCommGroup E] [InnerProductSpace ℝ E] [CompleteSpace E]
variable {P : ι → Type*} [∀ i, NormedAddCommGroup (P i)] [∀ i, InnerProductSpace ℝ (P i)] [∀ i, CompleteSpace (P i)]

/-! ## Specification -/

/-- A linear solver that is exact on invertible systems. -/
def ExactSolve (solve : (E → E) → E → E) : Prop := ∀ (A : E →L[ℝ] E), Function.Bijective A → ∀ b, A (solve A b) = b

/-! ## Lemmas -/

theorem adjoint_bijective (e : E →L[ℝ] E) (h : ∃ g : E →L[ℝ] E, (∀ x, g (e x) = x) ∧ ∀ x, e (g x) = x) :
    Function.Bijective (adjoint e) := by
  obtain ⟨g, h1, h2⟩ := h
  have a1 : ∀ x, adjoint e (adjoint g x) = x := by
    intro x
    refine ext_inner_right ℝ fun y => ?_
    rw [adjoint_inner_left, adjoint_inner_left, h1]
  have a2 : ∀ x, adjoint g (adjoint e x) = x := by
    intro x
    refine ext_inner_right ℝ fun y => ?_
    rw [adjoint_inner_left, adjoint_inner_left, h2]
  exact ⟨Function.LeftInverse.injective a2, Function.RightInverse.surjective a1⟩

/-- The differentiability data of a root: `F` is differentiable at `(x θ, θ)`. -/
structure RootAt (F : E → (∀ i, P i) → E) (x : (∀ i, P i) → E) (θ : ∀ i, P i) : Prop where
  diffF : DifferentiableAt ℝ (fun p : E × (∀ i, P i) => F p.1 p.2) (x θ, θ)
  diffx : DifferentiableAt ℝ x θ
  root : ∀ᶠ t in nhds θ, F (x t) t = 0
  inv : ∃ g : E →L[ℝ] E, (∀ v, g (fderiv ℝ (fun s => F s θ) (x θ) v) = v) ∧ ∀ v, fderiv ℝ (fun s => F s θ) (x θ) (g v) = v

theorem RootAt.partials {F : E → (∀ i, P i) → E} {x : (∀ i, P i) → E} {θ : ∀ i, P i} (h : RootAt F x θ) :
    HasFDerivAt (fun s => F s θ) ((fderiv ℝ (fun p : E × (∀ i, P i) => F p.1 p.2) (x θ, θ)).comp (inl ℝ E (∀ i, P i))) (x θ) ∧
    HasFDerivAt (fun t => F (x θ) t) ((fderiv ℝ (fun p : E × (∀ i, P i) => F p.1 p.2) (x θ, θ)).comp (inr ℝ E (∀ i, P i))) θ := by
  constructor
  · exact HasFDerivAt.comp (x θ) (f := fun s => (s, θ)) h.diffF.hasFDerivAt (hasFDerivAt_prodMk_left (x θ) θ)
  · exact HasFDerivAt.comp θ (f := fun t => (x θ, t)) h.diffF.hasFDerivAt (hasFDerivAt_prodMk_right (x θ) θ)

/-- The implicit equation `∂ₓF (x' t) + ∂_θF t = 0`. -/
theorem RootAt.implicit {F : E → (∀ i, P i) → E} {x : (∀ i, P i) → E} {θ : ∀ i, P i} (h : RootAt F x θ) (t : ∀ i, P i) :
    fderiv ℝ (fun s => F s θ) (x θ) (fderiv ℝ x θ t) = -fderiv ℝ (fun a => F (x θ) a) θ t := by
  obtain ⟨h1, h2⟩ := h.partials
  have hc : HasFDerivAt (fun t => F (x t) t)
      ((fderiv ℝ (fun p : E × (∀ i, P i) => F p.1 p.2) (x θ, θ)).comp ((fderiv ℝ x θ).prod (ContinuousLinearMap.id ℝ _))) θ :=
    HasFDerivAt.comp θ (f := fun t => (x t, t)) h.diffF.hasFDerivAt (h.diffx.hasFDerivAt.prodMk (hasFDerivAt_id θ))
  have h0 : HasFDerivAt (fun t => F (x t) t) (0 : (∀ i, P i) →L[ℝ] E) θ :=
    (hasFDerivAt_const (0 : E) θ).congr_of_eventuallyEq h.root
  have e := congrArg (fun L => L t) (hc.unique h0)
  rw [h1.fderiv, h2.fderiv, eq_neg_iff_add_eq_zero]
  have e2 : ((fderiv ℝ x θ t, t) : E × (∀ i, P i)) = (fderiv ℝ x θ t, 0) + (0, t) := by simp
  simp only [ContinuousLinearMap.comp_apply, ContinuousLinearMap.prod_apply, ContinuousLinearMap.id_apply,
    ContinuousLinearMap.zero_apply] at e
  rw [e2, map_add] at e
  exact e

/-! ## C41 -/

/-- **C41**, Jacobian-vector product: `root_jvp` is the directional derivative of the solution map, for every tangent. -/
theorem C41_jvp {F : E → (∀ i, P i) → E} {x : (∀ i, P i) → E} {θ : ∀ i, P i} (h : RootAt F x θ) {solve : (E → E) → E → E}
    (hs : ExactSolve solve) (t : ∀ i, P i) : rootJvp F (x θ) θ t solve = fderiv ℝ x θ t := by
  obtain ⟨g, g1, g2⟩ := h.inv
  have hbij : Function.Bijective (fderiv ℝ (fun s => F s θ) (x θ)) :=
    ⟨Function.LeftInverse.injective g1, Function.RightInverse.surjective g2⟩
  have e := hs (fderiv ℝ (fun s => F s θ) (x θ)) hbij (fderiv ℝ (fun y => F (x θ) y) θ ((-1 : ℝ) • t))
  apply hbij.1
  rw [h.implicit t]
  refine e.trans ?_
  rw [map_smul, neg_one_smul]

/-- **C41**, adjointness: `⟨root_jvp(t), w⟩ = Σᵢ ⟨tᵢ, root_vjp(w)ᵢ⟩`, for every tangent and cotangent. -/
theorem C41_adjoint {F : E → (∀ i, P i) → E} {x : (∀ i, P i) → E} {θ : ∀ i, P i} (h : RootAt F x θ) {solve : (E → E) → E → E}
    (hs : ExactSolve solve) (t : ∀ i, P i) (w : E) :
    ⟪rootJvp F (x θ) θ t solve, w⟫_ℝ = ∑ i, ⟪t i, rootVjp F (x θ) θ w solve i⟫_ℝ := by
  set A := fderiv ℝ (fun s => F s θ) (x θ) with hA
  set B := fderiv ℝ (fun y => F (x θ) y) θ with hB
  obtain ⟨-, h2⟩ := h.partials
  have hBd : HasFDerivAt (fun y => F (x θ) y) B θ := h2.differentiableAt.hasFDerivAt
  set u := solve (adjoint A) ((-1 : ℝ) • w) with hu
  have hu1 : adjoint A u = (-1 : ℝ) • w := hs (adjoint A) (adjoint_bijective A h.inv) _
  have hv : ∀ i, ⟪t i, rootVjp F (x θ) θ w solve i⟫_ℝ = ⟪B (Pi.single i (t i)), u⟫_ℝ := by
    intro i
    have hpart : HasFDerivAt (fun s => F (x θ) (Function.update θ i s)) (B.comp (ContinuousLinearMap.pi (Pi.single i (ContinuousLinearMap.id ℝ (P i))))) (θ i) := by
      have hup := hasFDerivAt_update θ (i := i) (θ i) (𝕜 := ℝ)
      have hBd' : HasFDerivAt (fun y => F (x θ) y) B (Function.update θ i (θ i)) := by rw [Function.update_eq_self]; exact hBd
      exact HasFDerivAt.comp (θ i) (f := fun s => Function.update θ i s) hBd' hup
    have e1 : rootVjp F (x θ) θ w solve i = adjoint (fderiv ℝ (fun s => F (x θ) (Function.update θ i s)) (θ i)) u := rfl
    rw [e1, adjoint_inner_right, hpart.fderiv]
    congr 2
    rw [ContinuousLinearMap.comp_apply]
    congr 1
    funext j
    rw [ContinuousLinearMap.pi_apply]
    by_cases hj : j = i
    · subst hj; simp
    · simp [Pi.single_eq_of_ne hj]
  rw [Finset.sum_congr rfl fun i _ => hv i, ← sum_inner, ← map_sum, Finset.univ_sum_single, C41_jvp h hs]
  have e := h.implicit t
  have e2 : B t = -A (fderiv ℝ x θ t) := by rw [e, neg_neg]
  rw [e2, inner_neg_left, ← adjoint_inner_right, hu1, neg_one_smul, inner_neg_right, neg_neg]

/-- **C41**, vector-Jacobian product: `root_vjp(w)` is the transpose of the derivative of the solution map in each argument applied to
the cotangent. -/
theorem C41_vjp {F : E → (∀ i, P i) → E} {x : (∀ i, P i) → E} {θ : ∀ i, P i} (h : RootAt F x θ) {solve : (E → E) → E → E}
    (hs : ExactSolve solve) (w : E) (i : ι) :
    rootVjp F (x θ) θ w solve i = adjoint (fderiv ℝ (fun s => x (Function.update θ i s)) (θ i)) w := by
  refine ext_inner_left ℝ fun v => ?_
  have hadj := C41_adjoint h hs (Pi.single i v) w
  rw [C41_jvp h hs, Finset.sum_eq_single i (fun j _ hj => by rw [Pi.single_eq_of_ne hj, inner_zero_left]) (fun hn => absurd (Finset.mem_univ i) hn),
    Pi.single_eq_same] at hadj
  rw [← hadj, adjoint_inner_right]
  congr 1
  have hup := hasFDerivAt_update θ (i := i) (θ i) (𝕜 := ℝ)
  have hx' : HasFDerivAt x (fderiv ℝ x θ) (Function.update θ i (θ i)) := by rw [Function.update_eq_self]; exact h.diffx.hasFDerivAt
  have hcomp : HasFDerivAt (fun s => x (Function.update θ i s)) _ (θ i) :=
    HasFDerivAt.comp (θ i) (f := fun s => Function.update θ i s) hx' hup
  rw [hcomp.fderiv, ContinuousLinearMap.comp_apply]
  congr 1
  funext j
  rw [ContinuousLinearMap.pi_apply]
  by_cases hj : j = i
  · subst hj; simp
  · simp [Pi.single_eq_of_ne hj]

/-- **C41** for fixed points: if `T` is differentiable and a contraction to first order in its first argument (`‖∂ₓT‖ < 1`, finite
dimension), the optimality function of `custom_fixed_point` satisfies the invertibility assumption, so `root_jvp` is the derivative of
the fixed point. -/
theorem C41_fixed_point [FiniteDimensional ℝ E] {T : E → (∀ i, P i) → E} {x : (∀ i, P i) → E} {θ : ∀ i, P i}
    (hT : DifferentiableAt ℝ (fun p : E × (∀ i, P i) => T p.1 p.2) (x θ, θ)) (hx : DifferentiableAt ℝ x θ)
    (hfix : ∀ᶠ t in nhds θ, T (x t) t = x t) (hc : ‖fderiv ℝ (fun s => T s θ) (x θ)‖ < 1) :
    RootAt (fixedPointOptimality T) x θ := by
  have hTp : DifferentiableAt ℝ (fun s => T s θ) (x θ) :=
    (HasFDerivAt.comp (x θ) (f := fun s => (s, θ)) hT.hasFDerivAt (hasFDerivAt_prodMk_left (x θ) θ)).differentiableAt
  have hA : fderiv ℝ (fun s => fixedPointOptimality T s θ) (x θ) =
      fderiv ℝ (fun s => T s θ) (x θ) - ContinuousLinearMap.id ℝ E := by
    have := (hTp.hasFDerivAt.sub (hasFDerivAt_id (x θ))).fderiv
    exact this
  refine ⟨?_, hx, ?_, ?_⟩
  · exact hT.sub differentiableAt_fst
  · filter_upwards [hfix] with t ht
    simp only [fixedPointOptimality, ht, sub_self]
  · rw [hA]
    set A := fderiv ℝ (fun s => T s θ) (x θ)
    have hinj : Function.Injective (A - ContinuousLinearMap.id ℝ E : E →L[ℝ] E) := by
      rw [injective_iff_map_eq_zero]
      intro v hv
      have hv' : A v = v := by
        have : A v - v = 0 := hv
        exact sub_eq_zero.mp this
      by_contra hne
      have h1 := A.le_opNorm v
      rw [hv'] at h1
      have h2 : 0 < ‖v‖ := norm_pos_iff.mpr hne
      nlinarith
    have hsurj : Function.Surjective (A - ContinuousLinearMap.id ℝ E : E →L[ℝ] E) := by
      have := LinearMap.injective_iff_surjective (f := ((A - ContinuousLinearMap.id ℝ E : E →L[ℝ] E) : E →ₗ[ℝ] E))
      exact this.mp hinj
    let e := LinearEquiv.ofBijective ((A - ContinuousLinearMap.id ℝ E : E →L[ℝ] E) : E →ₗ[ℝ] E) ⟨hinj, hsurj⟩
    refine ⟨LinearMap.toContinuousLinearMap (e.symm : E →ₗ[ℝ] E), fun v => ?_, fun v => ?_⟩
    · exact e.symm_apply_apply v
    · exact e.apply_symm_apply v

/-! ## Non-vacuity -/

/-- `x(θ) = θ₁ / θ₀` is the root of `θ₀ x - θ₁`; the assumptions hold at `θ = (2, 3)`. -/
example : RootAt (ι := Fin 2) (P := fun _ => ℝ) (fun x θ => θ 0 * x - θ 1) (fun θ => θ 1 / θ 0) ![2, 3] where
  diffF := by fun_prop
  diffx := by
    have h0 : DifferentiableAt ℝ (fun t : Fin 2 → ℝ => t 0) ![2, 3] := differentiableAt_apply 0 _
    have h1 : DifferentiableAt ℝ (fun t : Fin 2 → ℝ => t 1) ![2, 3] := differentiableAt_apply 1 _
    have h2 : DifferentiableAt ℝ (fun t : Fin 2 → ℝ => (t 0)⁻¹) ![2, 3] :=
      DifferentiableAt.comp ![2, 3] (f := fun t : Fin 2 → ℝ => t 0) (g := fun s : ℝ => s⁻¹) (differentiableAt_inv (by simp)) h0
    exact (h1.mul h2).congr_of_eventuallyEq (Filter.Eventually.of_forall fun t => by simp [div_eq_mul_inv])
  root := by
    have : ∀ᶠ t : Fin 2 → ℝ in nhds ![2, 3], t 0 ≠ 0 := by
      exact ContinuousAt.eventually_ne (continuous_apply 0).continuousAt (by simp)
    filter_upwards [this] with t ht
    field_simp
    simp
  inv := by
    have hd : fderiv ℝ (fun s : ℝ => (![2, 3] : Fin 2 → ℝ) 0 * s - (![2, 3] : Fin 2 → ℝ) 1) ((![2, 3] : Fin 2 → ℝ) 1 / (![2, 3] : Fin 2 → ℝ) 0) =
        (2 : ℝ) • ContinuousLinearMap.id ℝ ℝ := by
      have := (((hasFDerivAt_id (𝕜 := ℝ) ((![2, 3] : Fin 2 → ℝ) 1 / (![2, 3] : Fin 2 → ℝ) 0)).const_smul (2 : ℝ)).sub_const (3 : ℝ)).fderiv
      exact this
    refine ⟨(1 / 2 : ℝ) • ContinuousLinearMap.id ℝ ℝ, fun v => ?_, fun v => ?_⟩
    · rw [hd]; simp
    · rw [hd]; simp

/-- Exact solvers exist (classically, by choosing a preimage). -/
example : ∃ solve : (E → E) → E → E, ExactSolve solve := by
  classical
  refine ⟨fun A b => if h : ∃ z, A z = b then h.choose else 0, fun A hA b => ?_⟩
  obtain ⟨z, hz⟩ := hA.2 b
  have hex : ∃ z, A z = b := ⟨z, hz⟩
  simp only [dif_pos hex]
  exact hex.choose_spec

end Jaxopt.Implicit
