import Verif.Implicit.BoxRoot
import Verif.Implicit.KktProps
import Verif.LinSolve.Props

/-!
# Property C126: implicit differentiation of `BoxOSQP` and `OSQP`
-/

set_option autoImplicit false
set_option linter.unusedSectionVars false
set_option linter.unusedVariables false

namespace Jaxopt.Implicit

open Jaxopt.QP ContinuousLinearMap Filter Topology
open scoped RealInnerProductSpace

/-! ## Singular systems -/

section
variable {ι : Type*} [Fintype ι] [DecidableEq ι]
variable {E : Type*} [NormedAddCommGroup E] [InnerProductSpace ℝ E] [FiniteDimensional ℝ E] [CompleteSpace E]
variable {P : ι → Type*} [∀ i, NormedAddCommGroup (P i)] [∀ i, InnerProductSpace ℝ (P i)] [∀ i, CompleteSpace (P i)]

/-- A linear solver that returns a solution of every system that has one. -/
def ConsistentSolve (solve : (E → E) → E → E) : Prop := ∀ (A : E →L[ℝ] E) b, (∃ x, A x = b) → A (solve A b) = b

/-- `solve_normal_cg` over exact conjugate gradients is such a solver. -/
theorem normalCg_consistent {cg : (E → E) → E → Option E → E} (hcg : LinSolve.CgSpec cg) : ConsistentSolve (normalCgSolve cg) := by
  intro A b hex
  have h := (LinSolve.C61_normal_cg hcg (A : E →ₗ[ℝ] E) b none none (le_refl 0)).2.2 rfl hex
  have e : (fun y => vjp (⇑A) b y) = fun y => (A : E →ₗ[ℝ] E).adjoint y := by
    funext y
    refine ext_inner_left ℝ fun v => ?_
    rw [LinearMap.adjoint_inner_right]
    show ⟪v, adjoint (fderiv ℝ A b) y⟫ = _
    rw [adjoint_inner_right, A.fderiv]
    rfl
  unfold normalCgSolve
  rw [e]
  exact h

/-- A differentiable family of roots, without an assumption on the linear system. -/
structure BranchAt (F : E → (∀ i, P i) → E) (x : (∀ i, P i) → E) (θ : ∀ i, P i) : Prop where
  diffF : DifferentiableAt ℝ (fun p : E × (∀ i, P i) => F p.1 p.2) (x θ, θ)
  diffx : DifferentiableAt ℝ x θ
  root : ∀ᶠ t in 𝓝 θ, F (x t) t = 0

variable {F : E → (∀ i, P i) → E} {x : (∀ i, P i) → E} {θ : ∀ i, P i}

theorem BranchAt.partials (h : BranchAt F x θ) :
    HasFDerivAt (fun s => F s θ) ((fderiv ℝ (fun p : E × (∀ i, P i) => F p.1 p.2) (x θ, θ)).comp (inl ℝ E (∀ i, P i))) (x θ) ∧
    HasFDerivAt (fun t => F (x θ) t) ((fderiv ℝ (fun p : E × (∀ i, P i) => F p.1 p.2) (x θ, θ)).comp (inr ℝ E (∀ i, P i))) θ := by
  constructor
  · exact HasFDerivAt.comp (x θ) (f := fun s => (s, θ)) h.diffF.hasFDerivAt (hasFDerivAt_prodMk_left (x θ) θ)
  · exact HasFDerivAt.comp θ (f := fun t => (x θ, t)) h.diffF.hasFDerivAt (hasFDerivAt_prodMk_right (x θ) θ)

theorem BranchAt.implicit (h : BranchAt F x θ) (t : ∀ i, P i) :
    fderiv ℝ (fun s => F s θ) (x θ) (fderiv ℝ x θ t) = -fderiv ℝ (fun a => F (x θ) a) θ t := by
  obtain ⟨h1, h2⟩ := h.partials
  have hc : HasFDerivAt (fun t => F (x t) t)
      ((fderiv ℝ (fun p : E × (∀ i, P i) => F p.1 p.2) (x θ, θ)).comp ((fderiv ℝ x θ).prod (ContinuousLinearMap.id ℝ _))) θ :=
    HasFDerivAt.comp θ (f := fun t => (x t, t)) h.diffF.hasFDerivAt (h.diffx.hasFDerivAt.prodMk (hasFDerivAt_id θ))
  have h0 : HasFDerivAt (fun t => F (x t) t) (0 : (∀ i, P i) →L[ℝ] E) θ :=
    (hasFDerivAt_const (0 : E) θ).congr_of_eventuallyEq h.root
  have e := congrArg (fun L => L t) (hc.unique h0)
  rw [h1.fderiv, h2.fderiv, eq_neg_iff_add_eq_zero]
  have e2 : ((fderiv ℝ x θ t, t) : E × (∀ i, P i)) = (fderiv ℝ x θ t, 0) + (0, t) := by simp
  simp only [ContinuousLinearMap.comp_apply, ContinuousLinearMap.prod_apply, ContinuousLinearMap.id_apply,
    ContinuousLinearMap.zero_apply] at e
  rw [e2, map_add] at e
  exact e

/-- `root_jvp` on a possibly singular system: the derivative of the branch up to the kernel. -/
theorem BranchAt.jvp (h : BranchAt F x θ) {solve : (E → E) → E → E} (hs : ConsistentSolve solve) (t : ∀ i, P i) :
    fderiv ℝ (fun s => F s θ) (x θ) (rootJvp F (x θ) θ t solve - fderiv ℝ x θ t) = 0 := by
  have e := hs (fderiv ℝ (fun s => F s θ) (x θ)) (fderiv ℝ (fun y => F (x θ) y) θ ((-1 : ℝ) • t))
    ⟨fderiv ℝ x θ t, by rw [h.implicit, map_smul, neg_one_smul]⟩
  rw [map_sub, h.implicit, sub_eq_zero]
  refine Eq.trans e ?_
  rw [map_smul, neg_one_smul]

/-- `root_vjp` on a possibly singular system: right for every cotangent that vanishes on the kernel. -/
theorem BranchAt.vjp (h : BranchAt F x θ) {solve : (E → E) → E → E} (hs : ConsistentSolve solve) (w : E)
    (hw : ∀ d, fderiv ℝ (fun s => F s θ) (x θ) d = 0 → ⟪d, w⟫ = 0) (i : ι) :
    rootVjp F (x θ) θ w solve i = adjoint (fderiv ℝ (fun s => x (Function.update θ i s)) (θ i)) w := by
  set A := fderiv ℝ (fun s => F s θ) (x θ) with hA
  set B := fderiv ℝ (fun y => F (x θ) y) θ with hB
  obtain ⟨-, h2⟩ := h.partials
  have hBd : HasFDerivAt (fun y => F (x θ) y) B θ := h2.differentiableAt.hasFDerivAt
  have hex : ∃ u, adjoint A u = (-1 : ℝ) • w := by
    have hmem : (-1 : ℝ) • w ∈ A.kerᗮ := by
      rw [Submodule.mem_orthogonal]
      intro d hd
      rw [inner_smul_right, hw d hd, mul_zero]
    rw [A.orthogonal_ker, (Submodule.closed_of_finiteDimensional _).submodule_topologicalClosure_eq] at hmem
    exact hmem
  set u := solve (adjoint A) ((-1 : ℝ) • w) with hu
  have hu1 : adjoint A u = (-1 : ℝ) • w := hs (adjoint A) _ hex
  refine ext_inner_left ℝ fun v => ?_
  have hsingle : ∀ (L : (∀ i, P i) →L[ℝ] E), (L.comp (ContinuousLinearMap.pi (Pi.single i (ContinuousLinearMap.id ℝ (P i))))) v = L (Pi.single i v) := by
    intro L
    rw [ContinuousLinearMap.comp_apply]
    congr 1
    funext j
    rw [ContinuousLinearMap.pi_apply]
    by_cases hj : j = i
    · subst hj; simp
    · simp [Pi.single_eq_of_ne hj]
  have hup := hasFDerivAt_update θ (i := i) (θ i) (𝕜 := ℝ)
  have hpart : HasFDerivAt (fun s => F (x θ) (Function.update θ i s)) (B.comp (ContinuousLinearMap.pi (Pi.single i (ContinuousLinearMap.id ℝ (P i))))) (θ i) := by
    have hBd' : HasFDerivAt (fun y => F (x θ) y) B (Function.update θ i (θ i)) := by rw [Function.update_eq_self]; exact hBd
    exact HasFDerivAt.comp (θ i) (f := fun s => Function.update θ i s) hBd' hup
  have hx' : HasFDerivAt x (fderiv ℝ x θ) (Function.update θ i (θ i)) := by rw [Function.update_eq_self]; exact h.diffx.hasFDerivAt
  have hcomp : HasFDerivAt (fun s => x (Function.update θ i s)) _ (θ i) :=
    HasFDerivAt.comp (θ i) (f := fun s => Function.update θ i s) hx' hup
  have e1 : rootVjp F (x θ) θ w solve i = adjoint (fderiv ℝ (fun s => F (x θ) (Function.update θ i s)) (θ i)) u := rfl
  rw [e1, adjoint_inner_right, adjoint_inner_right, hpart.fderiv, hcomp.fderiv, hsingle, hsingle]
  have e2 : B (Pi.single i v) = -A (fderiv ℝ x θ (Pi.single i v)) := by rw [h.implicit, neg_neg]
  rw [e2, inner_neg_left, ← adjoint_inner_right, hu1, neg_one_smul, inner_neg_right, neg_neg]

end

/-! ## The programs -/

variable {n m : ℕ} {ι : Type*} [Fintype ι] [DecidableEq ι]
variable {P : ι → Type*} [∀ i, NormedAddCommGroup (P i)] [∀ i, InnerProductSpace ℝ (P i)] [∀ i, CompleteSpace (P i)]

section
variable {Θ : Type*} (D : BoxFamily n m Θ)

/-- `½ xᵀQx + cᵀx`. -/
noncomputable def BoxFamily.obj (θ : Θ) (x : Fin n → ℝ) : ℝ := 1 / 2 * ∑ j, x j * ∑ j', D.Q θ j j' * x j' + ∑ j, D.c θ j * x j

/-- `l ≤ Ax ≤ u`. -/
def BoxFamily.Feasible (θ : Θ) (x : Fin n → ℝ) : Prop :=
  ∀ i, (D.lfin i = true → D.l θ i ≤ ∑ j, D.A θ i j * x j) ∧ (D.ufin i = true → ∑ j, D.A θ i j * x j ≤ D.u θ i)

/-- A regular solution: Karush-Kuhn-Tucker conditions where every active row, equality rows included, has a nonzero multiplier; the active rows
are linearly independent and the objective is curved on their null space. -/
structure BoxFamily.Regular (θ : Θ) (x : Fin n → ℝ) (y : Fin m → ℝ) : Prop where
  stat : ∀ j, ∑ j', 1 / 2 * (D.Q θ j j' + D.Q θ j' j) * x j' + D.c θ j + ∑ i, D.A θ i j * y i = 0
  upper : ∀ i, 0 < y i → D.ufin i = true ∧ ∑ j, D.A θ i j * x j = D.u θ i
  lower : ∀ i, y i < 0 → D.lfin i = true ∧ ∑ j, D.A θ i j * x j = D.l θ i
  inside : ∀ i, y i = 0 → (D.ufin i = true → ∑ j, D.A θ i j * x j < D.u θ i) ∧ (D.lfin i = true → D.l θ i < ∑ j, D.A θ i j * x j)
  indep : ∀ v : Fin m → ℝ, (∀ i, y i = 0 → v i = 0) → (∀ j, ∑ i, D.A θ i j * v i = 0) → v = 0
  second : ∀ d : Fin n → ℝ, d ≠ 0 → (∀ i, y i ≠ 0 → ∑ j, D.A θ i j * d j = 0) → 0 < ∑ j, d j * ∑ j', D.Q θ j j' * d j'

/-- The entries of a solution that the optimality function determines: all of `x`, `z` and `y`, and the multiplier of a finite bound in a row
that is not an equality. -/
def BoxFamily.Pinned (θ : Θ) : (Fin n ⊕ Fin m) ⊕ (Fin m ⊕ (Fin m ⊕ Fin m)) → Prop
  | .inl _ => True
  | .inr (.inl _) => True
  | .inr (.inr (.inl i)) => D.ufin i = true ∧ (D.lfin i = true → D.l θ i < D.u θ i)
  | .inr (.inr (.inr i)) => D.lfin i = true ∧ (D.ufin i = true → D.l θ i < D.u θ i)

variable (θ : Θ) (v : Fin n ⊕ Fin m → ℝ)

theorem box_grad_inl (j : Fin n) : D.nlp.grad v θ (.inl j) = ∑ j', 1 / 2 * (D.Q θ j j' + D.Q θ j' j) * v (.inl j') + D.c θ j := by
  simp only [BoxFamily.nlp, Sum.elim_inl, Matrix.mulVec, dotProduct, Matrix.transpose_apply, Pi.add_apply, Pi.smul_apply, smul_eq_mul]
  rw [← Finset.sum_add_distrib, Finset.mul_sum]
  congr 1
  exact Finset.sum_congr rfl fun j' _ => by ring

theorem box_grad_inr (i : Fin m) : D.nlp.grad v θ (.inr i) = 0 := rfl

theorem box_eq (i : Fin m) : D.nlp.eq v θ i = ∑ j, D.A θ i j * v (.inl j) - v (.inr i) := rfl

theorem box_ineq_inl (i : Fin m) : D.nlp.ineq v θ (.inl i) = if D.ufin i then v (.inr i) - D.u θ i else 0 := rfl

theorem box_ineq_inr (i : Fin m) : D.nlp.ineq v θ (.inr i) = if D.lfin i then D.l θ i - v (.inr i) else 0 := rfl

/-- The product with the transposed Jacobian of the equality constraints. -/
theorem box_eqJac (y : Fin m → ℝ) : (∀ j, ∑ a, D.nlp.eqJac v θ a (.inl j) * y a = ∑ i, D.A θ i j * y i) ∧
    ∀ i, ∑ a, D.nlp.eqJac v θ a (.inr i) * y a = -y i := by
  refine ⟨fun j => rfl, fun i => ?_⟩
  simp [BoxFamily.nlp]

/-- The product with the transposed Jacobian of the inequality constraints. -/
theorem box_ineqJac (l : Fin m ⊕ Fin m → ℝ) : (∀ j, ∑ a, D.nlp.ineqJac v θ a (.inl j) * l a = 0) ∧
    ∀ i, ∑ a, D.nlp.ineqJac v θ a (.inr i) * l a = (if D.ufin i then l (.inl i) else 0) - if D.lfin i then l (.inr i) else 0 := by
  refine ⟨fun j => ?_, fun i => ?_⟩
  · simp [BoxFamily.nlp]
  · rw [Fintype.sum_sum_type]
    have e1 : ∑ a, D.nlp.ineqJac v θ (.inl a) (.inr i) * l (.inl a) = if D.ufin i then l (.inl i) else 0 := by
      rw [Finset.sum_eq_single i]
      · by_cases h : D.ufin i = true <;> simp [BoxFamily.nlp, h]
      · intro a _ ha
        by_cases h : D.ufin a = true <;> simp [BoxFamily.nlp, h, ha.symm]
      · simp
    have e2 : ∑ a, D.nlp.ineqJac v θ (.inr a) (.inr i) * l (.inr a) = -if D.lfin i then l (.inr i) else 0 := by
      rw [Finset.sum_eq_single i]
      · by_cases h : D.lfin i = true <;> simp [BoxFamily.nlp, h]
      · intro a _ ha
        by_cases h : D.lfin a = true <;> simp [BoxFamily.nlp, h, ha.symm]
      · simp
    rw [e1, e2]; ring

/-- The product with the Jacobian of the equality constraints. -/
theorem box_eqJac_mul (i : Fin m) (d : Fin n ⊕ Fin m → ℝ) : ∑ j, D.nlp.eqJac v θ i j * d j = ∑ j, D.A θ i j * d (.inl j) - d (.inr i) := by
  rw [Fintype.sum_sum_type]
  simp [BoxFamily.nlp, sub_eq_add_neg]

theorem box_ineqJac_mul (d : Fin n ⊕ Fin m → ℝ) : (∀ i, ∑ j, D.nlp.ineqJac v θ (.inl i) j * d j = if D.ufin i then d (.inr i) else 0) ∧
    ∀ i, ∑ j, D.nlp.ineqJac v θ (.inr i) j * d j = if D.lfin i then -d (.inr i) else 0 := by
  refine ⟨fun i => ?_, fun i => ?_⟩ <;> rw [Fintype.sum_sum_type]
  · by_cases h : D.ufin i = true <;> simp [BoxFamily.nlp, h]
  · by_cases h : D.lfin i = true <;> simp [BoxFamily.nlp, h]

/-- The zeros of the optimality function. -/
theorem box_root_iff (s : BoxVec n m) : D.nlp.kktFun s θ = 0 ↔
    (∀ j, ∑ j', 1 / 2 * (D.Q θ j j' + D.Q θ j' j) * s (.inl (.inl j')) + D.c θ j + ∑ i, D.A θ i j * s (.inr (.inl i)) = 0) ∧
    (∀ i, -s (.inr (.inl i)) + ((if D.ufin i then s (.inr (.inr (.inl i))) else 0) - if D.lfin i then s (.inr (.inr (.inr i))) else 0) = 0) ∧
    (∀ i, ∑ j, D.A θ i j * s (.inl (.inl j)) - s (.inl (.inr i)) = 0) ∧
    (∀ i, s (.inr (.inr (.inl i))) = 0 ∨ (if D.ufin i then s (.inl (.inr i)) - D.u θ i else 0) = 0) ∧
    ∀ i, s (.inr (.inr (.inr i))) = 0 ∨ (if D.lfin i then D.l θ i - s (.inl (.inr i)) else 0) = 0 := by
  rw [kktFun_eq_zero_iff]
  constructor
  · rintro ⟨h1, h2, h3⟩
    refine ⟨fun j => ?_, fun i => ?_, fun i => h2 i, fun i => h3 (.inl i), fun i => h3 (.inr i)⟩
    · have := h1 (.inl j)
      rw [box_grad_inl, (box_eqJac D θ _ _).1, (box_ineqJac D θ _ _).1, add_zero] at this
      exact this
    · have := h1 (.inr i)
      rw [box_grad_inr, (box_eqJac D θ _ _).2, (box_ineqJac D θ _ _).2, zero_add] at this
      exact this
  · rintro ⟨h1, h2, h3, h4, h5⟩
    refine ⟨fun c => ?_, fun i => h3 i, fun c => ?_⟩
    · rcases c with j | i
      · rw [box_grad_inl, (box_eqJac D θ _ _).1, (box_ineqJac D θ _ _).1, add_zero]
        exact h1 j
      · rw [box_grad_inr, (box_eqJac D θ _ _).2, (box_ineqJac D θ _ _).2, zero_add]
        exact h2 i
    · rcases c with i | i
      · exact h4 i
      · exact h5 i

end

/-- Data that are continuously differentiable functions of the parameters. -/
structure BoxFamily.Smooth (D : BoxFamily n m (∀ i, P i)) (θ : ∀ i, P i) : Prop where
  Q : ∀ j j', ContDiffAt ℝ 1 (fun θ => D.Q θ j j') θ
  c : ∀ j, ContDiffAt ℝ 1 (fun θ => D.c θ j) θ
  A : ∀ i j, ContDiffAt ℝ 1 (fun θ => D.A θ i j) θ
  l : ∀ i, ContDiffAt ℝ 1 (fun θ => D.l θ i) θ
  u : ∀ i, ContDiffAt ℝ 1 (fun θ => D.u θ i) θ

/-- The derivative of the gradient. -/
noncomputable def boxHess (Q : Matrix (Fin n) (Fin n) ℝ) : Matrix (Fin n ⊕ Fin m) (Fin n ⊕ Fin m) ℝ :=
  Matrix.fromBlocks (Matrix.of fun j j' => 1 / 2 * (Q j j' + Q j' j)) 0 0 0

theorem boxHess_inl (Q : Matrix (Fin n) (Fin n) ℝ) (d : Fin n ⊕ Fin m → ℝ) (j : Fin n) :
    ∑ j', boxHess (m := m) Q (.inl j) j' * d j' = ∑ j', 1 / 2 * (Q j j' + Q j' j) * d (.inl j') := by
  rw [Fintype.sum_sum_type]
  simp [boxHess]

theorem boxHess_inr (Q : Matrix (Fin n) (Fin n) ℝ) (d : Fin n ⊕ Fin m → ℝ) (i : Fin m) :
    ∑ j', boxHess (m := m) Q (.inr i) j' * d j' = 0 := by
  rw [Fintype.sum_sum_type]
  simp [boxHess]

variable {D : BoxFamily n m (∀ i, P i)} {θ0 : ∀ i, P i}

theorem BoxFamily.Smooth.at_ (hD : D.Smooth θ0) (s0 : BoxVec n m) : D.nlp.SmoothAt s0 θ0 (boxHess (D.Q θ0)) where
  grad_diff := by
    rw [contDiffAt_pi]
    rintro (j | i)
    · simp only [box_grad_inl]
      refine ContDiffAt.add (ContDiffAt.sum fun j' _ => ContDiffAt.mul ?_ ?_) ?_
      · exact contDiffAt_const.mul (((hD.Q j j').comp (θ0, s0.x) contDiffAt_fst).add ((hD.Q j' j).comp (θ0, s0.x) contDiffAt_fst))
      · exact (contDiffAt_pi.mp contDiffAt_snd) _
      · exact (hD.c j).comp (θ0, s0.x) contDiffAt_fst
    · exact contDiffAt_const
  eq_diff := by
    rw [contDiffAt_pi]
    intro a
    simp only [box_eq]
    refine ContDiffAt.sub (ContDiffAt.sum fun j _ => ContDiffAt.mul ?_ ?_) ?_
    · exact (hD.A a j).comp (θ0, s0.x) contDiffAt_fst
    · exact (contDiffAt_pi.mp contDiffAt_snd) _
    · exact (contDiffAt_pi.mp contDiffAt_snd) _
  eqJac_diff := fun a j => by
    rcases j with j | i
    · exact (hD.A a j).comp (θ0, s0.x) contDiffAt_fst
    · exact contDiffAt_const
  ineq_diff := by
    rw [contDiffAt_pi]
    rintro (i | i)
    · simp only [box_ineq_inl]
      by_cases h : D.ufin i = true
      · simp only [h, if_true]
        exact ContDiffAt.sub ((contDiffAt_pi.mp contDiffAt_snd) _) ((hD.u i).comp (θ0, s0.x) contDiffAt_fst)
      · simp only [h, if_false]
        exact contDiffAt_const
    · simp only [box_ineq_inr]
      by_cases h : D.lfin i = true
      · simp only [h, if_true]
        exact ContDiffAt.sub ((hD.l i).comp (θ0, s0.x) contDiffAt_fst) ((contDiffAt_pi.mp contDiffAt_snd) _)
      · simp only [h, if_false]
        exact contDiffAt_const
  ineqJac_diff := fun i j => contDiffAt_const
  eq_jac := fun a d => by
    simp only [box_eq, box_eqJac_mul]
    refine (hasDerivAt_affine (∑ j, D.A θ0 a j * s0.x (.inl j) - s0.x (.inr a))
      (∑ j, D.A θ0 a j * d (.inl j) - d (.inr a))).congr_of_eventuallyEq (Eventually.of_forall fun t => ?_)
    simp only [Pi.add_apply, Pi.smul_apply, smul_eq_mul]
    have := sum_line (D.A θ0 a) (fun j => s0.x (.inl j)) (fun j => d (.inl j)) t
    simp only [Pi.add_apply, Pi.smul_apply, smul_eq_mul] at this
    rw [this]; ring
  ineq_jac := fun c d => by
    rcases c with i | i
    · rw [(box_ineqJac_mul D θ0 _ d).1]
      simp only [box_ineq_inl]
      by_cases h : D.ufin i = true
      · simp only [h, if_true]
        refine (hasDerivAt_affine (s0.x (.inr i) - D.u θ0 i) (d (.inr i))).congr_of_eventuallyEq (Eventually.of_forall fun t => ?_)
        simp only [Pi.add_apply, Pi.smul_apply, smul_eq_mul]; ring
      · simp only [h, if_false]
        exact hasDerivAt_const _ _
    · rw [(box_ineqJac_mul D θ0 _ d).2]
      simp only [box_ineq_inr]
      by_cases h : D.lfin i = true
      · simp only [h, if_true]
        refine (hasDerivAt_affine (D.l θ0 i - s0.x (.inr i)) (-d (.inr i))).congr_of_eventuallyEq (Eventually.of_forall fun t => ?_)
        simp only [Pi.add_apply, Pi.smul_apply, smul_eq_mul]; ring
      · simp only [h, if_false]
        exact hasDerivAt_const _ _
  hess := fun c d => by
    rcases c with j | i
    · rw [boxHess_inl]
      simp only [box_grad_inl, (box_eqJac D θ0 _ _).1, (box_ineqJac D θ0 _ _).1]
      refine (hasDerivAt_affine (∑ j', 1 / 2 * (D.Q θ0 j j' + D.Q θ0 j' j) * s0.x (.inl j') + D.c θ0 j + ∑ i, D.A θ0 i j * s0.y i + 0)
        (∑ j', 1 / 2 * (D.Q θ0 j j' + D.Q θ0 j' j) * d (.inl j'))).congr_of_eventuallyEq (Eventually.of_forall fun t => ?_)
      have := sum_line (fun j' => 1 / 2 * (D.Q θ0 j j' + D.Q θ0 j' j)) (fun j => s0.x (.inl j)) (fun j => d (.inl j)) t
      simp only [Pi.add_apply, Pi.smul_apply, smul_eq_mul] at this ⊢
      rw [this]; ring
    · rw [boxHess_inr]
      simp only [box_grad_inr, (box_eqJac D θ0 _ _).2, (box_ineqJac D θ0 _ _).2]
      exact hasDerivAt_const _ _

/-- The rows of the linear system. -/
theorem box_fderiv (hD : D.Smooth θ0) (s0 d : BoxVec n m) (hd : fderiv ℝ (fun s => D.nlp.kktFun s θ0) s0 d = 0) :
    (∀ j, ∑ j', 1 / 2 * (D.Q θ0 j j' + D.Q θ0 j' j) * d (.inl (.inl j')) + ∑ i, D.A θ0 i j * d (.inr (.inl i)) = 0) ∧
    (∀ i, -d (.inr (.inl i)) + ((if D.ufin i then d (.inr (.inr (.inl i))) else 0) - if D.lfin i then d (.inr (.inr (.inr i))) else 0) = 0) ∧
    (∀ i, ∑ j, D.A θ0 i j * d (.inl (.inl j)) - d (.inl (.inr i)) = 0) ∧
    (∀ i, D.ufin i = true → d (.inl (.inr i)) * s0 (.inr (.inr (.inl i))) + (s0 (.inl (.inr i)) - D.u θ0 i) * d (.inr (.inr (.inl i))) = 0) ∧
    ∀ i, D.lfin i = true → -d (.inl (.inr i)) * s0 (.inr (.inr (.inr i))) + (D.l θ0 i - s0 (.inl (.inr i))) * d (.inr (.inr (.inr i))) = 0 := by
  obtain ⟨h1, h2, h3⟩ := (hD.at_ s0).fderiv_apply d
  simp only [hd] at h1 h2 h3
  have z : ∀ c, (0 : BoxVec n m) c = 0 := fun c => rfl
  simp only [z] at h1 h2 h3
  refine ⟨fun j => ?_, fun i => ?_, fun i => ?_, fun i hi => ?_, fun i hi => ?_⟩
  · have := h1 (.inl j)
    rw [boxHess_inl, (box_eqJac D θ0 _ _).1, (box_ineqJac D θ0 _ _).1, add_zero] at this
    exact this.symm
  · have := h1 (.inr i)
    rw [boxHess_inr, (box_eqJac D θ0 _ _).2, (box_ineqJac D θ0 _ _).2, zero_add] at this
    exact this.symm
  · have := h2 i
    rw [box_eqJac_mul] at this
    exact this.symm
  · have := h3 (.inl i)
    rw [(box_ineqJac_mul D θ0 _ _).1, box_ineq_inl, if_pos hi, if_pos hi] at this
    exact this.symm
  · have := h3 (.inr i)
    rw [(box_ineqJac_mul D θ0 _ _).2, box_ineq_inr, if_pos hi, if_pos hi] at this
    exact this.symm

/-! ## The kernel at a regular solution -/

section
variable {Θ : Type*} (D : BoxFamily n m Θ) (θ : Θ) (x : Fin n → ℝ) (y : Fin m → ℝ)

theorem boxSol_x (j : Fin n) : boxSol D θ x y (.inl (.inl j)) = x j := rfl
theorem boxSol_z (i : Fin m) : boxSol D θ x y (.inl (.inr i)) = ∑ j, D.A θ i j * x j := rfl
theorem boxSol_y (i : Fin m) : boxSol D θ x y (.inr (.inl i)) = y i := rfl
theorem boxSol_mu (i : Fin m) : boxSol D θ x y (.inr (.inr (.inl i))) = if 0 ≤ y i then y i else 0 := rfl
theorem boxSol_phi (i : Fin m) : boxSol D θ x y (.inr (.inr (.inr i))) = max (-y i) 0 := rfl

end

variable {x0 : Fin n → ℝ} {y0 : Fin m → ℝ}

/-- The kernel of the linear system at a regular solution is made of multipliers that are not pinned. -/
theorem box_kernel (h : D.Regular θ0 x0 y0) (hD : D.Smooth θ0) (d : BoxVec n m)
    (hd : fderiv ℝ (fun s => D.nlp.kktFun s θ0) (boxSol D θ0 x0 y0) d = 0) : ∀ c, D.Pinned θ0 c → d c = 0 := by
  obtain ⟨h1, h2, h3, h4, h5⟩ := box_fderiv hD _ d hd
  simp only [boxSol_z, boxSol_mu, boxSol_phi] at h4 h5
  have hdz : ∀ i, y0 i ≠ 0 → d (.inl (.inr i)) = 0 := by
    intro i hi
    rcases lt_or_gt_of_ne hi with hi | hi
    · obtain ⟨hf, ha⟩ := h.lower i hi
      have := h5 i hf
      rw [ha, sub_self, zero_mul, add_zero, max_eq_left (by linarith)] at this
      rcases mul_eq_zero.mp this with e | e <;> linarith
    · obtain ⟨hf, ha⟩ := h.upper i hi
      have := h4 i hf
      rw [ha, sub_self, zero_mul, add_zero, if_pos hi.le] at this
      rcases mul_eq_zero.mp this with e | e <;> linarith
  have hmu0 : ∀ i, y0 i = 0 → D.ufin i = true → d (.inr (.inr (.inl i))) = 0 := by
    intro i hi hf
    have := h4 i hf
    rw [hi, if_pos le_rfl, mul_zero, zero_add] at this
    have hlt := (h.inside i hi).1 hf
    rcases mul_eq_zero.mp this with e | e
    · linarith
    · exact e
  have hphi0 : ∀ i, y0 i = 0 → D.lfin i = true → d (.inr (.inr (.inr i))) = 0 := by
    intro i hi hf
    have := h5 i hf
    rw [hi, neg_zero, max_self, mul_zero, zero_add] at this
    have hlt := (h.inside i hi).2 hf
    rcases mul_eq_zero.mp this with e | e
    · linarith
    · exact e
  have hdy : ∀ i, y0 i = 0 → d (.inr (.inl i)) = 0 := by
    intro i hi
    have := h2 i
    have e1 : (if D.ufin i = true then d (.inr (.inr (.inl i))) else 0) = 0 := by
      by_cases hf : D.ufin i = true
      · rw [if_pos hf]; exact hmu0 i hi hf
      · rw [if_neg hf]
    have e2 : (if D.lfin i = true then d (.inr (.inr (.inr i))) else 0) = 0 := by
      by_cases hf : D.lfin i = true
      · rw [if_pos hf]; exact hphi0 i hi hf
      · rw [if_neg hf]
    rw [e1, e2] at this
    linarith
  set dx : Fin n → ℝ := fun j => d (.inl (.inl j)) with hdx
  set dy : Fin m → ℝ := fun i => d (.inr (.inl i)) with hdyy
  have hA : ∀ i, ∑ j, D.A θ0 i j * dx j = d (.inl (.inr i)) := fun i => by
    have := h3 i
    linarith
  have hquad : ∑ j, dx j * ∑ j', D.Q θ0 j j' * dx j' = 0 := by
    rw [← quad_symm]
    have e : ∑ j, dx j * (∑ j', 1 / 2 * (D.Q θ0 j j' + D.Q θ0 j' j) * dx j' + ∑ i, D.A θ0 i j * dy i) = 0 :=
      Finset.sum_eq_zero fun j _ => (congrArg (dx j * ·) (h1 j)).trans (mul_zero _)
    rw [Finset.sum_congr rfl fun j _ => mul_add (dx j) _ _, Finset.sum_add_distrib, sum_swap (fun i j => D.A θ0 i j) dx dy] at e
    have e2 : ∑ i, (∑ j, D.A θ0 i j * dx j) * dy i = 0 := by
      refine Finset.sum_eq_zero fun i _ => ?_
      by_cases hi : y0 i = 0
      · rw [show dy i = 0 from hdy i hi, mul_zero]
      · rw [hA, hdz i hi, zero_mul]
    linarith
  have hx0 : dx = 0 := by
    by_contra hne
    have := h.second dx hne fun i hi => by rw [hA]; exact hdz i hi
    linarith
  have hz0 : ∀ i, d (.inl (.inr i)) = 0 := fun i => by rw [← hA, hx0]; simp
  have hy0 : dy = 0 := by
    refine h.indep dy hdy fun j => ?_
    have := h1 j
    have e : ∑ j', 1 / 2 * (D.Q θ0 j j' + D.Q θ0 j' j) * dx j' = 0 := by rw [hx0]; simp
    rw [show ∑ j', 1 / 2 * (D.Q θ0 j j' + D.Q θ0 j' j) * d (.inl (.inl j')) = _ from e, zero_add] at this
    exact this
  have hdiff : ∀ i, (if D.ufin i = true then d (.inr (.inr (.inl i))) else 0) = if D.lfin i = true then d (.inr (.inr (.inr i))) else 0 := by
    intro i
    have := h2 i
    rw [show d (.inr (.inl i)) = 0 from congrFun hy0 i] at this
    linarith
  rintro ((j | i) | i | i | i) hc
  · exact congrFun hx0 j
  · exact hz0 i
  · exact congrFun hy0 i
  · obtain ⟨hu, hl⟩ := hc
    rcases lt_trichotomy (y0 i) 0 with hi | hi | hi
    · obtain ⟨hf, ha⟩ := h.lower i hi
      have := h4 i hu
      rw [hz0, zero_mul, zero_add, ha] at this
      have hlt := hl hf
      rcases mul_eq_zero.mp this with e | e
      · linarith
      · exact e
    · exact hmu0 i hi hu
    · obtain ⟨-, ha⟩ := h.upper i hi
      have e := hdiff i
      rw [if_pos hu] at e
      rw [e]
      by_cases hf : D.lfin i = true
      · rw [if_pos hf]
        have := h5 i hf
        rw [hz0, neg_zero, zero_mul, zero_add, ha] at this
        have hlt := hl hf
        rcases mul_eq_zero.mp this with e | e
        · linarith
        · exact e
      · rw [if_neg hf]
  · obtain ⟨hl, hu⟩ := hc
    rcases lt_trichotomy (y0 i) 0 with hi | hi | hi
    · obtain ⟨-, ha⟩ := h.lower i hi
      have e := hdiff i
      rw [if_pos hl] at e
      rw [← e]
      by_cases hf : D.ufin i = true
      · rw [if_pos hf]
        have := h4 i hf
        rw [hz0, zero_mul, zero_add, ha] at this
        have hlt := hu hf
        rcases mul_eq_zero.mp this with e | e
        · linarith
        · exact e
      · rw [if_neg hf]
    · exact hphi0 i hi hl
    · obtain ⟨hf, ha⟩ := h.upper i hi
      have := h5 i hl
      rw [hz0, neg_zero, zero_mul, zero_add, ha] at this
      have hlt := hu hf
      rcases mul_eq_zero.mp this with e | e
      · linarith
      · exact e

/-! ## The program of the active rows -/

/-- The program in which the rows with a nonzero multiplier are equalities and the others are absent. -/
noncomputable def BoxFamily.active {Θ : Type*} (D : BoxFamily n m Θ) (y0 : Fin m → ℝ) : QPFamily (Fin n) {i : Fin m // y0 i ≠ 0} (Fin 0) Θ :=
  ⟨D.Q, D.c, fun θ => Matrix.of fun i j => D.A θ i.1 j, fun θ i => if 0 < y0 i then D.u θ i else D.l θ i, fun _ => 0, fun _ => 0⟩

theorem sum_active (y0 : Fin m → ℝ) (f : Fin m → ℝ) (hf : ∀ i, y0 i = 0 → f i = 0) : ∑ i : {i : Fin m // y0 i ≠ 0}, f i = ∑ i, f i := by
  rw [← Finset.sum_subtype (Finset.univ.filter fun i => y0 i ≠ 0) (fun i => by simp) f]
  exact Finset.sum_filter_of_ne fun i _ hne h0 => hne (hf i h0)

/-- The multipliers of the active rows as multipliers of all rows. -/
noncomputable def extend (y0 : Fin m → ℝ) (v : {i : Fin m // y0 i ≠ 0} → ℝ) : Fin m → ℝ := fun i => if h : y0 i ≠ 0 then v ⟨i, h⟩ else 0

theorem extend_active (y0 : Fin m → ℝ) (v : {i : Fin m // y0 i ≠ 0} → ℝ) (i : {i : Fin m // y0 i ≠ 0}) : extend y0 v i = v i := by
  unfold extend
  rw [dif_pos i.2]

theorem extend_zero (y0 : Fin m → ℝ) (v : {i : Fin m // y0 i ≠ 0} → ℝ) (i : Fin m) (hi : y0 i = 0) : extend y0 v i = 0 := by
  unfold extend
  rw [dif_neg (fun h => h hi)]

theorem extend_self (y0 : Fin m → ℝ) : extend y0 (fun i => y0 i) = y0 := by
  funext i
  by_cases hi : y0 i = 0
  · rw [extend_zero _ _ _ hi, hi]
  · exact extend_active y0 (fun i => y0 i) ⟨i, hi⟩

theorem sum_extend (y0 : Fin m → ℝ) (a : Fin m → ℝ) (v : {i : Fin m // y0 i ≠ 0} → ℝ) :
    ∑ i : {i : Fin m // y0 i ≠ 0}, a i * v i = ∑ i, a i * extend y0 v i := by
  rw [← sum_active y0 (fun i => a i * extend y0 v i) (fun i hi => by rw [extend_zero _ _ _ hi, mul_zero])]
  exact Finset.sum_congr rfl fun i _ => by rw [extend_active]

/-- The solution of the program of the active rows. -/
noncomputable def activeSol (x0 : Fin n → ℝ) (y0 : Fin m → ℝ) : KktVec (Fin n) {i : Fin m // y0 i ≠ 0} (Fin 0) :=
  packKkt ⟨x0, some fun i => y0 i, some 0⟩

theorem active_stat {Θ : Type*} (D : BoxFamily n m Θ) (y0 : Fin m → ℝ) (θ : Θ) (s : KktVec (Fin n) {i : Fin m // y0 i ≠ 0} (Fin 0)) (j : Fin n) :
    (D.active y0).nlp.grad s.x θ j + ∑ a, (D.active y0).nlp.eqJac s.x θ a j * s.y a + ∑ i, (D.active y0).nlp.ineqJac s.x θ i j * s.l i =
      ∑ j', 1 / 2 * (D.Q θ j j' + D.Q θ j' j) * s.x j' + D.c θ j + ∑ i, D.A θ i j * extend y0 s.y i := by
  rw [nlp_grad, ← sum_extend]
  simp [BoxFamily.active, QPFamily.nlp]

theorem BoxFamily.Regular.active (h : D.Regular θ0 x0 y0) : (D.active y0).Regular (activeSol x0 y0) θ0 where
  kkt := by
    refine ⟨fun j => ?_, fun a => ?_, fun i => i.elim0, fun i => i.elim0, fun i => i.elim0⟩
    · rw [active_stat]
      have := h.stat j
      rw [← extend_self y0] at this
      exact this
    · rw [nlp_eq]
      show ∑ j, D.A θ0 a.1 j * x0 j - (if 0 < y0 a then D.u θ0 a else D.l θ0 a) = 0
      rcases lt_or_gt_of_ne a.2 with hi | hi
      · rw [if_neg (not_lt.mpr hi.le), (h.lower _ hi).2, sub_self]
      · rw [if_pos hi, (h.upper _ hi).2, sub_self]
  strict := fun i => i.elim0
  indep := fun y l h1 _ => by
    refine ⟨?_, Subsingleton.elim _ _⟩
    have := h.indep (extend y0 y) (fun i hi => extend_zero _ _ _ hi) fun j => by
      rw [← sum_extend]
      simpa [BoxFamily.active] using h1 j
    funext i
    rw [← extend_active y0 y i, this]
    rfl
  second := fun d hd h1 _ => h.second d hd fun i hi => h1 ⟨i, hi⟩

theorem BoxFamily.Smooth.active (hD : D.Smooth θ0) : (D.active y0).Smooth θ0 where
  Q := hD.Q
  c := hD.c
  A := fun a j => hD.A a.1 j
  b := fun a => by
    by_cases hi : 0 < y0 a
    · simp only [BoxFamily.active, hi, if_true]; exact hD.u _
    · simp only [BoxFamily.active, hi, if_false]; exact hD.l _
  G := fun i => i.elim0
  h := fun i => i.elim0

/-! ## C126 -/

/-- **C126**.  Let the data of `BoxOSQP` be continuously differentiable in parameters, the objective convex and the bounds consistent for parameters
near `θ0`, and let the program at `θ0` have a regular solution.  For all parameters nearby the program has a unique minimiser; with the
multipliers that `BoxOSQP` reports it is a differentiable function of the parameters and a root of the optimality function.  For
every linear solver that solves consistent systems, `root_jvp` is the directional derivative in every pinned entry, and `root_vjp` is the
transposed partial derivative for every cotangent supported on pinned entries, although the linear system may be singular. -/
theorem C126_diff (h : D.Regular θ0 x0 y0) (hD : D.Smooth θ0) (hQ : ∀ᶠ θ in 𝓝 θ0, ∀ d : Fin n → ℝ, 0 ≤ ∑ j, d j * ∑ j', D.Q θ j j' * d j')
    (hb : ∀ᶠ θ in 𝓝 θ0, ∀ i, D.lfin i = true → D.ufin i = true → D.l θ i ≤ D.u θ i) :
    ∃ (X : (∀ i, P i) → Fin n → ℝ) (Y : (∀ i, P i) → Fin m → ℝ), X θ0 = x0 ∧ Y θ0 = y0 ∧
      (∀ᶠ θ in 𝓝 θ0, D.Feasible θ (X θ) ∧ (∀ x', D.Feasible θ x' → x' ≠ X θ → D.obj θ (X θ) < D.obj θ x') ∧
        D.nlp.kktFun (boxSol D θ (X θ) (Y θ)) θ = 0) ∧
      DifferentiableAt ℝ (fun θ => boxSol D θ (X θ) (Y θ)) θ0 ∧
      ∀ solve, ConsistentSolve solve →
        (∀ t c, D.Pinned θ0 c →
          rootJvp D.nlp.kktFun (boxSol D θ0 x0 y0) θ0 t solve c = fderiv ℝ (fun θ => boxSol D θ (X θ) (Y θ)) θ0 t c) ∧
        ∀ w : BoxVec n m, (∀ c, ¬D.Pinned θ0 c → w c = 0) → ∀ i, rootVjp D.nlp.kktFun (boxSol D θ0 x0 y0) θ0 w solve i =
          adjoint (fderiv ℝ (fun r => (fun θ => boxSol D θ (X θ) (Y θ)) (Function.update θ0 i r)) (θ0 i)) w := by
  obtain ⟨p, hp0, hdp, hsol, -⟩ := C125_qp h.active (hD.active (y0 := y0)) hQ
  set X : (∀ i, P i) → Fin n → ℝ := fun θ => (p θ).x with hX
  set Y : (∀ i, P i) → Fin m → ℝ := fun θ => extend y0 (p θ).y with hY
  have hX0 : X θ0 = x0 := by rw [hX]; simp only [hp0]; rfl
  have hY0 : Y θ0 = y0 := by
    rw [hY]; simp only [hp0]
    exact extend_self y0
  have hXd : ∀ j, DifferentiableAt ℝ (fun θ => X θ j) θ0 := fun j =>
    ((EuclideanSpace.proj (𝕜 := ℝ) (Sum.inl j : Fin n ⊕ ({i : Fin m // y0 i ≠ 0} ⊕ Fin 0))).differentiableAt).comp θ0 hdp
  have hYd : ∀ i, DifferentiableAt ℝ (fun θ => Y θ i) θ0 := by
    intro i
    by_cases hi : y0 i = 0
    · have : (fun θ => Y θ i) = fun _ => 0 := by funext θ; exact extend_zero _ _ _ hi
      rw [this]; exact differentiableAt_const _
    · have : (fun θ => Y θ i) = fun θ => (p θ).y ⟨i, hi⟩ := by funext θ; exact extend_active y0 (p θ).y ⟨i, hi⟩
      rw [this]
      exact ((EuclideanSpace.proj (𝕜 := ℝ) (Sum.inr (Sum.inl ⟨i, hi⟩) : Fin n ⊕ ({i : Fin m // y0 i ≠ 0} ⊕ Fin 0))).differentiableAt).comp θ0 hdp
  have hZd : ∀ i, DifferentiableAt ℝ (fun θ => ∑ j, D.A θ i j * X θ j) θ0 := fun i =>
    DifferentiableAt.fun_sum fun j _ => ((hD.A i j).differentiableAt (by norm_num)).mul (hXd j)
  -- signs and strict inequalities persist
  have hsign : ∀ᶠ θ in 𝓝 θ0, ∀ i, (0 < y0 i → 0 < Y θ i) ∧ (y0 i < 0 → Y θ i < 0) ∧
      (y0 i = 0 → (D.ufin i = true → ∑ j, D.A θ i j * X θ j < D.u θ i) ∧ (D.lfin i = true → D.l θ i < ∑ j, D.A θ i j * X θ j)) := by
    rw [eventually_all]
    intro i
    have hYc : Tendsto (fun θ => Y θ i) (𝓝 θ0) (𝓝 (y0 i)) := by
      have := (hYd i).continuousAt.tendsto
      rwa [hY0] at this
    have hZc : Tendsto (fun θ => ∑ j, D.A θ i j * X θ j) (𝓝 θ0) (𝓝 (∑ j, D.A θ0 i j * x0 j)) := by
      have := (hZd i).continuousAt.tendsto
      simp only [hX0] at this
      exact this
    refine Filter.Eventually.and ?_ (Filter.Eventually.and ?_ ?_)
    · by_cases hi : 0 < y0 i
      · filter_upwards [hYc.eventually (lt_mem_nhds hi)] with θ hθ _ using hθ
      · exact Eventually.of_forall fun θ hh => absurd hh hi
    · by_cases hi : y0 i < 0
      · filter_upwards [hYc.eventually (gt_mem_nhds hi)] with θ hθ _ using hθ
      · exact Eventually.of_forall fun θ hh => absurd hh hi
    · by_cases hi : y0 i = 0
      · have h1 : ∀ᶠ θ in 𝓝 θ0, D.ufin i = true → ∑ j, D.A θ i j * X θ j < D.u θ i := by
          by_cases hf : D.ufin i = true
          · filter_upwards [hZc.eventually_lt (hD.u i).continuousAt ((h.inside i hi).1 hf)] with θ hθ _ using hθ
          · exact Eventually.of_forall fun θ hh => absurd hh hf
        have h2 : ∀ᶠ θ in 𝓝 θ0, D.lfin i = true → D.l θ i < ∑ j, D.A θ i j * X θ j := by
          by_cases hf : D.lfin i = true
          · filter_upwards [(hD.l i).continuousAt.tendsto.eventually_lt hZc ((h.inside i hi).2 hf)] with θ hθ _ using hθ
          · exact Eventually.of_forall fun θ hh => absurd hh hf
        filter_upwards [h1, h2] with θ a b _ using ⟨a, b⟩
      · exact Eventually.of_forall fun θ hh => absurd hh hi
  have hact : ∀ᶠ θ in 𝓝 θ0, (∀ i, 0 < y0 i → ∑ j, D.A θ i j * X θ j = D.u θ i) ∧ ∀ i, y0 i < 0 → ∑ j, D.A θ i j * X θ j = D.l θ i := by
    filter_upwards [hsol] with θ hθ
    refine ⟨fun i hi => ?_, fun i hi => ?_⟩
    · have := hθ.2.1.1 ⟨i, hi.ne'⟩
      simp only [BoxFamily.active, hi, if_true, Matrix.of_apply] at this
      exact this
    · have := hθ.2.1.1 ⟨i, hi.ne⟩
      simp only [BoxFamily.active, not_lt.mpr hi.le, if_false, Matrix.of_apply] at this
      exact this
  have hYz : ∀ θ i, y0 i = 0 → Y θ i = 0 := fun θ i hi => extend_zero _ _ _ hi
  have hroot : ∀ᶠ θ in 𝓝 θ0, D.nlp.kktFun (boxSol D θ (X θ) (Y θ)) θ = 0 := by
    filter_upwards [hsol, hsign, hact] with θ h1 h2 h3
    rw [box_root_iff]
    simp only [boxSol_x, boxSol_y, boxSol_z, boxSol_mu, boxSol_phi]
    refine ⟨fun j => ?_, fun i => ?_, fun i => sub_self _, fun i => ?_, fun i => ?_⟩
    · rw [← active_stat D y0 θ (p θ) j]
      exact h1.1.stat j
    · rcases lt_trichotomy (y0 i) 0 with hi | hi | hi
      · have hy := (h2 i).2.1 hi
        rw [if_neg (not_le.mpr hy), max_eq_left (by linarith), if_pos (h.lower i hi).1]
        simp
      · rw [hYz θ i hi]
        simp
      · have hy := (h2 i).1 hi
        rw [if_pos hy.le, max_eq_right (by linarith), if_pos (h.upper i hi).1]
        simp
    · rcases lt_trichotomy (y0 i) 0 with hi | hi | hi
      · left; rw [if_neg (not_le.mpr ((h2 i).2.1 hi))]
      · left; rw [hYz θ i hi]; simp
      · right; rw [if_pos (h.upper i hi).1, h3.1 i hi, sub_self]
    · rcases lt_trichotomy (y0 i) 0 with hi | hi | hi
      · right; rw [if_pos (h.lower i hi).1, h3.2 i hi, sub_self]
      · left; rw [hYz θ i hi]; simp
      · left; rw [max_eq_right]; have := (h2 i).1 hi; linarith
  have hdiff : DifferentiableAt ℝ (fun θ => boxSol D θ (X θ) (Y θ)) θ0 := by
    have hev : (fun θ => boxSol D θ (X θ) (Y θ)) =ᶠ[𝓝 θ0] fun θ => packKkt ⟨Sum.elim (X θ) (fun i => ∑ j, D.A θ i j * X θ j), some (Y θ),
        some (Sum.elim (fun i => if 0 < y0 i then Y θ i else 0) fun i => if y0 i < 0 then -Y θ i else 0)⟩ := by
      filter_upwards [hsign] with θ h2
      ext c
      rcases c with (j | i) | i | i | i
      · rfl
      · rfl
      · rfl
      · show (if 0 ≤ Y θ i then Y θ i else 0) = if 0 < y0 i then Y θ i else 0
        rcases lt_trichotomy (y0 i) 0 with hi | hi | hi
        · rw [if_neg (not_le.mpr ((h2 i).2.1 hi)), if_neg (not_lt.mpr hi.le)]
        · rw [hYz θ i hi]; simp
        · rw [if_pos ((h2 i).1 hi).le, if_pos hi]
      · show max (-Y θ i) 0 = if y0 i < 0 then -Y θ i else 0
        rcases lt_trichotomy (y0 i) 0 with hi | hi | hi
        · have := (h2 i).2.1 hi
          rw [max_eq_left (by linarith), if_pos hi]
        · rw [hYz θ i hi]; simp
        · have := (h2 i).1 hi
          rw [max_eq_right (by linarith), if_neg (not_lt.mpr hi.le)]
    refine DifferentiableAt.congr_of_eventuallyEq ?_ hev
    rw [differentiableAt_euclidean]
    rintro ((j | i) | i | i | i)
    · exact hXd j
    · exact hZd i
    · exact hYd i
    · show DifferentiableAt ℝ (fun θ => if 0 < y0 i then Y θ i else 0) θ0
      by_cases hi : 0 < y0 i
      · simp only [hi, if_true]; exact hYd i
      · simp only [hi, if_false]; exact differentiableAt_const _
    · show DifferentiableAt ℝ (fun θ => if y0 i < 0 then -Y θ i else 0) θ0
      by_cases hi : y0 i < 0
      · simp only [hi, if_true]; exact (hYd i).neg
      · simp only [hi, if_false]; exact differentiableAt_const _
  have hs0 : (fun θ => boxSol D θ (X θ) (Y θ)) θ0 = boxSol D θ0 x0 y0 := by simp only [hX0, hY0]
  have hbranch : BranchAt D.nlp.kktFun (fun θ => boxSol D θ (X θ) (Y θ)) θ0 := by
    refine ⟨?_, hdiff, hroot⟩
    have h1 : DifferentiableAt ℝ (fun v : (∀ i, P i) × BoxVec n m => D.nlp.kktFun v.2 v.1) (θ0, boxSol D θ0 (X θ0) (Y θ0)) :=
      (hD.at_ _).contDiffAt.differentiableAt (by norm_num)
    have h2 : DifferentiableAt ℝ (fun q : BoxVec n m × (∀ i, P i) => (q.2, q.1)) (boxSol D θ0 (X θ0) (Y θ0), θ0) := by fun_prop
    exact DifferentiableAt.comp (boxSol D θ0 (X θ0) (Y θ0), θ0) (f := fun q : BoxVec n m × (∀ i, P i) => (q.2, q.1)) h1 h2
  refine ⟨X, Y, hX0, hY0, ?_, hdiff, fun solve hs => ⟨fun t c hc => ?_, fun w hw i => ?_⟩⟩
  · filter_upwards [hsol, hsign, hact, hroot, hQ, hb] with θ h1 h2 h3 h4 h5 h6
    refine ⟨fun i => ?_, fun x' hx' hne => ?_, h4⟩
    · rcases lt_trichotomy (y0 i) 0 with hi | hi | hi
      · rw [h3.2 i hi]
        exact ⟨fun _ => le_rfl, fun hu => h6 i (h.lower i hi).1 hu⟩
      · exact ⟨fun hf => (((h2 i).2.2 hi).2 hf).le, fun hf => (((h2 i).2.2 hi).1 hf).le⟩
      · rw [h3.1 i hi]
        exact ⟨fun hl => h6 i hl (h.upper i hi).1, fun _ => le_rfl⟩
    · by_cases hall : ∀ i, y0 i ≠ 0 → ∑ j, D.A θ i j * x' j = ∑ j, D.A θ i j * X θ j
      · refine h1.2.2 x' ⟨fun a => ?_, fun i => i.elim0⟩ hne
        have := h1.2.1.1 a
        rw [← this]
        exact hall a.1 a.2
      · push Not at hall
        obtain ⟨i0, hi0, hne0⟩ := hall
        set d := x' - X θ with hd
        have hx : x' = X θ + d := by rw [hd]; abel
        have hobj := obj_sub (D.active y0) θ (X θ) d
        rw [← hx] at hobj
        have hAd : ∀ i, ∑ j, D.A θ i j * d j = ∑ j, D.A θ i j * x' j - ∑ j, D.A θ i j * X θ j := fun i => by
          have := sum_line (D.A θ i) (X θ) d 1
          rw [one_smul, ← hx] at this
          linarith
        have hstat : ∑ j, d j * (D.active y0).nlp.grad (X θ) θ j = ∑ i, -(∑ j, D.A θ i j * x' j - ∑ j, D.A θ i j * X θ j) * Y θ i := by
          have e : ∀ j, (D.active y0).nlp.grad (X θ) θ j = -∑ i, D.A θ i j * Y θ i := fun j => by
            have e1 := h1.1.stat j
            rw [active_stat] at e1
            have e2 := nlp_grad (D.active y0) θ (X θ) j
            have e3 : (D.active y0).Q θ = D.Q θ := rfl
            have e4 : (D.active y0).c θ = D.c θ := rfl
            rw [e3, e4] at e2
            linarith
          simp only [e, mul_neg, Finset.sum_neg_distrib]
          rw [sum_swap (fun i j => D.A θ i j) d (Y θ), ← Finset.sum_neg_distrib]
          exact Finset.sum_congr rfl fun i _ => by rw [hAd]; ring
        have hterm : ∀ i, 0 ≤ -(∑ j, D.A θ i j * x' j - ∑ j, D.A θ i j * X θ j) * Y θ i := by
          intro i
          rcases lt_trichotomy (y0 i) 0 with hi | hi | hi
          · rw [h3.2 i hi]
            have := (hx' i).1 (h.lower i hi).1
            exact mul_nonneg_of_nonpos_of_nonpos (by linarith) ((h2 i).2.1 hi).le
          · rw [hYz θ i hi, mul_zero]
          · rw [h3.1 i hi]
            have := (hx' i).2 (h.upper i hi).1
            exact mul_nonneg (by linarith) ((h2 i).1 hi).le
        have hpos : 0 < ∑ i, -(∑ j, D.A θ i j * x' j - ∑ j, D.A θ i j * X θ j) * Y θ i := by
          refine Finset.sum_pos' (fun i _ => hterm i) ⟨i0, Finset.mem_univ _, lt_of_le_of_ne (hterm i0) (Ne.symm ?_)⟩
          refine mul_ne_zero (neg_ne_zero.mpr (sub_ne_zero.mpr hne0)) ?_
          rcases lt_or_gt_of_ne hi0 with hi | hi
          · exact ((h2 i0).2.1 hi).ne
          · exact ((h2 i0).1 hi).ne'
        have hcurv := h5 d
        have e5 : (D.active y0).obj θ x' = D.obj θ x' := rfl
        have e6 : (D.active y0).obj θ (X θ) = D.obj θ (X θ) := rfl
        have e7 : (D.active y0).Q θ = D.Q θ := rfl
        rw [hstat, e5, e6, e7] at hobj
        linarith
  · have := hbranch.jvp hs t
    simp only [hs0] at this
    have h0 := box_kernel h hD _ this c hc
    have h1 : (rootJvp D.nlp.kktFun (boxSol D θ0 x0 y0) θ0 t solve - fderiv ℝ (fun θ => boxSol D θ (X θ) (Y θ)) θ0 t) c =
      rootJvp D.nlp.kktFun (boxSol D θ0 x0 y0) θ0 t solve c - fderiv ℝ (fun θ => boxSol D θ (X θ) (Y θ)) θ0 t c := rfl
    rw [h1] at h0
    linarith
  · have := hbranch.vjp hs w (fun d hd => by
      simp only [hs0] at hd
      have hk := box_kernel h hD d hd
      rw [PiLp.inner_apply]
      refine Finset.sum_eq_zero fun c _ => ?_
      by_cases hc : D.Pinned θ0 c
      · rw [hk c hc, inner_zero_left]
      · rw [hw c hc, inner_zero_right]) i
    simp only [hs0] at this
    exact this

/-- **C126** with the default linear solver: `solve_normal_cg` over exact conjugate gradients. -/
theorem C126_normal_cg (h : D.Regular θ0 x0 y0) (hD : D.Smooth θ0) (hQ : ∀ᶠ θ in 𝓝 θ0, ∀ d : Fin n → ℝ, 0 ≤ ∑ j, d j * ∑ j', D.Q θ j j' * d j')
    (hb : ∀ᶠ θ in 𝓝 θ0, ∀ i, D.lfin i = true → D.ufin i = true → D.l θ i ≤ D.u θ i) {cg : (BoxVec n m → BoxVec n m) → BoxVec n m → Option (BoxVec n m) → BoxVec n m}
    (hcg : LinSolve.CgSpec cg) :
    ∃ (X : (∀ i, P i) → Fin n → ℝ), X θ0 = x0 ∧ DifferentiableAt ℝ X θ0 ∧
      (∀ᶠ θ in 𝓝 θ0, D.Feasible θ (X θ) ∧ ∀ x', D.Feasible θ x' → x' ≠ X θ → D.obj θ (X θ) < D.obj θ x') ∧
      ∀ t j, rootJvp D.nlp.kktFun (boxSol D θ0 x0 y0) θ0 t (normalCgSolve cg) (.inl (.inl j)) = fderiv ℝ X θ0 t j := by
  obtain ⟨X, Y, hX, hY, h1, h2, h3⟩ := C126_diff h hD hQ hb
  have hc : ∀ j, HasFDerivAt (fun θ => X θ j) ((EuclideanSpace.proj (𝕜 := ℝ) (Sum.inl (Sum.inl j) : (Fin n ⊕ Fin m) ⊕ (Fin m ⊕ (Fin m ⊕ Fin m)))).comp
      (fderiv ℝ (fun θ => boxSol D θ (X θ) (Y θ)) θ0)) θ0 := fun j =>
    (EuclideanSpace.proj (𝕜 := ℝ) (Sum.inl (Sum.inl j) : (Fin n ⊕ Fin m) ⊕ (Fin m ⊕ (Fin m ⊕ Fin m)))).hasFDerivAt.comp θ0 h2.hasFDerivAt
  have hXd : DifferentiableAt ℝ X θ0 := differentiableAt_pi.mpr fun j => (hc j).differentiableAt
  refine ⟨X, hX, hXd, ?_, fun t j => ?_⟩
  · filter_upwards [h1] with θ hθ using ⟨hθ.1, hθ.2.1⟩
  · rw [(h3 _ (normalCg_consistent hcg)).1 t (.inl (.inl j)) trivial]
    have := (hasFDerivAt_pi'.mp hXd.hasFDerivAt j).unique (hc j)
    have e := congrArg (fun L => L t) this
    exact e.symm

/-! ## The system is singular -/

/-- **C126** (singular systems).  At a regular solution, a row with an infinite bound or with equal bounds makes the linear system of `root_jvp`
singular; every row that `OSQP` builds (osqp.py lines 872-886) is of one of these kinds. -/
theorem C126_singular (h : D.Regular θ0 x0 y0) (hD : D.Smooth θ0) (i0 : Fin m)
    (hi : D.lfin i0 = false ∨ D.ufin i0 = false ∨ D.lfin i0 = true ∧ D.ufin i0 = true ∧ D.l θ0 i0 = D.u θ0 i0) :
    ∃ d : BoxVec n m, d ≠ 0 ∧ fderiv ℝ (fun s => D.nlp.kktFun s θ0) (boxSol D θ0 x0 y0) d = 0 := by
  have key : ∀ l : Fin m ⊕ Fin m → ℝ, l ≠ 0 →
      (∀ i, (if D.ufin i = true then l (.inl i) else 0) - (if D.lfin i = true then l (.inr i) else 0) = 0) →
      (∀ i, D.ufin i = true → (∑ j, D.A θ0 i j * x0 j - D.u θ0 i) * l (.inl i) = 0) →
      (∀ i, D.lfin i = true → (D.l θ0 i - ∑ j, D.A θ0 i j * x0 j) * l (.inr i) = 0) →
      ∃ d : BoxVec n m, d ≠ 0 ∧ fderiv ℝ (fun s => D.nlp.kktFun s θ0) (boxSol D θ0 x0 y0) d = 0 := by
    intro l hl h1 h2 h3
    refine ⟨packKkt ⟨0, some 0, some l⟩, fun h0 => hl ?_, ?_⟩
    · funext c
      exact congrFun (congrArg WithLp.ofLp h0) (.inr (.inr c))
    · obtain ⟨r1, r2, r3⟩ := (hD.at_ (boxSol D θ0 x0 y0)).fderiv_apply (packKkt ⟨0, some 0, some l⟩)
      have ex : (packKkt ⟨0, some 0, some l⟩ : BoxVec n m).x = 0 := rfl
      have ey : (packKkt ⟨0, some 0, some l⟩ : BoxVec n m).y = 0 := rfl
      have el : (packKkt ⟨0, some 0, some l⟩ : BoxVec n m).l = l := rfl
      rw [ex, ey, el] at r1
      rw [ex] at r2
      rw [ex, el] at r3
      ext c
      show _ = (0 : ℝ)
      rcases c with (j | i) | i | i | i
      · rw [r1, boxHess_inl, (box_eqJac D θ0 _ _).1, (box_ineqJac D θ0 _ _).1]
        simp
      · rw [r1, boxHess_inr, (box_eqJac D θ0 _ _).2, (box_ineqJac D θ0 _ _).2, h1]
        simp
      · rw [r2]
        simp
      · rw [r3, (box_ineqJac_mul D θ0 _ _).1, box_ineq_inl]
        by_cases hf : D.ufin i = true
        · rw [if_pos hf, if_pos hf, Pi.zero_apply, zero_mul, zero_add]
          exact h2 i hf
        · rw [if_neg hf, if_neg hf]; simp
      · rw [r3, (box_ineqJac_mul D θ0 _ _).2, box_ineq_inr]
        by_cases hf : D.lfin i = true
        · rw [if_pos hf, if_pos hf, Pi.zero_apply, neg_zero, zero_mul, zero_add]
          exact h3 i hf
        · rw [if_neg hf, if_neg hf]; simp
  rcases hi with hl | hu | ⟨hl, hu, he⟩
  · refine key (Sum.elim 0 (Pi.single i0 1)) (fun h0 => ?_) (fun i => ?_) (fun i _ => by simp) fun i hf => ?_
    · have := congrFun h0 (.inr i0)
      simp at this
    · by_cases hii : i = i0
      · subst hii; simp [hl]
      · simp [hii]
    · by_cases hii : i = i0
      · subst hii; rw [hl] at hf; cases hf
      · simp [hii]
  · refine key (Sum.elim (Pi.single i0 1) 0) (fun h0 => ?_) (fun i => ?_) (fun i hf => ?_) fun i _ => by simp
    · have := congrFun h0 (.inl i0)
      simp at this
    · by_cases hii : i = i0
      · subst hii; simp [hu]
      · simp [hii]
    · by_cases hii : i = i0
      · subst hii; rw [hu] at hf; cases hf
      · simp [hii]
  · have hz : ∑ j, D.A θ0 i0 j * x0 j = D.u θ0 i0 := by
      rcases lt_trichotomy (y0 i0) 0 with hi | hi | hi
      · rw [(h.lower _ hi).2, he]
      · have := (h.inside _ hi).1 hu
        have := (h.inside _ hi).2 hl
        linarith
      · exact (h.upper _ hi).2
    refine key (Sum.elim (Pi.single i0 1) (Pi.single i0 1)) (fun h0 => ?_) (fun i => ?_) (fun i hf => ?_) fun i hf => ?_
    · have := congrFun h0 (.inl i0)
      simp at this
    · by_cases hii : i = i0
      · subst hii; simp [hu, hl]
      · simp [hii]
    · by_cases hii : i = i0
      · subst hii; rw [hz]; simp
      · simp [hii]
    · by_cases hii : i = i0
      · subst hii; rw [hz, he]; simp
      · simp [hii]

/-! ## An equality with a zero multiplier -/

/-- `min ½x²` subject to `θ ≤ x ≤ θ`. -/
noncomputable def pinBox : BoxFamily 1 1 (∀ _ : Unit, ℝ) :=
  ⟨fun _ => 1, fun _ => 0, fun _ => 1, fun θ _ => θ (), fun θ _ => θ (), fun _ => true, fun _ => true⟩

/-- **C126** (equalities with a zero multiplier are lost).  The only feasible point of `min ½x²` subject to `x = θ` is `x = θ`, so its derivative
is `1` for every `θ`; at `θ = 0`, where the multiplier is zero, `root_vjp` of the optimality function of `BoxOSQP` is zero for every
linear solver and every cotangent, and `root_jvp` is zero for every solver that returns zero for a zero right-hand side. -/
theorem C126_zero_multiplier_false :
    (∀ θ x, pinBox.Feasible θ x ↔ x = fun _ => θ ()) ∧ pinBox.nlp.kktFun (boxSol pinBox 0 0 0) 0 = 0 ∧
    (∀ d : Fin 1 → ℝ, d ≠ 0 → 0 < ∑ j, d j * ∑ j', pinBox.Q 0 j j' * d j') ∧
    (∀ solve w i, rootVjp pinBox.nlp.kktFun (boxSol pinBox 0 0 0) 0 w solve i = 0) ∧
    ∀ solve, (∀ A, solve A 0 = 0) → ∀ t, rootJvp pinBox.nlp.kktFun (boxSol pinBox 0 0 0) 0 t solve = 0 := by
  have hroot : ∀ θ, pinBox.nlp.kktFun (boxSol pinBox 0 0 0) θ = 0 := by
    intro θ
    rw [box_root_iff]
    simp [boxSol_x, boxSol_y, boxSol_z, boxSol_mu, boxSol_phi, pinBox]
  refine ⟨fun θ x => ?_, hroot 0, fun d hd => ?_, fun solve w i => ?_, fun solve hs t => ?_⟩
  · have e : ∑ j, pinBox.A θ 0 j * x j = x 0 := by simp [pinBox]
    constructor
    · intro h
      have h0 := h 0
      rw [e] at h0
      funext j
      rw [Subsingleton.elim j 0]
      exact le_antisymm (h0.2 rfl) (h0.1 rfl)
    · intro h i
      rw [Subsingleton.elim i 0, e, h]
      exact ⟨fun _ => le_rfl, fun _ => le_rfl⟩
  · have h0 : d 0 ≠ 0 := fun h => hd (by funext i; rw [Subsingleton.elim i 0]; exact h)
    simp only [pinBox, Fin.sum_univ_one, Matrix.one_apply_eq, one_mul]
    exact mul_self_pos.mpr h0
  · unfold rootVjp vjpArgs vjp
    simp only [hroot, fderiv_fun_const]
    simp
  · unfold rootJvp jvpArgs jvp
    simp only [hroot, fderiv_fun_const]
    exact hs _

/-! ## Examples -/

/-- `min ½(x₀² + x₁²)` subject to `x₀ + x₁ = θ` and `x₀ ≤ 1`, as `OSQP` passes it to `BoxOSQP`. -/
noncomputable def exBox : BoxFamily 2 2 (∀ _ : Unit, ℝ) :=
  ⟨fun _ => 1, fun _ => 0, fun _ => !![1, 1; 1, 0], fun θ => ![θ (), 0], fun θ => ![θ (), 1], ![true, false], ![true, true]⟩

theorem exBox_regular : exBox.Regular (fun _ => 4) ![1, 3] ![-3, 2] where
  stat := fun j => by fin_cases j <;> simp [exBox, Fin.sum_univ_two, Matrix.one_apply] <;> norm_num
  upper := fun i hi => by
    fin_cases i
    · simp at hi; norm_num at hi
    · simp [exBox, Fin.sum_univ_two]
  lower := fun i hi => by
    fin_cases i
    · simp [exBox, Fin.sum_univ_two]; norm_num
    · simp at hi; norm_num at hi
  inside := fun i hi => by fin_cases i <;> simp at hi
  indep := fun v _ h => by
    have h0 := h 0
    have h1 := h 1
    simp [exBox, Fin.sum_univ_two] at h0 h1
    funext i
    fin_cases i <;> simp <;> linarith
  second := fun d hd h => by
    exfalso
    have h0 := h 0 (by simp)
    have h1 := h 1 (by simp)
    simp [exBox, Fin.sum_univ_two] at h0 h1
    apply hd
    funext j
    fin_cases j <;> simp <;> linarith

theorem exBox_smooth : exBox.Smooth (fun _ => 4) where
  Q := fun _ _ => contDiffAt_const
  c := fun _ => contDiffAt_const
  A := fun _ _ => contDiffAt_const
  l := fun i => by
    fin_cases i
    · exact contDiffAt_pi.mp contDiffAt_id ()
    · exact contDiffAt_const
  u := fun i => by
    fin_cases i
    · exact contDiffAt_pi.mp contDiffAt_id ()
    · exact contDiffAt_const

/-- The derivative of the solution with respect to the right-hand side is what `root_jvp` returns, on a singular system. -/
example {cg : (BoxVec 2 2 → BoxVec 2 2) → BoxVec 2 2 → Option (BoxVec 2 2) → BoxVec 2 2} (hcg : LinSolve.CgSpec cg) :
    (∃ X : (∀ _ : Unit, ℝ) → Fin 2 → ℝ, X (fun _ => 4) = ![1, 3] ∧ ∀ t j,
      rootJvp exBox.nlp.kktFun (boxSol exBox (fun _ => 4) ![1, 3] ![-3, 2]) (fun _ => 4) t (normalCgSolve cg) (.inl (.inl j)) =
        fderiv ℝ X (fun _ => 4) t j) ∧
    ∃ d, d ≠ 0 ∧ fderiv ℝ (fun s => exBox.nlp.kktFun s fun _ => 4) (boxSol exBox (fun _ => 4) ![1, 3] ![-3, 2]) d = 0 := by
  refine ⟨?_, C126_singular exBox_regular exBox_smooth 0 (Or.inr (Or.inr ⟨rfl, rfl, rfl⟩))⟩
  obtain ⟨X, h0, -, -, h1⟩ := C126_normal_cg exBox_regular exBox_smooth
    (Eventually.of_forall fun θ d => by
      simp [exBox, Fin.sum_univ_two, Matrix.one_apply]
      nlinarith [mul_self_nonneg (d 0), mul_self_nonneg (d 1)])
    (Eventually.of_forall fun θ i hl hu => by
      fin_cases i
      · exact le_rfl
      · cases hl) hcg
  exact ⟨X, h0, h1⟩

end Jaxopt.Implicit
