import Verif.Implicit.KktRoot
import Verif.Implicit.RootProps
import Verif.QP.Cvxpy
import Mathlib.Analysis.Calculus.ImplicitFunction.ProdDomain
import Mathlib.Analysis.InnerProductSpace.Calculus
import Mathlib.Analysis.Calculus.ContDiff.RCLike
import Mathlib.Topology.Algebra.Module.FiniteDimension
import Mathlib.Analysis.Calculus.Deriv.Abs
import Mathlib.LinearAlgebra.Matrix.Notation
import Mathlib.Tactic.LinearCombination
import Mathlib.Tactic.FinCases

/-!
# Property C125: implicit differentiation of constrained programs
-/

set_option autoImplicit false
set_option linter.unusedSectionVars false
set_option linter.unusedVariables false

namespace Jaxopt.Implicit

open Jaxopt.QP ContinuousLinearMap Filter Topology

/-! ## Branches of roots -/

section
variable {ι : Type*} [Fintype ι] [DecidableEq ι]
variable {E : Type*} [NormedAddCommGroup E] [InnerProductSpace ℝ E] [FiniteDimensional ℝ E]
variable {P : ι → Type*} [∀ i, NormedAddCommGroup (P i)] [∀ i, InnerProductSpace ℝ (P i)] [∀ i, CompleteSpace (P i)]

/-- A root at which the derivative in the unknown is injective belongs to one differentiable branch of roots. -/
theorem exists_branch {F : E → (∀ i, P i) → E} {s0 : E} {θ0 : ∀ i, P i} (hF : ContDiffAt ℝ 1 (fun v : (∀ i, P i) × E => F v.2 v.1) (θ0, s0))
    (h0 : F s0 θ0 = 0) (hinj : ∀ d, fderiv ℝ (fun s => F s θ0) s0 d = 0 → d = 0) :
    ∃ p : (∀ i, P i) → E, p θ0 = s0 ∧ RootAt F p θ0 ∧ (∀ᶠ v : (∀ i, P i) × E in 𝓝 (θ0, s0), F v.2 v.1 = 0 ↔ p v.1 = v.2) := by
  haveI : CompleteSpace E := FiniteDimensional.complete ℝ E
  set f : (∀ i, P i) × E → E := fun v => F v.2 v.1 with hf
  have hs : HasStrictFDerivAt f (fderiv ℝ f (θ0, s0)) (θ0, s0) := hF.hasStrictFDerivAt (by norm_num)
  have hpart : HasFDerivAt (fun s => F s θ0) ((fderiv ℝ f (θ0, s0)).comp (inr ℝ (∀ i, P i) E)) s0 :=
    HasFDerivAt.comp s0 (f := fun s => (θ0, s)) hs.hasFDerivAt (hasFDerivAt_prodMk_right θ0 s0)
  set J := (fderiv ℝ f (θ0, s0)).comp (inr ℝ (∀ i, P i) E) with hJ
  have hJinj : Function.Injective J := by
    rw [injective_iff_map_eq_zero]
    intro d hd
    apply hinj
    rw [hpart.fderiv]
    exact hd
  let e : E ≃L[ℝ] E := (LinearEquiv.ofInjectiveEndo (J : E →ₗ[ℝ] E) hJinj).toContinuousLinearEquiv
  have he : (e : E →L[ℝ] E) = J := by
    ext v
    rfl
  have hinv : J.IsInvertible := ⟨e, he⟩
  have hiff := hs.eventually_apply_eq_iff_implicitFunctionOfProdDomain hinv
  have hdp := hs.hasStrictFDerivAt_implicitFunctionOfProdDomain hinv
  have hev := hs.eventually_apply_implicitFunctionOfProdDomain hinv
  have hp0 : hs.implicitFunctionOfProdDomain hinv θ0 = s0 := (hiff.self_of_nhds).mp rfl
  generalize hs.implicitFunctionOfProdDomain hinv = p at hiff hdp hev hp0
  have hf0 : f (θ0, s0) = 0 := h0
  rw [hf0] at hiff hev
  refine ⟨p, hp0, ⟨?_, hdp.hasFDerivAt.differentiableAt, hev, ?_⟩, hiff⟩
  · rw [hp0]
    have h1 : DifferentiableAt ℝ f (θ0, s0) := hs.hasFDerivAt.differentiableAt
    have h2 : DifferentiableAt ℝ (fun q : E × (∀ i, P i) => (q.2, q.1)) (s0, θ0) := by fun_prop
    exact DifferentiableAt.comp (s0, θ0) (f := fun q : E × (∀ i, P i) => (q.2, q.1)) h1 h2
  · rw [hp0, hpart.fderiv]
    refine ⟨(e.symm : E →L[ℝ] E), fun v => ?_, fun v => ?_⟩
    · rw [← he]; simp
    · rw [← he]; simp

end

/-! ## Regular solutions -/

variable {ι : Type*} [Fintype ι] [DecidableEq ι]
variable {P : ι → Type*} [∀ i, NormedAddCommGroup (P i)] [∀ i, InnerProductSpace ℝ (P i)] [∀ i, CompleteSpace (P i)]
variable {n m k : Type*} [Fintype n] [Fintype m] [Fintype k]

/-- The Karush-Kuhn-Tucker conditions, including the signs. -/
structure Nlp.IsKkt {Θ : Type*} (N : Nlp n m k Θ) (s : KktVec n m k) (θ : Θ) : Prop where
  stat : ∀ j, N.grad s.x θ j + ∑ a, N.eqJac s.x θ a j * s.y a + ∑ i, N.ineqJac s.x θ i j * s.l i = 0
  eq : ∀ a, N.eq s.x θ a = 0
  ineq : ∀ i, N.ineq s.x θ i ≤ 0
  nonneg : ∀ i, 0 ≤ s.l i
  comp : ∀ i, s.l i = 0 ∨ N.ineq s.x θ i = 0

/-- Strict complementarity: an inequality that is active has a positive multiplier. -/
def Nlp.Strict {Θ : Type*} (N : Nlp n m k Θ) (s : KktVec n m k) (θ : Θ) : Prop := ∀ i, N.ineq s.x θ i < 0 ∨ 0 < s.l i

/-- Smooth data at a point, with `W` the derivative of the gradient of the Lagrangian. -/
structure Nlp.SmoothAt (N : Nlp n m k (∀ i, P i)) (s : KktVec n m k) (θ : ∀ i, P i) (W : Matrix n n ℝ) : Prop where
  grad_diff : ContDiffAt ℝ 1 (fun v : (∀ i, P i) × (n → ℝ) => N.grad v.2 v.1) (θ, s.x)
  eq_diff : ContDiffAt ℝ 1 (fun v : (∀ i, P i) × (n → ℝ) => N.eq v.2 v.1) (θ, s.x)
  eqJac_diff : ∀ a j, ContDiffAt ℝ 1 (fun v : (∀ i, P i) × (n → ℝ) => N.eqJac v.2 v.1 a j) (θ, s.x)
  ineq_diff : ContDiffAt ℝ 1 (fun v : (∀ i, P i) × (n → ℝ) => N.ineq v.2 v.1) (θ, s.x)
  ineqJac_diff : ∀ i j, ContDiffAt ℝ 1 (fun v : (∀ i, P i) × (n → ℝ) => N.ineqJac v.2 v.1 i j) (θ, s.x)
  eq_jac : ∀ a (d : n → ℝ), HasDerivAt (fun t : ℝ => N.eq (s.x + t • d) θ a) (∑ j, N.eqJac s.x θ a j * d j) 0
  ineq_jac : ∀ i (d : n → ℝ), HasDerivAt (fun t : ℝ => N.ineq (s.x + t • d) θ i) (∑ j, N.ineqJac s.x θ i j * d j) 0
  hess : ∀ j (d : n → ℝ), HasDerivAt (fun t : ℝ => N.grad (s.x + t • d) θ j + ∑ a, N.eqJac (s.x + t • d) θ a j * s.y a +
    ∑ i, N.ineqJac (s.x + t • d) θ i j * s.l i) (∑ j', W j j' * d j') 0

/-- A regular solution: smooth data, strict complementarity, linearly independent gradients of the active constraints, and the second-order
sufficient condition for the derivative `W` of the gradient of the Lagrangian. -/
structure Nlp.Regular (N : Nlp n m k (∀ i, P i)) (s : KktVec n m k) (θ : ∀ i, P i) (W : Matrix n n ℝ) : Prop extends N.SmoothAt s θ W where
  kkt : N.IsKkt s θ
  strict : N.Strict s θ
  indep : ∀ (y : m → ℝ) (l : k → ℝ), (∀ j, ∑ a, N.eqJac s.x θ a j * y a + ∑ i, N.ineqJac s.x θ i j * l i = 0) →
    (∀ i, N.ineq s.x θ i < 0 → l i = 0) → y = 0 ∧ l = 0
  second : ∀ d : n → ℝ, d ≠ 0 → (∀ a, ∑ j, N.eqJac s.x θ a j * d j = 0) →
    (∀ i, N.ineq s.x θ i = 0 → ∑ j, N.ineqJac s.x θ i j * d j = 0) → 0 < ∑ j, d j * ∑ j', W j j' * d j'

/-! The three groups of entries of the optimality function. -/

section
variable {Θ : Type*} (N : Nlp n m k Θ) (s : KktVec n m k) (θ : Θ)

theorem kktFun_inl (j : n) : N.kktFun s θ (.inl j) =
    N.grad s.x θ j + ∑ a, N.eqJac s.x θ a j * s.y a + ∑ i, N.ineqJac s.x θ i j * s.l i := by
  simp [Nlp.kktFun, packKkt, kktOptimality, unpackKkt, Matrix.mulVec, dotProduct]

theorem kktFun_inr_inl (a : m) : N.kktFun s θ (.inr (.inl a)) = N.eq s.x θ a := by
  simp [Nlp.kktFun, packKkt, kktOptimality, unpackKkt]

theorem kktFun_inr_inr (i : k) : N.kktFun s θ (.inr (.inr i)) = N.ineq s.x θ i * s.l i := by
  simp [Nlp.kktFun, packKkt, kktOptimality, unpackKkt]

theorem kktFun_eq_zero_iff : N.kktFun s θ = 0 ↔ (∀ j, N.grad s.x θ j + ∑ a, N.eqJac s.x θ a j * s.y a + ∑ i, N.ineqJac s.x θ i j * s.l i = 0) ∧
    (∀ a, N.eq s.x θ a = 0) ∧ ∀ i, s.l i = 0 ∨ N.ineq s.x θ i = 0 := by
  constructor
  · intro h
    have e : ∀ c, N.kktFun s θ c = 0 := fun c => by rw [h]; rfl
    refine ⟨fun j => by rw [← kktFun_inl]; exact e _, fun a => by rw [← kktFun_inr_inl]; exact e _, fun i => ?_⟩
    have := e (.inr (.inr i))
    rw [kktFun_inr_inr] at this
    exact (mul_eq_zero.mp this).symm
  · rintro ⟨h1, h2, h3⟩
    ext c
    show N.kktFun s θ c = 0
    rcases c with j | a | i
    · rw [kktFun_inl]; exact h1 j
    · rw [kktFun_inr_inl]; exact h2 a
    · rw [kktFun_inr_inr]
      exact mul_eq_zero.mpr (h3 i).symm

end

theorem Nlp.IsKkt.root {Θ : Type*} {N : Nlp n m k Θ} {s : KktVec n m k} {θ : Θ} (h : N.IsKkt s θ) : N.kktFun s θ = 0 :=
  (kktFun_eq_zero_iff N s θ).mpr ⟨h.stat, h.eq, h.comp⟩

theorem contDiff_x : ContDiff ℝ 1 (fun s : KktVec n m k => s.x) := by
  rw [contDiff_pi]
  intro i
  exact (EuclideanSpace.proj (𝕜 := ℝ) (Sum.inl i : n ⊕ (m ⊕ k))).contDiff

theorem contDiff_y (a : m) : ContDiff ℝ 1 (fun s : KktVec n m k => s.y a) :=
  (EuclideanSpace.proj (𝕜 := ℝ) (Sum.inr (Sum.inl a) : n ⊕ (m ⊕ k))).contDiff

theorem contDiff_l (i : k) : ContDiff ℝ 1 (fun s : KktVec n m k => s.l i) :=
  (EuclideanSpace.proj (𝕜 := ℝ) (Sum.inr (Sum.inr i) : n ⊕ (m ⊕ k))).contDiff

variable {N : Nlp n m k (∀ i, P i)} {s0 : KktVec n m k} {θ0 : ∀ i, P i} {W : Matrix n n ℝ}

theorem Nlp.SmoothAt.contDiffAt (h : N.SmoothAt s0 θ0 W) :
    ContDiffAt ℝ 1 (fun v : (∀ i, P i) × KktVec n m k => N.kktFun v.2 v.1) (θ0, s0) := by
  have hx : ContDiffAt ℝ 1 (fun v : (∀ i, P i) × KktVec n m k => (v.1, v.2.x)) (θ0, s0) :=
    contDiffAt_fst.prodMk ((contDiff_x.contDiffAt).comp (θ0, s0) contDiffAt_snd)
  have hy : ∀ a, ContDiffAt ℝ 1 (fun v : (∀ i, P i) × KktVec n m k => v.2.y a) (θ0, s0) := fun a =>
    ((contDiff_y a).contDiffAt).comp (θ0, s0) contDiffAt_snd
  have hl : ∀ i, ContDiffAt ℝ 1 (fun v : (∀ i, P i) × KktVec n m k => v.2.l i) (θ0, s0) := fun i =>
    ((contDiff_l i).contDiffAt).comp (θ0, s0) contDiffAt_snd
  rw [contDiffAt_euclidean]
  rintro (j | a | i)
  · simp only [kktFun_inl]
    refine ContDiffAt.add (ContDiffAt.add ?_ ?_) ?_
    · exact (contDiffAt_pi.mp h.grad_diff j).comp (θ0, s0) hx
    · exact ContDiffAt.sum fun a _ => ContDiffAt.mul (f := fun v : (∀ i, P i) × KktVec n m k => N.eqJac v.2.x v.1 a j)
        (ContDiffAt.comp (g := fun v : (∀ i, P i) × (n → ℝ) => N.eqJac v.2 v.1 a j) (θ0, s0) (h.eqJac_diff a j) hx) (hy a)
    · exact ContDiffAt.sum fun i _ => ContDiffAt.mul (f := fun v : (∀ i, P i) × KktVec n m k => N.ineqJac v.2.x v.1 i j)
        (ContDiffAt.comp (g := fun v : (∀ i, P i) × (n → ℝ) => N.ineqJac v.2 v.1 i j) (θ0, s0) (h.ineqJac_diff i j) hx) (hl i)
  · simp only [kktFun_inr_inl]
    exact (contDiffAt_pi.mp h.eq_diff a).comp (θ0, s0) hx
  · simp only [kktFun_inr_inr]
    exact ((contDiffAt_pi.mp h.ineq_diff i).comp (θ0, s0) hx).mul (hl i)

/-- The derivative of the optimality function along a direction. -/
theorem Nlp.SmoothAt.fderiv_apply (h : N.SmoothAt s0 θ0 W) (d : KktVec n m k) :
    (∀ j, fderiv ℝ (fun s => N.kktFun s θ0) s0 d (.inl j) =
      ∑ j', W j j' * d.x j' + ∑ a, N.eqJac s0.x θ0 a j * d.y a + ∑ i, N.ineqJac s0.x θ0 i j * d.l i) ∧
    (∀ a, fderiv ℝ (fun s => N.kktFun s θ0) s0 d (.inr (.inl a)) = ∑ j, N.eqJac s0.x θ0 a j * d.x j) ∧
    (∀ i, fderiv ℝ (fun s => N.kktFun s θ0) s0 d (.inr (.inr i)) =
      (∑ j, N.ineqJac s0.x θ0 i j * d.x j) * s0.l i + N.ineq s0.x θ0 i * d.l i) := by
  have hdiff : DifferentiableAt ℝ (fun s => N.kktFun s θ0) s0 := by
    have h1 : DifferentiableAt ℝ (fun v : (∀ i, P i) × KktVec n m k => N.kktFun v.2 v.1) (θ0, s0) := h.contDiffAt.differentiableAt (by norm_num)
    exact DifferentiableAt.comp s0 (f := fun s => (θ0, s)) h1 (by fun_prop)
  have hline : HasDerivAt (fun t : ℝ => s0 + t • d) d 0 := by
    have := ((hasDerivAt_id (0 : ℝ)).smul_const d).const_add s0
    simpa using this
  have hl0 : s0 + (0 : ℝ) • d = s0 := by simp
  have hcomp : HasDerivAt (fun t : ℝ => N.kktFun (s0 + t • d) θ0) (fderiv ℝ (fun s => N.kktFun s θ0) s0 d) 0 := by
    have h1 : HasFDerivAt (fun s => N.kktFun s θ0) (fderiv ℝ (fun s => N.kktFun s θ0) s0) (s0 + (0 : ℝ) • d) := by
      rw [hl0]; exact hdiff.hasFDerivAt
    exact h1.comp_hasDerivAt 0 hline
  have hc : ∀ c, HasDerivAt (fun t : ℝ => N.kktFun (s0 + t • d) θ0 c) (fderiv ℝ (fun s => N.kktFun s θ0) s0 d c) 0 := fun c =>
    ((EuclideanSpace.proj (𝕜 := ℝ) c).hasFDerivAt.comp_hasDerivAt (0 : ℝ) hcomp)
  have ex : ∀ t : ℝ, (s0 + t • d).x = s0.x + t • d.x := fun t => rfl
  have ey : ∀ (t : ℝ) a, (s0 + t • d).y a = s0.y a + t * d.y a := fun t a => rfl
  have el : ∀ (t : ℝ) i, (s0 + t • d).l i = s0.l i + t * d.l i := fun t i => rfl
  have hxline : HasDerivAt (fun t : ℝ => (θ0, s0.x + t • d.x)) ((0 : ∀ i, P i), d.x) 0 := by
    have h1 : HasDerivAt (fun t : ℝ => s0.x + t • d.x) d.x 0 :=
      (((hasDerivAt_id (0 : ℝ)).smul_const d.x).const_add s0.x).congr_deriv (by simp)
    exact (hasDerivAt_const (0 : ℝ) θ0).prodMk h1
  have hx0 : s0.x + (0 : ℝ) • d.x = s0.x := by simp
  have hcont : ∀ (g : (∀ i, P i) × (n → ℝ) → ℝ), ContDiffAt ℝ 1 g (θ0, s0.x) →
      HasDerivAt (fun t : ℝ => t * g (θ0, s0.x + t • d.x)) (g (θ0, s0.x)) 0 := by
    intro g hg
    have h1 : HasFDerivAt g (fderiv ℝ g (θ0, s0.x)) (θ0, s0.x + (0 : ℝ) • d.x) := by
      rw [hx0]; exact (hg.differentiableAt (by norm_num)).hasFDerivAt
    have h2 := (hasDerivAt_id (0 : ℝ)).mul (h1.comp_hasDerivAt (0 : ℝ) hxline)
    refine h2.congr_deriv ?_
    simp
  refine ⟨fun j => ?_, fun a => ?_, fun i => ?_⟩
  · have h1 := hc (.inl j)
    simp only [kktFun_inl, ex, ey, el] at h1
    have h2 := ((h.hess j d.x).add (HasDerivAt.sum (u := Finset.univ) fun a _ => (hcont _ (h.eqJac_diff a j)).mul_const (d.y a))).add
      (HasDerivAt.sum (u := Finset.univ) fun i _ => (hcont _ (h.ineqJac_diff i j)).mul_const (d.l i))
    refine h1.unique (h2.congr_of_eventuallyEq (Eventually.of_forall fun t => ?_))
    simp only [Pi.add_apply, Finset.sum_apply]
    have e1 : ∑ a, N.eqJac (s0.x + t • d.x) θ0 a j * (s0.y a + t * d.y a) =
        ∑ a, N.eqJac (s0.x + t • d.x) θ0 a j * s0.y a + ∑ a, t * N.eqJac (s0.x + t • d.x) θ0 a j * d.y a := by
      rw [← Finset.sum_add_distrib]
      exact Finset.sum_congr rfl fun a _ => by ring
    have e2 : ∑ i, N.ineqJac (s0.x + t • d.x) θ0 i j * (s0.l i + t * d.l i) =
        ∑ i, N.ineqJac (s0.x + t • d.x) θ0 i j * s0.l i + ∑ i, t * N.ineqJac (s0.x + t • d.x) θ0 i j * d.l i := by
      rw [← Finset.sum_add_distrib]
      exact Finset.sum_congr rfl fun a _ => by ring
    rw [e1, e2]
    ring
  · have h1 := hc (.inr (.inl a))
    simp only [kktFun_inr_inl, ex] at h1
    exact h1.unique (h.eq_jac a d.x)
  · have h1 := hc (.inr (.inr i))
    simp only [kktFun_inr_inr, ex, el] at h1
    have h2 : HasDerivAt (fun t : ℝ => s0.l i + t * d.l i) (d.l i) 0 := by
      have := ((hasDerivAt_id (0 : ℝ)).mul_const (d.l i)).const_add (s0.l i)
      simpa using this
    refine (h1.unique ((h.ineq_jac i d.x).mul h2)).trans ?_
    simp

/-- At a regular solution the linear system of `root_vjp` and `root_jvp` is invertible. -/
theorem Nlp.Regular.injective (h : N.Regular s0 θ0 W) (d : KktVec n m k) (hd : fderiv ℝ (fun s => N.kktFun s θ0) s0 d = 0) : d = 0 := by
  obtain ⟨h1, h2, h3⟩ := h.fderiv_apply d
  simp only [hd] at h1 h2 h3
  have z : ∀ c, (0 : KktVec n m k) c = 0 := fun c => rfl
  simp only [z] at h1 h2 h3
  -- inactive constraints: the multiplier does not move; active ones: the constraint does not move
  have hinact : ∀ i, N.ineq s0.x θ0 i < 0 → d.l i = 0 := by
    intro i hi
    have hl : s0.l i = 0 := (h.kkt.comp i).resolve_right hi.ne
    have := h3 i
    rw [hl, mul_zero, zero_add] at this
    exact (mul_eq_zero.mp this.symm).resolve_left hi.ne
  have hact : ∀ i, N.ineq s0.x θ0 i = 0 → ∑ j, N.ineqJac s0.x θ0 i j * d.x j = 0 := by
    intro i hi
    have hl : 0 < s0.l i := (h.strict i).resolve_left (by rw [hi]; exact lt_irrefl _)
    have := h3 i
    rw [hi, zero_mul, add_zero] at this
    exact (mul_eq_zero.mp this.symm).resolve_right hl.ne'
  have hquad : ∑ j, d.x j * ∑ j', W j j' * d.x j' = 0 := by
    have e : ∑ j, d.x j * (∑ j', W j j' * d.x j' + ∑ a, N.eqJac s0.x θ0 a j * d.y a + ∑ i, N.ineqJac s0.x θ0 i j * d.l i) = 0 := by
      refine Finset.sum_eq_zero fun j _ => ?_
      rw [← h1 j, mul_zero]
    have e1 : ∑ j, d.x j * ∑ a, N.eqJac s0.x θ0 a j * d.y a = 0 := by
      simp only [Finset.mul_sum]
      rw [Finset.sum_comm]
      refine Finset.sum_eq_zero fun a _ => ?_
      have : ∑ j, d.x j * (N.eqJac s0.x θ0 a j * d.y a) = (∑ j, N.eqJac s0.x θ0 a j * d.x j) * d.y a := by
        rw [Finset.sum_mul]
        exact Finset.sum_congr rfl fun j _ => by ring
      rw [this, ← h2 a, zero_mul]
    have e2 : ∑ j, d.x j * ∑ i, N.ineqJac s0.x θ0 i j * d.l i = 0 := by
      simp only [Finset.mul_sum]
      rw [Finset.sum_comm]
      refine Finset.sum_eq_zero fun i _ => ?_
      have : ∑ j, d.x j * (N.ineqJac s0.x θ0 i j * d.l i) = (∑ j, N.ineqJac s0.x θ0 i j * d.x j) * d.l i := by
        rw [Finset.sum_mul]
        exact Finset.sum_congr rfl fun j _ => by ring
      rw [this]
      rcases (h.kkt.ineq i).lt_or_eq with hi | hi
      · rw [hinact i hi, mul_zero]
      · rw [hact i hi, zero_mul]
    simp only [mul_add, Finset.sum_add_distrib] at e
    linarith
  have hx : d.x = 0 := by
    by_contra hne
    exact absurd hquad (h.second d.x hne (fun a => (h2 a).symm) hact).ne'
  have hyl := h.indep d.y d.l (fun j => by
    have := h1 j
    rw [hx] at this
    simpa using this.symm) hinact
  ext c
  rcases c with j | a | i
  · exact congrFun hx j
  · exact congrFun hyl.1 a
  · exact congrFun hyl.2 i

/-- **C125** (general).  At a regular solution of a program with equality and inequality constraints there is a differentiable map `p` from the
parameters to Karush-Kuhn-Tucker points, with the right signs and strict complementarity, which are the only zeros of the optimality function
nearby; `root_jvp` is its directional derivative and `root_vjp` its transposed partial derivative, for every exact linear solver. -/
theorem C125_branch (h : N.Regular s0 θ0 W) :
    ∃ p : (∀ i, P i) → KktVec n m k, p θ0 = s0 ∧ DifferentiableAt ℝ p θ0 ∧ (∀ᶠ θ in 𝓝 θ0, N.IsKkt (p θ) θ ∧ N.Strict (p θ) θ) ∧
      (∀ᶠ v : (∀ i, P i) × KktVec n m k in 𝓝 (θ0, s0), N.kktFun v.2 v.1 = 0 ↔ p v.1 = v.2) ∧
      ∀ solve, ExactSolve solve → (∀ t, rootJvp N.kktFun s0 θ0 t solve = fderiv ℝ p θ0 t) ∧
        ∀ w i, rootVjp N.kktFun s0 θ0 w solve i = adjoint (fderiv ℝ (fun s => p (Function.update θ0 i s)) (θ0 i)) w := by
  obtain ⟨p, hp0, hroot, hiff⟩ := exists_branch h.contDiffAt h.kkt.root h.injective
  refine ⟨p, hp0, hroot.diffx, ?_, hiff, fun solve hs => ⟨fun t => ?_, fun w i => ?_⟩⟩
  · -- the signs persist
    have hpc : Tendsto (fun θ => (θ, (p θ).x)) (𝓝 θ0) (𝓝 (θ0, s0.x)) := by
      have h1 : ContinuousAt p θ0 := hroot.diffx.continuousAt
      have h2 : ContinuousAt (fun θ => (θ, (p θ).x)) θ0 :=
        continuousAt_id.prodMk ((contDiff_x.continuous.continuousAt).comp h1)
      have := h2.tendsto
      rwa [hp0] at this
    have hlc : ∀ i, Tendsto (fun θ => (p θ).l i) (𝓝 θ0) (𝓝 (s0.l i)) := by
      intro i
      have h1 : ContinuousAt p θ0 := hroot.diffx.continuousAt
      have h2 : ContinuousAt (fun θ => (p θ).l i) θ0 := ((contDiff_l i).continuous.continuousAt).comp h1
      have := h2.tendsto
      rwa [hp0] at this
    have hic : ∀ i, Tendsto (fun θ => N.ineq (p θ).x θ i) (𝓝 θ0) (𝓝 (N.ineq s0.x θ0 i)) := fun i =>
      ((contDiffAt_pi.mp h.ineq_diff i).continuousAt.tendsto).comp hpc
    have hall : ∀ᶠ θ in 𝓝 θ0, ∀ i, (N.ineq s0.x θ0 i < 0 → N.ineq (p θ).x θ i < 0) ∧ (0 < s0.l i → 0 < (p θ).l i) := by
      rw [eventually_all]
      intro i
      have e1 : ∀ᶠ θ in 𝓝 θ0, (N.ineq s0.x θ0 i < 0 → N.ineq (p θ).x θ i < 0) := by
        by_cases hi : N.ineq s0.x θ0 i < 0
        · exact ((hic i).eventually_lt_const hi).mono fun θ hθ _ => hθ
        · exact Eventually.of_forall fun θ hc => absurd hc hi
      have e2 : ∀ᶠ θ in 𝓝 θ0, (0 < s0.l i → 0 < (p θ).l i) := by
        by_cases hi : 0 < s0.l i
        · exact ((hlc i).eventually_const_lt hi).mono fun θ hθ _ => hθ
        · exact Eventually.of_forall fun θ hc => absurd hc hi
      exact e1.and e2
    filter_upwards [hall, hroot.root] with θ h1 h2
    obtain ⟨r1, r2, r3⟩ := (kktFun_eq_zero_iff N (p θ) θ).mp h2
    have hsign : ∀ i, (N.ineq (p θ).x θ i < 0 ∧ (p θ).l i = 0) ∨ (N.ineq (p θ).x θ i = 0 ∧ 0 < (p θ).l i) := by
      intro i
      rcases h.strict i with hi | hi
      · have := (h1 i).1 hi
        exact Or.inl ⟨this, (r3 i).resolve_right this.ne⟩
      · have := (h1 i).2 hi
        exact Or.inr ⟨(r3 i).resolve_left this.ne', this⟩
    refine ⟨⟨r1, r2, fun i => ?_, fun i => ?_, r3⟩, fun i => ?_⟩
    · rcases hsign i with hi | hi
      · exact hi.1.le
      · exact hi.1.le
    · rcases hsign i with hi | hi
      · exact hi.2.ge
      · exact hi.2.le
    · rcases hsign i with hi | hi
      · exact Or.inl hi.1
      · exact Or.inr hi.2
  · have := C41_jvp hroot hs t
    rwa [hp0] at this
  · have := C41_vjp hroot hs w i
    rwa [hp0] at this

/-! ## Quadratic programs -/

/-- `½ xᵀQx + cᵀx`. -/
noncomputable def QPFamily.obj {Θ : Type*} (D : QPFamily n m k Θ) (θ : Θ) (x : n → ℝ) : ℝ :=
  1 / 2 * ∑ j, x j * ∑ j', D.Q θ j j' * x j' + ∑ j, D.c θ j * x j

/-- `Ax = b` and `Gx ≤ h`. -/
def QPFamily.Feasible {Θ : Type*} (D : QPFamily n m k Θ) (θ : Θ) (x : n → ℝ) : Prop :=
  (∀ a, ∑ j, D.A θ a j * x j = D.b θ a) ∧ ∀ i, ∑ j, D.G θ i j * x j ≤ D.h θ i

/-- Data that are continuously differentiable functions of the parameters. -/
structure QPFamily.Smooth (D : QPFamily n m k (∀ i, P i)) (θ : ∀ i, P i) : Prop where
  Q : ∀ j j', ContDiffAt ℝ 1 (fun θ => D.Q θ j j') θ
  c : ∀ j, ContDiffAt ℝ 1 (fun θ => D.c θ j) θ
  A : ∀ a j, ContDiffAt ℝ 1 (fun θ => D.A θ a j) θ
  b : ∀ a, ContDiffAt ℝ 1 (fun θ => D.b θ a) θ
  G : ∀ i j, ContDiffAt ℝ 1 (fun θ => D.G θ i j) θ
  h : ∀ i, ContDiffAt ℝ 1 (fun θ => D.h θ i) θ

/-- A regular solution of a quadratic program: strict complementarity, linearly independent active constraints, and curvature on their null
space. -/
structure QPFamily.Regular {Θ : Type*} (D : QPFamily n m k Θ) (s : KktVec n m k) (θ : Θ) : Prop where
  kkt : D.nlp.IsKkt s θ
  strict : ∀ i, ∑ j, D.G θ i j * s.x j < D.h θ i ∨ 0 < s.l i
  indep : ∀ (y : m → ℝ) (l : k → ℝ), (∀ j, ∑ a, D.A θ a j * y a + ∑ i, D.G θ i j * l i = 0) →
    (∀ i, ∑ j, D.G θ i j * s.x j < D.h θ i → l i = 0) → y = 0 ∧ l = 0
  second : ∀ d : n → ℝ, d ≠ 0 → (∀ a, ∑ j, D.A θ a j * d j = 0) →
    (∀ i, ∑ j, D.G θ i j * s.x j = D.h θ i → ∑ j, D.G θ i j * d j = 0) → 0 < ∑ j, d j * ∑ j', D.Q θ j j' * d j'

section
variable {Θ : Type*} (D : QPFamily n m k Θ) (θ : Θ)

theorem nlp_grad (x : n → ℝ) (j : n) : D.nlp.grad x θ j = ∑ j', 1 / 2 * (D.Q θ j j' + D.Q θ j' j) * x j' + D.c θ j := by
  simp only [QPFamily.nlp, Matrix.mulVec, dotProduct, Matrix.transpose_apply, Pi.add_apply, Pi.smul_apply, smul_eq_mul]
  rw [← Finset.sum_add_distrib, Finset.mul_sum]
  congr 1
  exact Finset.sum_congr rfl fun j' _ => by ring

theorem nlp_eq (x : n → ℝ) (a : m) : D.nlp.eq x θ a = ∑ j, D.A θ a j * x j - D.b θ a := rfl

theorem nlp_ineq (x : n → ℝ) (i : k) : D.nlp.ineq x θ i = ∑ j, D.G θ i j * x j - D.h θ i := rfl

end

theorem sum_line {α : Type*} [Fintype α] (f x d : α → ℝ) (t : ℝ) : ∑ j, f j * (x + t • d) j = ∑ j, f j * x j + t * ∑ j, f j * d j := by
  rw [Finset.mul_sum, ← Finset.sum_add_distrib]
  exact Finset.sum_congr rfl fun j _ => by simp only [Pi.add_apply, Pi.smul_apply, smul_eq_mul]; ring

theorem hasDerivAt_affine (a b : ℝ) : HasDerivAt (fun t : ℝ => a + t * b) b 0 := by
  have := ((hasDerivAt_id (0 : ℝ)).mul_const b).const_add a
  simpa using this

theorem sum_swap {α β : Type*} [Fintype α] [Fintype β] (M : α → β → ℝ) (d : β → ℝ) (y : α → ℝ) :
    ∑ j, d j * ∑ a, M a j * y a = ∑ a, (∑ j, M a j * d j) * y a := by
  simp only [Finset.mul_sum, Finset.sum_mul]
  rw [Finset.sum_comm]
  exact Finset.sum_congr rfl fun a _ => Finset.sum_congr rfl fun j _ => by ring

theorem quad_symm (Q : Matrix n n ℝ) (d : n → ℝ) :
    ∑ j, d j * ∑ j', 1 / 2 * (Q j j' + Q j' j) * d j' = ∑ j, d j * ∑ j', Q j j' * d j' := by
  have e : ∑ j, d j * ∑ j', Q j' j * d j' = ∑ j, d j * ∑ j', Q j j' * d j' := by
    rw [sum_swap (fun a j => Q a j) d d]
    exact Finset.sum_congr rfl fun j _ => by ring
  have e2 : ∀ j, d j * ∑ j', 1 / 2 * (Q j j' + Q j' j) * d j' = 1 / 2 * (d j * ∑ j', Q j j' * d j') + 1 / 2 * (d j * ∑ j', Q j' j * d j') := by
    intro j
    have : ∑ j', 1 / 2 * (Q j j' + Q j' j) * d j' = 1 / 2 * ∑ j', Q j j' * d j' + 1 / 2 * ∑ j', Q j' j * d j' := by
      rw [Finset.mul_sum, Finset.mul_sum, ← Finset.sum_add_distrib]
      exact Finset.sum_congr rfl fun j' _ => by ring
    rw [this]; ring
  simp only [e2, Finset.sum_add_distrib, ← Finset.mul_sum]
  rw [e]; ring

theorem QPFamily.smoothAt {D : QPFamily n m k (∀ i, P i)} {θ0 : ∀ i, P i} (hD : D.Smooth θ0) (s0 : KktVec n m k) :
    D.nlp.SmoothAt s0 θ0 (Matrix.of fun j j' => 1 / 2 * (D.Q θ0 j j' + D.Q θ0 j' j)) where
  grad_diff := by
    rw [contDiffAt_pi]
    intro j
    simp only [nlp_grad]
    refine ContDiffAt.add (ContDiffAt.sum fun j' _ => ContDiffAt.mul ?_ ?_) ?_
    · exact contDiffAt_const.mul (((hD.Q j j').comp (θ0, s0.x) contDiffAt_fst).add ((hD.Q j' j).comp (θ0, s0.x) contDiffAt_fst))
    · exact (contDiffAt_pi.mp contDiffAt_snd) j'
    · exact (hD.c j).comp (θ0, s0.x) contDiffAt_fst
  eq_diff := by
    rw [contDiffAt_pi]
    intro a
    simp only [nlp_eq]
    refine ContDiffAt.sub (ContDiffAt.sum fun j _ => ContDiffAt.mul ?_ ?_) ?_
    · exact (hD.A a j).comp (θ0, s0.x) contDiffAt_fst
    · exact (contDiffAt_pi.mp contDiffAt_snd) j
    · exact (hD.b a).comp (θ0, s0.x) contDiffAt_fst
  eqJac_diff := fun a j => (hD.A a j).comp (θ0, s0.x) contDiffAt_fst
  ineq_diff := by
    rw [contDiffAt_pi]
    intro i
    simp only [nlp_ineq]
    refine ContDiffAt.sub (ContDiffAt.sum fun j _ => ContDiffAt.mul ?_ ?_) ?_
    · exact (hD.G i j).comp (θ0, s0.x) contDiffAt_fst
    · exact (contDiffAt_pi.mp contDiffAt_snd) j
    · exact (hD.h i).comp (θ0, s0.x) contDiffAt_fst
  ineqJac_diff := fun i j => (hD.G i j).comp (θ0, s0.x) contDiffAt_fst
  eq_jac := fun a d => by
    simp only [nlp_eq, sum_line]
    refine (hasDerivAt_affine (∑ j, D.A θ0 a j * s0.x j - D.b θ0 a) (∑ j, D.A θ0 a j * d j)).congr_of_eventuallyEq
      (Eventually.of_forall fun t => ?_)
    simp only
    ring
  ineq_jac := fun i d => by
    simp only [nlp_ineq, sum_line]
    refine (hasDerivAt_affine (∑ j, D.G θ0 i j * s0.x j - D.h θ0 i) (∑ j, D.G θ0 i j * d j)).congr_of_eventuallyEq
      (Eventually.of_forall fun t => ?_)
    simp only
    ring
  hess := fun j d => by
    simp only [nlp_grad, sum_line, Matrix.of_apply]
    refine (hasDerivAt_affine (∑ j', 1 / 2 * (D.Q θ0 j j' + D.Q θ0 j' j) * s0.x j' + D.c θ0 j + ∑ a, D.A θ0 a j * s0.y a +
      ∑ i, D.G θ0 i j * s0.l i) (∑ j', 1 / 2 * (D.Q θ0 j j' + D.Q θ0 j' j) * d j')).congr_of_eventuallyEq (Eventually.of_forall fun t => ?_)
    simp only [QPFamily.nlp]
    ring

theorem QPFamily.Regular.nlp {D : QPFamily n m k (∀ i, P i)} {s0 : KktVec n m k} {θ0 : ∀ i, P i} (h : D.Regular s0 θ0) (hD : D.Smooth θ0) :
    D.nlp.Regular s0 θ0 (Matrix.of fun j j' => 1 / 2 * (D.Q θ0 j j' + D.Q θ0 j' j)) where
  toSmoothAt := QPFamily.smoothAt hD s0
  kkt := h.kkt
  strict := fun i => by rw [nlp_ineq, sub_neg]; exact h.strict i
  indep := fun y l h1 h2 => h.indep y l h1 fun i hi => h2 i (by rw [nlp_ineq, sub_neg]; exact hi)
  second := fun d hd h1 h2 => by
    simp only [Matrix.of_apply]
    rw [quad_symm]
    exact h.second d hd h1 fun i hi => h2 i (by rw [nlp_ineq, sub_eq_zero]; exact hi)

/-- The difference of objective values. -/
theorem obj_sub {Θ : Type*} (D : QPFamily n m k Θ) (θ : Θ) (x d : n → ℝ) :
    D.obj θ (x + d) = D.obj θ x + ∑ j, d j * D.nlp.grad x θ j + 1 / 2 * ∑ j, d j * ∑ j', D.Q θ j j' * d j' := by
  have e1 : ∑ j, (x + d) j * ∑ j', D.Q θ j j' * (x + d) j' = ∑ j, x j * ∑ j', D.Q θ j j' * x j' + ∑ j, x j * ∑ j', D.Q θ j j' * d j' +
      ∑ j, d j * ∑ j', D.Q θ j j' * x j' + ∑ j, d j * ∑ j', D.Q θ j j' * d j' := by
    rw [← Finset.sum_add_distrib, ← Finset.sum_add_distrib, ← Finset.sum_add_distrib]
    refine Finset.sum_congr rfl fun j _ => ?_
    have : ∑ j', D.Q θ j j' * (x + d) j' = ∑ j', D.Q θ j j' * x j' + ∑ j', D.Q θ j j' * d j' := by
      rw [← Finset.sum_add_distrib]
      exact Finset.sum_congr rfl fun j' _ => by simp only [Pi.add_apply]; ring
    rw [this, Pi.add_apply]; ring
  have e2 : ∑ j, x j * ∑ j', D.Q θ j j' * d j' = ∑ j, d j * ∑ j', D.Q θ j' j * x j' := by
    rw [sum_swap (fun a j => D.Q θ a j) d x]
    exact Finset.sum_congr rfl fun j _ => by ring
  have e3 : ∑ j, d j * D.nlp.grad x θ j = 1 / 2 * ∑ j, d j * ∑ j', D.Q θ j j' * x j' + 1 / 2 * ∑ j, d j * ∑ j', D.Q θ j' j * x j' +
      ∑ j, D.c θ j * d j := by
    rw [Finset.mul_sum, Finset.mul_sum, ← Finset.sum_add_distrib, ← Finset.sum_add_distrib]
    refine Finset.sum_congr rfl fun j _ => ?_
    rw [nlp_grad]
    have : ∑ j', 1 / 2 * (D.Q θ j j' + D.Q θ j' j) * x j' = 1 / 2 * ∑ j', D.Q θ j j' * x j' + 1 / 2 * ∑ j', D.Q θ j' j * x j' := by
      rw [Finset.mul_sum, Finset.mul_sum, ← Finset.sum_add_distrib]
      exact Finset.sum_congr rfl fun j' _ => by ring
    rw [this]; ring
  have e4 : ∑ j, D.c θ j * (x + d) j = ∑ j, D.c θ j * x j + ∑ j, D.c θ j * d j := by
    rw [← Finset.sum_add_distrib]
    exact Finset.sum_congr rfl fun j _ => by simp only [Pi.add_apply]; ring
  unfold QPFamily.obj
  rw [e1, e2, e3, e4]; ring

/-- A direction without curvature of a positive semidefinite form is in its null space. -/
theorem psd_null (Q : Matrix n n ℝ) (hQ : ∀ d : n → ℝ, 0 ≤ ∑ j, d j * ∑ j', Q j j' * d j') (d : n → ℝ)
    (hd : ∑ j, d j * ∑ j', Q j j' * d j' = 0) (j : n) : ∑ j', 1 / 2 * (Q j j' + Q j' j) * d j' = 0 := by
  set w : n → ℝ := fun j => ∑ j', 1 / 2 * (Q j j' + Q j' j) * d j' with hw
  set b := ∑ j, w j * ∑ j', Q j j' * w j' with hb
  have hb0 : 0 ≤ b := hQ w
  have key : ∀ t : ℝ, 0 ≤ 2 * t * ∑ j, w j * w j + t * t * b := by
    intro t
    have h1 := hQ (d + t • w)
    let D : QPFamily n Empty Empty Unit := ⟨fun _ => Q, 0, fun _ => 0, 0, fun _ => 0, 0⟩
    have h2 := obj_sub D () d (t • w)
    have h3 : ∀ v : n → ℝ, D.obj () v = 1 / 2 * ∑ j, v j * ∑ j', Q j j' * v j' := by
      intro v
      simp [QPFamily.obj, D]
    have h4 : ∑ j, (t • w) j * D.nlp.grad d () j = t * ∑ j, w j * w j := by
      rw [Finset.mul_sum]
      refine Finset.sum_congr rfl fun j _ => ?_
      rw [nlp_grad]
      simp only [D, Pi.smul_apply, smul_eq_mul, Pi.zero_apply, add_zero]
      rw [mul_assoc]
    have h5 : ∑ j, (t • w) j * ∑ j', Q j j' * (t • w) j' = t * t * b := by
      rw [hb, Finset.mul_sum]
      refine Finset.sum_congr rfl fun j _ => ?_
      have : ∑ j', Q j j' * (t • w) j' = t * ∑ j', Q j j' * w j' := by
        rw [Finset.mul_sum]
        exact Finset.sum_congr rfl fun j' _ => by simp only [Pi.smul_apply, smul_eq_mul]; ring
      rw [this, Pi.smul_apply, smul_eq_mul]; ring
    rw [h3, h3, hd, h4] at h2
    have h6 : D.Q () = Q := rfl
    rw [h6, h5] at h2
    linarith
  have hsq : ∑ j, w j * w j = 0 := by
    have hnn : 0 ≤ ∑ j, w j * w j := Finset.sum_nonneg fun j _ => mul_self_nonneg _
    set a := ∑ j, w j * w j with ha
    have h1 := key (-a / (b + 1))
    have hb1 : 0 < b + 1 := by linarith
    have e : 2 * (-a / (b + 1)) * a + -a / (b + 1) * (-a / (b + 1)) * b = -(a * a * (b + 2)) / ((b + 1) * (b + 1)) := by
      field_simp; ring
    rw [e, le_div_iff₀ (by positivity)] at h1
    nlinarith [mul_nonneg (mul_self_nonneg a) hb0]
  have := (Finset.sum_eq_zero_iff_of_nonneg (fun j _ => mul_self_nonneg (w j))).mp hsq j (Finset.mem_univ j)
  exact mul_self_eq_zero.mp this

/-- A Karush-Kuhn-Tucker point of a convex program is a minimiser; along the segment to another minimiser the same multipliers solve the
optimality conditions. -/
theorem kkt_minimiser {Θ : Type*} {D : QPFamily n m k Θ} {s : KktVec n m k} {θ : Θ} (hs : D.nlp.IsKkt s θ)
    (hQ : ∀ d : n → ℝ, 0 ≤ ∑ j, d j * ∑ j', D.Q θ j j' * d j') {x' : n → ℝ} (hx' : D.Feasible θ x') :
    D.obj θ s.x ≤ D.obj θ x' ∧ (D.obj θ x' = D.obj θ s.x → ∀ t : ℝ,
      D.nlp.kktFun (s + t • packKkt ⟨x' - s.x, some 0, some 0⟩) θ = 0) := by
  set d := x' - s.x with hd
  have hx : x' = s.x + d := by rw [hd]; abel
  have hobj := obj_sub D θ s.x d
  rw [← hx] at hobj
  have hstat : ∑ j, d j * D.nlp.grad s.x θ j = -∑ i, s.l i * (∑ j, D.G θ i j * x' j - D.h θ i) := by
    have e : ∑ j, d j * (D.nlp.grad s.x θ j + ∑ a, D.A θ a j * s.y a + ∑ i, D.G θ i j * s.l i) = 0 :=
      Finset.sum_eq_zero fun j _ => (congrArg (d j * ·) (hs.stat j)).trans (mul_zero _)
    simp only [mul_add, Finset.sum_add_distrib] at e
    rw [sum_swap (fun a j => D.A θ a j) d s.y, sum_swap (fun i j => D.G θ i j) d s.l] at e
    have eA : ∑ a, (∑ j, D.A θ a j * d j) * s.y a = 0 := by
      refine Finset.sum_eq_zero fun a _ => ?_
      have h1 := hs.eq a
      rw [nlp_eq] at h1
      have h2 := hx'.1 a
      have h3 := sum_line (D.A θ a) s.x d 1
      rw [one_smul, ← hx] at h3
      have : ∑ j, D.A θ a j * d j = 0 := by linarith
      rw [this, zero_mul]
    have eG : ∑ i, (∑ j, D.G θ i j * d j) * s.l i = ∑ i, s.l i * (∑ j, D.G θ i j * x' j - D.h θ i) := by
      refine Finset.sum_congr rfl fun i _ => ?_
      have h3 := sum_line (D.G θ i) s.x d 1
      rw [one_smul, ← hx] at h3
      rcases hs.comp i with h | h
      · rw [h]; ring
      · rw [nlp_ineq] at h
        have : ∑ j, D.G θ i j * d j = ∑ j, D.G θ i j * x' j - D.h θ i := by linarith
        rw [this]; ring
    rw [eA, eG] at e
    linarith
  have hterm : ∀ i, 0 ≤ -(s.l i * (∑ j, D.G θ i j * x' j - D.h θ i)) := fun i => by
    have := mul_nonneg (hs.nonneg i) (sub_nonneg.mpr (hx'.2 i))
    linarith
  have hnn : 0 ≤ -∑ i, s.l i * (∑ j, D.G θ i j * x' j - D.h θ i) := by
    rw [← Finset.sum_neg_distrib]
    exact Finset.sum_nonneg fun i _ => hterm i
  have hq := hQ d
  rw [hstat] at hobj
  refine ⟨by linarith, fun heq t => ?_⟩
  have hq0 : ∑ j, d j * ∑ j', D.Q θ j j' * d j' = 0 := by linarith
  have hl0 : ∑ i, -(s.l i * (∑ j, D.G θ i j * x' j - D.h θ i)) = 0 := by rw [Finset.sum_neg_distrib]; linarith
  have hli : ∀ i, s.l i * (∑ j, D.G θ i j * x' j - D.h θ i) = 0 := fun i => by
    have := (Finset.sum_eq_zero_iff_of_nonneg (fun i _ => hterm i)).mp hl0 i (Finset.mem_univ i)
    linarith
  have hnull := psd_null (D.Q θ) hQ d hq0
  set s' := s + t • packKkt ⟨d, some 0, some 0⟩ with hs'
  have ex : s'.x = s.x + t • d := by
    funext j
    simp [hs', KktVec.x, packKkt]
  have ey : s'.y = s.y := by
    funext a
    simp [hs', KktVec.y, packKkt]
  have el : s'.l = s.l := by
    funext i
    simp [hs', KktVec.l, packKkt]
  rw [kktFun_eq_zero_iff, ex, ey, el]
  refine ⟨fun j => ?_, fun a => ?_, fun i => ?_⟩
  · rw [← hs.stat j, nlp_grad, nlp_grad, sum_line, hnull j, mul_zero, add_zero]
    rfl
  · have h1 := hs.eq a
    rw [nlp_eq] at h1 ⊢
    have h2 := hx'.1 a
    have h3 := sum_line (D.A θ a) s.x d 1
    rw [one_smul, ← hx] at h3
    have : ∑ j, D.A θ a j * d j = 0 := by linarith
    rw [sum_line, this]
    linarith
  · rcases hs.comp i with h | h
    · exact Or.inl h
    · rw [nlp_ineq] at h ⊢
      rcases mul_eq_zero.mp (hli i) with h1 | h1
      · exact Or.inl h1
      · right
        have h3 := sum_line (D.G θ i) s.x d 1
        rw [one_smul, ← hx] at h3
        have : ∑ j, D.G θ i j * d j = 0 := by linarith
        rw [sum_line, this]
        linarith

/-- **C125** (quadratic programs).  At a regular solution of a convex quadratic program whose data depend on parameters, for all parameters nearby the
program has a unique minimiser; this minimiser, with its multipliers, is a differentiable function `p` of the parameters, `root_jvp` is its
directional derivative and `root_vjp` its transposed partial derivative, for every exact linear solver. -/
theorem C125_qp {D : QPFamily n m k (∀ i, P i)} {s0 : KktVec n m k} {θ0 : ∀ i, P i} (h : D.Regular s0 θ0) (hD : D.Smooth θ0)
    (hQ : ∀ᶠ θ in 𝓝 θ0, ∀ d : n → ℝ, 0 ≤ ∑ j, d j * ∑ j', D.Q θ j j' * d j') :
    ∃ p : (∀ i, P i) → KktVec n m k, p θ0 = s0 ∧ DifferentiableAt ℝ p θ0 ∧
      (∀ᶠ θ in 𝓝 θ0, D.nlp.IsKkt (p θ) θ ∧ D.Feasible θ (p θ).x ∧
        ∀ x', D.Feasible θ x' → x' ≠ (p θ).x → D.obj θ (p θ).x < D.obj θ x') ∧
      ∀ solve, ExactSolve solve → (∀ t, rootJvp D.nlp.kktFun s0 θ0 t solve = fderiv ℝ p θ0 t) ∧
        ∀ w i, rootVjp D.nlp.kktFun s0 θ0 w solve i = adjoint (fderiv ℝ (fun s => p (Function.update θ0 i s)) (θ0 i)) w := by
  obtain ⟨p, hp0, hdp, hkkt, hiff, hder⟩ := C125_branch (h.nlp hD)
  refine ⟨p, hp0, hdp, ?_, hder⟩
  have hgraph : Tendsto (fun θ => (θ, p θ)) (𝓝 θ0) (𝓝 (θ0, s0)) := by
    have h2 : ContinuousAt (fun θ => (θ, p θ)) θ0 := continuousAt_id.prodMk hdp.continuousAt
    have := h2.tendsto
    rwa [hp0] at this
  have hloc := hgraph.eventually (eventually_eventually_nhds.mpr hiff)
  filter_upwards [hkkt, hloc, hQ] with θ h1 h2 h3
  have hk := h1.1
  refine ⟨hk, ⟨fun a => ?_, fun i => ?_⟩, fun x' hx' hne => ?_⟩
  · have := hk.eq a
    rw [nlp_eq] at this
    linarith
  · have := hk.ineq i
    rw [nlp_ineq] at this
    linarith
  · obtain ⟨hle, heq⟩ := kkt_minimiser hk h3 hx'
    refine lt_of_le_of_ne hle fun he => hne ?_
    have hroot := heq he.symm
    have hcurve : Tendsto (fun t : ℝ => (θ, p θ + t • packKkt ⟨x' - (p θ).x, some 0, some 0⟩)) (𝓝[≠] 0) (𝓝 (θ, p θ)) := by
      have hc : Continuous (fun t : ℝ => (θ, p θ + t • packKkt (n := n) (m := m) (k := k) ⟨x' - (p θ).x, some 0, some 0⟩)) := by fun_prop
      have := (hc.tendsto 0).mono_left (nhdsWithin_le_nhds (s := {0}ᶜ))
      simpa using this
    obtain ⟨t, ht, ht0⟩ := ((hcurve.eventually h2).and self_mem_nhdsWithin).exists
    have e := ht.mp (hroot t)
    simp only at e
    have e2 : t • packKkt (n := n) (m := m) (k := k) ⟨x' - (p θ).x, some 0, some 0⟩ = 0 := by
      have := e.symm
      rwa [add_eq_left] at this
    rcases smul_eq_zero.mp e2 with h4 | h4
    · exact absurd h4 ht0
    · funext j
      have := congrFun (congrArg WithLp.ofLp h4) (.inl j)
      simp [packKkt] at this
      linarith

/-- The optimality function of `CvxpyQP` with both kinds of constraints is the one differentiated here. -/
theorem C125_cvxpy {Θ : Type*} (Q : Θ → Cvxpy.Mat ℝ) (A G : Θ → Cvxpy.Mat ℝ) (c : Θ → Cvxpy.Vec ℝ) (b h : Θ → Cvxpy.Vec ℝ) (nn mm kk : ℕ)
    (hc : ∀ θ, (c θ).len = nn) (hA : ∀ θ, (A θ).rows = mm) (hG : ∀ θ, (G θ).rows = kk) (θ : Θ)
    (x : Fin (c θ).len → ℝ) (y : Fin (A θ).rows → ℝ) (l : Fin (G θ).rows → ℝ) :
    let D : QPFamily (Fin nn) (Fin mm) (Fin kk) Θ := ⟨fun θ => Matrix.of fun i j => (Q θ).at_ i j, fun θ j => (c θ).at_ j,
      fun θ => Matrix.of fun i j => (A θ).at_ i j, fun θ i => (b θ).at_ i, fun θ => Matrix.of fun i j => (G θ).at_ i j, fun θ i => (h θ).at_ i⟩
    let r := Cvxpy.optimalityFun (Q θ) (c θ) (some (A θ, b θ)) (some (G θ, h θ)) ⟨x, some y, some l⟩
    let s : KktVec (Fin nn) (Fin mm) (Fin kk) :=
      packKkt ⟨fun j => x (Fin.cast (hc θ).symm j), some fun i => y (Fin.cast (hA θ).symm i), some fun i => l (Fin.cast (hG θ).symm i)⟩
    (∀ j, D.nlp.kktFun s θ (.inl j) = r.primal (Fin.cast (hc θ).symm j)) ∧
    (∃ e, r.dualEq = some e ∧ ∀ i, D.nlp.kktFun s θ (.inr (.inl i)) = e (Fin.cast (hA θ).symm i)) ∧
    ∃ e, r.dualIneq = some e ∧ ∀ i, D.nlp.kktFun s θ (.inr (.inr i)) = e (Fin.cast (hG θ).symm i) := by
  obtain rfl := hc θ
  obtain rfl := hA θ
  obtain rfl := hG θ
  refine ⟨fun j => ?_, ⟨_, rfl, fun i => ?_⟩, ⟨_, rfl, fun i => ?_⟩⟩
  · rfl
  · rfl
  · rfl

/-! ## Strict complementarity is necessary -/

/-- `min ½x² - θx` subject to `x ≤ 0`. -/
noncomputable def kinkQP : QPFamily (Fin 1) (Fin 0) (Fin 1) (∀ _ : Unit, ℝ) :=
  ⟨fun _ => 1, fun θ _ => -θ (), fun _ => 0, fun _ => 0, fun _ => 1, fun _ => 0⟩

theorem kinkQP_kkt (s : KktVec (Fin 1) (Fin 0) (Fin 1)) (θ : ∀ _ : Unit, ℝ) :
    kinkQP.nlp.IsKkt s θ ↔ s.x 0 - θ () + s.l 0 = 0 ∧ s.x 0 ≤ 0 ∧ 0 ≤ s.l 0 ∧ (s.l 0 = 0 ∨ s.x 0 = 0) := by
  have e1 : ∀ j, kinkQP.nlp.grad s.x θ j = s.x 0 - θ () := by
    intro j
    rw [nlp_grad, Subsingleton.elim j 0]
    simp [kinkQP, sub_eq_add_neg]
    ring
  have e2 : ∀ i, kinkQP.nlp.ineq s.x θ i = s.x 0 := by
    intro i
    rw [nlp_ineq, Subsingleton.elim i 0]
    simp [kinkQP]
  have e3 : ∀ j, ∑ i, kinkQP.nlp.ineqJac s.x θ i j * s.l i = s.l 0 := by
    intro j
    rw [Subsingleton.elim j 0]
    simp [kinkQP, QPFamily.nlp]
  constructor
  · intro h
    have h1 := h.stat 0
    rw [e1, e3] at h1
    have h2 := h.ineq 0
    have h3 := h.comp 0
    rw [e2] at h2 h3
    exact ⟨by simpa using h1, h2, h.nonneg 0, h3⟩
  · rintro ⟨h1, h2, h3, h4⟩
    refine ⟨fun j => ?_, fun a => a.elim0, fun i => ?_, fun i => ?_, fun i => ?_⟩
    · rw [e1, e3]
      simpa using h1
    · rw [e2]; exact h2
    · rw [Subsingleton.elim i 0]; exact h3
    · rw [e2, Subsingleton.elim i 0]; exact h4

/-- **C125** (strict complementarity cannot be dropped).  A strictly convex program with one linearly independent constraint, smooth in its
parameter: whatever Karush-Kuhn-Tucker points are returned for the parameters, they are not differentiable where the constraint is active
with a zero multiplier, and there the linear system of `root_vjp` and `root_jvp` is singular. -/
theorem C125_strict_false : kinkQP.Smooth 0 ∧ kinkQP.nlp.IsKkt 0 0 ∧
    (∀ (y : Fin 0 → ℝ) (l : Fin 1 → ℝ), (∀ j, ∑ a, kinkQP.A 0 a j * y a + ∑ i, kinkQP.G 0 i j * l i = 0) → y = 0 ∧ l = 0) ∧
    (∀ d : Fin 1 → ℝ, d ≠ 0 → 0 < ∑ j, d j * ∑ j', kinkQP.Q 0 j j' * d j') ∧
    (∃ d, d ≠ 0 ∧ fderiv ℝ (fun s => kinkQP.nlp.kktFun s 0) 0 d = 0) ∧
    ∀ p : (∀ _ : Unit, ℝ) → KktVec (Fin 1) (Fin 0) (Fin 1), (∀ θ, kinkQP.nlp.IsKkt (p θ) θ) → ¬DifferentiableAt ℝ p 0 := by
  have hsm : kinkQP.Smooth 0 := ⟨fun _ _ => contDiffAt_const, fun _ => (contDiffAt_pi.mp contDiffAt_id ()).neg, fun _ _ => contDiffAt_const,
    fun _ => contDiffAt_const, fun _ _ => contDiffAt_const, fun _ => contDiffAt_const⟩
  refine ⟨hsm, ?_, fun y l h => ?_, fun d hd => ?_, ?_, fun p hp hdiff => ?_⟩
  · rw [kinkQP_kkt]
    simp [KktVec.x, KktVec.l]
  · refine ⟨Subsingleton.elim _ _, ?_⟩
    have := h 0
    simp [kinkQP] at this
    funext i
    rw [Subsingleton.elim i 0]
    exact this
  · have h0 : d 0 ≠ 0 := fun h => hd (by funext i; rw [Subsingleton.elim i 0]; exact h)
    simp only [kinkQP, Fin.sum_univ_one, Matrix.one_apply_eq, one_mul]
    exact mul_self_pos.mpr h0
  · refine ⟨packKkt ⟨fun _ => 1, some fun _ => 0, some fun _ => -1⟩, fun h => ?_, ?_⟩
    · have := congrFun (congrArg WithLp.ofLp h) (.inl 0)
      simp [packKkt] at this
    · have hS := QPFamily.smoothAt hsm 0
      obtain ⟨h1, h2, h3⟩ := hS.fderiv_apply (packKkt ⟨fun _ => 1, some fun _ => 0, some fun _ => -1⟩)
      ext c
      rcases c with j | a | i
      · rw [h1]
        rw [Subsingleton.elim j 0]
        simp [kinkQP, QPFamily.nlp, KktVec.x, KktVec.y, KktVec.l, packKkt]
        norm_num
      · exact a.elim0
      · rw [h3]
        rw [Subsingleton.elim i 0]
        simp [kinkQP, QPFamily.nlp, KktVec.x, KktVec.y, KktVec.l, packKkt]
  · -- the solution is `min θ 0`
    have hx : ∀ t : ℝ, (p fun _ => t).x 0 = min t 0 := by
      intro t
      obtain ⟨h1, h2, h3, h4⟩ := (kinkQP_kkt _ _).mp (hp fun _ => t)
      rcases h4 with h4 | h4
      · rw [h4] at h1
        rw [min_eq_left (by linarith)]; linarith
      · rw [h4] at h1
        rw [h4, min_eq_right (by linarith)]
    have hd1 : DifferentiableAt ℝ (fun t : ℝ => (p fun _ => t).x 0) 0 := by
      have e1 : DifferentiableAt ℝ (fun s : KktVec (Fin 1) (Fin 0) (Fin 1) => s.x 0) (p 0) :=
        ((EuclideanSpace.proj (𝕜 := ℝ) (Sum.inl 0 : Fin 1 ⊕ (Fin 0 ⊕ Fin 1))).differentiableAt)
      have e2 : DifferentiableAt ℝ (fun t : ℝ => (fun _ => t : ∀ _ : Unit, ℝ)) 0 := by fun_prop
      exact DifferentiableAt.comp (0 : ℝ) (g := fun θ => (p θ).x 0) (f := fun t : ℝ => (fun _ => t : ∀ _ : Unit, ℝ))
        (DifferentiableAt.comp (0 : ∀ _ : Unit, ℝ) (g := fun s : KktVec (Fin 1) (Fin 0) (Fin 1) => s.x 0) e1 hdiff) e2
    refine not_differentiableAt_abs_zero ?_
    have e : (fun t : ℝ => |t|) = fun t : ℝ => t - 2 * (p fun _ => t).x 0 := by
      funext t
      rw [hx]
      rcases le_total t 0 with h | h
      · rw [abs_of_nonpos h, min_eq_left h]; ring
      · rw [abs_of_nonneg h, min_eq_right h]; ring
    show DifferentiableAt ℝ (fun t : ℝ => |t|) 0
    rw [e]
    exact differentiableAt_id.sub (hd1.const_mul 2)

/-! ## Examples -/

/-- `min ½(x₀² + x₁²)` subject to `x₀ + x₁ = θ` and `x₀ ≤ 1`, written with a matrix that is not symmetric. -/
noncomputable def exQP : QPFamily (Fin 2) (Fin 1) (Fin 1) (∀ _ : Unit, ℝ) :=
  ⟨fun _ => !![1, 1; -1, 1], fun _ => 0, fun _ => !![1, 1], fun θ _ => θ (), fun _ => !![1, 0], fun _ _ => 1⟩

/-- At `θ = 4` the solution is `(1, 3)` with multipliers `-3` and `2`. -/
noncomputable def exSol : KktVec (Fin 2) (Fin 1) (Fin 1) := packKkt ⟨![1, 3], some ![-3], some ![2]⟩

theorem exQP_regular : exQP.Regular exSol (fun _ => 4) where
  kkt := by
    refine ⟨fun j => ?_, fun a => ?_, fun i => ?_, fun i => ?_, fun i => ?_⟩
    · rw [nlp_grad]
      fin_cases j <;> simp [exQP, exSol, packKkt, KktVec.x, KktVec.y, KktVec.l, QPFamily.nlp, Fin.sum_univ_two] <;> norm_num
    · rw [nlp_eq]
      fin_cases a; simp [exQP, exSol, packKkt, KktVec.x, Fin.sum_univ_two]; norm_num
    · rw [nlp_ineq]
      fin_cases i; simp [exQP, exSol, packKkt, KktVec.x, Fin.sum_univ_two]
    · fin_cases i; simp [exSol, packKkt, KktVec.l]
    · right
      rw [nlp_ineq]
      fin_cases i; simp [exQP, exSol, packKkt, KktVec.x, Fin.sum_univ_two]
  strict := fun i => by right; fin_cases i; simp [exSol, packKkt, KktVec.l]
  indep := fun y l h1 _ => by
    have e0 := h1 0
    have e1 := h1 1
    simp [exQP] at e0 e1
    refine ⟨?_, ?_⟩ <;> funext i <;> fin_cases i <;> simp
    · exact e1
    · linarith
  second := fun d hd h1 h2 => by
    have e0 := h1 0
    have e1 := h2 0 (by simp [exQP, exSol, packKkt, KktVec.x, Fin.sum_univ_two])
    simp [exQP, Fin.sum_univ_two] at e0 e1
    exfalso
    apply hd
    funext j
    fin_cases j <;> simp <;> linarith

/-- The derivative of the solution with respect to the right-hand side exists and is the output of `root_jvp`. -/
example : ∃ p : (∀ _ : Unit, ℝ) → KktVec (Fin 2) (Fin 1) (Fin 1), p (fun _ => 4) = exSol ∧ DifferentiableAt ℝ p (fun _ => 4) ∧
    ∀ solve, ExactSolve solve → ∀ t, rootJvp exQP.nlp.kktFun exSol (fun _ => 4) t solve = fderiv ℝ p (fun _ => 4) t := by
  obtain ⟨p, h0, h1, -, h2⟩ := C125_qp exQP_regular
    ⟨fun _ _ => contDiffAt_const, fun _ => contDiffAt_const, fun _ _ => contDiffAt_const, fun _ => contDiffAt_pi.mp contDiffAt_id (),
      fun _ _ => contDiffAt_const, fun _ => contDiffAt_const⟩
    (Eventually.of_forall fun θ d => by
      simp [exQP, Fin.sum_univ_two]
      nlinarith [mul_self_nonneg (d 0), mul_self_nonneg (d 1)])
  exact ⟨p, h0, h1, fun solve hs => (h2 solve hs).1⟩

end Jaxopt.Implicit
