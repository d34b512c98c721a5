import Verif.Implicit.ProxRoot
import Verif.Implicit.KktProps
import Verif.ProxGrad.IdentifyProps
import Mathlib.Analysis.Convex.Deriv

/-!
# Property C127: implicit differentiation of penalised and bound-constrained solutions
-/

set_option autoImplicit false
set_option linter.unusedSectionVars false
set_option linter.unusedVariables false

namespace Jaxopt.Implicit

open Jaxopt.ProxGrad Jaxopt.Prox Jaxopt.Proj ContinuousLinearMap Filter Topology

variable {ι : Type*} [Fintype ι] [DecidableEq ι]
variable {P : ι → Type*} [∀ i, NormedAddCommGroup (P i)] [∀ i, InnerProductSpace ℝ (P i)] [∀ i, CompleteSpace (P i)]
variable {n : ℕ}

/-! ## Specification -/

/-- `x` minimises `obj` over `C`. -/
def IsMin {V : Type*} (C : Set V) (obj : V → ℝ) (x : V) : Prop := x ∈ C ∧ ∀ y ∈ C, obj x ≤ obj y

/-- `grad` is the gradient and the objective is convex, for all parameters near `θ0`. -/
def SmoothFamily.ConvexNear (D : SmoothFamily n (∀ i, P i)) (θ0 : ∀ i, P i) : Prop :=
  ∀ᶠ θ in 𝓝 θ0, (∀ x d : Fin n → ℝ, HasDerivAt (fun t : ℝ => D.f (x + t • d) θ) (∑ i, d i * D.grad x θ i) 0) ∧
    ConvexOn ℝ Set.univ fun x => D.f x θ

/-- The gradient is continuously differentiable in the variable and the parameters at `(x0, θ0)`, with Hessian `H` there. -/
structure SmoothFamily.C2At (D : SmoothFamily n (∀ i, P i)) (x0 : Fin n → ℝ) (θ0 : ∀ i, P i) (H : Matrix (Fin n) (Fin n) ℝ) : Prop where
  grad_diff : ContDiffAt ℝ 1 (fun v : (∀ i, P i) × (Fin n → ℝ) => D.grad v.2 v.1) (θ0, x0)
  hess : ∀ i (d : Fin n → ℝ), HasDerivAt (fun t : ℝ => D.grad (x0 + t • d) θ0 i) (∑ j, H i j * d j) 0

/-- Near `θ0` the problem `min_{x ∈ C θ} obj θ x` has one solution, it is `x0` at `θ0` and depends differentiably on `θ` at `θ0`; implicit differentiation of `F`
gives the derivative of that solution, forwards and backwards, when the linear solver is exact.  The solution satisfies `near` for parameters near `θ0`. -/
def Differentiates (F : EuclideanSpace ℝ (Fin n) → (∀ i, P i) → EuclideanSpace ℝ (Fin n)) (C : (∀ i, P i) → Set (Fin n → ℝ))
    (obj : (∀ i, P i) → (Fin n → ℝ) → ℝ) (x0 : Fin n → ℝ) (θ0 : ∀ i, P i) (near : (∀ i, P i) → (Fin n → ℝ) → Prop) : Prop :=
  ∃ p : (∀ i, P i) → EuclideanSpace ℝ (Fin n), (p θ0).ofLp = x0 ∧ DifferentiableAt ℝ p θ0 ∧
    (∀ᶠ θ in 𝓝 θ0, IsUniqueMin (C θ) (obj θ) (p θ).ofLp ∧ near θ (p θ).ofLp) ∧
    ∀ solve, ExactSolve solve → (∀ t, rootJvp F (p θ0) θ0 t solve = fderiv ℝ p θ0 t) ∧
      ∀ w i, rootVjp F (p θ0) θ0 w solve i = adjoint (fderiv ℝ (fun s => p (Function.update θ0 i s)) (θ0 i)) w

/-! ## Convex problems -/

theorem gradIneq_of_convexOn {f : (Fin n → ℝ) → ℝ} {grad : (Fin n → ℝ) → Fin n → ℝ}
    (hd : ∀ x d : Fin n → ℝ, HasDerivAt (fun t : ℝ => f (x + t • d)) (∑ i, d i * grad x i) 0) (hc : ConvexOn ℝ Set.univ f) :
    GradIneq dot f grad := by
  intro x y
  have hc1 : ConvexOn ℝ Set.univ (fun t : ℝ => f (x + t • (y - x))) := by
    refine ⟨convex_univ, fun s _ t _ a b ha hb hab => ?_⟩
    have := hc.2 (Set.mem_univ (x + s • (y - x))) (Set.mem_univ (x + t • (y - x))) ha hb hab
    refine le_trans (le_of_eq (congrArg f ?_)) this
    funext i
    simp only [Pi.add_apply, Pi.smul_apply, smul_eq_mul, Pi.sub_apply]
    linear_combination (-x i) * hab
  have := hc1.le_slope_of_hasDerivAt (Set.mem_univ 0) (Set.mem_univ 1) zero_lt_one (hd x (y - x))
  rw [slope_def_field] at this
  simp only [one_smul, zero_smul, add_zero, add_sub_cancel, sub_zero, div_one] at this
  simp only [dot]
  linarith

/-- The first-order condition at a minimiser. -/
theorem first_order {C : Set (Fin n → ℝ)} {f h : (Fin n → ℝ) → ℝ} {g x u : Fin n → ℝ}
    (hd : HasDerivAt (fun t : ℝ => f (x + t • (u - x))) (∑ i, (u - x) i * g i) 0) (hh : ConvexOn ℝ C h) (hx : IsMin C (fun y => f y + h y) x)
    (hu : u ∈ C) : h x ≤ h u + dot (u - x) g := by
  have h1 : ∀ t : ℝ, 0 < t → t ≤ 1 → h x - h u ≤ (f (x + t • (u - x)) - f x) / t := by
    intro t ht ht1
    have e : x + t • (u - x) = (1 - t) • x + t • u := by
      funext i
      simp only [Pi.add_apply, Pi.smul_apply, smul_eq_mul, Pi.sub_apply]
      ring
    have hm : x + t • (u - x) ∈ C := by rw [e]; exact hh.1 hx.1 hu (by linarith) ht.le (by ring)
    have h2 := hx.2 _ hm
    have h3 := hh.2 hx.1 hu (by linarith : (0 : ℝ) ≤ 1 - t) ht.le (by ring)
    rw [← e] at h3
    simp only [smul_eq_mul] at h2 h3
    rw [le_div_iff₀ ht]
    nlinarith
  have h2 : Tendsto (fun t : ℝ => (f (x + t • (u - x)) - f x) / t) (𝓝[>] 0) (𝓝 (dot (u - x) g)) := by
    have := (hasDerivAt_iff_tendsto_slope.mp hd).mono_left (nhdsWithin_mono 0 fun t (ht : 0 < t) => (ne_of_gt ht : t ≠ 0))
    refine this.congr fun t => ?_
    rw [slope_def_field]
    simp
  have h3 : h x - h u ≤ dot (u - x) g := by
    refine ge_of_tendsto h2 ?_
    filter_upwards [Ioc_mem_nhdsGT (zero_lt_one' ℝ)] with t ht
    exact h1 t ht.1 ht.2
  linarith

/-- Points satisfying the first-order condition are minimisers, and if there is a second minimiser then the first-order condition holds on the whole segment
between them. -/
theorem segment_first_order {C : Set (Fin n → ℝ)} {f h : (Fin n → ℝ) → ℝ} {grad : (Fin n → ℝ) → Fin n → ℝ}
    (hd : ∀ x d : Fin n → ℝ, HasDerivAt (fun t : ℝ => f (x + t • d)) (∑ i, d i * grad x i) 0) (hc : ConvexOn ℝ Set.univ f) (hh : ConvexOn ℝ C h)
    {x y : Fin n → ℝ} (hx : x ∈ C) (hfo : ∀ u ∈ C, h x ≤ h u + dot (u - x) (grad x)) (hy : y ∈ C) :
    f x + h x ≤ f y + h y ∧ (f y + h y = f x + h x → ∀ t : ℝ, 0 ≤ t → t ≤ 1 → x + t • (y - x) ∈ C ∧
      ∀ u ∈ C, h (x + t • (y - x)) ≤ h u + dot (u - (x + t • (y - x))) (grad (x + t • (y - x)))) := by
  have hmin : ∀ u ∈ C, f x + h x ≤ f u + h u := by
    intro u hu
    have h1 := gradIneq_of_convexOn hd hc x u
    have h2 := hfo u hu
    linarith
  refine ⟨hmin y hy, fun he t ht ht1 => ?_⟩
  have e : x + t • (y - x) = (1 - t) • x + t • y := by
    funext i
    simp only [Pi.add_apply, Pi.smul_apply, smul_eq_mul, Pi.sub_apply]
    ring
  have hm : x + t • (y - x) ∈ C := by rw [e]; exact hh.1 hx hy (by linarith) ht (by ring)
  refine ⟨hm, fun u hu => first_order (C := C) (f := f) (hd _ _) hh ⟨hm, fun w hw => ?_⟩ hu⟩
  have h3 := hh.2 hx hy (by linarith : (0 : ℝ) ≤ 1 - t) ht (by ring)
  have h4 := hc.2 (Set.mem_univ x) (Set.mem_univ y) (by linarith : (0 : ℝ) ≤ 1 - t) ht (by ring)
  rw [← e] at h3 h4
  simp only [smul_eq_mul] at h3 h4 ⊢
  have h5 := hmin w hw
  have h6 : t * (f y + h y) = t * (f x + h x) := by rw [he]
  linarith

/-! ## Separable operators that are locally affine -/

/-- The prox is, near `(v0, θ0)`, affine in each coordinate with slope `e i` and smooth coefficients. -/
structure LocallyAffine (prox : (Fin n → ℝ) → (∀ i, P i) → ℝ → Fin n → ℝ) (v0 : Fin n → ℝ) (θ0 : ∀ i, P i) (e b : Fin n → (∀ i, P i) → ℝ) : Prop where
  slope_diff : ∀ i, ContDiffAt ℝ 1 (e i) θ0
  shift_diff : ∀ i, ContDiffAt ℝ 1 (b i) θ0
  eq : ∀ i, ∀ᶠ v : (∀ i, P i) × (Fin n → ℝ) in 𝓝 (θ0, v0), prox v.2 v.1 1 i = e i v.1 * v.2 i + b i v.1

section general
variable {D : SmoothFamily n (∀ i, P i)} {prox : (Fin n → ℝ) → (∀ i, P i) → ℝ → Fin n → ℝ} {o : PG ℝ (Fin n → ℝ)} {x0 : Fin n → ℝ} {θ0 : ∀ i, P i}
  {H : Matrix (Fin n) (Fin n) ℝ} {e b : Fin n → (∀ i, P i) → ℝ}

theorem proxRoot_apply (s : EuclideanSpace ℝ (Fin n)) (θ : ∀ i, P i) (i : Fin n) :
    D.proxRoot prox o s θ i = prox (s.ofLp - D.grad s.ofLp θ) θ 1 i - s i := rfl

theorem proxRoot_eq_zero_iff (s : EuclideanSpace ℝ (Fin n)) (θ : ∀ i, P i) :
    D.proxRoot prox o s θ = 0 ↔ prox (s.ofLp + (-1 : ℝ) • D.grad s.ofLp θ) θ 1 = s.ofLp := by
  have e1 : s.ofLp + (-1 : ℝ) • D.grad s.ofLp θ = s.ofLp - D.grad s.ofLp θ := by rw [neg_smul, one_smul, sub_eq_add_neg]
  rw [e1]
  constructor
  · intro h
    funext i
    have : D.proxRoot prox o s θ i = 0 := by rw [h]; rfl
    rw [proxRoot_apply] at this
    linarith
  · intro h
    ext i
    rw [proxRoot_apply, h]
    exact sub_self _

theorem proxRoot_eventually (hg : D.C2At x0 θ0 H) (ha : LocallyAffine prox (x0 - D.grad x0 θ0) θ0 e b) :
    ∀ᶠ v : (∀ i, P i) × EuclideanSpace ℝ (Fin n) in 𝓝 (θ0, WithLp.toLp 2 x0), ∀ i,
      D.proxRoot prox o v.2 v.1 i = e i v.1 * (v.2 i - D.grad v.2.ofLp v.1 i) + b i v.1 - v.2 i := by
  rw [eventually_all]
  intro i
  have hof : Continuous (fun v : (∀ i, P i) × EuclideanSpace ℝ (Fin n) => (v.1, v.2.ofLp)) := by fun_prop
  have hc : ContinuousAt (fun v : (∀ i, P i) × EuclideanSpace ℝ (Fin n) => (v.1, v.2.ofLp - D.grad v.2.ofLp v.1)) (θ0, WithLp.toLp 2 x0) := by
    refine continuousAt_fst.prodMk (ContinuousAt.sub (by fun_prop) ?_)
    exact ContinuousAt.comp (g := fun v : (∀ i, P i) × (Fin n → ℝ) => D.grad v.2 v.1) (f := fun v : (∀ i, P i) × EuclideanSpace ℝ (Fin n) => (v.1, v.2.ofLp))
      (by exact hg.grad_diff.continuousAt) hof.continuousAt
  have h1 : Tendsto (fun v : (∀ i, P i) × EuclideanSpace ℝ (Fin n) => (v.1, v.2.ofLp - D.grad v.2.ofLp v.1)) (𝓝 (θ0, WithLp.toLp 2 x0))
      (𝓝 (θ0, x0 - D.grad x0 θ0)) := hc
  filter_upwards [h1.eventually (ha.eq i)] with v hv
  rw [proxRoot_apply, hv]
  rfl

theorem proxRoot_contDiffAt (hg : D.C2At x0 θ0 H) (ha : LocallyAffine prox (x0 - D.grad x0 θ0) θ0 e b) :
    ContDiffAt ℝ 1 (fun v : (∀ i, P i) × EuclideanSpace ℝ (Fin n) => D.proxRoot prox o v.2 v.1) (θ0, WithLp.toLp 2 x0) := by
  rw [contDiffAt_euclidean]
  intro i
  have hof : ContDiff ℝ 1 (fun s : EuclideanSpace ℝ (Fin n) => s.ofLp) := by
    rw [contDiff_pi]
    exact fun i => (EuclideanSpace.proj (𝕜 := ℝ) i).contDiff
  have hx : ContDiffAt ℝ 1 (fun v : (∀ i, P i) × EuclideanSpace ℝ (Fin n) => (v.1, v.2.ofLp)) (θ0, WithLp.toLp 2 x0) :=
    contDiffAt_fst.prodMk ((hof.contDiffAt).comp _ contDiffAt_snd)
  have hi : ContDiffAt ℝ 1 (fun v : (∀ i, P i) × EuclideanSpace ℝ (Fin n) => v.2 i) (θ0, WithLp.toLp 2 x0) :=
    ((EuclideanSpace.proj (𝕜 := ℝ) i).contDiff.contDiffAt).comp (θ0, WithLp.toLp 2 x0) contDiffAt_snd
  have hgi : ContDiffAt ℝ 1 (fun v : (∀ i, P i) × EuclideanSpace ℝ (Fin n) => D.grad v.2.ofLp v.1 i) (θ0, WithLp.toLp 2 x0) :=
    ContDiffAt.comp (g := fun v : (∀ i, P i) × (Fin n → ℝ) => D.grad v.2 v.1 i) (θ0, WithLp.toLp 2 x0) (contDiffAt_pi.mp hg.grad_diff i) hx
  have he : ContDiffAt ℝ 1 (fun v : (∀ i, P i) × EuclideanSpace ℝ (Fin n) => e i v.1) (θ0, WithLp.toLp 2 x0) :=
    ContDiffAt.comp (g := e i) (θ0, WithLp.toLp 2 x0) (ha.slope_diff i) contDiffAt_fst
  have hb : ContDiffAt ℝ 1 (fun v : (∀ i, P i) × EuclideanSpace ℝ (Fin n) => b i v.1) (θ0, WithLp.toLp 2 x0) :=
    ContDiffAt.comp (g := b i) (θ0, WithLp.toLp 2 x0) (ha.shift_diff i) contDiffAt_fst
  refine (((he.mul (hi.sub hgi)).add hb).sub hi).congr_of_eventuallyEq ?_
  filter_upwards [proxRoot_eventually (o := o) hg ha] with v hv
  exact hv i

theorem proxRoot_fderiv (hg : D.C2At x0 θ0 H) (ha : LocallyAffine prox (x0 - D.grad x0 θ0) θ0 e b) (d : EuclideanSpace ℝ (Fin n)) (i : Fin n) :
    fderiv ℝ (fun s => D.proxRoot prox o s θ0) (WithLp.toLp 2 x0) d i = e i θ0 * (d i - ∑ j, H i j * d j) - d i := by
  have hdiff : DifferentiableAt ℝ (fun s => D.proxRoot prox o s θ0) (WithLp.toLp 2 x0) := by
    have h1 := (proxRoot_contDiffAt (o := o) hg ha).differentiableAt (by norm_num)
    exact DifferentiableAt.comp (WithLp.toLp 2 x0) (f := fun s => (θ0, s)) h1 (by fun_prop)
  have hline : HasDerivAt (fun t : ℝ => WithLp.toLp 2 x0 + t • d) d 0 := by
    have := ((hasDerivAt_id (0 : ℝ)).smul_const d).const_add (WithLp.toLp 2 x0)
    simpa using this
  have hl0 : WithLp.toLp 2 x0 + (0 : ℝ) • d = WithLp.toLp 2 x0 := by simp
  have hcomp : HasDerivAt (fun t : ℝ => D.proxRoot prox o (WithLp.toLp 2 x0 + t • d) θ0)
      (fderiv ℝ (fun s => D.proxRoot prox o s θ0) (WithLp.toLp 2 x0) d) 0 := by
    have h1 : HasFDerivAt (fun s => D.proxRoot prox o s θ0) (fderiv ℝ (fun s => D.proxRoot prox o s θ0) (WithLp.toLp 2 x0))
        (WithLp.toLp 2 x0 + (0 : ℝ) • d) := by rw [hl0]; exact hdiff.hasFDerivAt
    exact h1.comp_hasDerivAt 0 hline
  have hc : HasDerivAt (fun t : ℝ => D.proxRoot prox o (WithLp.toLp 2 x0 + t • d) θ0 i)
      (fderiv ℝ (fun s => D.proxRoot prox o s θ0) (WithLp.toLp 2 x0) d i) 0 :=
    (EuclideanSpace.proj (𝕜 := ℝ) i).hasFDerivAt.comp_hasDerivAt (0 : ℝ) hcomp
  have hid : HasDerivAt (fun t : ℝ => x0 i + t * d i) (d i) 0 :=
    (((hasDerivAt_id' (0 : ℝ)).mul_const (d i)).const_add (x0 i)).congr_deriv (one_mul _)
  have h2 : HasDerivAt (fun t : ℝ => e i θ0 * ((x0 i + t * d i) - D.grad (x0 + t • d.ofLp) θ0 i) + b i θ0 - (x0 i + t * d i))
      (e i θ0 * (d i - ∑ j, H i j * d j) - d i) 0 :=
    (((hid.sub (hg.hess i d.ofLp)).const_mul (e i θ0)).add_const (b i θ0)).sub hid
  refine hc.unique (h2.congr_of_eventuallyEq ?_)
  have ht : Tendsto (fun t : ℝ => (θ0, WithLp.toLp 2 x0 + t • d)) (𝓝 0) (𝓝 (θ0, WithLp.toLp 2 x0)) := by
    have h3 : Continuous (fun t : ℝ => (θ0, WithLp.toLp 2 x0 + t • d)) := by fun_prop
    have := h3.tendsto 0
    rwa [hl0] at this
  filter_upwards [ht.eventually (proxRoot_eventually (o := o) hg ha)] with t ht
  exact ht i

/-- **C127, general form**: the operator is the proximal operator of a convex function, affine near the forward point, and the Hessian plus the curvature of the
penalty is positive definite on the free coordinates. -/
theorem C127_general {C : (∀ i, P i) → Set (Fin n → ℝ)} {h : (∀ i, P i) → (Fin n → ℝ) → ℝ} (hD : D.ConvexNear θ0) (hg : D.C2At x0 θ0 H)
    (hprox : ∀ᶠ θ in 𝓝 θ0, IsProx dot (C θ) (h θ) (fun x s => prox x θ s) ∧ ConvexOn ℝ (C θ) (h θ))
    (ha : LocallyAffine prox (x0 - D.grad x0 θ0) θ0 e b) (hmin : IsMin (C θ0) (fun x => D.f x θ0 + h θ0 x) x0)
    (hcurv : ∀ d : Fin n → ℝ, d ≠ 0 → (∀ i, e i θ0 = 0 → d i = 0) → 0 < ∑ i, d i * ∑ j, H i j * d j + ∑ i, ((e i θ0)⁻¹ - 1) * d i ^ 2)
    (near : (∀ i, P i) → (Fin n → ℝ) → Prop)
    (hnear : ∀ᶠ v : (∀ i, P i) × (Fin n → ℝ) in 𝓝 (θ0, x0), (∀ i, v.2 i = e i v.1 * (v.2 i - D.grad v.2 v.1 i) + b i v.1) → near v.1 v.2) :
    Differentiates (D.proxRoot prox o) C (fun θ x => D.f x θ + h θ x) x0 θ0 near := by
  have hfix : ∀ θ, IsProx dot (C θ) (h θ) (fun x s => prox x θ s) → ConvexOn ℝ (C θ) (h θ) → ∀ s : EuclideanSpace ℝ (Fin n),
      D.proxRoot prox o s θ = 0 ↔ s.ofLp ∈ C θ ∧ ∀ u ∈ C θ, h θ s.ofLp ≤ h θ u + dot (u - s.ofLp) (D.grad s.ofLp θ) := by
    intro θ h1 h2 s
    rw [proxRoot_eq_zero_iff]
    exact fixed_iff isVdot_dot h1 h2 s.ofLp (D.grad s.ofLp θ) one_pos
  have h0 : D.proxRoot prox o (WithLp.toLp 2 x0) θ0 = 0 := by
    obtain ⟨h1, h2⟩ := hprox.self_of_nhds
    rw [hfix θ0 h1 h2]
    exact ⟨hmin.1, fun u hu => first_order (hD.self_of_nhds.1 _ _) h2 hmin hu⟩
  obtain ⟨p, hp0, hroot, hiff⟩ := exists_branch (F := D.proxRoot prox o) (proxRoot_contDiffAt (o := o) hg ha) h0 (by
    intro d hd
    have hrow : ∀ i, e i θ0 * (d i - ∑ j, H i j * d j) - d i = 0 := fun i => by
      rw [← proxRoot_fderiv (o := o) hg ha d i, hd]; rfl
    by_contra hne
    have hne' : d.ofLp ≠ 0 := fun h => hne (by ext i; exact congrFun h i)
    have hpos := hcurv d.ofLp hne' fun i hi => by
      have := hrow i
      rw [hi] at this
      linarith
    rw [← Finset.sum_add_distrib] at hpos
    refine absurd hpos (not_lt.mpr (le_of_eq (Finset.sum_eq_zero fun i _ => ?_)))
    have hr := hrow i
    by_cases hi : e i θ0 = 0
    · rw [hi] at hr
      have : d i = 0 := by linarith
      rw [this]; ring
    · have h1 : ∑ j, H i j * d j = d i - (e i θ0)⁻¹ * d i := by
        have : (e i θ0)⁻¹ * (e i θ0 * (d i - ∑ j, H i j * d j) - d i) = 0 := by rw [hr, mul_zero]
        rw [mul_sub, inv_mul_cancel_left₀ hi] at this
        linarith
      show d i * ∑ j, H i j * d j + _ = _
      rw [h1]
      ring)
  have hgraph : Tendsto (fun θ => (θ, p θ)) (𝓝 θ0) (𝓝 (θ0, WithLp.toLp 2 x0)) := by
    have h2 : ContinuousAt (fun θ => (θ, p θ)) θ0 := continuousAt_id.prodMk hroot.diffx.continuousAt
    have := h2.tendsto
    rwa [hp0] at this
  have hof : Tendsto (fun v : (∀ i, P i) × EuclideanSpace ℝ (Fin n) => (v.1, v.2.ofLp)) (𝓝 (θ0, WithLp.toLp 2 x0)) (𝓝 (θ0, x0)) := by
    have h1 : Continuous (fun v : (∀ i, P i) × EuclideanSpace ℝ (Fin n) => (v.1, v.2.ofLp)) := by fun_prop
    exact h1.tendsto _
  refine ⟨p, by rw [hp0], hroot.diffx, ?_, fun solve hs => ⟨fun t => C41_jvp hroot hs t, fun w i => C41_vjp hroot hs w i⟩⟩
  filter_upwards [hroot.root, hgraph.eventually (eventually_eventually_nhds.mpr hiff), hD, hprox, hgraph.eventually (proxRoot_eventually (o := o) hg ha),
    (hof.comp hgraph).eventually hnear] with θ h1 h2 h3 h4 h5 h6
  have hfo := (hfix θ h4.1 h4.2 (p θ)).mp h1
  refine ⟨⟨hfo.1, fun y hy hne => ?_⟩, h6 fun i => ?_⟩
  · obtain ⟨hle, hseg⟩ := segment_first_order h3.1 h3.2 h4.2 hfo.1 hfo.2 hy
    refine lt_of_le_of_ne hle fun heq => hne ?_
    have hcurve : Tendsto (fun t : ℝ => (θ, p θ + t • (WithLp.toLp 2 y - p θ))) (𝓝[>] 0) (𝓝 (θ, p θ)) := by
      have hc : Continuous (fun t : ℝ => (θ, p θ + t • (WithLp.toLp 2 y - p θ))) := by fun_prop
      have := (hc.tendsto 0).mono_left (nhdsWithin_le_nhds (s := Set.Ioi 0))
      simpa using this
    obtain ⟨t, ht, ht0, ht1⟩ := ((hcurve.eventually h2).and (Ioc_mem_nhdsGT (zero_lt_one' ℝ))).exists
    have hz := (hfix θ h4.1 h4.2 (p θ + t • (WithLp.toLp 2 y - p θ))).mpr (hseg heq.symm t ht0.le ht1)
    have e1 := ht.mp hz
    simp only at e1
    have e2 : t • (WithLp.toLp 2 y - p θ) = 0 := by
      have := e1.symm
      rwa [add_eq_left] at this
    rcases smul_eq_zero.mp e2 with h7 | h7
    · exact absurd h7 ht0.ne'
    · have := sub_eq_zero.mp h7
      rw [← this]
  · have := h5 i
    rw [h1] at this
    have e0 : (0 : EuclideanSpace ℝ (Fin n)) i = 0 := rfl
    rw [e0] at this
    show (p θ) i = e i θ * ((p θ) i - D.grad (p θ).ofLp θ i) + b i θ
    linarith

end general

/-! ## Penalties -/

theorem soft_pos {v l : ℝ} (hl : 0 ≤ l) (h : l < v) : proxL1 v l = v - l := by
  have hv : 0 < v := lt_of_le_of_lt hl h
  simp only [proxL1, sgn, relu, if_pos hv, abs_of_pos hv, one_mul]
  exact max_eq_left (by linarith)

theorem soft_neg {v l : ℝ} (hl : 0 ≤ l) (h : v < -l) : proxL1 v l = v + l := by
  have hv : v < 0 := by linarith
  simp only [proxL1, sgn, relu, if_neg hv.not_gt, if_pos hv, abs_of_neg hv]
  rw [max_eq_left (by linarith)]
  ring

theorem soft_zero {v l : ℝ} (h : |v| ≤ l) : proxL1 v l = 0 := by
  simp only [proxL1, relu]
  rw [max_eq_right (by linarith), mul_zero]

theorem soft_cases {v l : ℝ} (hl : 0 ≤ l) : (0 < proxL1 v l → l < v) ∧ (proxL1 v l < 0 → v < -l) := by
  refine ⟨fun h => ?_, fun h => ?_⟩
  · by_contra hc
    rcases lt_or_ge v (-l) with h1 | h1
    · rw [soft_neg hl h1] at h; linarith
    · rw [soft_zero (abs_le.mpr ⟨h1, not_lt.mp hc⟩)] at h; exact lt_irrefl _ h
  · by_contra hc
    rcases lt_or_ge l v with h1 | h1
    · rw [soft_pos hl h1] at h; linarith
    · rw [soft_zero (abs_le.mpr ⟨not_lt.mp hc, h1⟩)] at h; exact lt_irrefl _ h

section penalties
variable {D : SmoothFamily n (∀ i, P i)} {o : PG ℝ (Fin n → ℝ)} {x0 : Fin n → ℝ} {θ0 : ∀ i, P i} {H : Matrix (Fin n) (Fin n) ℝ}

/-- **C127, elastic net**: `x0` minimises `f(x, θ0) + Σ lam_i (|x_i| + gam_i x_i² / 2)`, it is non-degenerate, and the objective is strictly curved at `x0` on the
support of `x0`.  Then the minimiser is unique and differentiable in the parameters near `θ0`, keeps its zeros and signs, and implicit differentiation of
`ProximalGradient.optimality_fun` gives its derivative. -/
theorem C127_elastic_net {lam gam : (∀ i, P i) → Fin n → ℝ} (hD : D.ConvexNear θ0) (hg : D.C2At x0 θ0 H)
    (hlam : ∀ j, ContDiffAt ℝ 1 (fun θ => lam θ j) θ0) (hgam : ∀ j, ContDiffAt ℝ 1 (fun θ => gam θ j) θ0)
    (hnn : ∀ᶠ θ in 𝓝 θ0, ∀ j, 0 ≤ lam θ j ∧ 0 ≤ gam θ j)
    (hmin : IsMin Set.univ (fun x => D.f x θ0 + ∑ j, lam θ0 j * (|x j| + gam θ0 j * (1 / 2) * x j ^ 2)) x0)
    (hstrict : ∀ j, x0 j = 0 → |D.grad x0 θ0 j| < lam θ0 j)
    (hcurv : ∀ d : Fin n → ℝ, d ≠ 0 → (∀ i, x0 i = 0 → d i = 0) → 0 < ∑ i, d i * ∑ j, H i j * d j + ∑ i, lam θ0 i * gam θ0 i * d i ^ 2) :
    Differentiates (D.proxRoot (elasticNetProx lam gam) o) (fun _ => Set.univ)
      (fun θ x => D.f x θ + ∑ j, lam θ j * (|x j| + gam θ j * (1 / 2) * x j ^ 2)) x0 θ0 fun _ x => SameSigns x x0 := by
  have hn0 := hnn.self_of_nhds
  have hden : ∀ j, 0 < 1 + lam θ0 j * gam θ0 j := fun j => by
    have := mul_nonneg (hn0 j).1 (hn0 j).2
    linarith
  have hp : ∀ θ, (∀ j, 0 ≤ lam θ j ∧ 0 ≤ gam θ j) → IsProx dot Set.univ (fun x => ∑ j, lam θ j * (|x j| + gam θ j * (1 / 2) * x j ^ 2))
      (fun x s => elasticNetProx lam gam x θ s) ∧ ConvexOn ℝ Set.univ (fun x : Fin n → ℝ => ∑ j, lam θ j * (|x j| + gam θ j * (1 / 2) * x j ^ 2)) :=
    fun θ h => ⟨isProx_of_isUniqueMin fun x t ht => C14_elastic_net x (lam θ) (gam θ) t (fun j => mul_nonneg ht.le (h j).1) fun j => (h j).2,
      convexOn_l1_sq (fun j => (h j).1) fun j => (h j).2⟩
  have hfix : ∀ j, proxL1 (x0 j - D.grad x0 θ0 j) (lam θ0 j) / (1 + lam θ0 j * gam θ0 j) = x0 j := by
    intro j
    have h1 := (fixed_iff isVdot_dot (hp θ0 hn0).1 (hp θ0 hn0).2 x0 (D.grad x0 θ0) one_pos).mpr
      ⟨hmin.1, fun u hu => first_order (hD.self_of_nhds.1 _ _) (hp θ0 hn0).2 hmin hu⟩
    have h2 := congrFun h1 j
    simpa only [elasticNetProx, proxElasticNet, one_mul, Pi.add_apply, Pi.smul_apply, smul_eq_mul, neg_mul, ← sub_eq_add_neg] using h2
  have hv : ∀ j, (0 < x0 j → lam θ0 j < x0 j - D.grad x0 θ0 j) ∧ (x0 j < 0 → x0 j - D.grad x0 θ0 j < -lam θ0 j) := by
    intro j
    have h1 : proxL1 (x0 j - D.grad x0 θ0 j) (lam θ0 j) = x0 j * (1 + lam θ0 j * gam θ0 j) := (div_eq_iff (hden j).ne').mp (hfix j)
    refine ⟨fun h => (soft_cases (hn0 j).1).1 ?_, fun h => (soft_cases (hn0 j).1).2 ?_⟩
    · rw [h1]; exact mul_pos h (hden j)
    · rw [h1]; exact mul_neg_of_neg_of_pos h (hden j)
  set e : Fin n → (∀ i, P i) → ℝ := fun i θ => if x0 i = 0 then 0 else (1 + lam θ i * gam θ i)⁻¹ with he
  set b : Fin n → (∀ i, P i) → ℝ := fun i θ =>
    if x0 i = 0 then 0 else (if 0 < x0 i then -lam θ i else lam θ i) * (1 + lam θ i * gam θ i)⁻¹ with hb
  have hinv : ∀ i, ContDiffAt ℝ 1 (fun θ => (1 + lam θ i * gam θ i)⁻¹) θ0 := fun i =>
    (contDiffAt_const.add ((hlam i).mul (hgam i))).inv (hden i).ne'
  have ha : LocallyAffine (elasticNetProx lam gam) (x0 - D.grad x0 θ0) θ0 e b := by
    refine ⟨fun i => ?_, fun i => ?_, fun i => ?_⟩
    · by_cases hi : x0 i = 0
      · simp only [he, if_pos hi]; exact contDiffAt_const
      · simp only [he, if_neg hi]; exact hinv i
    · by_cases hi : x0 i = 0
      · simp only [hb, if_pos hi]; exact contDiffAt_const
      · by_cases hpos : 0 < x0 i
        · simp only [hb, if_neg hi, if_pos hpos]; exact (hlam i).neg.mul (hinv i)
        · simp only [hb, if_neg hi, if_neg hpos]; exact (hlam i).mul (hinv i)
    · have hvc : Tendsto (fun v : (∀ i, P i) × (Fin n → ℝ) => v.2 i) (𝓝 (θ0, x0 - D.grad x0 θ0)) (𝓝 (x0 i - D.grad x0 θ0 i)) :=
        ((continuous_apply i).comp continuous_snd).tendsto (θ0, x0 - D.grad x0 θ0)
      have hlc : Tendsto (fun v : (∀ i, P i) × (Fin n → ℝ) => lam v.1 i) (𝓝 (θ0, x0 - D.grad x0 θ0)) (𝓝 (lam θ0 i)) :=
        ((hlam i).continuousAt.tendsto).comp (continuous_fst.tendsto (θ0, x0 - D.grad x0 θ0))
      have hne : ∀ᶠ v : (∀ i, P i) × (Fin n → ℝ) in 𝓝 (θ0, x0 - D.grad x0 θ0), ∀ j, 0 ≤ lam v.1 j ∧ 0 ≤ gam v.1 j :=
        (continuous_fst.tendsto (θ0, x0 - D.grad x0 θ0)).eventually hnn
      by_cases hi : x0 i = 0
      · have hlt : |x0 i - D.grad x0 θ0 i| < lam θ0 i := by rw [hi, zero_sub, abs_neg]; exact hstrict i hi
        filter_upwards [hvc.abs.eventually_lt hlc hlt] with v h1
        simp only [elasticNetProx, proxElasticNet, one_mul, he, hb, if_pos hi, zero_mul, add_zero]
        rw [soft_zero h1.le, zero_div]
      · rcases lt_or_gt_of_ne hi with hneg | hpos
        · filter_upwards [hvc.eventually_lt hlc.neg ((hv i).2 hneg), hne] with v h1 h2
          simp only [elasticNetProx, proxElasticNet, one_mul, he, hb, if_neg hi, if_neg hneg.not_gt]
          rw [soft_neg (h2 i).1 h1, div_eq_mul_inv]
          ring
        · filter_upwards [hlc.eventually_lt hvc ((hv i).1 hpos), hne] with v h1 h2
          simp only [elasticNetProx, proxElasticNet, one_mul, he, hb, if_neg hi, if_pos hpos]
          rw [soft_pos (h2 i).1 h1, div_eq_mul_inv]
          ring
  refine C127_general (C := fun _ => Set.univ) (h := fun θ x => ∑ j, lam θ j * (|x j| + gam θ j * (1 / 2) * x j ^ 2)) hD hg
    (hnn.mono fun θ h => hp θ h) ha hmin (fun d hd0 hd => ?_) (fun _ x => SameSigns x x0) ?_
  · have hz : ∀ i, x0 i = 0 → d i = 0 := fun i hi => hd i (by simp only [he, if_pos hi])
    have e1 : ∑ i, ((e i θ0)⁻¹ - 1) * d i ^ 2 = ∑ i, lam θ0 i * gam θ0 i * d i ^ 2 := by
      refine Finset.sum_congr rfl fun i _ => ?_
      by_cases hi : x0 i = 0
      · rw [hz i hi]; ring
      · simp only [he, if_neg hi, inv_inv]; ring
    rw [e1]
    exact hcurv d hd0 hz
  · have hall : ∀ᶠ v : (∀ i, P i) × (Fin n → ℝ) in 𝓝 (θ0, x0), ∀ i, (0 < x0 i → 0 < v.2 i) ∧ (x0 i < 0 → v.2 i < 0) := by
      rw [eventually_all]
      intro i
      have hc : Tendsto (fun v : (∀ i, P i) × (Fin n → ℝ) => v.2 i) (𝓝 (θ0, x0)) (𝓝 (x0 i)) :=
        ((continuous_apply i).comp continuous_snd).tendsto (θ0, x0)
      rcases lt_trichotomy (x0 i) 0 with h | h | h
      · filter_upwards [hc.eventually_lt_const h] with v hv
        exact ⟨fun h' => absurd h' h.not_gt, fun _ => hv⟩
      · exact Eventually.of_forall fun v => ⟨fun h' => absurd h' (by rw [h]; exact lt_irrefl _), fun h' => absurd h' (by rw [h]; exact lt_irrefl _)⟩
      · filter_upwards [hc.eventually_const_lt h] with v hv
        exact ⟨fun _ => hv, fun h' => absurd h' h.not_gt⟩
    filter_upwards [hall] with v hv1 heq j
    rcases lt_trichotomy (x0 j) 0 with h | h | h
    · have := (hv1 j).2 h
      exact ⟨⟨fun h' => absurd h' this.ne, fun h' => absurd h' h.ne⟩, ⟨fun h' => absurd h' this.not_gt, fun h' => absurd h' h.not_gt⟩, ⟨fun _ => h, fun _ => this⟩⟩
    · have h1 := heq j
      simp only [he, hb, if_pos h, zero_mul, add_zero] at h1
      rw [h, h1]
      simp
    · have := (hv1 j).1 h
      exact ⟨⟨fun h' => absurd h' this.ne', fun h' => absurd h' h.ne'⟩, ⟨fun _ => h, fun _ => this⟩, ⟨fun h' => absurd h' this.not_gt, fun h' => absurd h' h.not_gt⟩⟩

/-- **C127, lasso**. -/
theorem C127_lasso {l : (∀ i, P i) → Fin n → ℝ} (hD : D.ConvexNear θ0) (hg : D.C2At x0 θ0 H) (hl : ∀ j, ContDiffAt ℝ 1 (fun θ => l θ j) θ0)
    (hnn : ∀ᶠ θ in 𝓝 θ0, ∀ j, 0 ≤ l θ j) (hmin : IsMin Set.univ (fun x => D.f x θ0 + ∑ j, l θ0 j * |x j|) x0)
    (hstrict : ∀ j, x0 j = 0 → |D.grad x0 θ0 j| < l θ0 j)
    (hcurv : ∀ d : Fin n → ℝ, d ≠ 0 → (∀ i, x0 i = 0 → d i = 0) → 0 < ∑ i, d i * ∑ j, H i j * d j) :
    Differentiates (D.proxRoot (lassoProx l) o) (fun _ => Set.univ) (fun θ x => D.f x θ + ∑ j, l θ j * |x j|) x0 θ0 fun _ x => SameSigns x x0 := by
  have e1 : lassoProx l = elasticNetProx l (fun _ _ => 0) := by
    funext x θ s i
    simp only [lassoProx, elasticNetProx, proxLasso, proxElasticNet, proxL1, mul_zero, add_zero, div_one]
    rw [mul_comm (l θ i)]
  have e2 : ∀ (θ : ∀ i, P i) (x : Fin n → ℝ), ∑ j, l θ j * (|x j| + 0 * (1 / 2) * x j ^ 2) = ∑ j, l θ j * |x j| := fun θ x =>
    Finset.sum_congr rfl fun j _ => by ring
  have := C127_elastic_net (o := o) (lam := l) (gam := fun _ _ => 0) hD hg hl (fun _ => contDiffAt_const)
    (hnn.mono fun θ h j => ⟨h j, le_rfl⟩) (by simpa only [e2] using hmin) hstrict (fun d h1 h2 => by
      simpa only [mul_zero, zero_mul, Finset.sum_const_zero, add_zero] using hcurv d h1 h2)
  rw [e1]
  simpa only [e2] using this

/-! ## Bounds -/

/-- **C127, bound constraints**: `x0` minimises `f(x, θ0)` between the bounds, the derivative of `f` is not zero at active bounds, and `f` is strictly curved at
`x0` on the other coordinates.  Then the minimiser is unique and differentiable near `θ0`, it keeps its active bounds, and implicit differentiation of
`ProjectedGradient.optimality_fun` gives its derivative. -/
theorem C127_box {lower upper : (∀ i, P i) → Fin n → ℝ} (hD : D.ConvexNear θ0) (hg : D.C2At x0 θ0 H)
    (hlo : ∀ j, ContDiffAt ℝ 1 (fun θ => lower θ j) θ0) (hup : ∀ j, ContDiffAt ℝ 1 (fun θ => upper θ j) θ0)
    (hb : ∀ᶠ θ in 𝓝 θ0, ∀ j, lower θ j ≤ upper θ j)
    (hmin : IsMin {x | ∀ j, lower θ0 j ≤ x j ∧ x j ≤ upper θ0 j} (fun x => D.f x θ0) x0)
    (hstrict : ∀ j, (lower θ0 j < x0 j ∧ x0 j < upper θ0 j) ∨ D.grad x0 θ0 j ≠ 0)
    (hcurv : ∀ d : Fin n → ℝ, d ≠ 0 → (∀ i, D.grad x0 θ0 i ≠ 0 → d i = 0) → 0 < ∑ i, d i * ∑ j, H i j * d j) :
    Differentiates (D.proxRoot (boxProx lower upper) o) (fun θ => {x | ∀ j, lower θ j ≤ x j ∧ x j ≤ upper θ j}) (fun θ x => D.f x θ) x0 θ0
      fun θ x => ∀ j, (0 < D.grad x0 θ0 j → x j = lower θ j) ∧ (D.grad x0 θ0 j < 0 → x j = upper θ j) ∧
        (D.grad x0 θ0 j = 0 → lower θ j < x j ∧ x j < upper θ j) := by
  have hb0 := hb.self_of_nhds
  have hconv : ∀ θ, Convex ℝ {x : Fin n → ℝ | ∀ j, lower θ j ≤ x j ∧ x j ≤ upper θ j} := fun θ => convex_box
  have hp : ∀ θ, (∀ j, lower θ j ≤ upper θ j) → IsProx dot {x : Fin n → ℝ | ∀ j, lower θ j ≤ x j ∧ x j ≤ upper θ j} (fun _ => 0)
      (fun x s => boxProx lower upper x θ s) ∧ ConvexOn ℝ {x : Fin n → ℝ | ∀ j, lower θ j ≤ x j ∧ x j ≤ upper θ j} (fun _ => (0 : ℝ)) :=
    fun θ h => ⟨isProx_of_isUniqueProj fun x => C07_box x (lower θ) (upper θ) h, convexOn_const 0 (hconv θ)⟩
  have hmin0 : IsMin {x | ∀ j, lower θ0 j ≤ x j ∧ x j ≤ upper θ0 j} (fun x => D.f x θ0 + (fun _ => (0 : ℝ)) x) x0 := by
    simpa only [add_zero] using hmin
  have hfix : ∀ j, clip (x0 j - D.grad x0 θ0 j) (lower θ0 j) (upper θ0 j) = x0 j := by
    intro j
    have h1 := (fixed_iff isVdot_dot (hp θ0 hb0).1 (hp θ0 hb0).2 x0 (D.grad x0 θ0) one_pos).mpr
      ⟨hmin0.1, fun u hu => first_order (hD.self_of_nhds.1 _ _) (hp θ0 hb0).2 hmin0 hu⟩
    have h2 := congrFun h1 j
    simpa only [boxProx, makeProxFromProjection, projectionBox, Pi.add_apply, Pi.smul_apply, smul_eq_mul, neg_mul, one_mul, ← sub_eq_add_neg] using h2
  have hlow : ∀ j, 0 < D.grad x0 θ0 j → x0 j = lower θ0 j := by
    intro j hj
    have h1 := hfix j
    have h2 := hb0 j
    simp only [clip] at h1
    rcases max_cases (x0 j - D.grad x0 θ0 j) (lower θ0 j) with h3 | h3 <;> rcases min_cases (max (x0 j - D.grad x0 θ0 j) (lower θ0 j)) (upper θ0 j) with h4 | h4 <;>
      linarith [h3.1, h3.2, h4.1, h4.2]
  have hupp : ∀ j, D.grad x0 θ0 j < 0 → x0 j = upper θ0 j := by
    intro j hj
    have h1 := hfix j
    have h2 := hb0 j
    simp only [clip] at h1
    rcases max_cases (x0 j - D.grad x0 θ0 j) (lower θ0 j) with h3 | h3 <;> rcases min_cases (max (x0 j - D.grad x0 θ0 j) (lower θ0 j)) (upper θ0 j) with h4 | h4 <;>
      linarith [h3.1, h3.2, h4.1, h4.2]
  set e : Fin n → (∀ i, P i) → ℝ := fun i θ => if D.grad x0 θ0 i = 0 then 1 else 0 with he
  set b : Fin n → (∀ i, P i) → ℝ := fun i θ => if D.grad x0 θ0 i = 0 then 0 else if 0 < D.grad x0 θ0 i then lower θ i else upper θ i with hbd
  have ha : LocallyAffine (boxProx lower upper) (x0 - D.grad x0 θ0) θ0 e b := by
    refine ⟨fun i => contDiffAt_const, fun i => ?_, fun i => ?_⟩
    · by_cases hi : D.grad x0 θ0 i = 0
      · simp only [hbd, if_pos hi]; exact contDiffAt_const
      · by_cases hpos : 0 < D.grad x0 θ0 i
        · simp only [hbd, if_neg hi, if_pos hpos]; exact hlo i
        · simp only [hbd, if_neg hi, if_neg hpos]; exact hup i
    · have hvc : Tendsto (fun v : (∀ i, P i) × (Fin n → ℝ) => v.2 i) (𝓝 (θ0, x0 - D.grad x0 θ0)) (𝓝 (x0 i - D.grad x0 θ0 i)) :=
        ((continuous_apply i).comp continuous_snd).tendsto (θ0, x0 - D.grad x0 θ0)
      have hlc : Tendsto (fun v : (∀ i, P i) × (Fin n → ℝ) => lower v.1 i) (𝓝 (θ0, x0 - D.grad x0 θ0)) (𝓝 (lower θ0 i)) :=
        ((hlo i).continuousAt.tendsto).comp (continuous_fst.tendsto (θ0, x0 - D.grad x0 θ0))
      have huc : Tendsto (fun v : (∀ i, P i) × (Fin n → ℝ) => upper v.1 i) (𝓝 (θ0, x0 - D.grad x0 θ0)) (𝓝 (upper θ0 i)) :=
        ((hup i).continuousAt.tendsto).comp (continuous_fst.tendsto (θ0, x0 - D.grad x0 θ0))
      have hne : ∀ᶠ v : (∀ i, P i) × (Fin n → ℝ) in 𝓝 (θ0, x0 - D.grad x0 θ0), ∀ j, lower v.1 j ≤ upper v.1 j :=
        (continuous_fst.tendsto (θ0, x0 - D.grad x0 θ0)).eventually hb
      have hval : ∀ v : (∀ i, P i) × (Fin n → ℝ), boxProx lower upper v.2 v.1 1 i = min (max (v.2 i) (lower v.1 i)) (upper v.1 i) := fun v => rfl
      by_cases hi : D.grad x0 θ0 i = 0
      · obtain ⟨h1, h2⟩ := (hstrict i).resolve_right (not_not.mpr hi)
        have e0 : x0 i - D.grad x0 θ0 i = x0 i := by rw [hi, sub_zero]
        filter_upwards [hlc.eventually_lt hvc (by rw [e0]; exact h1), hvc.eventually_lt huc (by rw [e0]; exact h2)] with v h3 h4
        rw [hval, max_eq_left h3.le, min_eq_left h4.le]
        simp only [he, hbd, if_pos hi, one_mul, add_zero]
      · by_cases hpos : 0 < D.grad x0 θ0 i
        · filter_upwards [hvc.eventually_lt hlc (by rw [hlow i hpos]; linarith), hne] with v h3 h4
          rw [hval, max_eq_right h3.le, min_eq_left (h4 i)]
          simp only [he, hbd, if_neg hi, if_pos hpos, zero_mul, zero_add]
        · have hneg : D.grad x0 θ0 i < 0 := lt_of_le_of_ne (not_lt.mp hpos) hi
          filter_upwards [huc.eventually_lt hvc (by rw [hupp i hneg]; linarith)] with v h3
          rw [hval, min_eq_right (le_trans h3.le (le_max_left _ _))]
          simp only [he, hbd, if_neg hi, if_neg hpos, zero_mul, zero_add]
  have hmain := C127_general (o := o) (C := fun θ => {x | ∀ j, lower θ j ≤ x j ∧ x j ≤ upper θ j}) (h := fun _ _ => 0) hD hg
    (hb.mono fun θ h => hp θ h) ha hmin0 (fun d hd0 hd => by
      have hz : ∀ i, D.grad x0 θ0 i ≠ 0 → d i = 0 := fun i hi => hd i (by simp only [he, if_neg hi])
      have e1 : ∑ i, ((e i θ0)⁻¹ - 1) * d i ^ 2 = 0 := by
        refine Finset.sum_eq_zero fun i _ => ?_
        by_cases hi : D.grad x0 θ0 i = 0
        · simp only [he, if_pos hi, inv_one, sub_self, zero_mul]
        · rw [hz i hi]; ring
      rw [e1, add_zero]
      exact hcurv d hd0 hz)
    (fun θ x => ∀ j, (0 < D.grad x0 θ0 j → x j = lower θ j) ∧ (D.grad x0 θ0 j < 0 → x j = upper θ j) ∧
        (D.grad x0 θ0 j = 0 → lower θ j < x j ∧ x j < upper θ j)) (by
      have hall : ∀ᶠ v : (∀ i, P i) × (Fin n → ℝ) in 𝓝 (θ0, x0), ∀ i, D.grad x0 θ0 i = 0 → lower v.1 i < v.2 i ∧ v.2 i < upper v.1 i := by
        rw [eventually_all]
        intro i
        by_cases hi : D.grad x0 θ0 i = 0
        · obtain ⟨h1, h2⟩ := (hstrict i).resolve_right (not_not.mpr hi)
          have hvc : Tendsto (fun v : (∀ i, P i) × (Fin n → ℝ) => v.2 i) (𝓝 (θ0, x0)) (𝓝 (x0 i)) :=
            ((continuous_apply i).comp continuous_snd).tendsto (θ0, x0)
          have hlc : Tendsto (fun v : (∀ i, P i) × (Fin n → ℝ) => lower v.1 i) (𝓝 (θ0, x0)) (𝓝 (lower θ0 i)) :=
            ((hlo i).continuousAt.tendsto).comp (continuous_fst.tendsto (θ0, x0))
          have huc : Tendsto (fun v : (∀ i, P i) × (Fin n → ℝ) => upper v.1 i) (𝓝 (θ0, x0)) (𝓝 (upper θ0 i)) :=
            ((hup i).continuousAt.tendsto).comp (continuous_fst.tendsto (θ0, x0))
          filter_upwards [hlc.eventually_lt hvc h1, hvc.eventually_lt huc h2] with v h3 h4 _
          exact ⟨h3, h4⟩
        · exact Eventually.of_forall fun v h => absurd h hi
      filter_upwards [hall] with v hv1 heq j
      refine ⟨fun h => ?_, fun h => ?_, fun h => hv1 j h⟩
      · have := heq j
        simpa only [he, hbd, if_neg h.ne', if_pos h, zero_mul, zero_add] using this
      · have := heq j
        simpa only [he, hbd, if_neg h.ne, if_neg h.not_gt, zero_mul, zero_add] using this)
  simpa only [add_zero] using hmain

end penalties

/-! ## Non-degeneracy is necessary -/

theorem IsUniqueMin.unique {V : Type*} {C : Set V} {obj : V → ℝ} {x y : V} (hx : IsUniqueMin C obj x) (hy : IsUniqueMin C obj y) : x = y := by
  by_contra h
  exact lt_asymm (hx.2 y hy.1 (Ne.symm h)) (hy.2 x hx.1 h)

/-- `f(x, θ) = ½ (x - θ)²` in one dimension. -/
noncomputable def kinkFamily : SmoothFamily 1 (∀ _ : Unit, ℝ) := ⟨fun x θ => 1 / 2 * (x 0 - θ ()) ^ 2, fun x θ _ => x 0 - θ ()⟩

theorem kinkFamily_convexNear (θ0 : ∀ _ : Unit, ℝ) : kinkFamily.ConvexNear θ0 := by
  refine Eventually.of_forall fun θ => ⟨fun x d => ?_, ⟨convex_univ, fun x _ y _ a b ha hb hab => ?_⟩⟩
  · have h1 : HasDerivAt (fun t : ℝ => 1 / 2 * (x 0 + t * d 0 - θ ()) ^ 2) (d 0 * (x 0 - θ ())) 0 := by
      have h2 := (((((hasDerivAt_id' (0 : ℝ)).mul_const (d 0)).const_add (x 0)).sub_const (θ ())).pow 2).const_mul (1 / 2)
      refine h2.congr_deriv ?_
      simp
      ring
    simpa [kinkFamily] using h1
  · obtain rfl : b = 1 - a := by linarith
    simp only [kinkFamily, Pi.add_apply, Pi.smul_apply, smul_eq_mul]
    nlinarith [mul_nonneg (mul_nonneg ha hb) (sq_nonneg (x 0 - y 0))]

theorem kinkFamily_c2 (x0 : Fin 1 → ℝ) (θ0 : ∀ _ : Unit, ℝ) : kinkFamily.C2At x0 θ0 1 := by
  refine ⟨?_, fun i d => ?_⟩
  · rw [contDiffAt_pi]
    intro i
    have h1 : ContDiff ℝ 1 (fun v : (∀ _ : Unit, ℝ) × (Fin 1 → ℝ) => v.2 0 - v.1 ()) := by fun_prop
    exact h1.contDiffAt
  · have h1 : HasDerivAt (fun t : ℝ => x0 0 + t * d 0 - θ0 ()) (d 0) 0 :=
      ((((hasDerivAt_id' (0 : ℝ)).mul_const (d 0)).const_add (x0 0)).sub_const (θ0 ())).congr_deriv (one_mul _)
    rw [Subsingleton.elim i 0]
    simpa [kinkFamily] using h1

theorem kinkFamily_min (θ : ∀ _ : Unit, ℝ) (h : 0 < θ ()) :
    IsUniqueMin Set.univ (fun x => kinkFamily.f x θ + ∑ j : Fin 1, (1 : ℝ) * |x j|) (fun _ => max (θ () - 1) 0) := by
  have h1 := C14_lasso (fun _ : Fin 1 => θ ()) (fun _ => (1 : ℝ)) 1 fun _ => by norm_num
  have e1 : proxLasso (fun _ : Fin 1 => θ ()) (fun _ => (1 : ℝ)) 1 = fun _ => max (θ () - 1) 0 := by
    funext i
    simp only [proxLasso, sgn, relu, if_pos h, abs_of_pos h, one_mul]
  rw [e1] at h1
  refine ⟨trivial, fun y hy hne => ?_⟩
  have h2 := h1.2 y hy hne
  simp only [Fin.sum_univ_one, kinkFamily, one_mul] at h2 ⊢
  have e2 : ∀ z : ℝ, (θ () - z) ^ 2 = (z - θ ()) ^ 2 := fun z => by ring
  rw [e2, e2] at h2
  exact h2

/-- **C127, false without non-degeneracy**: for `½ (x - θ)² + |x|` at `θ = 1` everything else holds, the solution `0` is unique and stays unique near `θ = 1`, but
no map giving the solution is differentiable there. -/
theorem C127_strict_false :
    kinkFamily.ConvexNear (fun _ => 1) ∧ kinkFamily.C2At 0 (fun _ => 1) 1 ∧
      IsUniqueMin Set.univ (fun x => kinkFamily.f x (fun _ => 1) + ∑ j : Fin 1, (1 : ℝ) * |x j|) 0 ∧ |kinkFamily.grad 0 (fun _ => 1) 0| = 1 ∧
      ∀ p : (∀ _ : Unit, ℝ) → EuclideanSpace ℝ (Fin 1),
        (∀ᶠ θ in 𝓝 (fun _ => 1), IsUniqueMin Set.univ (fun x => kinkFamily.f x θ + ∑ j : Fin 1, (1 : ℝ) * |x j|) (p θ).ofLp) →
        ¬DifferentiableAt ℝ p fun _ => 1 := by
  refine ⟨kinkFamily_convexNear _, kinkFamily_c2 _ _, ?_, by simp [kinkFamily], fun p hp hd => ?_⟩
  · have := kinkFamily_min (fun _ => 1) one_pos
    have e0 : (fun _ : Fin 1 => max ((1 : ℝ) - 1) 0) = 0 := by funext i; simp
    rwa [e0] at this
  · have hc : Continuous (fun t : ℝ => (fun _ : Unit => t + 1)) := by fun_prop
    have h1 : ∀ᶠ t : ℝ in 𝓝 0, (p fun _ => t + 1) 0 = max t 0 := by
      have ht : Tendsto (fun t : ℝ => (fun _ : Unit => t + 1)) (𝓝 0) (𝓝 fun _ => 1) := by
        have := hc.tendsto 0
        simpa using this
      filter_upwards [ht.eventually hp, lt_mem_nhds (show (-1 : ℝ) < 0 by norm_num)] with t h2 h3
      have := IsUniqueMin.unique h2 (kinkFamily_min (fun _ => t + 1) (by linarith))
      have := congrFun this 0
      simpa using this
    have h2 : DifferentiableAt ℝ (fun t : ℝ => p fun _ => t + 1) 0 := by
      have h3 : DifferentiableAt ℝ p ((fun t : ℝ => (fun _ : Unit => t + 1)) 0) := by simpa using hd
      exact h3.comp (0 : ℝ) (by fun_prop)
    have h3 : DifferentiableAt ℝ (fun t : ℝ => (p fun _ => t + 1) 0) 0 :=
      (EuclideanSpace.proj (𝕜 := ℝ) (0 : Fin 1)).differentiableAt.comp (0 : ℝ) h2
    have h4 : DifferentiableAt ℝ (fun t : ℝ => max t 0) 0 := h3.congr_of_eventuallyEq (h1.mono fun t ht => ht.symm)
    refine not_differentiableAt_abs_zero ?_
    have h5 : DifferentiableAt ℝ (fun t : ℝ => 2 * max t 0 - t) 0 := (h4.const_mul 2).sub differentiableAt_id
    refine h5.congr_of_eventuallyEq (Eventually.of_forall fun t => ?_)
    show |t| = 2 * max t 0 - t
    rcases le_total 0 t with h | h
    · rw [abs_of_nonneg h, max_eq_left h]; ring
    · rw [abs_of_nonpos h, max_eq_right h]; ring

/-! ## Examples -/

/-- `f(x, θ) = ½ ((x_0 - θ_0)² + (x_1 - θ_1)²)`; the third parameter is the weight of the penalty. -/
noncomputable def exFamily : SmoothFamily 2 (∀ _ : Fin 3, ℝ) :=
  ⟨fun x θ => 1 / 2 * ((x 0 - θ 0) ^ 2 + (x 1 - θ 1) ^ 2), fun x θ => ![x 0 - θ 0, x 1 - θ 1]⟩

theorem exFamily_convexNear (θ0 : ∀ _ : Fin 3, ℝ) : exFamily.ConvexNear θ0 := by
  refine Eventually.of_forall fun θ => ⟨fun x d => ?_, ⟨convex_univ, fun x _ y _ a b ha hb hab => ?_⟩⟩
  · have h1 : ∀ i j, HasDerivAt (fun t : ℝ => (x i + t * d i - θ j) ^ 2) (2 * (d i * (x i - θ j))) 0 := by
      intro i j
      have h2 := ((((hasDerivAt_id' (0 : ℝ)).mul_const (d i)).const_add (x i)).sub_const (θ j)).pow 2
      refine h2.congr_deriv ?_
      simp
      ring
    have h2 := ((h1 0 0).add (h1 1 1)).const_mul (1 / 2)
    refine h2.congr_deriv ?_
    simp [exFamily, Fin.sum_univ_two]
    ring
  · obtain rfl : b = 1 - a := by linarith
    simp only [exFamily, Pi.add_apply, Pi.smul_apply, smul_eq_mul]
    nlinarith [mul_nonneg (mul_nonneg ha hb) (sq_nonneg (x 0 - y 0)), mul_nonneg (mul_nonneg ha hb) (sq_nonneg (x 1 - y 1))]

theorem exFamily_c2 (x0 : Fin 2 → ℝ) (θ0 : ∀ _ : Fin 3, ℝ) : exFamily.C2At x0 θ0 1 := by
  refine ⟨?_, fun i d => ?_⟩
  · rw [contDiffAt_pi]
    intro i
    have h0 : ContDiff ℝ 1 (fun v : (∀ _ : Fin 3, ℝ) × (Fin 2 → ℝ) => v.2 0 - v.1 0) := by fun_prop
    have h1 : ContDiff ℝ 1 (fun v : (∀ _ : Fin 3, ℝ) × (Fin 2 → ℝ) => v.2 1 - v.1 1) := by fun_prop
    fin_cases i
    · exact h0.contDiffAt
    · exact h1.contDiffAt
  · have h1 : ∀ i j, HasDerivAt (fun t : ℝ => x0 i + t * d i - θ0 j) (d i) 0 := fun i j =>
      ((((hasDerivAt_id' (0 : ℝ)).mul_const (d i)).const_add (x0 i)).sub_const (θ0 j)).congr_deriv (one_mul _)
    fin_cases i
    · have := h1 0 0
      simpa [exFamily, Matrix.one_apply, Fin.sum_univ_two] using this
    · have := h1 1 1
      simpa [exFamily, Matrix.one_apply, Fin.sum_univ_two] using this

theorem exFamily_curv (d : Fin 2 → ℝ) (hd : d ≠ 0) : 0 < ∑ i, d i * ∑ j, (1 : Matrix (Fin 2) (Fin 2) ℝ) i j * d j := by
  have e1 : ∑ i, d i * ∑ j, (1 : Matrix (Fin 2) (Fin 2) ℝ) i j * d j = d 0 ^ 2 + d 1 ^ 2 := by
    simp [Matrix.one_apply, Fin.sum_univ_two]
    ring
  rw [e1]
  by_contra hc
  apply hd
  have h0 : d 0 = 0 := by nlinarith [sq_nonneg (d 0), sq_nonneg (d 1)]
  have h1 : d 1 = 0 := by nlinarith [sq_nonneg (d 0), sq_nonneg (d 1)]
  funext i
  fin_cases i
  · exact h0
  · exact h1

/-- At `θ = (3, 1/2, 1)` the lasso solution is `(2, 0)`; it is differentiable in all three parameters. -/
example (o : PG ℝ (Fin 2 → ℝ)) : Differentiates (exFamily.proxRoot (lassoProx fun θ _ => θ 2) o) (fun _ => Set.univ)
    (fun θ x => exFamily.f x θ + ∑ j : Fin 2, θ 2 * |x j|) ![2, 0] ![3, 1 / 2, 1] fun _ x => SameSigns x ![2, 0] := by
  refine C127_lasso (H := 1) (exFamily_convexNear _) (exFamily_c2 _ _) (fun j => ?_) ?_ ⟨trivial, fun y _ => ?_⟩ (fun j hj => ?_)
    fun d hd _ => exFamily_curv d hd
  · have : ContDiff ℝ 1 (fun θ : ∀ _ : Fin 3, ℝ => θ 2) := by fun_prop
    exact this.contDiffAt
  · have hc : ContinuousAt (fun θ : ∀ _ : Fin 3, ℝ => θ 2) ![3, 1 / 2, 1] := (continuous_apply (2 : Fin 3)).continuousAt
    filter_upwards [hc.eventually (lt_mem_nhds (show (0 : ℝ) < (![3, 1 / 2, 1] : Fin 3 → ℝ) 2 by simp))] with θ h j
    exact h.le
  · simp only [exFamily, Fin.sum_univ_two]
    simp
    nlinarith [le_abs_self (y 0), abs_nonneg (y 1), le_abs_self (y 1), sq_nonneg (y 0 - 2), sq_nonneg (y 1)]
  · fin_cases j
    · simp at hj
    · simp [exFamily]
      norm_num

/-- At `θ = (3, 1/2, 1)` the solution with bounds `0 ≤ x ≤ θ_2` is `(1, 1/2)`: one bound is active and the other coordinate is free. -/
example (o : PG ℝ (Fin 2 → ℝ)) : Differentiates (exFamily.proxRoot (boxProx (fun _ _ => 0) fun θ _ => θ 2) o)
    (fun θ => {x | ∀ j, 0 ≤ x j ∧ x j ≤ θ 2}) (fun θ x => exFamily.f x θ) ![1, 1 / 2] ![3, 1 / 2, 1]
    fun θ x => ∀ j, (0 < exFamily.grad ![1, 1 / 2] ![3, 1 / 2, 1] j → x j = 0) ∧ (exFamily.grad ![1, 1 / 2] ![3, 1 / 2, 1] j < 0 → x j = θ 2) ∧
      (exFamily.grad ![1, 1 / 2] ![3, 1 / 2, 1] j = 0 → 0 < x j ∧ x j < θ 2) := by
  refine C127_box (H := 1) (lower := fun _ _ => 0) (upper := fun θ _ => θ 2) (exFamily_convexNear _) (exFamily_c2 _ _) (fun _ => contDiffAt_const)
    (fun j => ?_) ?_ ⟨fun j => ?_, fun y hy => ?_⟩ (fun j => ?_) fun d hd _ => exFamily_curv d hd
  · have : ContDiff ℝ 1 (fun θ : ∀ _ : Fin 3, ℝ => θ 2) := by fun_prop
    exact this.contDiffAt
  · have hc : ContinuousAt (fun θ : ∀ _ : Fin 3, ℝ => θ 2) ![3, 1 / 2, 1] := (continuous_apply (2 : Fin 3)).continuousAt
    filter_upwards [hc.eventually (lt_mem_nhds (show (0 : ℝ) < (![3, 1 / 2, 1] : Fin 3 → ℝ) 2 by simp))] with θ h j
    exact h.le
  · fin_cases j
    · simp
    · constructor <;> simp
      norm_num
  · have h0 := (hy 0).2
    simp at h0
    simp [exFamily]
    nlinarith [sq_nonneg (y 1 - 1 / 2)]
  · fin_cases j
    · right
      simp [exFamily]
      norm_num
    · left
      constructor <;> simp
      norm_num

end Jaxopt.Implicit
