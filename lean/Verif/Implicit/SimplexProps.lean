import Verif.Implicit.SimplexRoot
import Verif.Implicit.ProxProps
import Verif.Proj.JvpProps
import Verif.Mirror.Props
import Mathlib.Analysis.SpecialFunctions.Log.Deriv
import Mathlib.Analysis.SpecialFunctions.ExpDeriv

/-!
# Property C129: implicit differentiation on the simplex, with a group penalty, and for every smooth proximal operator
-/

set_option autoImplicit false
set_option linter.unusedSectionVars false
set_option linter.unusedVariables false

namespace Jaxopt.Implicit

open Jaxopt.ProxGrad Jaxopt.Prox Jaxopt.Proj Jaxopt.Mirror ContinuousLinearMap Filter Topology

variable {ι : Type*} [Fintype ι] [DecidableEq ι]
variable {P : ι → Type*} [∀ i, NormedAddCommGroup (P i)] [∀ i, InnerProductSpace ℝ (P i)] [∀ i, CompleteSpace (P i)]
variable {n : ℕ}

/-! ## Any function whose roots are the points satisfying the first-order condition -/

theorem differentiates_of_first_order {D : SmoothFamily n (∀ i, P i)} {F : EuclideanSpace ℝ (Fin n) → (∀ i, P i) → EuclideanSpace ℝ (Fin n)}
    {C : (∀ i, P i) → Set (Fin n → ℝ)} {h : (∀ i, P i) → (Fin n → ℝ) → ℝ} {x0 : Fin n → ℝ} {θ0 : ∀ i, P i}
    (hF : ContDiffAt ℝ 1 (fun v : (∀ i, P i) × EuclideanSpace ℝ (Fin n) => F v.2 v.1) (θ0, WithLp.toLp 2 x0))
    (hinj : ∀ d, fderiv ℝ (fun s => F s θ0) (WithLp.toLp 2 x0) d = 0 → d = 0) (hD : D.ConvexNear θ0)
    (hconv : ∀ᶠ θ in 𝓝 θ0, ConvexOn ℝ (C θ) (h θ))
    (hchar : ∀ᶠ v : (∀ i, P i) × EuclideanSpace ℝ (Fin n) in 𝓝 (θ0, WithLp.toLp 2 x0), F v.2 v.1 = 0 ↔
      v.2.ofLp ∈ C v.1 ∧ ∀ u ∈ C v.1, h v.1 v.2.ofLp ≤ h v.1 u + dot (u - v.2.ofLp) (D.grad v.2.ofLp v.1))
    (hmin : IsMin (C θ0) (fun x => D.f x θ0 + h θ0 x) x0) (near : (∀ i, P i) → (Fin n → ℝ) → Prop)
    (hnear : ∀ᶠ v : (∀ i, P i) × EuclideanSpace ℝ (Fin n) in 𝓝 (θ0, WithLp.toLp 2 x0), F v.2 v.1 = 0 → near v.1 v.2.ofLp) :
    Differentiates F C (fun θ x => D.f x θ + h θ x) x0 θ0 near := by
  have h0 : F (WithLp.toLp 2 x0) θ0 = 0 :=
    hchar.self_of_nhds.mpr ⟨hmin.1, fun u hu => first_order (hD.self_of_nhds.1 _ _) hconv.self_of_nhds hmin hu⟩
  obtain ⟨p, hp0, hroot, hiff⟩ := exists_branch hF h0 hinj
  have hgraph : Tendsto (fun θ => (θ, p θ)) (𝓝 θ0) (𝓝 (θ0, WithLp.toLp 2 x0)) := by
    have h2 : ContinuousAt (fun θ => (θ, p θ)) θ0 := continuousAt_id.prodMk hroot.diffx.continuousAt
    have := h2.tendsto
    rwa [hp0] at this
  refine ⟨p, by rw [hp0], hroot.diffx, ?_, fun solve hs => ⟨fun t => C41_jvp hroot hs t, fun w i => C41_vjp hroot hs w i⟩⟩
  filter_upwards [hroot.root, hgraph.eventually (eventually_eventually_nhds.mpr hiff), hgraph.eventually (eventually_eventually_nhds.mpr hchar), hD, hconv,
    hgraph.eventually hnear] with θ h1 h2 h3 h4 h5 h6
  have hfo := h3.self_of_nhds.mp h1
  refine ⟨⟨hfo.1, fun y hy hne => ?_⟩, h6 h1⟩
  obtain ⟨hle, hseg⟩ := segment_first_order h4.1 h4.2 h5 hfo.1 hfo.2 hy
  refine lt_of_le_of_ne hle fun heq => hne ?_
  have hcurve : Tendsto (fun t : ℝ => (θ, p θ + t • (WithLp.toLp 2 y - p θ))) (𝓝[>] 0) (𝓝 (θ, p θ)) := by
    have hc : Continuous (fun t : ℝ => (θ, p θ + t • (WithLp.toLp 2 y - p θ))) := by fun_prop
    have := (hc.tendsto 0).mono_left (nhdsWithin_le_nhds (s := Set.Ioi 0))
    simpa using this
  obtain ⟨t, ⟨ht, ht'⟩, ht0, ht1⟩ := (((hcurve.eventually h2).and (hcurve.eventually h3)).and (Ioc_mem_nhdsGT (zero_lt_one' ℝ))).exists
  have hz := ht'.mpr (hseg heq.symm t ht0.le ht1)
  have e1 := ht.mp hz
  simp only at e1
  have e2 : t • (WithLp.toLp 2 y - p θ) = 0 := by
    have := e1.symm
    rwa [add_eq_left] at this
  rcases smul_eq_zero.mp e2 with h7 | h7
  · exact absurd h7 ht0.ne'
  · have := sub_eq_zero.mp h7
    rw [← this]

/-! ## Proximal operators -/

/-- The operator with unit scaling is continuously differentiable in the point and the parameters at `(v0, θ0)`; its derivative in the point is `A`. -/
structure SmoothProx (prox : (Fin n → ℝ) → (∀ i, P i) → ℝ → Fin n → ℝ) (v0 : Fin n → ℝ) (θ0 : ∀ i, P i) (A : (Fin n → ℝ) →L[ℝ] (Fin n → ℝ)) : Prop where
  diff : ContDiffAt ℝ 1 (fun v : (∀ i, P i) × (Fin n → ℝ) => prox v.2 v.1 1) (θ0, v0)
  deriv : HasFDerivAt (fun v => prox v θ0 1) A v0

section general
variable {D : SmoothFamily n (∀ i, P i)} {prox : (Fin n → ℝ) → (∀ i, P i) → ℝ → Fin n → ℝ} {o : PG ℝ (Fin n → ℝ)} {x0 : Fin n → ℝ} {θ0 : ∀ i, P i}
  {H : Matrix (Fin n) (Fin n) ℝ} {A : (Fin n → ℝ) →L[ℝ] (Fin n → ℝ)}

theorem ofLp_contDiff : ContDiff ℝ 1 (fun s : EuclideanSpace ℝ (Fin n) => s.ofLp) := by
  rw [contDiff_pi]
  exact fun i => (EuclideanSpace.proj (𝕜 := ℝ) i).contDiff

theorem grad_contDiffAt (hg : D.C2At x0 θ0 H) :
    ContDiffAt ℝ 1 (fun v : (∀ i, P i) × EuclideanSpace ℝ (Fin n) => D.grad v.2.ofLp v.1) (θ0, WithLp.toLp 2 x0) :=
  ContDiffAt.comp (g := fun v : (∀ i, P i) × (Fin n → ℝ) => D.grad v.2 v.1) (f := fun v : (∀ i, P i) × EuclideanSpace ℝ (Fin n) => (v.1, v.2.ofLp))
    (θ0, WithLp.toLp 2 x0) hg.grad_diff (contDiffAt_fst.prodMk ((ofLp_contDiff.contDiffAt).comp _ contDiffAt_snd))

theorem toLp_contDiffAt {G : (∀ i, P i) × EuclideanSpace ℝ (Fin n) → Fin n → ℝ} {v : (∀ i, P i) × EuclideanSpace ℝ (Fin n)} (h : ContDiffAt ℝ 1 G v) :
    ContDiffAt ℝ 1 (fun v => WithLp.toLp 2 (G v) : (∀ i, P i) × EuclideanSpace ℝ (Fin n) → EuclideanSpace ℝ (Fin n)) v := by
  rw [contDiffAt_euclidean]
  exact fun i => contDiffAt_pi.mp h i

theorem proxRoot_smooth (hg : D.C2At x0 θ0 H) (ha : SmoothProx prox (x0 - D.grad x0 θ0) θ0 A) :
    ContDiffAt ℝ 1 (fun v : (∀ i, P i) × EuclideanSpace ℝ (Fin n) => D.proxRoot prox o v.2 v.1) (θ0, WithLp.toLp 2 x0) := by
  have hx : ContDiffAt ℝ 1 (fun v : (∀ i, P i) × EuclideanSpace ℝ (Fin n) => v.2.ofLp) (θ0, WithLp.toLp 2 x0) :=
    (ofLp_contDiff.contDiffAt).comp _ contDiffAt_snd
  have hp : ContDiffAt ℝ 1 (fun v : (∀ i, P i) × EuclideanSpace ℝ (Fin n) => prox (v.2.ofLp - D.grad v.2.ofLp v.1) v.1 1) (θ0, WithLp.toLp 2 x0) :=
    ContDiffAt.comp (g := fun v : (∀ i, P i) × (Fin n → ℝ) => prox v.2 v.1 1)
      (f := fun v : (∀ i, P i) × EuclideanSpace ℝ (Fin n) => (v.1, v.2.ofLp - D.grad v.2.ofLp v.1)) (θ0, WithLp.toLp 2 x0) ha.diff
      (contDiffAt_fst.prodMk (hx.sub (grad_contDiffAt hg)))
  exact toLp_contDiffAt (hp.sub hx)

/-- The derivative of a coordinate of the gradient along a direction. -/
theorem grad_hasFDerivAt (hg : D.C2At x0 θ0 H) :
    ∃ G : (Fin n → ℝ) →L[ℝ] (Fin n → ℝ), HasFDerivAt (fun x => D.grad x θ0) G x0 ∧ ∀ d, G d = H.mulVec d := by
  have hd : DifferentiableAt ℝ (fun x => D.grad x θ0) x0 := by
    have h1 := hg.grad_diff.differentiableAt (by norm_num)
    exact DifferentiableAt.comp x0 (f := fun x => (θ0, x)) h1 (by fun_prop)
  refine ⟨_, hd.hasFDerivAt, fun d => funext fun i => ?_⟩
  have hl0 : x0 + (0 : ℝ) • d = x0 := by simp
  have hline : HasDerivAt (fun t : ℝ => x0 + t • d) d 0 := by
    have := ((hasDerivAt_id (0 : ℝ)).smul_const d).const_add x0
    simpa using this
  have h1 : HasFDerivAt (fun x => D.grad x θ0) (fderiv ℝ (fun x => D.grad x θ0) x0) (x0 + (0 : ℝ) • d) := by rw [hl0]; exact hd.hasFDerivAt
  exact (hasDerivAt_pi.mp (h1.comp_hasDerivAt 0 hline) i).unique (hg.hess i d)

theorem proxRoot_fderiv_smooth (hg : D.C2At x0 θ0 H) (ha : SmoothProx prox (x0 - D.grad x0 θ0) θ0 A) (d : EuclideanSpace ℝ (Fin n)) :
    (fderiv ℝ (fun s => D.proxRoot prox o s θ0) (WithLp.toLp 2 x0) d).ofLp = A (d.ofLp - H.mulVec d.ofLp) - d.ofLp := by
  obtain ⟨G, hG, hGd⟩ := grad_hasFDerivAt hg
  have hof : HasFDerivAt (fun s : EuclideanSpace ℝ (Fin n) => s.ofLp) (fderiv ℝ (fun s : EuclideanSpace ℝ (Fin n) => s.ofLp) (WithLp.toLp 2 x0)) (WithLp.toLp 2 x0) :=
    (ofLp_contDiff.differentiable (by norm_num)).differentiableAt.hasFDerivAt
  set E := fderiv ℝ (fun s : EuclideanSpace ℝ (Fin n) => s.ofLp) (WithLp.toLp 2 x0) with hE
  have hEd : ∀ d, E d = d.ofLp := by
    intro d
    have h1 : HasFDerivAt (fun s : EuclideanSpace ℝ (Fin n) => s.ofLp) (EuclideanSpace.equiv (Fin n) ℝ : EuclideanSpace ℝ (Fin n) →L[ℝ] (Fin n → ℝ)) (WithLp.toLp 2 x0) :=
      (EuclideanSpace.equiv (Fin n) ℝ : EuclideanSpace ℝ (Fin n) →L[ℝ] (Fin n → ℝ)).hasFDerivAt
    rw [hE, h1.fderiv]
    rfl
  have hin : HasFDerivAt (fun s : EuclideanSpace ℝ (Fin n) => s.ofLp - D.grad s.ofLp θ0) (E - G.comp E) (WithLp.toLp 2 x0) :=
    hof.sub (HasFDerivAt.comp (WithLp.toLp 2 x0) (g := fun x => D.grad x θ0) hG hof)
  have hall : HasFDerivAt (fun s : EuclideanSpace ℝ (Fin n) => prox (s.ofLp - D.grad s.ofLp θ0) θ0 1 - s.ofLp) (A.comp (E - G.comp E) - E) (WithLp.toLp 2 x0) :=
    (HasFDerivAt.comp (WithLp.toLp 2 x0) (g := fun v => prox v θ0 1) ha.deriv hin).sub hof
  have hdiff : DifferentiableAt ℝ (fun s => D.proxRoot prox o s θ0) (WithLp.toLp 2 x0) := by
    have h1 := (proxRoot_smooth (o := o) hg ha).differentiableAt (by norm_num)
    exact DifferentiableAt.comp (WithLp.toLp 2 x0) (f := fun s => (θ0, s)) h1 (by fun_prop)
  have h2 : HasFDerivAt (fun s => (D.proxRoot prox o s θ0).ofLp)
      ((EuclideanSpace.equiv (Fin n) ℝ : EuclideanSpace ℝ (Fin n) →L[ℝ] (Fin n → ℝ)).comp (fderiv ℝ (fun s => D.proxRoot prox o s θ0) (WithLp.toLp 2 x0)))
      (WithLp.toLp 2 x0) :=
    HasFDerivAt.comp (WithLp.toLp 2 x0) (g := fun s : EuclideanSpace ℝ (Fin n) => s.ofLp)
      (EuclideanSpace.equiv (Fin n) ℝ : EuclideanSpace ℝ (Fin n) →L[ℝ] (Fin n → ℝ)).hasFDerivAt hdiff.hasFDerivAt
  have h3 := h2.unique (f := fun s => (D.proxRoot prox o s θ0).ofLp) hall
  have h4 := congrArg (fun L : EuclideanSpace ℝ (Fin n) →L[ℝ] (Fin n → ℝ) => L d) h3
  simp only [comp_apply, sub_apply, hEd, hGd] at h4
  exact h4

/-- **C129, general form**: `x0` minimises `f + h`, the operator is the proximal operator of the convex `h`, continuously differentiable near the forward point
with derivative `A`, and the Hessian plus the curvature of `h` is positive on the range of `A`. -/
theorem C129_general {C : (∀ i, P i) → Set (Fin n → ℝ)} {h : (∀ i, P i) → (Fin n → ℝ) → ℝ} (hD : D.ConvexNear θ0) (hg : D.C2At x0 θ0 H)
    (hprox : ∀ᶠ θ in 𝓝 θ0, IsProx dot (C θ) (h θ) (fun x s => prox x θ s) ∧ ConvexOn ℝ (C θ) (h θ))
    (ha : SmoothProx prox (x0 - D.grad x0 θ0) θ0 A) (hmin : IsMin (C θ0) (fun x => D.f x θ0 + h θ0 x) x0)
    (hcurv : ∀ w, A w ≠ 0 → 0 < dot (A w) (H.mulVec (A w)) + (dot (A w) w - dot (A w) (A w)))
    (near : (∀ i, P i) → (Fin n → ℝ) → Prop)
    (hnear : ∀ᶠ v : (∀ i, P i) × (Fin n → ℝ) in 𝓝 (θ0, x0), prox (v.2 - D.grad v.2 v.1) v.1 1 = v.2 → near v.1 v.2) :
    Differentiates (D.proxRoot prox o) C (fun θ x => D.f x θ + h θ x) x0 θ0 near := by
  have e1 : ∀ (s : EuclideanSpace ℝ (Fin n)) (θ : ∀ i, P i), s.ofLp + (-1 : ℝ) • D.grad s.ofLp θ = s.ofLp - D.grad s.ofLp θ := fun s θ => by
    rw [neg_smul, one_smul, sub_eq_add_neg]
  refine differentiates_of_first_order (proxRoot_smooth (o := o) hg ha) (fun d hd => ?_) hD (hprox.mono fun θ h => h.2) ?_ hmin near ?_
  · have hrow := proxRoot_fderiv_smooth (o := o) hg ha d
    rw [hd] at hrow
    have hAw : A (d.ofLp - H.mulVec d.ofLp) = d.ofLp := (sub_eq_zero.mp hrow.symm)
    by_contra hne
    have hne' : d.ofLp ≠ 0 := fun h => hne (by ext i; exact congrFun h i)
    have hpos := hcurv (d.ofLp - H.mulVec d.ofLp) (by rw [hAw]; exact hne')
    rw [hAw, isVdot_dot.sub_right] at hpos
    linarith
  · have := (continuous_fst.tendsto (θ0, (WithLp.toLp 2 x0 : EuclideanSpace ℝ (Fin n)))).eventually hprox
    filter_upwards [this] with v hv
    rw [proxRoot_eq_zero_iff]
    exact fixed_iff isVdot_dot hv.1 hv.2 v.2.ofLp (D.grad v.2.ofLp v.1) one_pos
  · have h1 : Continuous (fun v : (∀ i, P i) × EuclideanSpace ℝ (Fin n) => (v.1, v.2.ofLp)) := by fun_prop
    have h2 : Tendsto (fun v : (∀ i, P i) × EuclideanSpace ℝ (Fin n) => (v.1, v.2.ofLp)) (𝓝 (θ0, WithLp.toLp 2 x0)) (𝓝 (θ0, x0)) := h1.tendsto _
    filter_upwards [h2.eventually hnear] with v hv hz
    rw [proxRoot_eq_zero_iff, e1] at hz
    exact hv hz

/-- Proximal operators of convex functions are firmly non-expansive. -/
theorem IsProx.firm {C : Set (Fin n → ℝ)} {h : (Fin n → ℝ) → ℝ} {q : (Fin n → ℝ) → ℝ → Fin n → ℝ} (hp : IsProx dot C h q) (hh : ConvexOn ℝ C h) (x y : Fin n → ℝ) :
    dot (q x 1 - q y 1) (q x 1 - q y 1) ≤ dot (q x 1 - q y 1) (x - y) := by
  have h1 := prox_vi isVdot_dot hp hh x one_pos (hp y 1 one_pos).1
  have h2 := prox_vi isVdot_dot hp hh y one_pos (hp x 1 one_pos).1
  have hv := isVdot_dot (n := n)
  simp only [hv.sub_left, hv.sub_right] at h1 h2 ⊢
  have s1 := hv.symm x (q x 1)
  have s2 := hv.symm x (q y 1)
  have s3 := hv.symm y (q x 1)
  have s4 := hv.symm y (q y 1)
  have s5 := hv.symm (q y 1) (q x 1)
  linarith

/-- So the derivative `A` of a proximal operator satisfies `‖A w‖² ≤ ⟨A w, w⟩`. -/
theorem SmoothProx.firm {C : Set (Fin n → ℝ)} {h : (Fin n → ℝ) → ℝ} {v0 : Fin n → ℝ} (ha : SmoothProx prox v0 θ0 A)
    (hp : IsProx dot C h (fun x s => prox x θ0 s)) (hh : ConvexOn ℝ C h) (w : Fin n → ℝ) : dot (A w) (A w) ≤ dot (A w) w := by
  have hl0 : v0 + (0 : ℝ) • w = v0 := by simp
  have hline : HasDerivAt (fun t : ℝ => v0 + t • w) w 0 := by
    have := ((hasDerivAt_id (0 : ℝ)).smul_const w).const_add v0
    simpa using this
  have h1 : HasFDerivAt (fun v => prox v θ0 1) A (v0 + (0 : ℝ) • w) := by rw [hl0]; exact ha.deriv
  have h2 := (h1.comp_hasDerivAt 0 hline).tendsto_slope_zero_right
  have h3 : Tendsto (fun t : ℝ => t⁻¹ • (prox (v0 + t • w) θ0 1 - prox v0 θ0 1)) (𝓝[>] 0) (𝓝 (A w)) := by
    simpa [Function.comp_def] using h2
  have hdot : Continuous (fun q : (Fin n → ℝ) × (Fin n → ℝ) => dot q.1 q.2) := by
    unfold dot; fun_prop
  have h4 := (hdot.tendsto (A w, A w)).comp (h3.prodMk_nhds h3)
  have h5 := (hdot.tendsto (A w, w)).comp (h3.prodMk_nhds (tendsto_const_nhds (x := w)))
  refine le_of_tendsto_of_tendsto h4 h5 ?_
  filter_upwards [self_mem_nhdsWithin] with t ht
  have ht' : (0 : ℝ) < t := ht
  have := IsProx.firm hp hh (v0 + t • w) v0
  rw [add_sub_cancel_left] at this
  simp only [isVdot_dot.smul_right] at this
  simp only [Function.comp_apply, isVdot_dot.smul_left, isVdot_dot.smul_right]
  rw [← mul_assoc, ← sq]
  have hi : 0 < t⁻¹ := inv_pos.mpr ht'
  have := mul_le_mul_of_nonneg_left this (sq_nonneg t⁻¹)
  refine this.trans (le_of_eq ?_)
  field_simp

/-- **C129**: it is enough that the Hessian is positive definite on the range of the derivative of the operator. -/
theorem C129_range {C : (∀ i, P i) → Set (Fin n → ℝ)} {h : (∀ i, P i) → (Fin n → ℝ) → ℝ} (hD : D.ConvexNear θ0) (hg : D.C2At x0 θ0 H)
    (hprox : ∀ᶠ θ in 𝓝 θ0, IsProx dot (C θ) (h θ) (fun x s => prox x θ s) ∧ ConvexOn ℝ (C θ) (h θ))
    (ha : SmoothProx prox (x0 - D.grad x0 θ0) θ0 A) (hmin : IsMin (C θ0) (fun x => D.f x θ0 + h θ0 x) x0)
    (hcurv : ∀ d ∈ Set.range A, d ≠ 0 → 0 < dot d (H.mulVec d)) (near : (∀ i, P i) → (Fin n → ℝ) → Prop)
    (hnear : ∀ᶠ v : (∀ i, P i) × (Fin n → ℝ) in 𝓝 (θ0, x0), prox (v.2 - D.grad v.2 v.1) v.1 1 = v.2 → near v.1 v.2) :
    Differentiates (D.proxRoot prox o) C (fun θ x => D.f x θ + h θ x) x0 θ0 near := by
  refine C129_general hD hg hprox ha hmin (fun w hw => ?_) near hnear
  have h1 := hcurv (A w) ⟨w, rfl⟩ hw
  have h2 := ha.firm hprox.self_of_nhds.1 hprox.self_of_nhds.2 w
  linarith

end general

/-! ## The simplex -/

section simplex
variable {D : SmoothFamily n (∀ i, P i)} {o : PG ℝ (Fin n → ℝ)} {x0 : Fin n → ℝ} {θ0 : ∀ i, P i} {H : Matrix (Fin n) (Fin n) ℝ} {value : (∀ i, P i) → ℝ}

/-- Where no coordinate is at the threshold, the projection is near that point and that mass affine on its support and zero off it. -/
theorem simplex_eventually (hn : 0 < n) {v0 : Fin n → ℝ} {c : ℝ} (hc : 0 < c)
    (hx : ∀ i j, 0 < projectionSimplex v0 c i → projectionSimplex v0 c j = 0 → v0 j < v0 i - projectionSimplex v0 c i) :
    ∀ᶠ q : (Fin n → ℝ) × ℝ in 𝓝 (v0, c),
      projectionSimplex q.1 q.2 = fun i => q.2 * affinePiece (Finset.univ.filter fun i => 0 < projectionSimplex v0 c i) (fun j => q.1 j / q.2) i := by
  set z : Fin n → ℝ := fun j => v0 j / c with hz
  have hxz : ∀ i, v0 i = c * z i := fun i => by rw [hz]; simp only; rw [mul_div_cancel₀ _ hc.ne']
  have hval : ∀ i, projectionSimplex v0 c i = c * projectionUnitSimplex z i := fun i => rfl
  have hpos : ∀ i, 0 < projectionSimplex v0 c i ↔ 0 < projectionUnitSimplex z i := fun i => by
    rw [hval]
    exact ⟨fun h => pos_of_mul_pos_right h hc.le, mul_pos hc⟩
  have hkey : ∀ i j, 0 < projectionUnitSimplex z i → projectionUnitSimplex z j = 0 → z j < z i - projectionUnitSimplex z i := by
    intro i j hi hj
    have := hx i j ((hpos i).mpr hi) (by rw [hval, hj, mul_zero])
    rw [hxz i, hxz j, hval, ← mul_sub] at this
    exact lt_of_mul_lt_mul_left this hc.le
  obtain ⟨-, hev⟩ := threshold_eventually (isThreshold_simplex hn) z
    ⟨fun i j hi hj => lt_trans (hkey i j hi hj) (sub_lt_self _ hi), fun _ => hkey⟩
  have hS : (Finset.univ.filter fun i => 0 < projectionSimplex v0 c i) = Finset.univ.filter fun i => 0 < projectionUnitSimplex z i :=
    Finset.filter_congr fun i _ => hpos i
  rw [hS]
  have hcont : ContinuousAt (fun q : (Fin n → ℝ) × ℝ => fun j => q.1 j / q.2) (v0, c) := by
    rw [continuousAt_pi]
    intro j
    exact ((continuous_apply j).comp continuous_fst).continuousAt.div continuousAt_snd hc.ne'
  have ht : Tendsto (fun q : (Fin n → ℝ) × ℝ => fun j => q.1 j / q.2) (𝓝 (v0, c)) (𝓝 z) := hcont
  filter_upwards [ht.eventually hev] with q hq
  funext i
  show q.2 * projectionUnitSimplex (fun j => q.1 j / q.2) i = _
  rw [hq]

theorem affinePiece_contDiff (S : Finset (Fin n)) : ContDiff ℝ 1 (affinePiece S) := by
  rw [contDiff_pi]
  intro i
  unfold affinePiece
  by_cases hi : i ∈ S
  · simp only [if_pos hi]; fun_prop
  · simp only [if_neg hi]; fun_prop

/-- **C129, simplex**: `x0` minimises `f(x, θ0)` over the non-negative vectors of sum `value(θ0)`, the partial derivatives at its zeros are larger than those at its
support, and `f` is strictly curved at `x0` along the zero-sum directions of the support.  Then the minimiser is unique and differentiable near `θ0`, it keeps its
support, and implicit differentiation of `ProjectedGradient.optimality_fun` gives its derivative, also with respect to `value`. -/
theorem C129_simplex (hD : D.ConvexNear θ0) (hg : D.C2At x0 θ0 H) (hvd : ContDiffAt ℝ 1 value θ0) (hv0 : 0 < value θ0)
    (hmin : IsMin {x | (∀ j, 0 ≤ x j) ∧ ∑ j, x j = value θ0} (fun x => D.f x θ0) x0)
    (hstrict : ∀ i j, x0 i ≠ 0 → x0 j = 0 → D.grad x0 θ0 i < D.grad x0 θ0 j)
    (hcurv : ∀ d : Fin n → ℝ, d ≠ 0 → (∀ i, x0 i = 0 → d i = 0) → ∑ i, d i = 0 → 0 < ∑ i, d i * ∑ j, H i j * d j) :
    Differentiates (D.proxRoot (simplexProx value) o) (fun θ => {x | (∀ j, 0 ≤ x j) ∧ ∑ j, x j = value θ}) (fun θ x => D.f x θ) x0 θ0
      fun _ x => SameSigns x x0 := by
  have hn : 0 < n := by
    rcases Nat.eq_zero_or_pos n with rfl | h
    · have := hmin.1.2; simp at this; linarith
    · exact h
  have hp : ∀ θ, 0 < value θ → IsProx dot {x : Fin n → ℝ | (∀ j, 0 ≤ x j) ∧ ∑ j, x j = value θ} (fun _ => 0) (fun x s => simplexProx value x θ s) ∧
      ConvexOn ℝ {x : Fin n → ℝ | (∀ j, 0 ≤ x j) ∧ ∑ j, x j = value θ} (fun _ => (0 : ℝ)) :=
    fun θ h => ⟨isProx_of_isUniqueProj fun x => C08_simplex hn x (value θ) h, convexOn_const 0 convex_simplex⟩
  have hmin0 : IsMin {x | (∀ j, 0 ≤ x j) ∧ ∑ j, x j = value θ0} (fun x => D.f x θ0 + (fun _ => (0 : ℝ)) x) x0 := by
    simpa only [add_zero] using hmin
  set v0 := x0 - D.grad x0 θ0 with hv0d
  have hfix : projectionSimplex v0 (value θ0) = x0 := by
    have h1 := (fixed_iff isVdot_dot (hp θ0 hv0).1 (hp θ0 hv0).2 x0 (D.grad x0 θ0) one_pos).mpr
      ⟨hmin0.1, fun u hu => first_order (hD.self_of_nhds.1 _ _) (hp θ0 hv0).2 hmin0 hu⟩
    rw [neg_smul, one_smul, ← sub_eq_add_neg] at h1
    exact h1
  have htie : ∀ i j, 0 < projectionSimplex v0 (value θ0) i → projectionSimplex v0 (value θ0) j = 0 → v0 j < v0 i - projectionSimplex v0 (value θ0) i := by
    intro i j hi hj
    rw [hfix] at hi hj ⊢
    have := hstrict i j hi.ne' hj
    simp only [hv0d, Pi.sub_apply, hj]
    linarith
  have hev := simplex_eventually hn hv0 htie
  rw [hfix] at hev
  set S := Finset.univ.filter fun i => 0 < x0 i with hS
  have hqt : Tendsto (fun v : (∀ i, P i) × (Fin n → ℝ) => (v.2, value v.1)) (𝓝 (θ0, v0)) (𝓝 (v0, value θ0)) :=
    (continuous_snd.tendsto (θ0, v0)).prodMk_nhds (hvd.continuousAt.tendsto.comp (continuous_fst.tendsto (θ0, v0)))
  have hev' := hqt.eventually hev
  obtain ⟨L, hL, hLp⟩ := C63_simplex hn v0 (value θ0) hv0 htie
  set A : (Fin n → ℝ) →L[ℝ] (Fin n → ℝ) := L.comp (inl ℝ (Fin n → ℝ) ℝ) with hA
  have hAw : ∀ w, A w = L (w, 0) := fun w => rfl
  have ha : SmoothProx (simplexProx value) v0 θ0 A := by
    constructor
    · have hvc : ContDiffAt ℝ 1 (fun v : (∀ i, P i) × (Fin n → ℝ) => value v.1) (θ0, v0) := hvd.comp (θ0, v0) contDiffAt_fst
      have hin : ContDiffAt ℝ 1 (fun v : (∀ i, P i) × (Fin n → ℝ) => fun j => v.2 j / value v.1) (θ0, v0) := by
        rw [contDiffAt_pi]
        exact fun j => ((contDiffAt_pi.mp contDiffAt_snd) j).div hvc hv0.ne'
      have hall : ContDiffAt ℝ 1 (fun v : (∀ i, P i) × (Fin n → ℝ) => fun i => value v.1 * affinePiece S (fun j => v.2 j / value v.1) i) (θ0, v0) := by
        rw [contDiffAt_pi]
        intro i
        exact hvc.mul (contDiffAt_pi.mp (((affinePiece_contDiff S).contDiffAt).comp (θ0, v0) hin) i)
      refine hall.congr_of_eventuallyEq ?_
      filter_upwards [hev'] with v hv
      exact hv
    · have h1 : HasFDerivAt (fun v : Fin n → ℝ => (v, value θ0)) (inl ℝ (Fin n → ℝ) ℝ) v0 := hasFDerivAt_prodMk_left v0 (value θ0)
      exact HasFDerivAt.comp v0 (g := fun q : (Fin n → ℝ) × ℝ => projectionSimplex q.1 q.2) hL h1
  have hvpos : ∀ᶠ θ in 𝓝 θ0, 0 < value θ := hvd.continuousAt.tendsto.eventually (lt_mem_nhds hv0)
  have hmain := C129_range (o := o) (C := fun θ => {x | (∀ j, 0 ≤ x j) ∧ ∑ j, x j = value θ}) (h := fun _ _ => 0) hD hg (hvpos.mono fun θ h => hp θ h) ha hmin0
    (by
      rintro d ⟨w, rfl⟩ hne
      refine hcurv (A w) hne (fun i hi => ?_) ?_
      · rw [hAw]; exact (hLp w 0).2.2 i (by rw [hfix]; exact hi)
      · rw [hAw]; exact (hLp w 0).2.1)
    (fun _ x => SameSigns x x0) (by
      have hgc : ContinuousAt (fun v : (∀ i, P i) × (Fin n → ℝ) => (v.1, v.2 - D.grad v.2 v.1)) (θ0, x0) :=
        continuousAt_fst.prodMk (continuousAt_snd.sub hg.grad_diff.continuousAt)
      have hgt : Tendsto (fun v : (∀ i, P i) × (Fin n → ℝ) => (v.1, v.2 - D.grad v.2 v.1)) (𝓝 (θ0, x0)) (𝓝 (θ0, v0)) := hgc
      have hpos : ∀ᶠ v : (∀ i, P i) × (Fin n → ℝ) in 𝓝 (θ0, x0), ∀ i, 0 < x0 i → 0 < v.2 i := by
        rw [eventually_all]
        intro i
        by_cases hi : 0 < x0 i
        · have hc : Tendsto (fun v : (∀ i, P i) × (Fin n → ℝ) => v.2 i) (𝓝 (θ0, x0)) (𝓝 (x0 i)) :=
            ((continuous_apply i).comp continuous_snd).tendsto (θ0, x0)
          filter_upwards [hc.eventually (lt_mem_nhds hi)] with v hv _ using hv
        · exact Eventually.of_forall fun v h => absurd h hi
      filter_upwards [hgt.eventually hev', hpos] with v h1 h2 h3 j
      have h4 : v.2 j = value v.1 * affinePiece S (fun k => (v.2 - D.grad v.2 v.1) k / value v.1) j := by
        have := congrFun h1 j
        rw [← this]
        exact (congrFun h3 j).symm
      rcases (hmin.1.1 j).eq_or_lt with h5 | h5
      · have hj : j ∉ S := by simp [hS, ← h5]
        have h6 : v.2 j = 0 := by rw [h4, affinePiece, if_neg hj, mul_zero]
        rw [h6, ← h5]
        simp
      · have h6 := h2 j h5
        exact ⟨⟨fun h => absurd h h6.ne', fun h => absurd h h5.ne'⟩, ⟨fun _ => h5, fun _ => h6⟩, ⟨fun h => absurd h h6.not_gt, fun h => absurd h h5.not_gt⟩⟩)
  simpa only [add_zero] using hmain

end simplex

/-! ## Mirror descent -/

section mirror
variable {D : SmoothFamily (n + 1) (∀ i, P i)} {o : MD ℝ (Fin (n + 1) → ℝ)} {x0 : Fin (n + 1) → ℝ} {θ0 : ∀ i, P i}
  {H : Matrix (Fin (n + 1)) (Fin (n + 1)) ℝ} {value : (∀ i, P i) → ℝ}

theorem mirrorRoot_apply (s : EuclideanSpace ℝ (Fin (n + 1))) (θ : ∀ i, P i) (i : Fin (n + 1)) :
    D.mirrorRoot value o s θ i =
      value θ * (Real.exp (Real.log (s i) - D.grad s.ofLp θ i) / ∑ j, Real.exp (Real.log (s j) - D.grad s.ofLp θ j)) - s i := by
  show value θ * softmax (logMap s.ofLp + (-1 : ℝ) • D.grad s.ofLp θ) i - s i = _
  rw [softmax_eq]
  simp only [Pi.add_apply, Pi.smul_apply, smul_eq_mul, neg_mul, one_mul, ← sub_eq_add_neg, logMap]

theorem mirrorRoot_contDiffAt (hg : D.C2At x0 θ0 H) (hvd : ContDiffAt ℝ 1 value θ0) (hx : ∀ i, 0 < x0 i) :
    ContDiffAt ℝ 1 (fun v : (∀ i, P i) × EuclideanSpace ℝ (Fin (n + 1)) => D.mirrorRoot value o v.2 v.1) (θ0, WithLp.toLp 2 x0) := by
  rw [contDiffAt_euclidean]
  intro i
  have hi : ∀ i, ContDiffAt ℝ 1 (fun v : (∀ i, P i) × EuclideanSpace ℝ (Fin (n + 1)) => v.2 i) (θ0, WithLp.toLp 2 x0) := fun i =>
    ((EuclideanSpace.proj (𝕜 := ℝ) i).contDiff.contDiffAt).comp (θ0, WithLp.toLp 2 x0) contDiffAt_snd
  have hu : ∀ i, ContDiffAt ℝ 1 (fun v : (∀ i, P i) × EuclideanSpace ℝ (Fin (n + 1)) => Real.exp (Real.log (v.2 i) - D.grad v.2.ofLp v.1 i)) (θ0, WithLp.toLp 2 x0) :=
    fun i => (((hi i).log (hx i).ne').sub (contDiffAt_pi.mp (grad_contDiffAt hg) i)).exp
  have hsum : ContDiffAt ℝ 1 (fun v : (∀ i, P i) × EuclideanSpace ℝ (Fin (n + 1)) => ∑ j, Real.exp (Real.log (v.2 j) - D.grad v.2.ofLp v.1 j)) (θ0, WithLp.toLp 2 x0) :=
    ContDiffAt.sum fun j _ => hu j
  have hv : ContDiffAt ℝ 1 (fun v : (∀ i, P i) × EuclideanSpace ℝ (Fin (n + 1)) => value v.1) (θ0, WithLp.toLp 2 x0) := hvd.comp _ contDiffAt_fst
  simp only [mirrorRoot_apply]
  exact (hv.mul ((hu i).div hsum (Finset.sum_pos (fun j _ => Real.exp_pos _) Finset.univ_nonempty).ne')).sub (hi i)

/-- The derivative of the optimality function at a root with positive coordinates, in coordinates. -/
theorem mirrorRoot_fderiv (hg : D.C2At x0 θ0 H) (hvd : ContDiffAt ℝ 1 value θ0) (hv0 : 0 < value θ0) (hx : ∀ i, 0 < x0 i)
    (h0 : D.mirrorRoot value o (WithLp.toLp 2 x0) θ0 = 0) (d : EuclideanSpace ℝ (Fin (n + 1))) :
    ∃ m, value θ0 * m = ∑ j, (d j - x0 j * ∑ k, H j k * d k) ∧
      ∀ i, fderiv ℝ (fun s => D.mirrorRoot value o s θ0) (WithLp.toLp 2 x0) d i = -(x0 i * (∑ j, H i j * d j + m)) := by
  have hdiff : DifferentiableAt ℝ (fun s => D.mirrorRoot value o s θ0) (WithLp.toLp 2 x0) := by
    have h1 := (mirrorRoot_contDiffAt (o := o) hg hvd hx).differentiableAt (by norm_num)
    exact DifferentiableAt.comp (WithLp.toLp 2 x0) (f := fun s => (θ0, s)) h1 (by fun_prop)
  have hline : HasDerivAt (fun t : ℝ => WithLp.toLp 2 x0 + t • d) d 0 := by
    have := ((hasDerivAt_id (0 : ℝ)).smul_const d).const_add (WithLp.toLp 2 x0)
    simpa using this
  have hl0 : WithLp.toLp 2 x0 + (0 : ℝ) • d = WithLp.toLp 2 x0 := by simp
  have hcomp : HasDerivAt (fun t : ℝ => D.mirrorRoot value o (WithLp.toLp 2 x0 + t • d) θ0)
      (fderiv ℝ (fun s => D.mirrorRoot value o s θ0) (WithLp.toLp 2 x0) d) 0 := by
    have h1 : HasFDerivAt (fun s => D.mirrorRoot value o s θ0) (fderiv ℝ (fun s => D.mirrorRoot value o s θ0) (WithLp.toLp 2 x0))
        (WithLp.toLp 2 x0 + (0 : ℝ) • d) := by rw [hl0]; exact hdiff.hasFDerivAt
    exact h1.comp_hasDerivAt 0 hline
  have hid : ∀ i, HasDerivAt (fun t : ℝ => x0 i + t * d i) (d i) 0 := fun i =>
    (((hasDerivAt_id' (0 : ℝ)).mul_const (d i)).const_add (x0 i)).congr_deriv (one_mul _)
  set E : Fin (n + 1) → ℝ := fun i => Real.exp (Real.log (x0 i) - D.grad x0 θ0 i) with hE
  set u' : Fin (n + 1) → ℝ := fun i => d i / x0 i - ∑ j, H i j * d j with hu'
  have hexp : ∀ i, HasDerivAt (fun t : ℝ => Real.exp (Real.log (x0 i + t * d i) - D.grad (x0 + t • d.ofLp) θ0 i)) (E i * u' i) 0 := by
    intro i
    have h1 : HasDerivAt (fun t : ℝ => Real.log (x0 i + t * d i)) (d i / x0 i) 0 := by
      have h2 := (hid i).log (by simpa using (hx i).ne')
      simpa using h2
    have h3 := (h1.sub (hg.hess i d.ofLp)).exp
    refine h3.congr_deriv ?_
    simp [hE, hu']
  set T := ∑ j, E j with hT
  have hT0 : 0 < T := Finset.sum_pos (fun j _ => Real.exp_pos _) Finset.univ_nonempty
  have hsum : HasDerivAt (fun t : ℝ => ∑ j, Real.exp (Real.log (x0 j + t * d j) - D.grad (x0 + t • d.ofLp) θ0 j)) (∑ j, E j * u' j) 0 :=
    HasDerivAt.fun_sum fun j _ => hexp j
  have hroot : ∀ i, value θ0 * (E i / T) = x0 i := by
    intro i
    have h1 : D.mirrorRoot value o (WithLp.toLp 2 x0) θ0 i = 0 := by rw [h0]; rfl
    rw [mirrorRoot_apply] at h1
    exact sub_eq_zero.mp h1
  have hE2 : ∀ i, E i = x0 i * T / value θ0 := fun i => by
    rw [← hroot i]
    field_simp
  refine ⟨(∑ j, E j * u' j) / T, ?_, fun i => ?_⟩
  · rw [Finset.sum_div, Finset.mul_sum]
    refine Finset.sum_congr rfl fun j _ => ?_
    have e1 : value θ0 * (E j * u' j / T) = value θ0 * (E j / T) * u' j := by ring
    rw [e1, hroot j, hu']
    have := (hx j).ne'
    simp only
    field_simp
  · have hc : HasDerivAt (fun t : ℝ => D.mirrorRoot value o (WithLp.toLp 2 x0 + t • d) θ0 i)
        (fderiv ℝ (fun s => D.mirrorRoot value o s θ0) (WithLp.toLp 2 x0) d i) 0 :=
      (EuclideanSpace.proj (𝕜 := ℝ) i).hasFDerivAt.comp_hasDerivAt (0 : ℝ) hcomp
    have h2 : HasDerivAt (fun t : ℝ => value θ0 * (Real.exp (Real.log (x0 i + t * d i) - D.grad (x0 + t • d.ofLp) θ0 i) /
        ∑ j, Real.exp (Real.log (x0 j + t * d j) - D.grad (x0 + t • d.ofLp) θ0 j)) - (x0 i + t * d i))
        (-(x0 i * (∑ j, H i j * d j + (∑ j, E j * u' j) / T))) 0 := by
      have h3 := (((hexp i).div hsum (by simpa using hT0.ne')).const_mul (value θ0)).sub (hid i)
      refine h3.congr_deriv ?_
      simp only [zero_mul, add_zero, zero_smul]
      change value θ0 * ((E i * u' i * T - E i * ∑ j, E j * u' j) / T ^ 2) - d i = _
      have e1 : value θ0 * ((E i * u' i * T - E i * ∑ j, E j * u' j) / T ^ 2) = value θ0 * (E i / T) * (u' i - (∑ j, E j * u' j) / T) := by
        field_simp
      rw [e1, hroot i]
      have e2 : x0 i * u' i = d i - x0 i * ∑ j, H i j * d j := by
        rw [hu']
        have := (hx i).ne'
        simp only
        field_simp
      linear_combination e2
    refine hc.unique ?_
    have e : (fun t : ℝ => D.mirrorRoot value o (WithLp.toLp 2 x0 + t • d) θ0 i) = fun t : ℝ =>
        value θ0 * (Real.exp (Real.log (x0 i + t * d i) - D.grad (x0 + t • d.ofLp) θ0 i) /
        ∑ j, Real.exp (Real.log (x0 j + t * d j) - D.grad (x0 + t • d.ofLp) θ0 j)) - (x0 i + t * d i) := by
      funext t
      rw [mirrorRoot_apply]
      rfl
    rw [e]
    exact h2

/-- At a point of the simplex with positive coordinates the first-order condition says that the gradient is constant. -/
theorem first_order_simplex_iff {c : ℝ} {x g : Fin (n + 1) → ℝ} (hx : x ∈ PosSimplex c) :
    (∃ a, ∀ i, g i = a) ↔ ∀ u ∈ {w : Fin (n + 1) → ℝ | (∀ j, 0 ≤ w j) ∧ ∑ j, w j = c}, 0 ≤ dot (u - x) g := by
  constructor
  · rintro ⟨a, ha⟩ u hu
    refine le_of_eq ?_
    unfold dot
    simp only [ha, Pi.sub_apply]
    rw [← Finset.sum_mul, Finset.sum_sub_distrib, hu.2, hx.2, sub_self, zero_mul]
  · intro h
    have hle : ∀ i j, g j ≤ g i := by
      intro i j
      by_cases hij : i = j
      · rw [hij]
      have h1 := h (x + x j • (Pi.single i 1 - Pi.single j 1)) ⟨fun k => ?_, ?_⟩
      · rw [add_sub_cancel_left] at h1
        unfold dot at h1
        simp only [Pi.smul_apply, Pi.sub_apply, smul_eq_mul, Pi.single_apply, mul_sub, sub_mul, mul_ite, mul_one, mul_zero, ite_mul, zero_mul,
          Finset.sum_sub_distrib, Finset.sum_ite_eq', Finset.mem_univ, if_true] at h1
        have h2 := hx.1 j
        nlinarith
      · have h2 := hx.1 k
        have h3 := hx.1 j
        simp only [Pi.add_apply, Pi.smul_apply, Pi.sub_apply, smul_eq_mul, Pi.single_apply]
        by_cases hk : k = j
        · subst hk
          rw [if_neg (Ne.symm hij), if_pos rfl]
          linarith
        · rw [if_neg hk]
          by_cases hk' : k = i
          · rw [if_pos hk']; linarith
          · rw [if_neg hk']; linarith
      · simp only [Pi.add_apply, Pi.smul_apply, Pi.sub_apply, smul_eq_mul, Finset.sum_add_distrib, ← Finset.mul_sum, Finset.sum_sub_distrib,
          Pi.single_apply, Finset.sum_ite_eq', Finset.mem_univ, if_true, sub_self, mul_zero, add_zero]
        exact hx.2
    exact ⟨g 0, fun i => le_antisymm (hle 0 i) (hle i 0)⟩

/-- **C129, mirror descent**: `x0` minimises `f(x, θ0)` over the simplex of mass `value(θ0)`, has positive coordinates, and `f` is strictly curved at `x0` along
zero-sum directions.  Then the minimiser is unique, positive and differentiable near `θ0`, and implicit differentiation of `MirrorDescent.optimality_fun` with the
Kullback-Leibler projection gives its derivative, also with respect to `value`. -/
theorem C129_mirror (hD : D.ConvexNear θ0) (hg : D.C2At x0 θ0 H) (hvd : ContDiffAt ℝ 1 value θ0) (hv0 : 0 < value θ0)
    (hmin : IsMin {x | (∀ j, 0 ≤ x j) ∧ ∑ j, x j = value θ0} (fun x => D.f x θ0) x0) (hx : ∀ i, 0 < x0 i)
    (hcurv : ∀ d : Fin (n + 1) → ℝ, d ≠ 0 → ∑ i, d i = 0 → 0 < ∑ i, d i * ∑ j, H i j * d j) :
    Differentiates (D.mirrorRoot value o) (fun θ => {x | (∀ j, 0 ≤ x j) ∧ ∑ j, x j = value θ}) (fun θ x => D.f x θ) x0 θ0 fun _ x => ∀ i, 0 < x i := by
  have hmin0 : IsMin {x | (∀ j, 0 ≤ x j) ∧ ∑ j, x j = value θ0} (fun x => D.f x θ0 + (fun _ => (0 : ℝ)) x) x0 := by
    simpa only [add_zero] using hmin
  have hroot : ∀ (s : EuclideanSpace ℝ (Fin (n + 1))) (θ : ∀ i, P i), D.mirrorRoot value o s θ = 0 ↔ (D.mirror value o θ).optimalityFun s.ofLp = 0 := by
    intro s θ
    constructor
    · intro h; exact congrArg WithLp.ofLp h
    · intro h; unfold SmoothFamily.mirrorRoot; rw [h]; rfl
  have hpos : ∀ (s : EuclideanSpace ℝ (Fin (n + 1))) (θ : ∀ i, P i), 0 < value θ → D.mirrorRoot value o s θ = 0 → s.ofLp ∈ PosSimplex (value θ) := by
    intro s θ hv h
    have h1 := (hroot s θ).mp h
    have h2 : klProjectionSimplex (value θ) (logMap s.ofLp + (-1 : ℝ) • D.grad s.ofLp θ) = s.ofLp := sub_eq_zero.mp h1
    rw [← h2]
    exact klProjection_mem hv _
  have hvpos : ∀ᶠ θ in 𝓝 θ0, 0 < value θ := hvd.continuousAt.tendsto.eventually (lt_mem_nhds hv0)
  have hchar : ∀ (s : EuclideanSpace ℝ (Fin (n + 1))) (θ : ∀ i, P i), 0 < value θ → (∀ i, 0 < s i) → (D.mirrorRoot value o s θ = 0 ↔
      s.ofLp ∈ {x : Fin (n + 1) → ℝ | (∀ j, 0 ≤ x j) ∧ ∑ j, x j = value θ} ∧
        ∀ u ∈ {x : Fin (n + 1) → ℝ | (∀ j, 0 ≤ x j) ∧ ∑ j, x j = value θ}, (0 : ℝ) ≤ 0 + dot (u - s.ofLp) (D.grad s.ofLp θ)) := by
    intro s θ hv hs
    simp only [zero_add]
    constructor
    · intro h
      have h1 := hpos s θ hv h
      refine ⟨⟨fun j => (h1.1 j).le, h1.2⟩, (first_order_simplex_iff h1).mp ?_⟩
      exact (C52_optimality (D.mirror value o θ) rfl hv s.ofLp h1).mp ((hroot s θ).mp h)
    · rintro ⟨h1, h2⟩
      have h3 : s.ofLp ∈ PosSimplex (value θ) := ⟨hs, h1.2⟩
      exact (hroot s θ).mpr ((C52_optimality (D.mirror value o θ) rfl hv s.ofLp h3).mpr ((first_order_simplex_iff h3).mpr h2))
  have hnear : ∀ᶠ v : (∀ i, P i) × EuclideanSpace ℝ (Fin (n + 1)) in 𝓝 (θ0, WithLp.toLp 2 x0), 0 < value v.1 ∧ ∀ i, 0 < v.2 i := by
    refine ((continuous_fst.tendsto (θ0, (WithLp.toLp 2 x0 : EuclideanSpace ℝ (Fin (n + 1))))).eventually hvpos).and ?_
    rw [eventually_all]
    intro i
    have hc : Continuous (fun v : (∀ i, P i) × EuclideanSpace ℝ (Fin (n + 1)) => v.2 i) := by fun_prop
    exact (hc.tendsto (θ0, WithLp.toLp 2 x0)).eventually (lt_mem_nhds (hx i))
  have h0 : D.mirrorRoot value o (WithLp.toLp 2 x0) θ0 = 0 := by
    refine (hchar (WithLp.toLp 2 x0) θ0 hv0 hx).mpr ⟨hmin.1, fun u hu => ?_⟩
    exact first_order (h := fun _ => 0) (hD.self_of_nhds.1 _ _) (convexOn_const 0 convex_simplex) hmin0 hu
  have hmain := differentiates_of_first_order (h := fun _ _ => 0) (mirrorRoot_contDiffAt (o := o) hg hvd hx) (fun d hd => by
      obtain ⟨m, hm, hrow⟩ := mirrorRoot_fderiv (o := o) hg hvd hv0 hx h0 d
      have hH : ∀ i, ∑ j, H i j * d j = -m := fun i => by
        have h1 : -(x0 i * (∑ j, H i j * d j + m)) = 0 := by rw [← hrow i, hd]; rfl
        rcases mul_eq_zero.mp (neg_eq_zero.mp h1) with h2 | h2
        · exact absurd h2 (hx i).ne'
        · linarith
      have hsum : ∑ i, d i = 0 := by
        simp only [hH, Finset.sum_sub_distrib, ← Finset.sum_mul, hmin.1.2] at hm
        linarith
      by_contra hne
      have hne' : d.ofLp ≠ 0 := fun h => hne (by ext i; exact congrFun h i)
      have hp := hcurv d.ofLp hne' hsum
      have e1 : ∑ i, d.ofLp i * ∑ j, H i j * d.ofLp j = 0 := by
        have e2 : ∀ i, d.ofLp i * ∑ j, H i j * d.ofLp j = d i * -m := fun i => by rw [← hH i]
        simp only [e2]
        rw [← Finset.sum_mul, hsum, zero_mul]
      linarith) hD (Eventually.of_forall fun θ => convexOn_const 0 convex_simplex) (hnear.mono fun v hv => hchar v.2 v.1 hv.1 hv.2) hmin0
    (fun _ x => ∀ i, 0 < x i) (hnear.mono fun v hv _ => hv.2)
  simpa only [add_zero] using hmain

end mirror

/-! ## The group penalty -/

section group
variable {D : SmoothFamily n (∀ i, P i)} {o : PG ℝ (Fin n → ℝ)} {x0 : Fin n → ℝ} {θ0 : ∀ i, P i} {H : Matrix (Fin n) (Fin n) ℝ} {l : (∀ i, P i) → ℝ}

/-- The Euclidean norm. -/
noncomputable def l2 (x : Fin n → ℝ) : ℝ := ‖(WithLp.toLp 2 x : EuclideanSpace ℝ (Fin n))‖

theorem l2_sq (x : Fin n → ℝ) : l2 x ^ 2 = dot x x := by
  unfold l2 dot
  rw [EuclideanSpace.norm_eq, Real.sq_sqrt (Finset.sum_nonneg fun i _ => sq_nonneg _)]
  exact Finset.sum_congr rfl fun i _ => by rw [Real.norm_eq_abs, sq_abs, sq]

theorem l2_nonneg (x : Fin n → ℝ) : 0 ≤ l2 x := norm_nonneg _

theorem l2_pos {x : Fin n → ℝ} (hx : x ≠ 0) : 0 < l2 x := by
  refine norm_pos_iff.mpr fun h => hx ?_
  exact congrArg WithLp.ofLp h

theorem toLp_contDiff : ContDiff ℝ 1 (fun v : Fin n → ℝ => (WithLp.toLp 2 v : EuclideanSpace ℝ (Fin n))) := by
  rw [contDiff_euclidean]
  exact fun i => contDiff_apply ℝ ℝ i

theorem l2_contDiffAt {v : Fin n → ℝ} (hv : v ≠ 0) : ContDiffAt ℝ 1 (l2 (n := n)) v := by
  unfold l2
  refine ContDiffAt.norm ℝ toLp_contDiff.contDiffAt fun h => hv ?_
  exact congrArg WithLp.ofLp h

theorem l2_hasDerivAt {v : Fin n → ℝ} (hv : v ≠ 0) (w : Fin n → ℝ) : HasDerivAt (fun t : ℝ => l2 (v + t • w)) (dot v w / l2 v) 0 := by
  have hp := l2_pos hv
  have hl0 : v + (0 : ℝ) • w = v := by simp
  have hline : HasDerivAt (fun t : ℝ => v + t • w) w 0 := by
    have := ((hasDerivAt_id (0 : ℝ)).smul_const w).const_add v
    simpa using this
  have h1 : HasFDerivAt (l2 (n := n)) (fderiv ℝ (l2 (n := n)) v) (v + (0 : ℝ) • w) := by
    rw [hl0]; exact ((l2_contDiffAt hv).differentiableAt (by norm_num)).hasFDerivAt
  have h2 : HasDerivAt (fun t : ℝ => l2 (v + t • w)) (fderiv ℝ (l2 (n := n)) v w) 0 :=
    HasFDerivAt.comp_hasDerivAt (l := l2 (n := n)) 0 h1 hline
  have h3 := h2.pow 2
  have h4 : HasDerivAt (fun t : ℝ => dot v v + 2 * t * dot v w + t ^ 2 * dot w w) (2 * dot v w) 0 := by
    have := ((((hasDerivAt_id' (0 : ℝ)).const_mul 2).mul_const (dot v w)).const_add (dot v v)).add (((hasDerivAt_id' (0 : ℝ)).pow 2).mul_const (dot w w))
    refine this.congr_deriv ?_
    simp
  have e : (fun t : ℝ => l2 (v + t • w)) ^ 2 = fun t : ℝ => dot v v + 2 * t * dot v w + t ^ 2 * dot w w := by
    funext t
    have hd := isVdot_dot (n := n)
    simp only [Pi.pow_apply, l2_sq, hd.add_left, hd.add_right, hd.smul_left, hd.smul_right]
    rw [hd.symm w v]
    ring
  rw [e] at h3
  have h5 := h3.unique h4
  simp only [hl0, Nat.cast_ofNat, Nat.add_one_sub_one, pow_one] at h5
  refine h2.congr_deriv ?_
  rw [eq_div_iff hp.ne']
  linarith

theorem groupLasso_apply (v : Fin n → ℝ) (θ : ∀ i, P i) (hl : 0 ≤ l θ) (h : l θ < l2 v) : groupLassoProx l v θ 1 = (1 - l θ / l2 v) • v := by
  have h0 : 0 < l2 v := lt_of_le_of_lt hl h
  unfold groupLassoProx proxGroupLasso
  have h1 : ‖(WithLp.toLp 2 v : EuclideanSpace ℝ (Fin n))‖ = l2 v := rfl
  have h2 : 1 - l θ / l2 v ≥ 0 := by
    rw [ge_iff_le, sub_nonneg, div_le_one h0]; exact h.le
  simp only [h1, if_neg h0.ne', mul_one, if_pos h2]
  rfl

theorem groupLasso_zero (v : Fin n → ℝ) (θ : ∀ i, P i) (h : l2 v ≤ l θ) : groupLassoProx l v θ 1 = 0 := by
  have hn := l2_nonneg v
  unfold groupLassoProx proxGroupLasso
  have h1 : ‖(WithLp.toLp 2 v : EuclideanSpace ℝ (Fin n))‖ = l2 v := rfl
  simp only [h1, mul_one]
  by_cases h0 : l2 v = 0
  · rw [if_pos h0, zero_smul]; rfl
  · rw [if_neg h0]
    have hp : 0 < l2 v := lt_of_le_of_ne hn (Ne.symm h0)
    by_cases h2 : 1 - l θ / l2 v ≥ 0
    · have h3 : 1 - l θ / l2 v = 0 := by
        refine le_antisymm ?_ h2
        rw [sub_nonpos, one_le_div hp]; exact h
      rw [if_pos h2, h3, zero_smul]; rfl
    · rw [if_neg h2, zero_smul]; rfl

/-- `prox_group_lasso` is the proximal operator of `l ‖·‖₂`. -/
theorem groupLasso_isProx (θ : ∀ i, P i) (hl : 0 ≤ l θ) :
    IsProx dot Set.univ (fun x : Fin n → ℝ => l θ * l2 x) (fun x s => groupLassoProx l x θ s) ∧ ConvexOn ℝ Set.univ (fun x : Fin n → ℝ => l θ * l2 x) := by
  constructor
  · intro z s hs
    refine ⟨trivial, fun u _ => ?_⟩
    have h1 := C15_group_lasso (WithLp.toLp 2 z : EuclideanSpace ℝ (Fin n)) (l θ) s (mul_nonneg hs.le hl)
    have h2 : ∀ y : Fin n → ℝ, dot (y - z) (y - z) = ‖(WithLp.toLp 2 z : EuclideanSpace ℝ (Fin n)) - WithLp.toLp 2 y‖ ^ 2 := fun y => by
      rw [← l2_sq, ← norm_neg]
      unfold l2
      congr 2
      ext i
      simp
    have hle : ∀ y, 1 / 2 * ‖(WithLp.toLp 2 z : EuclideanSpace ℝ (Fin n)) - proxGroupLasso (WithLp.toLp 2 z) (l θ) s‖ ^ 2 +
        s * l θ * ‖proxGroupLasso (WithLp.toLp 2 z : EuclideanSpace ℝ (Fin n)) (l θ) s‖ ≤
        1 / 2 * ‖(WithLp.toLp 2 z : EuclideanSpace ℝ (Fin n)) - y‖ ^ 2 + s * l θ * ‖y‖ := by
      intro y
      by_cases hy : y = proxGroupLasso (WithLp.toLp 2 z : EuclideanSpace ℝ (Fin n)) (l θ) s
      · rw [hy]
      · have := h1.2 y trivial hy
        linarith
    have h3 := hle (WithLp.toLp 2 u)
    rw [h2, h2]
    show s * (l θ * l2 (groupLassoProx l z θ s)) + 1 / 2 * ‖_ - WithLp.toLp 2 (groupLassoProx l z θ s)‖ ^ 2 ≤ s * (l θ * l2 u) + _
    unfold l2 groupLassoProx
    linarith
  · refine ⟨convex_univ, fun x _ y _ a b ha hb hab => ?_⟩
    have h1 : l2 (a • x + b • y) ≤ a * l2 x + b * l2 y := by
      unfold l2
      have e : (WithLp.toLp 2 (a • x + b • y) : EuclideanSpace ℝ (Fin n)) = a • WithLp.toLp 2 x + b • WithLp.toLp 2 y := rfl
      rw [e]
      refine (norm_add_le _ _).trans ?_
      rw [norm_smul, norm_smul, Real.norm_of_nonneg ha, Real.norm_of_nonneg hb]
    have := mul_le_mul_of_nonneg_left h1 hl
    simp only [smul_eq_mul]
    linarith

theorem l2_continuous : Continuous (l2 (n := n)) := continuous_norm.comp toLp_contDiff.continuous

/-- **C129, group lasso**: `x0` minimises `f(x, θ0) + l(θ0) ‖x‖₂`; either `x0 = 0` and the gradient is smaller than the penalty, or `x0 ≠ 0` and the Hessian of the
objective, penalty included, is positive definite.  Then the minimiser is unique and differentiable near `θ0`, it stays zero or non-zero, and implicit
differentiation gives its derivative. -/
theorem C129_group_lasso (hD : D.ConvexNear θ0) (hg : D.C2At x0 θ0 H) (hld : ContDiffAt ℝ 1 l θ0) (hnn : ∀ᶠ θ in 𝓝 θ0, 0 ≤ l θ)
    (hmin : IsMin Set.univ (fun x => D.f x θ0 + l θ0 * l2 x) x0)
    (hnd : x0 = 0 ∧ l2 (D.grad x0 θ0) < l θ0 ∨
      x0 ≠ 0 ∧ ∀ d : Fin n → ℝ, d ≠ 0 → 0 < ∑ i, d i * ∑ j, H i j * d j + l θ0 / l2 x0 * (dot d d - dot x0 d ^ 2 / dot x0 x0)) :
    Differentiates (D.proxRoot (groupLassoProx l) o) (fun _ => Set.univ) (fun θ x => D.f x θ + l θ * l2 x) x0 θ0 fun _ x => (x = 0 ↔ x0 = 0) := by
  have hl0 := hnn.self_of_nhds
  obtain ⟨hp1, hp2⟩ := groupLasso_isProx (n := n) θ0 hl0
  set v0 := x0 - D.grad x0 θ0 with hv0
  have hfix : groupLassoProx l v0 θ0 1 = x0 := by
    have h1 := (fixed_iff isVdot_dot hp1 hp2 x0 (D.grad x0 θ0) one_pos).mpr
      ⟨hmin.1, fun u hu => first_order (hD.self_of_nhds.1 _ _) hp2 hmin hu⟩
    rw [neg_smul, one_smul, ← sub_eq_add_neg] at h1
    exact h1
  have hlt : Tendsto (fun v : (∀ i, P i) × (Fin n → ℝ) => l v.1) (𝓝 (θ0, v0)) (𝓝 (l θ0)) := hld.continuousAt.tendsto.comp (continuous_fst.tendsto (θ0, v0))
  have hvt : Tendsto (fun v : (∀ i, P i) × (Fin n → ℝ) => l2 v.2) (𝓝 (θ0, v0)) (𝓝 (l2 v0)) := (l2_continuous.comp continuous_snd).tendsto (θ0, v0)
  have hlnn : ∀ᶠ v : (∀ i, P i) × (Fin n → ℝ) in 𝓝 (θ0, v0), 0 ≤ l v.1 := (continuous_fst.tendsto (θ0, v0)).eventually hnn
  have hgc : ContinuousAt (fun v : (∀ i, P i) × (Fin n → ℝ) => (v.1, v.2 - D.grad v.2 v.1)) (θ0, x0) :=
    continuousAt_fst.prodMk (continuousAt_snd.sub hg.grad_diff.continuousAt)
  have hgt : Tendsto (fun v : (∀ i, P i) × (Fin n → ℝ) => (v.1, v.2 - D.grad v.2 v.1)) (𝓝 (θ0, x0)) (𝓝 (θ0, v0)) := hgc
  rcases hnd with ⟨hz, hs⟩ | ⟨hz, hcurv⟩
  · -- the solution is zero
    have hs' : l2 v0 < l θ0 := by
      have : l2 v0 = l2 (D.grad x0 θ0) := by
        unfold l2
        rw [hv0, hz, zero_sub, ← norm_neg]
        congr 1
        ext i
        simp
      rw [this]; exact hs
    have hev : ∀ᶠ v : (∀ i, P i) × (Fin n → ℝ) in 𝓝 (θ0, v0), groupLassoProx l v.2 v.1 1 = 0 := by
      filter_upwards [hvt.eventually_lt hlt hs'] with v h1
      exact groupLasso_zero v.2 v.1 h1.le
    have ha : SmoothProx (groupLassoProx l) v0 θ0 0 := by
      refine ⟨contDiffAt_const (c := (0 : Fin n → ℝ)) |>.congr_of_eventuallyEq hev, ?_⟩
      refine (hasFDerivAt_const (0 : Fin n → ℝ) v0).congr_of_eventuallyEq ?_
      exact (Continuous.tendsto (by fun_prop : Continuous fun v : Fin n → ℝ => (θ0, v)) v0).eventually hev
    refine C129_general (o := o) hD hg (hnn.mono fun θ h => groupLasso_isProx θ h) ha hmin (fun w hw => absurd rfl hw) _ ?_
    filter_upwards [hgt.eventually hev] with v h1 h2
    have : v.2 = 0 := by rw [← h2]; exact h1
    simp [this, hz]
  · -- the solution is not zero
    have hlv : l θ0 < l2 v0 := by
      by_contra hcon
      exact hz (by rw [← hfix]; exact groupLasso_zero v0 θ0 (not_lt.mp hcon))
    have hvp : 0 < l2 v0 := lt_of_le_of_lt hl0 hlv
    have hv0ne : v0 ≠ 0 := by
      rintro h
      rw [h] at hvp
      unfold l2 at hvp
      simp at hvp
    have hev : ∀ᶠ v : (∀ i, P i) × (Fin n → ℝ) in 𝓝 (θ0, v0), groupLassoProx l v.2 v.1 1 = (1 - l v.1 / l2 v.2) • v.2 := by
      filter_upwards [hlt.eventually_lt hvt hlv, hlnn] with v h1 h2
      exact groupLasso_apply v.2 v.1 h2 h1
    have hdiff : ContDiffAt ℝ 1 (fun v : (∀ i, P i) × (Fin n → ℝ) => groupLassoProx l v.2 v.1 1) (θ0, v0) := by
      refine ContDiffAt.congr_of_eventuallyEq ?_ hev
      have h1 : ContDiffAt ℝ 1 (fun v : (∀ i, P i) × (Fin n → ℝ) => l v.1) (θ0, v0) := hld.comp _ contDiffAt_fst
      have h2 : ContDiffAt ℝ 1 (fun v : (∀ i, P i) × (Fin n → ℝ) => l2 v.2) (θ0, v0) :=
        ContDiffAt.comp (g := l2 (n := n)) (θ0, v0) (l2_contDiffAt hv0ne) contDiffAt_snd
      exact (contDiffAt_const.sub (h1.div h2 hvp.ne')).smul contDiffAt_snd
    have hd0 : DifferentiableAt ℝ (fun v => groupLassoProx l v θ0 1) v0 := by
      have h1 := hdiff.differentiableAt (by norm_num)
      exact DifferentiableAt.comp v0 (f := fun v => (θ0, v)) h1 (by fun_prop)
    set A := fderiv ℝ (fun v => groupLassoProx l v θ0 1) v0 with hA
    set c := 1 - l θ0 / l2 v0 with hc
    have hc0 : 0 < c := by rw [hc, sub_pos, div_lt_one hvp]; exact hlv
    have hAw : ∀ w, A w = c • w + (l θ0 * dot v0 w / l2 v0 ^ 3) • v0 := by
      intro w
      have hl00 : v0 + (0 : ℝ) • w = v0 := by simp
      have hline : HasDerivAt (fun t : ℝ => v0 + t • w) w 0 := by
        have := ((hasDerivAt_id (0 : ℝ)).smul_const w).const_add v0
        simpa using this
      have h1 : HasFDerivAt (fun v => groupLassoProx l v θ0 1) A (v0 + (0 : ℝ) • w) := by rw [hl00]; exact hd0.hasFDerivAt
      have h2 := h1.comp_hasDerivAt 0 hline
      have h3 : HasDerivAt (fun t : ℝ => (1 - l θ0 / l2 (v0 + t • w)) • (v0 + t • w)) (c • w + (l θ0 * dot v0 w / l2 v0 ^ 3) • v0) 0 := by
        have h4 := (((hasDerivAt_const (0 : ℝ) (l θ0)).div (l2_hasDerivAt hv0ne w) (by rw [hl00]; exact hvp.ne')).const_sub 1).smul hline
        refine h4.congr_deriv ?_
        simp only [Pi.div_apply, hl00, zero_mul, zero_sub]
        congr 2
        field_simp
      refine h2.unique (h3.congr_of_eventuallyEq ?_)
      have ht : Tendsto (fun t : ℝ => (θ0, v0 + t • w)) (𝓝 0) (𝓝 (θ0, v0)) := by
        have h5 : Continuous (fun t : ℝ => (θ0, v0 + t • w)) := by fun_prop
        have := h5.tendsto 0
        rwa [hl00] at this
      filter_upwards [ht.eventually hev] with t ht
      exact ht
    have hx0 : x0 = c • v0 := by rw [← hfix, groupLasso_apply v0 θ0 hl0 hlv]
    have hl2x : l2 x0 = c * l2 v0 := by
      rw [hx0]
      unfold l2
      have e : (WithLp.toLp 2 (c • v0) : EuclideanSpace ℝ (Fin n)) = c • WithLp.toLp 2 v0 := rfl
      rw [e, norm_smul, Real.norm_of_nonneg hc0.le]
    refine C129_general (o := o) (A := A) hD hg (hnn.mono fun θ h => groupLasso_isProx θ h) ⟨hdiff, hd0.hasFDerivAt⟩ hmin (fun w hw => ?_) _ ?_
    · have h1 := hcurv (A w) hw
      have hvd := isVdot_dot (n := n)
      have e1 : ∑ i, A w i * ∑ j, H i j * A w j = dot (A w) (H.mulVec (A w)) := rfl
      rw [e1] at h1
      refine lt_of_lt_of_le h1 (le_of_eq ?_)
      congr 1
      -- the curvature of the penalty
      have hN : dot v0 v0 = l2 v0 ^ 2 := (l2_sq v0).symm
      have hlc : l θ0 = (1 - c) * l2 v0 := by rw [hc]; field_simp; ring
      rw [hl2x, hx0, hAw w]
      simp only [hvd.add_left, hvd.add_right, hvd.smul_left, hvd.smul_right]
      rw [hvd.symm w v0, hN, hlc]
      have := hvp.ne'
      have := hc0.ne'
      field_simp
      ring
    · have hne : ∀ᶠ v : (∀ i, P i) × (Fin n → ℝ) in 𝓝 (θ0, x0), v.2 ≠ 0 := (continuous_snd.tendsto (θ0, x0)).eventually (isOpen_ne.mem_nhds hz)
      filter_upwards [hne] with v h1 _
      exact ⟨fun h => absurd h h1, fun h => absurd h hz⟩

end group

/-! ## Examples -/

theorem third_contDiff : ContDiff ℝ 1 (fun θ : ∀ _ : Fin 3, ℝ => θ 2) := by fun_prop

/-- At `θ = (3, 0, 1)` the projection of `(3, 0)` on the simplex of mass 1 is `(1, 0)`: one coordinate is zero. -/
example (o : PG ℝ (Fin 2 → ℝ)) : Differentiates (exFamily.proxRoot (simplexProx fun θ => θ 2) o) (fun θ => {x | (∀ j, 0 ≤ x j) ∧ ∑ j, x j = θ 2})
    (fun θ x => exFamily.f x θ) ![1, 0] ![3, 0, 1] fun _ x => SameSigns x ![1, 0] := by
  refine C129_simplex (H := 1) (value := fun θ => θ 2) (exFamily_convexNear _) (exFamily_c2 _ _) third_contDiff.contDiffAt
    (show (0 : ℝ) < (![3, 0, 1] : Fin 3 → ℝ) 2 by simp) ⟨⟨fun j => ?_, ?_⟩, fun y hy => ?_⟩ (fun i j hi hj => ?_) fun d hd _ _ => exFamily_curv d hd
  · fin_cases j <;> simp
  · simp [Fin.sum_univ_two]
  · have h0 := hy.1 0
    have h1 := hy.1 1
    have h2 := hy.2
    simp [Fin.sum_univ_two] at h2
    simp [exFamily]
    nlinarith
  · fin_cases i <;> fin_cases j <;> simp [exFamily] at hi hj ⊢

/-- At `θ = (1/2, 0, 1)` the projection of `(1/2, 0)` on the simplex of mass 1 is `(3/4, 1/4)`. -/
example (o : MD ℝ (Fin 2 → ℝ)) : Differentiates (SmoothFamily.mirrorRoot (n := 1) exFamily (fun θ => θ 2) o) (fun θ => {x | (∀ j, 0 ≤ x j) ∧ ∑ j, x j = θ 2})
    (fun θ x => exFamily.f x θ) ![3 / 4, 1 / 4] ![1 / 2, 0, 1] fun _ x => ∀ i, 0 < x i := by
  refine C129_mirror (n := 1) (H := 1) (value := fun θ => θ 2) (exFamily_convexNear _) (exFamily_c2 _ _) third_contDiff.contDiffAt
    (show (0 : ℝ) < (![1 / 2, 0, 1] : Fin 3 → ℝ) 2 by simp) ⟨⟨fun j => ?_, ?_⟩, fun y hy => ?_⟩ (fun i => ?_) fun d hd _ => exFamily_curv d hd
  · fin_cases j <;> norm_num
  · simp [Fin.sum_univ_two]; norm_num
  · have h2 := hy.2
    simp [Fin.sum_univ_two] at h2
    have h3 : y 1 = 1 - y 0 := by linarith
    simp [exFamily]
    rw [h3]
    nlinarith [sq_nonneg (y 0 - 3 / 4)]
  · fin_cases i <;> norm_num

/-- At `θ = (3, 4, 1)` the solution with the penalty `‖x‖₂` is `(12/5, 16/5)`. -/
example (o : PG ℝ (Fin 2 → ℝ)) : Differentiates (exFamily.proxRoot (groupLassoProx fun θ => θ 2) o) (fun _ => Set.univ)
    (fun θ x => exFamily.f x θ + θ 2 * l2 x) ![12 / 5, 16 / 5] ![3, 4, 1] fun _ x => (x = 0 ↔ (![12 / 5, 16 / 5] : Fin 2 → ℝ) = 0) := by
  have hne : (![12 / 5, 16 / 5] : Fin 2 → ℝ) ≠ 0 := fun h => by
    have := congrFun h 0
    norm_num at this
  have hN : l2 (![12 / 5, 16 / 5] : Fin 2 → ℝ) = 4 := by
    have h1 := l2_sq (![12 / 5, 16 / 5] : Fin 2 → ℝ)
    have h2 := l2_nonneg (![12 / 5, 16 / 5] : Fin 2 → ℝ)
    have e : dot (![12 / 5, 16 / 5] : Fin 2 → ℝ) ![12 / 5, 16 / 5] = 16 := by unfold dot; simp [Fin.sum_univ_two]; norm_num
    rw [e] at h1
    nlinarith
  have hld : ContDiffAt ℝ 1 (fun θ : ∀ _ : Fin 3, ℝ => θ 2) ![3, 4, 1] := third_contDiff.contDiffAt
  refine C129_group_lasso (P := fun _ : Fin 3 => ℝ) (D := exFamily) (H := 1) (x0 := ![12 / 5, 16 / 5]) (θ0 := ![3, 4, 1]) (l := fun θ => θ 2) (exFamily_convexNear _)
    (exFamily_c2 _ _) hld ?_ ⟨trivial, fun y _ => ?_⟩ (Or.inr ⟨hne, fun d hd => ?_⟩)
  · have hc : ContinuousAt (fun θ : ∀ _ : Fin 3, ℝ => θ 2) ![3, 4, 1] := (continuous_apply (2 : Fin 3)).continuousAt
    filter_upwards [hc.eventually (lt_mem_nhds (show (0 : ℝ) < (![3, 4, 1] : Fin 3 → ℝ) 2 by simp))] with θ h
    exact h.le
  · have h1 := l2_sq y
    have h2 := l2_nonneg y
    unfold dot at h1
    rw [Fin.sum_univ_two] at h1
    have h3 : (3 * y 0 + 4 * y 1) / 5 ≤ l2 y := by
      refine abs_le_of_sq_le_sq' ?_ h2 |>.2
      nlinarith [sq_nonneg (4 * y 0 - 3 * y 1)]
    simp only [hN]
    simp [exFamily]
    nlinarith [sq_nonneg (y 0 - 12 / 5), sq_nonneg (y 1 - 16 / 5)]
  · have h1 := exFamily_curv d hd
    have h2 : 0 ≤ dot d d - dot ![12 / 5, 16 / 5] d ^ 2 / dot (![12 / 5, 16 / 5] : Fin 2 → ℝ) ![12 / 5, 16 / 5] := by
      unfold dot
      simp [Fin.sum_univ_two]
      rw [div_le_iff₀ (by norm_num)]
      nlinarith [sq_nonneg (16 / 5 * d 0 - 12 / 5 * d 1)]
    rw [hN]
    simp only [Matrix.cons_val]
    nlinarith

end Jaxopt.Implicit
