import Verif.ProxGrad.IdentifyLemmas
import Verif.Proj.Props

/-!
# Property C122: the zeros, signs and active bounds of the solution are found exactly after finitely many iterations

`ProximalGradient` and `ProjectedGradient` with a constant step, with and without acceleration.
-/

set_option autoImplicit false
set_option linter.unusedSectionVars false
set_option linter.unusedVariables false

namespace Jaxopt.ProxGrad

open Jaxopt.Base Jaxopt.BlockCD Jaxopt.Proj Jaxopt.Prox Filter Topology

variable {m n : ℕ}

/-- `P` holds for all iterates from some number on, and for the results of all runs that make at least that many iterations, whatever
`maxiter` and `tol`. -/
def Finally (S : PG ℝ (Fin n → ℝ)) (x0 : Fin n → ℝ) (P : (Fin n → ℝ) → Prop) : Prop :=
  ∃ N, (∀ k, N ≤ k → P (S.iterate x0 k).1) ∧
    ∀ (maxiter : ℕ) (tol : ℝ) r, 1 ≤ maxiter → PG.run { S with maxiter := maxiter, tol := tol } x0 = .ok r → N ≤ r.2.iterNum → P r.1

/-- The same zeros and the same signs. -/
def SameSigns (x u : Fin n → ℝ) : Prop := ∀ j, (x j = 0 ↔ u j = 0) ∧ (0 < x j ↔ 0 < u j) ∧ (x j < 0 ↔ u j < 0)

theorem finally_of {S : PG ℝ (Fin n → ℝ)} {x0 : Fin n → ℝ} {P : (Fin n → ℝ) → Prop} (hP : ∃ N, ∀ k, N ≤ k → P (S.iterate x0 k).1) :
    Finally S x0 P := by
  obtain ⟨N, hN⟩ := hP
  refine ⟨N, hN, fun maxiter tol r hm hr hit => ?_⟩
  obtain ⟨k, h1, h2, rfl, h4, h5⟩ := runS_spec hm hr
  have e : (S.iterate x0 k).2.iterNum = k := PG.iterNum_iterate _ _ _
  change N ≤ (S.iterate x0 k).2.iterNum at hit
  rw [e] at hit
  exact hN k hit

namespace Setup

variable {S : PG ℝ (Fin n → ℝ)} {C : Set (Fin n → ℝ)} {h : (Fin n → ℝ) → ℝ} {s L : ℝ}

theorem tendsto_prox (H : Setup S C h s L) {u : Fin n → ℝ} (hu : IsUniqueMin C (fun w => S.f w + h w) u) :
    Tendsto (fun v => S.prox v s) (𝓝 (u + (-s) • S.grad u)) (𝓝 u) := by
  have := H.continuous_prox.tendsto (u + (-s) • S.grad u)
  rwa [H.fixed hu] at this

/-- The signs are found as soon as the zeros are. -/
theorem signs (H : Setup S C h s L) {u : Fin n → ℝ} (hu : IsUniqueMin C (fun w => S.f w + h w) u) (x0 : Fin n → ℝ)
    (hz : ∀ j, u j = 0 → ∀ᶠ v in 𝓝 (u + (-s) • S.grad u), S.prox v s j = 0) : Finally S x0 fun x => SameSigns x u := by
  refine finally_of (H.eventually (P := fun x => SameSigns x u) hu x0 (eventually_all.mpr fun j => ?_))
  have ht := (tendsto_pi_nhds.mp (H.tendsto_prox hu)) j
  rcases lt_trichotomy (u j) 0 with hj | hj | hj
  · filter_upwards [ht.eventually_lt_const hj] with v hv
    exact ⟨⟨fun h => absurd h hv.ne, fun h => absurd h hj.ne⟩, ⟨fun h => absurd h hv.not_gt, fun h => absurd h hj.not_gt⟩,
      ⟨fun _ => hj, fun _ => hv⟩⟩
  · filter_upwards [hz j hj] with v hv
    simp [hv, hj]
  · filter_upwards [ht.eventually_const_lt hj] with v hv
    exact ⟨⟨fun h => absurd h hv.ne', fun h => absurd h hj.ne'⟩, ⟨fun _ => hj, fun _ => hv⟩,
      ⟨fun h => absurd h hv.not_gt, fun h => absurd h hj.not_gt⟩⟩

end Setup

/-! ## Penalties -/

section penalties

variable {S : PG ℝ (Fin n → ℝ)} {s L : ℝ}

theorem continuous_l1 (l : Fin n → ℝ) : Continuous fun w : Fin n → ℝ => ∑ j, l j * |w j| :=
  continuous_finsetSum _ fun j _ => continuous_const.mul (continuous_abs.comp (continuous_apply j))

theorem lasso_setup (H : SmoothStep S s L) {l : Fin n → ℝ} (hl : ∀ j, 0 ≤ l j) (hprox : S.prox = fun x t => proxLasso x l t) :
    Setup S Set.univ (fun w => ∑ j, l j * |w j|) s L :=
  { H with
    prox := by rw [hprox]; exact isProx_of_isUniqueMin fun x t ht => C14_lasso x l t fun j => mul_nonneg ht.le (hl j)
    pen := convexOn_l1 hl
    closed := isClosed_univ
    cont := (continuous_l1 l).continuousOn }

/-- **C122, lasso**: if the unique minimiser `u` of `f + Σ l_j |w_j|` is non-degenerate (`|∂_j f(u)| < l_j` where `u_j = 0`), all but
finitely many iterates have exactly its zeros and its signs. -/
theorem C122_lasso (H : SmoothStep S s L) {l : Fin n → ℝ} (hl : ∀ j, 0 ≤ l j) (hprox : S.prox = fun x t => proxLasso x l t)
    {u : Fin n → ℝ} (hu : IsUniqueMin Set.univ (fun w => S.f w + ∑ j, l j * |w j|) u) (hnd : ∀ j, u j = 0 → |S.grad u j| < l j)
    (x0 : Fin n → ℝ) : Finally S x0 fun x => SameSigns x u := by
  refine (lasso_setup H hl hprox).signs hu x0 fun j hj => ?_
  have hlt : |(u + (-s) • S.grad u) j| < l j * s := by
    simp only [Pi.add_apply, hj, zero_add, Pi.smul_apply, smul_eq_mul, abs_mul, abs_neg, abs_of_pos H.pos]
    rw [mul_comm]
    exact mul_lt_mul_of_pos_right (hnd j hj) H.pos
  have hc : Tendsto (fun v : Fin n → ℝ => |v j|) (𝓝 (u + (-s) • S.grad u)) (𝓝 |(u + (-s) • S.grad u) j|) :=
    (continuous_abs.comp (continuous_apply j)).tendsto _
  filter_upwards [hc.eventually_lt_const hlt] with v hv
  rw [hprox]
  simp only [proxLasso, relu]
  rw [max_eq_right (by linarith), mul_zero]

/-- **C122, elastic net**. -/
theorem C122_elastic_net (H : SmoothStep S s L) {lam gam : Fin n → ℝ} (hl : ∀ j, 0 ≤ lam j) (hg : ∀ j, 0 ≤ gam j)
    (hprox : S.prox = fun x t => proxElasticNet x lam gam t) {u : Fin n → ℝ}
    (hu : IsUniqueMin Set.univ (fun w => S.f w + ∑ j, lam j * (|w j| + gam j * (1 / 2) * w j ^ 2)) u)
    (hnd : ∀ j, u j = 0 → |S.grad u j| < lam j) (x0 : Fin n → ℝ) : Finally S x0 fun x => SameSigns x u := by
  have HS : Setup S Set.univ (fun w => ∑ j, lam j * (|w j| + gam j * (1 / 2) * w j ^ 2)) s L :=
    { H with
      prox := by
        rw [hprox]
        exact isProx_of_isUniqueMin fun x t ht => C14_elastic_net x lam gam t (fun j => mul_nonneg ht.le (hl j)) hg
      pen := convexOn_l1_sq hl hg
      closed := isClosed_univ
      cont := (continuous_finsetSum _ fun j _ => continuous_const.mul ((continuous_abs.comp (continuous_apply j)).add
        (continuous_const.mul ((continuous_apply j).pow 2)))).continuousOn }
  refine HS.signs hu x0 fun j hj => ?_
  have hlt : |(u + (-s) • S.grad u) j| < s * lam j := by
    simp only [Pi.add_apply, hj, zero_add, Pi.smul_apply, smul_eq_mul, abs_mul, abs_neg, abs_of_pos H.pos]
    exact mul_lt_mul_of_pos_left (hnd j hj) H.pos
  have hc : Tendsto (fun v : Fin n → ℝ => |v j|) (𝓝 (u + (-s) • S.grad u)) (𝓝 |(u + (-s) • S.grad u) j|) :=
    (continuous_abs.comp (continuous_apply j)).tendsto _
  filter_upwards [hc.eventually_lt_const hlt] with v hv
  rw [hprox]
  simp only [proxElasticNet, proxL1, relu]
  rw [max_eq_right (by linarith), mul_zero, zero_div]

/-- **C122, non-negative lasso**: non-degenerate means `∂_j f(u) > -l` where `u_j = 0`. -/
theorem C122_non_negative_lasso (H : SmoothStep S s L) {l : ℝ} (hl : 0 ≤ l) (hprox : S.prox = fun x t => proxNonNegativeLasso x l t)
    {u : Fin n → ℝ} (hu : IsUniqueMin {w | ∀ j, 0 ≤ w j} (fun w => S.f w + ∑ j, l * |w j|) u) (hnd : ∀ j, u j = 0 → -l < S.grad u j)
    (x0 : Fin n → ℝ) : Finally S x0 fun x => SameSigns x u := by
  have HS : Setup S {w | ∀ j, 0 ≤ w j} (fun w => ∑ j, l * |w j|) s L :=
    { H with
      prox := by
        rw [hprox]
        refine isProx_of_isUniqueMin fun x t ht => ?_
        have := C14_non_negative_lasso x l t
        simpa only [← Finset.mul_sum, mul_assoc] using this
      pen := (convexOn_l1 fun _ => hl).subset (Set.subset_univ _) convex_nonneg
      closed := by
        have e : {w : Fin n → ℝ | ∀ j, 0 ≤ w j} = ⋂ j, {w | 0 ≤ w j} := by ext w; simp
        rw [e]
        exact isClosed_iInter fun j => isClosed_le continuous_const (continuous_apply j)
      cont := (continuous_l1 fun _ => l).continuousOn }
  refine HS.signs hu x0 fun j hj => ?_
  have hlt : (u + (-s) • S.grad u) j < l * s := by
    simp only [Pi.add_apply, hj, zero_add, Pi.smul_apply, smul_eq_mul]
    nlinarith [hnd j hj, H.pos]
  filter_upwards [((continuous_apply j).tendsto (u + (-s) • S.grad u)).eventually_lt_const hlt] with v hv
  rw [hprox]
  simp only [proxNonNegativeLasso, relu]
  rw [max_eq_right (by linarith)]

end penalties

/-! ## Constraints -/

section constraints

variable {S : PG ℝ (Fin n → ℝ)} {s L : ℝ}

theorem proj_setup (H : SmoothStep S s L) {C : Set (Fin n → ℝ)} {projection : (Fin n → ℝ) → (Fin n → ℝ)} (hC : Convex ℝ C) (hCc : IsClosed C)
    (hp : ∀ x, IsUniqueProj C x (projection x)) : Setup (S.projected fun x _ => projection x) C (fun _ => 0) s L :=
  { vdot := H.vdot, sqrt := H.sqrt, upper := H.upper, lower := H.lower, step := H.step, pos := H.pos, le := H.le
    prox := isProx_of_isUniqueProj hp
    pen := convexOn_const 0 hC
    closed := hCc
    cont := continuousOn_const }

theorem isUniqueMin_add_zero {C : Set (Fin n → ℝ)} {f : (Fin n → ℝ) → ℝ} {u : Fin n → ℝ} (hu : IsUniqueMin C f u) :
    IsUniqueMin C (fun w => f w + (fun _ => (0 : ℝ)) w) u := by simpa only [add_zero] using hu

/-- **C122, bound constraints**: if the unique minimiser `u` of `f` in the box is non-degenerate (the derivative is positive at active
lower bounds and negative at active upper bounds), all but finitely many iterates have exactly its active bounds. -/
theorem C122_box (H : SmoothStep S s L) {lower upper : Fin n → ℝ} (hb : ∀ j, lower j ≤ upper j) {u : Fin n → ℝ}
    (hu : IsUniqueMin {w | ∀ j, lower j ≤ w j ∧ w j ≤ upper j} S.f u)
    (hnl : ∀ j, lower j < upper j → u j = lower j → 0 < S.grad u j) (hnu : ∀ j, lower j < upper j → u j = upper j → S.grad u j < 0)
    (x0 : Fin n → ℝ) : Finally (S.projected fun x _ => projectionBox x lower upper) x0 fun x =>
      ∀ j, (x j = lower j ↔ u j = lower j) ∧ (x j = upper j ↔ u j = upper j) := by
  have hcl : IsClosed {w : Fin n → ℝ | ∀ j, lower j ≤ w j ∧ w j ≤ upper j} := by
    have e : {w : Fin n → ℝ | ∀ j, lower j ≤ w j ∧ w j ≤ upper j} = ⋂ j, ({w | lower j ≤ w j} ∩ {w | w j ≤ upper j}) := by ext w; simp
    rw [e]
    exact isClosed_iInter fun j => (isClosed_le continuous_const (continuous_apply j)).inter (isClosed_le (continuous_apply j) continuous_const)
  have HS := proj_setup H (projection := fun x => projectionBox x lower upper) convex_box hcl fun x => C07_box x lower upper hb
  have hu' := isUniqueMin_add_zero hu
  refine finally_of (HS.eventually (P := fun x => ∀ j, (x j = lower j ↔ u j = lower j) ∧ (x j = upper j ↔ u j = upper j)) hu' x0 (eventually_all.mpr fun j => ?_))
  change ∀ᶠ v in 𝓝 (u + (-s) • S.grad u), (clip (v j) (lower j) (upper j) = lower j ↔ _) ∧ (clip (v j) (lower j) (upper j) = upper j ↔ _)
  have huj := hu.1 j
  rcases (hb j).eq_or_lt with he | hlt
  · refine Eventually.of_forall fun v => ?_
    have e1 : u j = lower j := le_antisymm (huj.2.trans_eq he.symm) huj.1
    have e2 : clip (v j) (lower j) (upper j) = lower j := by
      unfold clip; rw [← he]; exact min_eq_right (le_max_right _ _)
    rw [e2, e1]
    exact ⟨Iff.rfl, Iff.rfl⟩
  · have hcont := (continuous_apply j).tendsto (u + (-s) • S.grad u)
    have hs := H.pos
    rcases huj.1.eq_or_lt with h1 | h1
    · have h2 := hnl j hlt h1.symm
      have h3 : (u + (-s) • S.grad u) j < lower j := by
        simp only [Pi.add_apply, Pi.smul_apply, smul_eq_mul]; nlinarith
      filter_upwards [hcont.eventually_lt_const h3] with v hv
      have e2 : clip (v j) (lower j) (upper j) = lower j := by
        unfold clip; rw [max_eq_right hv.le, min_eq_left hlt.le]
      rw [e2, ← h1]
      simp
    rcases huj.2.eq_or_lt with h2 | h2
    · have h4 := hnu j hlt h2
      have h3 : upper j < (u + (-s) • S.grad u) j := by
        simp only [Pi.add_apply, Pi.smul_apply, smul_eq_mul]; nlinarith
      filter_upwards [hcont.eventually_const_lt h3] with v hv
      have e2 : clip (v j) (lower j) (upper j) = upper j := by
        unfold clip; rw [max_eq_left (by linarith), min_eq_right hv.le]
      rw [e2, h2]
      simp
    · have ht : Tendsto (fun v : Fin n → ℝ => clip (v j) (lower j) (upper j)) (𝓝 (u + (-s) • S.grad u)) (𝓝 (u j)) :=
        (tendsto_pi_nhds.mp (HS.tendsto_prox hu')) j
      filter_upwards [ht.eventually_lt_const h2, ht.eventually_const_lt h1] with v hv1 hv2
      exact ⟨⟨fun h => absurd h hv2.ne', fun h => absurd h h1.ne'⟩, ⟨fun h => absurd h hv1.ne, fun h => absurd h h2.ne⟩⟩

/-- **C122, non-negative variables**. -/
theorem C122_non_negative (H : SmoothStep S s L) {u : Fin n → ℝ} (hu : IsUniqueMin {w | ∀ j, 0 ≤ w j} S.f u)
    (hnd : ∀ j, u j = 0 → 0 < S.grad u j) (x0 : Fin n → ℝ) :
    Finally (S.projected fun x _ => projectionNonNegative x) x0 fun x => SameSigns x u := by
  have hcl : IsClosed {w : Fin n → ℝ | ∀ j, 0 ≤ w j} := by
    have e : {w : Fin n → ℝ | ∀ j, 0 ≤ w j} = ⋂ j, {w | 0 ≤ w j} := by ext w; simp
    rw [e]
    exact isClosed_iInter fun j => isClosed_le continuous_const (continuous_apply j)
  refine (proj_setup H (projection := projectionNonNegative) convex_nonneg hcl C07_non_negative).signs (isUniqueMin_add_zero hu) x0
    fun j hj => ?_
  have hlt : (u + (-s) • S.grad u) j < 0 := by
    simp only [Pi.add_apply, hj, zero_add, Pi.smul_apply, smul_eq_mul]
    nlinarith [hnd j hj, H.pos]
  change ∀ᶠ v in 𝓝 (u + (-s) • S.grad u), _
  filter_upwards [((continuous_apply j).tendsto (u + (-s) • S.grad u)).eventually_lt_const hlt] with v hv
  exact max_eq_right hv.le

/-- **C122, simplex**: non-degenerate means that the partial derivatives at the zeros of `u` are larger than those at its support. -/
theorem C122_simplex (H : SmoothStep S s L) {value : ℝ} (hval : 0 < value) {u : Fin n → ℝ}
    (hu : IsUniqueMin {w | (∀ j, 0 ≤ w j) ∧ ∑ j, w j = value} S.f u) (hnd : ∀ i j, u i ≠ 0 → u j = 0 → S.grad u i < S.grad u j)
    (x0 : Fin n → ℝ) : Finally (S.projected fun x _ => projectionSimplex x value) x0 fun x => SameSigns x u := by
  have hn : 0 < n := by
    rcases Nat.eq_zero_or_pos n with rfl | h
    · have := hu.1.2; simp at this; linarith
    · exact h
  have hcl : IsClosed {w : Fin n → ℝ | (∀ j, 0 ≤ w j) ∧ ∑ j, w j = value} := by
    have e : {w : Fin n → ℝ | (∀ j, 0 ≤ w j) ∧ ∑ j, w j = value} = (⋂ j, {w | 0 ≤ w j}) ∩ {w | ∑ j, w j = value} := by ext w; simp
    rw [e]
    exact (isClosed_iInter fun j => isClosed_le continuous_const (continuous_apply j)).inter
      (isClosed_eq (continuous_finsetSum _ fun j _ => continuous_apply j) continuous_const)
  have HS := proj_setup H (projection := fun x => projectionSimplex x value) convex_simplex hcl fun x => C08_simplex hn x value hval
  have hu' := isUniqueMin_add_zero hu
  refine HS.signs hu' x0 fun j hj => ?_
  obtain ⟨i, hi⟩ : ∃ i, u i ≠ 0 := by
    by_contra hcon
    push Not at hcon
    have := hu.1.2
    simp only [hcon, Finset.sum_const_zero] at this
    linarith
  have hi0 : 0 < u i := lt_of_le_of_ne (hu.1.1 i) hi.symm
  have ht : Tendsto (fun v : Fin n → ℝ => projectionSimplex v value i) (𝓝 (u + (-s) • S.grad u)) (𝓝 (u i)) :=
    (tendsto_pi_nhds.mp (HS.tendsto_prox hu')) i
  -- `v_j - τ(v)` with `τ(v) = v_i - p_i(v)`
  have hd : Tendsto (fun v : Fin n → ℝ => v j - (v i - projectionSimplex v value i)) (𝓝 (u + (-s) • S.grad u))
      (𝓝 ((u + (-s) • S.grad u) j - ((u + (-s) • S.grad u) i - u i))) :=
    ((continuous_apply j).tendsto _).sub (((continuous_apply i).tendsto _).sub ht)
  have hlt : (u + (-s) • S.grad u) j - ((u + (-s) • S.grad u) i - u i) < 0 := by
    simp only [Pi.add_apply, hj, Pi.smul_apply, smul_eq_mul]
    nlinarith [hnd i j hi hj, H.pos]
  change ∀ᶠ v in 𝓝 (u + (-s) • S.grad u), projectionSimplex v value j = 0
  filter_upwards [hd.eventually_lt_const hlt, ht.eventually_const_lt hi0] with v hv1 hv2
  obtain ⟨τ, h1, -⟩ := simplex_threshold hn v value hval
  have e : projectionSimplex v value i = v i - τ := by
    rw [h1 i] at hv2 ⊢
    unfold relu at hv2 ⊢
    rcases le_total (v i - τ) 0 with hle | hle
    · rw [max_eq_right hle] at hv2; exact absurd hv2 (lt_irrefl _)
    · exact max_eq_left hle
  rw [h1 j]
  exact max_eq_right (by linarith)

/-- **C122, l1 ball**: non-degenerate means that the partial derivatives at the zeros of `u` are smaller in absolute value than those at
its support. -/
theorem C122_l1_ball (H : SmoothStep S s L) {value : ℝ} (hval : 0 < value) {u : Fin n → ℝ}
    (hu : IsUniqueMin {w | ∑ j, |w j| ≤ value} S.f u) (hnz : u ≠ 0) (hnd : ∀ i j, u i ≠ 0 → u j = 0 → |S.grad u j| < |S.grad u i|)
    (x0 : Fin n → ℝ) : Finally (S.projected fun x _ => projectionL1Ball x value) x0 fun x => SameSigns x u := by
  obtain ⟨i, hi⟩ : ∃ i, u i ≠ 0 := by
    by_contra hcon
    push Not at hcon
    exact hnz (funext hcon)
  have hn : 0 < n := i.pos
  have hcs : Continuous fun w : Fin n → ℝ => ∑ j, |w j| := continuous_finsetSum _ fun j _ => continuous_abs.comp (continuous_apply j)
  have HS := proj_setup H (projection := fun x => projectionL1Ball x value) convex_l1_ball (isClosed_le hcs continuous_const)
    fun x => C09_l1_ball hn x value hval
  have hu' := isUniqueMin_add_zero hu
  have hs := H.pos
  refine HS.signs hu' x0 fun j hj => ?_
  have hgi : 0 < |S.grad u i| := (abs_nonneg _).trans_lt (hnd i j hi hj)
  have hfix : projectionL1Ball (u + (-s) • S.grad u) value = u := HS.fixed hu'
  set w := u + (-s) • S.grad u with hw
  have hwi : w i = u i - s * S.grad u i := by simp [hw]; ring
  have hwj : w j = -(s * S.grad u j) := by simp [hw, hj]
  -- the point before the projection lies outside the ball
  have hout : value < ∑ j, |w j| := by
    by_contra hcon
    unfold projectionL1Ball at hfix
    rw [if_pos (not_lt.mp hcon)] at hfix
    have h1 := congrFun hfix i
    rw [hwi] at h1
    have h2 : s * S.grad u i = 0 := by linarith
    rcases mul_eq_zero.mp h2 with h3 | h3
    · exact hs.ne' h3
    · rw [h3, abs_zero] at hgi; exact lt_irrefl _ hgi
  -- shape of the projection outside the ball
  have shape : ∀ v : Fin n → ℝ, value < ∑ j, |v j| → ∃ τ, 0 < τ ∧ (∀ k, projectionL1Ball v value k = sgn (v k) * relu (|v k| - τ)) := by
    intro v hv
    obtain ⟨τ, h1, h2⟩ := simplex_threshold hn (fun j => |v j|) value hval
    refine ⟨τ, ?_, fun k => ?_⟩
    · by_contra hcon
      have h3 : ∑ j, |v j| ≤ ∑ j, relu (|v j| - τ) := Finset.sum_le_sum fun k _ => by
        unfold relu
        exact le_max_of_le_left (by linarith)
      linarith
    · unfold projectionL1Ball
      rw [if_neg (not_le.mpr hv)]
      unfold projectionL1Sphere
      rw [h1 k]
  have nonzero : ∀ (a τ : ℝ), sgn a * relu (|a| - τ) ≠ 0 → 0 ≤ τ → |sgn a * relu (|a| - τ)| = |a| - τ ∧ |a - sgn a * relu (|a| - τ)| = τ := by
    intro a τ h0 hτ
    have hgt : 0 < |a| - τ := by
      by_contra hcon
      unfold relu at h0
      rw [max_eq_right (not_lt.mp hcon), mul_zero] at h0
      exact h0 rfl
    have er : relu (|a| - τ) = |a| - τ := max_eq_left hgt.le
    rw [er]
    rcases lt_trichotomy a 0 with ha | ha | ha
    · have e : sgn a = -1 := by simp [sgn, ha, not_lt.mpr ha.le]
      rw [e, abs_mul, abs_neg, abs_one, one_mul, abs_of_pos hgt, abs_of_neg ha]
      refine ⟨rfl, ?_⟩
      rw [show a - -1 * (-a - τ) = -τ by ring, abs_neg, abs_of_nonneg hτ]
    · subst ha
      rw [abs_zero] at hgt
      linarith
    · have e : sgn a = 1 := by simp [sgn, ha]
      rw [e, abs_mul, abs_one, one_mul, abs_of_pos hgt, abs_of_pos ha]
      refine ⟨rfl, ?_⟩
      rw [show a - 1 * (a - τ) = τ by ring, abs_of_nonneg hτ]
  have ht : Tendsto (fun v : Fin n → ℝ => projectionL1Ball v value i) (𝓝 w) (𝓝 (u i)) := (tendsto_pi_nhds.mp (HS.tendsto_prox hu')) i
  have hd : Tendsto (fun v : Fin n → ℝ => |v j| - (|v i| - |projectionL1Ball v value i|)) (𝓝 w) (𝓝 (|w j| - (|w i| - |u i|))) :=
    ((continuous_abs.comp (continuous_apply j)).tendsto _).sub (((continuous_abs.comp (continuous_apply i)).tendsto _).sub ht.abs)
  have hlt : |w j| - (|w i| - |u i|) < 0 := by
    obtain ⟨τ, hτ, h1⟩ := shape w hout
    have h2 := h1 i
    rw [hfix] at h2
    obtain ⟨h3, h4⟩ := nonzero (w i) τ (by rw [← h2]; exact hi) hτ.le
    rw [← h2] at h3 h4
    have h5 : |w i - u i| = s * |S.grad u i| := by
      rw [hwi, show u i - s * S.grad u i - u i = -(s * S.grad u i) by ring, abs_neg, abs_mul, abs_of_pos hs]
    have h6 : |w j| = s * |S.grad u j| := by rw [hwj, abs_neg, abs_mul, abs_of_pos hs]
    have := mul_lt_mul_of_pos_left (hnd i j hi hj) hs
    linarith
  change ∀ᶠ v in 𝓝 w, projectionL1Ball v value j = 0
  filter_upwards [hd.eventually_lt_const hlt, ht.eventually_ne hi, (hcs.tendsto w).eventually_const_lt hout] with v hv1 hv2 hv3
  obtain ⟨τ, hτ, h1⟩ := shape v hv3
  have h2 := h1 i
  have h3 := (nonzero (v i) τ (by rw [← h2]; exact hv2) hτ.le).1
  rw [← h2] at h3
  rw [h1 j]
  unfold relu
  rw [max_eq_right (by linarith), mul_zero]

end constraints

/-! ## Explicit numbers of iterations for the lasso -/

section explicit

variable {S : PG ℝ (Fin n → ℝ)} {s L : ℝ}

/-- Soft thresholding keeps the sign of a non-zero result and a zero result under small enough perturbations. -/
theorem soft_sign {v w t : ℝ} (ht : 0 ≤ t) (h0 : sgn w * relu (|w| - t) = 0 → |v - w| ≤ t - |w|)
    (h1 : sgn w * relu (|w| - t) ≠ 0 → |v - w| < |sgn w * relu (|w| - t)|) :
    (sgn v * relu (|v| - t) = 0 ↔ sgn w * relu (|w| - t) = 0) ∧ (0 < sgn v * relu (|v| - t) ↔ 0 < sgn w * relu (|w| - t)) ∧
      (sgn v * relu (|v| - t) < 0 ↔ sgn w * relu (|w| - t) < 0) := by
  have pos : ∀ {a : ℝ}, t < a → sgn a * relu (|a| - t) = a - t := by
    intro a ha
    have ha0 : 0 < a := ht.trans_lt ha
    unfold relu
    rw [abs_of_pos ha0, max_eq_left (by linarith)]
    simp [sgn, ha0]
  have neg : ∀ {a : ℝ}, a < -t → sgn a * relu (|a| - t) = a + t := by
    intro a ha
    have ha0 : a < 0 := by linarith
    unfold relu
    rw [abs_of_neg ha0, max_eq_left (by linarith)]
    simp [sgn, ha0, not_lt.mpr ha0.le]
    ring
  have zero : ∀ {a : ℝ}, |a| ≤ t → sgn a * relu (|a| - t) = 0 := by
    intro a ha
    unfold relu
    rw [max_eq_right (by linarith), mul_zero]
  rcases le_or_gt |w| t with hw | hw
  · have h2 := h0 (zero hw)
    have h3 : |v| ≤ t := by
      have := abs_add_le (v - w) w
      rw [sub_add_cancel] at this
      linarith
    rw [zero hw, zero h3]
    simp
  · rcases lt_abs.mp hw with hw | hw
    · rw [pos hw] at h1 ⊢
      have h2 := h1 (by linarith)
      rw [abs_of_pos (show 0 < w - t by linarith)] at h2
      have h3 := (abs_lt.mp h2).1
      rw [pos (show t < v by linarith)]
      exact ⟨⟨fun h => by linarith, fun h => by linarith⟩, ⟨fun _ => by linarith, fun _ => by linarith⟩, ⟨fun h => by linarith, fun h => by linarith⟩⟩
    · have hw' : w < -t := by linarith
      rw [neg hw'] at h1 ⊢
      have h2 := h1 (by linarith)
      rw [abs_of_neg (show w + t < 0 by linarith)] at h2
      have h3 := (abs_lt.mp h2).2
      rw [neg (show v < -t by linarith)]
      exact ⟨⟨fun h => by linarith, fun h => by linarith⟩, ⟨fun h => by linarith, fun h => by linarith⟩, ⟨fun _ => by linarith, fun _ => by linarith⟩⟩

/-- **C122, radius of identification**: a lasso step from a point at distance less than `ρ` of a minimiser gives its zeros and signs, where
`ρ` is the smallest of the non-zero `|u_j|` and of the `s (l_j - |∂_j f(u)|)` with `u_j = 0`. -/
theorem C122_radius (H : SmoothStep S s L) {l : Fin n → ℝ} (hl : ∀ j, 0 ≤ l j) (hprox : S.prox = fun x t => proxLasso x l t)
    {u : Fin n → ℝ} (hu : IsUniqueMin Set.univ (fun w => S.f w + ∑ j, l j * |w j|) u) {ρ : ℝ} (hρ : 0 ≤ ρ) (h1 : ∀ j, u j ≠ 0 → ρ ≤ |u j|)
    (h2 : ∀ j, u j = 0 → ρ ≤ s * (l j - |S.grad u j|)) {y : Fin n → ℝ} (hy : ∑ j, (y j - u j) ^ 2 < ρ ^ 2) :
    SameSigns (proxLasso (fun j => y j - s * S.grad y j) l s) u := by
  have hfix := (lasso_setup H hl hprox).fixed hu
  rw [hprox] at hfix
  have hs := H.pos
  have hne := gradStep_nonexpansive H.upper H.lower H.pos H.le u y
  have hyd : dot (y - u) (y - u) < ρ ^ 2 := by
    simpa only [dot, Pi.sub_apply, ← sq] using hy
  intro j
  have hj := (sq_le_dot _ j).trans_lt (hne.trans_lt hyd)
  have hj2 : |(y + (-s) • S.grad y - (u + (-s) • S.grad u)) j| < ρ := abs_lt_of_sq_lt_sq hj hρ
  have ey : (y + (-s) • S.grad y) j = y j - s * S.grad y j := by simp; ring
  have eu : sgn ((u + (-s) • S.grad u) j) * relu (|(u + (-s) • S.grad u) j| - l j * s) = u j := congrFun hfix j
  have key := soft_sign (v := (y + (-s) • S.grad y) j) (w := (u + (-s) • S.grad u) j) (t := l j * s) (mul_nonneg (hl j) hs.le)
    (fun h0 => by
      rw [eu] at h0
      have h3 := h2 j h0
      have e : |(u + (-s) • S.grad u) j| = s * |S.grad u j| := by
        simp only [Pi.add_apply, h0, zero_add, Pi.smul_apply, smul_eq_mul, abs_mul, abs_neg, abs_of_pos hs]
      rw [e]
      have := hj2.le
      rw [Pi.sub_apply] at this
      linarith)
    (fun h0 => by
      rw [eu] at h0 ⊢
      exact hj2.trans_le (h1 j h0))
  rw [eu, ey] at key
  exact key

/-- **C122, explicit number of iterations without acceleration**: if `f` is also `μ`-strongly convex, the zeros and signs are right in
iteration `k + 1` and ever after as soon as `(1 - s μ)^k ‖x0 - u‖² < ρ²`. -/
theorem C122_plain (H : SmoothStep S s L) {l : Fin n → ℝ} (hl : ∀ j, 0 ≤ l j) (hprox : S.prox = fun x t => proxLasso x l t) {mu : ℝ}
    (hmu : ∀ x y, S.f x + dot (y - x) (S.grad x) + mu / 2 * dot (y - x) (y - x) ≤ S.f y) (hmu0 : 0 ≤ mu) (hmu1 : s * mu ≤ 1)
    (hacc : S.acceleration = false) {u : Fin n → ℝ} (hu : IsUniqueMin Set.univ (fun w => S.f w + ∑ j, l j * |w j|) u) {ρ : ℝ} (hρ : 0 ≤ ρ)
    (h1 : ∀ j, u j ≠ 0 → ρ ≤ |u j|) (h2 : ∀ j, u j = 0 → ρ ≤ s * (l j - |S.grad u j|)) (x0 : Fin n → ℝ) {k : ℕ}
    (hk : (1 - s * mu) ^ k * ∑ j, (x0 j - u j) ^ 2 < ρ ^ 2) {i : ℕ} (hi : k < i) : SameSigns (S.iterate x0 i).1 u := by
  have hs := H.pos
  obtain ⟨i, rfl⟩ : ∃ j, i = j + 1 := ⟨i - 1, by omega⟩
  rw [S.iterate_base H.step hs]
  have e : S.base (S.iterate x0 i) = (S.iterate x0 i).1 := by simp [PG.base, hacc]
  rw [e, hprox]
  have hl1 := S.C77_linear (by rw [H.vdot]; exact isVdot_dot) (by rw [H.vdot]; exact (lasso_setup H hl hprox).prox) (lasso_setup H hl hprox).pen
    (by rw [H.vdot]; exact H.upper) (by rw [H.vdot]; exact hmu) hacc H.step hs H.le (by linarith) x0 (u := u) (Set.mem_univ _)
    (fun w _ => by
      rcases eq_or_ne w u with rfl | hne
      · exact le_rfl
      · exact (hu.2 w (Set.mem_univ _) hne).le) i
  rw [H.vdot] at hl1
  have hd : ∑ j, ((S.iterate x0 i).1 j - u j) ^ 2 < ρ ^ 2 := by
    have e1 : ∑ j, ((S.iterate x0 i).1 j - u j) ^ 2 = dot ((S.iterate x0 i).1 - u) ((S.iterate x0 i).1 - u) := by
      simp only [dot, Pi.sub_apply, ← sq]
    have e2 : ∑ j, (x0 j - u j) ^ 2 = dot (x0 - u) (x0 - u) := by simp only [dot, Pi.sub_apply, ← sq]
    rw [e1]
    rw [e2] at hk
    refine (hl1.trans ?_).trans_lt hk
    exact mul_le_mul_of_nonneg_right (pow_le_pow_of_le_one (by linarith) (by nlinarith [mul_nonneg hs.le hmu0]) (by omega))
      (isVdot_dot.nonneg _)
  have key := C122_radius H hl hprox hu hρ h1 h2 hd
  have e3 : (S.iterate x0 i).1 + (-s) • S.grad (S.iterate x0 i).1 =
      fun j => (S.iterate x0 i).1 j - s * S.grad (S.iterate x0 i).1 j := by
    funext j; simp; ring
  rw [e3]
  exact key

/-- **C122, explicit number of iterations with acceleration**: the zeros and signs are right in iteration `k + 1` and ever after as soon as
`36 ‖x0 - u‖² < μ s k² ρ²`. -/
theorem C122_accelerated (H : SmoothStep S s L) {l : Fin n → ℝ} (hl : ∀ j, 0 ≤ l j) (hprox : S.prox = fun x t => proxLasso x l t) {mu : ℝ}
    (hmu : ∀ x y, S.f x + dot (y - x) (S.grad x) + mu / 2 * dot (y - x) (y - x) ≤ S.f y) (hmu0 : 0 < mu)
    (hacc : S.acceleration = true) {u : Fin n → ℝ} (hu : IsUniqueMin Set.univ (fun w => S.f w + ∑ j, l j * |w j|) u) {ρ : ℝ} (hρ : 0 ≤ ρ)
    (h1 : ∀ j, u j ≠ 0 → ρ ≤ |u j|) (h2 : ∀ j, u j = 0 → ρ ≤ s * (l j - |S.grad u j|)) (x0 : Fin n → ℝ) {k : ℕ}
    (hk : 36 * ∑ j, (x0 j - u j) ^ 2 < mu * s * k ^ 2 * ρ ^ 2) {i : ℕ} (hi : k < i) : SameSigns (S.iterate x0 i).1 u := by
  have hs := H.pos
  have hv := isVdot_dot (n := n)
  have HS := lasso_setup H hl hprox
  obtain ⟨i, rfl⟩ : ∃ j, i = j + 1 := ⟨i - 1, by omega⟩
  have e2 : ∑ j, (x0 j - u j) ^ 2 = dot (x0 - u) (x0 - u) := by simp only [dot, Pi.sub_apply, ← sq]
  rw [e2] at hk
  set D := dot (x0 - u) (x0 - u) with hD
  have hD0 : 0 ≤ D := hv.nonneg _
  have hk1 : 1 ≤ k := by
    rcases Nat.eq_zero_or_pos k with rfl | h
    · norm_num at hk; linarith
    · exact h
  -- distance of the iterates
  have hx : ∀ q : ℕ, 1 ≤ q → mu * s * ((q : ℝ) + 1) ^ 2 * dot ((S.iterate x0 q).1 - u) ((S.iterate x0 q).1 - u) ≤ 4 * D := by
    intro q hq
    have g1 := S.gap H.vdot H.sqrt HS.prox HS.pen H.upper H.lower H.step hs H.le x0 (u := u) (Set.mem_univ _) hq
    simp only [gapBound, hacc, if_true] at g1
    have g2 := hmu u (S.iterate x0 q).1
    have g3 := ((fixed_iff hv HS.prox HS.pen u (S.grad u) hs).mp (HS.fixed hu)).2 (S.iterate x0 q).1 (Set.mem_univ _)
    have hq0 : (0 : ℝ) < (q : ℝ) + 1 := by positivity
    have g4 : mu / 2 * dot ((S.iterate x0 q).1 - u) ((S.iterate x0 q).1 - u) ≤ 2 * D / (s * (((q : ℝ) + 1) * ((q : ℝ) + 1))) := by linarith
    rw [le_div_iff₀ (by positivity)] at g4
    nlinarith
  have hy : mu * s * (i : ℝ) ^ 2 * dot (S.base (S.iterate x0 i) - u) (S.base (S.iterate x0 i) - u) ≤ 36 * D := by
    obtain ⟨q, rfl⟩ : ∃ q, i = q + 1 := ⟨i - 1, by omega⟩
    obtain ⟨-, b, hb0, hb1, hb2, he⟩ := S.velocity_succ H.sqrt hacc x0 q
    have e : S.base (S.iterate x0 (q + 1)) = (S.iterate x0 (q + 1)).2.velocity := by simp [PG.base, hacc]
    rw [e, he]
    have g1 := hx (q + 1) (by omega)
    push_cast at g1 ⊢
    set X := (S.iterate x0 (q + 1)).1
    set Y := (S.iterate x0 q).1
    have hc0 : 0 ≤ mu * s := by positivity
    have hX : mu * s * ((q : ℝ) + 1) ^ 2 * dot (X - u) (X - u) ≤ 4 * D := by
      refine le_trans ?_ g1
      have hq : ((q : ℝ) + 1) ^ 2 ≤ ((q : ℝ) + 1 + 1) ^ 2 := by nlinarith [Nat.cast_nonneg (α := ℝ) q]
      exact mul_le_mul_of_nonneg_right (mul_le_mul_of_nonneg_left hq hc0) (hv.nonneg _)
    have split : dot (X + b • (X - Y) - u) (X + b • (X - Y) - u) ≤ (1 + 2 * b) ^ 2 * ((1 + b) / (1 + 2 * b) * dot (X - u) (X - u) + b / (1 + 2 * b) * dot (Y - u) (Y - u)) := by
      have e3 : X + b • (X - Y) - u = (1 + b) • (X - u) - b • (Y - u) := by
        rw [add_smul, one_smul, smul_sub, smul_sub, smul_sub]; abel
      rw [e3]
      have n1 := hv.nonneg ((X - u) + (Y - u))
      set p := X - u
      set r := Y - u
      simp only [hv.sub_left, hv.sub_right, hv.smul_left, hv.smul_right, hv.add_left, hv.add_right, hv.symm r p] at n1 ⊢
      have hne : (1 + 2 * b) ≠ 0 := by linarith
      have e4 : (1 + 2 * b) ^ 2 * ((1 + b) / (1 + 2 * b) * dot p p + b / (1 + 2 * b) * dot r r) =
          (1 + 2 * b) * ((1 + b) * dot p p + b * dot r r) := by field_simp
      rw [e4]
      nlinarith [mul_nonneg (mul_nonneg hb0 (show 0 ≤ 1 + b by linarith)) n1]
    have bound : mu * s * ((q : ℝ) + 1) ^ 2 * (b * dot (Y - u) (Y - u)) ≤ b * (4 * D) := by
      rcases Nat.eq_zero_or_pos q with hq | hq
      · rw [hb2 hq]; simp
      · have := mul_le_mul_of_nonneg_left (hx q hq) hb0
        linarith
    have e4 : (1 + 2 * b) ^ 2 * ((1 + b) / (1 + 2 * b) * dot (X - u) (X - u) + b / (1 + 2 * b) * dot (Y - u) (Y - u)) =
          (1 + 2 * b) * ((1 + b) * dot (X - u) (X - u) + b * dot (Y - u) (Y - u)) := by
      have hne : (1 + 2 * b) ≠ 0 := by linarith
      field_simp
    rw [e4] at split
    have hpos : 0 ≤ mu * s * ((q : ℝ) + 1) ^ 2 := by positivity
    calc mu * s * ((q : ℝ) + 1) ^ 2 * dot (X + b • (X - Y) - u) (X + b • (X - Y) - u)
        ≤ mu * s * ((q : ℝ) + 1) ^ 2 * ((1 + 2 * b) * ((1 + b) * dot (X - u) (X - u) + b * dot (Y - u) (Y - u))) :=
          mul_le_mul_of_nonneg_left split hpos
      _ = (1 + 2 * b) * ((1 + b) * (mu * s * ((q : ℝ) + 1) ^ 2 * dot (X - u) (X - u)) + mu * s * ((q : ℝ) + 1) ^ 2 * (b * dot (Y - u) (Y - u))) := by ring
      _ ≤ (1 + 2 * b) * ((1 + b) * (4 * D) + b * (4 * D)) := by
          refine mul_le_mul_of_nonneg_left (add_le_add (mul_le_mul_of_nonneg_left hX (by linarith)) bound) (by linarith)
      _ ≤ 36 * D := by
          have h9 : (1 + 2 * b) ^ 2 ≤ 9 := by nlinarith
          nlinarith [mul_le_mul_of_nonneg_right h9 hD0]
  rw [S.iterate_base H.step hs, hprox]
  set y := S.base (S.iterate x0 i)
  have hd : ∑ j, (y j - u j) ^ 2 < ρ ^ 2 := by
    have e1 : ∑ j, (y j - u j) ^ 2 = dot (y - u) (y - u) := by simp only [dot, Pi.sub_apply, ← sq]
    rw [e1]
    have hi0 : (0 : ℝ) < (i : ℝ) ^ 2 := by
      have : (0 : ℝ) < i := by exact_mod_cast (show 0 < i by omega)
      positivity
    have hki : (k : ℝ) ^ 2 ≤ (i : ℝ) ^ 2 := by
      have : (k : ℝ) ≤ i := by exact_mod_cast (show k ≤ i by omega)
      nlinarith [Nat.cast_nonneg (α := ℝ) k]
    have h3 : mu * s * k ^ 2 * ρ ^ 2 ≤ mu * s * i ^ 2 * ρ ^ 2 :=
      mul_le_mul_of_nonneg_right (mul_le_mul_of_nonneg_left hki (by positivity)) (sq_nonneg _)
    have h4 : mu * s * (i : ℝ) ^ 2 * dot (y - u) (y - u) < mu * s * i ^ 2 * ρ ^ 2 := by linarith
    exact lt_of_mul_lt_mul_left h4 (by positivity)
  have key := C122_radius H hl hprox hu hρ h1 h2 hd
  have e3 : y + (-s) • S.grad y = fun j => y j - s * S.grad y j := by
    funext j; simp; ring
  rw [e3]
  exact key

end explicit

/-! ## Regression -/

/-- **C122, lasso regression**: `ProximalGradient(least_squares, prox_lasso)` with a constant step of at most `m / Σ X_ij²`, with or without
acceleration.  If the lasso problem has a unique solution `u` and the correlations of the residuals with the columns of the zero
coefficients are strictly below the penalty, all but finitely many iterates have the zeros and signs of `u`. -/
theorem C122_lasso_regression (o : PG ℝ (Fin n → ℝ)) (X : Matrix (Fin m) (Fin n) ℝ) (hm : 1 ≤ m) {s : ℝ} (hstep : o.stepsize = .const s)
    (hs : 0 < s) (y : Fin m → ℝ) (hsX : s * sqEntries X ≤ m) {l : Fin n → ℝ} (hl : ∀ j, 0 ≤ l j) {u : Fin n → ℝ}
    (hu : IsUniqueMin Set.univ (fun w => halfMeanSq X y w + ∑ j, l j * |w j|) u)
    (hnd : ∀ j, u j = 0 → |1 / (m : ℝ) * ∑ i, X i j * (∑ k, X i k * u k - y i)| < l j) (x0 : Fin n → ℝ) :
    Finally (solver o (leastSquares (fun a b => a * b) 1 X y) fun x t => proxLasso x l t) x0 fun x => SameSigns x u := by
  have hm' : (0 : ℝ) < m := by exact_mod_cast hm
  obtain ⟨q1, q2⟩ := smooth_of_sandwich (by positivity) (leastSquares_sandwich X y)
  have H : SmoothStep (solver o (leastSquares (fun a b => a * b) 1 X y) fun x t => proxLasso x l t) s
      (1 / ((m * 1 : ℕ) : ℝ) * sqEntries X) :=
    ⟨rfl, rfl, q1, q2, hstep, hs, by
      rw [mul_one, show s * (1 / (m : ℝ) * sqEntries X) = s * sqEntries X / m by ring, div_le_one hm']; exact hsX⟩
  refine C122_lasso H hl rfl ?_ (fun j hj => ?_) x0
  · simpa only [solver, leastSquares_value hm] using hu
  · have := hnd j hj
    refine lt_of_eq_of_lt (congrArg abs ?_) this
    simp only [solver, Composite.gradAt, rmatvecElement, leastSquares, matvec, smul_eq_mul, mul_one, Finset.mul_sum,
      Option.getD_none, Pi.zero_apply, add_zero]
    exact Finset.sum_congr rfl fun i _ => by ring

/-! ## Degenerate solutions -/

/-- `½ (w - 1)²` with penalty `|w|`: the solution 0 is degenerate. -/
noncomputable def exDegenerate : PG ℝ (Fin 1 → ℝ) :=
  ⟨fun w => 1 / 2 * (w 0 - 1) ^ 2, fun w _ => w 0 - 1, fun x t => proxLasso x (fun _ => 1) t, dot, fun x => Real.sqrt (dot x x), Real.sqrt, 0,
    .const (1 / 2), 99, 15, 1 / 1000, false, 1 / 2, true, true⟩

/-- **C122 is false for degenerate solutions**: there is a strongly convex lasso problem with the unique solution 0 all of whose iterates are
non-zero. -/
theorem C122_degenerate_false : ∃ (S : PG ℝ (Fin 1 → ℝ)) (s L : ℝ) (l u x0 : Fin 1 → ℝ), SmoothStep S s L ∧ (∀ j, 0 ≤ l j) ∧
    S.prox = (fun x t => proxLasso x l t) ∧ IsUniqueMin Set.univ (fun w => S.f w + ∑ j, l j * |w j|) u ∧
    (∀ x y, S.f x + dot (y - x) (S.grad x) + 1 / 2 * dot (y - x) (y - x) ≤ S.f y) ∧ ∀ k, ¬ SameSigns (S.iterate x0 k).1 u := by
  refine ⟨exDegenerate, 1 / 2, 1, fun _ => 1, fun _ => 0, fun _ => 1, ⟨rfl, rfl, ?_, ?_, rfl, by norm_num, by norm_num⟩, fun _ => zero_le_one,
    rfl, ⟨Set.mem_univ _, fun w _ hw => ?_⟩, ?_, fun k hk => ?_⟩
  · intro x y; simp only [exDegenerate, dot, Finset.univ_unique, Fin.default_eq_zero, Finset.sum_singleton, Pi.sub_apply]; nlinarith
  · intro x y; simp only [exDegenerate, dot, Finset.univ_unique, Fin.default_eq_zero, Finset.sum_singleton, Pi.sub_apply]
    nlinarith [sq_nonneg (y 0 - x 0)]
  · have h0 : w 0 ≠ 0 := fun h => hw (funext fun i => by rw [Subsingleton.elim i 0, h])
    simp only [exDegenerate, Finset.univ_unique, Fin.default_eq_zero, Finset.sum_singleton, abs_zero]
    nlinarith [le_abs_self (w 0), sq_pos_of_ne_zero h0]
  · intro x y; simp only [exDegenerate, dot, Finset.univ_unique, Fin.default_eq_zero, Finset.sum_singleton, Pi.sub_apply]; nlinarith
  · have key : ∀ k, (exDegenerate.iterate (fun _ => 1) k).1 = fun _ => (1 / 2) ^ k := by
      intro k
      induction k with
      | zero => funext j; simp [PG.iterate]
      | succ k ih =>
        rw [exDegenerate.iterate_base (s := 1 / 2) rfl (by norm_num)]
        have e : exDegenerate.base (exDegenerate.iterate (fun _ => 1) k) = fun _ => (1 / 2) ^ k := by rw [← ih]; rfl
        rw [e]
        funext j
        have hp : (0 : ℝ) < (1 / 2) ^ k := by positivity
        simp only [exDegenerate, proxLasso, Pi.add_apply, Pi.smul_apply, smul_eq_mul]
        have e2 : ((1 / 2 : ℝ) ^ k + -(1 / 2) * ((1 / 2) ^ k - 1)) = (1 / 2) ^ k * (1 / 2) + 1 / 2 := by ring
        have hpos : (0 : ℝ) < (1 / 2) ^ k * (1 / 2) + 1 / 2 := by positivity
        rw [e2, abs_of_pos hpos]
        unfold relu sgn
        rw [if_pos hpos, max_eq_left (by linarith [mul_pos hp (show (0 : ℝ) < 1 / 2 by norm_num)]), pow_succ]
        ring
    have h1 := (hk 0).1.mpr rfl
    rw [key] at h1
    exact absurd h1 (by positivity)

/-! ## Examples -/

theorem exLasso_min : IsUniqueMin Set.univ (fun w : Fin 2 → ℝ => halfMeanSq !![1, 0; 0, (1 : ℝ)] ![2, 1 / 2] w + ∑ j, 1 / 2 * |w j|) ![1, 0] := by
  refine ⟨Set.mem_univ _, fun w _ hw => ?_⟩
  have h0 : w 0 ≠ 1 ∨ w 1 ≠ 0 := by
    by_contra hcon
    push Not at hcon
    exact hw (funext fun j => by fin_cases j <;> simp [hcon])
  simp only [halfMeanSq, Fin.sum_univ_two]
  norm_num
  have a1 := le_abs_self (w 0)
  have a2 := le_abs_self (w 1)
  have p1 : 0 < (w 0 - 1) ^ 2 + w 1 ^ 2 := by
    rcases h0 with h | h
    · have := sq_pos_of_ne_zero (sub_ne_zero.mpr h); positivity
    · have := sq_pos_of_ne_zero h; positivity
  nlinarith [abs_nonneg (w 1)]

/-- Two orthogonal features: from every start, with and without acceleration, the second coefficient is eventually exactly zero and the
first positive. -/
example (acceleration : Bool) (x0 : Fin 2 → ℝ) :
    Finally (solver (options 1 acceleration) (leastSquares (fun a b => a * b) 1 !![1, 0; 0, (1 : ℝ)] ![2, 1 / 2])
      fun x t => proxLasso x (fun _ => 1 / 2) t) x0 fun x => SameSigns x ![1, 0] := by
  refine C122_lasso_regression (options 1 acceleration) _ (by norm_num) rfl one_pos _ (by simp [sqEntries, Fin.sum_univ_two]; norm_num)
    (fun _ => by norm_num) exLasso_min (fun j hj => ?_) x0
  fin_cases j
  · simp at hj
  · simp [Fin.sum_univ_two]; norm_num

/-- A box: minimising `½ (w - 3)²` on `[0, 1]`; the upper bound is active and non-degenerate. -/
noncomputable def exBox : PG ℝ (Fin 1 → ℝ) :=
  ⟨fun w => 1 / 2 * (w 0 - 3) ^ 2, fun w _ => w 0 - 3, fun x _ => x, dot, fun x => Real.sqrt (dot x x), Real.sqrt, 0, .const (1 / 2), 99, 15,
    1 / 1000, true, 1 / 2, true, true⟩

example (x0 : Fin 1 → ℝ) : Finally (exBox.projected fun x _ => projectionBox x (fun _ => 0) (fun _ => 1)) x0 fun x =>
    ∀ j, (x j = 0 ↔ (1 : ℝ) = 0) ∧ (x j = 1 ↔ (1 : ℝ) = 1) := by
  have H : SmoothStep exBox (1 / 2) 1 := by
    refine ⟨rfl, rfl, ?_, ?_, rfl, by norm_num, by norm_num⟩
    · intro x y; simp only [exBox, dot, Finset.univ_unique, Fin.default_eq_zero, Finset.sum_singleton, Pi.sub_apply]; nlinarith
    · intro x y; simp only [exBox, dot, Finset.univ_unique, Fin.default_eq_zero, Finset.sum_singleton, Pi.sub_apply]
      nlinarith [sq_nonneg (y 0 - x 0)]
  refine C122_box H (u := fun _ => 1) (fun _ => zero_le_one) ⟨fun _ => by norm_num, fun w hw hne => ?_⟩ (fun j _ h => by norm_num at h)
    (fun j _ _ => by norm_num [exBox]) x0
  have h0 : w 0 ≠ 1 := fun h => hne (funext fun i => by rw [Subsingleton.elim i 0, h])
  have h1 := lt_of_le_of_ne (hw 0).2 h0
  simp only [exBox]
  nlinarith

/-- `½ ‖w - (2, ½)‖²` with penalty `‖w‖₁`, step `½`. -/
noncomputable def exTwo (acceleration : Bool) : PG ℝ (Fin 2 → ℝ) :=
  ⟨fun w => 1 / 2 * ((w 0 - 2) ^ 2 + (w 1 - 1 / 2) ^ 2), fun w => ![w 0 - 2, w 1 - 1 / 2], fun x t => proxLasso x (fun _ => 1) t, dot,
    fun x => Real.sqrt (dot x x), Real.sqrt, 0, .const (1 / 2), 99, 15, 1 / 1000, acceleration, 1 / 2, true, true⟩

theorem exTwo_strong (acceleration : Bool) (x y : Fin 2 → ℝ) : (exTwo acceleration).f x + dot (y - x) ((exTwo acceleration).grad x) +
    1 / 2 * dot (y - x) (y - x) = (exTwo acceleration).f y := by
  simp only [exTwo, dot, Fin.sum_univ_two, Pi.sub_apply, Matrix.cons_val_zero, Matrix.cons_val_one]; ring

theorem exTwo_smooth (acceleration : Bool) : SmoothStep (exTwo acceleration) (1 / 2) 1 :=
  ⟨rfl, rfl, fun x y => (exTwo_strong acceleration x y).ge, fun x y => by
    have := exTwo_strong acceleration x y
    have := isVdot_dot.nonneg (y - x)
    linarith, rfl, by norm_num, by norm_num⟩

theorem exTwo_ne {w : Fin 2 → ℝ} (hw : w ≠ ![1, 0]) : 0 < (w 0 - 1) ^ 2 + w 1 ^ 2 := by
  have h0 : w 0 ≠ 1 ∨ w 1 ≠ 0 := by
    by_contra hcon
    push Not at hcon
    exact hw (funext fun j => by fin_cases j <;> simp [hcon])
  rcases h0 with h | h
  · have := sq_pos_of_ne_zero (sub_ne_zero.mpr h); positivity
  · have := sq_pos_of_ne_zero h; positivity

theorem exTwo_min (acceleration : Bool) : IsUniqueMin Set.univ (fun w => (exTwo acceleration).f w + ∑ j, (fun _ => 1 : Fin 2 → ℝ) j * |w j|) ![1, 0] := by
  refine ⟨Set.mem_univ _, fun w _ hw => ?_⟩
  have p1 := exTwo_ne hw
  simp only [exTwo, Fin.sum_univ_two]
  norm_num
  nlinarith [abs_nonneg (w 1), le_abs_self (w 0), le_abs_self (w 1)]

/-- From `(9, 8)` the zero of the second coefficient is found after at most 13 plain iterations and at most 386 accelerated ones. -/
example {i : ℕ} (hi : 12 < i) : SameSigns ((exTwo false).iterate ![9, 8] i).1 ![1, 0] := by
  refine C122_plain (mu := 1) (ρ := 1 / 4) (exTwo_smooth false) (fun _ => zero_le_one) rfl (fun x y => (exTwo_strong false x y).le)
    zero_le_one (by norm_num) rfl (exTwo_min false) (by norm_num) (fun j hj => ?_) (fun j hj => ?_) ![9, 8] (k := 12) ?_ hi
  · fin_cases j
    · norm_num
    · simp at hj
  · fin_cases j
    · simp at hj
    · norm_num [exTwo]
  · norm_num [Fin.sum_univ_two]

example {i : ℕ} (hi : 385 < i) : SameSigns ((exTwo true).iterate ![9, 8] i).1 ![1, 0] := by
  refine C122_accelerated (mu := 1) (ρ := 1 / 4) (exTwo_smooth true) (fun _ => zero_le_one) rfl (fun x y => (exTwo_strong true x y).le)
    zero_lt_one rfl (exTwo_min true) (by norm_num) (fun j hj => ?_) (fun j hj => ?_) ![9, 8] (k := 385) ?_ hi
  · fin_cases j
    · norm_num
    · simp at hj
  · fin_cases j
    · simp at hj
    · norm_num [exTwo]
  · norm_num [Fin.sum_univ_two]

/-- The same function on the simplex and on the l1 ball. -/
example (acceleration : Bool) (x0 : Fin 2 → ℝ) :
    Finally ((exTwo acceleration).projected fun x _ => projectionSimplex x 1) x0 fun x => SameSigns x ![1, 0] := by
  refine C122_simplex (exTwo_smooth acceleration) zero_lt_one ⟨⟨fun j => by fin_cases j <;> norm_num, by norm_num⟩, fun w hw hne => ?_⟩
    (fun i j hi hj => ?_) x0
  · have p1 := exTwo_ne hne
    have h1 := hw.1 0
    have h2 := hw.1 1
    have h3 := hw.2
    simp only [Fin.sum_univ_two] at h3
    simp only [exTwo]
    norm_num
    nlinarith
  · fin_cases i <;> fin_cases j <;> try simp at hi hj
    norm_num [exTwo]

example (acceleration : Bool) (x0 : Fin 2 → ℝ) :
    Finally ((exTwo acceleration).projected fun x _ => projectionL1Ball x 1) x0 fun x => SameSigns x ![1, 0] := by
  refine C122_l1_ball (exTwo_smooth acceleration) zero_lt_one ⟨by simp, fun w hw hne => ?_⟩
    (fun h => by have := congrFun h 0; simp at this) (fun i j hi hj => ?_) x0
  · have p1 := exTwo_ne hne
    have h3 : ∑ j, |w j| ≤ 1 := hw
    simp only [Fin.sum_univ_two] at h3
    simp only [exTwo]
    norm_num
    nlinarith [abs_nonneg (w 1), le_abs_self (w 0), le_abs_self (w 1)]
  · fin_cases i <;> fin_cases j <;> try simp at hi hj
    norm_num [exTwo, abs_of_pos]

end Jaxopt.ProxGrad
