import Verif.QP.Kkt
import Verif.Num.Vdot
import Verif.ProxGrad.Lemmas
import Verif.Base.Util
import Mathlib.LinearAlgebra.FiniteDimensional.Basic
import Mathlib.LinearAlgebra.BilinearForm.Orthogonal
import Mathlib.Algebra.Order.Ring.Rat
import Mathlib.Algebra.Order.BigOperators.Group.Finset
import Mathlib.Tactic.LinearCombination
import Mathlib.Tactic.Abel

/-!
# Property C37: KKT residuals certify optimality, and `EqualityConstrainedQP`
-/

set_option autoImplicit false
set_option linter.unusedSectionVars false
set_option linter.unusedVariables false

namespace Jaxopt.QP

open Jaxopt.FixedPoint Jaxopt.Base Jaxopt.ProxGrad

variable {K E F ι : Type*} [Field K] [LinearOrder K] [IsStrictOrderedRing K] [AddCommGroup E] [Module K E] [AddCommGroup F]
  [Module K F] [Fintype ι]

/-! ## The certificate -/

/-- The KKT residual vanishes (entries that are absent are not tested). -/
def KKT.Zero (r : KKT K E F ι) : Prop := r.primal = 0 ∧ (∀ v, r.dualEq = some v → v = 0) ∧ ∀ v, r.dualIneq = some v → v = 0

/-- **C37**, certificate for convex problems: if the KKT function vanishes at `(x, y, lam)` with `lam ≥ 0` and `x` satisfies the
inequalities, then `x` is feasible and minimises `f` over the feasible set.  `f` satisfies the gradient inequality, the equality
constraint is affine, every non-negative combination of the inequality constraints satisfies the gradient inequality, and the
vector-Jacobian products are those of the constraints. -/
theorem C37_certificate {vdot : E → E → K} {vdotF : F → F → K} (hv : IsVdot vdot) (hF : IsVdot vdotF) {f : E → K} {grad : E → E} (hf : GradIneq vdot f grad)
    {eqFun : E → F} {eqVjp : E → F → E} (heq : ∀ x x' y, vdot (x' - x) (eqVjp x y) = vdotF (eqFun x' - eqFun x) y)
    {ineqFun : E → ι → K} {ineqVjp : E → (ι → K) → E}
    (hineq : ∀ x x' l, (∀ i, 0 ≤ l i) → ∑ i, ineqFun x i * l i + vdot (x' - x) (ineqVjp x l) ≤ ∑ i, ineqFun x' i * l i)
    (x : E) (y : F) (lam : ι → K) (hlam : ∀ i, 0 ≤ lam i) (hfeas : ∀ i, ineqFun x i ≤ 0)
    (hz : (kktOptimality grad eqFun eqVjp ineqFun ineqVjp ⟨x, some y, some lam⟩).Zero) :
    (eqFun x = 0 ∧ ∀ i, ineqFun x i ≤ 0) ∧ ∀ x', eqFun x' = 0 → (∀ i, ineqFun x' i ≤ 0) → f x ≤ f x' := by
  obtain ⟨h1, h2, h3⟩ := hz
  have hs : grad x + eqVjp x y + ineqVjp x lam = 0 := h1
  have he : eqFun x = 0 := h2 _ rfl
  have hc : ∀ i, ineqFun x i * lam i = 0 := fun i => congrFun (h3 _ rfl) i
  refine ⟨⟨he, hfeas⟩, fun x' he' hi' => ?_⟩
  have a1 := hf x x'
  have a2 := heq x x' y
  rw [he, he', sub_self, hF.zero_left] at a2
  have a3 := hineq x x' lam hlam
  have a4 : ∑ i, ineqFun x i * lam i = 0 := Finset.sum_eq_zero fun i _ => hc i
  have a5 : ∑ i, ineqFun x' i * lam i ≤ 0 := Finset.sum_nonpos fun i _ => mul_nonpos_of_nonpos_of_nonneg (hi' i) (hlam i)
  have a6 : vdot (x' - x) (grad x + eqVjp x y + ineqVjp x lam) = 0 := by rw [hs, hv.zero_right]
  rw [hv.add_right, hv.add_right] at a6
  linarith

/-- A convex quadratic program over modules: minimise `½⟨x, Qx⟩ + ⟨x, c⟩` subject to `Ax = b`, `Gx ≤ h`. -/
structure QPData (K E F ι : Type*) [Field K] [AddCommGroup E] [Module K E] [AddCommGroup F] [Module K F] where
  Q : E →ₗ[K] E
  c : E
  A : E →ₗ[K] F
  b : F
  G : E →ₗ[K] (ι → K)
  h : ι → K

/-- The objective `½⟨x, Qx⟩ + ⟨x, c⟩`. -/
def quadObj (vdot : E → E → K) (Q : E →ₗ[K] E) (c x : E) : K := 1 / 2 * vdot x (Q x) + vdot x c

/-- The gradient that automatic differentiation computes for `quadObj`. -/
def quadGrad (Q Qt : E →ₗ[K] E) (c x : E) : E := (1 / 2 : K) • (Q x + Qt x) + c

theorem quadObj_expand {vdot : E → E → K} (hv : IsVdot vdot) {Q Qt : E →ₗ[K] E} (hQt : ∀ x y, vdot (Q x) y = vdot x (Qt y)) (c x d : E) :
    quadObj vdot Q c (x + d) = quadObj vdot Q c x + vdot d (quadGrad Q Qt c x) + 1 / 2 * vdot d (Q d) := by
  have e : vdot x (Q d) = vdot d (Qt x) := by rw [hv.symm, hQt]
  simp only [quadObj, quadGrad, map_add, hv.add_left, hv.add_right, hv.smul_right, e]
  ring

theorem quad_gradIneq {vdot : E → E → K} (hv : IsVdot vdot) {Q Qt : E →ₗ[K] E} (hQt : ∀ x y, vdot (Q x) y = vdot x (Qt y))
    (hpsd : ∀ x, 0 ≤ vdot x (Q x)) (c : E) : GradIneq vdot (quadObj vdot Q c) (quadGrad Q Qt c) := by
  intro x y
  have e : y = x + (y - x) := by abel
  have h := quadObj_expand hv hQt c x (y - x)
  rw [← e] at h
  have := hpsd (y - x)
  linarith

/-- **C37**, quadratic programs: a zero of the KKT function with non-negative inequality multipliers that satisfies the inequalities
is a global minimiser, for every positive semidefinite `Q` (symmetric or not). -/
theorem C37_qp {vdot : E → E → K} {vdotF : F → F → K} (hv : IsVdot vdot) (hF : IsVdot vdotF) (D : QPData K E F ι) {Qt : E →ₗ[K] E}
    (hQt : ∀ x y, vdot (D.Q x) y = vdot x (Qt y)) (hpsd : ∀ x, 0 ≤ vdot x (D.Q x)) {At : F →ₗ[K] E} (hAt : ∀ x y, vdotF (D.A x) y = vdot x (At y))
    {Gt : (ι → K) →ₗ[K] E} (hGt : ∀ x l, ∑ i, D.G x i * l i = vdot x (Gt l))
    (x : E) (y : F) (lam : ι → K) (hlam : ∀ i, 0 ≤ lam i) (hfeas : ∀ i, D.G x i ≤ D.h i)
    (hz : (kktOptimality (quadGrad D.Q Qt D.c) (fun x => D.A x - D.b) (fun _ => At) (fun x i => D.G x i - D.h i) (fun _ => Gt)
      ⟨x, some y, some lam⟩).Zero) :
    (D.A x = D.b ∧ ∀ i, D.G x i ≤ D.h i) ∧
      ∀ x', D.A x' = D.b → (∀ i, D.G x' i ≤ D.h i) → quadObj vdot D.Q D.c x ≤ quadObj vdot D.Q D.c x' := by
  have := C37_certificate hv hF (quad_gradIneq hv hQt hpsd D.c) (eqFun := fun x => D.A x - D.b) (eqVjp := fun _ => At)
    (fun x x' y => by
      rw [← hAt, map_sub]; congr 1; abel)
    (ineqFun := fun x i => D.G x i - D.h i) (ineqVjp := fun _ => Gt)
    (fun x x' l _ => by
      rw [← hGt, ← Finset.sum_add_distrib]
      exact (Finset.sum_congr rfl fun i _ => by rw [map_sub, Pi.sub_apply]; ring).le)
    x y lam hlam (fun i => sub_nonpos.mpr (hfeas i)) hz
  obtain ⟨⟨h1, -⟩, h3⟩ := this
  exact ⟨⟨sub_eq_zero.mp h1, hfeas⟩, fun x' he hi => h3 x' (sub_eq_zero.mpr he) fun i => sub_nonpos.mpr (hi i)⟩

/-! ## `EqualityConstrainedQP` -/

/-- The data are those of a convex equality-constrained QP: `Q` symmetric positive semidefinite and `At` the transpose of `A`. -/
structure EqQP.Convex (S : EqQP K E F) (vdot : E → E → K) (vdotF : F → F → K) : Prop where
  hv : IsVdot vdot
  hF : IsVdot vdotF
  sym : ∀ x y, vdot (S.Q x) y = vdot x (S.Q y)
  qt : ∀ x, S.Qt x = S.Q x
  psd : ∀ x, 0 ≤ vdot x (S.Q x)
  at_ : ∀ x y, vdotF (S.A x) y = vdot x (S.At y)

/-- `x` is a global minimiser of the QP. -/
def EqQP.IsMin (S : EqQP K E F) (vdot : E → E → K) (x : E) : Prop :=
  S.A x = S.b ∧ ∀ x', S.A x' = S.b → quadObj vdot S.Q S.c x ≤ quadObj vdot S.Q S.c x'

/-- An exact linear solver: it solves every linear system that has a solution. -/
def ExactSolve (K : Type*) {Z : Type*} [Field K] [AddCommGroup Z] [Module K Z] (solve : (Z → Z) → Z → Option Z → Z) : Prop :=
  ∀ (M : Z →ₗ[K] Z) (t : Z) (i : Option Z), (∃ z, M z = t) → M (solve M t i) = t

namespace EqQP

variable {vdot : E → E → K} {vdotF : F → F → K}

/-- `matvec` as a linear map. -/
def matvecLin (S : EqQP K E F) : (E × F) →ₗ[K] (E × F) where
  toFun := S.matvec
  map_add' := fun u v => by
    refine Prod.ext ?_ ?_
    · simp only [matvec, Prod.fst_add, Prod.snd_add, map_add]; abel
    · simp only [matvec, Prod.fst_add, map_add, Prod.snd_add]
  map_smul' := fun a u => by
    refine Prod.ext ?_ ?_
    · simp only [matvec, Prod.smul_fst, Prod.smul_snd, map_smul, smul_add, RingHom.id_apply]
    · simp only [matvec, Prod.smul_fst, Prod.smul_snd, map_smul, RingHom.id_apply]

/-- `matvec_regularized_qp` as a linear map. -/
def matvecBarLin (S : EqQP K E F) : (E × F) →ₗ[K] (E × F) where
  toFun := S.matvecBar
  map_add' := fun u v => by
    refine Prod.ext ?_ ?_
    · simp only [matvecBar, matvec, Prod.fst_add, Prod.snd_add, map_add, smul_add]; abel
    · simp only [matvecBar, matvec, Prod.fst_add, Prod.snd_add, map_add, smul_add]; abel
  map_smul' := fun a u => by
    refine Prod.ext ?_ ?_
    · simp only [matvecBar, matvec, Prod.smul_fst, Prod.smul_snd, map_smul, smul_add, RingHom.id_apply]
      rw [smul_comm a S.refineRegularization]
    · simp only [matvecBar, matvec, Prod.smul_fst, Prod.smul_snd, map_smul, smul_add, RingHom.id_apply]
      rw [smul_comm a (-S.refineRegularization)]

/-- The optimality function vanishes exactly when the linear system of `run` is solved. -/
theorem optimalityFun_zero_iff (S : EqQP K E F) (hc : S.Convex vdot vdotF) (z : E × F) :
    (S.optimalityFun (ι := ι) ⟨z.1, some z.2, none⟩).Zero ↔ S.matvec z = S.target := by
  have e : (1 / 2 : K) • (S.Q z.1 + S.Q z.1) = S.Q z.1 := by
    rw [← two_smul K, smul_smul]; norm_num
  constructor
  · rintro ⟨h1, h2, -⟩
    have h1' : (1 / 2 : K) • (S.Q z.1 + S.Qt z.1) + S.c + S.At z.2 = 0 := h1
    have h2' : S.A z.1 - S.b = 0 := h2 _ rfl
    rw [hc.qt, e] at h1'
    refine Prod.ext ?_ (sub_eq_zero.mp h2')
    simp only [matvec, target]
    rw [eq_neg_iff_add_eq_zero, ← h1']; abel
  · intro h
    have h1 : S.Q z.1 + S.At z.2 = -S.c := congrArg Prod.fst h
    have h2 : S.A z.1 = S.b := congrArg Prod.snd h
    refine ⟨?_, ?_, ?_⟩
    · change (1 / 2 : K) • (S.Q z.1 + S.Qt z.1) + S.c + S.At z.2 = 0
      rw [hc.qt, e]
      rw [eq_neg_iff_add_eq_zero] at h1; rw [← h1]; abel
    · rintro v hv
      have : v = S.A z.1 - S.b := by
        simpa [optimalityFun, kktOptimality, eq_comm] using hv
      rw [this, h2, sub_self]
    · rintro v hv; simp [optimalityFun, kktOptimality] at hv

theorem isMin_of_matvec (S : EqQP K E F) (hc : S.Convex vdot vdotF) (z : E × F) (h : S.matvec z = S.target) : S.IsMin vdot z.1 := by
  have h1 : S.Q z.1 + S.At z.2 = -S.c := congrArg Prod.fst h
  have h2 : S.A z.1 = S.b := congrArg Prod.snd h
  refine ⟨h2, fun x' hx' => ?_⟩
  have e : x' = z.1 + (x' - z.1) := by abel
  rw [e, quadObj_expand hc.hv (Qt := S.Q) hc.sym]
  have e2 : quadGrad S.Q S.Q S.c z.1 = -S.At z.2 := by
    rw [quadGrad, ← two_smul K, smul_smul]
    norm_num
    rw [eq_neg_iff_add_eq_zero] at h1 ⊢; rw [← h1]; abel
  rw [e2, hc.hv.neg_right, ← hc.at_, map_sub, hx', h2, sub_self, hc.hF.zero_left]
  have := hc.psd (x' - z.1)
  linarith

/-- A minimiser has equality multipliers (finite dimension, no constraint qualification needed, redundant constraints allowed). -/
theorem multiplier_exists [Module.Finite K E] (S : EqQP K E F) (hc : S.Convex vdot vdotF) {x : E} (hx : S.IsMin vdot x) :
    ∃ y, S.matvec (x, y) = S.target := by
  -- the gradient is orthogonal to the kernel of `A`
  have horth : ∀ d, S.A d = 0 → vdot d (S.Q x + S.c) = 0 := by
    have key : ∀ d, S.A d = 0 → 0 ≤ vdot d (S.Q x + S.c) := by
      intro d hd
      refine linear_coeff_nonneg (b := 1 / 2 * vdot d (S.Q d)) (by have := hc.psd d; linarith) fun l hl hl1 => ?_
      have h1 := hx.2 (x + l • d) (by rw [map_add, map_smul, hd, smul_zero, add_zero]; exact hx.1)
      rw [quadObj_expand hc.hv (Qt := S.Q) hc.sym] at h1
      have e2 : quadGrad S.Q S.Q S.c x = S.Q x + S.c := by
        rw [quadGrad, ← two_smul K, smul_smul]; norm_num
      rw [e2, map_smul, hc.hv.smul_left, hc.hv.smul_left, hc.hv.smul_right] at h1
      nlinarith
    intro d hd
    have h1 := key d hd
    have h2 := key (-d) (by rw [map_neg, hd, neg_zero])
    rw [hc.hv.neg_left] at h2
    linarith
  -- hence it is in the range of `At`
  let B : LinearMap.BilinForm K E := LinearMap.mk₂ K vdot hc.hv.add_left hc.hv.smul_left hc.hv.add_right
    (fun c m n => by rw [hc.hv.smul_right]; rfl)
  have hBr : B.IsRefl := fun a b h => by
    have : vdot a b = 0 := h
    change vdot b a = 0
    rw [hc.hv.symm]; exact this
  have hBn : B.Nondegenerate := by
    refine ⟨fun a ha => ?_, fun a ha => ?_⟩
    · exact hc.hv.eq_zero (ha a)
    · exact hc.hv.eq_zero (ha a)
  have hW : S.Q x + S.c ∈ LinearMap.range S.At := by
    rw [← LinearMap.BilinForm.orthogonal_orthogonal hBn hBr (LinearMap.range S.At), LinearMap.BilinForm.mem_orthogonal_iff]
    intro d hd
    rw [LinearMap.BilinForm.mem_orthogonal_iff] at hd
    have hAd : S.A d = 0 := by
      refine hc.hF.eq_zero ?_
      rw [hc.at_, hc.hv.symm]
      exact hd (S.At (S.A d)) ⟨_, rfl⟩
    exact horth d hAd
  obtain ⟨y, hy⟩ := hW
  refine ⟨-y, Prod.ext ?_ hx.1⟩
  simp only [matvec, target, map_neg, hy]
  abel

/-- **C37**, `EqualityConstrainedQP` without regularisation: with an exact linear solver, on every convex problem that has a minimiser
(redundant constraints allowed), `run` returns a zero of the optimality function whose primal part is a global minimiser, whatever
the initial guess. -/
theorem C37_eq_qp [Module.Finite K E] (S : EqQP K E F) (hc : S.Convex vdot vdotF) (hs : ExactSolve K S.solve)
    (hr : S.refineRegularization = 0) {xs : E} (hx : S.IsMin vdot xs) (init : Option (E × F)) :
    ∃ r : KKT K E F ι, S.run init = .ok r ∧ (S.optimalityFun r).Zero ∧ S.IsMin vdot r.primal := by
  obtain ⟨y, hy⟩ := S.multiplier_exists hc hx
  have h := hs S.matvecLin S.target init ⟨_, hy⟩
  refine ⟨_, by rw [run, if_pos hr], ?_, S.isMin_of_matvec hc _ h⟩
  exact (S.optimalityFun_zero_iff hc _).mpr h

/-! ### Refinement -/

/-- The regularised matrix is never singular. -/
theorem matvecBar_injective (S : EqQP K E F) (hc : S.Convex vdot vdotF) (hr : 0 < S.refineRegularization) (u : E × F)
    (h : S.matvecBar u = 0) : u = 0 := by
  have h1 : S.Q u.1 + S.At u.2 + S.refineRegularization • u.1 = 0 := congrArg Prod.fst h
  have h2 : S.A u.1 + (-S.refineRegularization) • u.2 = 0 := congrArg Prod.snd h
  have a1 : vdot u.1 (S.Q u.1 + S.At u.2 + S.refineRegularization • u.1) = 0 := by rw [h1, hc.hv.zero_right]
  have a2 : vdotF (S.A u.1 + (-S.refineRegularization) • u.2) u.2 = 0 := by rw [h2, hc.hF.zero_left]
  rw [hc.hv.add_right, hc.hv.add_right, hc.hv.smul_right] at a1
  rw [hc.hF.add_left, hc.hF.smul_left, hc.at_] at a2
  have p1 := hc.psd u.1
  have p2 := hc.hv.nonneg u.1
  have p3 := hc.hF.nonneg u.2
  have q1 : vdot u.1 u.1 = 0 := by
    have : S.refineRegularization * vdot u.1 u.1 ≤ 0 := by nlinarith
    have := nonpos_of_mul_nonpos_right this hr
    linarith
  have q2 : vdotF u.2 u.2 = 0 := by
    have : S.refineRegularization * vdotF u.2 u.2 ≤ 0 := by nlinarith
    have := nonpos_of_mul_nonpos_right this hr
    linarith
  exact Prod.ext (hc.hv.eq_zero q1) (hc.hF.eq_zero q2)

theorem matvecBar_surjective [Module.Finite K E] [Module.Finite K F] (S : EqQP K E F) (hc : S.Convex vdot vdotF)
    (hr : 0 < S.refineRegularization) (t : E × F) : ∃ u, S.matvecBar u = t := by
  have hi : Function.Injective S.matvecBarLin := by
    rw [← LinearMap.ker_eq_bot, LinearMap.ker_eq_bot']
    exact fun u hu => S.matvecBar_injective hc hr u hu
  exact (LinearMap.injective_iff_surjective.mp hi) t

/-- The squared norm of a primal-dual pair. -/
def nsq (vdot : E → E → K) (vdotF : F → F → K) (z : E × F) : K := vdot z.1 z.1 + vdotF z.2 z.2

theorem matvec_add (S : EqQP K E F) (u v : E × F) : S.matvec (u + v) = S.matvec u + S.matvec v :=
  S.matvecLin.map_add u v

theorem matvec_sub (S : EqQP K E F) (u v : E × F) : S.matvec (u - v) = S.matvec u - S.matvec v := by
  have := S.matvec_add (u - v) v
  rw [sub_add_cancel] at this
  rw [this]; abel

/-- One refinement step is a step of the proximal point method: with `r' = target - S x'` and any solution `zs`,
`‖r'‖² ≤ ridge²(‖x - zs‖² - ‖x' - zs‖²)`. -/
theorem refine_step (S : EqQP K E F) (hc : S.Convex vdot vdotF) (hr : 0 < S.refineRegularization) {zs : E × F}
    (hz : S.matvec zs = S.target) (x w : E × F) (hw : S.matvecBar w = S.target - S.matvec x) :
    nsq vdot vdotF (S.target - S.matvec (x + w)) ≤
      S.refineRegularization * S.refineRegularization * (nsq vdot vdotF (x - zs) - nsq vdot vdotF (x + w - zs)) ∧
    nsq vdot vdotF (S.target - S.matvec (x + w)) = S.refineRegularization * S.refineRegularization * nsq vdot vdotF w := by
  set ρ := S.refineRegularization with hρ
  -- the new residual is `ρ (w.1, -w.2)`
  have hres : S.target - S.matvec (x + w) = (ρ • w.1, (-ρ) • w.2) := by
    rw [S.matvec_add, ← sub_sub, ← hw]
    refine Prod.ext ?_ ?_
    · simp only [matvecBar, Prod.fst_sub, ← hρ]; abel
    · simp only [matvecBar, Prod.snd_sub, ← hρ]; abel
  set e' := x + w - zs with he'
  have hS : S.matvec e' = (-(ρ • w.1), ρ • w.2) := by
    rw [he', S.matvec_sub, hz]
    have : S.matvec (x + w) = S.target - (ρ • w.1, (-ρ) • w.2) := by rw [← hres]; abel
    rw [this]
    refine Prod.ext ?_ ?_
    · simp
    · simp
  have h1 : S.Q e'.1 + S.At e'.2 = -(ρ • w.1) := congrArg Prod.fst hS
  have h2 : S.A e'.1 = ρ • w.2 := congrArg Prod.snd hS
  have m1 : vdot e'.1 (S.Q e'.1) + vdot e'.1 (S.At e'.2) = -(ρ * vdot e'.1 w.1) := by
    rw [← hc.hv.add_right, h1, hc.hv.neg_right, hc.hv.smul_right]
  have m2 : vdot e'.1 (S.At e'.2) = ρ * vdotF w.2 e'.2 := by rw [← hc.at_, h2, hc.hF.smul_left]
  have m3 := hc.psd e'.1
  have m4 : vdot e'.1 w.1 + vdotF w.2 e'.2 ≤ 0 := by
    have : ρ * (vdot e'.1 w.1 + vdotF w.2 e'.2) ≤ 0 := by nlinarith
    exact nonpos_of_mul_nonpos_right this hr
  have hn : nsq vdot vdotF (S.target - S.matvec (x + w)) = ρ * ρ * nsq vdot vdotF w := by
    rw [hres, nsq, nsq]
    simp only [hc.hv.smul_left, hc.hv.smul_right, hc.hF.smul_left, hc.hF.smul_right]; ring
  refine ⟨?_, hn⟩
  rw [hn]
  have hexp : nsq vdot vdotF (x - zs) = nsq vdot vdotF e' - 2 * (vdot e'.1 w.1 + vdotF w.2 e'.2) + nsq vdot vdotF w := by
    have : x - zs = e' - w := by rw [he']; abel
    rw [this, nsq, nsq, nsq]
    simp only [Prod.fst_sub, Prod.snd_sub, hc.hv.sub_left, hc.hv.sub_right, hc.hF.sub_left, hc.hF.sub_right]
    rw [hc.hv.symm w.1 e'.1, hc.hF.symm e'.2 w.2]; ring
  have hp : 0 < ρ * ρ := mul_pos hr hr
  have : nsq vdot vdotF w ≤ nsq vdot vdotF (x - zs) - nsq vdot vdotF e' := by linarith
  exact mul_le_mul_of_nonneg_left this hp.le

/-- The corrections of two successive refinement steps do not grow. -/
theorem refine_mono (S : EqQP K E F) (hc : S.Convex vdot vdotF) (hr : 0 < S.refineRegularization) (w w' : E × F)
    (h : S.matvecBar w' = (S.refineRegularization • w.1, (-S.refineRegularization) • w.2)) :
    nsq vdot vdotF w' ≤ nsq vdot vdotF w := by
  set ρ := S.refineRegularization with hρ
  have h1 : S.Q w'.1 + S.At w'.2 + ρ • w'.1 = ρ • w.1 := congrArg Prod.fst h
  have h2 : S.A w'.1 + (-ρ) • w'.2 = (-ρ) • w.2 := congrArg Prod.snd h
  have a1 : vdot w'.1 (S.Q w'.1 + S.At w'.2 + ρ • w'.1) = ρ * vdot w'.1 w.1 := by rw [h1, hc.hv.smul_right]
  have a2 : vdotF (S.A w'.1 + (-ρ) • w'.2) w'.2 = -ρ * vdotF w.2 w'.2 := by rw [h2, hc.hF.smul_left]
  rw [hc.hv.add_right, hc.hv.add_right, hc.hv.smul_right] at a1
  rw [hc.hF.add_left, hc.hF.smul_left, hc.at_] at a2
  have p := hc.psd w'.1
  have q : nsq vdot vdotF w' ≤ vdot w'.1 w.1 + vdotF w.2 w'.2 := by
    have : ρ * nsq vdot vdotF w' ≤ ρ * (vdot w'.1 w.1 + vdotF w.2 w'.2) := by rw [nsq]; nlinarith
    exact le_of_mul_le_mul_left this hr
  have n1 := hc.hv.nonneg (w'.1 - w.1)
  have n2 := hc.hF.nonneg (w'.2 - w.2)
  simp only [hc.hv.sub_left, hc.hv.sub_right, hc.hF.sub_left, hc.hF.sub_right] at n1 n2
  rw [hc.hv.symm w.1 w'.1] at n1
  rw [hc.hF.symm w'.2 w.2] at n2
  rw [nsq] at q ⊢; rw [nsq]
  linarith

/-- The `k`-th refinement iterate. -/
def refineIterate (S : EqQP K E F) (z0 : E × F) (k : ℕ) : (E × F) × RefineState K (E × F) :=
  S.refine.update^[k] (z0, S.refine.initState z0)

theorem refineIterate_succ (S : EqQP K E F) (z0 : E × F) (k : ℕ) :
    S.refineIterate z0 (k + 1) = S.refine.update (S.refineIterate z0 k) := by
  simp only [refineIterate, Function.iterate_succ_apply']

/-- The residual of the `k`-th iterate. -/
def refineRes (S : EqQP K E F) (z0 : E × F) (k : ℕ) : E × F := S.target - S.matvec (S.refineIterate z0 k).1

theorem refine_target (S : EqQP K E F) (z0 : E × F) (k : ℕ) (hk : 1 ≤ k) :
    (S.refineIterate z0 k).2.targetResiduals = S.refineRes z0 k ∧
      (S.refineIterate z0 k).2.error = .fin (S.norm (S.refineRes z0 k)) := by
  obtain ⟨j, rfl⟩ : ∃ j, k = j + 1 := ⟨k - 1, by omega⟩
  rw [refineRes, refineIterate_succ]
  exact ⟨rfl, rfl⟩

theorem refine_target_zero (S : EqQP K E F) : (S.refineIterate 0 0).2.targetResiduals = S.refineRes 0 0 := by
  simp [refineRes, refineIterate, Refine.initState, refine, matvec, Prod.ext_iff]

/-- **C37**, rate of the refinement: with an exact inner solver, for every `ridge > 0` and every solution `zs` of the KKT system, the
squared residual after `k` further steps is at most `ridge²‖z - zs‖² / k`, where `z` is the start if it is the default one, and the
first iterate otherwise; the residuals never increase. -/
theorem C37_refine_rate [Module.Finite K E] [Module.Finite K F] (S : EqQP K E F) (hc : S.Convex vdot vdotF) (hs : ExactSolve K S.solve)
    (hr : 0 < S.refineRegularization) {zs : E × F} (hz : S.matvec zs = S.target) (z0 : E × F) (a : ℕ) (ha : 1 ≤ a ∨ z0 = 0) (k : ℕ) :
    k * nsq vdot vdotF (S.refineRes z0 (a + k)) ≤
      S.refineRegularization * S.refineRegularization * nsq vdot vdotF ((S.refineIterate z0 a).1 - zs) ∧
    (1 ≤ k → nsq vdot vdotF (S.refineRes z0 (a + k + 1)) ≤ nsq vdot vdotF (S.refineRes z0 (a + k))) := by
  set ρ := S.refineRegularization with hρ
  have nn : ∀ z : E × F, 0 ≤ nsq vdot vdotF z := fun z => add_nonneg (hc.hv.nonneg _) (hc.hF.nonneg _)
  -- every step after `a` solves the regularised system for the residual
  have step : ∀ j, a ≤ j → ∃ w, (S.refineIterate z0 (j + 1)).1 = (S.refineIterate z0 j).1 + w ∧ S.matvecBar w = S.refineRes z0 j := by
    intro j hj
    have ht : (S.refineIterate z0 j).2.targetResiduals = S.refineRes z0 j := by
      rcases Nat.eq_zero_or_pos j with h0 | h0
      · subst h0
        rcases ha with ha | ha
        · omega
        · subst ha; exact S.refine_target_zero
      · exact (S.refine_target z0 j h0).1
    refine ⟨S.solve S.matvecBar (S.refineRes z0 j) (some (S.refineIterate z0 j).2.init), ?_, ?_⟩
    · rw [refineIterate_succ, ← ht]; rfl
    · exact hs S.matvecBarLin _ _ (S.matvecBar_surjective hc hr _)
  have dec : ∀ j, a ≤ j → nsq vdot vdotF (S.refineRes z0 (j + 1)) ≤
      ρ * ρ * (nsq vdot vdotF ((S.refineIterate z0 j).1 - zs) - nsq vdot vdotF ((S.refineIterate z0 (j + 1)).1 - zs)) := by
    intro j hj
    obtain ⟨w, h1, h2⟩ := step j hj
    have := (S.refine_step hc hr hz _ w h2).1
    rw [← h1] at this
    exact this
  have mono : ∀ j, a ≤ j → nsq vdot vdotF (S.refineRes z0 (j + 2)) ≤ nsq vdot vdotF (S.refineRes z0 (j + 1)) := by
    intro j hj
    obtain ⟨w, h1, h2⟩ := step j hj
    obtain ⟨w', h1', h2'⟩ := step (j + 1) (by omega)
    have e1 := (S.refine_step hc hr hz _ w h2).2
    have e2 := (S.refine_step hc hr hz _ w' h2').2
    rw [← h1] at e1
    rw [← h1'] at e2
    have hres : S.refineRes z0 (j + 1) = (ρ • w.1, (-ρ) • w.2) := by
      rw [refineRes, h1, S.matvec_add, ← sub_sub]
      have : S.target - S.matvec (S.refineIterate z0 j).1 = S.matvecBar w := h2.symm
      rw [this]
      refine Prod.ext ?_ ?_
      · simp only [matvecBar, Prod.fst_sub, ← hρ]; abel
      · simp only [matvecBar, Prod.snd_sub, ← hρ]; abel
    have := S.refine_mono hc hr w w' (by rw [h2', hres])
    rw [refineRes, refineRes, e1, e2]
    exact mul_le_mul_of_nonneg_left this (mul_pos hr hr).le
  constructor
  · -- telescoping
    have tele : ∀ k, k * nsq vdot vdotF (S.refineRes z0 (a + k)) ≤ ρ * ρ *
        (nsq vdot vdotF ((S.refineIterate z0 a).1 - zs) - nsq vdot vdotF ((S.refineIterate z0 (a + k)).1 - zs)) := by
      intro k
      induction k with
      | zero => simp
      | succ k ih =>
        have d := dec (a + k) (by omega)
        have hm : (k : K) * nsq vdot vdotF (S.refineRes z0 (a + k + 1)) ≤ k * nsq vdot vdotF (S.refineRes z0 (a + k)) := by
          rcases Nat.eq_zero_or_pos k with h0 | h0
          · subst h0; simp
          · obtain ⟨j, rfl⟩ : ∃ j, k = j + 1 := ⟨k - 1, by omega⟩
            exact mul_le_mul_of_nonneg_left (mono (a + j) (by omega)) (by positivity)
        rw [← add_assoc]
        push_cast
        linarith
    have h1 := tele k
    have h2 := mul_nonneg (mul_pos hr hr).le (nn ((S.refineIterate z0 (a + k)).1 - zs))
    linarith
  · intro hk
    obtain ⟨j, rfl⟩ : ∃ j, k = j + 1 := ⟨k - 1, by omega⟩
    exact mono (a + j) (by omega)

/-- **C37**, `EqualityConstrainedQP` with `refine_regularization > 0`, started from the default initial guess: on a convex problem with
a minimiser, if `refine_maxiter · tol² ≥ ridge²‖z*‖²` for some KKT point `z*`, the returned point has KKT residual at most `tol`.
Missing from the claim: an exact KKT point; the refinement only stops on the tolerance, see `C37_refine_false`. -/
theorem C37_refine_partial [Module.Finite K E] [Module.Finite K F] (S : EqQP K E F) (hc : S.Convex vdot vdotF)
    (hs : ExactSolve K S.solve) (hr : 0 < S.refineRegularization) (htol : 0 ≤ S.tol)
    (hn : ∀ z, 0 ≤ S.norm z ∧ S.norm z * S.norm z = nsq vdot vdotF z) {zs : E × F} (hz : S.matvec zs = S.target)
    (hm : 1 ≤ S.refineMaxiter)
    (hb : S.refineRegularization * S.refineRegularization * nsq vdot vdotF zs ≤ S.refineMaxiter * (S.tol * S.tol)) :
    ∃ z : E × F, S.run (ι := ι) none = .ok ⟨z.1, some z.2, none⟩ ∧ S.norm (S.target - S.matvec z) ≤ S.tol := by
  obtain ⟨r, hrun⟩ := runS_ok (S := RefineState K (E × F)) S.refine.initState S.refine.update S.refine.cont (maxiter := S.refineMaxiter)
    (unroll := false) (jit := true) 0 hm (Or.inr rfl)
  refine ⟨r.1, ?_, ?_⟩
  · rw [run, if_neg hr.ne']
    have : S.refine.run none = .ok r := hrun
    rw [this]; rfl
  · obtain ⟨k, hk1, hk2, hk3, hk4, hk5⟩ := runS_spec hm hrun
    have e : r = S.refineIterate 0 k := hk3
    have hle : S.norm (S.refineRes 0 k) ≤ S.tol := by
      rcases hk5 with h | h
      · subst h
        have := (S.C37_refine_rate hc hs hr hz 0 0 (Or.inr rfl) S.refineMaxiter).1
        rw [zero_add] at this
        have e0 : nsq vdot vdotF ((S.refineIterate 0 0).1 - zs) = nsq vdot vdotF zs := by
          have : (S.refineIterate 0 0).1 - zs = -zs := by simp [refineIterate]
          rw [this, nsq, nsq]; simp [hc.hv.neg_left, hc.hv.neg_right, hc.hF.neg_left, hc.hF.neg_right]
        rw [e0] at this
        have hpos : (0 : K) < S.refineMaxiter := by exact_mod_cast hm
        have h2 : nsq vdot vdotF (S.refineRes 0 S.refineMaxiter) ≤ S.tol * S.tol := le_of_mul_le_mul_left (this.trans hb) hpos
        rw [← (hn _).2] at h2
        exact le_of_not_gt fun hlt => absurd h2 (not_le.mpr (mul_self_lt_mul_self htol hlt))
      · have h' : Ext.gt (S.refineIterate 0 k).2.error (.fin S.tol) = false := h
        rw [(S.refine_target 0 k hk1).2] at h'
        simpa [Ext.gt, Ext.lt] using h'
    rw [e]; exact hle

end EqQP

/-! ## Witnesses -/

/-- `min ½x² - x` subject to `x = 1` over `ℚ`, solved with Cramer's rule for 2×2 systems. -/
def exEqQP (ridge : ℚ) : EqQP ℚ ℚ ℚ where
  Q := LinearMap.id
  Qt := LinearMap.id
  c := 1
  A := LinearMap.id
  At := LinearMap.id
  b := 1
  solve := fun M t _ =>
    let c1 := M (1, 0)
    let c2 := M (0, 1)
    let det := c1.1 * c2.2 - c1.2 * c2.1
    ((t.1 * c2.2 - t.2 * c2.1) / det, (c1.1 * t.2 - c1.2 * t.1) / det)
  norm := fun z => |z.1| + |z.2|
  refineRegularization := ridge
  refineMaxiter := 10
  tol := 1 / 100000

/-- **C37 is false with `refine_regularization`**: with an exact linear solver and `refine_regularization = 1` the returned point does not
solve the KKT system of `min ½x² + x, x = 1` (not even up to `tol`); without regularisation it is solved exactly. -/
theorem C37_refine_false :
    (∃ r : ℚ × ℚ, (exEqQP 1).run (ι := Fin 0) none = .ok ⟨r.1, some r.2, none⟩ ∧ r.1 ≠ 1 ∧
      1 / 1000 < (exEqQP 1).norm ((exEqQP 1).target - (exEqQP 1).matvec r)) ∧
    ∃ r : ℚ × ℚ, (exEqQP 0).run (ι := Fin 0) none = .ok ⟨r.1, some r.2, none⟩ ∧ r = (1, -2) := by
  constructor
  · obtain ⟨r, hr, hv⟩ := ok_of_toOption (x := (exEqQP 1).refine.run none)
      (φ := fun r => (decide (r.1.1 ≠ 1), decide (1 / 1000 < (exEqQP 1).norm ((exEqQP 1).target - (exEqQP 1).matvec r.1))))
      (v := (true, true)) (by decide +kernel)
    refine ⟨r.1, ?_, ?_, ?_⟩
    · rw [EqQP.run, if_neg (by simp [exEqQP]), hr]; rfl
    · have := congrArg (·.1) hv; simpa using this
    · have := congrArg (·.2) hv; simpa using this
  · exact ⟨_, rfl, by decide +kernel⟩

theorem exEqQP_convex (ridge : ℚ) : (exEqQP ridge).Convex (fun x y => x * y) (fun x y => x * y) where
  hv := IsVdot.mul
  hF := IsVdot.mul
  sym := fun x y => rfl
  qt := fun x => rfl
  psd := fun x => mul_self_nonneg x
  at_ := fun x y => rfl

/-- Non-vacuity: an exact solver exists, and the example problem has the minimiser `1`. -/
example (ridge : ℚ) : (∃ solve : (ℚ × ℚ → ℚ × ℚ) → ℚ × ℚ → Option (ℚ × ℚ) → ℚ × ℚ, ExactSolve ℚ solve) ∧
    (exEqQP ridge).IsMin (fun x y => x * y) 1 := by
  classical
  constructor
  · refine ⟨fun M t _ => if h : ∃ z, M z = t then h.choose else t, fun M t i h => ?_⟩
    simp only [dif_pos h]; exact h.choose_spec
  · exact ⟨rfl, fun x' hx' => by
      have : x' = 1 := hx'
      rw [this]⟩

end Jaxopt.QP
