import Verif.QP.PolyProj
import Verif.QP.KktProps
import Verif.OSQP.TransformProps
import Mathlib.LinearAlgebra.Matrix.Rank
import Mathlib.LinearAlgebra.Matrix.DotProduct

/-!
# Property C73: `projection_affine_set` and `projection_polyhedron`
-/

set_option autoImplicit false
set_option linter.unusedSectionVars false
set_option linter.unusedVariables false

namespace Jaxopt.QP

open Jaxopt.OSQP

variable {K : Type*} [Field K] [LinearOrder K] [IsStrictOrderedRing K] {n m : ℕ}

/-- The squared Euclidean distance. -/
def dist2 (x y : Fin n → K) : K := ∑ i, (x i - y i) ^ 2

theorem dist2_eq (x y : Fin n → K) : dist2 x y = (x - y) ⬝ᵥ (x - y) := by
  simp only [dist2, dotProduct, Pi.sub_apply, sq]

theorem dist2_nonneg (x y : Fin n → K) : 0 ≤ dist2 x y := Finset.sum_nonneg fun i _ => sq_nonneg _

theorem dist2_eq_zero {x y : Fin n → K} (h : dist2 x y = 0) : x = y := by
  funext i
  have := (Finset.sum_eq_zero_iff_of_nonneg fun i _ => sq_nonneg (x i - y i)).mp h i (Finset.mem_univ _)
  exact sub_eq_zero.mp (pow_eq_zero_iff (by norm_num) |>.mp this)

/-! ## Affine sets -/

/-- The normal equations of a consistent system are consistent. -/
theorem exists_normal (A : Matrix (Fin m) (Fin n) K) (v : Fin n → K) : ∃ y, A.mulVec (A.transpose.mulVec y) = A.mulVec v := by
  have hle : LinearMap.range (A * A.transpose).mulVecLin ≤ LinearMap.range A.mulVecLin := by
    rintro _ ⟨y, rfl⟩
    exact ⟨A.transpose.mulVec y, by simp only [Matrix.mulVecLin_apply, Matrix.mulVec_mulVec]⟩
  have hr : Module.finrank K (LinearMap.range (A * A.transpose).mulVecLin) = Module.finrank K (LinearMap.range A.mulVecLin) := by
    have := A.rank_self_mul_transpose
    simpa [Matrix.rank] using this
  have he := Submodule.eq_of_le_of_finrank_eq hle hr
  have : A.mulVecLin v ∈ LinearMap.range (A * A.transpose).mulVecLin := by rw [he]; exact ⟨v, rfl⟩
  obtain ⟨y, hy⟩ := this
  exact ⟨y, by simpa only [Matrix.mulVecLin_apply, Matrix.mulVec_mulVec] using hy⟩

/-- **C73**, affine sets: if the set `{y | Ay = b}` is not empty and the linear solver is exact, `projection_affine_set` returns the
point of the set that is closest to `x`; redundant rows are allowed.  (`‖x - y‖² = ‖x - p‖² + ‖y - p‖²` for every `y` of the set, so
`p` is the unique closest point.) -/
theorem C73_affine {solve : ((Fin n → K) × (Fin m → K) → (Fin n → K) × (Fin m → K)) → (Fin n → K) × (Fin m → K) →
      Option ((Fin n → K) × (Fin m → K)) → (Fin n → K) × (Fin m → K)} (hs : ExactSolve K solve)
    (norm : (Fin n → K) × (Fin m → K) → K) (tol : K) (refineMaxiter : ℕ) (A : Matrix (Fin m) (Fin n) K) (b : Fin m → K)
    (x : Fin n → K) (hne : ∃ y, A.mulVec y = b) :
    ∃ p, projectionAffineSet solve norm tol refineMaxiter A b x = .ok p ∧ A.mulVec p = b ∧
      ∀ y, A.mulVec y = b → dist2 x y = dist2 x p + dist2 y p := by
  obtain ⟨y0, hy0⟩ := hne
  obtain ⟨ν, hν⟩ := exists_normal A (x - y0)
  set S := affineQP solve norm tol refineMaxiter A b x with hS
  have hex : ∃ z, S.matvecLin z = S.target := by
    refine ⟨(x - A.transpose.mulVec ν, ν), ?_⟩
    change (x - A.transpose.mulVec ν + A.transpose.mulVec ν, A.mulVec (x - A.transpose.mulVec ν)) = (- -x, b)
    rw [Matrix.mulVec_sub, hν, Matrix.mulVec_sub, hy0]
    simp
  have hsol := hs S.matvecLin S.target none hex
  set r := solve S.matvec S.target none with hr
  have hsol' : (r.1 + A.transpose.mulVec r.2, A.mulVec r.1) = (- -x, b) := hsol
  have e1 : r.1 + A.transpose.mulVec r.2 = x := by have := congrArg Prod.fst hsol'; simpa using this
  have e2 : A.mulVec r.1 = b := congrArg Prod.snd hsol'
  refine ⟨r.1, ?_, e2, fun y hy => ?_⟩
  · unfold projectionAffineSet EqQP.run
    rw [if_pos (show (affineQP solve norm tol refineMaxiter A b x).refineRegularization = 0 from rfl)]
    rfl
  · have h1 : (x - r.1) ⬝ᵥ (y - r.1) = 0 := by
      have : x - r.1 = A.transpose.mulVec r.2 := by rw [← e1]; abel
      rw [this, Matrix.mulVec_transpose, ← Matrix.dotProduct_mulVec, Matrix.mulVec_sub, hy, e2, sub_self, dotProduct_zero]
    have h2 : x - y = (x - r.1) - (y - r.1) := by abel
    rw [dist2_eq, dist2_eq, dist2_eq, h2]
    simp only [sub_dotProduct, dotProduct_sub] at h1 ⊢
    rw [dotProduct_comm r.1 x, dotProduct_comm y x, dotProduct_comm r.1 y] at *
    linarith

/-! ## Polyhedra -/

/-- `y` lies in the polyhedron `{y | Ay = b, Gy ≤ h}`. -/
def InPoly (A : List (Fin n → K)) (b : List K) (G : List (Fin n → K)) (h : List K) (y : Fin n → K) : Prop :=
  List.Forall₂ (fun a t => a ⬝ᵥ y = t) A b ∧ List.Forall₂ (fun g t => g ⬝ᵥ y ≤ t) G h

/-- The gap inequality of C38 with the strong convexity term. -/
theorem gap_strong (S : BoxOSQP K n m) (hQ : S.Q.transpose = S.Q) {q : Params K n m} (hq : S.Good q) {x' : Fin n → K}
    (hx' : S.Feasible x') :
    S.obj q.x + 1 / 2 * ((x' - q.x) ⬝ᵥ S.Q.mulVec (x' - q.x)) ≤
      S.obj x' + (q.x - x') ⬝ᵥ S.dualRes q.x q.y - S.primalRes q.x q.z ⬝ᵥ q.y := by
  have e : x' = q.x + (x' - q.x) := by abel
  have h1 := S.obj_expand hQ q.x (x' - q.x)
  rw [← e] at h1
  have h3 := S.good_normal hq hx'
  have h4 : (x' - q.x) ⬝ᵥ S.A.transpose.mulVec q.y = (S.A.mulVec x' - S.A.mulVec q.x) ⬝ᵥ q.y := by
    rw [← Matrix.mulVec_sub, Matrix.mulVec_transpose, dotProduct_comm, ← Matrix.dotProduct_mulVec, dotProduct_comm]
  have h5 : (q.x - x') ⬝ᵥ S.dualRes q.x q.y = -((x' - q.x) ⬝ᵥ (S.Q.mulVec q.x + S.c)) - (x' - q.x) ⬝ᵥ S.A.transpose.mulVec q.y := by
    have : q.x - x' = -(x' - q.x) := by abel
    rw [this, neg_dotProduct, BoxOSQP.dualRes, dotProduct_add]; ring
  rw [h5, h4, BoxOSQP.primalRes]
  simp only [sub_dotProduct] at h3 h1 ⊢
  linarith

theorem dist2_obj (x v : Fin n → K) (S : BoxOSQP K n m) (hQ : S.Q = 1) (hc : S.c = -x) :
    dist2 v x = 2 * S.obj v + x ⬝ᵥ x := by
  rw [dist2_eq, BoxOSQP.obj, hQ, hc, Matrix.one_mulVec]
  simp only [sub_dotProduct, dotProduct_sub, neg_dotProduct]
  rw [dotProduct_comm v x]
  ring

/-- **C73**, polyhedra, when the solver reports SOLVED: the result `p` satisfies the constraints up to `tol`, and there are residuals
`d`, `r`, bounded by `tol` in every entry, and multipliers `w`, such that for every point `y` of the polyhedron
`‖p - x‖² + ‖p - y‖² ≤ ‖y - x‖² + 2(⟨p - y, d⟩ - ⟨r, w⟩)`.  (Partial: the solver may also stop unsolved or report an infeasibility.) -/
theorem C73_polyhedron_partial (S : BoxOSQP K n m) (hmin : 0 < S.rhoMin) (hmax : S.rhoMin ≤ S.rhoMax) (hstart : 0 < S.rhoStart)
    (A : List (Fin n → K)) (b : List K) (G : List (Fin n → K)) (h : List K) (hA : A.length = b.length) (hG : G.length = h.length)
    (hb : b ≠ []) (hh : h ≠ []) (x : Fin n → K) (check : Bool) {sol : Option (Sol K n)}
    (hr : osqpRun { S with checkInfeasability := check } (polyProblem A b G h x) none = .ok (sol, .solved)) :
    ∃ p, projectionPolyhedron S A b G h x check = .ok (some p) ∧
      List.Forall₂ (fun a t => |a ⬝ᵥ p - t| ≤ S.tol) A b ∧ List.Forall₂ (fun g t => g ⬝ᵥ p ≤ t + S.tol) G h ∧
      ∃ (d : Fin n → K) (k : ℕ) (r w : Fin k → K), (∀ j, |d j| ≤ S.tol) ∧ (∀ i, |r i| ≤ S.tol) ∧
        ∀ y, InPoly A b G h y → dist2 p x + dist2 p y ≤ dist2 y x + 2 * ((p - y) ⬝ᵥ d - r ⬝ᵥ w) := by
  set P := polyProblem A b G h x with hP
  set S' : BoxOSQP K n m := { S with checkInfeasability := check } with hS'
  have hw : P.Wf := ⟨hA, hG⟩
  obtain ⟨s, ν, lam, h1, h2, h3, h4, h5, h6, h7, h8, h9⟩ := C40_run_partial P hw (fun _ => hb) (fun _ => hh) S' hmin hmax hstart none hr rfl
  refine ⟨s.x, ?_, h7, h8, ?_⟩
  · unfold projectionPolyhedron
    rw [hr]
    simp only at h1 ⊢
    rw [h1]
    rw [if_neg (by cases check <;> decide)]
    rfl
  · simp only at h1
    unfold osqpRun at hr
    cases hd : transform P with
    | error e => rw [hd] at hr; cases hr
    | ok d =>
      rw [hd] at hr
      simp only [Except.bind] at hr
      cases hbx : (boxOf S' P d).run (some (boxInit d ((none : Option (Sol K n)).getD (osqpInit S' P d)))) with
      | error e => rw [hbx] at hr; cases hr
      | ok r' =>
        rw [hbx] at hr
        simp only [Except.map, Except.ok.injEq, Prod.mk.injEq] at hr
        obtain ⟨hr1, hr2⟩ := hr
        have hattr : (boxOf S' P d).Attr := ⟨((C40_transform P hw S').2 d hd).2.2, hmin, hmax, hstart⟩
        obtain ⟨q, hq, hp1, hp2⟩ := (boxOf S' P d).C38_solved hattr hbx hr2
        obtain ⟨hg, -, -, -⟩ := (boxOf S' P d).C38_iterates hattr ((boxOf S' P d).run_reach hbx) hq
        have hxq : s.x = q.x := by
          rw [hq, h1] at hr1
          simp only [Option.map_some, Option.some.injEq] at hr1
          rw [← hr1]
          rfl
        refine ⟨(boxOf S' P d).dualRes q.x q.y, _, (boxOf S' P d).primalRes q.x q.z, q.y, hp2, hp1, fun y hy => ?_⟩
        have hfe : (boxOf S' P d).Feasible y := (((C40_transform P hw S').2 d hd).1 y).mpr hy
        have hQ1 : (boxOf S' P d).Q = 1 := rfl
        have hc1 : (boxOf S' P d).c = -x := rfl
        have hgap := gap_strong (boxOf S' P d) (by rw [hQ1, Matrix.transpose_one]) hg hfe
        rw [hQ1, Matrix.one_mulVec] at hgap
        rw [hxq, dist2_obj x q.x _ hQ1 hc1, dist2_obj x y _ hQ1 hc1]
        have hd2 : dist2 q.x y = (y - q.x) ⬝ᵥ (y - q.x) := by
          rw [← dist2_eq, dist2, dist2]
          exact Finset.sum_congr rfl fun i _ => by ring
        rw [hd2]
        linarith

/-- **C73**, polyhedra with an exact run: with `tol = 0` a SOLVED run returns the point of the polyhedron closest to `x`, and the
only one. -/
theorem C73_polyhedron_exact (S : BoxOSQP K n m) (hmin : 0 < S.rhoMin) (hmax : S.rhoMin ≤ S.rhoMax) (hstart : 0 < S.rhoStart)
    (htol : S.tol = 0)
    (A : List (Fin n → K)) (b : List K) (G : List (Fin n → K)) (h : List K) (hA : A.length = b.length) (hG : G.length = h.length)
    (hb : b ≠ []) (hh : h ≠ []) (x : Fin n → K) (check : Bool) {sol : Option (Sol K n)}
    (hr : osqpRun { S with checkInfeasability := check } (polyProblem A b G h x) none = .ok (sol, .solved)) :
    ∃ p, projectionPolyhedron S A b G h x check = .ok (some p) ∧ InPoly A b G h p ∧
      ∀ y, InPoly A b G h y → dist2 p x ≤ dist2 y x ∧ (dist2 y x = dist2 p x → y = p) := by
  obtain ⟨p, h1, h2, h3, d, k, r, w, h4, h5, h6⟩ := C73_polyhedron_partial S hmin hmax hstart A b G h hA hG hb hh x check hr
  rw [htol] at h2 h3 h4 h5
  have hd : d = 0 := funext fun j => abs_nonpos_iff.mp (h4 j)
  have hr0 : r = 0 := funext fun j => abs_nonpos_iff.mp (h5 j)
  refine ⟨p, h1, ⟨?_, ?_⟩, fun y hy => ?_⟩
  · exact h2.imp fun a t hat => sub_eq_zero.mp (abs_nonpos_iff.mp hat)
  · exact h3.imp fun a t hat => by simpa using hat
  · have := h6 y hy
    rw [hd, hr0, dotProduct_zero, zero_dotProduct, sub_zero, mul_zero, add_zero] at this
    have h0 := dist2_nonneg p y
    refine ⟨by linarith, fun he => ?_⟩
    rw [he] at this
    exact (dist2_eq_zero (by linarith)).symm

/-! ## The check for emptiness -/

/-- The linear solver of OSQP, when it is exact: it solves every system that has a solution. -/
def ExactLin (solve : ((Fin n → K) → (Fin n → K)) → (Fin n → K) → (Fin n → K) → K → (Fin n → K)) : Prop :=
  ∀ (M : (Fin n → K) →ₗ[K] (Fin n → K)) (b prev : Fin n → K) (atol : K), (∃ v, M v = b) → M (solve M b prev atol) = b

/-- `kktMat` is linear. -/
def kktLin (S : BoxOSQP K n m) (rho : K) : (Fin n → K) →ₗ[K] (Fin n → K) where
  toFun := S.kktMat rho
  map_add' u v := by simp only [BoxOSQP.kktMat, Matrix.mulVec_add, smul_add]; abel
  map_smul' a v := by
    simp only [BoxOSQP.kktMat, Matrix.mulVec_smul, smul_add, RingHom.id_apply]
    rw [smul_comm S.sigma a, smul_comm rho a]

/-- `Q + sigma I + rho AᵀA` is injective when `Q = 1`. -/
theorem kktMat_inj (S : BoxOSQP K n m) (hQ : S.Q = 1) (hs : 0 ≤ S.sigma) {rho : K} (hr : 0 ≤ rho) {v w : Fin n → K}
    (h : S.kktMat rho v = S.kktMat rho w) : v = w := by
  have h1 : S.kktMat rho (v - w) = 0 := by
    have : S.kktMat rho (v - w) = S.kktMat rho v - S.kktMat rho w := by
      simp only [BoxOSQP.kktMat, Matrix.mulVec_sub, smul_sub]
      abel
    rw [this, h, sub_self]
  have h2 : (v - w) ⬝ᵥ S.kktMat rho (v - w) = 0 := by rw [h1, dotProduct_zero]
  have h3 : ∀ u : Fin n → K, u ⬝ᵥ S.A.transpose.mulVec (S.A.mulVec u) = S.A.mulVec u ⬝ᵥ S.A.mulVec u := fun u => by
    rw [Matrix.mulVec_transpose, dotProduct_comm, ← Matrix.dotProduct_mulVec]
  rw [BoxOSQP.kktMat, hQ, Matrix.one_mulVec, dotProduct_add, dotProduct_add, dotProduct_smul, dotProduct_smul, h3] at h2
  have p1 : ∀ {k : ℕ} (u : Fin k → K), 0 ≤ u ⬝ᵥ u := fun u => Finset.sum_nonneg fun i _ => mul_self_nonneg _
  have p2 := mul_nonneg hs (p1 (v - w))
  have p3 := mul_nonneg hr (p1 (S.A.mulVec (v - w)))
  simp only [smul_eq_mul] at h2
  refine dist2_eq_zero ?_
  rw [dist2_eq]
  linarith [p1 (v - w)]

/-- Clipping leaves a vector of the box unchanged. -/
theorem clipB_of_mem {t : K} {l u : Option K} (hl : GeB t l) (hu : LeB t u) : clipB t l u = t := by
  cases l <;> cases u <;> simp_all [clipB, GeB, LeB]

/-- One update from the zero start leaves the multipliers at zero when `momentum • x̄` is feasible. -/
theorem first_update (S : BoxOSQP K n m) (hc : S.checkInfeasability = true) (hj : S.jit = true) {p0 : Params K n m} (hx : p0.x = 0)
    (hz : p0.z = 0) (hy : p0.y = 0) {v : Fin n → K} (hv : S.solve (S.kktMat S.rhoStart) (-S.c) 0 (S.atol (S.initState p0)) = v)
    (hf : S.Feasible (S.momentum • v)) :
    ∃ q st, S.update (some p0, S.initState p0) = .ok (some q, st) ∧ st.error = .fin 0 ∧ st.status = .primalInfeasible := by
  have hsol : S.solveLinear p0 S.rhoStart S.rhoStart (S.initState p0) = v := by
    rw [BoxOSQP.solveLinear, hx, hz, hy]
    have e : (S.initState p0).prevSol = 0 := hx
    rw [e]
    simpa using hv
  have hzm : p0.z + S.momentum • (S.A.mulVec v - p0.z) = S.A.mulVec (S.momentum • v) := by
    rw [hz, Matrix.mulVec_smul]; simp
  have hyn : (S.admmStep p0 S.rhoStart S.rhoStart (S.initState p0)).2.2.1 = p0.y := by
    simp only [BoxOSQP.admmStep, hsol, hzm]
    rw [hy]
    funext i
    have := clipB_of_mem (hf i).1 (hf i).2
    simp [this]
  have hct := S.C39_unchanged_dual_false hc
    (S.primalRes (S.admmStep p0 S.rhoStart S.rhoStart (S.initState p0)).1 (S.admmStep p0 S.rhoStart S.rhoStart (S.initState p0)).2.1)
    (S.dualRes (S.admmStep p0 S.rhoStart S.rhoStart (S.initState p0)).1 (S.admmStep p0 S.rhoStart S.rhoStart (S.initState p0)).2.2.1)
    (old := p0) (new := BoxOSQP.fullKKT (S.admmStep p0 S.rhoStart S.rhoStart (S.initState p0)).1
      (S.admmStep p0 S.rhoStart S.rhoStart (S.initState p0)).2.1 (S.admmStep p0 S.rhoStart S.rhoStart (S.initState p0)).2.2.1) hyn
  have h0 : (S.initState p0).iterNum = 0 := rfl
  have hu : S.update (some p0, S.initState p0) = S.updateFin p0 (S.initState p0) S.rhoStart S.rhoStart := rfl
  cases hr : S.update (some p0, S.initState p0) with
  | error e =>
    rw [hu] at hr
    unfold BoxOSQP.updateFin BoxOSQP.raiseIfInfeasible at hr
    simp only [hj, if_true, Except.map] at hr
    cases hr
  | ok r =>
    rw [hu] at hr
    unfold BoxOSQP.updateFin BoxOSQP.raiseIfInfeasible at hr
    simp only [hj, h0, Nat.zero_mod, if_true, hct, Except.map, Except.ok.injEq] at hr
    subst hr
    exact ⟨_, _, rfl, rfl, rfl⟩

/-- **C73 is false** for points inside: let `v` solve `(1 + sigma)v + rho(AᵀAv + GᵀGv) = x` (roughly, `v` is a little smaller than
`x`) and let `momentum • v` (with the default, `1.6 v`) lie in the polyhedron.  Then `projection_polyhedron` raises "The polyhedron is
empty." although the polyhedron contains that point: after one update the multipliers are still zero, and the test of the solver takes
this for a certificate of infeasibility. -/
theorem C73_nonempty_false (S : BoxOSQP K n m) (hj : S.jit = true) (htol : 0 ≤ S.tol) (hsig : 0 ≤ S.sigma) (hrho : 0 ≤ S.rhoStart)
    (hs : ExactLin S.solve) (A : List (Fin n → K)) (b : List K) (G : List (Fin n → K)) (h : List K) (hA : A.length = b.length)
    (hG : G.length = h.length) (x v : Fin n → K)
    (hv : (1 + S.sigma) • v + S.rhoStart • (combine (rowsMul A v) A + combine (rowsMul G v) G) = x)
    (hin : InPoly A b G h (S.momentum • v)) :
    projectionPolyhedron S A b G h x true = .error "The polyhedron is empty." := by
  set P := polyProblem A b G h x with hP
  set S' : BoxOSQP K n m := { S with checkInfeasability := true } with hS'
  have hw : P.Wf := ⟨hA, hG⟩
  cases hd : transform P with
  | error e =>
    have := ((C40_transform P hw S').1).mpr ⟨e, hd⟩
    cases this.1
  | ok d =>
    set B := boxOf S' P d with hB
    set p0 := boxInit d (osqpInit S' P d) with hp0
    have hx0 : p0.x = 0 := rfl
    have hz0 : p0.z = 0 := by
      funext i
      change (rowsMul d.A (fun _ => (0 : K))).getD i 0 = 0
      rw [List.getD_eq_getElem?_getD, rowsMul, List.getElem?_map]
      have e0 : ∀ a : Fin n → K, a ⬝ᵥ (fun _ => (0 : K)) = 0 := fun a => dotProduct_zero a
      cases d.A[(i : ℕ)]? <;> simp [e0]
    have hy0 : p0.y = 0 := by
      funext i
      change (transformDual (osqpInit S' P d)).getD i 0 = 0
      have hall : ∀ t ∈ transformDual (osqpInit S' P d), t = 0 := by
        intro t ht
        have hmem : ∀ (L : List K) (s : ℤ), t ∈ signedSlice L s → t ∈ L := fun L s hL => by
          unfold signedSlice at hL
          split_ifs at hL
          · exact List.mem_of_mem_take hL
          · exact hL
          · exact List.mem_of_mem_drop hL
        simp only [transformDual, osqpInit, inverseTransform, split, sizes, hP, polyProblem, Option.map_some, Option.toList_some,
          Dual.front, Dual.back, List.flatten_append, List.flatten_cons, List.flatten_nil, List.append_nil, List.mem_append] at ht
        rcases ht with ht | ht
        · obtain ⟨j, hj⟩ := List.mem_ofFn.mp (hmem _ _ ht)
          exact hj.symm
        · obtain ⟨j, hj⟩ := List.mem_ofFn.mp (hmem _ _ ht)
          exact hj.symm
      rw [List.getD_eq_getElem?_getD]
      cases hg : (transformDual (osqpInit S' P d))[(i : ℕ)]? with
      | none => rfl
      | some t => exact hall t (List.mem_of_getElem? hg)
    have hdA : d.A = A ++ G := (transform_ok hd).1
    have hM : B.kktMat B.rhoStart v = -B.c := by
      have hc : -B.c = x := neg_neg x
      rw [hc, ← hv]
      have e1 : B.A.transpose.mulVec (B.A.mulVec v) = combine (rowsMul A v) A + combine (rowsMul G v) G := by
        have e2 : List.ofFn (B.A.mulVec v) = rowsMul d.A v := by
          refine List.ext_get (by simp [rowsMul]) fun i h1 h2 => ?_
          simp [rowsMul, hB, boxOf, BoxOSQP.withProblem, Matrix.mulVec]
        have e3 : B.A.transpose.mulVec (B.A.mulVec v) = combine (rowsMul d.A v) d.A := by
          rw [← e2]
          exact transpose_mulVec_get d.A (B.A.mulVec v)
        have e4 : rowsMul (A ++ G) v = rowsMul A v ++ rowsMul G v := List.map_append
        rw [e3, hdA, e4, combine_append (by simp [rowsMul])]
      rw [BoxOSQP.kktMat, e1]
      have hQ : B.Q = 1 := rfl
      rw [hQ, Matrix.one_mulVec]
      change v + S.sigma • v + S.rhoStart • _ = _
      rw [add_smul, one_smul]
    have hsv : B.solve (B.kktMat B.rhoStart) (-B.c) 0 (B.atol (B.initState p0)) = v :=
      kktMat_inj B rfl hsig hrho ((hs (kktLin B B.rhoStart) (-B.c) 0 _ ⟨v, hM⟩).trans hM.symm)
    have hfe : B.Feasible (B.momentum • v) := (((C40_transform P hw S').2 d hd).1 _).mpr hin
    obtain ⟨q, st, hu, herr, hst⟩ := first_update B rfl hj hx0 hz0 hy0 hsv hfe
    have hrun : B.run (some p0) = .ok (some q, st) := by
      unfold BoxOSQP.run
      simp only [Option.getD_some, hu, Except.bind]
      cases B.maxiter - 1 with
      | zero => rfl
      | succ k =>
        unfold BoxOSQP.loop
        rw [if_neg]
        unfold BoxOSQP.cont
        rw [herr]
        have : ¬ (B.tol < 0) := not_lt.mpr htol
        simp [Ext.gt, Ext.lt, this]
    unfold projectionPolyhedron osqpRun
    rw [hd]
    simp only [Except.bind, Option.getD_none]
    rw [hrun]
    simp only [Except.map, hst]
    rfl

/-- **C73 is false** in particular for the projection of the origin onto every polyhedron with `b = 0` and `h ≥ 0`, which contains the
origin. -/
theorem C73_origin_false (S : BoxOSQP K n m) (hj : S.jit = true) (htol : 0 ≤ S.tol) (hsig : 0 ≤ S.sigma) (hrho : 0 ≤ S.rhoStart)
    (hs : ExactLin S.solve) (A : List (Fin n → K)) (b : List K) (G : List (Fin n → K)) (h : List K) (hA : A.length = b.length)
    (hG : G.length = h.length) (hin : InPoly A b G h 0) :
    projectionPolyhedron S A b G h 0 true = .error "The polyhedron is empty." := by
  have hc : ∀ L : List (Fin n → K), combine (rowsMul L 0) L = 0 := fun L => by
    induction L with
    | nil => rfl
    | cons a L ih =>
      have : combine (rowsMul (a :: L) 0) (a :: L) = (a ⬝ᵥ (0 : Fin n → K)) • a + combine (rowsMul L 0) L := by
        simp [combine, rowsMul]
      rw [this, ih, dotProduct_zero, zero_smul, add_zero]
  refine C73_nonempty_false S hj htol hsig hrho hs A b G h hA hG 0 0 ?_ (by rwa [smul_zero])
  rw [hc, hc]; simp

/-! ## Witnesses -/

/-- Non-vacuity of `C73_affine`: exact solvers exist, and a system with a redundant row is consistent. -/
example : (∃ solve : ((Fin 2 → ℚ) × (Fin 2 → ℚ) → (Fin 2 → ℚ) × (Fin 2 → ℚ)) → (Fin 2 → ℚ) × (Fin 2 → ℚ) →
      Option ((Fin 2 → ℚ) × (Fin 2 → ℚ)) → (Fin 2 → ℚ) × (Fin 2 → ℚ), ExactSolve ℚ solve) ∧
    ∃ y : Fin 2 → ℚ, !![1, 1; 2, 2].mulVec y = ![3, 6] := by
  classical
  refine ⟨⟨fun M b _ => if h : ∃ z, M z = b then h.choose else 0, fun M b i hz => ?_⟩, ![1, 2], ?_⟩
  · simp only [dif_pos hz]
    exact hz.choose_spec
  · funext i
    fin_cases i <;> simp [Matrix.mulVec, dotProduct, Fin.sum_univ_two] <;> norm_num

/-- Non-vacuity of `C73_nonempty_false`: an exact solver exists, and `v = 10/11.00001 ≈ x` satisfies the equation for `x = 1`,
`G = [1]`, `h = [10]` and the default attributes. -/
example : (∃ solve : ((Fin 1 → ℚ) → (Fin 1 → ℚ)) → (Fin 1 → ℚ) → (Fin 1 → ℚ) → ℚ → (Fin 1 → ℚ), ExactLin solve) ∧
    ((1 + 1 / 1000000 : ℚ) • ![1000000 / 1100001] + (1 / 10 : ℚ) • (combine (rowsMul [![0]] ![1000000 / 1100001]) [![0]] +
      combine (rowsMul [![1]] ![1000000 / 1100001]) [![1]]) : Fin 1 → ℚ) = ![1] ∧
    InPoly [![0]] [0] [![1]] [10] ((8 / 5 : ℚ) • (![1000000 / 1100001] : Fin 1 → ℚ)) := by
  classical
  refine ⟨⟨fun M b _ _ => if h : ∃ z, M z = b then h.choose else 0, fun M b i a hz => ?_⟩, by decide +kernel, ?_, ?_⟩
  · simp only [dif_pos hz]
    exact hz.choose_spec
  · simp
  · simp; norm_num

/-- The attributes of `OSQP` in `projection_polyhedron`, with exact diagonal linear algebra. -/
def exPoly : BoxOSQP ℚ 1 0 := exBoxOSQP (n := 1) (m := 0) !![1] ![0] 0 ![] ![] true

/-- Non-vacuity of `C73_polyhedron_partial`: the projection of `2` onto `{y | 0·y = 0, y ≤ 1}` is SOLVED without the check. -/
example : ∃ r, osqpRun { exPoly with checkInfeasability := false } (polyProblem [![0]] [0] [![1]] [1] ![2]) none = .ok r ∧
    r.2 = .solved ∧ r.1.isSome = true := by
  obtain ⟨r, hr, hv⟩ := ok_of_toOption
    (x := osqpRun { exPoly with checkInfeasability := false } (polyProblem [![0]] [0] [![1]] [1] ![2]) none)
    (φ := fun r => (r.2, r.1.isSome)) (v := (.solved, true)) (by decide +kernel)
  exact ⟨r, hr, congrArg (·.1) hv, congrArg (·.2) hv⟩

/-- The projection of `1` onto `{y | 0·y = 0, y ≤ 10}` with the default attributes raises "The polyhedron is empty.". -/
example : projectionPolyhedron exPoly [![0]] [0] [![1]] [10] ![1] true = .error "The polyhedron is empty." := by
  have : (match projectionPolyhedron exPoly [![0]] [0] [![1]] [10] ![1] true with
    | .error e => decide (e = "The polyhedron is empty.") | .ok _ => false) = true := by decide +kernel
  revert this
  cases projectionPolyhedron exPoly [![0]] [0] [![1]] [10] ![1] true <;> simp

end Jaxopt.QP
