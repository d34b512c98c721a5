import Verif.QuasiNewton.ComplexProps
import Verif.QuasiNewton.BfgsProps
import Verif.ProxGrad.Model
import Mathlib.Data.Matrix.Mul
import Mathlib.LinearAlgebra.Matrix.ToLin
import Mathlib.LinearAlgebra.Matrix.DotProduct
import Mathlib.Analysis.Real.Sqrt
import Mathlib.Tactic.Ring
import Mathlib.Tactic.NormNum
import Mathlib.Tactic.FinCases

/-!
# Property C105: the runs do not depend on the choice of orthonormal coordinates

`Q` is an orthogonal matrix: a rotation, a reflection, a permutation of the coordinates, a reshaping of the parameters.  Minimising
`x ↦ F (Q x)` from `x0` and minimising `F` from `Q x0` give the same run up to `Q`.
-/

set_option autoImplicit false
set_option linter.unusedSectionVars false
set_option linter.unusedVariables false

open Matrix

namespace Jaxopt.Rotation

open Jaxopt.Base Jaxopt.LineSearch Jaxopt.QuasiNewton Jaxopt.ProxGrad Jaxopt.Loop

variable {ι κ : Type*} [Fintype ι] [Fintype κ] [DecidableEq ι] [DecidableEq κ]

/-! ### Specification -/

/-- The columns of `Q` and its rows are orthonormal. -/
structure Orthogonal (Q : Matrix κ ι ℝ) : Prop where
  left : Qᵀ * Q = 1
  right : Q * Qᵀ = 1

/-- `g x` is the gradient of `F` at `x`. -/
def IsGrad (F : (ι → ℝ) → ℝ) (g : (ι → ℝ) → ι → ℝ) : Prop :=
  ∀ x, ∃ D : (ι → ℝ) →L[ℝ] ℝ, HasFDerivAt F D x ∧ ∀ v, D v = g x ⬝ᵥ v

/-- The Euclidean norm, `tree_l2_norm`. -/
noncomputable def l2 (x : ι → ℝ) : ℝ := Real.sqrt (x ⬝ᵥ x)

/-- A function as the solvers see it. -/
def obj (W : Search) (F : (ι → ℝ) → ℝ) (g : (ι → ℝ) → ι → ℝ) : LineObj ℝ (ι → ℝ) :=
  ⟨fun x => .fin (F x), g, fun a b => a ⬝ᵥ b, W.cubicmin, W.quadmin, W.offLine, W.fuel⟩

/-- The state of `BFGS` in the new coordinates: the gradient is rotated, the approximate inverse Hessian becomes `Q H Qᵀ`. -/
def rotBfgs {V : Type*} (Q : Matrix κ ι ℝ) (st : BfgsState ℝ ι V) : BfgsState ℝ κ V :=
  ⟨st.iterNum, st.value, Q *ᵥ st.grad, st.stepsize, st.error, Q * st.H * Qᵀ⟩

/-- The state of `ProximalGradient` in the new coordinates. -/
def rotPG (Q : Matrix κ ι ℝ) (st : PGState ℝ (ι → ℝ)) : PGState ℝ (κ → ℝ) :=
  ⟨st.iterNum, st.stepsize, st.error, Q *ᵥ st.velocity, st.t⟩

/-- A proximal gradient solver with the same attributes for other functions. -/
noncomputable def pgOf {E : Type*} (S : PG ℝ E) (F : (κ → ℝ) → ℝ) (g : (κ → ℝ) → κ → ℝ) (prox : (κ → ℝ) → ℝ → κ → ℝ) : PG ℝ (κ → ℝ) :=
  ⟨F, g, prox, fun a b => a ⬝ᵥ b, l2, S.sqrt, S.eps, S.stepsize, S.maxiter, S.maxls, S.tol, S.acceleration, S.decreaseFactor, S.unroll,
    S.jit⟩

/-! ### Lemmas -/

variable {Q : Matrix κ ι ℝ}

theorem dot_map (hQ : Orthogonal Q) (a b : ι → ℝ) : Q *ᵥ a ⬝ᵥ Q *ᵥ b = a ⬝ᵥ b := by
  rw [Matrix.dotProduct_mulVec, Matrix.vecMul_mulVec, hQ.left, Matrix.vecMul_one]

theorem l2_map (hQ : Orthogonal Q) (a : ι → ℝ) : l2 (Q *ᵥ a) = l2 a := by rw [l2, dot_map hQ]; rfl

theorem back (hQ : Orthogonal Q) (x : κ → ℝ) : Q *ᵥ (Qᵀ *ᵥ x) = x := by
  rw [Matrix.mulVec_mulVec, hQ.right, Matrix.one_mulVec]

/-- Gradients rotate with the parameters. -/
theorem grad_map (hQ : Orthogonal Q) {F : (κ → ℝ) → ℝ} {g : (κ → ℝ) → κ → ℝ} {gQ : (ι → ℝ) → ι → ℝ} (hg : IsGrad F g)
    (hQg : IsGrad (fun x => F (Q *ᵥ x)) gQ) (x : ι → ℝ) : g (Q *ᵥ x) = Q *ᵥ gQ x := by
  obtain ⟨D, hD, eD⟩ := hg (Q *ᵥ x)
  obtain ⟨D', hD', eD'⟩ := hQg x
  let T : (ι → ℝ) →L[ℝ] (κ → ℝ) := LinearMap.toContinuousLinearMap (Matrix.mulVecLin Q)
  have hT : ∀ v, T v = Q *ᵥ v := fun v => rfl
  have h1 : HasFDerivAt (fun v => T v) T x := T.hasFDerivAt
  have h2 : HasFDerivAt F D (T x) := hD
  have hu : D' = D.comp T := hD'.unique (h2.comp x h1)
  have key : ∀ v, gQ x ⬝ᵥ v = g (Q *ᵥ x) ⬝ᵥ Q *ᵥ v := by
    intro v
    have : D' v = D (Q *ᵥ v) := by rw [hu]; rfl
    rwa [eD', eD] at this
  have e : ∀ v, gQ x ⬝ᵥ v = (Qᵀ *ᵥ g (Q *ᵥ x)) ⬝ᵥ v := by
    intro v
    rw [key, Matrix.dotProduct_mulVec, Matrix.mulVec_transpose]
  have e' : gQ x = Qᵀ *ᵥ g (Q *ᵥ x) := by
    have := e (gQ x - Qᵀ *ᵥ g (Q *ᵥ x))
    rw [← sub_eq_zero, ← sub_dotProduct, dotProduct_self_eq_zero] at this
    exact sub_eq_zero.mp this
  rw [e', back hQ]

theorem obj_corr (hQ : Orthogonal Q) (W : Search) {F : (κ → ℝ) → ℝ} {g : (κ → ℝ) → κ → ℝ} {gQ : (ι → ℝ) → ι → ℝ} (hg : IsGrad F g)
    (hQg : IsGrad (fun x => F (Q *ᵥ x)) gQ) :
    ObjCorr (Matrix.mulVecLin Q) (Matrix.mulVecLin Q) (obj W (fun x => F (Q *ᵥ x)) gQ) (obj W F g) :=
  ⟨fun x => rfl, grad_map hQ hg hQg, dot_map hQ, rfl, rfl, rfl, rfl⟩

theorem problem_corr (hQ : Orthogonal Q) (W : Search) {F : (κ → ℝ) → ℝ} {g : (κ → ℝ) → κ → ℝ} {gQ : (ι → ℝ) → ι → ℝ}
    (hg : IsGrad F g) (hQg : IsGrad (fun x => F (Q *ᵥ x)) gQ) :
    ProblemCorr (Matrix.mulVecLin Q) (Matrix.mulVecLin Q) id id (obj W (fun x => F (Q *ᵥ x)) gQ) (obj W F g) l2 l2 :=
  ⟨obj_corr hQ W hg hQg, ⟨fun _ => rfl, fun a b => (map_sub (Matrix.mulVecLin Q) a b).symm, dot_map hQ, dot_map hQ, l2_map hQ⟩⟩

/-! ### LBFGS and NonlinearCG -/

/-- **C105 (LBFGS).** -/
theorem C105_lbfgs (hQ : Orthogonal Q) (A : Attr ℝ) (W : Search) {F : (κ → ℝ) → ℝ} {g : (κ → ℝ) → κ → ℝ} {gQ : (ι → ℝ) → ι → ℝ}
    (hg : IsGrad F g) (hQg : IsGrad (fun x => F (Q *ᵥ x)) gQ) (x0 : ι → ℝ) :
    (buildLbfgs id A (obj W F g) l2).bind (fun S => S.run (Q *ᵥ x0)) =
      ((buildLbfgs id A (obj W (fun x => F (Q *ᵥ x)) gQ) l2).bind (fun S => S.run x0)).map
        (Prod.map (fun x => Q *ᵥ x) (LbfgsState.map (fun x => Q *ᵥ x) (fun x => Q *ᵥ x))) :=
  buildLbfgs_map (Matrix.mulVecLin Q) (problem_corr hQ W hg hQg) A x0

/-- **C105 (NonlinearCG).** -/
theorem C105_ncg (hQ : Orthogonal Q) (A : Attr ℝ) (W : Search) {F : (κ → ℝ) → ℝ} {g : (κ → ℝ) → κ → ℝ} {gQ : (ι → ℝ) → ι → ℝ}
    (hg : IsGrad F g) (hQg : IsGrad (fun x => F (Q *ᵥ x)) gQ) (x0 : ι → ℝ) :
    (buildNCG id A (obj W F g) l2).bind (fun S => S.run (Q *ᵥ x0)) =
      ((buildNCG id A (obj W (fun x => F (Q *ᵥ x)) gQ) l2).bind (fun S => S.run x0)).map
        (Prod.map (fun x => Q *ᵥ x) (NCGState.map (fun x => Q *ᵥ x) (fun x => Q *ᵥ x))) :=
  buildNCG_map (Matrix.mulVecLin Q) (problem_corr hQ W hg hQg) A x0

/-! ### BFGS -/

theorem newH_map (hQ : Orthogonal Q) (H : Matrix ι ι ℝ) (s y : ι → ℝ) :
    Bfgs.newH (Q * H * Qᵀ) (Q *ᵥ s) (Q *ᵥ y) = Q * Bfgs.newH H s y * Qᵀ := by
  have hv : ∀ a b : ι → ℝ, vecMulVec (Q *ᵥ a) (Q *ᵥ b) = Q * vecMulVec a b * Qᵀ := by
    intro a b
    rw [Matrix.mul_vecMulVec, Matrix.vecMulVec_mul, Matrix.vecMul_transpose]
  simp only [Bfgs.newH, dot_map hQ]
  cases reciprocal (y ⬝ᵥ s) with
  | fin rho =>
    dsimp only
    have hw : 1 - rho • vecMulVec (Q *ᵥ s) (Q *ᵥ y) = Q * (1 - rho • vecMulVec s y) * Qᵀ := by
      rw [hv, Matrix.mul_sub, Matrix.sub_mul, Matrix.mul_one, hQ.right, Matrix.mul_smul, Matrix.smul_mul]
    rw [hw, hv]
    set w := 1 - rho • vecMulVec s y
    have hT : (Q * w * Qᵀ)ᵀ = Q * wᵀ * Qᵀ := by
      simp only [Matrix.transpose_mul, Matrix.transpose_transpose, Matrix.mul_assoc]
    rw [hT]
    have h1 : Q * w * Qᵀ * (Q * H * Qᵀ) * (Q * wᵀ * Qᵀ) = Q * (w * H * wᵀ) * Qᵀ := by
      calc Q * w * Qᵀ * (Q * H * Qᵀ) * (Q * wᵀ * Qᵀ) = Q * w * (Qᵀ * Q) * H * (Qᵀ * Q) * wᵀ * Qᵀ := by simp only [Matrix.mul_assoc]
        _ = _ := by rw [hQ.left]; simp only [Matrix.mul_one, Matrix.mul_assoc]
    rw [h1, Matrix.mul_add, Matrix.add_mul, Matrix.mul_smul, Matrix.smul_mul]
  | nan => rfl
  | ninf => rfl
  | pinf => rfl

theorem bfgs_run_map (hQ : Orthogonal Q) {V : Type*} {S : Bfgs ℝ ι V} {S' : Bfgs ℝ κ V} (hf : ∀ x, S'.f (Q *ᵥ x) = S.f x)
    (hg : ∀ x, S'.grad (Q *ᵥ x) = Q *ᵥ S.grad x) (hn : ∀ x, S'.norm (Q *ᵥ x) = S.norm x) (hs : S'.stepsize = S.stepsize)
    (hm : S'.maxStepsize = S.maxStepsize) (hi : S'.initStep = S.initStep) (ht : S'.tol = S.tol) (hmx : S'.maxiter = S.maxiter)
    (hu : S'.unroll = S.unroll) (hj : S'.jit = S.jit)
    (hls : ∀ s x v g d, S'.runLs s (Q *ᵥ x) v (Q *ᵥ g) (Q *ᵥ d) = LsOut.map (fun x => Q *ᵥ x) (fun x => Q *ᵥ x) (S.runLs s x v g d))
    (x0 : ι → ℝ) : S'.run (Q *ᵥ x0) = (S.run x0).map (Prod.map (fun x => Q *ᵥ x) (rotBfgs Q)) := by
  unfold Bfgs.run
  rw [hmx, hu, hj]
  refine runS_map (fun x => Q *ᵥ x) (rotBfgs Q) x0 ?_ ?_ ?_ _ _ _
  · simp only [Bfgs.initState, rotBfgs, hf, hg, hm, Matrix.mul_one, hQ.right]
  · rintro ⟨x, st⟩
    have hd : Bfgs.direction (rotBfgs Q st) = Q *ᵥ Bfgs.direction st := by
      simp only [Bfgs.direction, rotBfgs, Matrix.mulVec_neg, Matrix.mulVec_mulVec, Matrix.mul_assoc, hQ.left, Matrix.mul_one]
    have hst : ∀ d, S'.step (Q *ᵥ x) (rotBfgs Q st) (Q *ᵥ d) = LsOut.map (fun x => Q *ᵥ x) (fun x => Q *ᵥ x) (S.step x st d) := by
      intro d
      simp only [Bfgs.step, hs]
      cases S.stepsize with
      | const a =>
        by_cases ha : a ≤ 0
        · simp only [if_pos ha, hi]; exact hls _ _ _ _ _
        · simp only [if_neg ha, LsOut.map, ← Matrix.mulVec_smul, ← Matrix.mulVec_add, hf, hg]
      | fn a => simp only [rotBfgs, LsOut.map, ← Matrix.mulVec_smul, ← Matrix.mulVec_add, hf, hg]
    simp only [Bfgs.update, Prod.map, hd, hst]
    simp only [LsOut.map, rotBfgs, ← Matrix.mulVec_sub, newH_map hQ, hn]
  · rintro ⟨x, st⟩
    simp only [Prod.map, rotBfgs, ht]

/-- **C105 (BFGS).** -/
theorem C105_bfgs (hQ : Orthogonal Q) (A : Attr ℝ) (W : Search) {F : (κ → ℝ) → ℝ} {g : (κ → ℝ) → κ → ℝ} {gQ : (ι → ℝ) → ι → ℝ}
    (hg : IsGrad F g) (hQg : IsGrad (fun x => F (Q *ᵥ x)) gQ) (x0 : ι → ℝ) :
    (buildBfgs A (obj W F g) l2).bind (fun S => S.run (Q *ᵥ x0)) =
      ((buildBfgs A (obj W (fun x => F (Q *ᵥ x)) gQ) l2).bind (fun S => S.run x0)).map
        (Prod.map (fun x => Q *ᵥ x) (rotBfgs Q)) := by
  unfold buildBfgs
  rcases setupLinesearch_corr (Matrix.mulVecLin Q) (obj_corr hQ W hg hQg) A.linesearch A.maxls A.maxStepsize A.unroll A.jit with
    ⟨e, e1, e2⟩ | ⟨ls, ls', e1, e2, hl⟩
  · rw [e1, e2]; rfl
  · rw [e1, e2]
    exact bfgs_run_map hQ (fun _ => rfl) (grad_map hQ hg hQg) (l2_map hQ) rfl rfl rfl rfl rfl rfl rfl
      (runLsOf_map (Matrix.mulVecLin Q) hl) x0

/-! ### Proximal gradient -/

/-- **C105 (ProximalGradient).**  With corresponding proximity operators, plain or accelerated, with fixed, scheduled or searched steps. -/
theorem C105_prox_grad (hQ : Orthogonal Q) {E : Type*} (S : PG ℝ E) {F : (κ → ℝ) → ℝ} {g : (κ → ℝ) → κ → ℝ}
    {gQ : (ι → ℝ) → ι → ℝ} (hg : IsGrad F g) (hQg : IsGrad (fun x => F (Q *ᵥ x)) gQ) {prox : (κ → ℝ) → ℝ → κ → ℝ}
    {proxQ : (ι → ℝ) → ℝ → ι → ℝ} (hp : ∀ x s, prox (Q *ᵥ x) s = Q *ᵥ proxQ x s) (x0 : ι → ℝ) :
    (pgOf S F g prox).run (Q *ᵥ x0) =
      ((pgOf S (fun x => F (Q *ᵥ x)) gQ proxQ).run x0).map (Prod.map (fun x => Q *ᵥ x) (rotPG Q)) := by
  have hG := grad_map hQ hg hQg
  have hpg : ∀ x v s, (pgOf S F g prox).proxGrad (Q *ᵥ x) (Q *ᵥ v) s =
      Q *ᵥ (pgOf S (fun x => F (Q *ᵥ x)) gQ proxQ).proxGrad x v s := by
    intro x v s
    simp only [PG.proxGrad, pgOf, ← Matrix.mulVec_smul, ← Matrix.mulVec_add, hp]
  have hls : ∀ x val v s, (pgOf S F g prox).fistaLineSearch (Q *ᵥ x) val (Q *ᵥ v) s =
      Prod.map (fun x => Q *ᵥ x) id ((pgOf S (fun x => F (Q *ᵥ x)) gQ proxQ).fistaLineSearch x val v s) := by
    intro x val v s
    unfold PG.fistaLineSearch
    rw [hpg]
    refine whileLoopPython_map (Prod.map (fun x => Q *ᵥ x) id) ?_ ?_ _ (_, s)
    · rintro ⟨y, t⟩
      simp only [PG.lsCond, pgOf, Prod.map, id, ← Matrix.mulVec_sub, dot_map hQ]
      rfl
    · rintro ⟨y, t⟩
      simp only [PG.lsBody, Prod.map, id, hpg]
      rfl
  have hit : ∀ n x val v s, (pgOf S F g prox).iter n (Q *ᵥ x) val (Q *ᵥ v) s =
      Prod.map (fun x => Q *ᵥ x) id ((pgOf S (fun x => F (Q *ᵥ x)) gQ proxQ).iter n x val v s) := by
    intro n x val v s
    have e1 : (pgOf S F g prox).stepsize = S.stepsize := rfl
    have e2 : (pgOf S (fun x => F (Q *ᵥ x)) gQ proxQ).stepsize = S.stepsize := rfl
    unfold PG.iter
    rw [e1, e2]
    cases S.stepsize with
    | const a =>
      by_cases ha : a ≤ 0
      · simp only [if_pos ha, hls]; rfl
      · simp only [if_neg ha, hpg]; rfl
    | fn a => simp only [hpg]; rfl
  have herr : ∀ d s, (pgOf S F g prox).errorOf (Q *ᵥ d) s = (pgOf S (fun x => F (Q *ᵥ x)) gQ proxQ).errorOf d s := by
    intro d s
    simp only [PG.errorOf, pgOf, l2_map hQ]
  refine runS_map (fun x => Q *ᵥ x) (rotPG Q) x0 rfl ?_ ?_ _ _ _
  · rintro ⟨x, st⟩
    have eF : ∀ z, (pgOf S F g prox).f (Q *ᵥ z) = (pgOf S (fun x => F (Q *ᵥ x)) gQ proxQ).f z := fun _ => rfl
    have eG : ∀ z, (pgOf S F g prox).grad (Q *ᵥ z) = Q *ᵥ (pgOf S (fun x => F (Q *ᵥ x)) gQ proxQ).grad z := hG
    have eA : (pgOf S F g prox).acceleration = (pgOf S (fun x => F (Q *ᵥ x)) gQ proxQ).acceleration := rfl
    have eS : (pgOf S F g prox).sqrt = (pgOf S (fun x => F (Q *ᵥ x)) gQ proxQ).sqrt := rfl
    unfold PG.update
    rw [eA]
    cases (pgOf S (fun x => F (Q *ᵥ x)) gQ proxQ).acceleration
    · simp only [Bool.false_eq_true, if_false, PG.updatePlain, Prod.map, rotPG, eF, eG, hit, id, ← Matrix.mulVec_sub, herr]
    · simp only [if_true, PG.updateAccel, Prod.map, rotPG, eF, eG, eS, hit, id, ← Matrix.mulVec_sub, herr, ← Matrix.mulVec_smul,
        ← Matrix.mulVec_add]
  · rintro ⟨x, st⟩
    rfl

/-- **C105 (GradientDescent).** -/
theorem C105_gradient_descent (hQ : Orthogonal Q) {E : Type*} (S : PG ℝ E) {F : (κ → ℝ) → ℝ} {g : (κ → ℝ) → κ → ℝ}
    {gQ : (ι → ℝ) → ι → ℝ} (hg : IsGrad F g) (hQg : IsGrad (fun x => F (Q *ᵥ x)) gQ) (p : (κ → ℝ) → ℝ → κ → ℝ)
    (q : (ι → ℝ) → ℝ → ι → ℝ) (x0 : ι → ℝ) :
    (pgOf S F g p).gradientDescent.run (Q *ᵥ x0) =
      ((pgOf S (fun x => F (Q *ᵥ x)) gQ q).gradientDescent.run x0).map (Prod.map (fun x => Q *ᵥ x) (rotPG Q)) :=
  C105_prox_grad hQ S hg hQg (prox := fun x _ => x) (proxQ := fun x _ => x) (fun _ _ => rfl) x0

/-! ### Example: a rotation of the plane -/

noncomputable def exQ : Matrix (Fin 2) (Fin 2) ℝ := !![3 / 5, -4 / 5; 4 / 5, 3 / 5]

theorem exQ_orthogonal : Orthogonal exQ := by
  constructor <;> ext i j <;> fin_cases i <;> fin_cases j <;> norm_num [exQ, Matrix.mul_apply, Fin.sum_univ_two, Matrix.one_apply]

def exF (x : Fin 2 → ℝ) : ℝ := x 0 * x 0 + 3 * (x 1 * x 1)

def exG (x : Fin 2 → ℝ) : Fin 2 → ℝ := ![2 * x 0, 6 * x 1]

theorem exF_grad : IsGrad exF exG := by
  intro x
  have h : ∀ i : Fin 2, HasFDerivAt (fun z : Fin 2 → ℝ => z i) (ContinuousLinearMap.proj (R := ℝ) (φ := fun _ : Fin 2 => ℝ) i) x :=
    fun i => (ContinuousLinearMap.proj (R := ℝ) (φ := fun _ : Fin 2 => ℝ) i).hasFDerivAt
  refine ⟨_, ((h 0).mul (h 0)).add (((h 1).mul (h 1)).const_mul 3), fun v => ?_⟩
  simp [exG, dotProduct, Fin.sum_univ_two]
  ring

theorem exFQ_grad : IsGrad (fun x => exF (exQ *ᵥ x)) (fun x => exQᵀ *ᵥ exG (exQ *ᵥ x)) := by
  intro x
  obtain ⟨D, hD, eD⟩ := exF_grad (exQ *ᵥ x)
  let T : (Fin 2 → ℝ) →L[ℝ] (Fin 2 → ℝ) := LinearMap.toContinuousLinearMap (Matrix.mulVecLin exQ)
  have h1 : HasFDerivAt (fun v => T v) T x := T.hasFDerivAt
  have h2 : HasFDerivAt exF D (T x) := hD
  refine ⟨_, h2.comp x h1, fun v => ?_⟩
  have : (D.comp T) v = D (exQ *ᵥ v) := rfl
  rw [this, eD, Matrix.dotProduct_mulVec]
  dsimp only
  rw [Matrix.mulVec_transpose]

/-- Every run on the example. -/
example (A : Attr ℝ) (W : Search) (x0 : Fin 2 → ℝ) :=
  And.intro (C105_lbfgs exQ_orthogonal A W exF_grad exFQ_grad x0)
    (And.intro (C105_ncg exQ_orthogonal A W exF_grad exFQ_grad x0) (C105_bfgs exQ_orthogonal A W exF_grad exFQ_grad x0))

noncomputable def exPG : PG ℝ Unit :=
  ⟨fun _ => 0, fun _ => (), fun _ _ => (), fun _ _ => 0, fun _ => 0, Real.sqrt, 0, .const (1 / 4), 10, 10, 0, false, 1 / 2, true, true⟩

/-- The first step of gradient descent in the new coordinates: from `Q (1, 2) = (-1, 2)` to `(-1/2, -1)`. -/
example : exQ *ᵥ ((pgOf exPG (fun x => exF (exQ *ᵥ x)) (fun x => exQᵀ *ᵥ exG (exQ *ᵥ x)) fun x _ => x).update
    (![1, 2], PG.initState (pgOf exPG exF exG fun x _ => x) ![1, 2])).1 = ![-1 / 2, -1] := by
  ext i
  fin_cases i <;> norm_num [PG.update, pgOf, exPG, PG.updatePlain, PG.iter, PG.proxGrad, exQ, exG, Matrix.mulVec, dotProduct,
    Fin.sum_univ_two, PG.initState, Matrix.vecHead, Matrix.vecTail, Matrix.transpose_apply]

end Jaxopt.Rotation
