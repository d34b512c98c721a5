import Verif.QuasiNewton.Complex
import Verif.LineSearch.Equivariance
import Mathlib.Analysis.Calculus.FDeriv.Comp
import Mathlib.Analysis.Calculus.FDeriv.Linear
import Mathlib.Analysis.Calculus.FDeriv.Mul
import Mathlib.Analysis.Calculus.FDeriv.Add
import Mathlib.Topology.Algebra.Module.FiniteDimension
import Mathlib.LinearAlgebra.Complex.FiniteDimensional
import Mathlib.Tactic.Ring
import Mathlib.Tactic.Linarith
import Mathlib.Tactic.NormNum

/-!
# Property C104: complex parameters are optimised as pairs of real parameters

JAX differentiates a real function of complex arguments to the *conjugate* of the gradient with respect to the real and imaginary parts:
`jax.grad(f)(z) = ∂f/∂x - i ∂f/∂y` (`IsJaxGrad`).  The runs of `LBFGS`, `NonlinearCG` and of the three line searches on complex parameters
are the runs on the pairs `(real, imag)`.
-/

set_option autoImplicit false
set_option linter.unusedSectionVars false
set_option linter.unusedVariables false

namespace Jaxopt.QuasiNewton

open Jaxopt.Base Jaxopt.LineSearch

/-! ### Corresponding solvers -/

section General

variable {K E E' V : Type*} [Field K] [LinearOrder K] [AddCommGroup E] [Module K E] [AddCommGroup E'] [Module K E']

def Hist.map (φ : E → E') (h : Hist K E) : Hist K E' := ⟨fun i => φ (h.s i), fun i => φ (h.y i), h.rho⟩

def LsOut.map (φ ψ : E → E') (o : LsOut K E V) : LsOut K E' V := ⟨o.stepsize, φ o.params, o.value, ψ o.grad, o.failed⟩

def LbfgsState.map (φ ψ : E → E') (st : LbfgsState K E V) : LbfgsState K E' V :=
  { iterNum := st.iterNum, value := st.value, grad := ψ st.grad, stepsize := st.stepsize, error := st.error,
    hist := st.hist.map φ, gamma := st.gamma, failedLinesearch := st.failedLinesearch }

def NCGState.map (φ ψ : E → E') (st : NCGState K E V) : NCGState K E' V :=
  ⟨st.iterNum, st.stepsize, st.error, st.value, ψ st.grad, φ st.descentDirection⟩

/-- Inner products and conjugations correspond. -/
structure Change (φ : E →ₗ[K] E') (ψ : E → E') (conj : E → E) (conj' : E' → E') (vdot : E → E → K) (vdot' : E' → E' → K)
    (norm : E → K) (norm' : E' → K) : Prop where
  conj_map : ∀ g, conj' (ψ g) = φ (conj g)
  conj_sub : ∀ a b, conj' (ψ a - ψ b) = φ (conj (a - b))
  vdot_map : ∀ a b, vdot' (φ a) (φ b) = vdot a b
  vdot_grad : ∀ a b, vdot' (ψ a) (ψ b) = vdot a b
  norm_map : ∀ g, norm' (ψ g) = norm g

theorem scanReverse_map {vdot : E → E → K} {vdot' : E' → E' → K} (φ : E →ₗ[K] E') (hv : ∀ a b, vdot' (φ a) (φ b) = vdot a b)
    (h : Hist K E) (r : E) (l : List ℕ) :
    scanReverse (bodyRight vdot' (h.map φ)) (φ r) l =
      (φ (scanReverse (bodyRight vdot h) r l).1, (scanReverse (bodyRight vdot h) r l).2) := by
  induction l with
  | nil => rfl
  | cons a l ih =>
    have hb : ∀ r i, bodyRight vdot' (h.map φ) (φ r) i = (φ (bodyRight vdot h r i).1, (bodyRight vdot h r i).2) := by
      intro r i
      simp only [bodyRight, Hist.map, hv, map_add, map_smul]
    simp only [scanReverse, ih, hb]

theorem invHessianProduct_map {vdot : E → E → K} {vdot' : E' → E' → K} (φ : E →ₗ[K] E')
    (hv : ∀ a b, vdot' (φ a) (φ b) = vdot a b) (m : ℕ) (v : E) (h : Hist K E) (gamma : K) (start : ℕ) :
    invHessianProduct vdot' m (φ v) (h.map φ) gamma start = φ (invHessianProduct vdot m v h gamma start) := by
  have key : ∀ (l : List (ℕ × K)) (r : E),
      l.foldl (bodyLeft vdot' (h.map φ)) (φ r) = φ (l.foldl (bodyLeft vdot h) r) := by
    intro l
    induction l with
    | nil => intro r; rfl
    | cons a l ih =>
      intro r
      simp only [List.foldl_cons]
      rw [← ih]
      congr 1
      simp only [bodyLeft, Hist.map, hv, map_add, map_smul]
  simp only [invHessianProduct, scanReverse_map φ hv, ← map_smul, key]

theorem computeGamma_map {vdot : E → E → K} {vdot' : E' → E' → K} (φ : E →ₗ[K] E')
    (hv : ∀ a b, vdot' (φ a) (φ b) = vdot a b) (h : Hist K E) (last : ℕ) :
    computeGamma vdot' (h.map φ) last = computeGamma vdot h last := by
  simp only [computeGamma, Hist.map, hv]

theorem Hist.set_map (φ : E → E') (h : Hist K E) (last : ℕ) (s y : E) (rho : K) :
    (h.map φ).set last (φ s) (φ y) rho = (h.set last s y rho).map φ := by
  simp only [Hist.set, Hist.map, Hist.mk.injEq, and_true]
  constructor <;> funext i <;> by_cases hi : i = last <;> simp [Function.update, hi]

/-- Two `LBFGS` solvers for the same function in different variables. -/
structure Lbfgs.Corr (φ : E →ₗ[K] E') (ψ : E → E') (S : Lbfgs K E V) (S' : Lbfgs K E' V) : Prop where
  f : ∀ x, S'.f (φ x) = S.f x
  grad : ∀ x, S'.grad (φ x) = ψ (S.grad x)
  historySize : S'.historySize = S.historySize
  useGamma : S'.useGamma = S.useGamma
  stepsize : S'.stepsize = S.stepsize
  maxStepsize : S'.maxStepsize = S.maxStepsize
  initStep : S'.initStep = S.initStep
  stopIfLinesearchFails : S'.stopIfLinesearchFails = S.stopIfLinesearchFails
  tol : S'.tol = S.tol
  maxiter : S'.maxiter = S.maxiter
  unroll : S'.unroll = S.unroll
  jit : S'.jit = S.jit
  runLs : ∀ s x v g d, S'.runLs s (φ x) v (ψ g) (φ d) = LsOut.map φ ψ (S.runLs s x v g d)

theorem Lbfgs.runC_map (φ : E →ₗ[K] E') {ψ : E → E'} {conj : E → E} {conj' : E' → E'} {S : Lbfgs K E V} {S' : Lbfgs K E' V}
    (h : Lbfgs.Corr φ ψ S S') (hc : Change φ ψ conj conj' S.vdot S'.vdot S.norm S'.norm) (x0 : E) :
    S'.runC conj' (φ x0) = (S.runC conj x0).map (Prod.map φ (LbfgsState.map φ ψ)) := by
  have hi : S'.initState (φ x0) = LbfgsState.map φ ψ (S.initState x0) := by
    simp only [initState, LbfgsState.map, h.f, h.grad, h.maxStepsize, LbfgsState.mk.injEq, true_and, and_true]
    simp only [initHist, Hist.map, map_zero]
  have hd : ∀ st, S'.directionC conj' (LbfgsState.map φ ψ st) = φ (S.directionC conj st) := by
    intro st
    have e : (-1 : K) • conj' (ψ st.grad) = φ ((-1 : K) • conj st.grad) := by rw [hc.conj_map, map_smul]
    simp only [directionC, LbfgsState.map, h.historySize, e, invHessianProduct_map φ hc.vdot_map]
    split <;> rfl
  have hst : ∀ x st d, S'.step (φ x) (LbfgsState.map φ ψ st) (φ d) = LsOut.map φ ψ (S.step x st d) := by
    intro x st d
    simp only [step, h.stepsize]
    cases S.stepsize with
    | const a =>
      by_cases ha : a ≤ 0
      · simp only [if_pos ha, h.initStep]; exact h.runLs _ _ _ _ _
      · simp only [if_neg ha, LsOut.map, ← map_smul, ← map_add, h.f, h.grad]
    | fn a => simp only [LbfgsState.map, LsOut.map, ← map_smul, ← map_add, h.f, h.grad]
  unfold runC
  rw [h.maxiter, h.unroll, h.jit]
  refine runS_map φ (LbfgsState.map φ ψ) x0 hi ?_ ?_ _ _ _
  · rintro ⟨x, st⟩
    simp only [updateC, Prod.map, hd, hst]
    simp only [LsOut.map, LbfgsState.map, h.historySize, h.useGamma, ← map_sub, hc.conj_sub, hc.vdot_map, hc.norm_map,
      Hist.set_map]
    by_cases hz : S.historySize = 0
    · simp [hz]
    · simp only [ne_eq, hz, not_false_eq_true, if_true, true_and, computeGamma_map φ hc.vdot_map]
  · rintro ⟨x, st⟩
    simp only [cont, Prod.map, LbfgsState.map, h.tol, h.stopIfLinesearchFails]

/-- Two `NonlinearCG` solvers for the same function in different variables. -/
structure NCG.Corr (φ : E →ₗ[K] E') (ψ : E → E') (S : NCG K E V) (S' : NCG K E' V) : Prop where
  f : ∀ x, S'.f (φ x) = S.f x
  grad : ∀ x, S'.grad (φ x) = ψ (S.grad x)
  method : S'.method = S.method
  linesearch : S'.linesearch = S.linesearch
  maxStepsize : S'.maxStepsize = S.maxStepsize
  initStep : S'.initStep = S.initStep
  tol : S'.tol = S.tol
  maxiter : S'.maxiter = S.maxiter
  unroll : S'.unroll = S.unroll
  jit : S'.jit = S.jit
  runLs : ∀ s x v g d, S'.runLs s (φ x) v (ψ g) (Option.map φ d) = LsOut.map φ ψ (S.runLs s x v g d)

theorem cgBetaC_map (φ : E →ₗ[K] E') {ψ : E → E'} {conj : E → E} {conj' : E' → E'} {vdot : E → E → K} {vdot' : E' → E' → K}
    {norm : E → K} {norm' : E' → K} (hc : Change φ ψ conj conj' vdot vdot' norm norm') (m : CGMethod) (g g' d : E) :
    cgBetaC conj' vdot' m (ψ g) (ψ g') (φ d) = cgBetaC conj vdot m g g' d := by
  cases m <;> simp only [cgBetaC, hc.vdot_grad, hc.conj_sub, hc.conj_map, hc.vdot_map]

theorem NCG.runC_map (φ : E →ₗ[K] E') {ψ : E → E'} {conj : E → E} {conj' : E' → E'} {S : NCG K E V} {S' : NCG K E' V}
    (h : NCG.Corr φ ψ S S') (hc : Change φ ψ conj conj' S.vdot S'.vdot S.norm S'.norm) (x0 : E) :
    S'.runC conj' (φ x0) = (S.runC conj x0).map (Prod.map φ (NCGState.map φ ψ)) := by
  have hi : S'.initStateC conj' (φ x0) = NCGState.map φ ψ (S.initStateC conj x0) := by
    simp only [initStateC, NCGState.map, h.f, h.grad, h.maxStepsize, hc.conj_map, map_smul]
  have hls : ∀ x st, S'.lineSearch (φ x, NCGState.map φ ψ st) = LsOut.map φ ψ (S.lineSearch (x, st)) := by
    intro x st
    simp only [lineSearch, h.linesearch, h.initStep, NCGState.map]
    by_cases hb : S.linesearch = "backtracking"
    · simp only [if_pos hb]; exact h.runLs _ _ _ _ none
    · simp only [if_neg hb]; exact h.runLs _ _ _ _ (some st.descentDirection)
  unfold runC
  rw [h.maxiter, h.unroll, h.jit]
  refine runS_map φ (NCGState.map φ ψ) x0 hi ?_ ?_ _ _ _
  · rintro ⟨x, st⟩
    simp only [updateC, Prod.map, hls]
    simp only [LsOut.map, NCGState.map, cgBetaC_map φ hc, h.method, hc.norm_map, hc.conj_map, map_add, map_smul]
  · rintro ⟨x, st⟩
    simp only [cont, Prod.map, NCGState.map, h.tol]

/-- Two objectives in different variables. -/
structure ObjCorr (φ : E → E') (ψ : E → E') (O : LineObj K E) (O' : LineObj K E') : Prop where
  f : ∀ x, O'.f (φ x) = O.f x
  grad : ∀ x, O'.grad (φ x) = ψ (O.grad x)
  vdot : ∀ g d, O'.vdot (ψ g) (φ d) = O.vdot g d
  cubicmin : O'.cubicmin = O.cubicmin
  quadmin : O'.quadmin = O.quadmin
  offLine : O'.offLine = O.offLine
  fuel : O'.fuel = O.fuel

theorem defaultBacktracking_corr {φ ψ : E → E'} {O : LineObj K E} {O' : LineObj K E'} (h : ObjCorr φ ψ O O') (maxls : ℕ)
    (m : K) (unroll jit : Bool) :
    Backtracking.Corr φ ψ (defaultBacktracking O maxls m unroll jit) (defaultBacktracking O' maxls m unroll jit) :=
  ⟨h.f, h.grad, h.vdot, rfl, rfl, rfl, rfl, rfl, rfl, rfl, rfl, rfl⟩

theorem defaultZoom_corr {φ ψ : E → E'} {O : LineObj K E} {O' : LineObj K E'} (h : ObjCorr φ ψ O O') (maxls : ℕ)
    (m : K) (unroll jit : Bool) : Zoom.Corr φ ψ (defaultZoom O maxls m unroll jit) (defaultZoom O' maxls m unroll jit) :=
  ⟨h.f, h.grad, fun g d => congrArg Ext.fin (h.vdot g d), rfl, rfl, rfl, rfl, rfl, rfl, rfl, rfl, rfl, rfl, h.cubicmin, h.quadmin,
    rfl, rfl⟩

theorem defaultHagerZhang_corr {φ ψ : E → E'} {O : LineObj K E} {O' : LineObj K E'} (h : ObjCorr φ ψ O O') (maxls : ℕ)
    (unroll jit : Bool) : HZ.Corr φ ψ (defaultHagerZhang O maxls unroll jit) (defaultHagerZhang O' maxls unroll jit) :=
  ⟨h.f, h.grad, fun g d => congrArg Ext.fin (h.vdot g d), h.offLine, rfl, rfl, rfl, rfl, rfl, rfl, rfl, h.fuel, rfl, rfl⟩

/-- The line searches that `_setup_linesearch` creates correspond. -/
inductive LsCorr (φ : E →ₗ[K] E') (ψ : E → E') : LsSolver K E → LsSolver K E' → Prop
  | backtracking {ls ls'} : Backtracking.Corr φ ψ ls ls' → LsCorr φ ψ (.backtracking ls) (.backtracking ls')
  | zoom {ls ls'} : Zoom.Corr φ ψ ls ls' → LsCorr φ ψ (.zoom ls) (.zoom ls')
  | hagerZhang {ls ls'} : HZ.Corr φ ψ ls ls' → LsCorr φ ψ (.hagerZhang ls) (.hagerZhang ls')

theorem runLsOf_map (φ : E →ₗ[K] E') {ψ : E → E'} {ls : LsSolver K E} {ls' : LsSolver K E'} (h : LsCorr φ ψ ls ls') (s : K) (x : E)
    (v : Ext K) (g d : E) : runLsOf ls' s (φ x) v (ψ g) (φ d) = LsOut.map φ ψ (runLsOf ls s x v g d) := by
  cases h with
  | backtracking h =>
    simp only [runLsOf, LsSolver.run]
    have := Backtracking.run_map φ h s x (some v) (some g) d
    rw [Option.map_some] at this
    rw [this]
    cases Backtracking.run _ s x (some v) (some g) (some d) <;> rfl
  | zoom h =>
    simp only [runLsOf, LsSolver.run]
    have := Zoom.run_map φ h s x (some v) (some g) d
    rw [Option.map_some] at this
    rw [this]
    cases Zoom.run _ s x (some v) (some g) (some d) <;> rfl
  | hagerZhang h =>
    simp only [runLsOf, LsSolver.run]
    have := HZ.run_map φ h s x (some v) (some g) d
    rw [Option.map_some] at this
    rw [this]
    cases HZ.run _ s x (some v) (some g) (some d) with
    | error e => rfl
    | ok r =>
      obtain ⟨a, o⟩ := r
      cases o <;> rfl

theorem setupLinesearch_corr (φ : E →ₗ[K] E') {ψ : E → E'} {O : LineObj K E} {O' : LineObj K E'} (h : ObjCorr φ ψ O O')
    (name : String) (maxls : ℕ) (m : K) (unroll jit : Bool) :
    (∃ e, setupLinesearch O (.name name) maxls m unroll jit = .error e ∧
        setupLinesearch O' (.name name) maxls m unroll jit = .error e) ∨
      ∃ ls ls', setupLinesearch O (.name name) maxls m unroll jit = .ok ls ∧
        setupLinesearch O' (.name name) maxls m unroll jit = .ok ls' ∧ LsCorr φ ψ ls ls' := by
  simp only [setupLinesearch]
  by_cases h1 : name = "backtracking"
  · simp only [if_pos h1]
    exact .inr ⟨_, _, rfl, rfl, .backtracking (defaultBacktracking_corr h maxls m unroll jit)⟩
  by_cases h2 : name = "zoom"
  · simp only [if_neg h1, if_pos h2]
    exact .inr ⟨_, _, rfl, rfl, .zoom (defaultZoom_corr h maxls m unroll jit)⟩
  by_cases h3 : name = "hager-zhang"
  · simp only [if_neg h1, if_neg h2, if_pos h3]
    exact .inr ⟨_, _, rfl, rfl, .hagerZhang (defaultHagerZhang_corr h maxls unroll jit)⟩
  · simp only [if_neg h1, if_neg h2, if_neg h3]
    exact .inl ⟨_, rfl, rfl⟩

/-- What corresponding problems are: value and gradient, inner product, norm and conjugation. -/
structure ProblemCorr (φ : E →ₗ[K] E') (ψ : E → E') (conj : E → E) (conj' : E' → E') (O : LineObj K E) (O' : LineObj K E')
    (norm : E → K) (norm' : E' → K) : Prop where
  obj : ObjCorr φ ψ (conjObj conj O) (conjObj conj' O')
  change : Change φ ψ conj conj' O.vdot O'.vdot norm norm'

theorem buildLbfgs_map (φ : E →ₗ[K] E') {ψ : E → E'} {conj : E → E} {conj' : E' → E'} {O : LineObj K E} {O' : LineObj K E'}
    {norm : E → K} {norm' : E' → K} (h : ProblemCorr φ ψ conj conj' O O' norm norm') (A : Attr K) (x0 : E) :
    (buildLbfgs conj' A O' norm').bind (fun S => S.runC conj' (φ x0)) =
      ((buildLbfgs conj A O norm).bind (fun S => S.runC conj x0)).map (Prod.map φ (LbfgsState.map φ ψ)) := by
  unfold buildLbfgs
  rcases setupLinesearch_corr φ h.obj A.linesearch A.maxls A.maxStepsize A.unroll A.jit with ⟨e, e1, e2⟩ | ⟨ls, ls', e1, e2, hl⟩
  · rw [e1, e2]; rfl
  · rw [e1, e2]
    exact Lbfgs.runC_map φ ⟨h.obj.f, h.obj.grad, rfl, rfl, rfl, rfl, rfl, rfl, rfl, rfl, rfl, rfl, runLsOf_map φ hl⟩ h.change x0

theorem buildNCG_map (φ : E →ₗ[K] E') {ψ : E → E'} {conj : E → E} {conj' : E' → E'} {O : LineObj K E} {O' : LineObj K E'}
    {norm : E → K} {norm' : E' → K} (h : ProblemCorr φ ψ conj conj' O O' norm norm') (A : Attr K) (x0 : E) :
    (buildNCG conj' A O' norm').bind (fun S => S.runC conj' (φ x0)) =
      ((buildNCG conj A O norm).bind (fun S => S.runC conj x0)).map (Prod.map φ (NCGState.map φ ψ)) := by
  unfold buildNCG
  rcases setupLinesearch_corr φ h.obj A.linesearch A.maxls A.maxStepsize A.unroll A.jit with ⟨e, e1, e2⟩ | ⟨ls, ls', e1, e2, hl⟩
  · rw [e1, e2]; rfl
  · rw [e1, e2]
    refine NCG.runC_map φ ⟨h.obj.f, h.obj.grad, rfl, rfl, rfl, rfl, rfl, rfl, rfl, rfl, ?_⟩ h.change x0
    intro s x v g d
    dsimp only
    rw [← runLsOf_map φ hl]
    cases d with
    | none => simp only [startDir, Option.map_none, Option.getD_none, h.change.conj_map, map_smul]
    | some d => rfl

end General

/-! ### Specification -/

section Spec

variable {ι : Type*} [Fintype ι]

/-- Real and imaginary parts. -/
noncomputable def toPair : (ι → ℂ) →ₗ[ℝ] (ι → ℝ) × (ι → ℝ) where
  toFun z := (fun i => (z i).re, fun i => (z i).im)
  map_add' a b := by ext <;> simp
  map_smul' r a := by ext <;> simp

/-- The complex parameters with given real and imaginary parts. -/
def ofPair (x : (ι → ℝ) × (ι → ℝ)) : ι → ℂ := fun i => ⟨x.1 i, x.2 i⟩

/-- The convention of JAX: `g z` is the gradient returned by `jax.grad(F)` at complex parameters when the derivative of `F` in the
direction `v` is the real part of `∑ g_i v_i`. -/
def IsJaxGrad (F : (ι → ℂ) → ℝ) (g : (ι → ℂ) → ι → ℂ) : Prop :=
  ∀ z, ∃ D : (ι → ℂ) →L[ℝ] ℝ, HasFDerivAt F D z ∧ ∀ v, D v = (∑ i, g z i * v i).re

/-- `g x` is the gradient at real parameters. -/
def IsPairGrad (F : (ι → ℝ) × (ι → ℝ) → ℝ) (g : (ι → ℝ) × (ι → ℝ) → (ι → ℝ) × (ι → ℝ)) : Prop :=
  ∀ x, ∃ D : (ι → ℝ) × (ι → ℝ) →L[ℝ] ℝ, HasFDerivAt F D x ∧ ∀ v, D v = pairVdot (g x) v

/-- What the zoom and Hager-Zhang searches need besides the objective. -/
structure Search where
  cubicmin : ℝ → Ext ℝ → Ext ℝ → ℝ → Ext ℝ → ℝ → Ext ℝ → Ext ℝ
  quadmin : ℝ → Ext ℝ → Ext ℝ → ℝ → Ext ℝ → Ext ℝ
  offLine : Ext ℝ → Ext ℝ × Ext ℝ
  fuel : ℕ

/-- A real function of complex parameters as the solvers see it. -/
noncomputable def complexObj (W : Search) (F : (ι → ℂ) → ℝ) (g : (ι → ℂ) → ι → ℂ) : LineObj ℝ (ι → ℂ) :=
  ⟨fun z => .fin (F z), g, treeVdotReal, W.cubicmin, W.quadmin, W.offLine, W.fuel⟩

/-- A function of pairs of real parameters. -/
def pairObj (W : Search) (F : (ι → ℝ) × (ι → ℝ) → ℝ) (g : (ι → ℝ) × (ι → ℝ) → (ι → ℝ) × (ι → ℝ)) :
    LineObj ℝ ((ι → ℝ) × (ι → ℝ)) :=
  ⟨fun z => .fin (F z), g, pairVdot, W.cubicmin, W.quadmin, W.offLine, W.fuel⟩

/-- A backtracking search with the same attributes for a function of pairs of real parameters. -/
def pairBacktracking (ls : Backtracking ℝ (ι → ℂ)) (F : (ι → ℝ) × (ι → ℝ) → ℝ)
    (g : (ι → ℝ) × (ι → ℝ) → (ι → ℝ) × (ι → ℝ)) : Backtracking ℝ ((ι → ℝ) × (ι → ℝ)) :=
  ⟨fun x => .fin (F x), g, pairVdot, ls.maxiter, ls.tol, ls.condition, ls.c1, ls.c2, ls.decreaseFactor, ls.maxStepsize, ls.unroll,
    ls.jit⟩

/-- A zoom search with the same attributes for a function of pairs of real parameters. -/
def pairZoom (ls : Zoom ℝ (ι → ℂ)) (F : (ι → ℝ) × (ι → ℝ) → ℝ)
    (g : (ι → ℝ) × (ι → ℝ) → (ι → ℝ) × (ι → ℝ)) : Zoom ℝ ((ι → ℝ) × (ι → ℝ)) :=
  ⟨fun x => .fin (F x), g, fun a b => .fin (pairVdot a b), ls.c1, ls.c2, ls.c3, ls.relTolCubic, ls.relTolQuad, ls.intervalThreshold,
    ls.increaseFactor, ls.tol, ls.maxiter, ls.maxStepsize, ls.cubicmin, ls.quadmin, ls.unroll, ls.jit⟩

/-- A Hager-Zhang search with the same attributes for a function of pairs of real parameters. -/
def pairHagerZhang (ls : HZ ℝ (ι → ℂ)) (F : (ι → ℝ) × (ι → ℝ) → ℝ)
    (g : (ι → ℝ) × (ι → ℝ) → (ι → ℝ) × (ι → ℝ)) : HZ ℝ ((ι → ℝ) × (ι → ℝ)) :=
  ⟨fun x => .fin (F x), g, fun a b => .fin (pairVdot a b), ls.offLine, ls.c1, ls.c2, ls.expansion, ls.shrinkage, ls.awThreshold,
    ls.tol, ls.maxiter, ls.fuel, ls.unroll, ls.jit⟩

/-- Gradients with respect to the real and imaginary parts. -/
noncomputable def gradPair (g : ι → ℂ) : (ι → ℝ) × (ι → ℝ) := toPair (treeConj g)

end Spec

/-! ### The correspondence -/

section Complex

variable {ι : Type*} [Fintype ι]

theorem ofPair_toPair (z : ι → ℂ) : ofPair (toPair z) = z := by
  funext i; exact Complex.ext rfl rfl

theorem toPair_ofPair (x : (ι → ℝ) × (ι → ℝ)) : toPair (ofPair x) = x := rfl

theorem pairVdot_toPair (a b : ι → ℂ) : pairVdot (toPair a) (toPair b) = treeVdotReal a b := by
  simp only [pairVdot, treeVdotReal, toPair, LinearMap.coe_mk, AddHom.coe_mk, Complex.re_sum, ← Finset.sum_add_distrib]
  refine Finset.sum_congr rfl fun i _ => ?_
  simp [Complex.mul_re]

theorem treeVdotReal_conj (a b : ι → ℂ) : treeVdotReal (treeConj a) (treeConj b) = treeVdotReal a b := by
  simp only [treeVdotReal, treeConj, Complex.re_sum]
  refine Finset.sum_congr rfl fun i _ => ?_
  simp [Complex.mul_re]

theorem pairL2Norm_gradPair (g : ι → ℂ) : pairL2Norm (gradPair g) = treeL2Norm g := by
  simp only [pairL2Norm, treeL2Norm, gradPair, toPair, treeConj, LinearMap.coe_mk, AddHom.coe_mk, ← Finset.sum_add_distrib]
  congr 1
  refine Finset.sum_congr rfl fun i _ => ?_
  simp

theorem pairVdot_self {w : (ι → ℝ) × (ι → ℝ)} (h : pairVdot w w = 0) : w = 0 := by
  simp only [pairVdot] at h
  have h1 : ∀ f : ι → ℝ, 0 ≤ ∑ i, f i * f i := fun f => Finset.sum_nonneg fun i _ => mul_self_nonneg _
  have e : ∀ f : ι → ℝ, ∑ i, f i * f i = 0 → f = 0 := by
    intro f hf
    rw [Finset.sum_eq_zero_iff_of_nonneg (fun i _ => mul_self_nonneg _)] at hf
    funext i
    exact mul_self_eq_zero.mp (hf i (Finset.mem_univ i))
  have a := h1 w.1
  have b := h1 w.2
  exact Prod.ext (e _ (by linarith)) (e _ (by linarith))

/-- The two conventions for the gradient of the same function are conjugate. -/
theorem grad_corr {F : (ι → ℂ) → ℝ} {g : (ι → ℂ) → ι → ℂ} {gR : (ι → ℝ) × (ι → ℝ) → (ι → ℝ) × (ι → ℝ)} (hg : IsJaxGrad F g)
    (hR : IsPairGrad (fun x => F (ofPair x)) gR) (z : ι → ℂ) : gR (toPair z) = gradPair (g z) := by
  obtain ⟨D, hD, eD⟩ := hg z
  obtain ⟨D', hD', eD'⟩ := hR (toPair z)
  let T : (ι → ℂ) →L[ℝ] (ι → ℝ) × (ι → ℝ) := LinearMap.toContinuousLinearMap toPair
  have hT : ∀ v, T v = toPair v := fun v => rfl
  have hcomp : HasFDerivAt F (D'.comp T) z := by
    have h1 : HasFDerivAt (fun v => T v) T z := T.hasFDerivAt
    have h2 : HasFDerivAt (fun x => F (ofPair x)) D' (T z) := hD'
    have h3 := h2.comp z h1
    have e : (fun x => F (ofPair x)) ∘ (fun v => T v) = F := by
      funext v
      simp only [Function.comp_apply, hT, ofPair_toPair]
    rw [e] at h3
    exact h3
  have huniq : D = D'.comp T := hD.unique hcomp
  have key : ∀ v : ι → ℂ, pairVdot (gR (toPair z)) (toPair v) = pairVdot (gradPair (g z)) (toPair v) := by
    intro v
    have h1 : D v = D' (toPair v) := by rw [huniq]; rfl
    rw [eD, eD'] at h1
    rw [← h1, gradPair, pairVdot_toPair]
    simp only [treeVdotReal, treeConj, star_star]
  set w := gR (toPair z) - gradPair (g z) with hw
  have h0 : pairVdot w w = 0 := by
    have := key (ofPair w)
    rw [toPair_ofPair] at this
    have e : pairVdot w w = pairVdot (gR (toPair z)) w - pairVdot (gradPair (g z)) w := by
      simp only [pairVdot, hw, Prod.fst_sub, Prod.snd_sub, Pi.sub_apply, sub_mul, Finset.sum_sub_distrib]
      ring
    rw [e, this, sub_self]
  exact sub_eq_zero.mp (pairVdot_self h0)

theorem complex_corr (W : Search) {F : (ι → ℂ) → ℝ} {g : (ι → ℂ) → ι → ℂ} {gR : (ι → ℝ) × (ι → ℝ) → (ι → ℝ) × (ι → ℝ)}
    (hg : IsJaxGrad F g) (hR : IsPairGrad (fun x => F (ofPair x)) gR) :
    ProblemCorr (toPair : (ι → ℂ) →ₗ[ℝ] _) gradPair treeConj id (complexObj W F g) (pairObj W (fun x => F (ofPair x)) gR)
      treeL2Norm pairL2Norm := by
  refine ⟨⟨fun x => ?_, grad_corr hg hR, fun g d => pairVdot_toPair _ _, rfl, rfl, rfl, rfl⟩, ?_⟩
  · show Ext.fin (F (ofPair (toPair x))) = Ext.fin (F x)
    rw [ofPair_toPair]
  · refine ⟨fun g => rfl, fun a b => ?_, pairVdot_toPair, fun a b => ?_, pairL2Norm_gradPair⟩
    · show toPair (treeConj a) - toPair (treeConj b) = toPair (treeConj (a - b))
      rw [← map_sub]
      congr 1
      funext i
      simp [treeConj]
    · show pairVdot (toPair (treeConj a)) (toPair (treeConj b)) = _
      rw [pairVdot_toPair, treeVdotReal_conj]; rfl

section Default

variable {K E : Type*} [Field K] [LinearOrder K] [AddCommGroup E] [Module K E]

/-- On real parameters the direction that is taken by default is `-grad`, lines 186-187 with `tree_conj` the identity. -/
theorem backtracking_startDir (ls : Backtracking K E) (s : K) (x : E) (v : Option (Ext K)) (g d : Option E) :
    backtrackingC id ls s x v g d = ls.run s x v g d := by
  cases d with
  | some d => rfl
  | none =>
    unfold backtrackingC
    set g0 := startGrad ls.grad x v g with hg0
    have h0 : (ls.initState x v g).gradInit = g0 := by
      cases v <;> cases g <;> rfl
    have key : ∀ (d : Option E), (∀ st : BState K E, st.gradInit = g0 → Backtracking.direction (K := K) st d = (-1 : K) • g0) →
        ls.run s x v g d = (runS (fun _ : K => (⟨ls.initState x v g, h0⟩ : {st : BState K E // st.gradInit = g0}))
          (fun z => ((ls.update x (some ((-1 : K) • g0)) (z.1, z.2.1)).1, ⟨(ls.update x (some ((-1 : K) • g0)) (z.1, z.2.1)).2, z.2.2⟩))
          (fun z => Ext.gt z.2.1.error (.fin ls.tol)) ls.maxiter ls.unroll ls.jit s).map (Prod.map id Subtype.val) := by
      intro d hd
      unfold Backtracking.run
      refine runS_map id Subtype.val s rfl ?_ (fun _ => rfl) _ _ _
      rintro ⟨a, st, hst⟩
      have e : Backtracking.direction (K := K) st d = Backtracking.direction (K := K) st (some ((-1 : K) • g0)) := hd st hst
      simp only [Prod.map, id, Backtracking.update, e]
    rw [key none (fun st h => by simp only [Backtracking.direction, h])]
    exact key _ (fun st h => rfl)

theorem zoom_startDir (ls : Zoom K E) (s : K) (x : E) (v : Option (Ext K)) (g d : Option E) :
    zoomC id ls s x v g d = ls.run s x v g d := by
  cases d with
  | some d => rfl
  | none => cases v <;> cases g <;> rfl

theorem hagerZhang_startDir (ls : HZ K E) (s : K) (x : E) (v : Option (Ext K)) (g d : Option E) :
    hagerZhangC id ls s x v g d = ls.run s x v g d := by
  cases d with
  | some d => rfl
  | none => cases v <;> cases g <;> rfl

end Default

theorem startDir_toPair {g : (ι → ℂ) → ι → ℂ} {gR : (ι → ℝ) × (ι → ℝ) → (ι → ℝ) × (ι → ℝ)}
    (h : ∀ z, gR (toPair z) = gradPair (g z)) (x : ι → ℂ) (v : Option (Ext ℝ)) (gr d : Option (ι → ℂ)) :
    startDir ℝ id (startGrad gR (toPair x) v (gr.map gradPair)) (d.map toPair) =
      toPair (startDir ℝ treeConj (startGrad g x v gr) d) := by
  have e : startGrad gR (toPair x) v (gr.map gradPair) = gradPair (startGrad g x v gr) := by
    cases v <;> cases gr <;> simp [startGrad, h]
  rw [e]
  cases d with
  | none => simp only [startDir, Option.map_none, Option.getD_none, map_smul]; rfl
  | some d => rfl

/-- **C104 (backtracking).**  A backtracking search on complex parameters, from given or computed value and gradient and along a given or
the default direction, is the search on pairs of real parameters. -/
theorem C104_backtracking {ls : Backtracking ℝ (ι → ℂ)} {F : (ι → ℂ) → ℝ} {g : (ι → ℂ) → ι → ℂ}
    {gR : (ι → ℝ) × (ι → ℝ) → (ι → ℝ) × (ι → ℝ)} (hg : IsJaxGrad F g) (hR : IsPairGrad (fun x => F (ofPair x)) gR)
    (hf : ∀ z, ls.f z = .fin (F z)) (hgr : ls.grad = g) (hv : ∀ g d, ls.vdot g d = treeVdotReal (treeConj g) d) (s : ℝ) (z : ι → ℂ)
    (v : Option (Ext ℝ)) (gr d : Option (ι → ℂ)) :
    (pairBacktracking ls (fun x => F (ofPair x)) gR).run s (toPair z) v (gr.map gradPair) (d.map toPair) =
      (backtrackingC treeConj ls s z v gr d).map (Prod.map id (BState.map toPair gradPair)) := by
  subst hgr
  have hc : Backtracking.Corr (toPair : (ι → ℂ) →ₗ[ℝ] _) gradPair ls (pairBacktracking ls (fun x => F (ofPair x)) gR) :=
    ⟨fun x => by rw [hf]; show Ext.fin (F (ofPair (toPair x))) = _; rw [ofPair_toPair], grad_corr hg hR,
      fun g d => by rw [hv]; exact pairVdot_toPair _ _, rfl, rfl, rfl, rfl, rfl, rfl, rfl, rfl, rfl⟩
  rw [← backtracking_startDir, backtrackingC, backtrackingC, ← Backtracking.run_map toPair hc]
  rw [← startDir_toPair (grad_corr hg hR)]
  rfl

/-- **C104 (zoom).** -/
theorem C104_zoom {ls : Zoom ℝ (ι → ℂ)} {F : (ι → ℂ) → ℝ} {g : (ι → ℂ) → ι → ℂ}
    {gR : (ι → ℝ) × (ι → ℝ) → (ι → ℝ) × (ι → ℝ)} (hg : IsJaxGrad F g) (hR : IsPairGrad (fun x => F (ofPair x)) gR)
    (hf : ∀ z, ls.f z = .fin (F z)) (hgr : ls.grad = g) (hv : ∀ g d, ls.vdot g d = .fin (treeVdotReal (treeConj g) d)) (s : ℝ)
    (z : ι → ℂ) (v : Option (Ext ℝ)) (gr d : Option (ι → ℂ)) :
    (pairZoom ls (fun x => F (ofPair x)) gR).run s (toPair z) v (gr.map gradPair) (d.map toPair) =
      (zoomC treeConj ls s z v gr d).map (Prod.map id (ZState.map toPair gradPair)) := by
  subst hgr
  have hc : Zoom.Corr (toPair : (ι → ℂ) →ₗ[ℝ] _) gradPair ls (pairZoom ls (fun x => F (ofPair x)) gR) :=
    ⟨fun x => by rw [hf]; show Ext.fin (F (ofPair (toPair x))) = _; rw [ofPair_toPair], grad_corr hg hR,
      fun g d => by rw [hv]; exact congrArg Ext.fin (pairVdot_toPair _ _), rfl, rfl, rfl, rfl, rfl, rfl, rfl, rfl, rfl, rfl, rfl, rfl,
      rfl, rfl⟩
  rw [← zoom_startDir, zoomC, zoomC, ← Zoom.run_map toPair hc]
  rw [← startDir_toPair (grad_corr hg hR)]
  rfl

/-- **C104 (Hager-Zhang).** -/
theorem C104_hager_zhang {ls : HZ ℝ (ι → ℂ)} {F : (ι → ℂ) → ℝ} {g : (ι → ℂ) → ι → ℂ}
    {gR : (ι → ℝ) × (ι → ℝ) → (ι → ℝ) × (ι → ℝ)} (hg : IsJaxGrad F g) (hR : IsPairGrad (fun x => F (ofPair x)) gR)
    (hf : ∀ z, ls.f z = .fin (F z)) (hgr : ls.grad = g) (hv : ∀ g d, ls.vdot g d = .fin (treeVdotReal (treeConj g) d)) (s : ℝ)
    (z : ι → ℂ) (v : Option (Ext ℝ)) (gr d : Option (ι → ℂ)) :
    (pairHagerZhang ls (fun x => F (ofPair x)) gR).run s (toPair z) v (gr.map gradPair) (d.map toPair) =
      (hagerZhangC treeConj ls s z v gr d).map (Prod.map id (Option.map (HZState.map toPair gradPair))) := by
  subst hgr
  have hc : HZ.Corr (toPair : (ι → ℂ) →ₗ[ℝ] _) gradPair ls (pairHagerZhang ls (fun x => F (ofPair x)) gR) :=
    ⟨fun x => by rw [hf]; show Ext.fin (F (ofPair (toPair x))) = _; rw [ofPair_toPair], grad_corr hg hR,
      fun g d => by rw [hv]; exact congrArg Ext.fin (pairVdot_toPair _ _), rfl, rfl, rfl, rfl, rfl, rfl, rfl, rfl, rfl, rfl, rfl⟩
  rw [← hagerZhang_startDir, hagerZhangC, hagerZhangC, ← HZ.run_map toPair hc]
  rw [← startDir_toPair (grad_corr hg hR)]
  rfl

/-- **C104 (LBFGS).**  For every choice of the attributes (line search, history size, fixed or computed steps, ...), the run of `LBFGS` on
complex parameters with the gradient that JAX returns is the run on pairs of real parameters: same parameters, step sizes, values, errors,
histories and failure flags; the stored gradient is the conjugate. -/
theorem C104_lbfgs (A : Attr ℝ) (W : Search) {F : (ι → ℂ) → ℝ} {g : (ι → ℂ) → ι → ℂ}
    {gR : (ι → ℝ) × (ι → ℝ) → (ι → ℝ) × (ι → ℝ)} (hg : IsJaxGrad F g) (hR : IsPairGrad (fun x => F (ofPair x)) gR) (z0 : ι → ℂ) :
    (buildLbfgs id A (pairObj W (fun x => F (ofPair x)) gR) pairL2Norm).bind (fun S => S.run (toPair z0)) =
      ((buildLbfgs treeConj A (complexObj W F g) treeL2Norm).bind (fun S => S.runC treeConj z0)).map
        (Prod.map toPair (LbfgsState.map toPair gradPair)) :=
  buildLbfgs_map toPair (complex_corr W hg hR) A z0

/-- **C104 (NonlinearCG).** -/
theorem C104_ncg (A : Attr ℝ) (W : Search) {F : (ι → ℂ) → ℝ} {g : (ι → ℂ) → ι → ℂ}
    {gR : (ι → ℝ) × (ι → ℝ) → (ι → ℝ) × (ι → ℝ)} (hg : IsJaxGrad F g) (hR : IsPairGrad (fun x => F (ofPair x)) gR) (z0 : ι → ℂ) :
    (buildNCG id A (pairObj W (fun x => F (ofPair x)) gR) pairL2Norm).bind (fun S => S.run (toPair z0)) =
      ((buildNCG treeConj A (complexObj W F g) treeL2Norm).bind (fun S => S.runC treeConj z0)).map
        (Prod.map toPair (NCGState.map toPair gradPair)) :=
  buildNCG_map toPair (complex_corr W hg hR) A z0

/-- **C104**, the conjugation is needed: with the direction `-conj(grad)` the slope that the searches compute is `-‖grad‖²`. -/
theorem C104_slope (g : ι → ℂ) : treeVdotReal (treeConj g) (startDir ℝ treeConj g none) = -(treeL2Norm g) ^ 2 := by
  have h0 : 0 ≤ ∑ i, ((g i).re ^ 2 + (g i).im ^ 2) := Finset.sum_nonneg fun i _ => add_nonneg (sq_nonneg _) (sq_nonneg _)
  rw [treeL2Norm, Real.sq_sqrt h0, ← Finset.sum_neg_distrib]
  simp only [treeVdotReal, treeConj, startDir, Option.getD_none, Complex.re_sum]
  refine Finset.sum_congr rfl fun i _ => ?_
  simp [Complex.mul_re, treeConj]
  ring

/-! ### Example: `re² + 3 im²` -/

noncomputable def exF (z : Unit → ℂ) : ℝ := (z ()).re * (z ()).re + 3 * ((z ()).im * (z ()).im)

noncomputable def exG (z : Unit → ℂ) : Unit → ℂ := fun _ => ⟨2 * (z ()).re, -(6 * (z ()).im)⟩

def exGR (x : (Unit → ℝ) × (Unit → ℝ)) : (Unit → ℝ) × (Unit → ℝ) := (fun _ => 2 * x.1 (), fun _ => 6 * x.2 ())

theorem exF_jax : IsJaxGrad exF exG := by
  intro z
  have h1 : HasFDerivAt (fun z : Unit → ℂ => (z ()).re) (Complex.reCLM.comp (ContinuousLinearMap.proj (R := ℝ) (φ := fun _ : Unit => ℂ) ())) z :=
    (Complex.reCLM.comp (ContinuousLinearMap.proj (R := ℝ) (φ := fun _ : Unit => ℂ) ())).hasFDerivAt
  have h2 : HasFDerivAt (fun z : Unit → ℂ => (z ()).im) (Complex.imCLM.comp (ContinuousLinearMap.proj (R := ℝ) (φ := fun _ : Unit => ℂ) ())) z :=
    (Complex.imCLM.comp (ContinuousLinearMap.proj (R := ℝ) (φ := fun _ : Unit => ℂ) ())).hasFDerivAt
  refine ⟨_, (h1.mul h1).add ((h2.mul h2).const_mul 3), fun v => ?_⟩
  simp [exG, Complex.mul_re]
  ring

theorem exF_pair : IsPairGrad (fun x => exF (ofPair x)) exGR := by
  intro x
  have h1 : HasFDerivAt (fun z : (Unit → ℝ) × (Unit → ℝ) => z.1 ())
      ((ContinuousLinearMap.proj (R := ℝ) (φ := fun _ : Unit => ℝ) ()).comp (ContinuousLinearMap.fst ℝ (Unit → ℝ) (Unit → ℝ))) x :=
    ((ContinuousLinearMap.proj (R := ℝ) (φ := fun _ : Unit => ℝ) ()).comp (ContinuousLinearMap.fst ℝ (Unit → ℝ) (Unit → ℝ))).hasFDerivAt
  have h2 : HasFDerivAt (fun z : (Unit → ℝ) × (Unit → ℝ) => z.2 ())
      ((ContinuousLinearMap.proj (R := ℝ) (φ := fun _ : Unit => ℝ) ()).comp (ContinuousLinearMap.snd ℝ (Unit → ℝ) (Unit → ℝ))) x :=
    ((ContinuousLinearMap.proj (R := ℝ) (φ := fun _ : Unit => ℝ) ()).comp (ContinuousLinearMap.snd ℝ (Unit → ℝ) (Unit → ℝ))).hasFDerivAt
  refine ⟨_, (h1.mul h1).add ((h2.mul h2).const_mul 3), fun v => ?_⟩
  simp [exGR, pairVdot]
  ring

/-- The correspondence applies to every run on the example. -/
example (A : Attr ℝ) (W : Search) (z0 : Unit → ℂ) :=
  And.intro (C104_lbfgs A W exF_jax exF_pair z0) (C104_ncg A W exF_jax exF_pair z0)

noncomputable def exAttr : Attr ℝ where
  historySize := 0
  useGamma := true
  stepsize := .const (1 / 2)
  method := .polakRibiere
  linesearch := "zoom"
  linesearchInit := "increase"
  maxls := 20
  maxStepsize := 1
  minStepsize := 1 / 1000000
  increaseFactor := 3 / 2
  stopIfLinesearchFails := false
  tol := 0
  maxiter := 1
  unroll := false
  jit := true

/-- A step of size 1/2 from `1 + i` leads to `-2i`: the gradient in the sense of JAX is `2 - 6i`, the direction `-2 - 6i`. -/
example (W : Search) : ∃ S, buildLbfgs treeConj exAttr (complexObj W exF exG) treeL2Norm = .ok S ∧
    (S.updateC treeConj (fun _ => ⟨1, 1⟩, S.initState (fun _ => ⟨1, 1⟩))).1 = fun _ => ⟨0, -2⟩ := by
  refine ⟨_, rfl, ?_⟩
  funext i
  apply Complex.ext <;>
    norm_num [Lbfgs.updateC, Lbfgs.step, Lbfgs.directionC, exAttr, Lbfgs.initState, complexObj, exG, treeConj]

end Complex

end Jaxopt.QuasiNewton
