import Verif.LineSearch.Shift
import Verif.LineSearch.Interp
import Verif.QuasiNewton.RotationProps
import Mathlib.Algebra.Order.Ring.Rat
import Mathlib.Algebra.Field.Rat

/-!
# C116: the choice of the origin and constants in the objective

Adding a constant to the objective, or measuring the parameters from another origin, does not change the minimisation problem.  The run for
`x ↦ f (x - a) + c` started at `x0 + a` is compared with the run for `f` started at `x0`.
-/

set_option autoImplicit false
set_option linter.unusedSectionVars false
set_option linter.unusedVariables false

namespace Jaxopt.Shift

open Matrix
open Jaxopt.Base Jaxopt.Loop Jaxopt.LineSearch Jaxopt.QuasiNewton Jaxopt.ProxGrad

variable {K E : Type*} [Field K] [LinearOrder K] [IsStrictOrderedRing K] [AddCommGroup E] [Module K E]

/-! ### Specification -/

/-- The state of `LBFGS` for the shifted objective: only the value differs. -/
def lbfgsState (c : K) (st : LbfgsState K E (Ext K)) : LbfgsState K E (Ext K) := { st with value := Ext.shift c st.value }

/-- The state of `NonlinearCG` for the shifted objective. -/
def ncgState (c : K) (st : NCGState K E (Ext K)) : NCGState K E (Ext K) := { st with value := Ext.shift c st.value }

/-- The state of `BFGS` for the shifted objective. -/
def bfgsState {ι : Type*} (c : K) (st : BfgsState K ι (Ext K)) : BfgsState K ι (Ext K) := { st with value := Ext.shift c st.value }

/-- `ProximalGradient` for the shifted objective, with the proximity operator of the shifted penalty. -/
def pg (S : PG K E) (a : E) (c : K) : PG K E :=
  { S with f := fun x => S.f (x - a) + c, grad := fun x => S.grad (x - a), prox := fun x s => S.prox (x - a) s + a }

/-- The state of `ProximalGradient` for the shifted objective: the extrapolated point moves with the parameters. -/
def pgState (a : E) (st : PGState K E) : PGState K E := { st with velocity := st.velocity + a }

/-- The step sizes are prescribed: no line search is run. -/
def FixedStep : Stepsize K → Prop
  | .const a => 0 < a
  | .fn _ => True

/-- What the zoom and Hager-Zhang searches need besides the objective, for the shifted objective. -/
noncomputable def search (W : Search) (c : ℝ) : Search :=
  { W with offLine := fun m => (Ext.shift c (W.offLine m).1, (W.offLine m).2) }

/-! ### Lemmas -/

def lsOut (a : E) (c : K) (o : LsOut K E (Ext K)) : LsOut K E (Ext K) :=
  { o with params := o.params + a, value := Ext.shift c o.value }

theorem runLsOf_shift {ls : LsSolver K E} {a : E} {c : K} (h : ls.Blind c) (s : K) (x : E) (v : Ext K) (g d : E) :
    runLsOf (ls.shift a c) s (x + a) (Ext.shift c v) g d = lsOut a c (runLsOf ls s x v g d) := by
  cases ls with
  | backtracking ls =>
    simp only [runLsOf, LsSolver.run, LsSolver.shift]
    have := Backtracking.run_shift ls a c s x (some v) (some g) (some d)
    rw [Option.map_some] at this
    rw [this]
    cases Backtracking.run ls s x (some v) (some g) (some d) <;> rfl
  | zoom ls =>
    simp only [runLsOf, LsSolver.run, LsSolver.shift]
    have := Zoom.run_shift (a := a) h s x (some v) (some g) (some d)
    rw [Option.map_some] at this
    rw [this]
    cases Zoom.run ls s x (some v) (some g) (some d) <;> rfl
  | hagerZhang ls =>
    simp only [runLsOf, LsSolver.run, LsSolver.shift]
    have := HZ.run_shift (a := a) h s x (some v) (some g) (some d)
    rw [Option.map_some] at this
    rw [this]
    cases HZ.run ls s x (some v) (some g) (some d) with
    | error e => rfl
    | ok r =>
      obtain ⟨b, o⟩ := r
      cases o <;> rfl

theorem lbfgs_run (S : Lbfgs K E (Ext K)) (a : E) (c : K) (ls' : K → E → Ext K → E → E → LsOut K E (Ext K))
    (h : FixedStep S.stepsize ∨ ∀ s x v g d, ls' s (x + a) (Ext.shift c v) g d = lsOut a c (S.runLs s x v g d)) (x0 : E) :
    ({ S with f := fun x => Ext.shift c (S.f (x - a)), grad := fun x => S.grad (x - a), runLs := ls' } : Lbfgs K E (Ext K)).run (x0 + a) =
      (S.run x0).map (Prod.map (· + a) (lbfgsState c)) := by
  set S' : Lbfgs K E (Ext K) := { S with f := fun x => Ext.shift c (S.f (x - a)), grad := fun x => S.grad (x - a), runLs := ls' } with hS
  have hst : ∀ x st d, S'.step (x + a) (lbfgsState c st) d = lsOut a c (S.step x st d) := by
    intro x st d
    have e : S'.stepsize = S.stepsize := rfl
    unfold Lbfgs.step
    rw [e]
    cases hs : S.stepsize with
    | const t =>
      by_cases ht : t ≤ 0
      · simp only [if_pos ht]
        rcases h with h | h
        · rw [hs] at h; exact absurd h (not_lt.mpr ht)
        · exact h _ _ _ _ _
      · simp only [if_neg ht, hS, lsOut, point_shift, add_sub_cancel_right]
    | fn t => simp only [hS, lsOut, lbfgsState, point_shift, add_sub_cancel_right]
  refine runS_map (· + a) (lbfgsState c) x0 ?_ ?_ ?_ _ _ _
  · simp only [Lbfgs.initState, lbfgsState, hS, add_sub_cancel_right]
  · rintro ⟨x, st⟩
    have hd : S'.direction (lbfgsState c st) = S.direction st := rfl
    simp only [Lbfgs.update, Prod.map, hd, hst]
    simp only [lsOut, add_sub_add_right_eq_sub]
    rfl
  · rintro ⟨x, st⟩
    rfl

theorem ncg_run (S : NCG K E (Ext K)) (a : E) (c : K) (ls' : K → E → Ext K → E → Option E → LsOut K E (Ext K))
    (h : ∀ s x v g d, ls' s (x + a) (Ext.shift c v) g d = lsOut a c (S.runLs s x v g d)) (x0 : E) :
    ({ S with f := fun x => Ext.shift c (S.f (x - a)), grad := fun x => S.grad (x - a), runLs := ls' } : NCG K E (Ext K)).run (x0 + a) =
      (S.run x0).map (Prod.map (· + a) (ncgState c)) := by
  set S' : NCG K E (Ext K) := { S with f := fun x => Ext.shift c (S.f (x - a)), grad := fun x => S.grad (x - a), runLs := ls' } with hS
  have hst : ∀ x st, S'.lineSearch (x + a, ncgState c st) = lsOut a c (S.lineSearch (x, st)) := by
    intro x st
    unfold NCG.lineSearch
    exact h _ _ _ _ _
  refine runS_map (· + a) (ncgState c) x0 ?_ ?_ ?_ _ _ _
  · simp only [NCG.initState, ncgState, hS, add_sub_cancel_right]
  · rintro ⟨x, st⟩
    simp only [NCG.update, Prod.map, hst]
    simp only [lsOut]
    rfl
  · rintro ⟨x, st⟩
    rfl

theorem bfgs_run {ι : Type*} [Fintype ι] [DecidableEq ι] (S : Bfgs K ι (Ext K)) (a : ι → K) (c : K)
    (ls' : K → (ι → K) → Ext K → (ι → K) → (ι → K) → LsOut K (ι → K) (Ext K))
    (h : FixedStep S.stepsize ∨ ∀ s x v g d, ls' s (x + a) (Ext.shift c v) g d = lsOut a c (S.runLs s x v g d)) (x0 : ι → K) :
    ({ S with f := fun x => Ext.shift c (S.f (x - a)), grad := fun x => S.grad (x - a), runLs := ls' } : Bfgs K ι (Ext K)).run (x0 + a) =
      (S.run x0).map (Prod.map (· + a) (bfgsState c)) := by
  set S' : Bfgs K ι (Ext K) := { S with f := fun x => Ext.shift c (S.f (x - a)), grad := fun x => S.grad (x - a), runLs := ls' } with hS
  have hst : ∀ x st d, S'.step (x + a) (bfgsState c st) d = lsOut a c (S.step x st d) := by
    intro x st d
    have e : S'.stepsize = S.stepsize := rfl
    unfold Bfgs.step
    rw [e]
    cases hs : S.stepsize with
    | const t =>
      by_cases ht : t ≤ 0
      · simp only [if_pos ht]
        rcases h with h | h
        · rw [hs] at h; exact absurd h (not_lt.mpr ht)
        · exact h _ _ _ _ _
      · simp only [if_neg ht, hS, lsOut, point_shift, add_sub_cancel_right]
    | fn t => simp only [hS, lsOut, bfgsState, point_shift, add_sub_cancel_right]
  refine runS_map (· + a) (bfgsState c) x0 ?_ ?_ ?_ _ _ _
  · simp only [Bfgs.initState, bfgsState, hS, add_sub_cancel_right]
  · rintro ⟨x, st⟩
    have hd : Bfgs.direction (bfgsState c st) = Bfgs.direction st := rfl
    simp only [Bfgs.update, Prod.map, hd, hst]
    simp only [lsOut, add_sub_add_right_eq_sub]
    rfl
  · rintro ⟨x, st⟩
    rfl

/-! ### The properties -/

/-- **C116 (LBFGS).**  With step sizes prescribed, with backtracking, or when only the origin moves. -/
theorem C116_lbfgs_partial (A : Attr K) (O : LineObj K E) (norm : E → K) (a : E) (c : K)
    (h : FixedStep A.stepsize ∨ c = 0 ∨ A.linesearch = "backtracking") (x0 : E) :
    (buildLbfgs id A (O.shift a c) norm).bind (fun S => S.run (x0 + a)) =
      ((buildLbfgs id A O norm).bind (fun S => S.run x0)).map (Prod.map (· + a) (lbfgsState c)) := by
  have e : setupLinesearch (conjObj id (O.shift a c)) (.name A.linesearch) A.maxls A.maxStepsize A.unroll A.jit =
      (setupLinesearch (conjObj id O) (.name A.linesearch) A.maxls A.maxStepsize A.unroll A.jit).map (LsSolver.shift a c) :=
    setupLinesearch_shift O a c A.linesearch A.maxls A.maxStepsize A.unroll A.jit
  unfold buildLbfgs
  rw [e]
  cases hl : setupLinesearch (conjObj id O) (.name A.linesearch) A.maxls A.maxStepsize A.unroll A.jit with
  | error m => rfl
  | ok ls =>
    exact lbfgs_run
      { f := O.f, grad := O.grad, vdot := O.vdot, norm := norm, historySize := A.historySize, useGamma := A.useGamma,
        stepsize := A.stepsize, maxStepsize := A.maxStepsize, initStep := A.initStep,
        stopIfLinesearchFails := A.stopIfLinesearchFails, tol := A.tol, maxiter := A.maxiter, unroll := A.unroll, jit := A.jit,
        runLs := runLsOf ls } a c (runLsOf (ls.shift a c)) (h.imp id fun h => runLsOf_shift (setupLinesearch_blind h hl)) x0

/-- **C116 (NonlinearCG).** -/
theorem C116_ncg_partial (A : Attr K) (O : LineObj K E) (norm : E → K) (a : E) (c : K) (h : c = 0 ∨ A.linesearch = "backtracking")
    (x0 : E) :
    (buildNCG id A (O.shift a c) norm).bind (fun S => S.run (x0 + a)) =
      ((buildNCG id A O norm).bind (fun S => S.run x0)).map (Prod.map (· + a) (ncgState c)) := by
  have e : setupLinesearch (conjObj id (O.shift a c)) (.name A.linesearch) A.maxls A.maxStepsize A.unroll A.jit =
      (setupLinesearch (conjObj id O) (.name A.linesearch) A.maxls A.maxStepsize A.unroll A.jit).map (LsSolver.shift a c) :=
    setupLinesearch_shift O a c A.linesearch A.maxls A.maxStepsize A.unroll A.jit
  unfold buildNCG
  rw [e]
  cases hl : setupLinesearch (conjObj id O) (.name A.linesearch) A.maxls A.maxStepsize A.unroll A.jit with
  | error m => rfl
  | ok ls =>
    exact ncg_run
      { f := O.f, grad := O.grad, vdot := O.vdot, norm := norm, method := A.method, linesearch := A.linesearch,
        maxStepsize := A.maxStepsize, initStep := A.initStep, tol := A.tol, maxiter := A.maxiter, unroll := A.unroll, jit := A.jit,
        runLs := fun s x v g d => runLsOf ls s x v g (startDir K id g d) } a c
      (fun s x v g d => runLsOf (ls.shift a c) s x v g (startDir K id g d))
      (fun s x v g d => runLsOf_shift (setupLinesearch_blind h hl) s x v g _) x0

/-- **C116 (BFGS).** -/
theorem C116_bfgs_partial {ι : Type*} [Fintype ι] [DecidableEq ι] (A : Attr K) (O : LineObj K (ι → K)) (norm : (ι → K) → K)
    (a : ι → K) (c : K) (h : FixedStep A.stepsize ∨ c = 0 ∨ A.linesearch = "backtracking") (x0 : ι → K) :
    (buildBfgs A (O.shift a c) norm).bind (fun S => S.run (x0 + a)) =
      ((buildBfgs A O norm).bind (fun S => S.run x0)).map (Prod.map (· + a) (bfgsState c)) := by
  unfold buildBfgs
  rw [setupLinesearch_shift O a c A.linesearch A.maxls A.maxStepsize A.unroll A.jit]
  cases hl : setupLinesearch O (.name A.linesearch) A.maxls A.maxStepsize A.unroll A.jit with
  | error m => rfl
  | ok ls =>
    exact bfgs_run
      { f := O.f, grad := O.grad, norm := norm, stepsize := A.stepsize, maxStepsize := A.maxStepsize, initStep := A.initStep,
        tol := A.tol, maxiter := A.maxiter, unroll := A.unroll, jit := A.jit, runLs := runLsOf ls } a c (runLsOf (ls.shift a c))
      (h.imp id fun h => runLsOf_shift (setupLinesearch_blind h hl)) x0

/-- **C116 (ProximalGradient).**  Always: plain or accelerated, with prescribed or searched step sizes. -/
theorem C116_prox_grad (S : PG K E) (a : E) (c : K) (x0 : E) :
    (pg S a c).run (x0 + a) = (S.run x0).map (Prod.map (· + a) (pgState a)) := by
  have hpg : ∀ x g s, (pg S a c).proxGrad (x + a) g s = S.proxGrad x g s + a := by
    intro x g s
    simp only [PG.proxGrad, pg, point_shift, add_sub_cancel_right]
  have hls : ∀ x val g s, (pg S a c).fistaLineSearch (x + a) (val + c) g s =
      Prod.map (· + a) id (S.fistaLineSearch x val g s) := by
    intro x val g s
    unfold PG.fistaLineSearch
    rw [hpg]
    refine whileLoopPython_map (Prod.map (· + a) id) ?_ ?_ _ (_, s)
    · rintro ⟨y, t⟩
      simp only [PG.lsCond, pg, Prod.map, id, add_sub_add_right_eq_sub, add_sub_cancel_right]
    · rintro ⟨y, t⟩
      simp only [PG.lsBody, Prod.map, id, hpg]
      rfl
  have hit : ∀ n x val g s, (pg S a c).iter n (x + a) (val + c) g s = Prod.map (· + a) id (S.iter n x val g s) := by
    intro n x val g s
    have e : (pg S a c).stepsize = S.stepsize := rfl
    unfold PG.iter
    rw [e]
    cases S.stepsize with
    | const t =>
      by_cases ht : t ≤ 0
      · simp only [if_pos ht, hls]; rfl
      · simp only [if_neg ht, hpg]; rfl
    | fn t => simp only [hpg]; rfl
  have herr : ∀ d s, (pg S a c).errorOf d s = S.errorOf d s := fun _ _ => rfl
  refine runS_map (· + a) (pgState a) x0 rfl ?_ ?_ _ _ _
  · rintro ⟨x, st⟩
    have eF : ∀ z, (pg S a c).f (z + a) = S.f z + c := fun z => by simp only [pg, add_sub_cancel_right]
    have eG : ∀ z, (pg S a c).grad (z + a) = S.grad z := fun z => by simp only [pg, add_sub_cancel_right]
    have eA : (pg S a c).acceleration = S.acceleration := rfl
    have eS : (pg S a c).sqrt = S.sqrt := rfl
    unfold PG.update
    rw [eA]
    cases S.acceleration
    · simp only [Bool.false_eq_true, if_false, PG.updatePlain, Prod.map, pgState, eF, eG, hit, id, add_sub_add_right_eq_sub, herr]
    · simp only [if_true, PG.updateAccel, Prod.map, pgState, eF, eG, eS, hit, id, add_sub_add_right_eq_sub, herr, point_shift]
  · rintro ⟨x, st⟩
    rfl

/-- **C116 (GradientDescent).** -/
theorem C116_gradient_descent (S : PG K E) (a : E) (c : K) (x0 : E) :
    ((pg S a c).gradientDescent).run (x0 + a) = (S.gradientDescent.run x0).map (Prod.map (· + a) (pgState a)) := by
  have e : (pg S a c).gradientDescent = pg S.gradientDescent a c := by
    simp only [PG.gradientDescent, pg, sub_add_cancel]
  rw [e]
  exact C116_prox_grad _ a c x0

/-- **C116 (zoom).**  With `c3 = 0` the zoom search does not see the constant. -/
theorem C116_zoom_partial (ls : Zoom K E) (a : E) (c : K) (h0 : ls.c3 = 0)
    (hcubic : ∀ p fp dp q fq r fr, ls.cubicmin p (Ext.shift c fp) dp q (Ext.shift c fq) r (Ext.shift c fr) = ls.cubicmin p fp dp q fq r fr)
    (hquad : ∀ p fp dp q fq, ls.quadmin p (Ext.shift c fp) dp q (Ext.shift c fq) = ls.quadmin p fp dp q fq)
    (s : K) (x : E) (v : Option (Ext K)) (g d : Option E) :
    (ls.shift a c).run s (x + a) (v.map (Ext.shift c)) g d = (ls.run s x v g d).map (Prod.map id (ZState.shift a c)) :=
  Zoom.run_shift (.inr ⟨h0, hcubic, hquad⟩) s x v g d

/-- The interpolation formulas of the code see only differences of values. -/
theorem C116_interpolation (p fp dp q fq r fr c : ℝ) :
    LineSearch.cubicmin p (fp + c) dp q (fq + c) r (fr + c) = LineSearch.cubicmin p fp dp q fq r fr ∧
      LineSearch.quadmin p (fp + c) dp q (fq + c) = LineSearch.quadmin p fp dp q fq := by
  constructor
  · simp only [LineSearch.cubicmin, cubicCoefs, add_sub_add_right_eq_sub]
    congr
  · simp only [LineSearch.quadmin, add_sub_add_right_eq_sub]

/-- **C116 (Hager-Zhang).**  With `approximate_wolfe_threshold = 0`. -/
theorem C116_hager_zhang_partial (ls : HZ K E) (a : E) (c : K) (h0 : ls.awThreshold = 0) (s : K) (x : E) (v : Option (Ext K))
    (g d : Option E) :
    (ls.shift a c).run s (x + a) (v.map (Ext.shift c)) g d =
      (ls.run s x v g d).map (Prod.map id (Option.map (HZState.shift a c))) :=
  HZ.run_shift (.inr h0) s x v g d

/-- **C116 (gradients).**  With real parameters, whatever gradient the shifted function is given with, the solvers see the shifted objective. -/
theorem C116_gradient {ι : Type*} [Fintype ι] (W : Search) {F : (ι → ℝ) → ℝ} {g g' : (ι → ℝ) → ι → ℝ} (a : ι → ℝ) (c : ℝ)
    (hg : Rotation.IsGrad F g) (hg' : Rotation.IsGrad (fun x => F (x - a) + c) g') :
    Rotation.obj (search W c) (fun x => F (x - a) + c) g' = (Rotation.obj W F g).shift a c := by
  have e : g' = fun x => g (x - a) := by
    funext x
    obtain ⟨D, hD, eD⟩ := hg (x - a)
    obtain ⟨D', hD', eD'⟩ := hg' x
    have h1 : HasFDerivAt (fun z : ι → ℝ => z - a) (ContinuousLinearMap.id ℝ (ι → ℝ)) x := (hasFDerivAt_id x).sub_const a
    have h2 : HasFDerivAt (fun z => F (z - a) + c) D x := by
      have := (hD.comp x h1).add_const c
      rwa [ContinuousLinearMap.comp_id] at this
    have hu := hD'.unique h2
    have key : ∀ v, (g' x - g (x - a)) ⬝ᵥ v = 0 := by
      intro v
      rw [sub_dotProduct, ← eD', ← eD, hu, sub_self]
    have := key (g' x - g (x - a))
    rw [dotProduct_self_eq_zero] at this
    exact sub_eq_zero.mp this
  subst e
  rfl

/-! ### The constant matters to the default searches -/

/-- A polynomial with coefficients from the constant term on. -/
def poly (l : List ℚ) (x : ℚ) : ℚ := l.foldr (fun a s => a + x * s) 0

/-- `_quadmin` on rational numbers. -/
def exQuad (a : ℚ) (fa fpa : Ext ℚ) (b : ℚ) (fb : Ext ℚ) : Ext ℚ :=
  match fa, fpa, fb with
  | .fin fa, .fin C, .fin fb =>
    let db := b - a
    let B := (fb - fa - C * db) / db ^ 2
    if db = 0 ∨ B = 0 then .nan else .fin (a - C / (2 * B))
  | _, _, _ => .nan

/-- `F(x) = -x + 7/2 x² - 2x³`.  The only cubic interpolation of the runs below has two equal points, which gives NaN. -/
def exZoomObj : LineObj ℚ ℚ :=
  ⟨fun x => .fin (poly [0, -1, 7 / 2, -2] x), poly [-1, 7, -6], fun a b => a * b, fun _ _ _ _ _ _ _ => .nan, exQuad,
    fun _ => (.nan, .nan), 30⟩

/-- `F(x) = -x + 8x² - 8x³ + 2x⁴`. -/
def exHzObj : LineObj ℚ ℚ :=
  ⟨fun x => .fin (poly [0, -1, 8, -8, 2] x), poly [-1, 16, -24, 8], fun a b => a * b, fun _ _ _ _ _ _ _ => .nan, exQuad,
    fun _ => (.nan, .nan), 30⟩

/-- The default attributes of `LBFGS` with one iteration and the given search. -/
def exAttr (linesearch : String) : Attr ℚ :=
  ⟨10, true, .const 0, .polakRibiere, linesearch, "increase", 30, 1, 1 / 1000000, 3 / 2, false, 1 / 1000, 1, true, true⟩

/-- One iteration of `LBFGS` from the origin: the new parameters and value. -/
def exStep (linesearch : String) (O : LineObj ℚ ℚ) : Option (ℚ × Ext ℚ) :=
  ((buildLbfgs id (exAttr linesearch) O abs).bind (fun S => S.run 0)).toOption.map fun r => (r.1, r.2.value)

theorem exStep_of_invariant {linesearch : String} {O : LineObj ℚ ℚ} {c : ℚ}
    (h : (buildLbfgs id (exAttr linesearch) (O.shift 0 c) abs).bind (fun S => S.run (0 + 0)) =
      ((buildLbfgs id (exAttr linesearch) O abs).bind (fun S => S.run 0)).map (Prod.map (· + 0) (lbfgsState c))) :
    (exStep linesearch (O.shift 0 c)).map Prod.fst = (exStep linesearch O).map Prod.fst := by
  rw [add_zero] at h
  unfold exStep
  rw [h]
  cases (buildLbfgs id (exAttr linesearch) O abs).bind (fun S => S.run 0) with
  | error e => rfl
  | ok r => simp [Except.map, Except.toOption]

/-- Without the constant the zoom search accepts the step `1/3`, where `F` has decreased; after adding `10⁶` it accepts the step `1`, where
`F` is larger than at the start. -/
theorem exZoom_steps : exStep "zoom" exZoomObj = some (1 / 3, .fin (-1 / 54)) ∧
    exStep "zoom" (exZoomObj.shift 0 1000000) = some (1, .fin (1000000 + 1 / 2)) := by
  constructor <;> decide +kernel

/-- The Hager-Zhang search ends near different local minima. -/
theorem exHz_steps : (exStep "hager-zhang" exHzObj).map Prod.fst = some (19053 / 283718) ∧
    (exStep "hager-zhang" (exHzObj.shift 0 1000000)).map Prod.fst = some (170105293 / 83868960) := by
  constructor <;> decide +kernel

/-- **C116 (zoom) is false with the default threshold**: the accepted step depends on a constant added to the objective, and with a large
constant `LBFGS` accepts a step that increases the objective. -/
theorem C116_zoom_false : ¬ ∀ (A : Attr ℚ) (O : LineObj ℚ ℚ) (norm : ℚ → ℚ) (a c x0 : ℚ), A.linesearch = "zoom" →
    (buildLbfgs id A (O.shift a c) norm).bind (fun S => S.run (x0 + a)) =
      ((buildLbfgs id A O norm).bind (fun S => S.run x0)).map (Prod.map (· + a) (lbfgsState c)) := by
  intro h
  have := exStep_of_invariant (h (exAttr "zoom") exZoomObj abs 0 1000000 0 rfl)
  rw [exZoom_steps.1, exZoom_steps.2] at this
  exact absurd this (by decide +kernel)

/-- **C116 (Hager-Zhang) is false with the default threshold.** -/
theorem C116_hager_zhang_false : ¬ ∀ (A : Attr ℚ) (O : LineObj ℚ ℚ) (norm : ℚ → ℚ) (a c x0 : ℚ), A.linesearch = "hager-zhang" →
    (buildLbfgs id A (O.shift a c) norm).bind (fun S => S.run (x0 + a)) =
      ((buildLbfgs id A O norm).bind (fun S => S.run x0)).map (Prod.map (· + a) (lbfgsState c)) := by
  intro h
  have := exStep_of_invariant (h (exAttr "hager-zhang") exHzObj abs 0 1000000 0 rfl)
  rw [exHz_steps.1, exHz_steps.2] at this
  exact absurd this (by decide +kernel)

/-! ### Examples -/

/-- Backtracking on the same function: the same step with and without the constant, from the origin and from `3`. -/
example : (exStep "backtracking" exHzObj).map Prod.fst = some (262144 / 1953125) := by decide +kernel

example : ((buildLbfgs id (exAttr "backtracking") (exHzObj.shift 3 1000000) abs).bind (fun S => S.run (0 + 3))).toOption.map Prod.fst =
    (exStep "backtracking" exHzObj).map (fun r => r.1 + 3) := by decide +kernel

/-- The zoom search with another origin. -/
example : ((buildLbfgs id (exAttr "zoom") (exZoomObj.shift 3 0) abs).bind (fun S => S.run (0 + 3))).toOption.map Prod.fst =
    some (1 / 3 + 3) := by decide +kernel

/-- Accelerated gradient descent with line search on `x²/2` and on `(x - 5)²/2 + 7`. -/
def exPG : PG ℚ ℚ :=
  ⟨fun x => x ^ 2 / 2, id, fun x _ => x, fun a b => a * b, abs, id, 0, .const 0, 3, 10, 1 / 1000, true, 1 / 2, true, true⟩

example : ((pg exPG 5 7).run 8).toOption.map Prod.fst = (exPG.run 3).toOption.map (fun r => r.1 + 5) ∧
    (exPG.run 3).toOption.map Prod.fst = some 0 := by decide +kernel

/-- A quadratic in two variables with a moved origin and a constant. -/
example (W : Search) (A : Attr ℝ) (hA : A.linesearch = "backtracking") (x0 : Fin 2 → ℝ) :=
  C116_lbfgs_partial A (Rotation.obj W Rotation.exF Rotation.exG) Rotation.l2 ![1, 2] 5 (.inr (.inr hA)) x0

end Jaxopt.Shift
