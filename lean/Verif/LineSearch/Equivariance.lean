import Verif.LineSearch.Setup
import Mathlib.Algebra.Module.LinearMap.Defs

/-!
# Line searches and changes of variables

A line search sees parameters only through the points of a line and gradients only through inner products with the direction.
If `φ` maps parameters and directions linearly, `ψ` maps gradients, and value, gradient and inner product correspond, then the search on
the images is the image of the search.
-/

set_option autoImplicit false
set_option linter.unusedSectionVars false
set_option linter.unusedVariables false

namespace Jaxopt.LineSearch

open Jaxopt.Base Jaxopt.Loop

section Loops

variable {α β P P' S S' : Type*}

theorem whileLoopScan_map (φ : α → β) {c : α → Bool} {c' : β → Bool} {b : α → α} {b' : β → β} (hc : ∀ x, c' (φ x) = c x)
    (hb : ∀ x, b' (φ x) = φ (b x)) (x : α) (n : ℕ) : whileLoopScan c' b' (φ x) n = φ (whileLoopScan c b x n) := by
  have key : ∀ (l : List ℕ) (t : α × Bool),
      l.foldl (fun (tup : β × Bool) (_ : ℕ) => if tup.2 then (b' tup.1, c' (b' tup.1)) else (tup.1, false)) (φ t.1, t.2) =
        (φ (l.foldl (fun (tup : α × Bool) (_ : ℕ) => if tup.2 then (b tup.1, c (b tup.1)) else (tup.1, false)) t).1,
          (l.foldl (fun (tup : α × Bool) (_ : ℕ) => if tup.2 then (b tup.1, c (b tup.1)) else (tup.1, false)) t).2) := by
    intro l
    induction l with
    | nil => intro t; rfl
    | cons a l ih =>
      intro t
      simp only [List.foldl_cons]
      rw [← ih]
      congr 1
      cases t.2 <;> simp [hb, hc]
  unfold whileLoopScan
  rw [hc]
  exact congrArg Prod.fst (key (List.range n) (x, c x))

theorem whileLoopPython_map (φ : α → β) {c : α → Bool} {c' : β → Bool} {b : α → α} {b' : β → β} (hc : ∀ x, c' (φ x) = c x)
    (hb : ∀ x, b' (φ x) = φ (b x)) (n : ℕ) : ∀ x, whileLoopPython c' b' (φ x) n = φ (whileLoopPython c b x n) := by
  induction n with
  | zero => intro x; rfl
  | succ n ih =>
    intro x
    simp only [whileLoopPython]
    rw [hc, hb, ih]
    cases c x <;> rfl

theorem whileLoopLaxFrom_map (φ : α → β) {c : α → Bool} {c' : β → Bool} {b : α → α} {b' : β → β} (hc : ∀ x, c' (φ x) = c x)
    (hb : ∀ x, b' (φ x) = φ (b x)) (m it : ℤ) (x : α) :
    whileLoopLaxFrom c' b' m it (φ x) = φ (whileLoopLaxFrom c b m it x) := by
  fun_induction whileLoopLaxFrom c b m it x with
  | case1 it x h ih =>
    rw [whileLoopLaxFrom, if_pos (by rw [hc]; exact h), hb]; exact ih
  | case2 it x h =>
    rw [whileLoopLaxFrom, if_neg (by rw [hc]; exact h)]

theorem whileLoop_map (φ : α → β) {c : α → Bool} {c' : β → Bool} {b : α → α} {b' : β → β} (hc : ∀ x, c' (φ x) = c x)
    (hb : ∀ x, b' (φ x) = φ (b x)) (x : α) (n : ℤ) (unroll jit : Bool) :
    whileLoop c' b' (φ x) n unroll jit = (whileLoop c b x n unroll jit).map φ := by
  unfold whileLoop
  cases unroll <;> cases jit <;> simp only [if_true, if_false, Bool.false_eq_true]
  · rfl
  · exact congrArg Except.ok (whileLoopLaxFrom_map φ hc hb n 0 x)
  · exact congrArg Except.ok (whileLoopPython_map φ hc hb _ x)
  · split
    · rfl
    · exact congrArg Except.ok (whileLoopScan_map φ hc hb x _)

/-- A run on images is the image of the run. -/
theorem runS_map (φ : P → P') (χ : S → S') {init : P → S} {init' : P' → S'} {update : P × S → P × S}
    {update' : P' × S' → P' × S'} {cont : P × S → Bool} {cont' : P' × S' → Bool} (x0 : P)
    (hi : init' (φ x0) = χ (init x0)) (hu : ∀ x, update' (Prod.map φ χ x) = Prod.map φ χ (update x))
    (hc : ∀ x, cont' (Prod.map φ χ x) = cont x) (maxiter : ℕ) (unroll jit : Bool) :
    runS init' update' cont' maxiter unroll jit (φ x0) =
      (runS init update cont maxiter unroll jit x0).map (Prod.map φ χ) := by
  have e : whileLoop cont' update' (update' (φ x0, init' (φ x0))) ((maxiter : ℤ) - 1) unroll jit =
      (whileLoop cont update (update (x0, init x0)) ((maxiter : ℤ) - 1) unroll jit).map (Prod.map φ χ) := by
    rw [hi]
    have := hu (x0, init x0)
    rw [Prod.map_apply] at this
    rw [this]
    exact whileLoop_map _ hc hu _ _ _ _
  simp only [runS]
  rw [e]
  cases whileLoop cont update (update (x0, init x0)) ((maxiter : ℤ) - 1) unroll jit with
  | error e => rfl
  | ok r =>
    by_cases h : maxiter = 0
    · simp only [h, if_true]
      show Except.ok _ = Except.ok _
      rw [hi]; rfl
    · simp only [h, if_false]
      rfl

end Loops

variable {K E E' : Type*} [Field K] [LinearOrder K] [AddCommGroup E] [Module K E] [AddCommGroup E'] [Module K E']

section Backtracking

/-- Two searches for the same function in different variables. -/
structure Backtracking.Corr (φ : E → E') (ψ : E → E') (ls : Backtracking K E) (ls' : Backtracking K E') : Prop where
  f : ∀ x, ls'.f (φ x) = ls.f x
  grad : ∀ x, ls'.grad (φ x) = ψ (ls.grad x)
  vdot : ∀ g d, ls'.vdot (ψ g) (φ d) = ls.vdot g d
  maxiter : ls'.maxiter = ls.maxiter
  tol : ls'.tol = ls.tol
  condition : ls'.condition = ls.condition
  c1 : ls'.c1 = ls.c1
  c2 : ls'.c2 = ls.c2
  decreaseFactor : ls'.decreaseFactor = ls.decreaseFactor
  maxStepsize : ls'.maxStepsize = ls.maxStepsize
  unroll : ls'.unroll = ls.unroll
  jit : ls'.jit = ls.jit

/-- The state in the other variables. -/
def BState.map (φ ψ : E → E') (st : BState K E) : BState K E' :=
  { iterNum := st.iterNum, params := φ st.params, value := st.value, grad := ψ st.grad, valueInit := st.valueInit,
    gradInit := ψ st.gradInit, error := st.error, done := st.done, failed := st.failed }

theorem Backtracking.update_map (φ : E →ₗ[K] E') {ψ : E → E'} {ls : Backtracking K E} {ls' : Backtracking K E'}
    (h : Backtracking.Corr φ ψ ls ls') (x d : E) (z : K × BState K E) :
    ls'.update (φ x) (some (φ d)) (Prod.map id (BState.map φ ψ) z) = Prod.map id (BState.map φ ψ) (ls.update x (some d) z) := by
  obtain ⟨s, st⟩ := z
  have e : ∀ a b c d e, ls'.computeError a b c d e = ls.computeError a b c d e := by
    intro a b c d e
    simp only [computeError, h.condition, h.c1, h.c2]
  simp only [update, Prod.map, id, BState.map, direction, h.condition, h.maxStepsize, h.tol, h.maxiter, h.decreaseFactor, e,
    ← map_smul, ← map_add, h.f, h.grad, h.vdot]
  by_cases hc : ls.condition = .armijo ∨ ls.condition = .goldstein
  · simp only [if_pos hc]
    refine Prod.ext rfl ?_
    simp only [BState.mk.injEq, true_and, and_true]
    split <;> rfl
  · simp only [if_neg hc, h.vdot]

theorem Backtracking.initState_map (φ : E →ₗ[K] E') {ψ : E → E'} {ls : Backtracking K E} {ls' : Backtracking K E'}
    (h : Backtracking.Corr φ ψ ls ls') (x : E) (v : Option (Ext K)) (g : Option E) :
    ls'.initState (φ x) v (g.map ψ) = BState.map φ ψ (ls.initState x v g) := by
  cases v <;> cases g <;> simp [initState, BState.map, h.f, h.grad]

theorem Backtracking.run_map (φ : E →ₗ[K] E') {ψ : E → E'} {ls : Backtracking K E} {ls' : Backtracking K E'}
    (h : Backtracking.Corr φ ψ ls ls') (s : K) (x : E) (v : Option (Ext K)) (g : Option E) (d : E) :
    ls'.run s (φ x) v (g.map ψ) (some (φ d)) = (ls.run s x v g (some d)).map (Prod.map id (BState.map φ ψ)) := by
  unfold run
  rw [h.maxiter, h.unroll, h.jit]
  refine runS_map id (BState.map φ ψ) s (Backtracking.initState_map φ h x v g) (Backtracking.update_map φ h x d) ?_ _ _ _
  intro z
  simp only [Prod.map, BState.map, h.tol]

end Backtracking

section Zoom

/-- Two searches for the same function in different variables. -/
structure Zoom.Corr (φ : E → E') (ψ : E → E') (ls : Zoom K E) (ls' : Zoom K E') : Prop where
  f : ∀ x, ls'.f (φ x) = ls.f x
  grad : ∀ x, ls'.grad (φ x) = ψ (ls.grad x)
  vdot : ∀ g d, ls'.vdot (ψ g) (φ d) = ls.vdot g d
  c1 : ls'.c1 = ls.c1
  c2 : ls'.c2 = ls.c2
  c3 : ls'.c3 = ls.c3
  relTolCubic : ls'.relTolCubic = ls.relTolCubic
  relTolQuad : ls'.relTolQuad = ls.relTolQuad
  intervalThreshold : ls'.intervalThreshold = ls.intervalThreshold
  increaseFactor : ls'.increaseFactor = ls.increaseFactor
  tol : ls'.tol = ls.tol
  maxiter : ls'.maxiter = ls.maxiter
  maxStepsize : ls'.maxStepsize = ls.maxStepsize
  cubicmin : ls'.cubicmin = ls.cubicmin
  quadmin : ls'.quadmin = ls.quadmin
  unroll : ls'.unroll = ls.unroll
  jit : ls'.jit = ls.jit

/-- The state in the other variables. -/
def ZState.map (φ ψ : E → E') (st : ZState K E) : ZState K E' :=
  { iterNum := st.iterNum, params := φ st.params, value := st.value, grad := ψ st.grad, valueInit := st.valueInit,
    slopeInit := st.slopeInit, dir := φ st.dir, decreaseError := st.decreaseError, curvatureError := st.curvatureError,
    error := st.error, done := st.done, failed := st.failed, intervalFound := st.intervalFound, prevStepsize := st.prevStepsize,
    prevValue := st.prevValue, prevSlope := st.prevSlope, low := st.low, valueLow := st.valueLow, slopeLow := st.slopeLow,
    high := st.high, valueHigh := st.valueHigh, slopeHigh := st.slopeHigh, cubicRef := st.cubicRef,
    valueCubicRef := st.valueCubicRef, safeStepsize := st.safeStepsize }

variable (φ : E →ₗ[K] E') {ψ : E → E'} {ls : Zoom K E} {ls' : Zoom K E'}

theorem Zoom.makeSafeStep_map (h : Zoom.Corr φ ψ ls ls') (z : K × ZState K E) :
    ls'.makeSafeStep (Prod.map id (ZState.map φ ψ) z) = Prod.map id (ZState.map φ ψ) (ls.makeSafeStep z) := by
  obtain ⟨s, st⟩ := z
  simp only [makeSafeStep, Prod.map, id, ZState.map, ← map_smul, ← map_add, h.f, h.grad]
  rfl

theorem Zoom.middle_map (h : Zoom.Corr φ ψ ls ls') (st : ZState K E) : ls'.middle (ZState.map φ ψ st) = ls.middle st := by
  simp only [middle, ZState.map, h.relTolCubic, h.relTolQuad, h.cubicmin, h.quadmin]

theorem Zoom.searchInterval_map (h : Zoom.Corr φ ψ ls ls') (s : K) (st : ZState K E) :
    ls'.searchInterval s (ZState.map φ ψ st) = Prod.map id (ZState.map φ ψ) (ls.searchInterval s st) := by
  have e1 : ∀ a b c d e, ls'.decreaseError a b c d e = ls.decreaseError a b c d e := by
    intro a b c d e; simp only [decreaseError, h.c1, h.c3]
  have e2 : ∀ a b, ls'.curvatureError a b = ls.curvatureError a b := by
    intro a b; simp only [curvatureError, h.c2]
  simp only [searchInterval, Prod.map, id, ZState.map, h.maxStepsize, h.tol, h.maxiter, h.increaseFactor, e1, e2,
    ← map_smul, ← map_add, h.f, h.grad, h.vdot, apply_ite φ, apply_ite ψ]
  rfl

theorem Zoom.zoomIntoInterval_map (h : Zoom.Corr φ ψ ls ls') (st : ZState K E) :
    ls'.zoomIntoInterval (ZState.map φ ψ st) = Prod.map id (ZState.map φ ψ) (ls.zoomIntoInterval st) := by
  have e1 : ∀ a b c d e, ls'.decreaseError a b c d e = ls.decreaseError a b c d e := by
    intro a b c d e; simp only [decreaseError, h.c1, h.c3]
  have e2 : ∀ a b, ls'.curvatureError a b = ls.curvatureError a b := by
    intro a b; simp only [curvatureError, h.c2]
  simp only [zoomIntoInterval, Zoom.middle_map φ h]
  simp only [Prod.map, id, ZState.map, h.maxStepsize, h.tol, h.maxiter, h.intervalThreshold, e1, e2,
    ← map_smul, ← map_add, h.f, h.grad, h.vdot, apply_ite φ, apply_ite ψ]

theorem Zoom.update_map (h : Zoom.Corr φ ψ ls ls') (z : K × ZState K E) :
    ls'.update (Prod.map id (ZState.map φ ψ) z) = Prod.map id (ZState.map φ ψ) (ls.update z) := by
  have e : ls'.rawUpdate (Prod.map id (ZState.map φ ψ) z) = Prod.map id (ZState.map φ ψ) (ls.rawUpdate z) := by
    unfold rawUpdate
    by_cases c : z.2.intervalFound = true
    · rw [if_pos c, if_pos (by exact c)]; exact Zoom.zoomIntoInterval_map φ h z.2
    · rw [if_neg c, if_neg (by exact c)]; exact Zoom.searchInterval_map φ h z.1 z.2
  unfold update
  dsimp only
  rw [e]
  by_cases c : (ls.rawUpdate z).2.failed = true
  · rw [if_pos c, if_pos (by exact c)]; exact Zoom.makeSafeStep_map φ h _
  · rw [if_neg c, if_neg (by exact c)]

theorem Zoom.initState_map (h : Zoom.Corr φ ψ ls ls') (x : E) (v : Option (Ext K)) (g : Option E) (d : E) :
    ls'.initState (φ x) v (g.map ψ) (some (φ d)) = ZState.map φ ψ (ls.initState x v g (some d)) := by
  cases v <;> cases g <;> simp [initState, ZState.map, h.f, h.grad, h.vdot]

theorem Zoom.run_map (h : Zoom.Corr φ ψ ls ls') (s : K) (x : E) (v : Option (Ext K)) (g : Option E) (d : E) :
    ls'.run s (φ x) v (g.map ψ) (some (φ d)) = (ls.run s x v g (some d)).map (Prod.map id (ZState.map φ ψ)) := by
  unfold run
  rw [h.maxiter, h.unroll, h.jit]
  refine runS_map id (ZState.map φ ψ) s (Zoom.initState_map φ h x v g d) (Zoom.update_map φ h) ?_ _ _ _
  intro z
  rfl

end Zoom

section HagerZhang

/-- Two searches for the same function in different variables. -/
structure HZ.Corr (φ : E → E') (ψ : E → E') (ls : HZ K E) (ls' : HZ K E') : Prop where
  f : ∀ x, ls'.f (φ x) = ls.f x
  grad : ∀ x, ls'.grad (φ x) = ψ (ls.grad x)
  vdot : ∀ g d, ls'.vdot (ψ g) (φ d) = ls.vdot g d
  offLine : ls'.offLine = ls.offLine
  c1 : ls'.c1 = ls.c1
  c2 : ls'.c2 = ls.c2
  expansion : ls'.expansion = ls.expansion
  shrinkage : ls'.shrinkage = ls.shrinkage
  awThreshold : ls'.awThreshold = ls.awThreshold
  tol : ls'.tol = ls.tol
  maxiter : ls'.maxiter = ls.maxiter
  fuel : ls'.fuel = ls.fuel
  unroll : ls'.unroll = ls.unroll
  jit : ls'.jit = ls.jit

/-- The state in the other variables. -/
def HZState.map (φ ψ : E → E') (st : HZState K E) : HZState K E' :=
  { iterNum := st.iterNum, done := st.done, low := st.low, high := st.high, value := st.value, error := st.error,
    params := φ st.params, grad := ψ st.grad, failed := st.failed }

variable (φ : E →ₗ[K] E') {ψ : E → E'} {ls : HZ K E} {ls' : HZ K E'}

theorem HZ.line_map (h : HZ.Corr φ ψ ls ls') (x d : E) : ls'.line (φ x) (φ d) = ls.line x d := by
  funext c
  simp only [line, ← map_smul, ← map_add, h.f, h.grad, h.vdot]

theorem HZ.bracketLoop_map (h : HZ.Corr φ ψ ls ls') (x d : E) (thr : Ext K) (n : ℕ) :
    ∀ s, ls'.bracketLoop (φ x) (φ d) thr n s = ls.bracketLoop x d thr n s := by
  have e : ls'.bracketBody (φ x) (φ d) thr = ls.bracketBody x d thr := by
    funext s
    simp only [bracketBody, HZ.line_map φ h, h.fuel, h.expansion]
  induction n with
  | zero => intro s; rfl
  | succ n ih =>
    intro s
    simp only [bracketLoop, e]
    rw [show ls'.bracketLoop (φ x) (φ d) thr n = ls.bracketLoop x d thr n from funext ih]

theorem HZ.bracket_map (h : HZ.Corr φ ψ ls ls') (x d : E) (thr : Ext K) : ls'.bracket (φ x) (φ d) thr = ls.bracket x d thr := by
  simp only [bracket, HZ.line_map φ h, HZ.bracketLoop_map φ h, h.fuel]

theorem HZ.wolfeError_map (h : HZ.Corr φ ψ ls ls') : ls'.wolfeError = ls.wolfeError := by
  funext c v g v0 sl0 thr
  simp only [wolfeError, h.c1, h.c2]

theorem HZ.threshold_map (h : HZ.Corr φ ψ ls ls') : ls'.threshold = ls.threshold := by
  funext v
  simp only [threshold, h.awThreshold]

theorem HZ.bestPoint_map (h : HZ.Corr φ ψ ls ls') (x d : E) : ls'.bestPoint (φ x) (φ d) = ls.bestPoint x d := by
  funext a b
  simp only [bestPoint, HZ.line_map φ h]

theorem HZ.initState_map (h : HZ.Corr φ ψ ls ls') (x : E) (v0 : Ext K) (g0 d : E) :
    ls'.initState (φ x) v0 (ψ g0) (φ d) = (ls.initState x v0 g0 d).map (HZState.map φ ψ) := by
  simp only [initState, HZ.threshold_map φ h, HZ.bracket_map φ h, HZ.bestPoint_map φ h, HZ.wolfeError_map φ h, h.vdot, h.tol,
    Option.map_map]
  rfl

theorem HZ.updateBracket_map (h : HZ.Corr φ ψ ls ls') (x d : E) (thr : Ext K) (st : HZState K E) :
    ls'.updateBracket (φ x) (φ d) thr (HZState.map φ ψ st) = ls.updateBracket x d thr st := by
  have e1 : ls'.updateE (φ x) (φ d) thr = ls.updateE x d thr := by
    funext a b c
    cases c <;> simp only [updateE, HZ.line_map φ h, h.fuel, h.offLine]
  have e2 : ls'.secant2 (φ x) (φ d) thr = ls.secant2 x d thr := by
    funext a b
    simp only [secant2, HZ.line_map φ h, e1]
  simp only [updateBracket, HZState.map, e2, h.shrinkage, h.fuel, HZ.line_map φ h]
  rfl

theorem HZ.update_map (h : HZ.Corr φ ψ ls ls') (x : E) (v0 : Ext K) (g0 d : E) (z : K × Option (HZState K E)) :
    ls'.update (φ x) v0 (ψ g0) (φ d) (Prod.map id (Option.map (HZState.map φ ψ)) z) =
      Prod.map id (Option.map (HZState.map φ ψ)) (ls.update x v0 g0 d z) := by
  obtain ⟨s, o⟩ := z
  cases o with
  | none => rfl
  | some st =>
    simp only [update, Prod.map, id, Option.map_some, HZ.updateBracket_map φ h, HZ.threshold_map φ h]
    cases ls.updateBracket x d (ls.threshold v0) st with
    | none => rfl
    | some r =>
      simp only [HZ.bestPoint_map φ h, HZ.wolfeError_map φ h, h.vdot, h.tol, h.maxiter, ← map_smul, ← map_add, h.f, h.grad]
      rfl

theorem HZ.run_map (h : HZ.Corr φ ψ ls ls') (s : K) (x : E) (v : Option (Ext K)) (g : Option E) (d : E) :
    ls'.run s (φ x) v (g.map ψ) (some (φ d)) =
      (ls.run s x v g (some d)).map (Prod.map id (Option.map (HZState.map φ ψ))) := by
  have e : ls'.resolve (φ x) v (g.map ψ) = Prod.map id ψ (ls.resolve x v g) := by
    cases v <;> cases g <;> simp [resolve, h.f, h.grad]
  simp only [run, e, resolveDir, Option.getD_some]
  rw [h.maxiter, h.unroll, h.jit]
  refine runS_map id (Option.map (HZState.map φ ψ)) s (HZ.initState_map φ h x _ _ d) (HZ.update_map φ h x _ _ d) ?_ _ _ _
  intro z
  obtain ⟨s, o⟩ := z
  cases o with
  | none => rfl
  | some st => simp only [Prod.map, Option.map_some, HZState.map, h.tol]

end HagerZhang

end Jaxopt.LineSearch
