import Verif.LineSearch.Equivariance
import Mathlib.Algebra.Order.Ring.Defs
import Mathlib.Algebra.Order.Field.Basic
import Mathlib.Algebra.Order.Group.Unbundled.Basic
import Mathlib.Tactic.Ring
import Mathlib.Tactic.Linarith

/-!
# Line searches, the choice of the origin and constants in the objective

The search for `x ↦ f (x - a) + c` started at `x + a` compared with the search for `f` started at `x`.
-/

set_option autoImplicit false
set_option linter.unusedSectionVars false
set_option linter.unusedVariables false

namespace Jaxopt

namespace Ext

variable {K : Type*} [Field K] [LinearOrder K] [IsStrictOrderedRing K]

/-- A value of the objective after adding the constant. -/
def shift (c : K) (v : Ext K) : Ext K := add v (fin c)

variable (c : K) (u v t : Ext K)

theorem sub_shift : sub (shift c u) (shift c v) = sub u v := by
  cases u <;> cases v <;> simp [sub, shift, add, neg]

theorem add_shift : add (shift c v) t = shift c (add v t) := by
  cases v <;> cases t <;> simp [shift, add]; ring

theorem le_shift : le (shift c u) (shift c v) = le u v := by
  cases u <;> cases v <;> simp [shift, add, le]

theorem lt_shift : lt (shift c u) (shift c v) = lt u v := by
  cases u <;> cases v <;> simp [shift, add, lt]

theorem gt_shift : gt (shift c u) (shift c v) = gt u v := by
  cases u <;> cases v <;> simp [shift, add, gt, lt]

theorem min_shift : min (shift c u) (shift c v) = shift c (min u v) := by
  cases u <;> cases v <;> simp [shift, add, min, min_add_add_right]

theorem isNan_shift : isNan (shift c v) = isNan v := by cases v <;> rfl

theorem shift_eq_ninf : shift c v = ninf ↔ v = ninf := by cases v <;> simp [shift, add]

/-- Being `-inf`, as a Boolean. -/
def isNinf {K : Type*} : Ext K → Bool
  | ninf => true
  | _ => false

theorem decide_ninf (i : Decidable (v = ninf)) : @decide (v = ninf) i = isNinf v := by
  cases v <;> simp [isNinf]

theorem isNinf_shift : isNinf (shift c v) = isNinf v := by cases v <;> rfl

theorem shift_zero : shift (0 : K) v = v := by cases v <;> simp [shift, add]

theorem smul_zero_abs_shift : smul (0 : K) (abs (shift c v)) = smul 0 (abs v) := by cases v <;> simp [shift, add, abs, smul]

end Ext

namespace LineSearch

open Jaxopt.Base Jaxopt.Loop

variable {K E : Type*} [Field K] [LinearOrder K] [IsStrictOrderedRing K] [AddCommGroup E] [Module K E]

/-! ### Backtracking -/

/-- The same search for the shifted objective. -/
def Backtracking.shift (ls : Backtracking K E) (a : E) (c : K) : Backtracking K E :=
  { ls with f := fun x => Ext.shift c (ls.f (x - a)), grad := fun x => ls.grad (x - a) }

/-- The state of the search for the shifted objective. -/
def BState.shift (a : E) (c : K) (st : BState K E) : BState K E :=
  { st with params := st.params + a, value := Ext.shift c st.value, valueInit := Ext.shift c st.valueInit }

theorem point_shift (x d a : E) (s : K) : x + a + s • d = x + s • d + a := add_right_comm _ _ _

theorem Backtracking.update_shift (ls : Backtracking K E) (a : E) (c : K) (x : E) (d : Option E) (z : K × BState K E) :
    (ls.shift a c).update (x + a) d (Prod.map id (BState.shift a c) z) = Prod.map id (BState.shift a c) (ls.update x d z) := by
  obtain ⟨s, st⟩ := z
  have e : ∀ s v w p q, (ls.shift a c).computeError s (Ext.shift c v) (Ext.shift c w) p q = ls.computeError s v w p q := by
    intro s v w p q
    simp only [computeError, shift, Ext.add_shift, Ext.sub_shift]
  have hd : direction (K := K) (BState.shift a c st) d = direction (K := K) st d := by cases d <;> rfl
  simp only [update, Prod.map, id]
  rw [hd]
  have ef : ∀ z, (ls.shift a c).f z = Ext.shift c (ls.f (z - a)) := fun _ => rfl
  have eg : ∀ z, (ls.shift a c).grad z = ls.grad (z - a) := fun _ => rfl
  have e1 : (BState.shift a c st).valueInit = Ext.shift c st.valueInit := rfl
  simp only [ef, eg, e1, point_shift, add_sub_cancel_right, e]
  rfl

theorem Backtracking.run_shift (ls : Backtracking K E) (a : E) (c s : K) (x : E) (v : Option (Ext K)) (g d : Option E) :
    (ls.shift a c).run s (x + a) (v.map (Ext.shift c)) g d = (ls.run s x v g d).map (Prod.map id (BState.shift a c)) := by
  unfold run
  refine runS_map id (BState.shift a c) s ?_ (Backtracking.update_shift ls a c x d) (fun z => rfl) _ _ _
  cases v <;> cases g <;> simp [initState, BState.shift, shift]

/-! ### Zoom -/

/-- The same search for the shifted objective. -/
def Zoom.shift (ls : Zoom K E) (a : E) (c : K) : Zoom K E :=
  { ls with f := fun x => Ext.shift c (ls.f (x - a)), grad := fun x => ls.grad (x - a) }

/-- The state of the search for the shifted objective. -/
def ZState.shift (a : E) (c : K) (st : ZState K E) : ZState K E :=
  { st with
    params := st.params + a, value := Ext.shift c st.value, valueInit := Ext.shift c st.valueInit, prevValue := Ext.shift c st.prevValue,
    valueLow := Ext.shift c st.valueLow, valueHigh := Ext.shift c st.valueHigh, valueCubicRef := Ext.shift c st.valueCubicRef }

/-- When the search cannot notice the constant: there is none, or the approximate decrease condition has no slack proportional to the value and
the interpolation formulas depend on differences of values only. -/
def Zoom.Blind (ls : Zoom K E) (c : K) : Prop :=
  c = 0 ∨ (ls.c3 = 0 ∧
    (∀ p fp dp q fq r fr, ls.cubicmin p (Ext.shift c fp) dp q (Ext.shift c fq) r (Ext.shift c fr) = ls.cubicmin p fp dp q fq r fr) ∧
    ∀ p fp dp q fq, ls.quadmin p (Ext.shift c fp) dp q (Ext.shift c fq) = ls.quadmin p fp dp q fq)

section
variable {ls : Zoom K E} {a : E} {c : K}

theorem Zoom.decreaseError_shift (h : ls.Blind c) (s : K) (v sl v0 sl0 : Ext K) :
    (ls.shift a c).decreaseError s (Ext.shift c v) sl (Ext.shift c v0) sl0 = ls.decreaseError s v sl v0 sl0 := by
  have e : Ext.smul ls.c3 (Ext.abs (Ext.shift c v0)) = Ext.smul ls.c3 (Ext.abs v0) := by
    rcases h with rfl | ⟨h, -⟩
    · rw [Ext.shift_zero]
    · rw [h, Ext.smul_zero_abs_shift]
  simp only [decreaseError, shift, Ext.sub_shift, e]

theorem Zoom.middle_shift (h : ls.Blind c) (st : ZState K E) : (ls.shift a c).middle (ZState.shift a c st) = ls.middle st := by
  rcases h with rfl | ⟨-, h1, h2⟩
  · simp only [middle, ZState.shift, Ext.shift_zero, shift]
  · simp only [middle, ZState.shift, shift, h1, h2]

theorem Zoom.makeSafeStep_shift (z : K × ZState K E) :
    (ls.shift a c).makeSafeStep (Prod.map id (ZState.shift a c) z) = Prod.map id (ZState.shift a c) (ls.makeSafeStep z) := by
  obtain ⟨s, st⟩ := z
  simp only [makeSafeStep, Prod.map, id, ZState.shift, shift, point_shift, add_sub_cancel_right]
  rfl

theorem Zoom.searchInterval_shift (h : ls.Blind c) (s : K) (st : ZState K E) :
    (ls.shift a c).searchInterval s (ZState.shift a c st) = Prod.map id (ZState.shift a c) (ls.searchInterval s st) := by
  have ef : ∀ z, (ls.shift a c).f z = Ext.shift c (ls.f (z - a)) := fun _ => rfl
  have eg : ∀ z, (ls.shift a c).grad z = ls.grad (z - a) := fun _ => rfl
  have e2 : ∀ p q, (ls.shift a c).curvatureError p q = ls.curvatureError p q := fun _ _ => rfl
  simp only [searchInterval, Prod.map, id, ef, eg, e2]
  simp only [ZState.shift, point_shift, add_sub_cancel_right, Zoom.decreaseError_shift h, Ext.le_shift]
  simp only [shift, apply_ite (· + a), apply_ite (Ext.shift c)]
  rfl

theorem Zoom.zoomIntoInterval_shift (h : ls.Blind c) (st : ZState K E) :
    (ls.shift a c).zoomIntoInterval (ZState.shift a c st) = Prod.map id (ZState.shift a c) (ls.zoomIntoInterval st) := by
  have ef : ∀ z, (ls.shift a c).f z = Ext.shift c (ls.f (z - a)) := fun _ => rfl
  have eg : ∀ z, (ls.shift a c).grad z = ls.grad (z - a) := fun _ => rfl
  have e2 : ∀ p q, (ls.shift a c).curvatureError p q = ls.curvatureError p q := fun _ _ => rfl
  simp only [zoomIntoInterval, Zoom.middle_shift h, Prod.map, id, ef, eg, e2]
  simp only [ZState.shift, point_shift, add_sub_cancel_right, Zoom.decreaseError_shift h, Ext.le_shift]
  simp only [shift, apply_ite (· + a), apply_ite (Ext.shift c)]
  rfl

theorem Zoom.update_shift (h : ls.Blind c) (z : K × ZState K E) :
    (ls.shift a c).update (Prod.map id (ZState.shift a c) z) = Prod.map id (ZState.shift a c) (ls.update z) := by
  have e : (ls.shift a c).rawUpdate (Prod.map id (ZState.shift a c) z) = Prod.map id (ZState.shift a c) (ls.rawUpdate z) := by
    unfold rawUpdate
    by_cases q : z.2.intervalFound = true
    · rw [if_pos q, if_pos (by exact q)]; exact Zoom.zoomIntoInterval_shift h z.2
    · rw [if_neg q, if_neg (by exact q)]; exact Zoom.searchInterval_shift h z.1 z.2
  unfold update
  dsimp only
  rw [e]
  by_cases q : (ls.rawUpdate z).2.failed = true
  · rw [if_pos q, if_pos (by exact q)]; exact Zoom.makeSafeStep_shift _
  · rw [if_neg q, if_neg (by exact q)]

theorem Zoom.run_shift (h : ls.Blind c) (s : K) (x : E) (v : Option (Ext K)) (g d : Option E) :
    (ls.shift a c).run s (x + a) (v.map (Ext.shift c)) g d = (ls.run s x v g d).map (Prod.map id (ZState.shift a c)) := by
  unfold run
  refine runS_map id (ZState.shift a c) s ?_ (Zoom.update_shift h) (fun z => rfl) _ _ _
  cases v <;> cases g <;> cases d <;> simp [initState, ZState.shift, shift]

end

/-! ### Hager-Zhang -/

/-- The same search for the shifted objective. -/
def HZ.shift (ls : HZ K E) (a : E) (c : K) : HZ K E :=
  { ls with f := fun x => Ext.shift c (ls.f (x - a)), grad := fun x => ls.grad (x - a),
            offLine := fun m => (Ext.shift c (ls.offLine m).1, (ls.offLine m).2) }

/-- The state of the search for the shifted objective. -/
def HZState.shift (a : E) (c : K) (st : HZState K E) : HZState K E :=
  { st with params := st.params + a, value := Ext.shift c st.value }

/-- When the search cannot notice the constant: there is none, or the threshold of the approximate Wolfe conditions does not depend on the value. -/
def HZ.Blind (ls : HZ K E) (c : K) : Prop := c = 0 ∨ ls.awThreshold = 0

/-- A line function with shifted values. -/
def shiftLine (c : K) (phi : K → Ext K × Ext K) : K → Ext K × Ext K := fun s => (Ext.shift c (phi s).1, (phi s).2)

def UState.shift (c : K) (s : UState K) : UState K := { s with vm := Ext.shift c s.vm }

def HZ.BState.shift (c : K) (s : HZ.BState K) : HZ.BState K := { s with vm := Ext.shift c s.vm }

theorem failedNan_shift (c : K) (v g : Ext K) : failedNan (Ext.shift c v) g = failedNan v g := by
  simp only [failedNan, Ext.isNan_shift]

theorem updateBody_shift (c : K) (phi : K → Ext K × Ext K) (thr : Ext K) (s : UState K) :
    updateBody (shiftLine c phi) (Ext.shift c thr) (s.shift c) = (updateBody phi thr s).shift c := by
  simp only [updateBody, Ext.decide_ninf]
  simp only [UState.shift, shiftLine, Ext.le_shift, Ext.isNinf_shift, ← apply_ite (Ext.shift c), failedNan_shift]
  congr

theorem updateLoop_shift (c : K) (phi : K → Ext K × Ext K) (thr : Ext K) (n : ℕ) :
    ∀ s, updateLoop (shiftLine c phi) (Ext.shift c thr) n (UState.shift c s) = (updateLoop phi thr n s).map (UState.shift c) := by
  have hc : ∀ s : UState K, updateCond (s.shift c) = updateCond s := fun _ => rfl
  induction n with
  | zero =>
    intro s
    simp only [updateLoop, hc]
    cases updateCond s <;> rfl
  | succ n ih =>
    intro s
    simp only [updateLoop, hc, updateBody_shift, ih]
    cases updateCond s <;> rfl

theorem updateInterval_shift (c : K) (phi : K → Ext K × Ext K) (thr : Ext K) (fuel : ℕ) (low high m : K) :
    updateInterval (shiftLine c phi) (Ext.shift c thr) fuel low high m = updateInterval phi thr fuel low high m := by
  have e : (⟨decide (m ≥ high) || decide (m ≤ low), failedNan (shiftLine c phi m).1 (shiftLine c phi m).2, low, m, high,
      (shiftLine c phi m).1, (shiftLine c phi m).2⟩ : UState K) =
      UState.shift c ⟨decide (m ≥ high) || decide (m ≤ low), failedNan (phi m).1 (phi m).2, low, m, high, (phi m).1, (phi m).2⟩ := by
    simp only [shiftLine, failedNan_shift, UState.shift]
  simp only [updateInterval]
  rw [e, updateLoop_shift, Option.map_map]
  rfl

section
variable {ls : HZ K E} {a : E} {c : K}

theorem HZ.line_shift (x d : E) : (ls.shift a c).line (x + a) d = shiftLine c (ls.line x d) := by
  funext s
  simp only [line, shift, shiftLine, point_shift, add_sub_cancel_right]

theorem HZ.bracketBody_shift (x d : E) (thr : Ext K) (s : HZ.BState K) :
    (ls.shift a c).bracketBody (x + a) d (Ext.shift c thr) (s.shift c) = (ls.bracketBody x d thr s).map (HZ.BState.shift c) := by
  simp only [bracketBody, HZ.line_shift]
  have e : (ls.shift a c).fuel = ls.fuel := rfl
  simp only [HZ.BState.shift, Ext.gt_shift, Ext.le_shift, updateInterval_shift, e, shiftLine, failedNan_shift, Option.map_map]
  congr 1

theorem HZ.bracketLoop_shift (x d : E) (thr : Ext K) (n : ℕ) :
    ∀ s, (ls.shift a c).bracketLoop (x + a) d (Ext.shift c thr) n (HZ.BState.shift c s) =
      (ls.bracketLoop x d thr n s).map (HZ.BState.shift c) := by
  have hc : ∀ s : HZ.BState K, (!(s.shift c).done && !(s.shift c).failed) = (!s.done && !s.failed) := fun _ => rfl
  induction n with
  | zero =>
    intro s
    simp only [bracketLoop, hc]
    cases (!s.done && !s.failed) <;> rfl
  | succ n ih =>
    intro s
    simp only [bracketLoop, hc, HZ.bracketBody_shift]
    cases (!s.done && !s.failed)
    · rfl
    · simp only [if_true]
      cases ls.bracketBody x d thr s with
      | none => rfl
      | some r => exact ih r

theorem HZ.bracket_shift (x d : E) (thr : Ext K) :
    (ls.shift a c).bracket (x + a) d (Ext.shift c thr) = ls.bracket x d thr := by
  simp only [bracket, HZ.line_shift]
  have e : (⟨decide ((shiftLine c (ls.line x d) 1).1 = .ninf), failedNan (shiftLine c (ls.line x d) 1).1 (shiftLine c (ls.line x d) 1).2, 0, 1, 1,
      (shiftLine c (ls.line x d) 1).1, (shiftLine c (ls.line x d) 1).2, 0⟩ : HZ.BState K) =
      HZ.BState.shift c ⟨decide ((ls.line x d 1).1 = .ninf), failedNan (ls.line x d 1).1 (ls.line x d 1).2, 0, 1, 1,
        (ls.line x d 1).1, (ls.line x d 1).2, 0⟩ := by
    simp only [Ext.decide_ninf]
    simp only [shiftLine, failedNan_shift, HZ.BState.shift, Ext.isNinf_shift]
  rw [e, HZ.bracketLoop_shift, Option.map_map]
  rfl

theorem HZ.wolfeError_shift (s : K) (v g v0 sl0 thr : Ext K) :
    (ls.shift a c).wolfeError s (Ext.shift c v) g (Ext.shift c v0) sl0 (Ext.shift c thr) = ls.wolfeError s v g v0 sl0 thr := by
  simp only [wolfeError, shift, Ext.add_shift, Ext.sub_shift]

theorem HZ.threshold_shift (h : ls.Blind c) (v : Ext K) : (ls.shift a c).threshold (Ext.shift c v) = Ext.shift c (ls.threshold v) := by
  have e : Ext.smul ls.awThreshold (Ext.abs (Ext.shift c v)) = Ext.smul ls.awThreshold (Ext.abs v) := by
    rcases h with rfl | h
    · rw [Ext.shift_zero]
    · rw [h, Ext.smul_zero_abs_shift]
  simp only [threshold, Ext.add_shift]
  exact congrArg (fun t => Ext.shift c (Ext.add v t)) e

theorem HZ.bestPoint_shift (x d : E) (p q : K) :
    (ls.shift a c).bestPoint (x + a) d p q =
      ((ls.bestPoint x d p q).1, (ls.bestPoint x d p q).2.1, Ext.shift c (ls.bestPoint x d p q).2.2) := by
  simp only [bestPoint, HZ.line_shift, shiftLine, Ext.lt_shift, Ext.min_shift]
  split <;> rfl

theorem HZ.initState_shift (h : ls.Blind c) (x : E) (v0 : Ext K) (g0 d : E) :
    (ls.shift a c).initState (x + a) (Ext.shift c v0) g0 d = (ls.initState x v0 g0 d).map (HZState.shift a c) := by
  simp only [initState, HZ.threshold_shift h, HZ.bracket_shift, HZ.bestPoint_shift, HZ.wolfeError_shift, Option.map_map]
  congr 1

theorem HZ.updateBracket_shift (x d : E) (thr : Ext K) (st : HZState K E) :
    (ls.shift a c).updateBracket (x + a) d (Ext.shift c thr) (HZState.shift a c st) = ls.updateBracket x d thr st := by
  have e0 : (ls.shift a c).fuel = ls.fuel := rfl
  have es : ∀ p q, secant (shiftLine c (ls.line x d)) p q = secant (ls.line x d) p q := fun p q => rfl
  have e1 : (ls.shift a c).updateE (x + a) d (Ext.shift c thr) = ls.updateE x d thr := by
    funext p q m
    cases m <;> simp only [updateE, HZ.line_shift, e0, updateInterval_shift] <;> simp only [shift, failedNan_shift]
  have e2 : (ls.shift a c).secant2 (x + a) d (Ext.shift c thr) = ls.secant2 x d thr := by
    funext p q
    simp only [secant2, HZ.line_shift, e1, es]
  simp only [updateBracket, e2, e0, HZ.line_shift, updateInterval_shift]
  rfl

theorem HZ.update_shift (h : ls.Blind c) (x : E) (v0 : Ext K) (g0 d : E) (z : K × Option (HZState K E)) :
    (ls.shift a c).update (x + a) (Ext.shift c v0) g0 d (Prod.map id (Option.map (HZState.shift a c)) z) =
      Prod.map id (Option.map (HZState.shift a c)) (ls.update x v0 g0 d z) := by
  obtain ⟨s, o⟩ := z
  cases o with
  | none => rfl
  | some st =>
    simp only [update, Prod.map, id, Option.map_some, HZ.updateBracket_shift, HZ.threshold_shift h]
    cases ls.updateBracket x d (ls.threshold v0) st with
    | none => rfl
    | some r =>
      have ef : ∀ z, (ls.shift a c).f z = Ext.shift c (ls.f (z - a)) := fun _ => rfl
      have eg : ∀ z, (ls.shift a c).grad z = ls.grad (z - a) := fun _ => rfl
      simp only [HZ.bestPoint_shift, HZ.wolfeError_shift, ef, eg, point_shift, add_sub_cancel_right]
      rfl

theorem HZ.run_shift (h : ls.Blind c) (s : K) (x : E) (v : Option (Ext K)) (g d : Option E) :
    (ls.shift a c).run s (x + a) (v.map (Ext.shift c)) g d =
      (ls.run s x v g d).map (Prod.map id (Option.map (HZState.shift a c))) := by
  have e : (ls.shift a c).resolve (x + a) (v.map (Ext.shift c)) g = Prod.map (Ext.shift c) id (ls.resolve x v g) := by
    cases v <;> cases g <;> simp [resolve, shift]
  simp only [run, e]
  refine runS_map id (Option.map (HZState.shift a c)) s (HZ.initState_shift h x _ _ _) (HZ.update_shift h x _ _ _) ?_ _ _ _
  rintro ⟨s, o⟩
  cases o <;> rfl

end

/-! ### The search that a solver creates -/

/-- The shifted objective. -/
def LineObj.shift (O : LineObj K E) (a : E) (c : K) : LineObj K E :=
  { O with f := fun x => Ext.shift c (O.f (x - a)), grad := fun x => O.grad (x - a),
           offLine := fun m => (Ext.shift c (O.offLine m).1, (O.offLine m).2) }

/-- The search for the shifted objective. -/
def LsSolver.shift (a : E) (c : K) : LsSolver K E → LsSolver K E
  | .backtracking ls => .backtracking (ls.shift a c)
  | .zoom ls => .zoom (ls.shift a c)
  | .hagerZhang ls => .hagerZhang (ls.shift a c)

/-- When a search cannot notice the constant. -/
def LsSolver.Blind (c : K) : LsSolver K E → Prop
  | .backtracking _ => True
  | .zoom ls => ls.Blind c
  | .hagerZhang ls => ls.Blind c

theorem setupLinesearch_shift (O : LineObj K E) (a : E) (c : K) (name : String) (maxls : ℕ) (m : K) (unroll jit : Bool) :
    setupLinesearch (O.shift a c) (.name name) maxls m unroll jit =
      (setupLinesearch O (.name name) maxls m unroll jit).map (LsSolver.shift a c) := by
  simp only [setupLinesearch]
  split
  · rfl
  split
  · rfl
  split
  · rfl
  · rfl

theorem setupLinesearch_blind {O : LineObj K E} {c : K} {name : String} {maxls : ℕ} {m : K} {unroll jit : Bool} {ls : LsSolver K E}
    (hc : c = 0 ∨ name = "backtracking") (h : setupLinesearch O (.name name) maxls m unroll jit = .ok ls) : ls.Blind c := by
  simp only [setupLinesearch] at h
  split at h
  · cases h; trivial
  split at h
  · cases h; exact .inl (hc.resolve_right ‹_›)
  split at h
  · cases h; exact .inl (hc.resolve_right ‹_›)
  · cases h

end LineSearch

end Jaxopt
