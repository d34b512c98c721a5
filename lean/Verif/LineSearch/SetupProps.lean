import Verif.LineSearch.Setup
import Verif.LineSearch.BacktrackingProps
import Verif.LineSearch.ZoomProps

/-!
# Property C90: the line searches that the solvers create, and the bound `max_stepsize`
-/

set_option autoImplicit false
set_option linter.unusedSectionVars false
set_option linter.unusedVariables false

namespace Jaxopt.LineSearch

variable {K E : Type*} [Field K] [LinearOrder K] [IsStrictOrderedRing K] [AddCommGroup E] [Module K E]

/-- **C90, accepted arguments.**  A line search is created exactly for the three documented names and for line search objects; an object is
used as it is, whatever `maxls` and `max_stepsize` are. -/
theorem C90_accepts (O : LineObj K E) (arg : LsArg K E) (maxls : ℕ) (maxStepsize : K) (unroll jit : Bool) :
    ((∃ ls, setupLinesearch O arg maxls maxStepsize unroll jit = .ok ls) ↔
      arg = .name "backtracking" ∨ arg = .name "zoom" ∨ arg = .name "hager-zhang" ∨ ∃ ls, arg = .solver ls) ∧
    (∀ ls, arg = .solver ls → ∀ maxls' maxStepsize', setupLinesearch O arg maxls' maxStepsize' unroll jit = .ok ls) := by
  constructor
  · constructor
    · rintro ⟨ls, h⟩
      cases arg with
      | name s =>
        by_cases h1 : s = "backtracking"
        · left; rw [h1]
        · by_cases h2 : s = "zoom"
          · right; left; rw [h2]
          · by_cases h3 : s = "hager-zhang"
            · right; right; left; rw [h3]
            · simp only [setupLinesearch, if_neg h1, if_neg h2, if_neg h3] at h
              cases h
      | solver ls' => right; right; right; exact ⟨ls', rfl⟩
      | other => simp only [setupLinesearch] at h; cases h
    · rintro (rfl | rfl | rfl | ⟨ls, rfl⟩)
      · exact ⟨.backtracking _, by simp only [setupLinesearch, if_true]; rfl⟩
      · exact ⟨.zoom _, by simp only [setupLinesearch, show ¬("zoom" = "backtracking") by decide, if_false, if_true]; rfl⟩
      · exact ⟨.hagerZhang _, by
          simp only [setupLinesearch, show ¬("hager-zhang" = "backtracking") by decide, show ¬("hager-zhang" = "zoom") by decide,
            if_false, if_true]
          rfl⟩
      · exact ⟨ls, rfl⟩
  · rintro ls rfl _ _
    rfl

/-- The strong Wolfe conditions with the constants of the documentation, `c1 = 1e-4` and `c2 = 0.9`. -/
def DefaultWolfe (O : LineObj K E) (x d : E) (v0 s : K) : Prop :=
  (O.f (x + s • d)).AtMost (v0 + 1 / 10000 * s * O.vdot (O.grad x) d) ∧
    |O.vdot (O.grad (x + s • d)) d| ≤ 9 / 10 * |O.vdot (O.grad x) d|

/-- **C90, `"backtracking"`.**  The step of the search created for `"backtracking"` is positive and at most `max_stepsize`, the result
describes the point it reaches, and unless it failed the step satisfies the strong Wolfe conditions; if it failed, none of the `maxls`
trials `min (max_stepsize, init) 0.8^i` satisfies them. -/
theorem C90_backtracking (O : LineObj K E) (maxls : ℕ) (maxStepsize : K) (unroll jit : Bool) (hm : 1 ≤ maxls) (hmax : 0 < maxStepsize)
    (init : K) (hi : 0 < init) (x d : E) (v0 : K) (hv : O.f x = .fin v0) {ls : LsSolver K E} {r : LsRes K E}
    (hs : setupLinesearch O (.name "backtracking") maxls maxStepsize unroll jit = .ok ls)
    (hr : ls.run init x (O.f x) (O.grad x) d = .ok (some r)) :
    0 < r.stepsize ∧ r.stepsize ≤ maxStepsize ∧ r.params = x + r.stepsize • d ∧ r.value = O.f r.params ∧ r.grad = O.grad r.params ∧
    (r.failed = false → DefaultWolfe O x d v0 r.stepsize) ∧
    (r.failed = true → ∀ i < maxls, ¬ DefaultWolfe O x d v0 (min maxStepsize init * (4 / 5) ^ i)) := by
  simp only [setupLinesearch, if_true] at hs
  cases hs
  simp only [LsSolver.run] at hr
  cases hrun : (defaultBacktracking O maxls maxStepsize unroll jit).run init x (some (O.f x)) (some (O.grad x)) (some d) with
  | error e => rw [hrun] at hr; cases hr
  | ok p =>
    rw [hrun] at hr
    obtain ⟨s, st⟩ := p
    simp only [Except.map] at hr
    cases hr
    obtain ⟨k, hk, e1, e2, e3, e4, e5, e6, e7, e8⟩ := C18_backtracking (defaultBacktracking O maxls maxStepsize unroll jit)
      (le_refl _) hmax.le (by norm_num [defaultBacktracking]) (by norm_num [defaultBacktracking]) hm init v0 x (O.grad x) _ _ (some d)
      (Or.inl ⟨by rw [hv], rfl⟩) s st hrun
    have hA : ∀ s, AcceptAt (defaultBacktracking O maxls maxStepsize unroll jit) x d (O.grad x) v0 s ↔ DefaultWolfe O x d v0 s := by
      intro s
      simp only [AcceptAt, Accept, defaultBacktracking, DefaultWolfe, add_zero]
    have hdf : (defaultBacktracking O maxls maxStepsize unroll jit).decreaseFactor = 4 / 5 := rfl
    have hms : (defaultBacktracking O maxls maxStepsize unroll jit).maxStepsize = maxStepsize := rfl
    rw [hdf, hms] at e1 e8
    rw [Option.getD_some] at e3 e6 e8
    have hp : 0 < min maxStepsize init := lt_min hmax hi
    have hq : 0 < (4 / 5 : K) ^ k := by positivity
    have hq1 : (4 / 5 : K) ^ k ≤ 1 := pow_le_one₀ (by norm_num) (by norm_num)
    refine ⟨by rw [e1]; exact mul_pos hp hq, ?_, e3, e4, e5, ?_, ?_⟩
    · rw [e1]
      have : min maxStepsize init ≤ maxStepsize := min_le_left _ _
      nlinarith
    · intro hf
      refine (hA _).mp (e6.mp ?_)
      cases hdd : st.done
      · have h2 : st.failed = false := hf
        rw [e7.mpr hdd] at h2; cases h2
      · rfl
    · intro hf i hi' hw
      exact (e8.mp hf) i hi' ((hA _).mpr hw)

/-- **C90, `"zoom"`** (for a positive `max_stepsize`).  The step of the search created for `"zoom"` is in `[0, max_stepsize]` and the result
describes the point it reaches; unless it failed, the step gives the sufficient decrease of the code (exact, with `c1 = 1e-4`, or
approximate, with `c3 = 1e-6`), and either satisfies the curvature condition with `c2 = 0.9` or equals `max_stepsize`. -/
theorem C90_zoom (O : LineObj K E) (maxls : ℕ) (maxStepsize : K) (unroll jit : Bool) (hm : 1 ≤ maxls) (hmax : 0 < maxStepsize)
    (init : K) (hi : 0 < init) (x d : E) (v0 : K) (hv : O.f x = .fin v0) {ls : LsSolver K E} {r : LsRes K E}
    (hs : setupLinesearch O (.name "zoom") maxls maxStepsize unroll jit = .ok ls)
    (hr : ls.run init x (O.f x) (O.grad x) d = .ok (some r)) :
    0 ≤ r.stepsize ∧ r.stepsize ≤ maxStepsize ∧ r.params = x + r.stepsize • d ∧ r.value = O.f r.params ∧ r.grad = O.grad r.params ∧
    (r.failed = false →
      (r.value.AtMost (v0 + 1 / 10000 * r.stepsize * O.vdot (O.grad x) d) ∨
        (O.vdot r.grad d ≤ (2 * (1 / 10000) - 1) * O.vdot (O.grad x) d ∧ r.value.AtMost (v0 + 1 / 1000000 * |v0|))) ∧
      (|O.vdot r.grad d| ≤ 9 / 10 * |O.vdot (O.grad x) d| ∨ (r.stepsize = maxStepsize ∧ O.vdot r.grad d < 0))) := by
  simp only [setupLinesearch, show ¬("zoom" = "backtracking") by decide, if_false, if_true] at hs
  cases hs
  simp only [LsSolver.run] at hr
  have hms : (defaultZoom O maxls maxStepsize unroll jit).maxStepsize = maxStepsize := by
    simp [defaultZoom, Zoom.resolveMaxStepsize, hmax.ne']
  have hok : ZoomOK (defaultZoom O maxls maxStepsize unroll jit) :=
    ⟨le_refl _, by rw [hms]; exact hmax, by norm_num [defaultZoom], by norm_num [defaultZoom], by norm_num [defaultZoom]⟩
  cases hrun : (defaultZoom O maxls maxStepsize unroll jit).run init x (some (O.f x)) (some (O.grad x)) (some d) with
  | error e => rw [hrun] at hr; cases hr
  | ok p =>
    rw [hrun] at hr
    obtain ⟨s, st⟩ := p
    simp only [Except.map] at hr
    cases hr
    obtain ⟨b1, b2, b3, b4, b5, b6, b7, _⟩ := C20_zoom_partial (defaultZoom O maxls maxStepsize unroll jit) hok hm init hi x (O.grad x) v0
      (O.vdot (O.grad x) d) _ _ (some d) (Or.inl ⟨by rw [hv], rfl⟩) rfl s st hrun
    rw [hms] at b2 b7
    rw [Option.getD_some] at b3 b7
    refine ⟨b1, b2, b3, b4, b5, ?_⟩
    intro hf
    obtain ⟨c1, c2⟩ := b7 (b6.mpr hf)
    simp only [DecreaseOK, CurvatureOK, defaultZoom, add_zero, Ext.AtMost, Ext.abs, Ext.le] at c1 c2
    refine ⟨?_, ?_⟩
    · rw [b4, b5, b3]
      exact c1.2.2
    · rw [b5, b3]
      rcases c2 with h | h
      · exact Or.inl h
      · exact Or.inr ⟨h.1, not_le.mp (of_decide_eq_false h.2)⟩

/-! ## The bound is not respected by `"hager-zhang"`, nor by `"zoom"` when it is zero -/

theorem of_toOption {e : Except String (Option (LsRes ℚ ℚ))} {a b c : ℚ} {v : Ext ℚ} {f : Bool}
    (h : (e.toOption.bind id).map (fun r => (r.stepsize, r.params, r.value, r.grad, r.failed)) = some (a, b, v, c, f)) :
    e = .ok (some ⟨a, b, v, c, f⟩) := by
  cases e with
  | error _ => cases h
  | ok o =>
    cases o with
    | none => cases h
    | some r =>
      obtain ⟨s, x, v', g, f'⟩ := r
      simp only [Except.toOption, Option.bind_some, id, Option.map_some, Option.some.injEq, Prod.mk.injEq] at h
      obtain ⟨rfl, rfl, rfl, rfl, rfl⟩ := h
      rfl

/-- `(x - 10)² / 2`. -/
def farObj : LineObj ℚ ℚ where
  f := fun x => .fin ((x - 10) ^ 2 / 2)
  grad := fun x => x - 10
  vdot := fun x y => x * y
  cubicmin := fun _ _ _ _ _ _ _ => .nan
  quadmin := fun _ _ _ _ _ => .nan
  offLine := fun _ => (.nan, .nan)
  fuel := 10

/-- A piecewise linear convex function: slope `-1` up to `20`, slope `10` after. -/
def kinkObj : LineObj ℚ ℚ where
  f := fun x => .fin (if x ≤ 20 then -x else 10 * (x - 20) - 20)
  grad := fun x => if x < 20 then -1 else 10
  vdot := fun x y => x * y
  cubicmin := fun _ _ _ _ _ _ _ => .nan
  quadmin := fun _ _ _ _ _ => .nan
  offLine := fun _ => (.nan, .nan)
  fuel := 40

/-- **C90, the bound fails for `"hager-zhang"`.**  With `max_stepsize = 1`, the search created for `"hager-zhang"` succeeds with a step
larger than `20` on a convex function; on a quadratic it returns a point at distance `5` while it reports the step `1`. -/
theorem C90_hager_zhang_bound_false :
    (∃ ls r, setupLinesearch kinkObj (.name "hager-zhang") 30 1 true true = .ok ls ∧
      ls.run 1 0 (kinkObj.f 0) (kinkObj.grad 0) 1 = .ok (some r) ∧ r.failed = false ∧ 20 < r.stepsize ∧ r.params = r.stepsize) ∧
    (∃ ls r, setupLinesearch farObj (.name "hager-zhang") 30 1 true true = .ok ls ∧
      ls.run 1 0 (farObj.f 0) (farObj.grad 0) 1 = .ok (some r) ∧ r.failed = false ∧ r.stepsize = 1 ∧ r.params = 5) := by
  refine ⟨⟨.hagerZhang (defaultHagerZhang kinkObj 30 true true),
    ⟨293025 / 14641, 293025 / 14641, kinkObj.f (293025 / 14641), kinkObj.grad (293025 / 14641), false⟩, rfl, ?_, rfl, by norm_num, rfl⟩,
    ⟨.hagerZhang (defaultHagerZhang farObj 30 true true), ⟨1, 5, farObj.f 5, farObj.grad 5, false⟩, rfl, ?_, rfl, rfl, rfl⟩⟩
  · have h : (((LsSolver.hagerZhang (defaultHagerZhang kinkObj 30 true true)).run 1 0 (kinkObj.f 0) (kinkObj.grad 0) 1).toOption.bind id).map
        (fun r => (r.stepsize, r.params, r.value, r.grad, r.failed)) =
        some (293025 / 14641, 293025 / 14641, kinkObj.f (293025 / 14641), kinkObj.grad (293025 / 14641), false) := by decide +kernel
    exact of_toOption h
  · have h : (((LsSolver.hagerZhang (defaultHagerZhang farObj 30 true true)).run 1 0 (farObj.f 0) (farObj.grad 0) 1).toOption.bind id).map
        (fun r => (r.stepsize, r.params, r.value, r.grad, r.failed)) = some (1, 5, farObj.f 5, farObj.grad 5, false) := by decide +kernel
    exact of_toOption h

/-- **C90, a zero bound is not a bound for `"zoom"`.**  `max_stepsize = 0` is replaced by `2**maxls`: the search then takes a positive
step. -/
theorem C90_zoom_zero_false :
    ∃ ls r, setupLinesearch farObj (.name "zoom") 30 0 true true = .ok ls ∧
      ls.run 1 0 (farObj.f 0) (farObj.grad 0) 1 = .ok (some r) ∧ r.failed = false ∧ r.stepsize = 1 ∧ r.params = 1 := by
  refine ⟨.zoom (defaultZoom farObj 30 0 true true), ⟨1, 1, farObj.f 1, farObj.grad 1, false⟩, rfl, ?_, rfl, rfl, rfl⟩
  have h : (((LsSolver.zoom (defaultZoom farObj 30 0 true true)).run 1 0 (farObj.f 0) (farObj.grad 0) 1).toOption.bind id).map
      (fun r => (r.stepsize, r.params, r.value, r.grad, r.failed)) = some (1, 1, farObj.f 1, farObj.grad 1, false) := by decide +kernel
  exact of_toOption h

/-- The hypotheses of C90 hold on the quadratic `(x - 10)² / 2`: both searches run and succeed with `max_stepsize = 1`, from `init = 1`. -/
example : ∃ ls r ls' r', setupLinesearch farObj (.name "backtracking") 30 1 true true = .ok ls ∧
    ls.run 1 0 (farObj.f 0) (farObj.grad 0) 9 = .ok (some r) ∧ r.failed = false ∧
    setupLinesearch farObj (.name "zoom") 30 1 true true = .ok ls' ∧
    ls'.run 1 0 (farObj.f 0) (farObj.grad 0) 9 = .ok (some r') ∧ r'.failed = false := by
  refine ⟨.backtracking (defaultBacktracking farObj 30 1 true true), ⟨1, 9, farObj.f 9, farObj.grad 9, false⟩,
    .zoom (defaultZoom farObj 30 1 true true), ⟨1, 9, farObj.f 9, farObj.grad 9, false⟩, rfl, ?_, rfl, rfl, ?_, rfl⟩
  · have h : (((LsSolver.backtracking (defaultBacktracking farObj 30 1 true true)).run 1 0 (farObj.f 0) (farObj.grad 0) 9).toOption.bind
        id).map (fun r => (r.stepsize, r.params, r.value, r.grad, r.failed)) = some (1, 9, farObj.f 9, farObj.grad 9, false) := by
      decide +kernel
    exact of_toOption h
  · have h : (((LsSolver.zoom (defaultZoom farObj 30 1 true true)).run 1 0 (farObj.f 0) (farObj.grad 0) 9).toOption.bind id).map
        (fun r => (r.stepsize, r.params, r.value, r.grad, r.failed)) = some (1, 9, farObj.f 9, farObj.grad 9, false) := by decide +kernel
    exact of_toOption h

end Jaxopt.LineSearch
