import Verif.QuasiNewton.NonlinearCG
import Verif.LineSearch.Backtracking
import Verif.Num.Vdot
import Verif.Base.Util
import Mathlib.Algebra.Order.Ring.Rat
import Mathlib.Tactic.FieldSimp
import Mathlib.Tactic.NormNum

/-!
# Property C34: nonlinear conjugate gradient
-/

set_option autoImplicit false
set_option linter.unusedSectionVars false
set_option linter.unusedVariables false

namespace Jaxopt.QuasiNewton

open Jaxopt.Base

variable {K E V : Type*} [Field K] [LinearOrder K] [IsStrictOrderedRing K] [AddCommGroup E] [Module K E]

theorem clipEps_pos (a : K) : 0 < clipEps a := by
  have h : (0 : K) < cgEps := by unfold cgEps; positivity
  unfold clipEps
  split_ifs with hc
  · exact h.trans_le hc
  · exact h

theorem le_clipEps (a : K) : a ≤ clipEps a := by
  unfold clipEps; split_ifs with hc
  · exact le_rfl
  · exact (not_le.mp hc).le

/-- **C34**, betas: `beta` is non-negative for the three methods, and when the denominators are at least `1e-6` it is the
positive part of the formulas (5.44), (5.41a) and (5.45) of Nocedal and Wright. -/
theorem C34_beta (vdot : E → E → K) (g g' d : E) :
    (∀ m, 0 ≤ cgBeta vdot m g g' d) ∧
    (1 / 1000000 ≤ vdot g g →
      cgBeta vdot .polakRibiere g g' d = max (vdot (g' - g) g' / vdot g g) 0 ∧
      cgBeta vdot .fletcherReeves g g' d = max (vdot g' g' / vdot g g) 0) ∧
    (1 / 1000000 ≤ vdot (g' - g) d → cgBeta vdot .hestenesStiefel g g' d = max (vdot (g' - g) g' / vdot (g' - g) d) 0) := by
  have relu_eq : ∀ a : K, Jaxopt.Proj.relu a = max a 0 := by intro a; simp [Jaxopt.Proj.relu]
  refine ⟨fun m => ?_, fun h => ⟨?_, ?_⟩, fun h => ?_⟩
  · cases m <;> simp only [cgBeta, relu_eq] <;> exact le_max_right _ _
  · simp only [cgBeta, relu_eq]; rw [clipEps, if_pos (show cgEps ≤ _ from h)]
  · simp only [cgBeta, relu_eq]; rw [clipEps, if_pos (show cgEps ≤ _ from h)]
  · simp only [cgBeta, relu_eq]; rw [clipEps, if_pos (show cgEps ≤ _ from h)]

namespace NCG

/-- The iterates of a run. -/
def iterate (S : NCG K E V) (x0 : E) (k : ℕ) : E × NCGState K E V := S.update^[k] (x0, S.initState x0)

theorem iterate_succ (S : NCG K E V) (x0 : E) (k : ℕ) : S.iterate x0 (k + 1) = S.update (S.iterate x0 k) := by
  simp only [iterate, Function.iterate_succ_apply']

/-- The line search reports the value and the gradient at the point it returns. -/
def LsSound (S : NCG K E V) : Prop :=
  ∀ s x v g d, (S.runLs s x v g d).value = S.f (S.runLs s x v g d).params ∧
    (S.runLs s x v g d).grad = S.grad (S.runLs s x v g d).params

theorem grad_iterate (S : NCG K E V) (hl : S.LsSound) (x0 : E) (k : ℕ) :
    (S.iterate x0 k).2.grad = S.grad (S.iterate x0 k).1 ∧ (S.iterate x0 k).2.value = S.f (S.iterate x0 k).1 := by
  cases k with
  | zero => exact ⟨rfl, rfl⟩
  | succ k =>
    rw [iterate_succ]
    simp only [update, lineSearch]
    exact ⟨(hl _ _ _ _ _).2, (hl _ _ _ _ _).1⟩

/-- **C34**, descent: if the line search is exact (the new gradient is orthogonal to the direction used), the next direction `d`
satisfies `⟨g, d⟩ = -‖g‖²`, so it is a descent direction unless the gradient vanishes. -/
theorem C34_descent (S : NCG K E V) (hv : IsVdot S.vdot) (x0 : E) (k : ℕ)
    (hexact : S.vdot (S.iterate x0 (k + 1)).2.grad (S.iterate x0 k).2.descentDirection = 0) :
    let g := (S.iterate x0 (k + 1)).2.grad
    S.vdot g (S.iterate x0 (k + 1)).2.descentDirection = -S.vdot g g ∧
      (g ≠ 0 → S.vdot g (S.iterate x0 (k + 1)).2.descentDirection < 0) := by
  intro g
  have h1 : S.vdot g (S.iterate x0 (k + 1)).2.descentDirection = -S.vdot g g := by
    simp only [g]
    rw [iterate_succ] at hexact ⊢
    simp only [update] at hexact ⊢
    rw [hv.add_right, hv.smul_right, hv.smul_right, hexact]; ring
  refine ⟨h1, fun hg => ?_⟩
  rw [h1]
  have := hv.pos g hg
  linarith

/-- The bounds behind the descent property of Fletcher-Reeves: `-⟨g, d⟩ / ‖g‖²` lies between `(1 - 2 c2) / (1 - c2)` and
`1 / (1 - c2)`. -/
theorem fletcher_reeves_bounds (S : NCG K E V) (hv : IsVdot S.vdot) (hm : S.method = .fletcherReeves) {c2 : K} (h0 : 0 ≤ c2)
    (h1 : c2 < 1 / 2) (x0 : E) (k : ℕ)
    (hw : ∀ j < k, |S.vdot (S.iterate x0 (j + 1)).2.grad (S.iterate x0 j).2.descentDirection| ≤
      c2 * |S.vdot (S.iterate x0 j).2.grad (S.iterate x0 j).2.descentDirection|)
    (hg : ∀ j ≤ k, (S.iterate x0 j).2.grad ≠ 0) :
    ∀ j ≤ k, 0 < -S.vdot (S.iterate x0 j).2.grad (S.iterate x0 j).2.descentDirection ∧
      -S.vdot (S.iterate x0 j).2.grad (S.iterate x0 j).2.descentDirection * (1 - c2) ≤
        S.vdot (S.iterate x0 j).2.grad (S.iterate x0 j).2.grad ∧
      (1 - 2 * c2) * S.vdot (S.iterate x0 j).2.grad (S.iterate x0 j).2.grad ≤
        -S.vdot (S.iterate x0 j).2.grad (S.iterate x0 j).2.descentDirection * (1 - c2) := by
  intro j
  induction j with
  | zero =>
    intro hj
    have hp := hv.pos _ (hg 0 hj)
    have e : S.vdot (S.iterate x0 0).2.grad (S.iterate x0 0).2.descentDirection =
        -S.vdot (S.iterate x0 0).2.grad (S.iterate x0 0).2.grad := by
      simp only [iterate, Function.iterate_zero, id_eq, initState]
      rw [hv.smul_right]; ring
    rw [e]
    refine ⟨?_, ?_, ?_⟩
    · linarith
    · nlinarith
    · nlinarith
  | succ j ih =>
    intro hj
    obtain ⟨i1, i2, _⟩ := ih (by omega)
    have hw := hw j (by omega)
    have hp := hv.pos _ (hg j (by omega))
    have hp' := hv.pos _ (hg (j + 1) hj)
    set g := (S.iterate x0 j).2.grad
    set d := (S.iterate x0 j).2.descentDirection
    set g' := (S.iterate x0 (j + 1)).2.grad with hg'
    have hb : cgBeta S.vdot S.method g g' d = S.vdot g' g' / clipEps (S.vdot g g) := by
      rw [hm]
      simp only [cgBeta, Jaxopt.Proj.relu]
      exact max_eq_left (div_nonneg hp'.le (clipEps_pos _).le)
    have hd : (S.iterate x0 (j + 1)).2.descentDirection = (-1 : K) • g' + (S.vdot g' g' / clipEps (S.vdot g g)) • d := by
      rw [← hb, hg', iterate_succ]; rfl
    rw [hd, hv.add_right, hv.smul_right, hv.smul_right]
    have hc := clipEps_pos (S.vdot g g)
    have hle := le_clipEps (S.vdot g g)
    set c := clipEps (S.vdot g g)
    have habs : |S.vdot g d| = -S.vdot g d := by rw [abs_of_neg]; linarith
    rw [habs] at hw
    obtain ⟨w1, w2⟩ := abs_le.mp hw
    set a := S.vdot g' d
    set G := S.vdot g' g'
    -- |a| ≤ c2 (-⟨g,d⟩) ≤ c2/(1-c2)·c
    have hA : c2 * (-S.vdot g d) * (1 - c2) ≤ c2 * c := by nlinarith
    have hA1 : a * (1 - c2) ≤ c2 * c := by nlinarith
    have hA2 : -a * (1 - c2) ≤ c2 * c := by nlinarith
    have hG : G / c * a = G * (a / c) := by ring
    have hac : a / c * (1 - c2) ≤ c2 := by
      rw [div_mul_eq_mul_div, div_le_iff₀ hc]; exact hA1
    have hac2 : -(a / c) * (1 - c2) ≤ c2 := by
      rw [← neg_div, div_mul_eq_mul_div, div_le_iff₀ hc]; exact hA2
    rw [hG]
    set q := a / c
    have hq1 : q < 1 := by
      by_contra hcon
      have : 1 ≤ q := not_lt.mp hcon
      nlinarith
    refine ⟨?_, ?_, ?_⟩
    · nlinarith
    · nlinarith
    · nlinarith

/-- **C34**, Fletcher-Reeves with a strong Wolfe line search (curvature constant `c2 < 1/2`) along the direction: every direction
of the run is a descent direction as long as the gradient does not vanish, also with the clipped denominator. -/
theorem C34_fletcher_reeves (S : NCG K E V) (hv : IsVdot S.vdot) (hm : S.method = .fletcherReeves) {c2 : K} (h0 : 0 ≤ c2)
    (h1 : c2 < 1 / 2) (x0 : E)
    (hw : ∀ k, |S.vdot (S.iterate x0 (k + 1)).2.grad (S.iterate x0 k).2.descentDirection| ≤
      c2 * |S.vdot (S.iterate x0 k).2.grad (S.iterate x0 k).2.descentDirection|)
    (k : ℕ) (hg : ∀ j ≤ k, (S.iterate x0 j).2.grad ≠ 0) :
    S.vdot (S.iterate x0 k).2.grad (S.iterate x0 k).2.descentDirection < 0 := by
  have := (fletcher_reeves_bounds S hv hm h0 h1 x0 k (fun j _ => hw j) hg k le_rfl).1
  linarith

/-- **C34**, what the error is: after `k + 1` updates `state.error` is the gradient norm at the *previous* parameters (line 258),
for every sound line search. -/
theorem C34_error_partial (S : NCG K E V) (hl : S.LsSound) (x0 : E) (k : ℕ) :
    (S.iterate x0 (k + 1)).2.error = .fin (S.norm (S.grad (S.iterate x0 k).1)) := by
  rw [iterate_succ]
  simp only [update]
  rw [(grad_iterate S hl x0 k).1]

/-- **C34 is false for `linesearch="backtracking"`**: the selected method has no influence on the parameters, values, gradients,
stepsizes and errors of any iterate, because the line search then ignores the direction (lines 200-201). -/
theorem C34_backtracking_ignores_method_false (S : NCG K E V) (hb : S.linesearch = "backtracking") (m : CGMethod) (x0 : E) (k : ℕ) :
    let T : NCG K E V := { S with method := m }
    (T.iterate x0 k).1 = (S.iterate x0 k).1 ∧ (T.iterate x0 k).2.value = (S.iterate x0 k).2.value ∧
      (T.iterate x0 k).2.grad = (S.iterate x0 k).2.grad ∧ (T.iterate x0 k).2.stepsize = (S.iterate x0 k).2.stepsize ∧
      (T.iterate x0 k).2.error = (S.iterate x0 k).2.error := by
  intro T
  induction k with
  | zero => exact ⟨rfl, rfl, rfl, rfl, rfl⟩
  | succ k ih =>
    obtain ⟨h1, h2, h3, h4, h5⟩ := ih
    have hls : T.lineSearch (T.iterate x0 k) = S.lineSearch (S.iterate x0 k) := by
      have hT : T.linesearch = "backtracking" := hb
      simp only [lineSearch, hb, hT, if_true, h1, h2, h3, h4]
      rfl
    rw [iterate_succ, iterate_succ]
    simp only [update, hls, h3]
    exact ⟨trivial, trivial, trivial, trivial, rfl⟩

end NCG

/-! ## Witnesses -/

/-- A line search that takes a given step along the direction (negative gradient when none is given) and reports the exact value and
gradient. -/
def fixedLs (f : E → V) (grad : E → E) (s : K) : K → E → V → E → Option E → LsOut K E V := fun _ x _ g d =>
  let x' := x + s • d.getD ((-1 : K) • g)
  ⟨s, x', f x', grad x', false⟩

/-- `f(x, y) = x²/2 + y²` on `ℚ²`. -/
def exNCG (ls : String) (m : CGMethod) : NCG ℚ (ℚ × ℚ) ℚ where
  f := fun p => p.1 * p.1 / 2 + p.2 * p.2
  grad := fun p => (p.1, 2 * p.2)
  vdot := fun p q => p.1 * q.1 + p.2 * q.2
  norm := fun p => |p.1| + |p.2|
  method := m
  linesearch := ls
  maxStepsize := 1
  initStep := id
  tol := 1 / 1000
  maxiter := 10
  unroll := true
  jit := true
  runLs := fixedLs (fun p => p.1 * p.1 / 2 + p.2 * p.2) (fun p => (p.1, 2 * p.2)) (1 / 4)

/-- With a line search that receives the direction the method does influence the iterates; with `"backtracking"` it does not, on the
same problem. -/
theorem C34_method_matters_partial :
    ((exNCG "zoom" .polakRibiere).iterate (1, 1) 2).1 ≠ ((exNCG "zoom" .fletcherReeves).iterate (1, 1) 2).1 ∧
    ((exNCG "zoom" .hestenesStiefel).iterate (1, 1) 3).1 ≠ ((exNCG "zoom" .fletcherReeves).iterate (1, 1) 3).1 ∧
    ((exNCG "backtracking" .polakRibiere).iterate (1, 1) 2).1 = ((exNCG "backtracking" .fletcherReeves).iterate (1, 1) 2).1 := by
  decide +kernel

theorem fixedLs_sound (S : NCG K E V) (s : K) (h : S.runLs = fixedLs S.f S.grad s) : S.LsSound := by
  intro s' x v g d
  rw [h]; exact ⟨rfl, rfl⟩

/-- `NonlinearCG(linesearch="backtracking")` with the modelled backtracking line search (Armijo condition, `c1 = 1e-4`,
factor `0.8`) on `f(x) = -50x²`. -/
def exNCGBack : NCG ℚ ℚ (Ext ℚ) where
  f := fun x => .fin (-50 * (x * x))
  grad := fun x => -100 * x
  vdot := fun x y => x * y
  norm := fun x => |x|
  method := .polakRibiere
  linesearch := "backtracking"
  maxStepsize := 1
  initStep := fun s => if s ≤ 1 / 1000000 then 1 else s * (6 / 5)
  tol := 1 / 1000
  maxiter := 100
  unroll := true
  jit := true
  runLs := fun s x v g d =>
    let ls : Jaxopt.LineSearch.Backtracking ℚ ℚ :=
      ⟨fun x => .fin (-50 * (x * x)), fun x => -100 * x, fun x y => x * y, 30, 0, .armijo, 1 / 10000, 9 / 10, 4 / 5, 1, true, true⟩
    match ls.run s x (some v) (some g) d with
    | .ok r => ⟨r.1, r.2.params, r.2.value, r.2.grad, r.2.failed⟩
    | .error _ => ⟨0, x, v, g, true⟩

/-- **C34 is false: the error is not the gradient norm at the returned parameters.**  The run from `1/100000` returns after one
update with `error = 1/1000 ≤ tol`, but the gradient norm at the returned point is `101/1000 > tol`. -/
theorem C34_error_false :
    ∃ r, exNCGBack.run (1 / 100000) = .ok r ∧ r.2.error = .fin (1 / 1000) ∧ r.2.iterNum = 1 ∧ r.1 = 101 / 100000 ∧
      exNCGBack.norm (exNCGBack.grad r.1) = 101 / 1000 ∧ exNCGBack.tol = 1 / 1000 := by
  obtain ⟨r, hr, hv⟩ := ok_of_toOption (x := exNCGBack.run (1 / 100000)) (φ := fun r => (r.1, r.2.error, r.2.iterNum))
    (v := (101 / 100000, .fin (1 / 1000), 1)) (by decide +kernel)
  have e1 : r.1 = 101 / 100000 := congrArg (·.1) hv
  have e2 : r.2.error = .fin (1 / 1000) := congrArg (·.2.1) hv
  have e3 : r.2.iterNum = 1 := congrArg (·.2.2) hv
  refine ⟨r, hr, e2, e3, e1, ?_, rfl⟩
  rw [e1]; decide +kernel

/-- Non-vacuity of the descent clauses: on `x²/2 + y²` an exact line search (step `5/9` from `(1, 1)`) exists. -/
example : ∃ S : NCG ℚ (ℚ × ℚ) ℚ, IsVdot S.vdot ∧ S.LsSound ∧
    S.vdot (S.iterate (1, 1) 1).2.grad (S.iterate (1, 1) 0).2.descentDirection = 0 ∧ (S.iterate (1, 1) 1).2.grad ≠ 0 := by
  let S : NCG ℚ (ℚ × ℚ) ℚ := { exNCG "zoom" .fletcherReeves with
    runLs := fixedLs (fun p => p.1 * p.1 / 2 + p.2 * p.2) (fun p => (p.1, 2 * p.2)) (5 / 9) }
  refine ⟨S, IsVdot.prod IsVdot.mul IsVdot.mul, fixedLs_sound S (5 / 9) rfl, ?_, ?_⟩
  · decide +kernel
  · decide +kernel

end Jaxopt.QuasiNewton
