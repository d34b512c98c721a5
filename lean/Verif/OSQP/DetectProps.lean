import Verif.OSQP.Detect
import Verif.Num.Elimination

/-!
# C117: runs of `BoxOSQP` with infeasibility checks stop

With a constant stepsize (`rho_min = rho_max = rho_start`), exact linear solves and `check_primal_dual_infeasability=True`, the runs stop
on every convex program, solvable or not (osqp.py lines 544-605 and 634-742): the steps of the iterations converge, the limits of the
steps are zero exactly when the program is feasible and its dual is, and otherwise they are certificates that the tests accept.
-/

set_option autoImplicit false
set_option linter.unusedSectionVars false
set_option linter.unusedVariables false

open Finset Matrix Filter Topology

namespace Jaxopt.OSQP.BoxOSQP

variable {n m : ℕ}

/-! ## Specification -/

/-- Constraints of the dual program: `Qx + c + Aᵀy = 0`, with multipliers only for bounds that exist. -/
def DualFeasible (S : BoxOSQP ℝ n m) : Prop :=
  ∃ x y, S.Q.mulVec x + S.c + S.A.transpose.mulVec y = 0 ∧ (∀ i, S.u i = none → y i ≤ 0) ∧ ∀ i, S.l i = none → 0 ≤ y i

/-- The setting: a convex program with consistent bounds, a constant stepsize, exact linear solves, both checks and positive tolerances. -/
structure Detects (S : BoxOSQP ℝ n m) (rho : ℝ) : Prop where
  psd : S.PSD
  bounds : S.BoundsOk
  rhoPos : 0 < rho
  rhoStart : S.rhoStart = rho
  rhoMin : S.rhoMin = rho
  rhoMax : S.rhoMax = rho
  exact : S.Exact rho
  sigma : 0 < S.sigma
  momentum : 0 < S.momentum
  momentum' : S.momentum < 2
  tol : 0 < S.tol
  freq : 0 < S.terminationCheckFrequency
  check : S.checkInfeasability = true
  ptol : 0 < S.primalInfeasibleTol
  dtol : 0 < S.dualInfeasibleTol

/-- A run that does not end for lack of iterations: it raises one of the two exceptions or returns a status other than "unsolved". -/
def Verdict : Except String (Option (Params ℝ n m) × State ℝ n m) → Prop
  | .error e => e = "Primal infeasible." ∨ e = "Dual infeasible."
  | .ok r => r.2.status ≠ .unsolved

/-- A run that reports infeasibility. -/
def Reported : Except String (Option (Params ℝ n m) × State ℝ n m) → Prop
  | .error e => e = "Primal infeasible." ∨ e = "Dual infeasible."
  | .ok r => r.2.status = .primalInfeasible ∨ r.2.status = .dualInfeasible

/-! ## The iterates -/

/-- An update with the constant stepsize that does not raise. -/
noncomputable def pureStep (S : BoxOSQP ℝ n m) (rho : ℝ) (q : Params ℝ n m × State ℝ n m) : Params ℝ n m × State ℝ n m :=
  let r := S.admmStep q.1 rho rho q.2
  let sol := fullKKT r.1 r.2.1 r.2.2.1
  let es : Ext ℝ × Status :=
    if q.2.iterNum % S.terminationCheckFrequency = 0 then
      let es := S.checkTermination (S.primalRes r.1 r.2.1) (S.dualRes r.1 r.2.2.1) q.1 sol
      (.fin es.1, es.2)
    else (q.2.error, q.2.status)
  (sol, ⟨q.2.iterNum + 1, es.1, es.2, S.primalRes r.1 r.2.1, S.dualRes r.1 r.2.2.1, .fin rho, r.2.2.2, .fin rho⟩)

/-- The iterates, whether or not the run would have stopped. -/
noncomputable def pureIter (S : BoxOSQP ℝ n m) (rho : ℝ) (p0 : Params ℝ n m) : ℕ → Params ℝ n m × State ℝ n m
  | 0 => (p0, S.initState p0)
  | k + 1 => S.pureStep rho (S.pureIter rho p0 k)

variable {S : BoxOSQP ℝ n m} {rho : ℝ}

theorem pureIter_num (p0 : Params ℝ n m) (k : ℕ) : (S.pureIter rho p0 k).2.iterNum = k := by
  induction k with
  | zero => rfl
  | succ k ih => change (S.pureIter rho p0 k).2.iterNum + 1 = k + 1; rw [ih]

theorem Detects.rhos (h : S.Detects rho) (p0 : Params ℝ n m) (k : ℕ) :
    (S.pureIter rho p0 k).2.rhoBar = .fin rho ∧ (S.pureIter rho p0 k).2.solverRho = .fin rho := by
  cases k with
  | zero => exact ⟨by simp [pureIter, initState, h.rhoStart], by simp [pureIter, initState, h.rhoStart]⟩
  | succ k => exact ⟨rfl, rfl⟩

theorem Detects.good (h : S.Detects rho) (p0 : Params ℝ n m) (k : ℕ) : S.Good (S.pureIter rho p0 (k + 1)).1 :=
  S.admm_good h.bounds _ h.rhoPos rho _

/-- The stepsize stays. -/
theorem Detects.stepsize (h : S.Detects rho) (hc : S.c ≠ 0) (h0 : ¬S.InBox 0) {x : Fin n → ℝ} {z y : Fin m → ℝ} (hz : S.InBox z)
    (dual : Fin n → ℝ) : S.updateStepsize rho (S.primalRes x z) dual x y = .fin rho := by
  have hle : S.rhoMin ≤ S.rhoMax := by rw [h.rhoMin, h.rhoMax]
  cases hu : S.updateStepsize rho (S.primalRes x z) dual x y with
  | fin r =>
    obtain ⟨h1, h2⟩ := S.updateStepsize_mem hle hu
    rw [h.rhoMin] at h1
    rw [h.rhoMax] at h2
    rw [le_antisymm h2 h1]
  | nan =>
    rcases S.updateStepsize_nan hu with ⟨h1, h2⟩ | ⟨-, -, h3⟩
    · refine absurd ?_ h0
      have : z = 0 := by
        unfold primalRes at h1
        rw [h2, zero_sub, neg_eq_zero] at h1
        exact h1
      rw [← this]; exact hz
    · exact absurd h3 hc
  | pinf =>
    unfold updateStepsize at hu
    simp only at hu
    split at hu <;> simp at hu
  | ninf =>
    unfold updateStepsize at hu
    simp only at hu
    split at hu <;> simp at hu

/-- An update of a run is the pure one, or raises. -/
theorem Detects.update_eq (h : S.Detects rho) (hc : S.c ≠ 0) (h0 : ¬S.InBox 0) (p0 : Params ℝ n m) (k : ℕ) :
    S.update (some (S.pureIter rho p0 k).1, (S.pureIter rho p0 k).2) =
      (S.raiseIfInfeasible (S.pureIter rho p0 (k + 1)).2.status).map
        fun _ => (some (S.pureIter rho p0 (k + 1)).1, (S.pureIter rho p0 (k + 1)).2) := by
  obtain ⟨h1, h2⟩ := h.rhos p0 k
  have hgood := h.good p0 k
  have hst : ∀ dual y, S.updateStepsize rho (S.primalRes (S.admmStep (S.pureIter rho p0 k).1 rho rho (S.pureIter rho p0 k).2).1
      (S.admmStep (S.pureIter rho p0 k).1 rho rho (S.pureIter rho p0 k).2).2.1) dual
      (S.admmStep (S.pureIter rho p0 k).1 rho rho (S.pureIter rho p0 k).2).1 y = .fin rho :=
    fun dual y => h.stepsize hc h0 hgood.box dual
  unfold update
  simp only [h1, h2]
  unfold updateFin
  simp only [hst, ite_self]
  rfl

/-- The status tells whether the run goes on. -/
theorem Detects.check_iff (h : S.Detects rho) (primal : Fin m → ℝ) (dual : Fin n → ℝ) (old new : Params ℝ n m) :
    (S.checkTermination primal dual old new).1 ≤ S.tol ↔ (S.checkTermination primal dual old new).2 ≠ .unsolved := by
  have ht := h.tol.le
  unfold checkTermination computeError
  simp only [h.check, if_true]
  by_cases hp : S.certifPrimal (new.y - old.y) = true
  · simp [hp, ht]
  · by_cases hd : S.certifDual (new.x - old.x) = true
    · simp [hp, hd, ht]
    · simp only [hp, hd, if_false, Bool.false_eq_true]
      by_cases hcr : max (infNorm primal) (infNorm dual) ≤ S.tol
      · simp [hcr]
      · simp [hcr]

theorem Detects.cont_iff (h : S.Detects rho) (p0 : Params ℝ n m) (k : ℕ) (q : Option (Params ℝ n m)) :
    S.cont (q, (S.pureIter rho p0 k).2) = true ↔ (S.pureIter rho p0 k).2.status = .unsolved := by
  induction k with
  | zero => simp [cont, pureIter, initState, Ext.gt, Ext.lt]
  | succ k ih =>
    by_cases hf : (S.pureIter rho p0 k).2.iterNum % S.terminationCheckFrequency = 0
    · have := h.check_iff (S.primalRes (S.admmStep (S.pureIter rho p0 k).1 rho rho (S.pureIter rho p0 k).2).1
        (S.admmStep (S.pureIter rho p0 k).1 rho rho (S.pureIter rho p0 k).2).2.1)
        (S.dualRes (S.admmStep (S.pureIter rho p0 k).1 rho rho (S.pureIter rho p0 k).2).1
        (S.admmStep (S.pureIter rho p0 k).1 rho rho (S.pureIter rho p0 k).2).2.2.1) (S.pureIter rho p0 k).1
        (S.pureIter rho p0 (k + 1)).1
      simp only [cont, pureIter, pureStep, if_pos hf, Ext.gt, Ext.lt] at this ⊢
      rw [decide_eq_true_eq, ← not_le, this, not_not]
    · simp only [cont, pureIter, pureStep, if_neg hf] at ih ⊢
      exact ih

/-- Once a test of the iterates succeeds, the run has stopped. -/
theorem Detects.loop_stops (h : S.Detects rho) (hc : S.c ≠ 0) (h0 : ¬S.InBox 0) (p0 : Params ℝ n m) {k : ℕ}
    (hk : (S.pureIter rho p0 k).2.status ≠ .unsolved) : ∀ fuel j, j ≤ k → k ≤ fuel + j →
    Verdict (S.loop fuel (some (S.pureIter rho p0 j).1, (S.pureIter rho p0 j).2)) := by
  intro fuel
  induction fuel with
  | zero =>
    intro j hj hjk
    have : j = k := by omega
    subst this
    exact hk
  | succ fuel ih =>
    intro j hj hjk
    unfold loop
    by_cases hs : (S.pureIter rho p0 j).2.status = .unsolved
    · rw [if_pos ((h.cont_iff p0 j _).mpr hs)]
      have hne : j ≠ k := fun e => by rw [e] at hs; exact hk hs
      rw [h.update_eq hc h0]
      have hnext := ih (j + 1) (by omega) (by omega)
      cases hr : S.raiseIfInfeasible (S.pureIter rho p0 (j + 1)).2.status with
      | ok u => exact hnext
      | error e =>
        change e = _ ∨ e = _
        unfold raiseIfInfeasible at hr
        split_ifs at hr
        split at hr
        · cases hr; exact .inl rfl
        · cases hr; exact .inr rfl
        · cases hr
    · rw [if_neg (fun hcon => hs ((h.cont_iff p0 j _).mp hcon))]
      exact hs

theorem Detects.run_stops (h : S.Detects rho) (hc : S.c ≠ 0) (h0 : ¬S.InBox 0) (p0 : Params ℝ n m) {k : ℕ} (hk1 : 1 ≤ k)
    (hk : (S.pureIter rho p0 k).2.status ≠ .unsolved) (hmax : k ≤ S.maxiter) : Verdict (S.run (some p0)) := by
  unfold run
  simp only [Option.getD_some]
  have e := h.update_eq hc h0 p0 0
  change S.update (some p0, S.initState p0) = _ at e
  rw [e]
  have hnext := h.loop_stops hc h0 p0 hk (S.maxiter - 1) 1 hk1 (by omega)
  cases hr : S.raiseIfInfeasible (S.pureIter rho p0 (0 + 1)).2.status with
  | ok u => exact hnext
  | error e =>
    change e = _ ∨ e = _
    unfold raiseIfInfeasible at hr
    split_ifs at hr
    split at hr
    · cases hr; exact .inl rfl
    · cases hr; exact .inr rfl
    · cases hr

/-! ## The limits of the steps -/

/-- The iterates after the first update. -/
theorem Detects.seq (h : S.Detects rho) (p0 : Params ℝ n m) :
    S.Seq rho (fun k => (S.pureIter rho p0 (k + 1)).1.x)
      (fun k => S.solveLinear (S.pureIter rho p0 (k + 1)).1 rho rho (S.pureIter rho p0 (k + 1)).2)
      (fun k => (S.pureIter rho p0 (k + 1)).1.z) (fun k => (S.pureIter rho p0 (k + 1)).1.y) where
  psd := h.psd
  sig := h.sigma
  rpos := h.rhoPos
  mom := h.momentum
  mom' := h.momentum'
  box := fun k => (h.good p0 k).box
  upper := fun k => (h.good p0 k).upper
  lower := fun k => (h.good p0 k).lower
  lin := fun k => S.solve_eq (p := (S.pureIter rho p0 (k + 1)).1) (st := (S.pureIter rho p0 (k + 1)).2) h.exact
  xnext := fun k => rfl
  vnext := fun k => by
    have hr := h.rhoPos.ne'
    set q := (S.pureIter rho p0 (k + 1)) with hq
    have ey : (S.pureIter rho p0 (k + 1 + 1)).1.y =
        q.1.y + rho • ((q.1.z + S.momentum • (S.A.mulVec (S.solveLinear q.1 rho rho q.2) - q.1.z)) - (S.pureIter rho p0 (k + 1 + 1)).1.z) := rfl
    rw [ey]
    funext i
    simp only [Pi.add_apply, Pi.smul_apply, Pi.sub_apply, smul_eq_mul]
    field_simp
    ring

theorem infNorm_tendsto_zero {k : ℕ} {f : ℕ → Fin k → ℝ} (h : Tendsto f atTop (𝓝 0)) {ε : ℝ} (hε : 0 < ε) :
    ∀ᶠ t in atTop, infNorm (f t) ≤ ε := by
  rw [tendsto_pi_nhds] at h
  have : ∀ i, ∀ᶠ t in atTop, |f t i| ≤ ε := by
    intro i
    have h1 := (h i).abs
    simp only [Pi.zero_apply, abs_zero] at h1
    exact h1.eventually_le_const hε
  filter_upwards [eventually_all.mpr this] with t ht
  exact infNorm_le hε.le ht

theorem infNorm_eventually_ge {k : ℕ} {f : ℕ → Fin k → ℝ} {a : Fin k → ℝ} (h : Tendsto f atTop (𝓝 a)) (ha : a ≠ 0) :
    ∃ ε > 0, ∀ᶠ t in atTop, ε ≤ infNorm (f t) := by
  obtain ⟨i, hi⟩ := Function.ne_iff.mp ha
  have hpos : 0 < |a i| := abs_pos.mpr hi
  refine ⟨|a i| / 2, by positivity, ?_⟩
  filter_upwards [((tendsto_pi_nhds.mp h) i).abs.eventually_const_le (half_lt_self hpos)] with t ht
  exact ht.trans (abs_le_infNorm _ _)

variable {x : ℕ → Fin n → ℝ} {z y : ℕ → Fin m → ℝ} {dx : Fin n → ℝ} {dy : Fin m → ℝ}

/-- A nonzero limit of the steps of the multipliers is accepted by the test of primal infeasibility. -/
theorem Limits.certifPrimal (L : S.Limits rho x z y dx dy) (hal : 0 < S.momentum) (hr : 0 < rho) (ht : 0 < S.primalInfeasibleTol)
    (hne : dy ≠ 0) : ∀ᶠ k in atTop, S.certifPrimal (y (k + 1) - y k) = true := by
  obtain ⟨ε, hε, hge⟩ := infNorm_eventually_ge L.hy hne
  have hA := tendsto_mulVec S.A.transpose L.hy
  rw [L.kerA] at hA
  have hA' := infNorm_tendsto_zero hA (mul_pos ht hε)
  have hlu : Tendsto (fun k => S.certifLU (y (k + 1) - y k)) atTop (𝓝 (S.certifLU dy)) := by
    unfold certifLU
    have hy := tendsto_pi_nhds.mp L.hy
    refine (tendsto_finsetSum _ fun i _ => ?_).add (tendsto_finsetSum _ fun i _ => ?_)
    · exact (((hy i).neg.max tendsto_const_nhds).neg).const_mul _
    · exact ((hy i).max tendsto_const_nhds).const_mul _
  have hneg : S.certifLU dy < 0 := by
    rw [L.lu]
    exact div_neg_of_neg_of_pos (by linarith [dot_self_pos hne]) (mul_pos hal hr)
  filter_upwards [hge, hA', hlu.eventually_lt_const hneg] with k h1 h2 h3
  have hcrit : S.primalInfeasibleTol * ε ≤ S.primalInfeasibleTol * infNorm (y (k + 1) - y k) := mul_le_mul_of_nonneg_left h1 ht.le
  have hpos := mul_pos ht hε
  simp only [BoxOSQP.certifPrimal, Bool.and_eq_true, decide_eq_true_eq]
  exact ⟨h2.trans hcrit, by linarith⟩

/-- A nonzero limit of the steps of the primal variables is accepted by the test of dual infeasibility. -/
theorem Limits.certifDual (L : S.Limits rho x z y dx dy) (hal : 0 < S.momentum) (hr : 0 < rho) (hs : 0 < S.sigma)
    (ht : 0 < S.dualInfeasibleTol) (hne : dx ≠ 0) : ∀ᶠ k in atTop, S.certifDual (x (k + 1) - x k) = true := by
  obtain ⟨ε, hε, hge⟩ := infNorm_eventually_ge L.hx hne
  have hQ := tendsto_mulVec S.Q L.hx
  rw [L.kerQ] at hQ
  have hpos := mul_pos ht hε
  have hQ' := infNorm_tendsto_zero hQ hpos
  have hc : Tendsto (fun k => S.c ⬝ᵥ (x (k + 1) - x k)) atTop (𝓝 (S.c ⬝ᵥ dx)) := tendsto_dot tendsto_const_nhds L.hx
  have hneg : S.c ⬝ᵥ dx < 0 := by
    rw [L.lin]
    have h1 := mul_pos hs (dot_self_pos hne)
    have h2 := mul_nonneg hr.le (dot_self_nonneg (S.A.mulVec dx))
    exact div_neg_of_neg_of_pos (by linarith) hal
  have hA := tendsto_pi_nhds.mp (tendsto_mulVec S.A L.hx)
  have hlo : ∀ i, ∀ᶠ k in atTop, S.l i ≠ none → -(S.dualInfeasibleTol * ε) ≤ S.A.mulVec (x (k + 1) - x k) i := by
    intro i
    by_cases hi : S.l i = none
    · exact Eventually.of_forall fun k h => absurd hi h
    · have h1 := L.lo i hi
      filter_upwards [(hA i).eventually_const_le (by linarith : -(S.dualInfeasibleTol * ε) < S.A.mulVec dx i)] with k hk
      exact fun _ => hk
  have hup : ∀ i, ∀ᶠ k in atTop, S.u i ≠ none → S.A.mulVec (x (k + 1) - x k) i ≤ S.dualInfeasibleTol * ε := by
    intro i
    by_cases hi : S.u i = none
    · exact Eventually.of_forall fun k h => absurd hi h
    · have h1 := L.up i hi
      filter_upwards [(hA i).eventually_le_const (by linarith : S.A.mulVec dx i < S.dualInfeasibleTol * ε)] with k hk
      exact fun _ => hk
  filter_upwards [hge, hQ', hc.eventually_lt_const hneg, eventually_all.mpr hlo, eventually_all.mpr hup] with k h1 h2 h3 h4 h5
  have hcrit : S.dualInfeasibleTol * ε ≤ S.dualInfeasibleTol * infNorm (x (k + 1) - x k) := mul_le_mul_of_nonneg_left h1 ht.le
  rw [certifDual_iff]
  exact ⟨h2.trans hcrit, by linarith, fun i => ⟨fun hi => by linarith [h4 i hi], fun hi => (h5 i hi).trans hcrit⟩⟩

/-! ## Zero limits -/

/-- The inequalities of `l ≤ Ax ≤ u`. -/
noncomputable def primalSystem (S : BoxOSQP ℝ n m) : List (Elimination.Ineq n) :=
  (List.finRange m).flatMap fun i =>
    (match S.u i with | some b => [(fun j => S.A i j, b, (1 : ℝ))] | none => []) ++
    (match S.l i with | some a => [(fun j => -S.A i j, -a, (1 : ℝ))] | none => [])

theorem mem_primalSystem (S : BoxOSQP ℝ n m) (t : Elimination.Ineq n) : t ∈ S.primalSystem ↔
    ∃ i, (∃ b, S.u i = some b ∧ t = (fun j => S.A i j, b, 1)) ∨ ∃ a, S.l i = some a ∧ t = (fun j => -S.A i j, -a, 1) := by
  simp only [primalSystem, List.mem_flatMap, List.mem_finRange, true_and, List.mem_append]
  refine exists_congr fun i => or_congr ?_ ?_
  · cases hu : S.u i <;> simp [hu]
  · cases hl : S.l i <;> simp [hl]

/-- If points come arbitrarily close to the bounds then there is a feasible point. -/
theorem feasible_of_approx (S : BoxOSQP ℝ n m) (hz : ∀ k, S.InBox (z k)) (h : Tendsto (fun k => S.primalRes (x k) (z k)) atTop (𝓝 0)) :
    ∃ x, S.Feasible x := by
  obtain ⟨x', hx'⟩ := Elimination.exact_of_approx S.primalSystem (by
      intro t ht
      obtain ⟨i, ⟨b, -, rfl⟩ | ⟨a, -, rfl⟩⟩ := (S.mem_primalSystem t).mp ht <;> exact zero_le_one) (by
      intro ε hε
      obtain ⟨k, hk⟩ := (infNorm_tendsto_zero h hε).exists
      have hab : ∀ i, |S.A.mulVec (x k) i - z k i| ≤ ε := fun i => (abs_le_infNorm (S.primalRes (x k) (z k)) i).trans hk
      refine ⟨x k, fun t ht => ?_⟩
      obtain ⟨i, ⟨b, hb, rfl⟩ | ⟨a, ha, rfl⟩⟩ := (S.mem_primalSystem t).mp ht
      · have h1 := (hz k i).2 b hb
        have h2 := (abs_le.mp (hab i)).2
        change S.A.mulVec (x k) i ≤ b + ε * 1
        linarith
      · have h1 := (hz k i).1 a ha
        have h2 := (abs_le.mp (hab i)).1
        have e : (fun j => -S.A i j) ⬝ᵥ x k = -S.A.mulVec (x k) i := by
          simp [Matrix.mulVec, dotProduct, Finset.sum_neg_distrib]
        change (fun j => -S.A i j) ⬝ᵥ x k ≤ -a + ε * 1
        rw [e]; linarith)
  refine ⟨x', fun i => ⟨fun a ha => ?_, fun b hb => ?_⟩⟩
  · have h1 := hx' _ ((S.mem_primalSystem _).mpr ⟨i, .inr ⟨a, ha, rfl⟩⟩)
    have e : (fun j => -S.A i j) ⬝ᵥ x' = -S.A.mulVec x' i := by
      simp [Matrix.mulVec, dotProduct, Finset.sum_neg_distrib]
    simp only [e] at h1
    linarith
  · exact hx' _ ((S.mem_primalSystem _).mpr ⟨i, .inl ⟨b, hb, rfl⟩⟩)

/-- Row `j` of `[Q Aᵀ]`. -/
def dualRow (S : BoxOSQP ℝ n m) (j : Fin n) : Fin (n + m) → ℝ := Fin.append (fun t => S.Q j t) (fun i => S.A i j)

/-- The unit vector of multiplier `i`. -/
def dualUnit (i : Fin m) : Fin (n + m) → ℝ := Fin.append (fun _ => 0) (fun t => if t = i then 1 else 0)

theorem dualRow_dot (S : BoxOSQP ℝ n m) (j : Fin n) (x : Fin n → ℝ) (y : Fin m → ℝ) :
    S.dualRow j ⬝ᵥ Fin.append x y = S.Q.mulVec x j + S.A.transpose.mulVec y j := by
  unfold dualRow dotProduct
  rw [Fin.sum_univ_add]
  simp only [Fin.append_left, Fin.append_right]
  rfl

theorem dualUnit_dot (i : Fin m) (x : Fin n → ℝ) (y : Fin m → ℝ) : (dualUnit i : Fin (n + m) → ℝ) ⬝ᵥ Fin.append x y = y i := by
  unfold dualUnit dotProduct
  rw [Fin.sum_univ_add]
  simp

/-- The inequalities of the dual program. -/
noncomputable def dualSystem (S : BoxOSQP ℝ n m) : List (Elimination.Ineq (n + m)) :=
  ((List.finRange n).map fun j => (S.dualRow j, -S.c j, (1 : ℝ))) ++ ((List.finRange n).map fun j => (-S.dualRow j, S.c j, (1 : ℝ))) ++
  ((List.finRange m).flatMap fun i =>
    (match S.u i with | none => [((dualUnit i : Fin (n + m) → ℝ), (0 : ℝ), (1 : ℝ))] | some _ => []) ++
    (match S.l i with | none => [(-(dualUnit i : Fin (n + m) → ℝ), (0 : ℝ), (1 : ℝ))] | some _ => []))

theorem mem_dualSystem (S : BoxOSQP ℝ n m) (t : Elimination.Ineq (n + m)) : t ∈ S.dualSystem ↔
    (∃ j, t = (S.dualRow j, -S.c j, 1)) ∨ (∃ j, t = (-S.dualRow j, S.c j, 1)) ∨
    ∃ i, (S.u i = none ∧ t = (dualUnit i, 0, 1)) ∨ (S.l i = none ∧ t = (-dualUnit i, 0, 1)) := by
  simp only [dualSystem, List.mem_append, List.mem_map, List.mem_flatMap, List.mem_finRange, true_and, or_assoc]
  refine or_congr (exists_congr fun j => eq_comm) (or_congr (exists_congr fun j => eq_comm) (exists_congr fun i => or_congr ?_ ?_))
  · cases hu : S.u i <;> simp [hu]
  · cases hl : S.l i <;> simp [hl]

/-- If the dual residuals tend to zero then the dual program is feasible. -/
theorem dualFeasible_of_approx (S : BoxOSQP ℝ n m) (hup : ∀ k i, S.u i = none → y k i ≤ 0) (hlo : ∀ k i, S.l i = none → 0 ≤ y k i)
    (h : Tendsto (fun k => S.dualRes (x k) (y k)) atTop (𝓝 0)) : S.DualFeasible := by
  obtain ⟨w, hw⟩ := Elimination.exact_of_approx S.dualSystem (by
      intro t ht
      obtain ⟨j, rfl⟩ | ⟨j, rfl⟩ | ⟨i, ⟨-, rfl⟩ | ⟨-, rfl⟩⟩ := (S.mem_dualSystem t).mp ht <;> exact zero_le_one) (by
      intro ε hε
      obtain ⟨k, hk⟩ := (infNorm_tendsto_zero h hε).exists
      have hab : ∀ j, |S.Q.mulVec (x k) j + S.c j + S.A.transpose.mulVec (y k) j| ≤ ε :=
        fun j => (abs_le_infNorm (S.dualRes (x k) (y k)) j).trans hk
      refine ⟨Fin.append (x k) (y k), fun t ht => ?_⟩
      obtain ⟨j, rfl⟩ | ⟨j, rfl⟩ | ⟨i, ⟨hi, rfl⟩ | ⟨hi, rfl⟩⟩ := (S.mem_dualSystem t).mp ht
      · have := (abs_le.mp (hab j)).2
        simp only [dualRow_dot]; linarith
      · have := (abs_le.mp (hab j)).1
        simp only [neg_dotProduct, dualRow_dot]; linarith
      · have := hup k i hi
        simp only [dualUnit_dot]; linarith
      · have := hlo k i hi
        simp only [neg_dotProduct, dualUnit_dot]; linarith)
  obtain ⟨x', y', rfl⟩ : ∃ (x' : Fin n → ℝ) (y' : Fin m → ℝ), w = Fin.append x' y' :=
    ⟨fun j => w (Fin.castAdd m j), fun i => w (Fin.natAdd n i), by
      funext t
      refine Fin.addCases (fun j => ?_) (fun i => ?_) t
      · rw [Fin.append_left]
      · rw [Fin.append_right]⟩
  refine ⟨x', y', ?_, fun i hi => ?_, fun i hi => ?_⟩
  · funext j
    have h1 := hw _ ((S.mem_dualSystem _).mpr (.inl ⟨j, rfl⟩))
    have h2 := hw _ ((S.mem_dualSystem _).mpr (.inr (.inl ⟨j, rfl⟩)))
    simp only [neg_dotProduct, dualRow_dot] at h1 h2
    simp only [Pi.add_apply, Pi.zero_apply]
    linarith
  · have h1 := hw _ ((S.mem_dualSystem _).mpr (.inr (.inr ⟨i, .inl ⟨hi, rfl⟩⟩)))
    simp only [dualUnit_dot] at h1
    exact h1
  · have h1 := hw _ ((S.mem_dualSystem _).mpr (.inr (.inr ⟨i, .inr ⟨hi, rfl⟩⟩)))
    simp only [neg_dotProduct, dualUnit_dot] at h1
    linarith

/-- `max_iter` has no part in the iterates. -/
theorem pureIter_maxiter (S : BoxOSQP ℝ n m) (rho : ℝ) (p0 : Params ℝ n m) (mi k : ℕ) :
    ({ S with maxiter := mi } : BoxOSQP ℝ n m).pureIter rho p0 k = S.pureIter rho p0 k := by
  induction k with
  | zero => rfl
  | succ k ih =>
    change ({ S with maxiter := mi } : BoxOSQP ℝ n m).pureStep rho (({ S with maxiter := mi } : BoxOSQP ℝ n m).pureIter rho p0 k) =
      S.pureStep rho (S.pureIter rho p0 k)
    rw [ih]
    rfl

theorem Detects.maxiter (h : S.Detects rho) (mi : ℕ) : ({ S with maxiter := mi } : BoxOSQP ℝ n m).Detects rho :=
  ⟨h.psd, h.bounds, h.rhoPos, h.rhoStart, h.rhoMin, h.rhoMax, h.exact, h.sigma, h.momentum, h.momentum', h.tol, h.freq, h.check, h.ptol,
    h.dtol⟩

/-! ## Theorems -/

/-- The states of a run are the iterates. -/
theorem C117_iterates (h : S.Detects rho) (hc : S.c ≠ 0) (h0 : ¬S.InBox 0) {p0 : Params ℝ n m}
    {r : Option (Params ℝ n m) × State ℝ n m} (hr : S.Reach p0 r) :
    ∃ k, 1 ≤ k ∧ r = (some (S.pureIter rho p0 k).1, (S.pureIter rho p0 k).2) := by
  have step : ∀ k, S.update (some (S.pureIter rho p0 k).1, (S.pureIter rho p0 k).2) = .ok r →
      r = (some (S.pureIter rho p0 (k + 1)).1, (S.pureIter rho p0 (k + 1)).2) := by
    intro k hu
    rw [h.update_eq hc h0] at hu
    cases hra : S.raiseIfInfeasible (S.pureIter rho p0 (k + 1)).2.status with
    | ok u => rw [hra] at hu; cases hu; rfl
    | error e => rw [hra] at hu; cases hu
  induction hr with
  | first hu => exact ⟨1, le_rfl, step 0 hu⟩
  | @step p r hp hcont hu ih =>
    obtain ⟨k, -, rfl⟩ := ih (fun k hu => by
      rw [h.update_eq hc h0] at hu
      cases hra : S.raiseIfInfeasible (S.pureIter rho p0 (k + 1)).2.status with
      | ok u => rw [hra] at hu; cases hu; rfl
      | error e => rw [hra] at hu; cases hu)
    exact ⟨k + 1, by omega, step k hu⟩

/-- **C117, limits of the steps**: the differences of consecutive iterates converge.  The limit `dy` of those of the multipliers is zero
exactly if the program is feasible; otherwise it is a certificate of infeasibility: `Aᵀdy = 0`, and the support function of the bounds is
negative at `dy`.  The limit `dx` of those of the variables is zero exactly if the dual program is feasible; otherwise it is a certificate of dual
infeasibility: `Q dx = 0`, `A dx` is a direction in which the bounds are unbounded, and `c·dx < 0`. -/
theorem C117_limits (h : S.Detects rho) (p0 : Params ℝ n m) : ∃ dx dy,
    Tendsto (fun k => (S.pureIter rho p0 (k + 1)).1.x - (S.pureIter rho p0 k).1.x) atTop (𝓝 dx) ∧
    Tendsto (fun k => (S.pureIter rho p0 (k + 1)).1.y - (S.pureIter rho p0 k).1.y) atTop (𝓝 dy) ∧
    (dy = 0 ↔ ∃ x, S.Feasible x) ∧ (dx = 0 ↔ S.DualFeasible) ∧
    S.A.transpose.mulVec dy = 0 ∧ (∀ i, S.u i = none → dy i ≤ 0) ∧ (∀ i, S.l i = none → 0 ≤ dy i) ∧ (dy ≠ 0 → S.certifLU dy < 0) ∧
    S.Q.mulVec dx = 0 ∧ (∀ i, S.l i ≠ none → 0 ≤ S.A.mulVec dx i) ∧ (∀ i, S.u i ≠ none → S.A.mulVec dx i ≤ 0) ∧ (dx ≠ 0 → S.c ⬝ᵥ dx < 0) ∧
    Tendsto (fun k => S.primalRes (S.pureIter rho p0 k).1.x (S.pureIter rho p0 k).1.z) atTop (𝓝 ((1 / (S.momentum * rho)) • dy)) := by
  have hseq := h.seq p0
  obtain ⟨dx, dy, L⟩ := hseq.limits
  have hlu : dy ≠ 0 → S.certifLU dy < 0 := by
    intro hne
    rw [L.lu]
    exact div_neg_of_neg_of_pos (by linarith [dot_self_pos hne]) (mul_pos h.momentum h.rhoPos)
  have hlin : dx ≠ 0 → S.c ⬝ᵥ dx < 0 := by
    intro hne
    rw [L.lin]
    have h1 := mul_pos h.sigma (dot_self_pos hne)
    have h2 := mul_nonneg h.rhoPos.le (dot_self_nonneg (S.A.mulVec dx))
    exact div_neg_of_neg_of_pos (by linarith) h.momentum
  refine ⟨dx, dy, (tendsto_add_atTop_iff_nat 1).mp L.hx, (tendsto_add_atTop_iff_nat 1).mp L.hy, ⟨fun e => ?_, fun ⟨x, hx⟩ => ?_⟩,
    ⟨fun e => ?_, fun hd => ?_⟩, L.kerA, L.yup, L.ylo, hlu, L.kerQ, L.lo, L.up, hlin, (tendsto_add_atTop_iff_nat 1).mp L.primal⟩
  · have hp := L.primal
    rw [e, smul_zero] at hp
    exact S.feasible_of_approx hseq.box hp
  · by_contra hne
    have h1 := S.certifLU_ge L.yup L.ylo hx
    rw [L.kerA] at h1
    have h2 : infNorm (0 : Fin n → ℝ) = 0 := infNorm_eq_zero.mpr rfl
    rw [h2, mul_zero, neg_zero] at h1
    linarith [hlu hne]
  · have hd := L.dual
    rw [e, Matrix.mulVec_zero, Matrix.mulVec_zero, smul_zero, smul_zero, add_zero, smul_zero] at hd
    refine S.dualFeasible_of_approx (fun k i hi => ?_) (fun k i hi => ?_) hd
    · by_contra hc
      have := hseq.upper k i (not_le.mp hc)
      rw [hi] at this; cases this
    · by_contra hc
      have := hseq.lower k i (not_le.mp hc)
      rw [hi] at this; cases this
  · by_contra hne
    obtain ⟨x, y, he, hyu, hyl⟩ := hd
    have h1 : dx ⬝ᵥ (S.Q.mulVec x + S.c + S.A.transpose.mulVec y) = 0 := by rw [he, dotProduct_zero]
    have h2 : dx ⬝ᵥ S.Q.mulVec x = 0 := by
      rw [Matrix.dotProduct_mulVec, ← Matrix.mulVec_transpose, h.psd.1, L.kerQ, zero_dotProduct]
    rw [dotProduct_add, dotProduct_add, h2, zero_add, Seq.dot_A, dotProduct_comm dx S.c] at h1
    have h3 : S.A.mulVec dx ⬝ᵥ y ≤ 0 := by
      refine Finset.sum_nonpos fun i _ => ?_
      rcases lt_trichotomy (S.A.mulVec dx i) 0 with hi | hi | hi
      · have hl : S.l i = none := by
          by_contra hc
          linarith [L.lo i hc]
        exact mul_nonpos_of_nonpos_of_nonneg hi.le (hyl i hl)
      · rw [hi, zero_mul]
      · have hu : S.u i = none := by
          by_contra hc
          linarith [L.up i hc]
        exact mul_nonpos_of_nonneg_of_nonpos hi.le (hyu i hu)
    linarith [hlin hne]

/-- Some test of the iterates succeeds. -/
theorem Detects.eventually (h : S.Detects rho) (p0 : Params ℝ n m) : ∃ k, 1 ≤ k ∧ (S.pureIter rho p0 k).2.status ≠ .unsolved := by
  obtain ⟨dx, dy, L⟩ := (h.seq p0).limits
  -- the test of the update from `k + 1` to `k + 2` succeeds eventually
  have hev : ∀ᶠ k in atTop, (S.checkTermination (S.primalRes (S.pureIter rho p0 (k + 2)).1.x (S.pureIter rho p0 (k + 2)).1.z)
      (S.dualRes (S.pureIter rho p0 (k + 2)).1.x (S.pureIter rho p0 (k + 2)).1.y) (S.pureIter rho p0 (k + 1)).1
      (S.pureIter rho p0 (k + 2)).1).2 ≠ .unsolved := by
    by_cases hy : dy = 0
    · by_cases hx : dx = 0
      · have hp := L.primal
        have hd := L.dual
        rw [hy, smul_zero] at hp
        rw [hx, Matrix.mulVec_zero, Matrix.mulVec_zero, smul_zero, smul_zero, add_zero, smul_zero] at hd
        have hp' := (tendsto_add_atTop_nat 1).eventually (infNorm_tendsto_zero hp h.tol)
        have hd' := (tendsto_add_atTop_nat 1).eventually (infNorm_tendsto_zero hd h.tol)
        filter_upwards [hp', hd'] with k h1 h2
        unfold checkTermination computeError
        simp only [h.check, if_true]
        rw [if_pos (max_le h1 h2)]
        split_ifs <;> simp
      · filter_upwards [L.certifDual h.momentum h.rhoPos h.sigma h.dtol hx] with k hk
        unfold checkTermination
        simp only [h.check, if_true]
        rw [if_pos hk]
        split_ifs <;> simp
    · filter_upwards [L.certifPrimal h.momentum h.rhoPos h.ptol hy] with k hk
      unfold checkTermination
      simp only [h.check, if_true]
      rw [if_pos hk]
      simp
  obtain ⟨N, hN⟩ := eventually_atTop.mp hev
  have hf := h.freq
  -- a multiple of the frequency
  obtain ⟨k, hk⟩ : ∃ k, k + 1 = S.terminationCheckFrequency * (N + 1) :=
    ⟨S.terminationCheckFrequency * (N + 1) - 1, by have : 0 < S.terminationCheckFrequency * (N + 1) := by positivity
                                                   omega⟩
  have hNk : N ≤ k := by nlinarith
  refine ⟨k + 2, by omega, ?_⟩
  have hmod : (S.pureIter rho p0 (k + 1)).2.iterNum % S.terminationCheckFrequency = 0 := by
    rw [pureIter_num, hk, Nat.mul_mod_right]
  have hst : (S.pureIter rho p0 (k + 2)).2.status =
      (S.checkTermination (S.primalRes (S.pureIter rho p0 (k + 2)).1.x (S.pureIter rho p0 (k + 2)).1.z)
      (S.dualRes (S.pureIter rho p0 (k + 2)).1.x (S.pureIter rho p0 (k + 2)).1.y) (S.pureIter rho p0 (k + 1)).1
      (S.pureIter rho p0 (k + 2)).1).2 := by
    change (S.pureStep rho (S.pureIter rho p0 (k + 1))).2.status = _
    unfold pureStep
    simp only [if_pos hmod]
    rfl
  rw [hst]
  exact hN k hNk

/-- **C117, the runs stop**: on every convex program with consistent bounds, solvable or not, a run with enough iterations raises
"Primal infeasible." or "Dual infeasible." or returns a status other than "unsolved". -/
theorem C117_stops (h : S.Detects rho) (hc : S.c ≠ 0) (h0 : ¬S.InBox 0) (init : Option (Params ℝ n m)) :
    ∃ N, ∀ maxiter ≥ N, Verdict (({ S with maxiter := maxiter } : BoxOSQP ℝ n m).run init) := by
  obtain ⟨k, hk1, hk⟩ := h.eventually (init.getD S.initParams)
  refine ⟨k, fun mi hmi => ?_⟩
  have h1 := (h.maxiter mi).run_stops hc h0 (init.getD S.initParams) hk1 (by rw [pureIter_maxiter]; exact hk) hmi
  cases init <;> exact h1

/-- **C117, infeasible programs are reported**: if no point satisfies the conditions of optimality up to `tol` then a run with enough
iterations raises one of the two exceptions or returns one of the two infeasible statuses. -/
theorem C117_infeasible (h : S.Detects rho) (hc : S.c ≠ 0) (h0 : ¬S.InBox 0) (init : Option (Params ℝ n m))
    (hno : ∀ q, S.Good q → S.tol < max (infNorm (S.primalRes q.x q.z)) (infNorm (S.dualRes q.x q.y))) :
    ∃ N, ∀ maxiter ≥ N, Reported (({ S with maxiter := maxiter } : BoxOSQP ℝ n m).run init) := by
  obtain ⟨N, hN⟩ := C117_stops h hc h0 init
  refine ⟨N, fun mi hmi => ?_⟩
  have hv := hN mi hmi
  set S' : BoxOSQP ℝ n m := { S with maxiter := mi } with hS'
  have ha : S'.Attr := ⟨h.bounds, by change 0 < S.rhoMin; rw [h.rhoMin]; exact h.rhoPos,
    by change S.rhoMin ≤ S.rhoMax; rw [h.rhoMin, h.rhoMax], by change 0 < S.rhoStart; rw [h.rhoStart]; exact h.rhoPos⟩
  cases hr : S'.run init with
  | error e => rw [hr] at hv; exact hv
  | ok r =>
    rw [hr] at hv
    change r.2.status ≠ .unsolved at hv
    change r.2.status = .primalInfeasible ∨ r.2.status = .dualInfeasible
    have hns : r.2.status ≠ .solved := by
      intro hs
      obtain ⟨q, hq, h1, h2⟩ := S'.C38_solved ha hr hs
      obtain ⟨hg, -⟩ := S'.C38_iterates ha (S'.run_reach hr) hq
      have hg' : S.Good q := ⟨hg.box, hg.split, hg.mu_nonneg, hg.phi_nonneg, hg.compl, hg.upper, hg.lower⟩
      exact absurd (hno q hg') (not_lt.mpr (max_le (infNorm_le h.tol.le h1) (infNorm_le h.tol.le h2)))
    cases hst : r.2.status with
    | unsolved => exact absurd hst hv
    | solved => exact absurd hst hns
    | dualInfeasible => exact .inr rfl
    | primalInfeasible => exact .inl rfl

/-! ## Examples -/

/-- One variable, exact linear algebra, constant stepsize. -/
noncomputable def exDetect {m : ℕ} (q c : ℝ) (A : Matrix (Fin m) (Fin 1) ℝ) (l u : Fin m → Option ℝ) : BoxOSQP ℝ 1 m where
  Q := fun _ _ => q
  c := fun _ => c
  A := A
  l := l
  u := u
  checkInfeasability := true
  sigma := 1 / 1000000
  momentum := 8 / 5
  rhoStart := 1 / 10
  rhoMin := 1 / 10
  rhoMax := 1 / 10
  stepsizeUpdatesFrequency := 10
  primalInfeasibleTol := 1 / 10000
  dualInfeasibleTol := 1 / 10000
  maxiter := 4000
  tol := 1 / 1000
  terminationCheckFrequency := 5
  jit := false
  solve := fun M b _ _ => fun i => b i / M (fun _ => 1) 0
  sqrt := Real.sqrt
  epsDiv := 1 / 8388608

theorem exDetect_detects {m : ℕ} {q : ℝ} (hq : 0 ≤ q) (c : ℝ) (A : Matrix (Fin m) (Fin 1) ℝ) (l u : Fin m → Option ℝ)
    (hb : ∀ i a b, l i = some a → u i = some b → a ≤ b) : (exDetect q c A l u).Detects (1 / 10) where
  psd := by
    refine ⟨rfl, fun v => ?_⟩
    simp only [exDetect, Matrix.mulVec, dotProduct, Finset.univ_unique, Finset.sum_singleton]
    nlinarith [mul_self_nonneg (v default)]
  bounds := hb
  rhoPos := by norm_num
  rhoStart := rfl
  rhoMin := rfl
  rhoMax := rfl
  exact := by
    intro b prev tol
    have key : ∀ v : Fin 1 → ℝ, (exDetect q c A l u).kktMat (1 / 10) v =
        fun _ => (q + 1 / 1000000 + 1 / 10 * ∑ i, A i 0 * A i 0) * v 0 := by
      intro v
      funext i
      have hi : i = 0 := Subsingleton.elim _ _
      subst hi
      simp only [kktMat, exDetect, Matrix.mulVec, dotProduct, Finset.univ_unique, Finset.sum_singleton, Pi.add_apply, Pi.smul_apply,
        smul_eq_mul, Matrix.transpose_apply, Fin.default_eq_zero]
      rw [add_mul, add_mul, mul_assoc (1 / 10 : ℝ), Finset.sum_mul]
      congr 2
      exact Finset.sum_congr rfl fun i _ => by ring
    have hpos : 0 < q + 1 / 1000000 + 1 / 10 * ∑ i, A i 0 * A i 0 := by
      have : 0 ≤ ∑ i, A i 0 * A i 0 := Finset.sum_nonneg fun i _ => mul_self_nonneg _
      linarith
    rw [key]
    funext i
    have hi : i = 0 := Subsingleton.elim _ _
    subst hi
    change _ * (b 0 / (exDetect q c A l u).kktMat (1 / 10) (fun _ => 1) 0) = b 0
    rw [key]
    simp only [mul_one]
    exact mul_div_cancel₀ _ hpos.ne'
  sigma := by norm_num [exDetect]
  momentum := by norm_num [exDetect]
  momentum' := by norm_num [exDetect]
  tol := by norm_num [exDetect]
  freq := by norm_num [exDetect]
  check := rfl
  ptol := by norm_num [exDetect]
  dtol := by norm_num [exDetect]

/-- `min ½x² + x` subject to `x ≥ 2` and `x ≤ 1`. -/
noncomputable def exInfeasible : BoxOSQP ℝ 1 2 := exDetect 1 1 (fun _ _ => 1) ![some 2, none] ![none, some 1]

/-- The run on `x ≥ 2`, `x ≤ 1` raises. -/
example : ∃ N, ∀ maxiter ≥ N, Reported (({ exInfeasible with maxiter := maxiter } : BoxOSQP ℝ 1 2).run none) := by
  refine C117_infeasible (S := exInfeasible) (rho := 1 / 10) (exDetect_detects zero_le_one _ _ _ _ ?_) ?_ ?_ none ?_
  · intro i a b ha hb
    fin_cases i
    · simp at hb
    · simp at ha
  · intro hc
    have := congrFun hc 0
    simp [exInfeasible, exDetect] at this
  · intro h
    have := (h 0).1 2 rfl
    norm_num at this
  · intro q hq
    refine lt_of_lt_of_le ?_ (le_max_left _ _)
    have h1 := (hq.box 0).1 2 rfl
    have h2 := (hq.box 1).2 1 rfl
    have e : ∀ i, exInfeasible.primalRes q.x q.z i = q.x 0 - q.z i := by
      intro i
      simp [primalRes, exInfeasible, exDetect, Matrix.mulVec, dotProduct]
    have h3 := abs_le_infNorm (exInfeasible.primalRes q.x q.z) 0
    have h4 := abs_le_infNorm (exInfeasible.primalRes q.x q.z) 1
    rw [e] at h3 h4
    have h5 := (abs_le.mp h3).1
    have h6 := (abs_le.mp h4).2
    have : exInfeasible.tol = 1 / 1000 := rfl
    rw [this]
    linarith

/-- `min x` subject to `x ≤ -1` is unbounded: the limit of the steps is a direction of descent. -/
example : ∃ dx : Fin 1 → ℝ, dx 0 < 0 ∧
    Tendsto (fun k => ((exDetect 0 1 (fun _ _ => 1) ![none] ![some (-1)]).pureIter (1 / 10)
        (exDetect 0 1 (fun _ _ => 1) ![none] ![some (-1)]).initParams (k + 1)).1.x -
      ((exDetect 0 1 (fun _ _ => 1) ![none] ![some (-1)]).pureIter (1 / 10)
        (exDetect 0 1 (fun _ _ => 1) ![none] ![some (-1)]).initParams k).1.x) atTop (𝓝 dx) := by
  have hd : (exDetect 0 1 (fun _ _ => 1) ![none] ![some (-1)]).Detects (1 / 10) := exDetect_detects le_rfl _ _ _ _ (by
    intro i a b ha hb; fin_cases i; simp at ha)
  obtain ⟨dx, dy, h1, -, -, h4, -, -, -, -, -, -, -, h5, -⟩ := C117_limits hd
    (exDetect 0 1 (fun _ _ => 1) ![none] ![some (-1)]).initParams
  refine ⟨dx, ?_, h1⟩
  have hne : dx ≠ 0 := by
    intro e
    obtain ⟨x, y, he, -, hyl⟩ := h4.mp e
    have h6 : 0 + 1 + 1 * y 0 = 0 := by
      have := congrFun he 0
      simpa [exDetect, Matrix.mulVec, dotProduct, Matrix.transpose] using this
    have h7 : 0 ≤ y 0 := hyl 0 rfl
    linarith
  have := h5 hne
  simpa [exDetect, dotProduct] using this

end Jaxopt.OSQP.BoxOSQP
