import Verif.OSQP.AdmmProps
import Mathlib.Algebra.Order.BigOperators.Ring.Finset

/-!
# Property C99, the positive part: `BoxOSQP` with an adaptive stepsize of bounded variation

`_update_stepsize` (osqp.py lines 517-527) changes the weights of the distance that the iterations decrease (C78).  A change from `rho` to
`rho'` multiplies the distance by at most `max (rho'/rho) (rho/rho')`; as long as the product of these factors stays bounded, the run
still ends with status SOLVED.  This is so if the stepsize is updated only once (`stepsize_updates_frequency ≥ maxiter`: iteration 0
always updates it).  Without such a bound the iterations can cycle, see `Cycle.C99_default_false`.
-/

set_option autoImplicit false
set_option linter.unusedSectionVars false
set_option linter.unusedVariables false

open Finset Matrix

namespace Jaxopt.OSQP.BoxOSQP

variable {K : Type*} [Field K] [LinearOrder K] [IsStrictOrderedRing K] {n m : ℕ}

/-! ## Specification -/

/-- The factor of a change of the stepsize. -/
def fac (a b : K) : K := max (b / a) (a / b)

/-- The total variation of the first `k` changes of a sequence of stepsizes. -/
def variation (rho : ℕ → K) (k : ℕ) : K := ∏ i ∈ range k, fac (rho i) (rho (i + 1))

/-- `rho k` is the stepsize after `k ≤ maxiter` iterations of the run from `p0`, as long as it is a number. -/
structure Stepsizes (S : BoxOSQP K n m) (p0 : Params K n m) (rho : ℕ → K) : Prop where
  pos : ∀ k, 0 < rho k
  start : rho 0 = S.rhoStart
  seq : ∀ r, S.Reach p0 r → r.2.iterNum ≤ S.maxiter → r.2.rhoBar = .fin (rho r.2.iterNum) ∨ r.2.rhoBar = .nan

/-- The assumptions of the convergence theorem. -/
structure ConvA (S : BoxOSQP K n m) (C : K) : Prop where
  psd : S.PSD
  bounds : S.BoundsOk
  rhoMin : 0 < S.rhoMin
  rhoMax : S.rhoMin ≤ S.rhoMax
  rhoStart : S.rhoMin ≤ S.rhoStart
  rhoStart' : S.rhoStart ≤ S.rhoMax
  sigma : 0 < S.sigma
  momentum : 0 < S.momentum
  momentum' : S.momentum < 2
  tol : 0 < S.tol
  freq : 0 < S.terminationCheckFrequency
  noCheck : S.checkInfeasability = false
  exact : ∀ rho, 0 < rho → S.Exact rho
  cPos : 0 < C
  const : ∀ rho, S.rhoMin ≤ rho → rho ≤ S.rhoMax → S.ResConst rho C

theorem ConvA.attr {S : BoxOSQP K n m} {C : K} (h : S.ConvA C) : S.Attr :=
  ⟨h.bounds, h.rhoMin, h.rhoMax, lt_of_lt_of_le h.rhoMin h.rhoStart⟩

/-! ## The change of the distance -/

theorem one_le_fac {a b : K} (ha : 0 < a) (hb : 0 < b) : 1 ≤ fac a b := by
  unfold fac
  rcases le_total a b with h | h
  · exact le_max_of_le_left ((one_le_div ha).mpr h)
  · exact le_max_of_le_right ((one_le_div hb).mpr h)

theorem fac_self {a : K} (ha : 0 < a) : fac a a = 1 := by
  unfold fac
  rw [div_self ha.ne', max_self]

theorem variation_pos {rho : ℕ → K} (h : ∀ k, 0 < rho k) (k : ℕ) : 0 < variation rho k :=
  Finset.prod_pos fun i _ => lt_of_lt_of_le one_pos (one_le_fac (h i) (h (i + 1)))

/-- **C99, a change of the stepsize**: it multiplies the distance to a KKT point by at most `max (rho'/rho) (rho/rho')`. -/
theorem C99_change (S : BoxOSQP K n m) (hs : 0 ≤ S.sigma) {p : Params K n m} (hp : S.Normal p.z p.y) {a b : K} (ha : 0 < a) (hb : 0 < b)
    {x : Fin n → K} {y : Fin m → K} (hk : S.IsKkt x y) : S.dist b p x y ≤ fac a b * S.dist a p x y := by
  set X := p.x - x with hX
  set Z := p.z - S.A.mulVec x with hZ
  set Y := p.y - y with hY
  have hmono : 0 ≤ Z ⬝ᵥ Y := by
    have h1 := hp.2 _ hk.1.1
    have h2 := hk.1.2 _ hp.1
    have e : Z ⬝ᵥ Y = -((S.A.mulVec x - p.z) ⬝ᵥ p.y) - (p.z - S.A.mulVec x) ⬝ᵥ y := by
      rw [hZ, hY, dotProduct_sub, ← neg_dotProduct, neg_sub]
    rw [e]; linarith
  have hn : ∀ {k : ℕ} (v : Fin k → K), 0 ≤ v ⬝ᵥ v := fun v => Finset.sum_nonneg fun i _ => mul_self_nonneg _
  have e : ∀ r : K, 0 < r → S.dist r p x y = S.sigma * (X ⬝ᵥ X) + r * (Z ⬝ᵥ Z) + 2 * (Z ⬝ᵥ Y) + (Y ⬝ᵥ Y) / r := by
    intro r hr
    unfold dist
    rw [← hX, ← hZ, ← hY]
    simp only [add_dotProduct, dotProduct_add, smul_dotProduct, dotProduct_smul, smul_eq_mul, dotProduct_comm Y Z]
    field_simp
    ring
  rw [e a ha, e b hb]
  have f1 : 1 ≤ fac a b := one_le_fac ha hb
  have f2 : b / a ≤ fac a b := le_max_left _ _
  have f3 : a / b ≤ fac a b := le_max_right _ _
  have g1 : S.sigma * (X ⬝ᵥ X) ≤ fac a b * (S.sigma * (X ⬝ᵥ X)) := le_mul_of_one_le_left (mul_nonneg hs (hn X)) f1
  have g2 : 2 * (Z ⬝ᵥ Y) ≤ fac a b * (2 * (Z ⬝ᵥ Y)) := le_mul_of_one_le_left (by linarith) f1
  have g3 : b * (Z ⬝ᵥ Z) ≤ fac a b * (a * (Z ⬝ᵥ Z)) := by
    have := mul_le_mul_of_nonneg_right f2 (mul_nonneg ha.le (hn Z))
    have e1 : b / a * (a * (Z ⬝ᵥ Z)) = b * (Z ⬝ᵥ Z) := by field_simp
    rw [e1] at this; exact this
  have g4 : (Y ⬝ᵥ Y) / b ≤ fac a b * ((Y ⬝ᵥ Y) / a) := by
    have := mul_le_mul_of_nonneg_right f3 (div_nonneg (hn Y) ha.le)
    have e1 : a / b * ((Y ⬝ᵥ Y) / a) = (Y ⬝ᵥ Y) / b := by field_simp
    rw [e1] at this; exact this
  linarith

/-! ## Runs -/

/-- What holds of a state of a run that is neither solved nor NaN. -/
def RunningA (S : BoxOSQP K n m) (C d0 V : K) (rho : ℕ → K) (x : Fin n → K) (y : Fin m → K) (r : Option (Params K n m) × State K n m) :
    Prop :=
  1 ≤ r.2.iterNum ∧ S.cont r = true ∧ ∃ q, r.1 = some q ∧ r.2.rhoBar = .fin (rho r.2.iterNum) ∧
    r.2.solverRho = .fin (rho r.2.iterNum) ∧ S.rhoMin ≤ rho r.2.iterNum ∧ rho r.2.iterNum ≤ S.rhoMax ∧ S.Normal q.z q.y ∧
    S.dist (rho r.2.iterNum) q x y ≤
      variation rho r.2.iterNum * (d0 - S.gain C / V * (failedTests S.terminationCheckFrequency r.2.iterNum : ℕ)) ∧
    ((r.2.iterNum - 1) % S.terminationCheckFrequency = 0 →
      S.tol < max (infNorm (S.primalRes q.x q.z)) (infNorm (S.dualRes q.x q.y)))

theorem runningA_step (S : BoxOSQP K n m) {C d0 V : K} (hS : S.ConvA C) {x : Fin n → K} {y : Fin m → K} (hk : S.IsKkt x y)
    {rho : ℕ → K} (hpos : ∀ k, 0 < rho k) {q : Params K n m} {st : State K n m} {r : Option (Params K n m) × State K n m}
    (hst : st.rhoBar = .fin (rho st.iterNum)) (hst' : st.solverRho = .fin (rho st.iterNum))
    (hr1 : S.rhoMin ≤ rho st.iterNum) (hr2 : rho st.iterNum ≤ S.rhoMax)
    (hV : 0 < V) (hvar : variation rho st.iterNum ≤ V)
    (hn : S.Normal q.z q.y) (hu : S.update (some q, st) = .ok r)
    (hnext : r.2.rhoBar = .fin (rho r.2.iterNum) ∨ r.2.rhoBar = .nan)
    (hcont : st.iterNum % S.terminationCheckFrequency ≠ 0 → S.cont (some q, st) = true)
    (hd : S.dist (rho st.iterNum) q x y ≤
      variation rho st.iterNum * (d0 - S.gain C / V * (failedTests S.terminationCheckFrequency st.iterNum : ℕ)))
    (hres : 1 ≤ st.iterNum → (st.iterNum - 1) % S.terminationCheckFrequency = 0 →
      S.tol < max (infNorm (S.primalRes q.x q.z)) (infNorm (S.dualRes q.x q.y))) :
    r.2.rhoBar = .nan ∨ r.2.status = .solved ∨ S.RunningA C d0 V rho x y r := by
  have hiter := S.update_iter hu
  simp only [update, hst, hst'] at hu
  obtain ⟨e1, -, -, -, -, e6, e7, e8, e9⟩ := S.updateFin_ok hu
  set a := S.admmStep q (rho st.iterNum) (rho st.iterNum) st with ha
  by_cases hnan : r.2.rhoBar = .nan
  · exact Or.inl hnan
  right
  have hfin := hnext.resolve_right hnan
  have hsolver : r.2.solverRho = .fin (rho r.2.iterNum) := by
    by_cases h0 : st.iterNum % S.stepsizeUpdatesFrequency = 0
    · rw [(e6 h0).2]; exact hfin
    · rw [(e7 h0).2, ← (e7 h0).1]; exact hfin
  have hrange : S.rhoMin ≤ rho r.2.iterNum ∧ rho r.2.iterNum ≤ S.rhoMax := by
    by_cases h0 : st.iterNum % S.stepsizeUpdatesFrequency = 0
    · exact S.updateStepsize_mem hS.rhoMax ((e6 h0).1.symm.trans hfin)
    · have := (e7 h0).1.symm.trans hfin
      simp only [Ext.fin.injEq] at this
      rw [← this]; exact ⟨hr1, hr2⟩
  by_cases hsol : r.2.status = .solved
  · exact Or.inl hsol
  right
  have hgood := S.admm_good hS.bounds q (hpos st.iterNum) (rho st.iterNum) st
  have hstep := S.C78_step hS.psd hn (hpos st.iterNum) (st := st) (hS.exact _ (hpos _)) hS.momentum.le hk
  simp only [← ha] at hgood hstep
  change S.dist (rho st.iterNum) (fullKKT a.1 a.2.1 a.2.2.1) x y ≤ S.dist (rho st.iterNum) q x y - S.momentum * (2 - S.momentum) *
    S.progress (rho st.iterNum) q (S.solveLinear q (rho st.iterNum) (rho st.iterNum) st) at hstep
  have hmm : 0 < S.momentum * (2 - S.momentum) := mul_pos hS.momentum (by linarith [hS.momentum'])
  have hprog := S.progress_nonneg (hpos st.iterNum) hS.sigma q (S.solveLinear q (rho st.iterNum) (rho st.iterNum) st)
  have hnormal := S.good_isNormal hgood
  refine ⟨by omega, ?_, _, e1, hfin, hsolver, hrange.1, hrange.2, hnormal, ?_, ?_⟩
  · by_cases h0 : st.iterNum % S.terminationCheckFrequency = 0
    · obtain ⟨f1, f2⟩ := e8 h0
      rw [f2] at hsol
      simp only [checkTermination, hS.noCheck, computeError] at hsol f1
      simp only [cont, f1]
      refine decide_eq_true ?_
      by_contra hcon
      exact hsol (if_pos (not_lt.mp hcon))
    · have := hcont h0
      simp only [cont, (e9 h0).1] at this ⊢
      exact this
  · rw [hiter]
    have hvp := variation_pos hpos st.iterNum
    have hfac : 0 ≤ fac (rho st.iterNum) (rho (st.iterNum + 1)) :=
      zero_le_one.trans (one_le_fac (hpos _) (hpos _))
    have hchange := S.C99_change hS.sigma.le hnormal (hpos st.iterNum) (hpos (st.iterNum + 1)) hk
    have hg : 0 < S.gain C := by
      unfold gain
      exact mul_pos hmm (div_pos (pow_pos hS.tol 2) hS.cPos)
    have hgv : variation rho st.iterNum * (S.gain C / V) ≤ S.gain C := by
      have := mul_le_mul_of_nonneg_right hvar (div_pos hg hV).le
      rwa [mul_div_cancel₀ _ hV.ne'] at this
    have key : S.dist (rho st.iterNum) (fullKKT a.1 a.2.1 a.2.2.1) x y ≤
        variation rho st.iterNum * (d0 - S.gain C / V * (failedTests S.terminationCheckFrequency (st.iterNum + 1) : ℕ)) := by
      rcases Nat.eq_zero_or_pos st.iterNum with h0 | h0
      · rw [h0] at hd hstep ⊢
        have e : ∀ k ≤ 1, failedTests S.terminationCheckFrequency k = 0 := by
          intro k hk
          have := hS.freq
          exact Nat.div_eq_of_lt (by omega)
        rw [e 0 (by omega)] at hd
        rw [e (0 + 1) (by omega)]
        rw [h0] at hprog
        linarith [mul_nonneg hmm.le hprog]
      · rw [failedTests_succ hS.freq h0]
        by_cases h1 : (st.iterNum - 1) % S.terminationCheckFrequency = 0
        · rw [if_pos h1]
          have hbig : S.tol ^ 2 / C < S.progress (rho st.iterNum) q (S.solveLinear q (rho st.iterNum) (rho st.iterNum) st) := by
            by_contra hcon
            have := S.small_progress (hpos st.iterNum) hS.sigma (st := st) (hS.exact _ (hpos _)) (hS.const _ hr1 hr2) hS.tol.le
              (by rw [not_lt, le_div_iff₀ hS.cPos] at hcon; rw [mul_comm]; exact hcon)
            exact absurd (hres h0 h1) (not_lt.mpr this)
          have h2 := mul_lt_mul_of_pos_left hbig hmm
          change S.gain C < _ at h2
          push_cast
          have e : variation rho st.iterNum * (d0 - S.gain C / V * ((failedTests S.terminationCheckFrequency st.iterNum : ℕ) + 1)) =
              variation rho st.iterNum * (d0 - S.gain C / V * (failedTests S.terminationCheckFrequency st.iterNum : ℕ)) -
              variation rho st.iterNum * (S.gain C / V) := by ring
          rw [e]
          linarith
        · rw [if_neg h1, Nat.add_zero]
          linarith [mul_nonneg hmm.le hprog]
    have hmul := mul_le_mul_of_nonneg_left key hfac
    have e : variation rho (st.iterNum + 1) = fac (rho st.iterNum) (rho (st.iterNum + 1)) * variation rho st.iterNum := by
      unfold variation; rw [Finset.prod_range_succ, mul_comm]
    change S.dist (rho (st.iterNum + 1)) _ x y ≤ _ * (d0 - S.gain C / V * (failedTests S.terminationCheckFrequency (st.iterNum + 1) : ℕ))
    rw [e, mul_assoc]
    exact hchange.trans hmul
  · intro h1
    rw [hiter] at h1
    have h0 : st.iterNum % S.terminationCheckFrequency = 0 := by simpa using h1
    obtain ⟨f1, f2⟩ := e8 h0
    rw [f2] at hsol
    simp only [checkTermination, hS.noCheck, computeError] at hsol
    by_contra hcon
    exact hsol (if_pos (not_lt.mp hcon))

theorem reach_runningA (S : BoxOSQP K n m) {C V : K} (hS : S.ConvA C) {x : Fin n → K} {y : Fin m → K} (hk : S.IsKkt x y)
    {p0 : Params K n m} (hn : S.Normal p0.z p0.y) {rho : ℕ → K} (hrho : S.Stepsizes p0 rho)
    (hV : ∀ k ≤ S.maxiter, variation rho k ≤ V)
    {r : Option (Params K n m) × State K n m} (h : S.Reach p0 r) (hle : r.2.iterNum ≤ S.maxiter) :
    r.2.rhoBar = .nan ∨ r.2.status = .solved ∨ S.RunningA C (S.dist S.rhoStart p0 x y) V rho x y r := by
  have hV0 : 0 < V := lt_of_lt_of_le (variation_pos hrho.pos 0) (hV 0 (Nat.zero_le _))
  induction h with
  | first hu =>
    have hr := hrho.seq _ (Reach.first hu) hle
    refine S.runningA_step hS hk hrho.pos ?_ ?_ ?_ ?_ hV0 (hV _ (Nat.zero_le _)) hn hu hr (fun _ => rfl) ?_ (fun h => absurd h (by simp [initState]))
    · simp only [initState, hrho.start]
    · simp only [initState, hrho.start]
    · simp only [initState, hrho.start]; exact hS.rhoStart
    · simp only [initState, hrho.start]; exact hS.rhoStart'
    · have : failedTests S.terminationCheckFrequency (S.initState p0).iterNum = 0 := by
        have := hS.freq
        exact Nat.div_eq_of_lt (by simp only [initState]; omega)
      rw [this]
      simp [initState, hrho.start, variation]
  | @step p r hr hc hu ih =>
    have hnext := hrho.seq _ (Reach.step hr hc hu) hle
    have hple : p.2.iterNum ≤ S.maxiter := by
      have := S.update_iter hu
      omega
    rcases ih hple with h1 | h1 | ⟨h1, h2, q, h3, h4, h5, h5a, h5b, h6, h7, h8⟩
    · exact Or.inl (S.nan_stays h1 hu)
    · have := (S.reach_solved _ hr h1).1
      rw [hc] at this; cases this
    · obtain ⟨p1, p2⟩ := p
      simp only at h3
      subst h3
      exact S.runningA_step hS hk hrho.pos h4 h5 h5a h5b hV0 (hV _ hple) h6 hu hnext (fun _ => hc) h7 (fun _ => h8)

theorem loop_le (S : BoxOSQP K n m) (k : ℕ) {p r : Option (Params K n m) × State K n m} (h : S.loop k p = .ok r) :
    r.2.iterNum ≤ p.2.iterNum + k := by
  induction k generalizing p with
  | zero => cases h; exact le_rfl
  | succ k ih =>
    unfold loop at h
    by_cases hc : S.cont p = true
    · rw [if_pos hc] at h
      cases hu : S.update p with
      | error e => rw [hu] at h; cases h
      | ok q =>
        rw [hu] at h
        have h1 := ih h
        have h2 := S.update_iter hu
        omega
    · rw [if_neg hc] at h; cases h; omega

theorem run_le (S : BoxOSQP K n m) {init : Option (Params K n m)} {r : Option (Params K n m) × State K n m} (hmax : 1 ≤ S.maxiter)
    (h : S.run init = .ok r) : r.2.iterNum ≤ S.maxiter := by
  unfold run at h
  simp only at h
  cases hu : S.update (some (init.getD S.initParams), S.initState (init.getD S.initParams)) with
  | error e => rw [hu] at h; cases h
  | ok q =>
    rw [hu] at h
    have h1 := S.loop_le _ h
    have h2 := S.update_iter hu
    have h3 : (S.initState (init.getD S.initParams)).iterNum = 0 := rfl
    simp only [h3] at h2
    omega

/-- **C99, bounded variation**: under the assumptions of C78, but with stepsizes that change, if the product of the factors
`max (rho'/rho) (rho/rho')` of all changes stays below `V` and `maxiter` is so large that
`d·V·C < momentum (2 - momentum) tol² · (number of tests)`, then the run reports SOLVED — unless the stepsize became NaN. -/
theorem C99_bounded_variation_partial (S : BoxOSQP K n m) {C V : K} (hS : S.ConvA C) {x : Fin n → K} {y : Fin m → K} (hk : S.IsKkt x y)
    {p0 : Params K n m} (hn : S.Normal p0.z p0.y) {rho : ℕ → K} (hrho : S.Stepsizes p0 rho)
    (hV : ∀ k ≤ S.maxiter, variation rho k ≤ V) (hmax : 1 ≤ S.maxiter)
    (hbig : S.dist S.rhoStart p0 x y * V * C < S.momentum * (2 - S.momentum) * S.tol ^ 2 *
      (((S.maxiter + S.terminationCheckFrequency - 2) / S.terminationCheckFrequency : ℕ) : K)) :
    ∃ r, S.run (some p0) = .ok r ∧ (r.2.status = .solved ∨ r.2.rhoBar = .nan) := by
  obtain ⟨⟨r, hr⟩, -⟩ := S.C39_no_check hS.noCheck (p0 := p0)
  refine ⟨r, hr, ?_⟩
  have hV0 : 0 < V := lt_of_lt_of_le (variation_pos hrho.pos 0) (hV 0 (Nat.zero_le _))
  rcases S.reach_runningA hS hk hn hrho hV (S.run_reach hr) (S.run_le hmax hr) with h | h | ⟨h1, h2, q, h3, h4, h5, h5a, h5b, h6, h7, h8⟩
  · exact Or.inr h
  · exact Or.inl h
  · exfalso
    rcases S.run_count hmax hr with hc | hc
    · rw [hc] at h2; cases h2
    · rw [hc] at h7
      have h9 := S.dist_nonneg (hrho.pos S.maxiter) hS.sigma q x y
      have h10 : 0 ≤ S.dist S.rhoStart p0 x y - S.gain C / V * (failedTests S.terminationCheckFrequency S.maxiter : ℕ) := by
        by_contra hcon
        rw [not_le] at hcon
        have := mul_neg_of_pos_of_neg (variation_pos hrho.pos S.maxiter) hcon
        linarith
      have h11 : S.gain C / V * (failedTests S.terminationCheckFrequency S.maxiter : ℕ) * (V * C) ≤ S.dist S.rhoStart p0 x y * (V * C) :=
        mul_le_mul_of_nonneg_right (by linarith) (mul_pos hV0 hS.cPos).le
      have e : S.gain C / V * (failedTests S.terminationCheckFrequency S.maxiter : ℕ) * (V * C) =
          S.momentum * (2 - S.momentum) * S.tol ^ 2 * (failedTests S.terminationCheckFrequency S.maxiter : ℕ) := by
        have := hS.cPos.ne'
        have := hV0.ne'
        unfold gain; field_simp
      rw [e, ← mul_assoc] at h11
      exact absurd hbig (not_lt.mpr h11)

/-! ## Few updates of the stepsize -/

theorem reach_pos (S : BoxOSQP K n m) {p0 : Params K n m} {r : Option (Params K n m) × State K n m} (h : S.Reach p0 r) :
    1 ≤ r.2.iterNum := by
  cases h with
  | first hu => have := S.update_iter hu; omega
  | step _ _ hu => have := S.update_iter hu; omega

/-- A run has one state after each number of iterations. -/
theorem reach_unique (S : BoxOSQP K n m) {p0 : Params K n m} {r r' : Option (Params K n m) × State K n m} (h : S.Reach p0 r)
    (h' : S.Reach p0 r') (he : r.2.iterNum = r'.2.iterNum) : r = r' := by
  induction h generalizing r' with
  | first hu =>
    have h1 := S.update_iter hu
    have h0 : (S.initState p0).iterNum = 0 := rfl
    simp only [h0] at h1
    cases h' with
    | first hu' => rw [hu] at hu'; cases hu'; rfl
    | step hp _ hu' =>
      have h2 := S.update_iter hu'
      have h3 := S.reach_pos hp
      omega
  | step hp hc hu ih =>
    have h1 := S.update_iter hu
    have h3 := S.reach_pos hp
    cases h' with
    | first hu' =>
      have h2 := S.update_iter hu'
      have h0 : (S.initState p0).iterNum = 0 := rfl
      simp only [h0] at h2
      omega
    | step hp' _ hu' =>
      have h2 := S.update_iter hu'
      have := ih hp' (by omega)
      rw [this, hu'] at hu
      cases hu; rfl

open Classical in
/-- The stepsizes of the run; after the stepsize became NaN, its last value. -/
noncomputable def rhoSeq (S : BoxOSQP K n m) (p0 : Params K n m) : ℕ → K
  | 0 => S.rhoStart
  | k + 1 => if h : ∃ t, ∃ r, S.Reach p0 r ∧ r.2.iterNum = k + 1 ∧ r.2.rhoBar = .fin t then h.choose else rhoSeq S p0 k

theorem rhoSeq_eq (S : BoxOSQP K n m) {p0 : Params K n m} {r : Option (Params K n m) × State K n m} {t : K} (h : S.Reach p0 r)
    (ht : r.2.rhoBar = .fin t) : S.rhoSeq p0 r.2.iterNum = t := by
  obtain ⟨k, hk⟩ := Nat.exists_eq_add_of_le' (S.reach_pos h)
  have hex : ∃ t, ∃ r, S.Reach p0 r ∧ r.2.iterNum = k + 1 ∧ r.2.rhoBar = .fin t := ⟨t, r, h, hk, ht⟩
  rw [hk, rhoSeq, dif_pos hex]
  obtain ⟨r', h1, h2, h3⟩ := hex.choose_spec
  have := S.reach_unique h h1 (by rw [hk, h2])
  rw [← this, ht] at h3
  simp only [Ext.fin.injEq] at h3
  exact h3.symm

theorem rhoSeq_mem (S : BoxOSQP K n m) {C : K} (hS : S.ConvA C) {p0 : Params K n m} (k : ℕ) :
    S.rhoMin ≤ S.rhoSeq p0 k ∧ S.rhoSeq p0 k ≤ S.rhoMax := by
  induction k with
  | zero => exact ⟨hS.rhoStart, hS.rhoStart'⟩
  | succ k ih =>
    rw [rhoSeq]
    split_ifs with h
    · obtain ⟨r, h1, h2, h3⟩ := h.choose_spec
      rcases (S.C38_rho_partial hS.attr h1).1 with ⟨t, ht, h4⟩ | h4
      · have := ht.symm.trans h3
        simp only [Ext.fin.injEq] at this
        rw [← this]; exact h4
      · rw [h3] at h4; cases h4
    · exact ih

theorem rhoSeq_stepsizes (S : BoxOSQP K n m) {C : K} (hS : S.ConvA C) (p0 : Params K n m) : S.Stepsizes p0 (S.rhoSeq p0) where
  pos := fun k => lt_of_lt_of_le hS.rhoMin (S.rhoSeq_mem hS k).1
  start := rfl
  seq := fun r hr _ => by
    rcases (S.C38_rho_partial hS.attr hr).1 with ⟨t, ht, -⟩ | h
    · exact Or.inl (by rw [S.rhoSeq_eq hr ht, ht])
    · exact Or.inr h

/-- Only the iterations whose number is a multiple of `stepsize_updates_frequency` change the stepsize. -/
theorem rhoSeq_same (S : BoxOSQP K n m) {p0 : Params K n m} {k : ℕ} (h0 : k % S.stepsizeUpdatesFrequency ≠ 0) :
    S.rhoSeq p0 (k + 1) = S.rhoSeq p0 k := by
  conv_lhs => rw [rhoSeq]
  split_ifs with h
  · obtain ⟨r, h1, h2, h3⟩ := h.choose_spec
    set t := h.choose
    cases h1 with
    | first hu =>
      have := S.update_iter hu
      have h4 : (S.initState p0).iterNum = 0 := rfl
      simp only [h4] at this
      have : k = 0 := by omega
      rw [this] at h0
      simp at h0
    | @step p _ hp hc hu =>
      have hit := S.update_iter hu
      have hpk : p.2.iterNum = k := by omega
      rcases S.update_cases hu with ⟨q, rho, rho', -, g2, -, g4⟩ | ⟨-, g, -, -⟩
      · obtain ⟨-, -, -, -, -, -, e7, -, -⟩ := S.updateFin_ok g4
        have := (e7 (by rw [hpk]; exact h0)).1.symm.trans h3
        simp only [Ext.fin.injEq] at this
        have ha := S.rhoSeq_eq hp g2
        rw [hpk] at ha
        rw [← this, ha]
      · rw [g] at h3; cases h3
  · rfl

theorem fac_le {a b lo hi : K} (hlo : 0 < lo) (ha : lo ≤ a) (ha' : a ≤ hi) (hb : lo ≤ b) (hb' : b ≤ hi) : fac a b ≤ hi / lo := by
  have hhi : 0 < hi := by linarith
  exact max_le (div_le_div₀ hhi.le hb' hlo ha) (div_le_div₀ hhi.le ha' hlo hb)

theorem variation_le (S : BoxOSQP K n m) {C : K} (hS : S.ConvA C) (p0 : Params K n m) (hf : 0 < S.stepsizeUpdatesFrequency) (k : ℕ) :
    variation (S.rhoSeq p0) k ≤
      (S.rhoMax / S.rhoMin) ^ ((k + S.stepsizeUpdatesFrequency - 1) / S.stepsizeUpdatesFrequency) := by
  have hpos := (S.rhoSeq_stepsizes hS p0).pos
  induction k with
  | zero =>
    rw [Nat.div_eq_of_lt (by omega)]
    simp [variation]
  | succ k ih =>
    have e : variation (S.rhoSeq p0) (k + 1) = variation (S.rhoSeq p0) k * fac (S.rhoSeq p0 k) (S.rhoSeq p0 (k + 1)) := by
      unfold variation; rw [Finset.prod_range_succ]
    have hone : 1 ≤ S.rhoMax / S.rhoMin := (one_le_div hS.rhoMin).mpr hS.rhoMax
    rw [e]
    have hk1 : k + 1 + S.stepsizeUpdatesFrequency - 1 = k + S.stepsizeUpdatesFrequency := by omega
    rw [hk1, Nat.add_div_right _ hf]
    by_cases h0 : k % S.stepsizeUpdatesFrequency = 0
    · have hd : (k + S.stepsizeUpdatesFrequency - 1) / S.stepsizeUpdatesFrequency = k / S.stepsizeUpdatesFrequency := by
        obtain ⟨c, hc⟩ := Nat.dvd_of_mod_eq_zero h0
        rw [hc, Nat.mul_div_cancel_left _ hf, Nat.add_sub_assoc hf, Nat.mul_add_div hf, Nat.div_eq_of_lt (by omega), Nat.add_zero]
      rw [hd] at ih
      rw [pow_succ]
      have m1 := S.rhoSeq_mem hS (p0 := p0) k
      have m2 := S.rhoSeq_mem hS (p0 := p0) (k + 1)
      exact mul_le_mul ih (fac_le hS.rhoMin m1.1 m1.2 m2.1 m2.2) (zero_le_one.trans (one_le_fac (hpos _) (hpos _)))
        (pow_nonneg (zero_le_one.trans hone) _)
    · rw [S.rhoSeq_same h0, fac_self (hpos k), mul_one]
      refine ih.trans (pow_le_pow_right₀ hone ?_)
      rw [← Nat.add_div_right _ hf]
      exact Nat.div_le_div_right (by omega)

/-- **C99, few updates**: with `U = ⌈maxiter / stepsize_updates_frequency⌉` updates of the stepsize, the run reports SOLVED if
`d·(rho_max/rho_min)^U·C < momentum (2 - momentum) tol² · (number of tests)` — unless the stepsize became NaN. -/
theorem C99_few_updates_partial (S : BoxOSQP K n m) {C : K} (hS : S.ConvA C) {x : Fin n → K} {y : Fin m → K} (hk : S.IsKkt x y)
    {p0 : Params K n m} (hn : S.Normal p0.z p0.y) (hf : 0 < S.stepsizeUpdatesFrequency) (hmax : 1 ≤ S.maxiter)
    (hbig : S.dist S.rhoStart p0 x y *
        (S.rhoMax / S.rhoMin) ^ ((S.maxiter + S.stepsizeUpdatesFrequency - 1) / S.stepsizeUpdatesFrequency) * C <
      S.momentum * (2 - S.momentum) * S.tol ^ 2 *
      (((S.maxiter + S.terminationCheckFrequency - 2) / S.terminationCheckFrequency : ℕ) : K)) :
    ∃ r, S.run (some p0) = .ok r ∧ (r.2.status = .solved ∨ r.2.rhoBar = .nan) := by
  refine S.C99_bounded_variation_partial hS hk hn (S.rhoSeq_stepsizes hS p0) (fun k hkm => ?_) hmax hbig
  refine (S.variation_le hS p0 hf k).trans (pow_le_pow_right₀ ((one_le_div hS.rhoMin).mpr hS.rhoMax) ?_)
  exact Nat.div_le_div_right (by omega)

/-- **C99, a single update**: if `stepsize_updates_frequency ≥ maxiter`, so that only the first iteration adapts the stepsize, `c ≠ 0` and
`0` violates the bounds, then from some number of iterations on every run (default initial parameters) reports SOLVED, with residuals of
the returned parameters at most `tol`. -/
theorem C99_single_update [Archimedean K] (S : BoxOSQP K n m) {C : K} (hS : S.ConvA C) {x : Fin n → K} {y : Fin m → K}
    (hk : S.IsKkt x y) (hc : S.c ≠ 0) (h0 : ¬S.InBox 0) :
    ∃ N, ∀ maxiter ≥ N, ∀ freq ≥ maxiter, ∃ r q,
      ({ S with maxiter := maxiter, stepsizeUpdatesFrequency := freq } : BoxOSQP K n m).run none = .ok r ∧ r.2.status = .solved ∧
      r.1 = some q ∧ (∀ i, |S.primalRes q.x q.z i| ≤ S.tol) ∧ ∀ j, |S.dualRes q.x q.y j| ≤ S.tol := by
  have hmm : 0 < S.momentum * (2 - S.momentum) * S.tol ^ 2 :=
    mul_pos (mul_pos hS.momentum (by linarith [hS.momentum'])) (pow_pos hS.tol 2)
  obtain ⟨k, hkk⟩ := Archimedean.arch
    (S.dist S.rhoStart S.initParams x y * (S.rhoMax / S.rhoMin) * C + S.momentum * (2 - S.momentum) * S.tol ^ 2) hmm
  rw [nsmul_eq_mul] at hkk
  refine ⟨S.terminationCheckFrequency * k + 2, fun maxiter hmax freq hfreq => ?_⟩
  set S' : BoxOSQP K n m := { S with maxiter := maxiter, stepsizeUpdatesFrequency := freq } with hS'
  have hconv : S'.ConvA C := ⟨hS.psd, hS.bounds, hS.rhoMin, hS.rhoMax, hS.rhoStart, hS.rhoStart', hS.sigma, hS.momentum, hS.momentum',
    hS.tol, hS.freq, hS.noCheck, hS.exact, hS.cPos, hS.const⟩
  have hle : (k : K) ≤ (((maxiter + S.terminationCheckFrequency - 2) / S.terminationCheckFrequency : ℕ) : K) := by
    have : k ≤ (maxiter + S.terminationCheckFrequency - 2) / S.terminationCheckFrequency := by
      rw [Nat.le_div_iff_mul_le hS.freq, Nat.mul_comm]; omega
    exact_mod_cast this
  have hU : (maxiter + freq - 1) / freq = 1 := by
    rw [show maxiter + freq - 1 = (maxiter - 1) + freq by omega, Nat.add_div_right _ (by omega), Nat.div_eq_of_lt (by omega)]
  have hbig : S'.dist S'.rhoStart S'.initParams x y *
        (S'.rhoMax / S'.rhoMin) ^ ((S'.maxiter + S'.stepsizeUpdatesFrequency - 1) / S'.stepsizeUpdatesFrequency) * C <
      S'.momentum * (2 - S'.momentum) * S'.tol ^ 2 *
      (((S'.maxiter + S'.terminationCheckFrequency - 2) / S'.terminationCheckFrequency : ℕ) : K) := by
    change S.dist S.rhoStart S.initParams x y * (S.rhoMax / S.rhoMin) ^ ((maxiter + freq - 1) / freq) * C <
      S.momentum * (2 - S.momentum) * S.tol ^ 2 *
      (((maxiter + S.terminationCheckFrequency - 2) / S.terminationCheckFrequency : ℕ) : K)
    rw [hU, pow_one]
    have := mul_le_mul_of_nonneg_left hle hmm.le
    linarith
  obtain ⟨r, hr, hstat⟩ := S'.C99_few_updates_partial hconv hk (S'.initParams_normal hconv.bounds) (by change 0 < freq; omega)
    (by change 1 ≤ maxiter; omega) hbig
  have hnan := S'.C78_no_nan hconv.attr hc h0 (S'.run_reach hr)
  have hsol := hstat.resolve_right hnan.1
  obtain ⟨q, hq, h1, h2⟩ := S'.C38_solved hconv.attr hr hsol
  exact ⟨r, q, hr, hsol, hq, h1, h2⟩

/-! ## Example -/

/-- `min ½x² + x` subject to `1 ≤ x`, as `exAdmm`, but with a stepsize that may vary between `1/2` and `2`. -/
def exAdapt : BoxOSQP ℚ 1 1 :=
  { exAdmm with rhoMin := 1 / 2, rhoMax := 2, solve := fun mv b _ _ => fun i => b i / mv (fun _ => 1) i }

theorem exAdapt_conv : exAdapt.ConvA 6 where
  psd := exAdmm_conv.psd
  bounds := exAdmm_conv.bounds
  rhoMin := by simp only [exAdapt]; norm_num
  rhoMax := by simp only [exAdapt]; norm_num
  rhoStart := by simp only [exAdapt, exAdmm]; norm_num
  rhoStart' := by simp only [exAdapt, exAdmm]; norm_num
  sigma := exAdmm_conv.sigma
  momentum := exAdmm_conv.momentum
  momentum' := exAdmm_conv.momentum'
  tol := exAdmm_conv.tol
  freq := exAdmm_conv.freq
  noCheck := rfl
  exact := fun rho hr b _ _ => by
    funext i
    fin_cases i
    have : (1 + (1 + rho)) ≠ 0 := by linarith
    simp [exAdapt, exAdmm, kktMat, Matrix.mulVec, dotProduct, Matrix.vecHead]
    field_simp
  cPos := by norm_num
  const := fun rho h1 h2 => by
    simp only [exAdapt] at h1 h2
    have hr : 0 < rho := by linarith
    constructor
    · intro i; fin_cases i; simp [exAdapt, exAdmm]
      have : rho⁻¹ ≤ 2 := by rw [inv_le_comm₀ hr (by norm_num)]; linarith
      linarith
    · intro i; fin_cases i; simp [exAdapt, exAdmm]; linarith

/-- Non-vacuity of `C99_single_update`: the KKT point of the example is `x = 1`, `y = -2`. -/
example : ∃ N, ∀ maxiter ≥ N, ∀ freq ≥ maxiter, ∃ r q,
    ({ exAdapt with maxiter := maxiter, stepsizeUpdatesFrequency := freq } : BoxOSQP ℚ 1 1).run none = .ok r ∧ r.2.status = .solved ∧
    r.1 = some q ∧ (∀ i, |exAdapt.primalRes q.x q.z i| ≤ 1 / 10) ∧ ∀ j, |exAdapt.dualRes q.x q.y j| ≤ 1 / 10 := by
  refine exAdapt.C99_single_update exAdapt_conv (x := ![1]) (y := ![-2]) ⟨⟨fun i => ?_, fun v hv => ?_⟩, ?_⟩ ?_ ?_
  · fin_cases i
    exact ⟨fun b hb => by simp [exAdapt, exAdmm] at hb ⊢; rw [← hb], fun b hb => by simp [exAdapt, exAdmm] at hb⟩
  · have h1 := (hv 0).1 1 rfl
    simp [exAdapt, exAdmm, Matrix.mulVec, dotProduct]
    linarith
  · funext i; fin_cases i
    simp [exAdapt, exAdmm, dualRes, Matrix.mulVec, dotProduct, Matrix.vecHead]
    norm_num
  · intro h; have := congrFun h 0; simp [exAdapt, exAdmm] at this
  · intro h; have := (h 0).1 1 rfl; simp at this; linarith

end Jaxopt.OSQP.BoxOSQP
