import Verif.QuasiNewton.LbfgsbFreeProps

/-!
# Property C120, continued: linear convergence of L-BFGS-B without bounds, and where it differs from L-BFGS
-/

set_option autoImplicit false
set_option linter.unusedSectionVars false
set_option linter.unusedVariables false

namespace Jaxopt.QuasiNewton

open Jaxopt.Base Jaxopt.LineSearch Matrix Finset

/-! ### The BFGS operator on flat vectors and on the Euclidean space -/

section
variable {n h : ℕ}

theorem pt_bfgsUpdate {H : (Fin n → ℝ) → Fin n → ℝ} {H' : EuclideanSpace ℝ (Fin n) → EuclideanSpace ℝ (Fin n)}
    (hH : ∀ v, Bfgs.pt (H v) = H' (Bfgs.pt v)) (p : (Fin n → ℝ) × (Fin n → ℝ)) (v : Fin n → ℝ) :
    Bfgs.pt (bfgsUpdate (fun u v => u ⬝ᵥ v) H p v) = bfgsUpdate (fun u v => inner ℝ u v) H' (Bfgs.pt p.1, Bfgs.pt p.2) (Bfgs.pt v) := by
  unfold bfgsUpdate
  simp only [Bfgs.inner_pt]
  by_cases hc : p.1 ⬝ᵥ p.2 = 0
  · simp only [if_pos hc]; exact hH v
  · simp only [if_neg hc]
    have e : Bfgs.pt (v - (1 / (p.1 ⬝ᵥ p.2) * (p.1 ⬝ᵥ v)) • p.2) = Bfgs.pt v - (1 / (p.1 ⬝ᵥ p.2) * (p.1 ⬝ᵥ v)) • Bfgs.pt p.2 := rfl
    have e2 := hH (v - (1 / (p.1 ⬝ᵥ p.2) * (p.1 ⬝ᵥ v)) • p.2)
    rw [e] at e2
    generalize H (v - (1 / (p.1 ⬝ᵥ p.2) * (p.1 ⬝ᵥ v)) • p.2) = u at e2 ⊢
    rw [Bfgs.inner_pt p.1 v, ← e2, Bfgs.inner_pt]
    rfl

theorem pt_bfgsInverse (γ : ℝ) (pairs : List ((Fin n → ℝ) × (Fin n → ℝ))) (v : Fin n → ℝ) :
    Bfgs.pt (bfgsInverse (fun u v => u ⬝ᵥ v) γ pairs v) =
      bfgsInverse (fun u v => inner ℝ u v) γ (pairs.map fun p => (Bfgs.pt p.1, Bfgs.pt p.2)) (Bfgs.pt v) := by
  induction pairs using List.reverseRecOn generalizing v with
  | nil => rfl
  | append_singleton l p ih =>
    simp only [bfgsInverse, List.map_append, List.foldl_append, List.map_cons, List.map_nil, List.foldl_cons, List.foldl_nil] at ih ⊢
    exact pt_bfgsUpdate ih p v

namespace Lbfgsb

/-- The objective, on the Euclidean space. -/
noncomputable def fE (S : Lbfgsb ℝ ℝ n h) (x : EuclideanSpace ℝ (Fin n)) : ℝ := S.f x.ofLp

/-- The gradient, on the Euclidean space. -/
noncomputable def gE (S : Lbfgsb ℝ ℝ n h) (x : EuclideanSpace ℝ (Fin n)) : EuclideanSpace ℝ (Fin n) := Bfgs.pt (S.grad x.ofLp)

/-- `LBFGSB` with a line search of `ls` at every iteration, the initial stepsizes of `_init_stepsize` and the default `theta`: lbfgsb.py
lines 298-309 and 465-509. -/
structure UsesArmijo (S : Lbfgsb ℝ ℝ n h) (ls : Backtracking ℝ (Fin n → ℝ)) (strategy : String) (minStep inc : ℝ) : Prop where
  runs : RunsBt ls S.runLs
  attrs : ArmijoLs ls S.f
  grad : ls.grad = S.grad
  vdot : ls.vdot = fun u v => u ⬝ᵥ v
  search : ∃ a, S.stepsize = .const a ∧ a ≤ 0
  maxStep : S.maxStepsize = ls.maxStepsize
  init : ∀ s, initStepsize strategy S.maxStepsize minStep inc s = .ok (S.initStep s)
  incr : 1 ≤ inc
  theta : S.theta = 1

theorem lsSound_of_uses {S : Lbfgsb ℝ ℝ n h} {ls : Backtracking ℝ (Fin n → ℝ)} {strategy : String} {minStep inc : ℝ}
    (hu : S.UsesArmijo ls strategy minStep inc) : S.LsSound := by
  intro s x v g d
  obtain ⟨st, hr, h1, h2, h3, h4⟩ := hu.runs s x v g d
  obtain ⟨k, hk, e1, e2, e3, e4, e5, _⟩ := C18_backtracking ls hu.attrs.tol.ge hu.attrs.maxStep.le hu.attrs.decPos hu.attrs.decLe
    hu.attrs.iters s v x g _ _ (some d) (Or.inl ⟨rfl, rfl⟩) _ st hr
  refine ⟨?_, by rw [← h3, ← h1, e5, hu.grad]⟩
  rw [h2, hu.attrs.value, h1] at e4
  exact Ext.fin.inj e4

/-- The stored pairs are pairs of the run. -/
theorem buffer_accepted {S : Lbfgsb ℝ ℝ n (h + 1)} (hl : S.LsSound) {lower upper : Fin n → Ext ℝ} {x0 : Fin n → ℝ} {k : ℕ}
    {p : (Fin n → ℝ) × LbfgsbState ℝ ℝ n (h + 1)} (hp : S.iter lower upper x0 k = some p) {q : (Fin n → ℝ) × (Fin n → ℝ)}
    (hq : q ∈ bufferPairs p.2) : q ∈ acceptedPairs S lower upper x0 k := by
  obtain ⟨h1, h2, h3, h4, h5⟩ := S.C75_history hl lower upper x0 k hp
  rw [bufferPairs_eq] at hq
  obtain ⟨i, hi, rfl⟩ := List.mem_map.mp hq
  have hi' := List.mem_range.mp hi
  have hi2 : i < h + 1 := by omega
  generalize acceptedPairs S lower upper x0 k = L at *
  have ha' : i < L.length := by omega
  let j := i + (h + 1) * ((L.length - 1 - i) / (h + 1))
  have hdm := Nat.div_add_mod (L.length - 1 - i) (h + 1)
  have hml : (L.length - 1 - i) % (h + 1) < h + 1 := Nat.mod_lt _ (Nat.succ_pos h)
  have hj : j < L.length := by simp only [j]; omega
  have hjm : j % (h + 1) = i := by simp only [j]; rw [Nat.add_mul_mod_self_left, Nat.mod_eq_of_lt hi2]
  have e := h3 ⟨i, hi2⟩ j hj hjm (by simp only [j]; omega)
  simp only [row, dif_pos hi2]
  rw [e]
  exact List.getElem_mem hj

/-- The pairs of a run on a strongly convex smooth function. -/
theorem accepted_good {S : Lbfgsb ℝ ℝ n (h + 1)} {μ L : ℝ} (hL0 : 0 < L) (hμ : 0 < μ) (hsm : LSmooth S.fE S.gE L)
    (hsc : StrongConvexWith S.fE S.gE μ) (lower upper : Fin n → Ext ℝ) (x0 : Fin n → ℝ) (k : ℕ) :
    ∀ q ∈ acceptedPairs S lower upper x0 k, GoodPair μ L (Bfgs.pt q.1, Bfgs.pt q.2) := by
  have hcx : ∀ x y, S.fE x + inner ℝ (S.gE x) (y - x) ≤ S.fE y := fun x y => by
    have := hsc x y
    have h2 : 0 ≤ μ / 2 * ‖y - x‖ ^ 2 := by positivity
    linarith
  induction k with
  | zero => intro q hq; simp [acceptedPairs] at hq
  | succ k ih =>
    intro q hq
    rw [acceptedPairs] at hq
    split at hq
    · rename_i p r _ _
      split at hq
      · rcases List.mem_append.mp hq with hq | hq
        · exact ih q hq
        · rw [List.mem_singleton.mp hq]
          exact ⟨hsc.mono (Bfgs.pt p.1) (Bfgs.pt r.1), Jaxopt.LSmooth.cocoercive hL0 hsm hcx (Bfgs.pt p.1) (Bfgs.pt r.1)⟩
      · exact ih q hq
    · exact ih q hq

/-- The scaling of a good pair. -/
theorem _root_.Jaxopt.QuasiNewton.goodPair_gamma {W : Type*} [NormedAddCommGroup W] [InnerProductSpace ℝ W] {μ L : ℝ} (hμ : 0 < μ) (hL : μ ≤ L) {s y : W}
    (hg : GoodPair μ L (s, y)) (hsy : 0 < inner ℝ s y) :
    1 / L ≤ inner ℝ s y / ‖y‖ ^ 2 ∧ inner ℝ s y / ‖y‖ ^ 2 ≤ 1 / μ := by
  have hL0 : 0 < L := lt_of_lt_of_le hμ hL
  obtain ⟨g1, g2⟩ := hg
  simp only at g1 g2
  have hy : y ≠ 0 := by rintro rfl; rw [inner_zero_right] at hsy; exact lt_irrefl _ hsy
  have hyn : 0 < ‖y‖ ^ 2 := by have := norm_pos_iff.mpr hy; positivity
  constructor
  · rw [div_le_div_iff₀ hL0 hyn]; linarith
  · rw [div_le_div_iff₀ hyn hμ]
    have hcs := abs_real_inner_le_norm s y
    rw [abs_of_pos hsy] at hcs
    set a := ‖s‖
    set b := ‖y‖
    set c := inner ℝ s y
    have ha : 0 < a := by
      by_contra hcon
      have h0 : a = 0 := le_antisymm (not_lt.mp hcon) (norm_nonneg _)
      rw [h0, zero_mul] at hcs
      linarith
    have h3 : μ * a ≤ b := by
      by_contra hcon
      rw [not_le] at hcon
      nlinarith
    have hb0 : 0 ≤ b := norm_nonneg _
    nlinarith

/-- The scaling that `LBFGSB` uses. -/
theorem theta_bounds {S : Lbfgsb ℝ ℝ n (h + 1)} (hl : S.LsSound) (ht : S.theta = 1) {μ L : ℝ} (hμ : 0 < μ) (hL : μ ≤ L)
    (hsm : LSmooth S.fE S.gE L) (hsc : StrongConvexWith S.fE S.gE μ) {lower upper : Fin n → Ext ℝ} {x0 : Fin n → ℝ} {k : ℕ}
    {p : (Fin n → ℝ) × LbfgsbState ℝ ℝ n (h + 1)} (hp : S.iter lower upper x0 k = some p) :
    1 / max 1 L ≤ 1 / p.2.theta ∧ 1 / p.2.theta ≤ max 1 (1 / μ) := by
  have hL0 : 0 < L := lt_of_lt_of_le hμ hL
  have hm1 : 0 < max 1 L := lt_of_lt_of_le one_pos (le_max_left _ _)
  have hgood := accepted_good hL0 hμ hsm hsc lower upper x0 k
  obtain ⟨-, h2, -, -, h5⟩ := S.C75_history hl lower upper x0 k hp
  have h1 : 1 / max 1 L ≤ 1 / (1 : ℝ) ∧ 1 / (1 : ℝ) ≤ max 1 (1 / μ) :=
    ⟨by rw [one_div_one, div_le_one hm1]; exact le_max_left _ _, by rw [one_div_one]; exact le_max_left _ _⟩
  rw [h5]
  cases hq : (acceptedPairs S lower upper x0 k).getLast? with
  | none => simp only; rw [ht]; exact h1
  | some q =>
    simp only
    rw [ht, mul_one]
    by_cases hu : S.useGamma = true
    · rw [if_pos hu]
      have hmem := List.mem_of_getLast? hq
      have hsy := h2 q hmem
      have hg := goodPair_gamma hμ hL (hgood q hmem) (by rw [Bfgs.inner_pt, dotProduct_comm]; exact hsy)
      rw [Bfgs.norm_pt, Bfgs.inner_pt, dotProduct_comm] at hg
      rw [one_div_div]
      exact ⟨le_trans (one_div_le_one_div_of_le hL0 (le_max_right 1 L)) hg.1, le_trans hg.2 (le_max_right _ _)⟩
    · rw [if_neg hu]; exact h1

/-- The operator that `LBFGSB` uses is bounded in terms of `μ`, `L` and the history size alone. -/
theorem run_bounds {S : Lbfgsb ℝ ℝ n (h + 1)} (hl : S.LsSound) (ht : S.theta = 1) {μ L : ℝ} (hμ : 0 < μ) (hL : μ ≤ L)
    (hsm : LSmooth S.fE S.gE L) (hsc : StrongConvexWith S.fE S.gE μ) {lower upper : Fin n → Ext ℝ} {x0 : Fin n → ℝ} {k : ℕ}
    {p : (Fin n → ℝ) × LbfgsbState ℝ ℝ n (h + 1)} (hp : S.iter lower upper x0 k = some p) (g : Fin n → ℝ) :
    inner ℝ (Bfgs.pt g) (Bfgs.pt (bfgsInverse (fun u v => u ⬝ᵥ v) (1 / p.2.theta) (bufferPairs p.2) (-g))) ≤
      -(lbfgsLower L (h + 1) * ‖Bfgs.pt g‖ ^ 2) ∧
    ‖Bfgs.pt (bfgsInverse (fun u v => u ⬝ᵥ v) (1 / p.2.theta) (bufferPairs p.2) (-g))‖ ≤ lbfgsUpper μ L (h + 1) * ‖Bfgs.pt g‖ := by
  have hL0 : 0 < L := lt_of_lt_of_le hμ hL
  have hgood := accepted_good hL0 hμ hsm hsc lower upper x0 k
  have hγ := theta_bounds hl ht hμ hL hsm hsc hp
  have hbuf : ∀ q ∈ bufferPairs p.2, GoodPair μ L (Bfgs.pt q.1, Bfgs.pt q.2) := fun q hq => hgood q (buffer_accepted hl hp hq)
  have hlen : (bufferPairs p.2).length ≤ h + 1 := by
    rw [bufferPairs_eq, List.length_map, List.length_range]
    exact min_le_right _ _
  rw [pt_bfgsInverse]
  generalize 1 / p.2.theta = γ at hγ ⊢
  generalize bufferPairs p.2 = l at hbuf hlen ⊢
  have hlen' : (l.map fun p => (Bfgs.pt p.1, Bfgs.pt p.2)).length ≤ h + 1 := by rw [List.length_map]; exact hlen
  have hgp : ∀ q ∈ l.map fun p => (Bfgs.pt p.1, Bfgs.pt p.2), GoodPair μ L q := by
    intro q hq
    obtain ⟨r, hr, rfl⟩ := List.mem_map.mp hq
    exact hbuf r hr
  generalize (l.map fun p => (Bfgs.pt p.1, Bfgs.pt p.2)) = l' at hlen' hgp ⊢
  have hb := opBounds_mono (lbfgsLower_anti hL0 hlen') (lbfgsUpper_mono hμ hL hlen') (opBounds_inverse hμ hL hγ.1 hγ.2 l' hgp)
  have e : Bfgs.pt (-g) = -Bfgs.pt g := rfl
  rw [e]
  generalize Bfgs.pt g = z
  obtain ⟨b1, b2⟩ := hb (-z)
  rw [norm_neg] at b1 b2
  rw [inner_neg_left] at b1
  exact ⟨by linarith, b2⟩

/-- One iteration: it is defined, its line search succeeds, and the decrease is proportional to the squared gradient norm. -/
theorem armijo_update {S : Lbfgsb ℝ ℝ n (h + 1)} {ls : Backtracking ℝ (Fin n → ℝ)} {strategy : String} {minStep inc : ℝ}
    (hu : S.UsesArmijo ls strategy minStep inc) (he : 0 < S.eps) (hinv : ∀ M, IsUnit M → M * S.inv M = 1)
    (hsolve : ∀ N v, IsUnit N → N *ᵥ S.solve N v = v) {μ L : ℝ} (hμ : 0 < μ) (hL : μ ≤ L)
    (hsm : LSmooth S.fE S.gE L) (hsc : StrongConvexWith S.fE S.gE μ) (hc0 : 0 < ls.c1) (hc1 : ls.c1 < 1)
    (hls : ls.maxStepsize * ls.decreaseFactor ^ (ls.maxiter - 1) ≤ lbfgsBound μ L ls.c1 (h + 1)) {x0 : Fin n → ℝ} {k : ℕ}
    {p : (Fin n → ℝ) × LbfgsbState ℝ ℝ n (h + 1)} (hp : S.iter (fun _ => .ninf) (fun _ => .pinf) x0 k = some p)
    (hv : p.2.value = S.f p.1) (hg : p.2.grad = S.grad p.1)
    (hs : min ls.maxStepsize (ls.decreaseFactor * lbfgsBound μ L ls.c1 (h + 1)) ≤ p.2.stepsize) :
    ∃ q, S.iter (fun _ => .ninf) (fun _ => .pinf) x0 (k + 1) = some q ∧ q.2.value = S.f q.1 ∧ q.2.grad = S.grad q.1 ∧
      min ls.maxStepsize (ls.decreaseFactor * lbfgsBound μ L ls.c1 (h + 1)) ≤ q.2.stepsize ∧ q.2.stepsize ≤ ls.maxStepsize ∧
      q.2.failedLinesearch = false ∧
      ls.c1 * min ls.maxStepsize (ls.decreaseFactor * lbfgsBound μ L ls.c1 (h + 1)) * lbfgsLower L (h + 1) * ‖S.gE (Bfgs.pt p.1)‖ ^ 2 ≤
        S.f p.1 - S.f q.1 := by
  have hL0 : 0 < L := lt_of_lt_of_le hμ hL
  have hh := lbfgsLower_pos hL0 (h + 1)
  have hC := lbfgsUpper_pos hμ hL (h + 1)
  have hM := hu.attrs.maxStep
  have hdf := hu.attrs.decPos
  set β := lbfgsBound μ L ls.c1 (h + 1) with hβd
  have hβ : 0 < β := by
    rw [hβd, lbfgsBound]
    have : 0 < 1 - ls.c1 := by linarith
    positivity
  set σ := min ls.maxStepsize (ls.decreaseFactor * β) with hσd
  have hσ : 0 < σ := lt_min hM (by positivity)
  have hl := lsSound_of_uses hu
  have ho := S.histOk hl (by rw [hu.theta]; exact one_pos) _ _ x0 k hp
  obtain ⟨d1, d2⟩ := run_bounds hl hu.theta hμ hL hsm hsc hp (S.grad p.1)
  have hdir := C120_direction S he hinv hsolve p.1 ho
  rw [hg] at hdir
  set d := bfgsInverse (fun u v => u ⬝ᵥ v) (1 / p.2.theta) (bufferPairs p.2) (-S.grad p.1) with hd
  set x := p.1 with hx
  have hsub : x + d - x = d := by abel
  have hinit : ∀ s, σ ≤ s → σ ≤ S.initStep s := by
    intro s hs
    have h1 := hu.init s
    unfold initStepsize at h1
    have hσM : σ ≤ S.maxStepsize := by rw [hu.maxStep]; exact min_le_left _ _
    by_cases c1 : strategy = "max"
    · rw [if_pos c1] at h1; rw [← Except.ok.inj h1]; exact hσM
    · rw [if_neg c1] at h1
      by_cases c2 : strategy = "current"
      · rw [if_pos c2] at h1; rw [← Except.ok.inj h1]; exact hs
      · rw [if_neg c2] at h1
        by_cases c3 : strategy = "increase"
        · rw [if_pos c3] at h1
          rw [← Except.ok.inj h1]
          by_cases c4 : s ≤ minStep
          · rw [if_pos c4]; exact hσM
          · rw [if_neg c4]
            have := hu.incr
            nlinarith
        · rw [if_neg c3] at h1; cases h1
  obtain ⟨a, ha, ha0⟩ := hu.search
  set o := S.runLs (S.initStep p.2.stepsize) x (S.f x) (S.grad x) d with hod
  have hstep : S.step (fun _ => .ninf) (fun _ => .pinf) x p.2 d = some o := by
    unfold step
    rw [ha]
    simp only [if_pos ha0, hv, hg]
    rw [← hod]
  obtain ⟨st, hr, e1, e2, e3, e4⟩ := hu.runs (S.initStep p.2.stepsize) x (S.f x) (S.grad x) d
  rw [← hod] at hr e1 e2 e3 e4
  have hi := hinit _ hs
  have hgE : S.gE (Bfgs.pt x) = Bfgs.pt (S.grad x) := rfl
  have hacc : ∀ s, 0 ≤ s → s ≤ β → S.f (x + s • d) ≤ S.f x + ls.c1 * s * ls.vdot (ls.grad x) d := by
    intro s hs0 hs
    rw [hu.vdot, hu.grad]
    simp only
    rw [← Bfgs.inner_pt]
    by_cases hg0 : Bfgs.pt (S.grad x) = 0
    · have hd0 : Bfgs.pt d = 0 := by
        rw [hg0, norm_zero, mul_zero] at d2
        exact norm_le_zero_iff.mp d2
      have hd00 : d = 0 := congrArg (fun z => z.ofLp) hd0
      rw [hd0, hd00]
      simp only [smul_zero, add_zero, inner_zero_right, mul_zero, le_refl]
    · have hgn : 0 < ‖Bfgs.pt (S.grad x)‖ := norm_pos_iff.mpr hg0
      have hneg : inner ℝ (Bfgs.pt (S.grad x)) (Bfgs.pt d) < 0 := by
        have : 0 < lbfgsLower L (h + 1) * ‖Bfgs.pt (S.grad x)‖ ^ 2 := by positivity
        linarith
      have hdn : 0 < ‖Bfgs.pt d‖ := by
        rw [norm_pos_iff]
        intro h0
        rw [h0, inner_zero_right] at hneg
        exact lt_irrefl _ hneg
      refine armijo_of_smooth (c1 := ls.c1) hL0 hsm (Bfgs.pt x) (Bfgs.pt d) hneg hs0 (le_trans hs ?_)
      rw [hgE, hβd, lbfgsBound, abs_of_neg hneg, div_le_div_iff₀ (by positivity) (by positivity)]
      have h1 : ‖Bfgs.pt d‖ ^ 2 ≤ (lbfgsUpper μ L (h + 1) * ‖Bfgs.pt (S.grad x)‖) ^ 2 := pow_le_pow_left₀ hdn.le d2 2
      have h2 : 0 < 1 - ls.c1 := by linarith
      have h3 : lbfgsLower L (h + 1) * ‖Bfgs.pt d‖ ^ 2 ≤ -inner ℝ (Bfgs.pt (S.grad x)) (Bfgs.pt d) * lbfgsUpper μ L (h + 1) ^ 2 := by
        calc lbfgsLower L (h + 1) * ‖Bfgs.pt d‖ ^ 2 ≤ lbfgsLower L (h + 1) * (lbfgsUpper μ L (h + 1) * ‖Bfgs.pt (S.grad x)‖) ^ 2 :=
              mul_le_mul_of_nonneg_left h1 hh.le
          _ = lbfgsLower L (h + 1) * ‖Bfgs.pt (S.grad x)‖ ^ 2 * lbfgsUpper μ L (h + 1) ^ 2 := by ring
          _ ≤ -inner ℝ (Bfgs.pt (S.grad x)) (Bfgs.pt d) * lbfgsUpper μ L (h + 1) ^ 2 :=
              mul_le_mul_of_nonneg_right (by linarith) (by positivity)
      have h4 := mul_le_mul_of_nonneg_left h3 (show 0 ≤ 2 * (1 - ls.c1) * L by positivity)
      nlinarith
  rw [← hu.grad] at hr
  obtain ⟨b1, b2, b3, b4, b5, b6, b7, b8⟩ := bt_step hu.attrs (lt_of_lt_of_le hσ hi) x d hacc hr
  have hfail : st.failed = false := by
    apply b8
    exact le_trans (mul_le_mul_of_nonneg_right (min_le_left _ _) (pow_nonneg hdf.le _)) hls
  have hσs : σ ≤ o.stepsize := by
    refine le_trans ?_ b3
    exact le_min (le_min (min_le_left _ _) hi) (min_le_right _ _)
  have hdec : ls.c1 * σ * lbfgsLower L (h + 1) * ‖S.gE (Bfgs.pt x)‖ ^ 2 ≤ S.f x - S.f o.params := by
    have h1 := b7 hfail
    rw [e1, hu.vdot, hu.grad] at h1
    simp only at h1
    rw [← Bfgs.inner_pt] at h1
    rw [hgE]
    have h2 : ls.c1 * σ * (lbfgsLower L (h + 1) * ‖Bfgs.pt (S.grad x)‖ ^ 2) ≤
        ls.c1 * o.stepsize * (lbfgsLower L (h + 1) * ‖Bfgs.pt (S.grad x)‖ ^ 2) :=
      mul_le_mul_of_nonneg_right (mul_le_mul_of_nonneg_left hσs hc0.le) (by positivity)
    have h3 : ls.c1 * o.stepsize * (lbfgsLower L (h + 1) * ‖Bfgs.pt (S.grad x)‖ ^ 2) ≤
        ls.c1 * o.stepsize * -inner ℝ (Bfgs.pt (S.grad x)) (Bfgs.pt d) :=
      mul_le_mul_of_nonneg_left (by linarith) (by positivity)
    nlinarith
  have hsound := hl (S.initStep p.2.stepsize) x (S.f x) (S.grad x) d
  rw [← hod] at hsound
  simp only [iter, hp, Option.bind_some]
  unfold update
  simp only
  rw [← hx, hdir, Option.bind_some, hsub, hstep]
  simp only [Option.map_some]
  exact ⟨_, rfl, hsound.1, hsound.2, hσs, b2, by rw [← e4]; exact hfail, hdec⟩

end Lbfgsb

/-- **C120, linear convergence.**  On a `μ`-strongly convex `L`-smooth function without bounds, `LBFGSB` with the Armijo backtracking line
search and exact linear algebra, for any history size, any of the three `linesearch_init` strategies, with or without `use_gamma`: every
iteration is defined, no line search fails and the excess over the value at any point contracts by the factor `1 - lbfgsBtRate < 1`, also
after the history buffer has wrapped around. -/
theorem C120_linear (S : Lbfgsb ℝ ℝ n (h + 1)) (ls : Backtracking ℝ (Fin n → ℝ)) (strategy : String) (minStep inc : ℝ)
    (hu : S.UsesArmijo ls strategy minStep inc) (he : 0 < S.eps) (hinv : ∀ M, IsUnit M → M * S.inv M = 1)
    (hsolve : ∀ N v, IsUnit N → N *ᵥ S.solve N v = v) (μ L : ℝ) (hμ : 0 < μ) (hL : μ ≤ L)
    (hsm : LSmooth S.fE S.gE L) (hsc : StrongConvexWith S.fE S.gE μ) (hc0 : 0 < ls.c1) (hc1 : ls.c1 < 1)
    (hls : ls.maxStepsize * ls.decreaseFactor ^ (ls.maxiter - 1) ≤ lbfgsBound μ L ls.c1 (h + 1)) (x0 : Fin n → ℝ) (k : ℕ) :
    0 < lbfgsBtRate μ L ls.c1 ls.decreaseFactor ls.maxStepsize (h + 1) ∧
    lbfgsBtRate μ L ls.c1 ls.decreaseFactor ls.maxStepsize (h + 1) ≤ 1 ∧
    ∃ p, S.iter (fun _ => .ninf) (fun _ => .pinf) x0 k = some p ∧ p.2.failedLinesearch = false ∧ p.2.value = S.f p.1 ∧
      p.2.grad = S.grad p.1 ∧ min ls.maxStepsize (ls.decreaseFactor * lbfgsBound μ L ls.c1 (h + 1)) ≤ p.2.stepsize ∧
      p.2.stepsize ≤ ls.maxStepsize ∧
      (∀ y, S.f p.1 - S.f y ≤ (1 - lbfgsBtRate μ L ls.c1 ls.decreaseFactor ls.maxStepsize (h + 1)) ^ k * (S.f x0 - S.f y)) ∧
      (∀ xs, S.grad xs = 0 → (p.1 - xs) ⬝ᵥ (p.1 - xs) ≤
        2 / μ * ((1 - lbfgsBtRate μ L ls.c1 ls.decreaseFactor ls.maxStepsize (h + 1)) ^ k * (S.f x0 - S.f xs))) := by
  have hL0 : 0 < L := lt_of_lt_of_le hμ hL
  have hh := lbfgsLower_pos hL0 (h + 1)
  have hC := lbfgsUpper_pos hμ hL (h + 1)
  have hM := hu.attrs.maxStep
  have hdf := hu.attrs.decPos
  have hβ : 0 < lbfgsBound μ L ls.c1 (h + 1) := by
    rw [lbfgsBound]
    have : 0 < 1 - ls.c1 := by linarith
    positivity
  have hσ : 0 < min ls.maxStepsize (ls.decreaseFactor * lbfgsBound μ L ls.c1 (h + 1)) := lt_min hM (by positivity)
  have hδe : lbfgsBtRate μ L ls.c1 ls.decreaseFactor ls.maxStepsize (h + 1) =
      2 * μ * (ls.c1 * min ls.maxStepsize (ls.decreaseFactor * lbfgsBound μ L ls.c1 (h + 1)) * lbfgsLower L (h + 1)) := by
    simp only [lbfgsBtRate]; ring
  set δ := lbfgsBtRate μ L ls.c1 ls.decreaseFactor ls.maxStepsize (h + 1) with hδd
  have hδ0 : 0 < δ := by rw [hδe]; positivity
  have hδ1 : δ ≤ 1 := lbfgsBtRate_le_one hμ hL hc0 hc1 hdf hu.attrs.decLe _ (h + 1)
  have main : ∃ p, S.iter (fun _ => .ninf) (fun _ => .pinf) x0 k = some p ∧ p.2.failedLinesearch = false ∧ p.2.value = S.f p.1 ∧
      p.2.grad = S.grad p.1 ∧ min ls.maxStepsize (ls.decreaseFactor * lbfgsBound μ L ls.c1 (h + 1)) ≤ p.2.stepsize ∧
      p.2.stepsize ≤ ls.maxStepsize ∧ (∀ y, S.f p.1 - S.f y ≤ (1 - δ) ^ k * (S.f x0 - S.f y)) := by
    induction k with
    | zero =>
      refine ⟨_, rfl, rfl, rfl, rfl, ?_, ?_, fun y => by simp⟩
      · change _ ≤ S.maxStepsize; rw [hu.maxStep]; exact min_le_left _ _
      · change S.maxStepsize ≤ _; rw [hu.maxStep]
    | succ k ih =>
      obtain ⟨p, p1, p2, p3, p4, p5, p6, p7⟩ := ih
      obtain ⟨q, q1, q2, q3, q4, q5, q6, q7⟩ := Lbfgsb.armijo_update hu he hinv hsolve hμ hL hsm hsc hc0 hc1 hls p1 p3 p4 p5
      refine ⟨q, q1, q6, q2, q3, q4, q5, fun y => ?_⟩
      have h2 : 2 * μ * (S.f p.1 - S.f y) ≤ ‖S.gE (Bfgs.pt p.1)‖ ^ 2 := hsc.grad_bound hμ (Bfgs.pt p.1) (Bfgs.pt y)
      have h3 := mul_le_mul_of_nonneg_left h2 (show 0 ≤ ls.c1 * min ls.maxStepsize (ls.decreaseFactor * lbfgsBound μ L ls.c1 (h + 1)) *
        lbfgsLower L (h + 1) by positivity)
      have h4 : S.f q.1 - S.f y ≤ (1 - δ) * (S.f p.1 - S.f y) := by
        rw [hδe]
        nlinarith
      have h5 := mul_le_mul_of_nonneg_left (p7 y) (show 0 ≤ 1 - δ by linarith)
      rw [pow_succ']
      linarith
  obtain ⟨p, p1, p2, p3, p4, p5, p6, p7⟩ := main
  refine ⟨hδ0, hδ1, p, p1, p2, p3, p4, p5, p6, p7, fun xs hxs => ?_⟩
  have h1 := hsc (Bfgs.pt xs) (Bfgs.pt p.1)
  have hg0 : S.gE (Bfgs.pt xs) = 0 := by
    change Bfgs.pt (S.grad xs) = 0
    rw [hxs]; rfl
  rw [hg0, inner_zero_left, add_zero] at h1
  have e : ‖Bfgs.pt p.1 - Bfgs.pt xs‖ ^ 2 = (p.1 - xs) ⬝ᵥ (p.1 - xs) := Bfgs.norm_pt (p.1 - xs)
  rw [e] at h1
  have h2 := p7 xs
  have h1' : S.f xs + μ / 2 * ((p.1 - xs) ⬝ᵥ (p.1 - xs)) ≤ S.f p.1 := h1
  rw [div_mul_eq_mul_div, le_div_iff₀ hμ]
  linarith

end

/-! ### Example for linear convergence: `‖x‖² / 2` on the plane, one memory slot -/

/-- The solver of the example, with the line search `Bfgs.exBt`. -/
noncomputable def exFree : Lbfgsb ℝ ℝ 2 1 where
  f := fun x => (x ⬝ᵥ x) / 2
  grad := fun x => x
  eps := 1 / 4503599627370496
  argsort := fun _ => Equiv.refl _
  inv := fun M => M⁻¹
  solve := fun M v => M⁻¹ *ᵥ v
  stepsize := .const 0
  maxStepsize := 1 / 2
  initStep := fun s => if s ≤ 1 / 1000000 then 1 / 2 else s * (3 / 2)
  theta := 1
  useGamma := true
  runLs := btLs Bfgs.exBt

/-- The hypotheses of `C120_linear` hold for the example, with `μ = L = 1`. -/
example : exFree.UsesArmijo Bfgs.exBt "increase" (1 / 1000000) (3 / 2) ∧ 0 < exFree.eps ∧ (∀ M, IsUnit M → M * exFree.inv M = 1) ∧
    (∀ N v, IsUnit N → N *ᵥ exFree.solve N v = v) ∧ LSmooth exFree.fE exFree.gE 1 ∧ StrongConvexWith exFree.fE exFree.gE 1 ∧
    0 < Bfgs.exBt.c1 ∧ Bfgs.exBt.c1 < 1 ∧
    Bfgs.exBt.maxStepsize * Bfgs.exBt.decreaseFactor ^ (Bfgs.exBt.maxiter - 1) ≤ lbfgsBound 1 1 Bfgs.exBt.c1 (0 + 1) := by
  have ha : ArmijoLs Bfgs.exBt exFree.f :=
    ⟨rfl, rfl, rfl, show (0 : ℝ) < 1 / 2 by norm_num, show (0 : ℝ) < 1 / 2 by norm_num, show (1 / 2 : ℝ) ≤ 1 by norm_num,
      show 1 ≤ 30 by omega⟩
  have hf : ∀ x, exFree.fE x = ‖x‖ ^ 2 / 2 := fun x => by
    show (x.ofLp ⬝ᵥ x.ofLp) / 2 = _
    rw [← Bfgs.norm_pt]
  have hgE : ∀ x, exFree.gE x = x := fun x => rfl
  have hmul : ∀ M : Matrix (Fin 1 ⊕ Fin 1) (Fin 1 ⊕ Fin 1) ℝ, IsUnit M → M * M⁻¹ = 1 := fun M hM =>
    Matrix.mul_nonsing_inv M ((Matrix.isUnit_iff_isUnit_det M).mp hM)
  refine ⟨⟨runsBt_btLs ha (Or.inr rfl), ha, rfl, rfl, ⟨0, rfl, le_refl _⟩, rfl, fun s => ?_, by norm_num, rfl⟩, by norm_num [exFree], hmul,
    fun N v hN => ?_, ⟨fun x => ?_, fun x y => ?_⟩, fun x y => ?_, by norm_num [Bfgs.exBt], by norm_num [Bfgs.exBt], ?_⟩
  · simp [initStepsize, exFree]
  · change N *ᵥ (N⁻¹ *ᵥ v) = v
    rw [mulVec_mulVec, hmul N hN, one_mulVec]
  · have e : exFree.fE = fun x => ‖x‖ ^ 2 / 2 := funext hf
    rw [e, hgE]
    rw [hasGradientAt_iff_hasFDerivAt]
    have h1 := (hasStrictFDerivAt_norm_sq x).hasFDerivAt.const_mul (1 / 2 : ℝ)
    have e2 : (fun x : EuclideanSpace ℝ (Fin 2) => ‖x‖ ^ 2 / 2) = fun x => 1 / 2 * ‖x‖ ^ 2 := by funext x; ring
    rw [e2]
    refine h1.congr_fderiv ?_
    ext v
    simp
  · rw [hgE, hgE, one_mul]
  · rw [hf, hf, hgE]
    have := norm_sub_sq_real y x
    rw [inner_sub_right, real_inner_self_eq_norm_sq, real_inner_comm]
    linarith
  · show (1 / 2 : ℝ) * (1 / 2) ^ 29 ≤ lbfgsBound 1 1 (1 / 4) (0 + 1)
    unfold lbfgsBound lbfgsLower lbfgsUpper
    norm_num

/-! ### After the buffer has wrapped around the two solvers differ -/

/-- The line search of the example: to the left by one, and a full step from `1` on. -/
def exSearch (s : ℚ) (x : Fin 1 → ℚ) (v : ℚ) (g d : Fin 1 → ℚ) : LsOut ℚ (Fin 1 → ℚ) ℚ :=
  let z : ℚ := if x 0 ≤ 1 then x 0 + d 0 else x 0 - 1
  ⟨s, ![z], z * z + z * z * z * z, ![2 * z + 4 * z * z * z], false⟩

/-- `LBFGSB` with `history_size = 2` for `x² + x⁴`. -/
noncomputable def exWrapB : Lbfgsb ℚ ℚ 1 2 where
  f := fun x => x 0 * x 0 + x 0 * x 0 * x 0 * x 0
  grad := fun x => ![2 * x 0 + 4 * x 0 * x 0 * x 0]
  eps := 1 / 4503599627370496
  argsort := fun _ => Equiv.refl _
  inv := fun M => M⁻¹
  solve := fun M v => M⁻¹ *ᵥ v
  stepsize := .const 0
  maxStepsize := 1
  initStep := fun _ => 1
  theta := 1
  useGamma := true
  runLs := exSearch

/-- `LBFGS` with `history_size = 2` for `x² + x⁴`. -/
def exWrapL : Lbfgs ℚ (Fin 1 → ℚ) ℚ where
  f := fun x => x 0 * x 0 + x 0 * x 0 * x 0 * x 0
  grad := fun x => ![2 * x 0 + 4 * x 0 * x 0 * x 0]
  vdot := fun u v => u ⬝ᵥ v
  norm := fun x => |x 0|
  historySize := 2
  useGamma := true
  stepsize := .const 0
  maxStepsize := 1
  initStep := fun _ => 1
  stopIfLinesearchFails := false
  tol := 1 / 1000
  maxiter := 500
  unroll := false
  jit := true
  runLs := exSearch

theorem exWrap_same : SameAttrs exWrapB exWrapL := ⟨rfl, rfl, rfl, rfl, rfl, rfl, rfl, rfl, rfl, rfl⟩

theorem exWrapB_sound : exWrapB.LsSound := fun _ _ _ _ _ => ⟨rfl, rfl⟩

theorem exWrapL_step (x0 : Fin 1 → ℚ) (k : ℕ) :
    (exWrapL.iter x0 (k + 1)).1 = ![if (exWrapL.iter x0 k).1 0 ≤ 1 then (exWrapL.iter x0 k).1 0 + exWrapL.direction (exWrapL.iter x0 k).2 0
      else (exWrapL.iter x0 k).1 0 - 1] := by
  have e : ∀ x st d, exWrapL.step x st d = exSearch 1 x st.value st.grad d := by
    intro x st d
    unfold Lbfgs.step
    change (if (0 : ℚ) ≤ 0 then _ else _) = _
    rw [if_pos le_rfl]
    rfl
  rw [Lbfgs.iter_succ]
  change (exWrapL.step (exWrapL.iter x0 k).1 (exWrapL.iter x0 k).2 (exWrapL.direction (exWrapL.iter x0 k).2)).params = _
  rw [e]
  rfl

/-- The iterates of `LBFGS` from `4` begin with `4, 3, 2, 1`. -/
theorem exWrapL_iter (k : ℕ) (hk : k ≤ 3) : (exWrapL.iter ![4] k).1 = ![4 - (k : ℚ)] := by
  induction k with
  | zero => simp [Lbfgs.iter]
  | succ k ih =>
    have hk' : (k : ℚ) ≤ 2 := by exact_mod_cast (show k ≤ 2 by omega)
    have hlt : ¬ ((![4 - (k : ℚ)] : Fin 1 → ℚ) 0 ≤ 1) := by
      rw [Matrix.cons_val_zero, not_le]; linarith
    rw [exWrapL_step, ih (by omega), if_neg hlt]
    simp only [Matrix.cons_val_zero]
    push_cast
    congr 1; ring

theorem exWrapL_grad (k : ℕ) : (exWrapL.iter ![4] k).2.grad = exWrapL.grad (exWrapL.iter ![4] k).1 :=
  (exWrapL.C74_lbfgs_state (fun _ _ _ _ _ => ⟨rfl, rfl⟩) _ k).2.1

theorem exWrapL_pair (k : ℕ) (hk : k ≤ 2) : exWrapL.pair ![4] k = (![-1], exWrapL.grad ![3 - (k : ℚ)] - exWrapL.grad ![4 - (k : ℚ)]) := by
  have e : (4 : ℚ) - ((k + 1 : ℕ) : ℚ) = 3 - k := by push_cast; ring
  simp only [Lbfgs.pair, exWrapL_grad]
  rw [exWrapL_iter k (by omega), exWrapL_iter (k + 1) (by omega), e]
  congr 1
  funext j
  rw [Subsingleton.elim j 0]
  simp only [Pi.sub_apply, Matrix.cons_val_zero]
  ring

/-- In dimension one a BFGS update is the division by the secant slope. -/
theorem bfgsUpdate_one (H : (Fin 1 → ℚ) → Fin 1 → ℚ) (s y : ℚ) (hsy : s * y ≠ 0) (v : ℚ) :
    bfgsUpdate (fun u v => u ⬝ᵥ v) H (![s], ![y]) ![v] = ![v * s / y] := by
  have hs : s ≠ 0 := left_ne_zero_of_mul hsy
  have hy : y ≠ 0 := right_ne_zero_of_mul hsy
  have hd : (![s] : Fin 1 → ℚ) ⬝ᵥ ![y] = s * y := by simp [dotProduct]
  unfold bfgsUpdate
  simp only [hd, if_neg hsy]
  generalize H _ = u
  funext j
  rw [Subsingleton.elim j 0]
  simp only [dotProduct, Fin.isValue, univ_unique, Fin.default_eq_zero, Matrix.cons_val_fin_one, sum_singleton,
    Pi.add_apply, Pi.sub_apply, Pi.smul_apply, smul_eq_mul]
  field_simp
  ring

/-- **C120 fails after the buffer has wrapped around**: with `history_size = 2` and the same line search, the fourth iterates of `LBFGSB`
without bounds and of `LBFGS` differ, although all curvatures are positive.  `LBFGSB` keeps the buffer order, so that the pair at the last
buffer position is treated as the newest one. -/
theorem C120_wrap_false :
    ¬ ∀ (S : Lbfgsb ℚ ℚ 1 2) (L : Lbfgs ℚ (Fin 1 → ℚ) ℚ), SameAttrs S L → 0 < S.eps → (∀ M, IsUnit M → M * S.inv M = 1) →
      (∀ N v, IsUnit N → N *ᵥ S.solve N v = v) → S.LsSound → ∀ (x0 : Fin 1 → ℚ) (k : ℕ),
      (∀ j, j + 1 < k → 0 < (L.pair x0 j).1 ⬝ᵥ (L.pair x0 j).2) →
      ∃ p, S.iter (fun _ => .ninf) (fun _ => .pinf) x0 k = some p ∧ p.1 = (L.iter x0 k).1 := by
  intro hall
  have hmul : ∀ M : Matrix (Fin 2 ⊕ Fin 2) (Fin 2 ⊕ Fin 2) ℚ, IsUnit M → M * exWrapB.inv M = 1 := fun M hM =>
    Matrix.mul_nonsing_inv M ((Matrix.isUnit_iff_isUnit_det M).mp hM)
  have hsol : ∀ (N : Matrix (Fin 2 ⊕ Fin 2) (Fin 2 ⊕ Fin 2) ℚ) v, IsUnit N → N *ᵥ exWrapB.solve N v = v := fun N v hN => by
    have : N * N⁻¹ = 1 := hmul N hN
    change N *ᵥ (N⁻¹ *ᵥ v) = v
    rw [mulVec_mulVec, this, one_mulVec]
  have he : 0 < exWrapB.eps := by norm_num [exWrapB]
  have p0 : exWrapL.pair ![4] 0 = (![-1], ![-150]) := by
    rw [exWrapL_pair 0 (by omega)]; congr 1; funext j; rw [Subsingleton.elim j 0]; norm_num [exWrapL]
  have p1 : exWrapL.pair ![4] 1 = (![-1], ![-78]) := by
    rw [exWrapL_pair 1 (by omega)]; congr 1; funext j; rw [Subsingleton.elim j 0]; norm_num [exWrapL]
  have p2 : exWrapL.pair ![4] 2 = (![-1], ![-30]) := by
    rw [exWrapL_pair 2 (by omega)]; congr 1; funext j; rw [Subsingleton.elim j 0]; norm_num [exWrapL]
  have hcurv : ∀ j, j + 1 < 4 → 0 < (exWrapL.pair ![4] j).1 ⬝ᵥ (exWrapL.pair ![4] j).2 := by
    intro j hj
    have : j = 0 ∨ j = 1 ∨ j = 2 := by omega
    rcases this with rfl | rfl | rfl
    · rw [p0]; norm_num [dotProduct]
    · rw [p1]; norm_num [dotProduct]
    · rw [p2]; norm_num [dotProduct]
  -- `LBFGS`
  have g3 : (exWrapL.iter ![4] 3).2.grad = ![6] := by
    rw [exWrapL_grad, exWrapL_iter 3 le_rfl]; funext j; rw [Subsingleton.elim j 0]; norm_num [exWrapL]
  have hn : -(![6] : Fin 1 → ℚ) = ![-6] := by funext j; rw [Subsingleton.elim j 0]; norm_num
  have hLd : exWrapL.direction (exWrapL.iter ![4] 3).2 = ![-1 / 5] := by
    rw [exWrapL.C24_direction isVdot_dot (by show 1 ≤ 2; omega), g3, hn]
    have hlp : exWrapL.lastPairs ![4] 3 = [exWrapL.pair ![4] 1, exWrapL.pair ![4] 2] := rfl
    rw [hlp, p2]
    change bfgsUpdate (fun u v => u ⬝ᵥ v) _ (![-1], ![-30]) ![-6] = _
    rw [bfgsUpdate_one _ _ _ (by norm_num)]
    norm_num
  have hL4 : (exWrapL.iter ![4] 4).1 = ![4 / 5] := by
    rw [exWrapL_step, exWrapL_iter 3 le_rfl, hLd]
    norm_num
  -- `LBFGSB`
  have same : ∀ k ≤ 3, ∃ p, exWrapB.iter (fun _ => .ninf) (fun _ => .pinf) ![4] k = some p ∧ Agree exWrapL ![4] k p := fun k hk =>
    C120_same exWrap_same he hmul hsol ![4] k hk (fun j hj => hcurv j (by omega))
  obtain ⟨q0, h0, a0⟩ := same 0 (by omega)
  obtain ⟨q1, h1, a1⟩ := same 1 (by omega)
  obtain ⟨q2, h2, a2⟩ := same 2 (by omega)
  obtain ⟨q3, h3, a3⟩ := same 3 (by omega)
  have e0 := a0.params.trans (exWrapL_iter 0 (by omega))
  have e1 := a1.params.trans (exWrapL_iter 1 (by omega))
  have e2 := a2.params.trans (exWrapL_iter 2 (by omega))
  have e3 := a3.params.trans (exWrapL_iter 3 (by omega))
  have d1 : q1.1 - q0.1 = ![-1] ∧ exWrapB.grad q1.1 - exWrapB.grad q0.1 = ![-150] := by
    rw [e0, e1]; constructor <;> funext j <;> rw [Subsingleton.elim j 0] <;> norm_num [exWrapB]
  have d2 : q2.1 - q1.1 = ![-1] ∧ exWrapB.grad q2.1 - exWrapB.grad q1.1 = ![-78] := by
    rw [e1, e2]; constructor <;> funext j <;> rw [Subsingleton.elim j 0] <;> norm_num [exWrapB]
  have d3 : q3.1 - q2.1 = ![-1] ∧ exWrapB.grad q3.1 - exWrapB.grad q2.1 = ![-30] := by
    rw [e2, e3]; constructor <;> funext j <;> rw [Subsingleton.elim j 0] <;> norm_num [exWrapB]
  have hacc : Lbfgsb.acceptedPairs exWrapB (fun _ => .ninf) (fun _ => .pinf) ![4] 3 =
      [(![-1], ![-150]), (![-1], ![-78]), (![-1], ![-30])] := by
    rw [Lbfgsb.acceptedPairs]
    simp only [h2, h3, d3.1, d3.2]
    rw [Lbfgsb.acceptedPairs]
    simp only [h1, h2, d2.1, d2.2]
    rw [Lbfgsb.acceptedPairs]
    simp only [h0, h1, d1.1, d1.2, Lbfgsb.acceptedPairs]
    norm_num [dotProduct]
  obtain ⟨c1, c2, c3, c4, c5⟩ := exWrapB.C75_history exWrapB_sound _ _ _ 3 h3
  simp only [hacc] at c1 c2 c3
  have b0 := c3 0 2 (by simp) rfl (by simp)
  have b1 := c3 1 1 (by simp) rfl (by simp)
  simp only [List.getElem_cons_succ, List.getElem_cons_zero] at b0 b1
  have hbuf : Lbfgsb.bufferPairs q3.2 = [(![-1], ![-30]), (![-1], ![-78])] := by
    unfold Lbfgsb.bufferPairs
    rw [c1, ← b0, ← b1]
    rfl
  have ho := exWrapB.histOk exWrapB_sound (by norm_num [exWrapB]) _ _ _ 3 h3
  have hdir := C120_direction exWrapB he hmul hsol q3.1 ho
  rw [hbuf, a3.grad, g3, hn] at hdir
  have hbi : bfgsInverse (fun u v => u ⬝ᵥ v) (1 / q3.2.theta) [((![-1] : Fin 1 → ℚ), (![-30] : Fin 1 → ℚ)), (![-1], ![-78])] ![-6] =
      ![-1 / 13] := by
    change bfgsUpdate (fun u v => u ⬝ᵥ v) _ (![-1], ![-78]) ![-6] = _
    rw [bfgsUpdate_one _ _ _ (by norm_num)]
    norm_num
  rw [hbi] at hdir
  obtain ⟨p, hp, hpe⟩ := hall exWrapB exWrapL exWrap_same he hmul hsol exWrapB_sound ![4] 4 hcurv
  rw [Lbfgsb.iter, h3, Option.bind_some] at hp
  unfold Lbfgsb.update at hp
  simp only at hp
  rw [hdir, Option.bind_some] at hp
  obtain ⟨o, hs, hpo⟩ := Option.map_eq_some_iff.mp hp
  have e4 : p.1 = o.params := by rw [← hpo]
  have e5 : o.params = ![q3.1 0 + (q3.1 + (![-1 / 13] : Fin 1 → ℚ) - q3.1) 0] := by
    simp only [Lbfgsb.step, exWrapB, le_refl, if_true, Option.some.injEq, exSearch] at hs
    rw [← hs]
    simp only
    rw [if_pos (by rw [e3]; norm_num)]
  rw [e4, e5, hL4, e3] at hpe
  have := congrFun hpe 0
  norm_num at this

/-- The hypotheses of `C120_same` hold in the example: the first three iterates agree, and the third one is `1`. -/
example : ∃ p, exWrapB.iter (fun _ => .ninf) (fun _ => .pinf) ![4] 3 = some p ∧ p.1 = ![1] := by
  obtain ⟨p, hp, ha⟩ := C120_same exWrap_same (by norm_num [exWrapB])
    (fun M hM => Matrix.mul_nonsing_inv M ((Matrix.isUnit_iff_isUnit_det M).mp hM))
    (fun N v hN => by
      change N *ᵥ (N⁻¹ *ᵥ v) = v
      rw [mulVec_mulVec, Matrix.mul_nonsing_inv N ((Matrix.isUnit_iff_isUnit_det N).mp hN), one_mulVec]) ![4] 3 le_rfl (by
      intro j hj
      have : j = 0 ∨ j = 1 := by omega
      rcases this with rfl | rfl
      · rw [exWrapL_pair 0 (by omega)]; norm_num [dotProduct, exWrapL]
      · rw [exWrapL_pair 1 (by omega)]; norm_num [dotProduct, exWrapL])
  refine ⟨p, hp, ?_⟩
  rw [ha.params, exWrapL_iter 3 le_rfl]
  norm_num

end Jaxopt.QuasiNewton
