import Verif.QuasiNewton.DescentProps
import Verif.QuasiNewton.LbfgsProps
import Verif.QuasiNewton.ArmijoRateProps

/-!
# Property C120: L-BFGS-B without bounds

With infinite bounds the direction of `LBFGSB` is that of `LBFGS` for the same pairs, so the two solvers take the same steps until the
history buffer wraps around, and `LBFGSB` converges linearly on strongly convex functions.
-/

set_option autoImplicit false
set_option linter.unusedSectionVars false
set_option linter.unusedVariables false

namespace Jaxopt.QuasiNewton

open Jaxopt.Base Jaxopt.LineSearch Matrix Finset

section
variable {K : Type*} [Field K] [LinearOrder K] [IsStrictOrderedRing K] {n h : ℕ}

/-! ### The two forms of the BFGS matrix are inverse to each other -/

/-- One pair. -/
theorem bfgsDirect_update {B : Matrix (Fin n) (Fin n) K} (hB : SPD B) {H : (Fin n → K) → Fin n → K} (hH : ∀ v, B *ᵥ H v = v)
    {s y : Fin n → K} (hys : 0 < y ⬝ᵥ s) (v : Fin n → K) :
    bfgsDirect B s y *ᵥ bfgsUpdate (fun u v => u ⬝ᵥ v) H (s, y) v = v := by
  have hs : s ≠ 0 := by rintro rfl; simp at hys
  have hsB := hB.2 s hs
  have hsy : s ⬝ᵥ y ≠ 0 := by rw [dotProduct_comm]; exact hys.ne'
  unfold bfgsUpdate
  rw [if_neg hsy]
  simp only
  set rho := 1 / (s ⬝ᵥ y) with hrho
  have hr : rho * (s ⬝ᵥ y) = 1 := by rw [hrho]; field_simp
  set a := rho * (s ⬝ᵥ v) with ha
  set u := H (v - a • y) with hu
  set b := rho * (y ⬝ᵥ u) with hb
  have hBu : B *ᵥ u = v - a • y := hH _
  have e1 : B *ᵥ (u - b • s + a • s) = v - a • y + (a - b) • (B *ᵥ s) := by
    rw [mulVec_add, mulVec_sub, mulVec_smul, mulVec_smul, hBu, sub_smul]; abel
  have e2 : (B *ᵥ s) ⬝ᵥ (u - b • s + a • s) = (a - b) * (s ⬝ᵥ B *ᵥ s) := by
    rw [← hB.symm_dot, e1, dotProduct_add, dotProduct_sub, dotProduct_smul, dotProduct_smul, smul_eq_mul, smul_eq_mul]
    have : a * (s ⬝ᵥ y) = s ⬝ᵥ v := by rw [ha]; linear_combination (s ⬝ᵥ v) * hr
    rw [this]; ring
  have e3 : y ⬝ᵥ (u - b • s + a • s) = s ⬝ᵥ v := by
    rw [dotProduct_add, dotProduct_sub, dotProduct_smul, dotProduct_smul, smul_eq_mul, smul_eq_mul, dotProduct_comm y s, hb, ha]
    linear_combination ((s ⬝ᵥ v) - (y ⬝ᵥ u)) * hr
  rw [bfgsDirect_mulVec, e2, e3, e1, mul_div_assoc, div_self hsB.ne', mul_one]
  have e4 : (s ⬝ᵥ v) / (y ⬝ᵥ s) = a := by rw [ha, hrho, dotProduct_comm y s]; ring
  rw [e4]
  abel

/-- The BFGS matrix of the pairs times the product with the inverse of the same pairs. -/
theorem bfgsMatrix_inverse {theta : K} (ht : 0 < theta) (pairs : List ((Fin n → K) × (Fin n → K))) (hp : ∀ p ∈ pairs, 0 < p.2 ⬝ᵥ p.1)
    (v : Fin n → K) : bfgsMatrix theta pairs *ᵥ bfgsInverse (fun u v => u ⬝ᵥ v) (1 / theta) pairs v = v := by
  induction pairs using List.reverseRecOn generalizing v with
  | nil =>
    simp only [bfgsMatrix, bfgsInverse, List.foldl_nil]
    rw [smul_mulVec, one_mulVec, smul_smul, mul_one_div_cancel ht.ne', one_smul]
  | append_singleton l p ih =>
    have hl := fun q hq => hp q (List.mem_append_left _ hq)
    rw [bfgsMatrix, List.foldl_append, ← bfgsMatrix, bfgsInverse, List.foldl_append, ← bfgsInverse]
    exact bfgsDirect_update (spd_bfgsMatrix ht l hl) (ih hl) (hp p (by simp)) v

/-! ### The direction without bounds -/

theorem breakpoints_free {eps : K} (he : 0 < eps) (x grad : Fin n → K) :
    breakpoints eps x grad (fun _ => .ninf) (fun _ => .pinf) = fun _ => .pinf := by
  funext j
  unfold breakpoints
  by_cases h1 : |grad j| < eps
  · rw [if_pos h1]
  · rw [if_neg h1]
    have h0 : grad j ≠ 0 := by rintro h0; rw [h0, abs_zero] at h1; exact h1 he
    by_cases h2 : grad j < 0
    · rw [if_pos h2]
      simp [Ext.sub, Ext.neg, Ext.add, Ext.smul, h2, not_lt.mpr h2.le]
    · rw [if_neg h2]
      have hp : 0 < grad j := lt_of_le_of_ne (not_lt.mp h2) (Ne.symm h0)
      simp [Ext.sub, Ext.neg, Ext.add, Ext.smul, hp]

theorem loop_free {eps theta : K} {grad d x : Fin n → K} {lower upper : Fin n → Ext K} {w : Matrix (Fin n) (Fin h ⊕ Fin h) K}
    {m : Matrix (Fin h ⊕ Fin h) (Fin h ⊕ Fin h) K} {sigma : Fin n → Fin n} (k : ℕ) {s : CP K n h} (hi : s.i = 0)
    (hd : divE (-s.df) s.ddf ≠ .pinf) : cpLoop eps theta grad d x lower upper w m sigma (fun _ => .pinf) k s = some s := by
  cases k with
  | zero => rfl
  | succ k =>
    unfold cpLoop
    by_cases hn : s.i < n
    · rw [dif_pos hn, if_neg]
      unfold cpCond
      rw [dif_pos hn]
      have : dtAt (fun _ : Fin n => (.pinf : Ext K)) ⟨s.i, hn⟩ = .pinf := by
        unfold dtAt
        simp [hi, Ext.sub, Ext.neg, Ext.add]
      rw [this]
      cases hq : divE (-s.df) s.ddf <;> simp_all [Ext.le]
    · rw [dif_neg hn]

/-- Without bounds the Cauchy point is the minimiser of the model along the steepest descent direction, and all coordinates are free. -/
theorem cauchy_free {eps : K} (he : 0 < eps) (argsort : (Fin n → Ext K) → Equiv.Perm (Fin n)) (x grad : Fin n → K) (theta : K)
    (w : Matrix (Fin n) (Fin h ⊕ Fin h) K) (m : Matrix (Fin h ⊕ Fin h) (Fin h ⊕ Fin h) K)
    (hpd : grad ≠ 0 → 0 < theta * (grad ⬝ᵥ grad) - (m *ᵥ (wᵀ *ᵥ -grad)) ⬝ᵥ (wᵀ *ᵥ -grad)) :
    ∃ tau : K, findCauchyPoint eps argsort x grad (fun _ => .ninf) (fun _ => .pinf) theta w m =
      some (fun j => .fin (x j + tau * -grad j), tau • (wᵀ *ᵥ -grad), fun _ => true) := by
  have hdir : cauchyDir eps (fun _ => (.pinf : Ext K)) grad = -grad := by
    funext j
    simp [cauchyDir, Ext.lt]
  set df0 := -((-grad) ⬝ᵥ (-grad)) with hdf
  set ddf0 := -theta * df0 - (m *ᵥ (wᵀ *ᵥ -grad)) ⬝ᵥ (wᵀ *ᵥ -grad) with hddf
  have hq : (∃ q, divE (-df0) ddf0 = .fin q) ∨ divE (-df0) ddf0 = .nan := by
    by_cases h0 : grad = 0
    · right
      have e1 : df0 = 0 := by rw [hdf, h0]; simp
      have e2 : ddf0 = 0 := by rw [hddf, e1, h0]; simp
      rw [e1, e2]
      simp [divE]
    · left
      have hpos : 0 < ddf0 := by
        have := hpd h0
        rw [hddf, hdf, neg_dotProduct_neg]
        linarith
      exact ⟨-df0 / ddf0, by rw [divE, if_pos hpos.ne']⟩
  have hne : divE (-df0) ddf0 ≠ .pinf := by
    rcases hq with ⟨q, hq⟩ | hq <;> rw [hq] <;> simp
  have hs0 : startInd (fun _ : Fin n => true) = 0 := by
    unfold startInd
    cases n with
    | zero => rfl
    | succ n => simp [List.findIdx_cons]
  unfold findCauchyPoint
  simp only [breakpoints_free he, hdir]
  have hmask : (fun i : Fin n => Ext.gt (.pinf : Ext K) (.fin eps)) = fun _ => true := by
    funext i; simp [Ext.gt, Ext.lt]
  simp only [hmask, hs0]
  rw [← hdf, ← hddf, loop_free n (s := ⟨0, df0, ddf0, fun _ => true, 0, wᵀ *ᵥ -grad⟩) rfl hne]
  simp only [lt_irrefl, dif_neg, not_false_eq_true, if_true]
  rcases hq with ⟨q, hq⟩ | hq
  · refine ⟨max q 0, ?_⟩
    rw [hq]
    have : Ext.max (.fin q) (.fin 0 : Ext K) = .fin (max q 0) := by simp [Ext.max]
    rw [this]
    simp [Ext.isNan, Ext.add, Ext.smul, mul_comm]
  · refine ⟨0, ?_⟩
    rw [hq]
    simp [Ext.isNan, Ext.max, Ext.add, Ext.smul]

/-- Without bounds the subspace minimisation takes the full step. -/
theorem subspaceStep_free (xc du : Fin n → K) :
    subspaceStep (fun _ => .ninf) (fun _ => .pinf) xc du (fun _ => true) = fun j => .fin ((xc + du) j) := by
  obtain ⟨a, a0, a1, h1, -, h3⟩ := C76_step_length (lower := fun _ => (.ninf : Ext K)) (upper := fun _ => .pinf) (xc := xc) du (fun _ => true)
    (fun j => ⟨rfl, rfl⟩)
  have ha : a = 1 := le_antisymm a1 (h3 1 le_rfl fun j => ⟨rfl, rfl⟩)
  funext j
  rw [h1 j, ha, one_smul]
  simp [onFree]

/-- **C120, direction.**  In a state whose history is in order, with infinite bounds and exact linear algebra, the update aims at
`x - H g`, where `H` is the inverse BFGS matrix that `LBFGS` builds from the stored pairs with `gamma = 1 / theta`; whatever the size of the
gradient entries. -/
theorem C120_direction {V : Type*} (S : Lbfgsb K V n (h + 1)) (he : 0 < S.eps) (hinv : ∀ M, IsUnit M → M * S.inv M = 1)
    (hsolve : ∀ N v, IsUnit N → N *ᵥ S.solve N v = v) (x : Fin n → K) {st : LbfgsbState K V n (h + 1)} (ho : Lbfgsb.HistOk st) :
    S.subspaceMin (fun _ => .ninf) (fun _ => .pinf) x st =
      some (x + bfgsInverse (fun u v => u ⬝ᵥ v) (1 / st.theta) (Lbfgsb.bufferPairs st) (-st.grad)) := by
  have hm := hinv _ (Lbfgsb.C75_invertible ho)
  obtain ⟨hBeq, hsymm, hpd⟩ := Lbfgsb.C75_compact ho hm
  have hB : Lbfgsb.modelMatrix st (S.inv (Lbfgsb.mInv st)) =
      st.theta • 1 - Lbfgsb.wFlat st * S.inv (Lbfgsb.mInv st) * (Lbfgsb.wFlat st)ᵀ := rfl
  set B := Lbfgsb.modelMatrix st (S.inv (Lbfgsb.mInv st)) with hBd
  set w := Lbfgsb.wFlat st
  set m := S.inv (Lbfgsb.mInv st)
  obtain ⟨tau, htau⟩ := cauchy_free he S.argsort x st.grad st.theta w m (fun h0 => by
    have := hpd (-st.grad) (neg_ne_zero.mpr h0)
    rw [Lbfgsb.modelMatrix_quad, neg_dotProduct_neg] at this
    exact this)
  unfold Lbfgsb.subspaceMin
  simp only
  rw [htau, Option.bind_some]
  set xc : Fin n → K := fun j => x j + tau * -st.grad j with hxc
  have hfin : ∀ v : Fin n → K, Lbfgsb.finite (fun j => (.fin (v j) : Ext K)) = some v := by
    intro v
    unfold Lbfgsb.finite
    simp [Lbfgsb.toK]
  rw [hfin xc, Option.bind_some, subspaceStep_free, hfin]
  congr 1
  have hc : tau • (wᵀ *ᵥ -st.grad) = wᵀ *ᵥ (xc - x) := by
    rw [← mulVec_smul]
    congr 1
    funext j
    simp [hxc]
  have hs := fun j : Fin n => subspace_grad (x := x) (grad := st.grad) (xc := xc) (active := fun _ => true) (solve := S.solve) ho.theta_pos hB
    (fun v => hsolve _ v (subN_unit (active := fun _ => true) ho.theta_pos hB hpd)) hc (j := j) rfl
  set du := subspaceDir S.solve x st.grad xc (tau • (wᵀ *ᵥ -st.grad)) st.theta w m (fun _ => true) with hdu
  have hfree : onFree (fun _ => true) du = du := by funext j; simp [onFree]
  rw [hfree] at hs
  have hz : B *ᵥ (xc - x + du) = -st.grad := by
    funext j
    have := hs j
    rw [Pi.add_apply] at this
    rw [Pi.neg_apply]
    linarith
  have hz2 : B *ᵥ bfgsInverse (fun u v => u ⬝ᵥ v) (1 / st.theta) (Lbfgsb.bufferPairs st) (-st.grad) = -st.grad := by
    rw [hBeq]
    exact bfgsMatrix_inverse ho.theta_pos _ (Lbfgsb.mem_bufferPairs ho) _
  have hinj : xc - x + du = bfgsInverse (fun u v => u ⬝ᵥ v) (1 / st.theta) (Lbfgsb.bufferPairs st) (-st.grad) := by
    by_contra hne
    have := hpd _ (sub_ne_zero.mpr hne)
    rw [mulVec_sub, hz, hz2, sub_self, dotProduct_zero] at this
    exact lt_irrefl _ this
  rw [← hinj]
  abel

/-! ### The iterates of `LBFGS` -/

/-- `LBFGS` and `LBFGSB` with the same objective, attributes and line search; `LBFGSB` has the default `theta = 1`. -/
structure SameAttrs {V : Type*} (S : Lbfgsb K V n (h + 1)) (L : Lbfgs K (Fin n → K) V) : Prop where
  f : L.f = S.f
  grad : L.grad = S.grad
  vdot : L.vdot = fun u v => u ⬝ᵥ v
  history : L.historySize = h + 1
  useGamma : L.useGamma = S.useGamma
  stepsize : L.stepsize = S.stepsize
  maxStepsize : L.maxStepsize = S.maxStepsize
  initStep : L.initStep = S.initStep
  runLs : L.runLs = S.runLs
  theta : S.theta = 1

/-- The states of the two solvers agree, up to the representation of the history. -/
structure Agree {V : Type*} (L : Lbfgs K (Fin n → K) V) (x0 : Fin n → K) (k : ℕ) (p : (Fin n → K) × LbfgsbState K V n (h + 1)) : Prop where
  params : p.1 = (L.iter x0 k).1
  value : p.2.value = (L.iter x0 k).2.value
  grad : p.2.grad = (L.iter x0 k).2.grad
  stepsize : p.2.stepsize = (L.iter x0 k).2.stepsize
  failed : p.2.failedLinesearch = (L.iter x0 k).2.failedLinesearch
  iterNum : p.2.iterNum = (L.iter x0 k).2.iterNum

/-- The history of the first `k ≤ history_size` pairs. -/
structure AgreeHist {V : Type*} (L : Lbfgs K (Fin n → K) V) (x0 : Fin n → K) (k : ℕ) (st : LbfgsbState K V n (h + 1)) : Prop where
  num : st.numUpdates = k
  pairs : ∀ a : Fin (h + 1), a.1 < k → st.s a = (L.pair x0 a.1).1 ∧ st.y a = (L.pair x0 a.1).2
  pad : ∀ a : Fin (h + 1), k ≤ a.1 → st.s a = 0 ∧ st.y a = 0
  theta : st.theta = 1 / (L.iter x0 k).2.gamma
  gamma : 0 < (L.iter x0 k).2.gamma

theorem isVdot_dot : IsVdot (K := K) (E := Fin n → K) (fun u v => u ⬝ᵥ v) where
  add_left := fun x y z => add_dotProduct x y z
  smul_left := fun a x z => by rw [smul_dotProduct, smul_eq_mul]
  symm := fun x y => dotProduct_comm x y
  pos := fun x hx => dot_self_pos hx

theorem finite_fin (v : Fin n → K) : Lbfgsb.finite (fun j => (.fin (v j) : Ext K)) = some v := by
  unfold Lbfgsb.finite
  simp [Lbfgsb.toK]

/-- The steps agree. -/
theorem step_free {V : Type*} {S : Lbfgsb K V n (h + 1)} {L : Lbfgs K (Fin n → K) V} (hS : SameAttrs S L) {x0 : Fin n → K} {k : ℕ}
    {p : (Fin n → K) × LbfgsbState K V n (h + 1)} (hp : Agree L x0 k p) (d : Fin n → K) :
    S.step (fun _ => .ninf) (fun _ => .pinf) p.1 p.2 d = some (L.step (L.iter x0 k).1 (L.iter x0 k).2 d) := by
  have hclip : ∀ v : Fin n → K, (fun j => clipE (v j) (.ninf : Ext K) .pinf) = fun j => .fin (v j) := by
    intro v; funext j; simp [clipE, Ext.max, Ext.min]
  have hfix : ∀ a : K, (Lbfgsb.finite fun j => clipE (p.1 j + a * d j) (.ninf : Ext K) .pinf) = some (p.1 + a • d) := by
    intro a
    have := hclip (p.1 + a • d)
    simp only [Pi.add_apply, Pi.smul_apply, smul_eq_mul] at this
    rw [this]
    exact finite_fin (p.1 + a • d)
  unfold Lbfgsb.step Lbfgs.step
  simp only [hfix, Option.map_some]
  rw [hS.stepsize, hS.runLs, hS.initStep, hS.f, hS.grad, ← hp.params, ← hp.value, ← hp.grad, ← hp.stepsize, ← hp.iterNum]
  cases S.stepsize with
  | const a =>
    by_cases ha : a ≤ 0
    · simp only [if_pos ha]
    · simp only [if_neg ha]
  | fn a => rfl

/-- In states that agree, also in the history, the next iterates agree. -/
theorem agree_succ {V : Type*} {S : Lbfgsb K V n (h + 1)} {L : Lbfgs K (Fin n → K) V} (hS : SameAttrs S L) (he : 0 < S.eps)
    (hinv : ∀ M, IsUnit M → M * S.inv M = 1) (hsolve : ∀ N v, IsUnit N → N *ᵥ S.solve N v = v) {x0 : Fin n → K} {k : ℕ} (hk : k ≤ h + 1)
    (hc : ∀ j < k, 0 < (L.pair x0 j).1 ⬝ᵥ (L.pair x0 j).2) {p : (Fin n → K) × LbfgsbState K V n (h + 1)} (hp : Agree L x0 k p)
    (hh : AgreeHist L x0 k p.2) :
    ∃ q, S.update (fun _ => .ninf) (fun _ => .pinf) p = some q ∧ Agree L x0 (k + 1) q ∧
      (k ≤ h → 0 < (L.pair x0 k).1 ⬝ᵥ (L.pair x0 k).2 → AgreeHist L x0 (k + 1) q.2) := by
  have ho : Lbfgsb.HistOk p.2 := by
    refine ⟨?_, fun a ha => ?_, fun a ha => hh.pad a (by rw [hh.num] at ha; exact ha)⟩
    · rw [hh.theta]; exact one_div_pos.mpr hh.gamma
    · rw [hh.num] at ha
      rw [(hh.pairs a ha).1, (hh.pairs a ha).2, dotProduct_comm]
      exact hc a.1 ha
  have hpairs : Lbfgsb.bufferPairs p.2 = L.lastPairs x0 k := by
    rw [Lbfgsb.bufferPairs_eq, hh.num, min_eq_left hk, Lbfgs.lastPairs, hS.history, Nat.sub_eq_zero_of_le hk, min_eq_left hk, ← List.range_eq_range']
    refine List.map_congr_left fun j hj => ?_
    have hj' := List.mem_range.mp hj
    have hj2 : j < h + 1 := by omega
    have := hh.pairs ⟨j, hj2⟩ hj'
    simp only [Lbfgsb.row, dif_pos hj2]
    rw [this.1, this.2]
  have hdir : S.subspaceMin (fun _ => .ninf) (fun _ => .pinf) p.1 p.2 = some (p.1 + L.direction (L.iter x0 k).2) := by
    rw [C120_direction S he hinv hsolve p.1 ho, L.C24_direction (by rw [hS.vdot]; exact isVdot_dot) (by rw [hS.history]; omega) x0 k, hpairs,
      hh.theta, one_div_one_div, hp.grad, hS.vdot]
  set d := L.direction (L.iter x0 k).2 with hd
  have hsub : p.1 + d - p.1 = d := by abel
  set o := L.step (L.iter x0 k).1 (L.iter x0 k).2 d with hod
  have hL : L.iter x0 (k + 1) = L.update (L.iter x0 k) := L.iter_succ x0 k
  have hpar : (L.iter x0 (k + 1)).1 = o.params := by rw [hL]; rfl
  have hgrd : (L.iter x0 (k + 1)).2.grad = o.grad := by rw [hL]; rfl
  have hs : o.params - p.1 = (L.pair x0 k).1 := by rw [Lbfgs.pair, hpar, hp.params]
  have hy : o.grad - p.2.grad = (L.pair x0 k).2 := by rw [Lbfgs.pair, hgrd, hp.grad]
  unfold Lbfgsb.update
  simp only
  rw [hdir, Option.bind_some, hsub, step_free hS hp d, ← hod]
  simp only [Option.map_some]
  refine ⟨_, rfl, ?_, ?_⟩
  · refine ⟨hpar.symm, ?_, hgrd.symm, ?_, ?_, ?_⟩
    · rw [hL]; rfl
    · rw [hL]; rfl
    · rw [hL]; rfl
    · rw [hL]; exact congrArg (· + 1) hp.iterNum
  · intro hkh hpos
    have hyne : (L.pair x0 k).2 ≠ 0 := by
      intro h0
      rw [h0, dotProduct_zero] at hpos
      exact lt_irrefl _ hpos
    have hyy := dot_self_pos hyne
    have hcurv : 0 < (o.grad - p.2.grad) ⬝ᵥ (o.params - p.1) := by rw [hs, hy, dotProduct_comm]; exact hpos
    have hmod : p.2.numUpdates % (h + 1) = k := by rw [hh.num]; exact Nat.mod_eq_of_lt (by omega)
    obtain ⟨-, g2, g3, -⟩ := L.C24_gamma (by rw [hS.vdot]; exact isVdot_dot) x0 k
    have hgam : 0 < (L.iter x0 (k + 1)).2.gamma ∧
        (if S.useGamma then ((o.grad - p.2.grad) ⬝ᵥ (o.grad - p.2.grad)) / ((o.grad - p.2.grad) ⬝ᵥ (o.params - p.1)) else 1) * S.theta =
          1 / (L.iter x0 (k + 1)).2.gamma := by
      rw [hS.theta, mul_one, hs, hy]
      by_cases hu : S.useGamma = true
      · rw [if_pos hu, g2 (by rw [hS.history]; omega) (by rw [hS.useGamma]; exact hu) hyne, hS.vdot]
        refine ⟨div_pos (lt_of_lt_of_eq hpos (dotProduct_comm _ _)) hyy, by rw [one_div_div]⟩
      · rw [if_neg hu, g3 (Or.inr (Or.inl (by rw [hS.useGamma]; simpa using hu)))]
        exact ⟨one_pos, by rw [one_div_one]⟩
    refine ⟨?_, fun a ha => ?_, fun a ha => ?_, ?_, hgam.1⟩
    · simp only [if_pos hcurv, hh.num]
    · simp only [if_pos hcurv]
      by_cases hak : a.1 = k
      · have : a = ⟨p.2.numUpdates % (h + 1), Nat.mod_lt _ (Nat.succ_pos h)⟩ := Fin.ext (hak.trans hmod.symm)
        rw [← this, Function.update_self, Function.update_self, hs, hy, hak]
        exact ⟨rfl, rfl⟩
      · have : a ≠ ⟨p.2.numUpdates % (h + 1), Nat.mod_lt _ (Nat.succ_pos h)⟩ := by
          intro h0; apply hak; rw [h0]; exact hmod
        rw [Function.update_of_ne this, Function.update_of_ne this]
        exact hh.pairs a (by omega)
    · simp only [if_pos hcurv]
      have : a ≠ ⟨p.2.numUpdates % (h + 1), Nat.mod_lt _ (Nat.succ_pos h)⟩ := by
        intro h0; rw [h0] at ha; simp only [hmod] at ha; omega
      rw [Function.update_of_ne this, Function.update_of_ne this]
      exact hh.pad a (by omega)
    · simp only [if_pos hcurv]
      exact hgam.2

/-- **C120, same iterates.**  Without bounds, with the same attributes and any line search, `LBFGSB` takes the same steps as
`LBFGS` as long as the curvatures are positive and the history buffer has not wrapped around; for later iterations see
`C120_wrap_false`. -/
theorem C120_same {V : Type*} {S : Lbfgsb K V n (h + 1)} {L : Lbfgs K (Fin n → K) V} (hS : SameAttrs S L) (he : 0 < S.eps)
    (hinv : ∀ M, IsUnit M → M * S.inv M = 1) (hsolve : ∀ N v, IsUnit N → N *ᵥ S.solve N v = v) (x0 : Fin n → K) (k : ℕ) (hk : k ≤ h + 2)
    (hc : ∀ j, j + 1 < k → 0 < (L.pair x0 j).1 ⬝ᵥ (L.pair x0 j).2) :
    ∃ p, S.iter (fun _ => .ninf) (fun _ => .pinf) x0 k = some p ∧ Agree L x0 k p := by
  have main : ∀ k ≤ h + 1, (∀ j < k, 0 < (L.pair x0 j).1 ⬝ᵥ (L.pair x0 j).2) →
      ∃ p, S.iter (fun _ => .ninf) (fun _ => .pinf) x0 k = some p ∧ Agree L x0 k p ∧ AgreeHist L x0 k p.2 := by
    intro k
    induction k with
    | zero =>
      intro _ _
      refine ⟨_, rfl, ⟨rfl, ?_, ?_, ?_, rfl, rfl⟩, ⟨rfl, fun a ha => absurd ha (Nat.not_lt_zero _), fun a _ => ⟨rfl, rfl⟩, ?_, ?_⟩⟩
      · change S.f x0 = L.f x0; rw [hS.f]
      · change S.grad x0 = L.grad x0; rw [hS.grad]
      · change S.maxStepsize = L.maxStepsize; rw [hS.maxStepsize]
      · change S.theta = 1 / (1 : K); rw [hS.theta, one_div_one]
      · change (0 : K) < 1; exact one_pos
    | succ k ih =>
      intro hk hc
      obtain ⟨p, h1, h2, h3⟩ := ih (by omega) (fun j hj => hc j (by omega))
      obtain ⟨q, q1, q2, q3⟩ := agree_succ hS he hinv hsolve (by omega) (fun j hj => hc j (by omega)) h2 h3
      refine ⟨q, ?_, q2, q3 (by omega) (hc k (by omega))⟩
      rw [Lbfgsb.iter, h1, Option.bind_some, q1]
  cases k with
  | zero =>
    obtain ⟨p, h1, h2, -⟩ := main 0 (by omega) (fun j hj => absurd hj (Nat.not_lt_zero _))
    exact ⟨p, h1, h2⟩
  | succ k =>
    obtain ⟨p, h1, h2, h3⟩ := main k (by omega) (fun j hj => hc j (by omega))
    obtain ⟨q, q1, q2, -⟩ := agree_succ hS he hinv hsolve (by omega) (fun j hj => hc j (by omega)) h2 h3
    exact ⟨q, by rw [Lbfgsb.iter, h1, Option.bind_some, q1], q2⟩

end

end Jaxopt.QuasiNewton
