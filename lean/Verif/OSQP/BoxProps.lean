import Verif.OSQP.Box
import Verif.Base.Util
import Mathlib.Algebra.Order.Ring.Rat
import Mathlib.LinearAlgebra.Matrix.Notation
import Mathlib.Algebra.BigOperators.Fin
import Mathlib.Algebra.Order.BigOperators.Group.Finset
import Mathlib.Tactic.FieldSimp
import Mathlib.Tactic.NormNum
import Mathlib.Tactic.Linarith
import Mathlib.Tactic.LinearCombination
import Mathlib.Tactic.Abel
import Mathlib.Tactic.FinCases

/-!
# Properties C38 and C39: `BoxOSQP`
-/

set_option autoImplicit false
set_option linter.unusedSectionVars false
set_option linter.unusedVariables false

namespace Jaxopt.OSQP

open Jaxopt.Proj

variable {K : Type*} [Field K] [LinearOrder K] [IsStrictOrderedRing K] {n m : ℕ}

/-! ## Specification -/

/-- `a` satisfies the lower bound. -/
def GeB (a : K) (l : Option K) : Prop := ∀ b, l = some b → b ≤ a

/-- `a` satisfies the upper bound. -/
def LeB (a : K) (u : Option K) : Prop := ∀ b, u = some b → a ≤ b

namespace BoxOSQP

/-- `l ≤ v ≤ u`. -/
def InBox (S : BoxOSQP K n m) (v : Fin m → K) : Prop := ∀ i, GeB (v i) (S.l i) ∧ LeB (v i) (S.u i)

/-- `x` satisfies `l ≤ Ax ≤ u`. -/
def Feasible (S : BoxOSQP K n m) (x : Fin n → K) : Prop := S.InBox (S.A.mulVec x)

/-- The bounds are consistent. -/
def BoundsOk (S : BoxOSQP K n m) : Prop := ∀ i a b, S.l i = some a → S.u i = some b → a ≤ b

/-- The objective `½⟨x, Qx⟩ + ⟨c, x⟩`. -/
def obj (S : BoxOSQP K n m) (x : Fin n → K) : K := 1 / 2 * (x ⬝ᵥ S.Q.mulVec x) + S.c ⬝ᵥ x

/-- `Q` is symmetric positive semidefinite. -/
def PSD (S : BoxOSQP K n m) : Prop := S.Q.transpose = S.Q ∧ ∀ v, 0 ≤ v ⬝ᵥ S.Q.mulVec v

/-- What an update guarantees: `z` in the box, `y = mu - phi` with non-negative parts, and complementarity: a positive `y` forces
`z = u`, a negative one `z = l`. -/
structure Good (S : BoxOSQP K n m) (p : Params K n m) : Prop where
  box : S.InBox p.z
  split : ∀ i, p.y i = p.mu i - p.phi i
  mu_nonneg : ∀ i, 0 ≤ p.mu i
  phi_nonneg : ∀ i, 0 ≤ p.phi i
  compl : ∀ i, p.mu i = 0 ∨ p.phi i = 0
  upper : ∀ i, 0 < p.y i → S.u i = some (p.z i)
  lower : ∀ i, p.y i < 0 → S.l i = some (p.z i)

end BoxOSQP

/-! ## Lemmas -/

theorem infNorm_nonneg {k : ℕ} (v : Fin k → K) : 0 ≤ infNorm v := by
  unfold infNorm
  induction (List.ofFn fun i => |v i|) with
  | nil => exact le_rfl
  | cons a t ih => exact ih.trans (le_max_right _ _)

theorem abs_le_infNorm {k : ℕ} (v : Fin k → K) (i : Fin k) : |v i| ≤ infNorm v := by
  have hmem : |v i| ∈ List.ofFn fun i => |v i| := by
    rw [List.mem_ofFn]; exact ⟨i, rfl⟩
  unfold infNorm
  generalize (List.ofFn fun i => |v i|) = t at hmem
  induction t with
  | nil => cases hmem
  | cons a t ih =>
    rcases List.mem_cons.mp hmem with h | h
    · rw [h]; exact le_max_left _ _
    · exact (ih h).trans (le_max_right _ _)

theorem infNorm_le {k : ℕ} {v : Fin k → K} {t : K} (ht : 0 ≤ t) (h : ∀ i, |v i| ≤ t) : infNorm v ≤ t := by
  have : ∀ a ∈ (List.ofFn fun i => |v i|), a ≤ t := by
    intro a ha
    rw [List.mem_ofFn] at ha
    obtain ⟨i, rfl⟩ := ha; exact h i
  unfold infNorm
  generalize (List.ofFn fun i => |v i|) = t' at this
  induction t' with
  | nil => exact ht
  | cons a s ih => exact max_le (this a (by simp)) (ih fun b hb => this b (by simp [hb]))

theorem infNorm_eq_zero {k : ℕ} {v : Fin k → K} : infNorm v = 0 ↔ v = 0 := by
  constructor
  · intro h
    funext i
    have := abs_le_infNorm v i
    rw [h] at this
    exact abs_eq_zero.mp (le_antisymm this (abs_nonneg _))
  · rintro rfl
    exact le_antisymm (infNorm_le le_rfl fun i => by simp) (infNorm_nonneg _)

/-- The projection onto a box with possibly infinite bounds. -/
theorem clipB_spec (x : K) {l u : Option K} (h : ∀ a b, l = some a → u = some b → a ≤ b) :
    GeB (clipB x l u) l ∧ LeB (clipB x l u) u ∧ (0 < x - clipB x l u → u = some (clipB x l u)) ∧
      (x - clipB x l u < 0 → l = some (clipB x l u)) := by
  rcases l with _ | a <;> rcases u with _ | b
  · simp [clipB, GeB, LeB]
  · simp only [clipB, GeB, LeB]
    refine ⟨by simp, by rintro _ ⟨⟩; exact min_le_right _ _, fun hx => ?_, fun hx => ?_⟩
    · rcases le_total x b with hb | hb
      · rw [min_eq_left hb] at hx; simp at hx
      · rw [min_eq_right hb]
    · have := min_le_left x b; linarith
  · simp only [clipB, GeB, LeB]
    refine ⟨by rintro _ ⟨⟩; exact le_max_right _ _, by simp, fun hx => ?_, fun hx => ?_⟩
    · have := le_max_left x a; linarith
    · rcases le_total x a with hb | hb
      · rw [max_eq_right hb]
      · rw [max_eq_left hb] at hx; simp at hx
  · have hab := h a b rfl rfl
    simp only [clipB, GeB, LeB]
    refine ⟨by rintro _ ⟨⟩; exact le_min (le_max_right _ _) hab, by rintro _ ⟨⟩; exact min_le_right _ _, fun hx => ?_, fun hx => ?_⟩
    · rcases le_total (max x a) b with hb | hb
      · rw [min_eq_left hb] at hx
        have := le_max_left x a; linarith
      · rw [min_eq_right hb]
    · rcases le_total (max x a) b with hb | hb
      · rw [min_eq_left hb] at hx ⊢
        rcases le_total x a with ha | ha
        · rw [max_eq_right ha]
        · rw [max_eq_left ha] at hx; simp at hx
      · rw [min_eq_right hb] at hx ⊢
        rcases le_total x a with ha | ha
        · rw [max_eq_right ha] at hb; rw [le_antisymm hab hb]
        · rw [max_eq_left ha] at hb; linarith

namespace BoxOSQP

theorem fullKKT_good (S : BoxOSQP K n m) {x : Fin n → K} {z y : Fin m → K} (hbox : S.InBox z)
    (hu : ∀ i, 0 < y i → S.u i = some (z i)) (hl : ∀ i, y i < 0 → S.l i = some (z i)) : S.Good (fullKKT x z y) where
  box := hbox
  split := fun i => by
    simp only [fullKKT, relu]
    split_ifs with h
    · rw [max_eq_right (by linarith)]; ring
    · rw [max_eq_left (by linarith [not_le.mp h])]; ring
  mu_nonneg := fun i => by simp only [fullKKT]; split_ifs with h; exacts [h, le_rfl]
  phi_nonneg := fun i => le_max_right _ _
  compl := fun i => by
    simp only [fullKKT, relu]
    split_ifs with h
    · right; exact max_eq_right (by linarith)
    · left; rfl
  upper := hu
  lower := hl

theorem admm_good (S : BoxOSQP K n m) (hb : S.BoundsOk) (p : Params K n m) {rho : K} (hr : 0 < rho) (rho' : K) (st : State K n m) :
    let r := S.admmStep p rho rho' st
    S.Good (fullKKT r.1 r.2.1 r.2.2.1) := by
  intro r
  set zFree : Fin m → K := (p.z + S.momentum • (S.A.mulVec (S.solveLinear p rho rho' st) - p.z)) + (1 / rho) • p.y with hz
  have hzn : ∀ i, r.2.1 i = clipB (zFree i) (S.l i) (S.u i) := fun i => rfl
  have hyn : ∀ i, r.2.2.1 i = rho * (zFree i - clipB (zFree i) (S.l i) (S.u i)) := by
    intro i
    have e : r.2.2.1 i = p.y i + rho * ((p.z i + S.momentum * (S.A.mulVec (S.solveLinear p rho rho' st) i - p.z i)) -
      clipB (zFree i) (S.l i) (S.u i)) := rfl
    have e2 : zFree i = (p.z i + S.momentum * (S.A.mulVec (S.solveLinear p rho rho' st) i - p.z i)) + 1 / rho * p.y i := rfl
    rw [e]
    generalize clipB (zFree i) (S.l i) (S.u i) = w
    rw [e2]; field_simp; ring
  have spec := fun i => clipB_spec (zFree i) (hb i)
  refine S.fullKKT_good (fun i => ?_) (fun i hi => ?_) (fun i hi => ?_)
  · rw [hzn]; exact ⟨(spec i).1, (spec i).2.1⟩
  · rw [hyn] at hi
    rw [hzn]; exact (spec i).2.2.1 (pos_of_mul_pos_right hi hr.le)
  · rw [hyn] at hi
    rw [hzn]; exact (spec i).2.2.2 (neg_of_mul_neg_right hi hr.le)

theorem updateStepsize_mem (S : BoxOSQP K n m) (h : S.rhoMin ≤ S.rhoMax) {rho : K} {primal : Fin m → K} {dual x : Fin n → K}
    {y : Fin m → K} {r : K} (hr : S.updateStepsize rho primal dual x y = .fin r) : S.rhoMin ≤ r ∧ r ≤ S.rhoMax := by
  unfold updateStepsize at hr
  simp only at hr
  split at hr
  · simp only [Ext.fin.injEq] at hr
    rw [← hr]
    exact ⟨le_min (le_max_right _ _) h, min_le_right _ _⟩
  · simp only [Ext.fin.injEq] at hr; rw [← hr]; exact ⟨h, le_rfl⟩
  · simp only [Ext.fin.injEq] at hr; rw [← hr]; exact ⟨le_rfl, h⟩
  · cases hr

/-- The stepsize becomes NaN exactly on a quotient `0/0`. -/
theorem updateStepsize_nan (S : BoxOSQP K n m) {rho : K} {primal : Fin m → K} {dual x : Fin n → K} {y : Fin m → K} :
    S.updateStepsize rho primal dual x y = .nan →
      (primal = 0 ∧ S.A.mulVec x = 0) ∨ (S.Q.mulVec x = 0 ∧ S.A.transpose.mulVec y = 0 ∧ S.c = 0) := by
  intro h
  have hq : ∀ a b : K, quot a b ≠ .ninf := by
    intro a b; unfold quot; split_ifs <;> simp
  have hnan : ∀ a b : K, quot a b = .nan → a = 0 ∧ b = 0 := by
    intro a b; unfold quot; split_ifs <;> simp_all
  have hpinf : ∀ a b : K, quot a b = .pinf → b = 0 := by
    intro a b; unfold quot; split_ifs <;> simp_all
  have hmax : max (infNorm (S.Q.mulVec x)) (max (infNorm (S.A.transpose.mulVec y)) (infNorm S.c)) = 0 →
      S.Q.mulVec x = 0 ∧ S.A.transpose.mulVec y = 0 ∧ S.c = 0 := by
    intro h0
    have h1 := le_max_left (infNorm (S.Q.mulVec x)) (max (infNorm (S.A.transpose.mulVec y)) (infNorm S.c))
    have h2 := le_max_right (infNorm (S.Q.mulVec x)) (max (infNorm (S.A.transpose.mulVec y)) (infNorm S.c))
    have h3 := le_max_left (infNorm (S.A.transpose.mulVec y)) (infNorm S.c)
    have h4 := le_max_right (infNorm (S.A.transpose.mulVec y)) (infNorm S.c)
    rw [h0] at h1 h2
    exact ⟨infNorm_eq_zero.mp (le_antisymm h1 (infNorm_nonneg _)),
      infNorm_eq_zero.mp (le_antisymm (h3.trans h2) (infNorm_nonneg _)),
      infNorm_eq_zero.mp (le_antisymm (h4.trans h2) (infNorm_nonneg _))⟩
  unfold updateStepsize at h
  simp only at h
  rcases hd : quot (infNorm dual) (max (infNorm (S.Q.mulVec x)) (max (infNorm (S.A.transpose.mulVec y)) (infNorm S.c))) with _ | _ | d | _
  · exact Or.inr (hmax (hnan _ _ hd).2)
  · exact absurd hd (hq _ _)
  · rcases hp : quot (infNorm primal) (infNorm (S.A.mulVec x)) with _ | _ | e | _
    · obtain ⟨h1, h2⟩ := hnan _ _ hp
      exact Or.inl ⟨infNorm_eq_zero.mp h1, infNorm_eq_zero.mp h2⟩
    · exact absurd hp (hq _ _)
    · rw [hd, hp] at h; simp at h
    · rw [hd, hp] at h; simp at h
  · exact Or.inr (hmax (hpinf _ _ hd))

/-- The invariant of the iterations: a finite stepsize is positive, in range after the first update, and shared with the linear
solver. -/
structure Inv (S : BoxOSQP K n m) (p : Option (Params K n m) × State K n m) : Prop where
  pos : ∀ r, p.2.rhoBar = .fin r → 0 < r
  same : ∀ q, p.1 = some q → p.2.solverRho = p.2.rhoBar

/-- The side conditions on the attributes (true of the defaults). -/
structure Attr (S : BoxOSQP K n m) : Prop where
  bounds : S.BoundsOk
  rhoMin : 0 < S.rhoMin
  rhoMax : S.rhoMin ≤ S.rhoMax
  rhoStart : 0 < S.rhoStart

theorem inv_init (S : BoxOSQP K n m) (ha : S.Attr) (p : Params K n m) : S.Inv (some p, S.initState p) where
  pos := fun r h => by simp only [initState, Ext.fin.injEq] at h; rw [← h]; exact ha.rhoStart
  same := fun q h => rfl

/-- The result of an update on finite data. -/
theorem updateFin_ok (S : BoxOSQP K n m) {p : Params K n m} {st : State K n m} {rho rho' : K}
    {r : Option (Params K n m) × State K n m} (h : S.updateFin p st rho rho' = .ok r) :
    let a := S.admmStep p rho rho' st
    r.1 = some (fullKKT a.1 a.2.1 a.2.2.1) ∧ r.2.iterNum = st.iterNum + 1 ∧
    r.2.primalResiduals = S.primalRes a.1 a.2.1 ∧ r.2.dualResiduals = S.dualRes a.1 a.2.2.1 ∧ r.2.prevSol = a.2.2.2 ∧
    (st.iterNum % S.stepsizeUpdatesFrequency = 0 →
      r.2.rhoBar = S.updateStepsize rho (S.primalRes a.1 a.2.1) (S.dualRes a.1 a.2.2.1) a.1 a.2.2.1 ∧ r.2.solverRho = r.2.rhoBar) ∧
    (st.iterNum % S.stepsizeUpdatesFrequency ≠ 0 → r.2.rhoBar = .fin rho ∧ r.2.solverRho = .fin rho') ∧
    (st.iterNum % S.terminationCheckFrequency = 0 →
      r.2.error = .fin (S.checkTermination (S.primalRes a.1 a.2.1) (S.dualRes a.1 a.2.2.1) p (fullKKT a.1 a.2.1 a.2.2.1)).1 ∧
      r.2.status = (S.checkTermination (S.primalRes a.1 a.2.1) (S.dualRes a.1 a.2.2.1) p (fullKKT a.1 a.2.1 a.2.2.1)).2) ∧
    (st.iterNum % S.terminationCheckFrequency ≠ 0 → r.2.error = st.error ∧ r.2.status = st.status) := by
  intro a
  unfold updateFin at h
  simp only at h
  rcases hraise : S.raiseIfInfeasible (if st.iterNum % S.terminationCheckFrequency = 0 then
      ((.fin (S.checkTermination (S.primalRes a.1 a.2.1) (S.dualRes a.1 a.2.2.1) p (fullKKT a.1 a.2.1 a.2.2.1)).1 : Ext K),
        (S.checkTermination (S.primalRes a.1 a.2.1) (S.dualRes a.1 a.2.2.1) p (fullKKT a.1 a.2.1 a.2.2.1)).2)
      else (st.error, st.status)).2 with e | e
  · rw [hraise] at h; cases h
  · rw [hraise] at h
    cases h
    refine ⟨rfl, rfl, rfl, rfl, rfl, fun h0 => ?_, fun h0 => ?_, fun h0 => ?_, fun h0 => ?_⟩
    · simp only [if_pos h0]; exact ⟨rfl, trivial⟩
    · simp only [if_neg h0]; exact ⟨trivial, trivial⟩
    · simp only [if_pos h0]; exact ⟨rfl, rfl⟩
    · simp only [if_neg h0]; exact ⟨trivial, trivial⟩

/-- Case analysis of `update`. -/
theorem update_cases (S : BoxOSQP K n m) {p r : Option (Params K n m) × State K n m} (h : S.update p = .ok r) :
    (∃ q rho rho', p.1 = some q ∧ p.2.rhoBar = .fin rho ∧ p.2.solverRho = .fin rho' ∧ S.updateFin q p.2 rho rho' = .ok r) ∨
    (r.1 = none ∧ r.2.rhoBar = .nan ∧
      (p.2.iterNum % S.terminationCheckFrequency = 0 → r.2.error = .nan ∧ r.2.status = .unsolved) ∧
      (p.2.iterNum % S.terminationCheckFrequency ≠ 0 → r.2.error = p.2.error ∧ r.2.status = p.2.status)) := by
  unfold update at h
  split at h
  · rename_i q rho rho' h1 h2 h3
    exact Or.inl ⟨q, rho, rho', h1, h2, h3, h⟩
  · right
    unfold updateNan at h
    simp only at h
    cases hraise : S.raiseIfInfeasible (if p.2.iterNum % S.terminationCheckFrequency = 0 then ((.nan : Ext K), Status.unsolved)
      else (p.2.error, p.2.status)).2 with
    | error e => rw [hraise] at h; cases h
    | ok e =>
      rw [hraise] at h
      cases h
      refine ⟨rfl, rfl, fun h0 => ?_, fun h0 => ?_⟩
      · simp only [if_pos h0]; exact ⟨trivial, trivial⟩
      · simp only [if_neg h0]; exact ⟨trivial, trivial⟩

theorem inv_update (S : BoxOSQP K n m) (ha : S.Attr) {p r : Option (Params K n m) × State K n m} (hi : S.Inv p)
    (h : S.update p = .ok r) : S.Inv r := by
  rcases S.update_cases h with ⟨q, rho, rho', h1, h2, h3, h4⟩ | ⟨h1, h2, -, -⟩
  · obtain ⟨-, -, -, -, -, h5, h6, -, -⟩ := S.updateFin_ok h4
    have hsame := hi.same q h1
    rw [h2, h3] at hsame
    by_cases h0 : p.2.iterNum % S.stepsizeUpdatesFrequency = 0
    · obtain ⟨e1, e2⟩ := h5 h0
      refine ⟨fun t ht => ?_, fun _ _ => e2⟩
      rw [e1] at ht
      exact ha.rhoMin.trans_le (S.updateStepsize_mem ha.rhoMax ht).1
    · obtain ⟨e1, e2⟩ := h6 h0
      refine ⟨fun t ht => ?_, fun _ _ => by rw [e1, e2, hsame]⟩
      rw [e1] at ht
      exact hi.pos t (h2.trans ht)
  · refine ⟨fun t ht => ?_, fun q hq => ?_⟩
    · rw [h2] at ht; cases ht
    · rw [h1] at hq; cases hq

/-- The states a run can reach from its initial state. -/
inductive Reach (S : BoxOSQP K n m) (p0 : Params K n m) : Option (Params K n m) × State K n m → Prop
  | first {r} : S.update (some p0, S.initState p0) = .ok r → Reach S p0 r
  | step {p r} : Reach S p0 p → S.cont p = true → S.update p = .ok r → Reach S p0 r

theorem loop_reach (S : BoxOSQP K n m) {p0 : Params K n m} (k : ℕ) {p r : Option (Params K n m) × State K n m} (hp : S.Reach p0 p)
    (h : S.loop k p = .ok r) : S.Reach p0 r := by
  induction k generalizing p with
  | zero => cases h; exact hp
  | succ k ih =>
    unfold loop at h
    by_cases hc : S.cont p = true
    · rw [if_pos hc] at h
      cases hu : S.update p with
      | error e => rw [hu] at h; cases h
      | ok q => rw [hu] at h; exact ih (Reach.step hp hc hu) h
    · rw [if_neg hc] at h; cases h; exact hp

theorem run_reach (S : BoxOSQP K n m) {init : Option (Params K n m)} {r : Option (Params K n m) × State K n m} (h : S.run init = .ok r) :
    S.Reach (init.getD S.initParams) r := by
  unfold run at h
  simp only at h
  cases hu : S.update (some (init.getD S.initParams), S.initState (init.getD S.initParams)) with
  | error e => rw [hu] at h; cases h
  | ok q => rw [hu] at h; exact S.loop_reach _ (Reach.first hu) h

theorem reach_inv (S : BoxOSQP K n m) (ha : S.Attr) {p0 : Params K n m} {r : Option (Params K n m) × State K n m} (h : S.Reach p0 r) :
    S.Inv r := by
  induction h with
  | first hu => exact S.inv_update ha (S.inv_init ha p0) hu
  | step _ _ hu ih => exact S.inv_update ha ih hu

/-! ## C38 -/

/-- **C38**, iterates: after every update of a run (that does not raise) the parameters, if they are not NaN, satisfy
`l ≤ z ≤ u`, `y = mu - phi` with `mu, phi ≥ 0`, and complementarity; the residuals of the state are those of the parameters; the
linear solver uses the current stepsize. -/
theorem C38_iterates (S : BoxOSQP K n m) (ha : S.Attr) {p0 : Params K n m} {r : Option (Params K n m) × State K n m}
    (h : S.Reach p0 r) {q : Params K n m} (hq : r.1 = some q) :
    S.Good q ∧ r.2.primalResiduals = S.primalRes q.x q.z ∧ r.2.dualResiduals = S.dualRes q.x q.y ∧ r.2.solverRho = r.2.rhoBar := by
  refine ⟨?_, ?_, ?_, (S.reach_inv ha h).same q hq⟩
  all_goals
    have main : ∀ p, S.Inv p → S.update p = .ok r → S.Good q ∧ r.2.primalResiduals = S.primalRes q.x q.z ∧
        r.2.dualResiduals = S.dualRes q.x q.y := by
      intro p hi hu
      rcases S.update_cases hu with ⟨q', rho, rho', h1, h2, h3, h4⟩ | ⟨h1, -⟩
      · obtain ⟨e1, -, e3, e4, -⟩ := S.updateFin_ok h4
        rw [e1] at hq
        cases hq
        exact ⟨S.admm_good ha.bounds q' (hi.pos rho h2) rho' p.2, e3, e4⟩
      · rw [h1] at hq; cases hq
  · cases h with
    | first hu => exact (main _ (S.inv_init ha p0) hu).1
    | step hr hc hu => exact (main _ (S.reach_inv ha hr) hu).1
  · cases h with
    | first hu => exact (main _ (S.inv_init ha p0) hu).2.1
    | step hr hc hu => exact (main _ (S.reach_inv ha hr) hu).2.1
  · cases h with
    | first hu => exact (main _ (S.inv_init ha p0) hu).2.2
    | step hr hc hu => exact (main _ (S.reach_inv ha hr) hu).2.2

/-- **C38**, stepsize: after every update `rho_bar` is in `[rho_min, rho_max]`, or NaN.  (The claim that it is always in the
interval is false, see `C38_rho_false`.)  It can only become NaN where the primal residual and `Ax` both vanish, or `Qx`, `Aᵀy` and
`c` all vanish. -/
theorem C38_rho_partial (S : BoxOSQP K n m) (ha : S.Attr) {p0 : Params K n m} {r : Option (Params K n m) × State K n m}
    (h : S.Reach p0 r) :
    ((∃ t, r.2.rhoBar = .fin t ∧ S.rhoMin ≤ t ∧ t ≤ S.rhoMax) ∨ r.2.rhoBar = .nan) ∧
    ∀ q, r.1 = some q → r.2.rhoBar = .nan →
      (S.primalRes q.x q.z = 0 ∧ S.A.mulVec q.x = 0) ∨ (S.Q.mulVec q.x = 0 ∧ S.A.transpose.mulVec q.y = 0 ∧ S.c = 0) := by
  -- a state whose stepsize is in range, or the initial state
  have step : ∀ p, ((p.2.iterNum = 0) ∨ (∃ t, p.2.rhoBar = .fin t ∧ S.rhoMin ≤ t ∧ t ≤ S.rhoMax) ∨ p.2.rhoBar = .nan) →
      ∀ r, S.update p = .ok r →
      ((∃ t, r.2.rhoBar = .fin t ∧ S.rhoMin ≤ t ∧ t ≤ S.rhoMax) ∨ r.2.rhoBar = .nan) ∧
      ∀ q, r.1 = some q → r.2.rhoBar = .nan →
        (S.primalRes q.x q.z = 0 ∧ S.A.mulVec q.x = 0) ∨ (S.Q.mulVec q.x = 0 ∧ S.A.transpose.mulVec q.y = 0 ∧ S.c = 0) := by
    intro p hp r hu
    rcases S.update_cases hu with ⟨q', rho, rho', h1, h2, h3, h4⟩ | ⟨h1, h2, -⟩
    · obtain ⟨e1, -, -, -, -, e6, e7, -⟩ := S.updateFin_ok h4
      by_cases h0 : p.2.iterNum % S.stepsizeUpdatesFrequency = 0
      · obtain ⟨f1, -⟩ := e6 h0
        constructor
        · rw [f1]
          have hni : ∀ e, S.updateStepsize rho (S.primalRes (S.admmStep q' rho rho' p.2).1 (S.admmStep q' rho rho' p.2).2.1)
              (S.dualRes (S.admmStep q' rho rho' p.2).1 (S.admmStep q' rho rho' p.2).2.2.1)
              (S.admmStep q' rho rho' p.2).1 (S.admmStep q' rho rho' p.2).2.2.1 = e → (∃ t, e = .fin t) ∨ e = .nan := by
            intro e he
            rw [← he]
            unfold updateStepsize
            simp only
            split
            · exact Or.inl ⟨_, rfl⟩
            · exact Or.inl ⟨_, rfl⟩
            · exact Or.inl ⟨_, rfl⟩
            · exact Or.inr rfl
          rcases hni _ rfl with ⟨t, ht⟩ | ht
          · exact Or.inl ⟨t, ht, S.updateStepsize_mem ha.rhoMax ht⟩
          · exact Or.inr ht
        · intro q hq hn
          rw [e1] at hq
          cases hq
          rw [f1] at hn
          exact S.updateStepsize_nan hn
      · obtain ⟨f1, -⟩ := e7 h0
        rw [f1]
        constructor
        · rcases hp with hp | hp
          · rw [hp] at h0; simp at h0
          · rw [h2] at hp; exact hp
        · intro q hq hn; cases hn
    · rw [h2]
      exact ⟨Or.inr rfl, fun q hq => by rw [h1] at hq; cases hq⟩
  induction h with
  | first hu => exact step (some p0, S.initState p0) (Or.inl rfl) _ hu
  | step hr hc hu ih => exact step _ (Or.inr ih.1) _ hu

/-- Reachable states with status SOLVED come from a successful test, and the loop stops there. -/
theorem reach_solved (S : BoxOSQP K n m) {p0 : Params K n m} : ∀ r, S.Reach p0 r → r.2.status = .solved →
    S.cont r = false ∧ ∃ q, r.1 = some q ∧ (∀ i, |S.primalRes q.x q.z i| ≤ S.tol) ∧ ∀ j, |S.dualRes q.x q.y j| ≤ S.tol := by
  have step : ∀ p r, S.update p = .ok r → (p.2.status = .solved → S.cont p = false) → (p.2.iterNum = 0 ∨ S.cont p = true) →
      p.2.status = .solved ∨ r.2.status = .solved → r.2.status = .solved → (p.2.iterNum = 0 → p.2.status = .unsolved) →
      S.cont r = false ∧ ∃ q, r.1 = some q ∧ (∀ i, |S.primalRes q.x q.z i| ≤ S.tol) ∧ ∀ j, |S.dualRes q.x q.y j| ≤ S.tol := by
    intro p r hu hp hc _ hs h00
    have hps : p.2.status ≠ .solved := by
      intro hcon
      rcases hc with hc | hc
      · rw [h00 hc] at hcon; cases hcon
      · rw [hp hcon] at hc; cases hc
    rcases S.update_cases hu with ⟨q', rho, rho', h1, h2, h3, h4⟩ | ⟨h1, h2, h3, h4⟩
    · obtain ⟨e1, -, -, -, -, -, -, e8, e9⟩ := S.updateFin_ok h4
      by_cases h0 : p.2.iterNum % S.terminationCheckFrequency = 0
      · obtain ⟨f1, f2⟩ := e8 h0
        rw [f2] at hs
        set a := S.admmStep q' rho rho' p.2
        have hcrit : S.checkTermination (S.primalRes a.1 a.2.1) (S.dualRes a.1 a.2.2.1) q' (fullKKT a.1 a.2.1 a.2.2.1) =
            S.computeError (S.primalRes a.1 a.2.1) (S.dualRes a.1 a.2.2.1) ∧
            max (infNorm (S.primalRes a.1 a.2.1)) (infNorm (S.dualRes a.1 a.2.2.1)) ≤ S.tol := by
          have hcomp : (S.computeError (S.primalRes a.1 a.2.1) (S.dualRes a.1 a.2.2.1)).2 = .solved →
              max (infNorm (S.primalRes a.1 a.2.1)) (infNorm (S.dualRes a.1 a.2.2.1)) ≤ S.tol := by
            intro hh
            unfold computeError at hh
            simp only at hh
            by_contra hcon
            rw [if_neg hcon] at hh; cases hh
          unfold checkTermination at hs ⊢
          simp only at hs ⊢
          split_ifs at hs ⊢ with g1 g2 g3
          · exact ⟨rfl, hcomp hs⟩
          · exact ⟨rfl, hcomp hs⟩
        refine ⟨?_, _, e1, fun i => ?_, fun j => ?_⟩
        · rw [cont, f1, hcrit.1]
          exact decide_eq_false (not_lt.mpr hcrit.2)
        · exact (abs_le_infNorm _ i).trans ((le_max_left _ _).trans hcrit.2)
        · exact (abs_le_infNorm _ j).trans ((le_max_right _ _).trans hcrit.2)
      · obtain ⟨-, f2⟩ := e9 h0
        rw [f2] at hs; exact absurd hs hps
    · by_cases h0 : p.2.iterNum % S.terminationCheckFrequency = 0
      · rw [(h3 h0).2] at hs; cases hs
      · rw [(h4 h0).2] at hs; exact absurd hs hps
  intro r hr
  induction hr with
  | first hu =>
    intro hs
    exact step (some _, S.initState _) _ hu (fun hcon => by cases hcon) (Or.inl rfl) (Or.inr hs) hs (fun _ => rfl)
  | @step p r hp hc hu ih =>
    intro hs
    refine step p r hu (fun hcon => (ih hcon).1) (Or.inr hc) (Or.inr hs) hs (fun h0 => ?_)
    -- reachable states have done at least one iteration
    exfalso
    have : ∀ p, S.Reach p0 p → p.2.iterNum ≠ 0 := by
      intro p hp
      have aux : ∀ p r, S.update p = .ok r → r.2.iterNum = p.2.iterNum + 1 := by
        intro p r hu
        unfold update at hu
        split at hu
        · exact (S.updateFin_ok hu).2.1
        · unfold updateNan at hu
          simp only at hu
          cases hraise : S.raiseIfInfeasible (if p.2.iterNum % S.terminationCheckFrequency = 0 then ((.nan : Ext K), Status.unsolved)
            else (p.2.error, p.2.status)).2 with
          | error e => rw [hraise] at hu; cases hu
          | ok e => rw [hraise] at hu; cases hu; rfl
      cases hp with
      | first hu => rw [aux _ _ hu]; omega
      | step _ _ hu => rw [aux _ _ hu]; omega
    exact this p hp h0

/-- **C38**, status: if a run returns with status SOLVED, the parameters are not NaN and both residuals of the returned parameters are
at most `tol` in every entry. -/
theorem C38_solved (S : BoxOSQP K n m) (ha : S.Attr) {init : Option (Params K n m)} {r : Option (Params K n m) × State K n m}
    (h : S.run init = .ok r) (hs : r.2.status = .solved) :
    ∃ q, r.1 = some q ∧ (∀ i, |S.primalRes q.x q.z i| ≤ S.tol) ∧ ∀ j, |S.dualRes q.x q.y j| ≤ S.tol := by
  exact (S.reach_solved r (S.run_reach h) hs).2

theorem obj_expand (S : BoxOSQP K n m) (hQ : S.Q.transpose = S.Q) (x d : Fin n → K) :
    S.obj (x + d) = S.obj x + d ⬝ᵥ (S.Q.mulVec x + S.c) + 1 / 2 * (d ⬝ᵥ S.Q.mulVec d) := by
  have hsym : x ⬝ᵥ S.Q.mulVec d = d ⬝ᵥ S.Q.mulVec x := by
    rw [Matrix.dotProduct_mulVec, ← Matrix.mulVec_transpose, hQ, dotProduct_comm]
  unfold obj
  rw [Matrix.mulVec_add, add_dotProduct, dotProduct_add, dotProduct_add, dotProduct_add, dotProduct_add, hsym, dotProduct_comm S.c d]
  ring

theorem good_normal (S : BoxOSQP K n m) {q : Params K n m} (hq : S.Good q) {v : Fin m → K} (hv : S.InBox v) : (v - q.z) ⬝ᵥ q.y ≤ 0 := by
  rw [dotProduct]
  refine Finset.sum_nonpos fun i _ => ?_
  rw [Pi.sub_apply]
  rcases lt_trichotomy (q.y i) 0 with h | h | h
  · have := (hv i).1 _ (hq.lower i h)
    exact mul_nonpos_of_nonneg_of_nonpos (by linarith) h.le
  · rw [h]; simp
  · have := (hv i).2 _ (hq.upper i h)
    exact mul_nonpos_of_nonpos_of_nonneg (by linarith) h.le

/-- **C38**, quality of the returned point: for positive semidefinite `Q`, every parameters with the invariant of `C38_iterates`
satisfy, with `r`, `d` their primal and dual residuals, `obj(x) ≤ obj(x') + ⟨x - x', d⟩ + ⟨y, -r⟩` for every feasible `x'`. -/
theorem C38_gap (S : BoxOSQP K n m) (hQ : S.PSD) {q : Params K n m} (hq : S.Good q) {x' : Fin n → K} (hx' : S.Feasible x') :
    S.obj q.x ≤ S.obj x' + (q.x - x') ⬝ᵥ S.dualRes q.x q.y - S.primalRes q.x q.z ⬝ᵥ q.y := by
  have e : x' = q.x + (x' - q.x) := by abel
  have h1 := S.obj_expand hQ.1 q.x (x' - q.x)
  rw [← e] at h1
  have h2 := hQ.2 (x' - q.x)
  have h3 := S.good_normal hq hx'
  have h4 : (x' - q.x) ⬝ᵥ S.A.transpose.mulVec q.y = (S.A.mulVec x' - S.A.mulVec q.x) ⬝ᵥ q.y := by
    rw [← Matrix.mulVec_sub, Matrix.mulVec_transpose, dotProduct_comm, ← Matrix.dotProduct_mulVec, dotProduct_comm]
  have h5 : (q.x - x') ⬝ᵥ S.dualRes q.x q.y = -((x' - q.x) ⬝ᵥ (S.Q.mulVec q.x + S.c)) - (x' - q.x) ⬝ᵥ S.A.transpose.mulVec q.y := by
    have : q.x - x' = -(x' - q.x) := by abel
    rw [this, neg_dotProduct, dualRes, dotProduct_add]; ring
  rw [h5, h4, primalRes]
  simp only [sub_dotProduct] at h3 h1 h2 ⊢
  linarith

/-- **C38**, optimality: if both residuals of reachable parameters vanish, `x` is feasible and a global minimiser of the QP, for every
positive semidefinite `Q`. -/
theorem C38_optimal (S : BoxOSQP K n m) (ha : S.Attr) (hQ : S.PSD) {p0 : Params K n m} {r : Option (Params K n m) × State K n m}
    (h : S.Reach p0 r) {q : Params K n m} (hq : r.1 = some q) (h1 : r.2.primalResiduals = 0) (h2 : r.2.dualResiduals = 0) :
    S.Feasible q.x ∧ ∀ x', S.Feasible x' → S.obj q.x ≤ S.obj x' := by
  obtain ⟨hg, e1, e2, -⟩ := S.C38_iterates ha h hq
  rw [e1] at h1
  rw [e2] at h2
  have hz : S.A.mulVec q.x = q.z := sub_eq_zero.mp h1
  refine ⟨by rw [Feasible, hz]; exact hg.box, fun x' hx' => ?_⟩
  have := S.C38_gap hQ hg hx'
  rw [h1, h2] at this
  simpa using this

/-- **C38**, fixed points: with a linear solver that is exact on the system it is given, parameters that an update leaves unchanged
have zero residuals (so they are optimal). -/
theorem C38_fixed_point (S : BoxOSQP K n m) (hm : S.momentum ≠ 0) {p : Params K n m} {rho : K} (hr : 0 < rho) (st : State K n m)
    (hs : ∀ b, S.kktMat rho (S.solve (S.kktMat rho) b st.prevSol (S.atol st)) = b)
    (hx : (S.admmStep p rho rho st).1 = p.x) (hz : (S.admmStep p rho rho st).2.1 = p.z) (hy : (S.admmStep p rho rho st).2.2.1 = p.y) :
    S.primalRes p.x p.z = 0 ∧ S.dualRes p.x p.y = 0 := by
  set xb := S.solveLinear p rho rho st with hxb
  have h1 : p.x + S.momentum • (xb - p.x) = p.x := hx
  have hxx : xb = p.x := by
    have h0 : S.momentum • (xb - p.x) = 0 := by simpa using h1
    funext j
    have := congrFun h0 j
    simp only [Pi.smul_apply, smul_eq_mul, Pi.zero_apply, mul_eq_zero, hm, false_or, Pi.sub_apply] at this
    linarith
  have h2 : p.y + rho • ((p.z + S.momentum • (S.A.mulVec xb - p.z)) - (S.admmStep p rho rho st).2.1) = p.y := hy
  rw [hz, hxx] at h2
  have hA : S.A.mulVec p.x - p.z = 0 := by
    funext i
    have := congrFun h2 i
    simp only [Pi.add_apply, Pi.smul_apply, Pi.sub_apply, smul_eq_mul] at this
    have h3 : rho * (S.momentum * (S.A.mulVec p.x i - p.z i)) = 0 := by linear_combination this
    rcases mul_eq_zero.mp h3 with h | h
    · exact absurd h hr.ne'
    · rcases mul_eq_zero.mp h with h | h
      · exact absurd h hm
      · exact h
  refine ⟨hA, ?_⟩
  have h4 : S.kktMat rho xb = (S.sigma • p.x - S.c) - S.A.transpose.mulVec (p.y + (-rho) • p.z) := hs _
  rw [hxx, kktMat, sub_eq_zero.mp hA, Matrix.mulVec_add, Matrix.mulVec_smul] at h4
  unfold dualRes
  funext j
  have := congrFun h4 j
  simp only [Pi.add_apply, Pi.smul_apply, Pi.sub_apply, smul_eq_mul, Pi.zero_apply] at this ⊢
  linear_combination this

/-! ## C39 -/

/-- What the primal test really measures: for a direction `dy` that does not use infinite bounds, every feasible `x` satisfies
`-‖x‖₁·‖Aᵀdy‖∞ ≤ certif_lu`. -/
theorem certifLU_ge (S : BoxOSQP K n m) {dy : Fin m → K} (hu : ∀ i, S.u i = none → dy i ≤ 0) (hl : ∀ i, S.l i = none → 0 ≤ dy i)
    {x : Fin n → K} (hx : S.Feasible x) : -((∑ j, |x j|) * infNorm (S.A.transpose.mulVec dy)) ≤ S.certifLU dy := by
  have h1 : S.A.mulVec x ⬝ᵥ dy ≤ S.certifLU dy := by
    rw [certifLU, ← Finset.sum_add_distrib, dotProduct]
    refine Finset.sum_le_sum fun i _ => ?_
    have hi := hx i
    unfold relu
    rcases le_total 0 (dy i) with h | h
    · rw [max_eq_right (by linarith : -dy i ≤ 0), max_eq_left h]
      rcases hui : S.u i with _ | b
      · have := hu i hui
        have h0 : dy i = 0 := le_antisymm this h
        rw [h0]; simp
      · have := hi.2 b hui
        simp only [Option.getD_some, neg_zero, mul_zero, zero_add]
        exact mul_le_mul_of_nonneg_right this h
    · rw [max_eq_left (by linarith : 0 ≤ -dy i), max_eq_right h]
      rcases hli : S.l i with _ | b
      · have := hl i hli
        have h0 : dy i = 0 := le_antisymm h this
        rw [h0]; simp
      · have := hi.1 b hli
        simp only [Option.getD_some, neg_neg, mul_zero, add_zero]
        exact mul_le_mul_of_nonpos_right this h
  have h2 : S.A.mulVec x ⬝ᵥ dy = ∑ j, x j * S.A.transpose.mulVec dy j := by
    change _ = x ⬝ᵥ S.A.transpose.mulVec dy
    rw [Matrix.mulVec_transpose, dotProduct_comm, Matrix.dotProduct_mulVec, dotProduct_comm]
  have h3 : -((∑ j, |x j|) * infNorm (S.A.transpose.mulVec dy)) ≤ ∑ j, x j * S.A.transpose.mulVec dy j := by
    rw [Finset.sum_mul, ← Finset.sum_neg_distrib]
    refine Finset.sum_le_sum fun j _ => ?_
    have := abs_le_infNorm (S.A.transpose.mulVec dy) j
    have h4 : |x j * S.A.transpose.mulVec dy j| ≤ |x j| * infNorm (S.A.transpose.mulVec dy) := by
      rw [abs_mul]; exact mul_le_mul_of_nonneg_left this (abs_nonneg _)
    have := neg_abs_le (x j * S.A.transpose.mulVec dy j)
    linarith
  linarith

/-- **C39**, primal infeasibility, what the test does establish: if the direction `dy` passes the test, does not use infinite bounds,
and `certif_lu < -R·criterion`, then no feasible point has `‖x‖₁ ≤ R`.  In particular an exact certificate (`Aᵀdy = 0`,
`certif_lu < 0`) proves infeasibility.  Missing from the claim: the strict inequality, which the code does not test; see
`C39_inactive_false`. -/
theorem C39_primal_partial (S : BoxOSQP K n m) {dy : Fin m → K} (hu : ∀ i, S.u i = none → dy i ≤ 0) (hl : ∀ i, S.l i = none → 0 ≤ dy i)
    (ht : S.certifPrimal dy = true) :
    (∀ R : K, S.certifLU dy < -(R * (S.primalInfeasibleTol * infNorm dy)) → ∀ x, ∑ j, |x j| ≤ R → ¬ S.Feasible x) ∧
    (S.A.transpose.mulVec dy = 0 → S.certifLU dy < 0 → ∀ x, ¬ S.Feasible x) := by
  have hA : infNorm (S.A.transpose.mulVec dy) ≤ S.primalInfeasibleTol * infNorm dy := by
    simp only [certifPrimal, Bool.and_eq_true, decide_eq_true_eq] at ht
    exact ht.1
  constructor
  · intro R hR x hxR hx
    have h1 := S.certifLU_ge hu hl hx
    have h2 := mul_le_mul hxR hA (infNorm_nonneg _) ((Finset.sum_nonneg fun j _ => abs_nonneg _).trans hxR)
    linarith
  · intro h0 hlt x hx
    have h1 := S.certifLU_ge hu hl hx
    rw [h0, infNorm_eq_zero.mpr rfl] at h1
    linarith

/-- **C39**, dual infeasibility: an exact certificate (`Q dx = 0`, `⟨c, dx⟩ < 0`, `A dx` a recession direction of the box) means that
the problem has no minimiser. -/
theorem C39_dual_partial (S : BoxOSQP K n m) (hQ : S.Q.transpose = S.Q) {dx : Fin n → K} (h1 : S.Q.mulVec dx = 0) (h2 : S.c ⬝ᵥ dx < 0)
    (hl : ∀ i a, S.l i = some a → 0 ≤ S.A.mulVec dx i) (hu : ∀ i a, S.u i = some a → S.A.mulVec dx i ≤ 0) (x : Fin n → K)
    (hx : S.Feasible x) : ∃ x', S.Feasible x' ∧ S.obj x' < S.obj x := by
  refine ⟨x + dx, fun i => ?_, ?_⟩
  · have := hx i
    rw [Matrix.mulVec_add]
    constructor
    · intro a ha
      have := this.1 a ha
      have := hl i a ha
      simp only [Pi.add_apply]; linarith
    · intro a ha
      have := this.2 a ha
      have := hu i a ha
      simp only [Pi.add_apply]; linarith
  · rw [S.obj_expand hQ, h1, dotProduct_add]
    have e : dx ⬝ᵥ S.Q.mulVec x = 0 := by
      rw [Matrix.dotProduct_mulVec, ← Matrix.mulVec_transpose, hQ, h1]; simp
    rw [e, dotProduct_comm dx S.c]
    simp; exact h2

/-- The status codes of infeasibility are only produced by the tests. -/
theorem C39_status (S : BoxOSQP K n m) (primal : Fin m → K) (dual : Fin n → K) (old new : Params K n m) :
    ((S.checkTermination primal dual old new).2 = .primalInfeasible →
      S.checkInfeasability = true ∧ S.certifPrimal (new.y - old.y) = true) ∧
    ((S.checkTermination primal dual old new).2 = .dualInfeasible →
      S.checkInfeasability = true ∧ S.certifDual (new.x - old.x) = true) := by
  have hcomp : (S.computeError primal dual).2 = .solved ∨ (S.computeError primal dual).2 = .unsolved := by
    unfold computeError; simp only; split_ifs <;> simp
  unfold checkTermination
  simp only
  constructor
  · intro h
    split_ifs at h with h1 h2 h3
    · exact ⟨h1, h2⟩
    · rcases hcomp with e | e <;> rw [e] at h <;> cases h
    · rcases hcomp with e | e <;> rw [e] at h <;> cases h
  · intro h
    split_ifs at h with h1 h2 h3
    · exact ⟨h1, h3⟩
    · rcases hcomp with e | e <;> rw [e] at h <;> cases h
    · rcases hcomp with e | e <;> rw [e] at h <;> cases h

/-- **C39**, default of `check_primal_dual_infeasability` with `jit=True` (no check): no execution raises, and no reachable state is
reported infeasible. -/
theorem C39_no_check (S : BoxOSQP K n m) (hc : S.checkInfeasability = false) {p0 : Params K n m} :
    (∃ r, S.run (some p0) = .ok r) ∧
    ∀ r, S.Reach p0 r → r.2.status ≠ .primalInfeasible ∧ r.2.status ≠ .dualInfeasible := by
  have hcomp : ∀ a b, (S.computeError a b).2 = .solved ∨ (S.computeError a b).2 = .unsolved := by
    intro a b; unfold computeError; simp only; split_ifs <;> simp
  have step : ∀ p : Option (Params K n m) × State K n m, p.2.status ≠ .primalInfeasible ∧ p.2.status ≠ .dualInfeasible →
      ∃ r, S.update p = .ok r ∧ r.2.status ≠ .primalInfeasible ∧ r.2.status ≠ .dualInfeasible := by
    intro p hp
    have hraise : ∀ s : Status, s ≠ .primalInfeasible ∧ s ≠ .dualInfeasible → S.raiseIfInfeasible s = .ok () := by
      intro s hs
      unfold raiseIfInfeasible
      split_ifs
      · rfl
      · cases s <;> simp_all
    unfold update
    split
    · rename_i q rho rho' h1 h2 h3
      set a := S.admmStep q rho rho' p.2 with ha
      have hst : (if p.2.iterNum % S.terminationCheckFrequency = 0 then
          ((.fin (S.checkTermination (S.primalRes a.1 a.2.1) (S.dualRes a.1 a.2.2.1) q (fullKKT a.1 a.2.1 a.2.2.1)).1 : Ext K),
            (S.checkTermination (S.primalRes a.1 a.2.1) (S.dualRes a.1 a.2.2.1) q (fullKKT a.1 a.2.1 a.2.2.1)).2)
          else (p.2.error, p.2.status)).2 ≠ .primalInfeasible ∧ (if p.2.iterNum % S.terminationCheckFrequency = 0 then
          ((.fin (S.checkTermination (S.primalRes a.1 a.2.1) (S.dualRes a.1 a.2.2.1) q (fullKKT a.1 a.2.1 a.2.2.1)).1 : Ext K),
            (S.checkTermination (S.primalRes a.1 a.2.1) (S.dualRes a.1 a.2.2.1) q (fullKKT a.1 a.2.1 a.2.2.1)).2)
          else (p.2.error, p.2.status)).2 ≠ .dualInfeasible := by
        split_ifs with h0
        · unfold checkTermination
          simp only [hc]
          rcases hcomp (S.primalRes a.1 a.2.1) (S.dualRes a.1 a.2.2.1) with e | e <;> simp [e]
        · exact hp
      unfold updateFin
      simp only [← ha, hraise _ hst]
      exact ⟨_, rfl, hst⟩
    · unfold updateNan
      have hst : (if p.2.iterNum % S.terminationCheckFrequency = 0 then ((.nan : Ext K), Status.unsolved)
          else (p.2.error, p.2.status)).2 ≠ .primalInfeasible ∧ (if p.2.iterNum % S.terminationCheckFrequency = 0 then
          ((.nan : Ext K), Status.unsolved) else (p.2.error, p.2.status)).2 ≠ .dualInfeasible := by
        split_ifs
        · simp
        · exact hp
      simp only [hraise _ hst]
      exact ⟨_, rfl, hst⟩
  have hinit : (S.initState p0).status ≠ .primalInfeasible ∧ (S.initState p0).status ≠ .dualInfeasible := by simp [initState]
  have hloop : ∀ k (p : Option (Params K n m) × State K n m), p.2.status ≠ .primalInfeasible ∧ p.2.status ≠ .dualInfeasible →
      ∃ r, S.loop k p = .ok r := by
    intro k
    induction k with
    | zero => intro p _; exact ⟨p, rfl⟩
    | succ k ih =>
      intro p hp
      unfold loop
      split_ifs
      · obtain ⟨r, hr, hr2⟩ := step p hp
        rw [hr]; exact ih r hr2
      · exact ⟨p, rfl⟩
  constructor
  · obtain ⟨r, hr, hr2⟩ := step (some p0, S.initState p0) hinit
    obtain ⟨r', hr'⟩ := hloop (S.maxiter - 1) r hr2
    exact ⟨r', by simp only [run, Option.getD_some, hr]; exact hr'⟩
  · intro r hr
    induction hr with
    | first hu =>
      obtain ⟨r, hr, hr2⟩ := step (some p0, S.initState p0) hinit
      rw [hu] at hr; cases hr; exact hr2
    | step _ _ hu ih =>
      obtain ⟨r, hr, hr2⟩ := step _ ih
      rw [hu] at hr; cases hr; exact hr2

/-- **C39**, why the check is wrong: whenever the multiplier does not change between two iterates (constraints inactive, or the
solution already reached), the check reports PRIMAL_INFEASIBLE and overwrites SOLVED — for every problem, feasible or not. -/
theorem C39_unchanged_dual_false (S : BoxOSQP K n m) (hc : S.checkInfeasability = true) (primal : Fin m → K) (dual : Fin n → K)
    {old new : Params K n m} (h : new.y = old.y) : S.checkTermination primal dual old new = (0, .primalInfeasible) := by
  have h0 : new.y - old.y = 0 := sub_eq_zero.mpr h
  have hcert : S.certifPrimal (new.y - old.y) = true := by
    rw [h0]
    simp only [certifPrimal, Matrix.mulVec_zero, certifLU, relu, Bool.and_eq_true, decide_eq_true_eq]
    rw [infNorm_eq_zero.mpr rfl, infNorm_eq_zero.mpr rfl]
    simp
  unfold checkTermination
  simp only [hc, hcert, if_true]

end BoxOSQP

/-! ## Witnesses -/

/-- Diagonal systems are solved exactly by dividing by the images of the unit vectors. -/
def diagSolve {n : ℕ} (M : (Fin n → ℚ) → (Fin n → ℚ)) (b _prev : Fin n → ℚ) (_atol : ℚ) : Fin n → ℚ := fun i => b i / M (Pi.single i 1) i

/-- Default attributes, with exact diagonal linear algebra and `sqrt` replaced by the identity (it is only applied to the ratio
of residuals). -/
def exBoxOSQP {n m : ℕ} (Q : Matrix (Fin n) (Fin n) ℚ) (c : Fin n → ℚ) (A : Matrix (Fin m) (Fin n) ℚ) (l u : Fin m → Option ℚ)
    (jit : Bool) : BoxOSQP ℚ n m where
  Q := Q
  c := c
  A := A
  l := l
  u := u
  checkInfeasability := !jit
  sigma := 1 / 1000000
  momentum := 8 / 5
  rhoStart := 1 / 10
  rhoMin := 1 / 1000000
  rhoMax := 1000000
  stepsizeUpdatesFrequency := 10
  primalInfeasibleTol := 1 / 1000
  dualInfeasibleTol := 1 / 1000
  maxiter := 4000
  tol := 1 / 1000
  terminationCheckFrequency := 5
  jit := jit
  solve := diagSolve
  sqrt := fun a => a
  epsDiv := 1 / 8388608

/-- **C39 is false**: `min ½x² + x` subject to `-10 ≤ x ≤ 10` has the solution `-1` and an inactive constraint, but the run with
`jit=False` raises "Primal infeasible": the multiplier stays `0`, and the test accepts the zero direction. -/
theorem C39_inactive_false :
    let S := exBoxOSQP (n := 1) (m := 1) !![1] ![1] !![1] ![some (-10)] ![some 10] false
    (match S.run none with | .error e => e = "Primal infeasible." | .ok _ => False) ∧
      S.Feasible ![-1] ∧ ∀ x, S.obj ![-1] ≤ S.obj x := by
  intro S
  refine ⟨?_, ?_, ?_⟩
  · have : (match S.run none with | .error e => decide (e = "Primal infeasible.") | .ok _ => false) = true := by decide +kernel
    revert this
    cases S.run none <;> simp
  · intro i
    fin_cases i
    constructor
    · rintro b hb
      have : b = -10 := by simpa [S, exBoxOSQP, eq_comm] using hb
      rw [this]
      simp [S, exBoxOSQP, Matrix.mulVec, dotProduct]
    · rintro b hb
      have : b = 10 := by simpa [S, exBoxOSQP, eq_comm] using hb
      rw [this]
      simp [S, exBoxOSQP, Matrix.mulVec, dotProduct]; norm_num
  · intro x
    simp [S, exBoxOSQP, BoxOSQP.obj, Matrix.mulVec, dotProduct]
    nlinarith [sq_nonneg (x 0 + 1)]

/-- **C38 is false for `rho_bar`**: on `min ½‖x‖² + x₁` subject to `-1 ≤ x₂ ≤ 1` (default attributes, `jit=True`) the first update
divides `0` by `0`, `rho_bar` becomes NaN, and the run returns NaN parameters with status UNSOLVED. -/
theorem C38_rho_false :
    let S := exBoxOSQP (n := 2) (m := 1) !![1, 0; 0, 1] ![1, 0] !![0, 1] ![some (-1)] ![some 1] true
    ∃ r, S.run none = .ok r ∧ r.1.isNone = true ∧ r.2.rhoBar = .nan ∧ r.2.status = .unsolved := by
  intro S
  obtain ⟨r, hr, hv⟩ := ok_of_toOption (x := S.run none) (φ := fun r => (r.1.isNone, r.2.rhoBar, r.2.status))
    (v := (true, .nan, .unsolved)) (by decide +kernel)
  exact ⟨r, hr, congrArg (·.1) hv, congrArg (·.2.1) hv, congrArg (·.2.2) hv⟩

/-- Non-vacuity of the C38 theorems: with `1 ≤ x` active the run of `min ½x² + x` reaches SOLVED. -/
example : let S := exBoxOSQP (n := 1) (m := 1) !![1] ![1] !![1] ![some 1] ![none] true
    ∃ r, S.run none = .ok r ∧ r.1.isSome = true ∧ r.2.status = .solved := by
  intro S
  obtain ⟨r, hr, hv⟩ := ok_of_toOption (x := S.run none) (φ := fun r => (r.1.isSome, r.2.status))
    (v := (true, .solved)) (by decide +kernel)
  exact ⟨r, hr, congrArg (·.1) hv, congrArg (·.2) hv⟩

end Jaxopt.OSQP
