import Verif.OSQP.Transform
import Verif.OSQP.BoxProps
import Mathlib.Data.List.GetD

/-!
# Property C40: the conversion between `OSQP` and `BoxOSQP` problems
-/

set_option autoImplicit false
set_option linter.unusedSectionVars false
set_option linter.unusedVariables false

namespace Jaxopt.OSQP

open Jaxopt.Proj

variable {K : Type*} [Field K] [LinearOrder K] [IsStrictOrderedRing K] {n : ℕ}

/-! ## Specification -/

namespace Problem

/-- Rows, right-hand sides; empty when the kind of constraint is absent. -/
def A (P : Problem K n) : List (Fin n → K) := (P.eq.map (·.1)).getD []
def b (P : Problem K n) : List K := (P.eq.map (·.2)).getD []
def G (P : Problem K n) : List (Fin n → K) := (P.ineq.map (·.1)).getD []
def h (P : Problem K n) : List K := (P.ineq.map (·.2)).getD []

/-- The numbers of rows match. -/
def Wf (P : Problem K n) : Prop := P.A.length = P.b.length ∧ P.G.length = P.h.length

/-- `Ax = b` and `Gx ≤ h`. -/
def Feasible (P : Problem K n) (x : Fin n → K) : Prop :=
  List.Forall₂ (fun a t => a ⬝ᵥ x = t) P.A P.b ∧ List.Forall₂ (fun g t => g ⬝ᵥ x ≤ t) P.G P.h

/-- The objective. -/
def obj (P : Problem K n) (x : Fin n → K) : K := 1 / 2 * (x ⬝ᵥ P.Q.mulVec x) + P.c ⬝ᵥ x

end Problem

/-- `Aᵀv` for rows and multipliers in lists. -/
def combine (v : List K) (A : List (Fin n → K)) : Fin n → K := (List.zipWith (fun t a => t • a) v A).sum

/-! ## Lemmas -/

theorem getD_eq_get {α : Type*} (L : List α) (d : α) (i : Fin L.length) : L.getD i d = L.get i := by
  simp

theorem inBox_iff_forall₂ (A : List (Fin n → K)) (l u : List (Option K)) (hl : A.length = l.length) (hu : A.length = u.length)
    (v : (Fin n → K) → K) :
    (∀ i : Fin A.length, GeB (v (A.get i)) (l.getD i none) ∧ LeB (v (A.get i)) (u.getD i none)) ↔
      List.Forall₂ (fun a t => GeB (v a) t) A l ∧ List.Forall₂ (fun a t => LeB (v a) t) A u := by
  constructor
  · intro h
    constructor
    · rw [List.forall₂_iff_get]
      refine ⟨hl, fun i h1 h2 => ?_⟩
      have := (h ⟨i, h1⟩).1
      rw [List.getD_eq_getElem _ _ h2] at this; exact this
    · rw [List.forall₂_iff_get]
      refine ⟨hu, fun i h1 h2 => ?_⟩
      have := (h ⟨i, h1⟩).2
      rw [List.getD_eq_getElem _ _ h2] at this; exact this
  · rintro ⟨h1, h2⟩ i
    rw [List.forall₂_iff_get] at h1 h2
    have hi := i.2
    constructor
    · have := h1.2 i hi (hl ▸ hi)
      rw [List.getD_eq_getElem _ _ (hl ▸ hi : (i : ℕ) < l.length)]; exact this
    · have := h2.2 i hi (hu ▸ hi)
      rw [List.getD_eq_getElem _ _ (hu ▸ hi : (i : ℕ) < u.length)]; exact this

theorem forall₂_append_iff {α β : Type*} {R : α → β → Prop} {a1 a2 : List α} {b1 b2 : List β} (h : a1.length = b1.length) :
    List.Forall₂ R (a1 ++ a2) (b1 ++ b2) ↔ List.Forall₂ R a1 b1 ∧ List.Forall₂ R a2 b2 := by
  induction a1 generalizing b1 with
  | nil =>
    cases b1 with
    | nil => simp
    | cons _ _ => simp at h
  | cons x xs ih =>
    cases b1 with
    | nil => simp at h
    | cons y ys =>
      simp only [List.cons_append, List.forall₂_cons, ih (by simpa using h)]
      tauto

theorem geB_some {a b : K} : GeB a (some b) ↔ b ≤ a := by simp [GeB]
theorem leB_some {a b : K} : LeB a (some b) ↔ a ≤ b := by simp [LeB]
theorem geB_none {a : K} : GeB a none := by simp [GeB]

theorem forall₂_none (v : (Fin n → K) → K) (G : List (Fin n → K)) (h : List K) (hlen : G.length = h.length) :
    List.Forall₂ (fun a t => GeB (v a) t) G (h.map fun _ => none) := by
  induction G generalizing h with
  | nil => cases h <;> simp_all
  | cons g gs ih =>
    cases h with
    | nil => simp at hlen
    | cons t ts => exact List.Forall₂.cons geB_none (ih ts (by simpa using hlen))

theorem forall₂_eq (v : (Fin n → K) → K) (A : List (Fin n → K)) (b : List K) :
    List.Forall₂ (fun a t => v a = t) A b ↔
      List.Forall₂ (fun a t => GeB (v a) t) A (b.map some) ∧ List.Forall₂ (fun a t => LeB (v a) t) A (b.map some) := by
  induction A generalizing b with
  | nil => cases b <;> simp
  | cons a as ih =>
    cases b with
    | nil => simp
    | cons t ts =>
      have e : v a = t ↔ v a ≤ t ∧ t ≤ v a := le_antisymm_iff
      simp only [List.map_cons, List.forall₂_cons, ih, geB_some, leB_some, e]
      tauto

theorem forall₂_le (v : (Fin n → K) → K) (G : List (Fin n → K)) (h : List K) :
    List.Forall₂ (fun a t => v a ≤ t) G h ↔ List.Forall₂ (fun a t => LeB (v a) t) G (h.map some) := by
  induction G generalizing h with
  | nil => cases h <;> simp
  | cons a as ih =>
    cases h with
    | nil => simp
    | cons t ts => simp only [List.map_cons, List.forall₂_cons, ih, leB_some]

/-- The transformed data in terms of the rows. -/
theorem transform_ok {P : Problem K n} {d : BoxData K n} (h : transform P = .ok d) :
    d.A = P.A ++ P.G ∧ d.l = P.b.map some ++ P.h.map (fun _ => none) ∧ d.u = P.b.map some ++ P.h.map some := by
  unfold transform at h
  split_ifs at h
  cases h
  rcases P with ⟨Q, c, _ | ⟨A, b⟩, _ | ⟨G, h⟩⟩ <;>
    simp [rowBlocks, lowerBlocks, upperBlocks, Problem.A, Problem.b, Problem.G, Problem.h]

theorem combine_append {v1 v2 : List K} {A1 A2 : List (Fin n → K)} (h : v1.length = A1.length) :
    combine (v1 ++ v2) (A1 ++ A2) = combine v1 A1 + combine v2 A2 := by
  unfold combine
  rw [List.zipWith_append h, List.sum_append]

theorem transpose_mulVec_get (A : List (Fin n → K)) (y : Fin A.length → K) :
    (Matrix.of fun i => A.get i).transpose.mulVec y = combine (List.ofFn y) A := by
  have e : List.zipWith (fun (t : K) (a : Fin n → K) => t • a) (List.ofFn y) A = List.ofFn fun i => y i • A.get i := by
    refine List.ext_get (by simp) fun i h1 h2 => ?_
    simp
  unfold combine
  rw [e, List.sum_ofFn]
  funext j
  rw [Finset.sum_apply]
  simp only [Matrix.mulVec, dotProduct, Matrix.transpose_apply, Matrix.of_apply, Pi.smul_apply, smul_eq_mul]
  exact Finset.sum_congr rfl fun i _ => mul_comm _ _

/-! ## C40 -/

/-- **C40**, feasible set and objective: for every well-formed problem, with any number of rows, the box problem has the same
feasible points and the same objective; the conversion raises exactly when both kinds of constraints are absent. -/
theorem C40_transform (P : Problem K n) (hw : P.Wf) {m : ℕ} (S : BoxOSQP K n m) :
    (P.eq = none ∧ P.ineq = none ↔ ∃ e, transform P = .error e) ∧
    ∀ d, transform P = .ok d → (∀ x, (boxOf S P d).Feasible x ↔ P.Feasible x) ∧ (∀ x, (boxOf S P d).obj x = P.obj x) ∧
      (boxOf S P d).BoundsOk := by
  constructor
  · rcases P with ⟨Q, c, _ | ⟨A, b⟩, _ | ⟨G, h⟩⟩ <;> simp [transform]
  · intro d hd
    obtain ⟨hA, hl, hu⟩ := transform_ok hd
    have hlen : d.A.length = d.l.length := by rw [hA, hl]; simp [hw.1, hw.2]
    have hlen' : d.A.length = d.u.length := by rw [hA, hu]; simp [hw.1, hw.2]
    refine ⟨fun x => ?_, fun x => rfl, fun i a b ha hb => ?_⟩
    · have h1 : (boxOf S P d).Feasible x ↔ ∀ i : Fin d.A.length, GeB (d.A.get i ⬝ᵥ x) (d.l.getD i none) ∧
          LeB (d.A.get i ⬝ᵥ x) (d.u.getD i none) := Iff.rfl
      rw [h1, inBox_iff_forall₂ d.A d.l d.u hlen hlen' (fun a => a ⬝ᵥ x), hA, hl, hu, forall₂_append_iff (by simp [hw.1]),
        forall₂_append_iff (by simp [hw.1]), Problem.Feasible, forall₂_eq (fun a => a ⬝ᵥ x), forall₂_le (fun a => a ⬝ᵥ x)]
      have := forall₂_none (fun a => a ⬝ᵥ x) P.G P.h hw.2
      tauto
    · change d.l.getD i none = some a at ha
      change d.u.getD i none = some b at hb
      rw [hl] at ha
      rw [hu] at hb
      by_cases hi : (i : ℕ) < P.b.length
      · rw [List.getD_append _ _ _ _ (by simpa using hi)] at ha hb
        rw [ha] at hb
        cases hb; exact le_rfl
      · exfalso
        rw [List.getD_append_right _ _ _ _ (by simpa using hi)] at ha
        generalize ((i : ℕ) - (P.b.map some).length) = k at ha
        rw [List.getD_eq_getElem?_getD] at ha
        simp only [List.getElem?_map] at ha
        cases hk : P.h[k]? <;> rw [hk] at ha <;> simp at ha

theorem signedSlice_front {α : Type*} (v w : List α) (h : v ≠ []) : signedSlice (v ++ w) (v.length : ℤ) = v := by
  have : 0 < v.length := List.length_pos_iff.mpr h
  unfold signedSlice
  rw [if_pos (by exact_mod_cast this)]
  simp

theorem signedSlice_back {α : Type*} (v w : List α) (h : w ≠ []) : signedSlice (v ++ w) (-(w.length : ℤ)) = w := by
  have : 0 < w.length := List.length_pos_iff.mpr h
  unfold signedSlice
  rw [if_neg (by omega), if_neg (by omega)]
  have e : (((v ++ w).length : ℤ) + -(w.length : ℤ)).toNat = v.length := by
    rw [List.length_append]; push_cast; simp
  rw [e]; simp

/-- **C40**, splitting the dual: for every problem whose constraints are present with at least one row each, splitting the
concatenated dual vector `ν ++ λ` returns exactly the multipliers of the equalities and of the inequalities, and `None` for an
absent kind.  Missing: a present kind of constraint with zero rows, for which the claim is false (`C40_zero_rows_false`). -/
theorem C40_split_partial (P : Problem K n) (heq : P.eq.isSome → P.b ≠ []) (hineq : P.ineq.isSome → P.h ≠ []) (x : Fin n → K)
    (ν μ : List K) (lam mlam : List K) (h1 : ν.length = P.b.length) (h2 : lam.length = P.h.length) (h3 : μ.length = P.b.length)
    (h4 : mlam.length = P.h.length) :
    inverseTransform (sizes P) x (.flat (ν ++ lam)) (.flat (μ ++ mlam)) = ⟨x, P.eq.map fun _ => ν, P.ineq.map fun _ => mlam⟩ := by
  have e1 : split (ν ++ lam) (sizes P).1 = P.eq.map fun _ => ν := by
    unfold sizes split
    cases he : P.eq with
    | none => rfl
    | some ab =>
      have hb : P.b = ab.2 := by simp [Problem.b, he]
      simp only [Option.map_some]
      rw [← hb, ← h1, signedSlice_front]
      have := heq (by simp [he])
      intro hn; rw [hn] at h1; exact this (List.length_eq_zero_iff.mp h1.symm)
  have e2 : split (μ ++ mlam) (sizes P).2 = P.ineq.map fun _ => mlam := by
    unfold sizes split
    cases he : P.ineq with
    | none => rfl
    | some ab =>
      have hb : P.h = ab.2 := by simp [Problem.h, he]
      simp only [Option.map_some]
      rw [← hb, ← h4, signedSlice_back]
      have := hineq (by simp [he])
      intro hn; rw [hn] at h4; exact this (List.length_eq_zero_iff.mp h4.symm)
  simp only [inverseTransform, Dual.front, Dual.back, e1, e2]

/-- **C40**, splitting the dual with matvecs: the blocks are returned exactly, for every number of rows including zero. -/
theorem C40_split_blocks (P : Problem K n) (x : Fin n → K) (ν μ lam mlam : List K) (h1 : ν.length = P.b.length)
    (h4 : mlam.length = P.h.length) :
    inverseTransform (sizes P) x (.blocks ((P.eq.map fun _ => ν).toList ++ (P.ineq.map fun _ => lam).toList))
      (.blocks ((P.eq.map fun _ => μ).toList ++ (P.ineq.map fun _ => mlam).toList)) =
      ⟨x, P.eq.map fun _ => ν, P.ineq.map fun _ => mlam⟩ := by
  have hfull : ∀ v : List K, signedSlice v (v.length : ℤ) = v ∧ signedSlice v (-(v.length : ℤ)) = v := by
    intro v
    by_cases hv : v = []
    · subst hv; simp [signedSlice]
    · have a := signedSlice_front v [] hv
      have b := signedSlice_back [] v hv
      rw [List.append_nil] at a
      rw [List.nil_append] at b
      exact ⟨a, b⟩
  rcases P with ⟨Q, c, _ | ⟨A, b⟩, _ | ⟨G, h⟩⟩
  · rfl
  · simp only [Problem.h, Option.map_some, Option.getD_some] at h4
    simp [inverseTransform, sizes, split, Dual.front, Dual.back, ← h4, (hfull mlam).2]
  · simp only [Problem.b, Option.map_some, Option.getD_some] at h1
    simp [inverseTransform, sizes, split, Dual.front, Dual.back, ← h1, (hfull ν).1]
  · simp only [Problem.b, Problem.h, Option.map_some, Option.getD_some] at h1 h4
    simp [inverseTransform, sizes, split, Dual.front, Dual.back, ← h1, ← h4, (hfull ν).1, (hfull mlam).2]

/-- **C40 is false with zero rows**: with one equality, an inequality block of zero rows and the dual `ν ++ []`, the returned
`dual_ineq` is the multiplier of the equality; with zero equalities and one inequality, `dual_eq` is the multiplier of the
inequality. -/
theorem C40_zero_rows_false :
    (let P : Problem ℚ 1 := ⟨!![1], ![0], some ([![1]], [2]), some ([], [])⟩
     P.Wf ∧ (inverseTransform (sizes P) ![0] (.flat ([3] ++ [])) (.flat ([3] ++ []))).dualIneq = some [3]) ∧
    (let P : Problem ℚ 1 := ⟨!![1], ![0], some ([], []), some ([![1]], [2])⟩
     P.Wf ∧ (inverseTransform (sizes P) ![0] (.flat ([] ++ [3])) (.flat ([] ++ [3]))).dualEq = some [3]) := by
  refine ⟨⟨by simp [Problem.Wf, Problem.A, Problem.b, Problem.G, Problem.h], by decide +kernel⟩,
    ⟨by simp [Problem.Wf, Problem.A, Problem.b, Problem.G, Problem.h], by decide +kernel⟩⟩

/-- **C40**, round trip of a warm start: converting multipliers to the box problem and back gives them back (non-negative
inequality multipliers). -/
theorem C40_round_trip (P : Problem K n) (heq : P.eq.isSome → P.b ≠ []) (hineq : P.ineq.isSome → P.h ≠ []) (x : Fin n → K) (ν lam : List K)
    (h1 : ν.length = P.b.length) (h2 : lam.length = P.h.length) (hpos : ∀ t ∈ lam, 0 ≤ t) :
    let s : Sol K n := ⟨x, P.eq.map fun _ => ν, P.ineq.map fun _ => lam⟩
    inverseTransform (sizes P) x (.flat (transformDual s)) (.flat ((transformDual s).map fun t => if 0 ≤ t then t else 0)) = s := by
  intro s
  have e : transformDual s = ν ++ lam := by
    rcases P with ⟨Q, c, _ | ⟨A, b⟩, _ | ⟨G, h⟩⟩ <;> simp_all [s, transformDual, Problem.b, Problem.h]
  have e2 : lam.map (fun t => if 0 ≤ t then t else 0) = lam := by
    conv_rhs => rw [← List.map_id lam]
    exact List.map_congr_left fun t ht => by rw [if_pos (hpos t ht)]; rfl
  rw [e, List.map_append, e2]
  exact C40_split_partial P heq hineq x ν _ lam lam h1 h2 (by simpa using h1) h2

/-- **C40**, end to end: if `OSQP.run` reports SOLVED (constraints present with at least one row), the returned point satisfies the
constraints up to `tol`, the returned inequality multipliers are non-negative and positive only for constraints that are active up to `tol`, and
the gradient of the Lagrangian built from the *returned* multipliers is at most `tol` in every entry. -/
theorem C40_run_partial (P : Problem K n) (hw : P.Wf) (heq : P.eq.isSome → P.b ≠ []) (hineq : P.ineq.isSome → P.h ≠ []) {m : ℕ}
    (S : BoxOSQP K n m) (hmin : 0 < S.rhoMin) (hmax : S.rhoMin ≤ S.rhoMax) (hstart : 0 < S.rhoStart) (init : Option (Sol K n))
    {r : Option (Sol K n) × Status} (hr : osqpRun S P init = .ok r) (hs : r.2 = .solved) :
    ∃ s ν lam, r.1 = some s ∧ s.dualEq = P.eq.map (fun _ => ν) ∧ s.dualIneq = P.ineq.map (fun _ => lam) ∧
      ν.length = P.b.length ∧ lam.length = P.h.length ∧ (∀ t ∈ lam, 0 ≤ t) ∧
      List.Forall₂ (fun a t => |a ⬝ᵥ s.x - t| ≤ S.tol) P.A P.b ∧ List.Forall₂ (fun g t => g ⬝ᵥ s.x ≤ t + S.tol) P.G P.h ∧
      (∀ j, |(P.Q.mulVec s.x + P.c + combine ν P.A + combine lam P.G) j| ≤ S.tol) ∧
      ∀ (i : ℕ) (a : Fin n → K) (b t : K), P.G[i]? = some a → P.h[i]? = some b → lam[i]? = some t → 0 < t → |a ⬝ᵥ s.x - b| ≤ S.tol := by
  unfold osqpRun at hr
  cases hd : transform P with
  | error e => rw [hd] at hr; cases hr
  | ok d =>
    rw [hd] at hr
    simp only [Except.bind] at hr
    cases hb : (boxOf S P d).run (some (boxInit d (init.getD (osqpInit S P d)))) with
    | error e => rw [hb] at hr; cases hr
    | ok r' =>
      rw [hb] at hr
      cases hr
      have hattr : (boxOf S P d).Attr := ⟨((C40_transform P hw S).2 d hd).2.2, hmin, hmax, hstart⟩
      obtain ⟨q, hq, hp1, hp2⟩ := (boxOf S P d).C38_solved hattr hb hs
      obtain ⟨hg, -, -, -⟩ := (boxOf S P d).C38_iterates hattr ((boxOf S P d).run_reach hb) hq
      obtain ⟨hA, hl, hu⟩ := transform_ok hd
      have hlen : d.A.length = P.b.length + P.h.length := by rw [hA]; simp [hw.1, hw.2]
      set y := List.ofFn q.y with hy
      set mu := List.ofFn q.mu with hmu
      have hyl : y.length = P.b.length + P.h.length := by rw [hy, List.length_ofFn, hlen]
      have hml : mu.length = P.b.length + P.h.length := by rw [hmu, List.length_ofFn, hlen]
      set p := P.b.length with hpdef
      -- the inequality multipliers are the last entries of both `y` and `mu`
      have hlowNone : ∀ i : Fin d.A.length, p ≤ (i : ℕ) → d.l.getD i none = none := by
        intro i hi
        rw [hl, List.getD_append_right _ _ _ _ (by simpa using hi), List.getD_eq_getElem?_getD, List.getElem?_map]
        cases P.h[(i : ℕ) - (P.b.map some).length]? <;> rfl
      have hlast : ∀ i : Fin d.A.length, p ≤ (i : ℕ) → q.mu i = q.y i ∧ 0 ≤ q.y i := by
        intro i hi
        have h0 : 0 ≤ q.y i := by
          by_contra hneg
          have := hg.lower i (not_le.mp hneg)
          rw [show (boxOf S P d).l i = d.l.getD i none from rfl, hlowNone i hi] at this
          cases this
        refine ⟨?_, h0⟩
        rcases hg.compl i with hc | hc
        · have e1 := hg.split i
          have e2 := hg.phi_nonneg i
          rw [hc] at e1 ⊢; linarith
        · have e1 := hg.split i
          rw [hc] at e1; linarith
      have hdrop : mu.drop p = y.drop p := by
        refine List.ext_get (by simp [hyl, hml]) fun i h1 h2 => ?_
        simp only [List.get_eq_getElem, List.getElem_drop, hmu, hy, List.getElem_ofFn]
        exact (hlast _ (by simp)).1
      have hposdrop : ∀ t ∈ y.drop p, 0 ≤ t := by
        intro t ht
        obtain ⟨i, hi, rfl⟩ := List.getElem_of_mem ht
        simp only [List.getElem_drop, hy, List.getElem_ofFn]
        exact (hlast _ (by simp)).2
      have hsplit := C40_split_partial P heq hineq q.x (y.take p) (mu.take p) (y.drop p) (mu.drop p)
        (by rw [List.length_take, hyl]; omega) (by rw [List.length_drop, hyl]; omega) (by rw [List.length_take, hml]; omega)
        (by rw [List.length_drop, hml]; omega)
      rw [List.take_append_drop, List.take_append_drop] at hsplit
      -- the residuals of the rows
      have hrow : ∀ i : Fin d.A.length, |d.A.get i ⬝ᵥ q.x - q.z i| ≤ S.tol := fun i => hp1 i
      have hboxz : ∀ i : Fin d.A.length, GeB (q.z i) (d.l.getD i none) ∧ LeB (q.z i) (d.u.getD i none) := fun i => hg.box i
      rw [hdrop] at hsplit
      refine ⟨⟨q.x, P.eq.map fun _ => y.take p, P.ineq.map fun _ => y.drop p⟩, y.take p, y.drop p, ?_, rfl, rfl, ?_, ?_, hposdrop,
        ?_, ?_, ?_, ?_⟩
      · simp only [hq, Option.map_some]
        exact congrArg some hsplit
      · rw [List.length_take, hyl]; omega
      · rw [List.length_drop, hyl]; omega
      · rw [List.forall₂_iff_get]
        refine ⟨hw.1, fun i h1 h2 => ?_⟩
        have hi : i < d.A.length := by rw [hlen]; omega
        have e1 := hrow ⟨i, hi⟩
        have e2 := hboxz ⟨i, hi⟩
        have el : d.l.getD i none = some (P.b.get ⟨i, h2⟩) := by
          rw [hl, List.getD_append _ _ _ _ (by simpa using h2), List.getD_eq_getElem _ _ (by simpa using h2)]; simp
        have eu : d.u.getD i none = some (P.b.get ⟨i, h2⟩) := by
          rw [hu, List.getD_append _ _ _ _ (by simpa using h2), List.getD_eq_getElem _ _ (by simpa using h2)]; simp
        simp only [el, eu, geB_some, leB_some] at e2
        have ea : d.A.get ⟨i, hi⟩ = P.A.get ⟨i, h1⟩ := by
          simp only [List.get_eq_getElem, hA]
          rw [List.getElem_append_left]
        rw [← ea, ← le_antisymm e2.2 e2.1]
        exact e1
      · rw [List.forall₂_iff_get]
        refine ⟨hw.2, fun i h1 h2 => ?_⟩
        have hi : p + i < d.A.length := by rw [hlen]; omega
        have e1 := hrow ⟨p + i, hi⟩
        have e2 := hboxz ⟨p + i, hi⟩
        have eu : d.u.getD (p + i) none = some (P.h.get ⟨i, h2⟩) := by
          rw [hu, List.getD_append_right _ _ _ _ (by simp [hpdef]), List.getD_eq_getElem _ _ (by simpa [hpdef] using h2)]
          simp [hpdef]
        simp only [eu, leB_some] at e2
        have ea : d.A.get ⟨p + i, hi⟩ = P.G.get ⟨i, h1⟩ := by
          simp only [List.get_eq_getElem, hA]
          rw [List.getElem_append_right (by rw [hw.1]; omega)]
          congr 1
          rw [hw.1]; omega
        rw [← ea]
        have := (abs_le.mp e1).2
        linarith [e2.2]
      · intro j
        have e1 : (boxOf S P d).dualRes q.x q.y j = (P.Q.mulVec q.x + P.c + combine (y.take p) P.A + combine (y.drop p) P.G) j := by
          have e2 : (boxOf S P d).A.transpose.mulVec q.y = combine y d.A := transpose_mulVec_get d.A q.y
          have e3 : combine y d.A = combine (y.take p) P.A + combine (y.drop p) P.G := by
            conv_lhs => rw [← List.take_append_drop p y, hA]
            exact combine_append (by rw [List.length_take, hyl, hw.1]; omega)
          unfold BoxOSQP.dualRes
          rw [e2, e3]
          simp only [Pi.add_apply, boxOf, BoxOSQP.withProblem]
          ring
        rw [← e1]
        exact hp2 j
      · intro i a b t ha hb ht hpos
        obtain ⟨h1, rfl⟩ := List.getElem?_eq_some_iff.mp ha
        obtain ⟨h2, rfl⟩ := List.getElem?_eq_some_iff.mp hb
        obtain ⟨h3, rfl⟩ := List.getElem?_eq_some_iff.mp ht
        have hi : p + i < d.A.length := by rw [hlen]; omega
        have e1 := hrow ⟨p + i, hi⟩
        have eu : d.u.getD (p + i) none = some P.h[i] := by
          rw [hu, List.getD_append_right _ _ _ _ (by simp [hpdef]), List.getD_eq_getElem _ _ (by simpa [hpdef] using h2)]
          simp [hpdef]
        have hy' : 0 < q.y ⟨p + i, hi⟩ := by
          simpa only [List.getElem_drop, hy, List.getElem_ofFn] using hpos
        have e2 := hg.upper ⟨p + i, hi⟩ hy'
        rw [show (boxOf S P d).u ⟨p + i, hi⟩ = d.u.getD (p + i) none from rfl, eu, Option.some.injEq] at e2
        have ea : d.A.get ⟨p + i, hi⟩ = P.G[i] := by
          simp only [List.get_eq_getElem, hA]
          rw [List.getElem_append_right (by rw [hw.1]; omega)]
          congr 1
          rw [hw.1]; omega
        rw [← ea, e2]
        exact e1

theorem combine_cons_dot (t : K) (v : List K) (a : Fin n → K) (A : List (Fin n → K)) (d : Fin n → K) :
    combine (t :: v) (a :: A) ⬝ᵥ d = t * (a ⬝ᵥ d) + combine v A ⬝ᵥ d := by
  simp [combine, add_dotProduct, smul_dotProduct]

theorem combine_eq_bound {tol : K} {x x' : Fin n → K} (v : List K) : ∀ (A : List (Fin n → K)) (b : List K), v.length = b.length →
    List.Forall₂ (fun a t => |a ⬝ᵥ x - t| ≤ tol) A b → List.Forall₂ (fun a t => a ⬝ᵥ x' = t) A b →
    combine v A ⬝ᵥ (x' - x) ≤ tol * (v.map fun t => |t|).sum := by
  induction v with
  | nil => intro A b _ _ _; simp [combine]
  | cons t v ih =>
    intro A b hl h1 h2
    cases h1 with
    | nil => simp at hl
    | @cons a c A' b' e1 h1' =>
      cases h2 with
      | cons e2 h2' =>
        rw [combine_cons_dot, List.map_cons, List.sum_cons]
        have h3 := ih A' b' (by simpa using hl) h1' h2'
        have h4 : t * (a ⬝ᵥ (x' - x)) ≤ |t| * tol := by
          refine le_trans (le_abs_self _) ?_
          rw [abs_mul]
          refine mul_le_mul_of_nonneg_left ?_ (abs_nonneg _)
          rw [dotProduct_sub, e2, abs_sub_comm]
          exact e1
        linarith

theorem combine_le_bound {tol : K} {x x' : Fin n → K} (lam : List K) : ∀ (G : List (Fin n → K)) (h : List K), lam.length = h.length →
    (∀ t ∈ lam, 0 ≤ t) → List.Forall₂ (fun a t => a ⬝ᵥ x' ≤ t) G h →
    (∀ (i : ℕ) (a : Fin n → K) (b t : K), G[i]? = some a → h[i]? = some b → lam[i]? = some t → 0 < t → |a ⬝ᵥ x - b| ≤ tol) →
    combine lam G ⬝ᵥ (x' - x) ≤ tol * lam.sum := by
  induction lam with
  | nil => intro G h _ _ _ _; simp [combine]
  | cons t lam ih =>
    intro G h hl hp h2 hc
    cases h2 with
    | nil => simp at hl
    | @cons a c G' h' e2 h2' =>
      rw [combine_cons_dot, List.sum_cons]
      have h3 := ih G' h' (by simpa using hl) (fun s hs => hp s (List.mem_cons_of_mem _ hs)) h2'
        (fun i a b t h1 h2 h3 => hc (i + 1) a b t (by simpa using h1) (by simpa using h2) (by simpa using h3))
      have h4 : t * (a ⬝ᵥ (x' - x)) ≤ t * tol := by
        rcases (hp t List.mem_cons_self).eq_or_lt with e | e
        · rw [← e]; simp
        · have := (abs_le.mp (hc 0 a c t rfl rfl rfl e)).1
          refine mul_le_mul_of_nonneg_left ?_ e.le
          rw [dotProduct_sub]
          linarith
      linarith

/-- **C40**, accuracy: if `OSQP.run` reports SOLVED on a convex problem, no feasible point is better than the returned one by more than `tol`
times the sum of its distance to it and of the sizes of the returned multipliers. -/
theorem C40_suboptimality (P : Problem K n) (hw : P.Wf) (heq : P.eq.isSome → P.b ≠ []) (hineq : P.ineq.isSome → P.h ≠ [])
    (hsym : P.Q.transpose = P.Q) (hpsd : ∀ v, 0 ≤ v ⬝ᵥ P.Q.mulVec v) {m : ℕ} (S : BoxOSQP K n m) (hmin : 0 < S.rhoMin)
    (hmax : S.rhoMin ≤ S.rhoMax) (hstart : 0 < S.rhoStart) (init : Option (Sol K n)) {s : Sol K n}
    (hr : osqpRun S P init = .ok (some s, .solved)) {x' : Fin n → K} (hx' : P.Feasible x') :
    P.obj s.x ≤ P.obj x' + S.tol * (∑ j, |x' j - s.x j| + ((s.dualEq.getD []).map fun t => |t|).sum + (s.dualIneq.getD []).sum) := by
  obtain ⟨s', ν, lam, h1, h2, h3, h4, h5, h6, h7, h8, h9, h10⟩ := C40_run_partial P hw heq hineq S hmin hmax hstart init hr rfl
  simp only [Option.some.injEq] at h1
  subst h1
  set d := x' - s.x with hd
  have e : x' = s.x + d := by rw [hd]; abel
  have hexp : P.obj x' = P.obj s.x + d ⬝ᵥ (P.Q.mulVec s.x + P.c) + 1 / 2 * (d ⬝ᵥ P.Q.mulVec d) := by
    have hs' : s.x ⬝ᵥ P.Q.mulVec d = d ⬝ᵥ P.Q.mulVec s.x := by
      rw [Matrix.dotProduct_mulVec, ← Matrix.mulVec_transpose, hsym, dotProduct_comm]
    rw [e]
    unfold Problem.obj
    rw [Matrix.mulVec_add, add_dotProduct, dotProduct_add, dotProduct_add, dotProduct_add, dotProduct_add, hs', dotProduct_comm P.c d]
    ring
  have hres : -(S.tol * ∑ j, |d j|) ≤ d ⬝ᵥ (P.Q.mulVec s.x + P.c + combine ν P.A + combine lam P.G) := by
    rw [dotProduct, Finset.mul_sum, ← Finset.sum_neg_distrib]
    refine Finset.sum_le_sum fun j _ => ?_
    have := mul_le_mul_of_nonneg_left (h9 j) (abs_nonneg (d j))
    rw [← abs_mul] at this
    have := (abs_le.mp this).1
    linarith
  have heqb := combine_eq_bound ν P.A P.b h4 h7 hx'.1
  have hineqb := combine_le_bound lam P.G P.h h5 h6 hx'.2 h10
  have hν : (s.dualEq.getD []).map (fun t => |t|) = (ν.map fun t => |t|) ∧ s.dualIneq.getD [] = lam := by
    rw [h2, h3]
    constructor
    · cases hp : P.eq with
      | none =>
        have : ν = [] := List.eq_nil_of_length_eq_zero (by rw [h4]; simp [Problem.b, hp])
        rw [this]; rfl
      | some _ => rfl
    · cases hp : P.ineq with
      | none =>
        have : lam = [] := List.eq_nil_of_length_eq_zero (by rw [h5]; simp [Problem.h, hp])
        rw [this]; rfl
      | some _ => rfl
  rw [hν.1, hν.2]
  have hp := hpsd d
  rw [dotProduct_add, dotProduct_add, dotProduct_comm d (combine ν P.A), dotProduct_comm d (combine lam P.G)] at hres
  have hsum : ∑ j, |x' j - s.x j| = ∑ j, |d j| := rfl
  rw [hsum]
  rw [← hd] at heqb hineqb
  linarith

/-- A problem with one equality and one inequality: `min ½‖x‖²` subject to `x₁ = 1`, `-x₂ ≤ -1`. -/
def exProblem : Problem ℚ 2 := ⟨!![1, 0; 0, 1], ![0, 0], some ([![1, 0]], [1]), some ([![0, -1]], [-1])⟩

/-- Non-vacuity: the run reports SOLVED. -/
example : ∃ r, osqpRun (exBoxOSQP (n := 2) (m := 0) !![1, 0; 0, 1] ![0, 0] 0 ![] ![] true) exProblem none = .ok r ∧ r.2 = .solved ∧
    r.1.isSome = true := by
  obtain ⟨r, hr, hv⟩ := ok_of_toOption (x := osqpRun (exBoxOSQP (n := 2) (m := 0) !![1, 0; 0, 1] ![0, 0] 0 ![] ![] true) exProblem none)
    (φ := fun r => (r.2, r.1.isSome)) (v := (.solved, true)) (by decide +kernel)
  exact ⟨r, hr, congrArg (·.1) hv, congrArg (·.2) hv⟩

/-- Non-vacuity of `C40_suboptimality`: that problem is convex and has feasible points. -/
example : exProblem.Q.transpose = exProblem.Q ∧ (∀ v, 0 ≤ v ⬝ᵥ exProblem.Q.mulVec v) ∧ exProblem.Feasible ![1, 2] := by
  refine ⟨by decide +kernel, fun v => ?_, ?_⟩
  · simp only [exProblem, Matrix.mulVec, dotProduct, Fin.sum_univ_two]
    simp
    nlinarith [mul_self_nonneg (v 0), mul_self_nonneg (v 1)]
  · simp [Problem.Feasible, Problem.A, Problem.b, Problem.G, Problem.h, exProblem]

/-- Non-vacuity of `C40_round_trip`. -/
example : exProblem.Wf ∧ exProblem.b ≠ [] ∧ exProblem.h ≠ [] := by
  simp [Problem.Wf, Problem.A, Problem.b, Problem.G, Problem.h, exProblem]

end Jaxopt.OSQP
