import Verif.Loss.Masked
import Verif.Loss.Props
import Mathlib.Data.List.Sort
import Mathlib.Tactic.FinCases

/-!
# C131: the losses on infinite scores

A score of `-inf` is the usual way to exclude a class.
-/

set_option autoImplicit false
set_option linter.unusedSectionVars false
set_option linter.unusedVariables false

namespace Jaxopt.Loss

open Jaxopt.Proj Filter Topology

variable {K : Type*} [Field K] [LinearOrder K] [IsStrictOrderedRing K]

/-! ## Specification -/

/-- The scores `s` are the finite scores `x`, with the classes of `mask` excluded. -/
def maskScores {n : ℕ} (mask : Fin n → Bool) (x : Fin n → K) : Fin n → Ext K := fun j => if mask j then .ninf else .fin (x j)

/-! ## Sums and maxima -/

theorem sumE_cons (a : Ext K) (l : List (Ext K)) : sumE (a :: l) = Ext.add a (sumE l) := rfl

theorem sumE_fin (l : List K) : sumE (l.map Ext.fin) = .fin l.sum := by
  induction l with
  | nil => rfl
  | cons a l ih => rw [List.map_cons, sumE_cons, ih, List.sum_cons]; rfl

theorem sumE_ofFn_fin {n : ℕ} (a : Fin n → K) : sumE (List.ofFn fun j => Ext.fin (a j)) = .fin (∑ j, a j) := by
  rw [← List.sum_ofFn, ← sumE_fin, List.map_ofFn]
  rfl

theorem sumE_nan {l : List (Ext K)} (h : Ext.nan ∈ l) : sumE l = .nan := by
  induction l with
  | nil => simp at h
  | cons a l ih =>
    rw [sumE_cons]
    rcases List.mem_cons.mp h with e | e
    · rw [← e]; rfl
    · rw [ih e]; cases a <;> rfl

/-- A number that is finite or `-inf`. -/
def Low (v : Ext K) : Prop := v = .ninf ∨ ∃ x, v = .fin x

theorem sumE_low {l : List (Ext K)} (h : ∀ v ∈ l, Low v) : Low (sumE l) ∧ (Ext.ninf ∈ l → sumE l = .ninf) := by
  induction l with
  | nil => exact ⟨Or.inr ⟨0, rfl⟩, fun h => by simp at h⟩
  | cons a l ih =>
    obtain ⟨h1, h2⟩ := ih fun v hv => h v (List.mem_cons_of_mem _ hv)
    rw [sumE_cons]
    rcases h a List.mem_cons_self with rfl | ⟨x, rfl⟩
    · rcases h1 with e | ⟨y, e⟩ <;> rw [e] <;> exact ⟨Or.inl rfl, fun _ => rfl⟩
    · refine ⟨?_, fun hm => ?_⟩
      · rcases h1 with e | ⟨y, e⟩ <;> rw [e]
        · exact Or.inl rfl
        · exact Or.inr ⟨x + y, rfl⟩
      · rw [h2 (by simpa using hm)]; rfl

/-- A sum with `+inf` and otherwise finite terms. -/
theorem sumE_pinf {l : List (Ext K)} (h : ∀ v ∈ l, v = .pinf ∨ ∃ x, v = .fin x) :
    (sumE l = .pinf ∨ ∃ x, sumE l = .fin x) ∧ (Ext.pinf ∈ l → sumE l = .pinf) := by
  induction l with
  | nil => exact ⟨Or.inr ⟨0, rfl⟩, fun h => by simp at h⟩
  | cons a l ih =>
    obtain ⟨h1, h2⟩ := ih fun v hv => h v (List.mem_cons_of_mem _ hv)
    rw [sumE_cons]
    rcases h a List.mem_cons_self with rfl | ⟨x, rfl⟩
    · rcases h1 with e | ⟨y, e⟩ <;> rw [e] <;> exact ⟨Or.inl rfl, fun _ => rfl⟩
    · refine ⟨?_, fun hm => ?_⟩
      · rcases h1 with e | ⟨y, e⟩ <;> rw [e]
        · exact Or.inl rfl
        · exact Or.inr ⟨x + y, rfl⟩
      · rw [h2 (by simpa using hm)]; rfl

theorem max_low {l : List (Ext K)} (h : ∀ v ∈ l, Low v) :
    Low (l.foldr Ext.max .ninf) ∧ ((∃ x, Ext.fin x ∈ l) → ∃ x, l.foldr Ext.max .ninf = .fin x) := by
  induction l with
  | nil => exact ⟨Or.inl rfl, fun ⟨x, h⟩ => by simp at h⟩
  | cons a l ih =>
    obtain ⟨h1, h2⟩ := ih fun v hv => h v (List.mem_cons_of_mem _ hv)
    rw [List.foldr_cons]
    rcases h a List.mem_cons_self with rfl | ⟨x, rfl⟩
    · rcases h1 with e | ⟨y, e⟩
      · rw [e]
        refine ⟨Or.inl rfl, fun ⟨z, hz⟩ => ?_⟩
        obtain ⟨w, hw⟩ := h2 ⟨z, by simpa using hz⟩
        rw [e] at hw
        exact absurd hw (by simp)
      · rw [e]; exact ⟨Or.inr ⟨y, rfl⟩, fun _ => ⟨y, rfl⟩⟩
    · rcases h1 with e | ⟨y, e⟩ <;> rw [e]
      · exact ⟨Or.inr ⟨x, rfl⟩, fun _ => ⟨x, rfl⟩⟩
      · exact ⟨Or.inr ⟨_, rfl⟩, fun _ => ⟨_, rfl⟩⟩

/-- The maximum of a vector with `+inf` and otherwise finite entries. -/
theorem max_pinf {l : List (Ext K)} (h : ∀ v ∈ l, v = .pinf ∨ ∃ x, v = .fin x) (hm : Ext.pinf ∈ l) : l.foldr Ext.max .ninf = .pinf := by
  have key : l.foldr Ext.max .ninf ≠ .nan := by
    clear hm
    induction l with
    | nil => simp
    | cons a l ih =>
      rw [List.foldr_cons]
      have h1 := ih fun v hv => h v (List.mem_cons_of_mem _ hv)
      refine Ext.max_ne_nan ?_ h1
      rcases h a List.mem_cons_self with rfl | ⟨x, rfl⟩ <;> simp
  induction l with
  | nil => simp at hm
  | cons a l ih =>
    rw [List.foldr_cons] at key ⊢
    have hk : l.foldr Ext.max .ninf ≠ .nan := fun e => key (by rw [e]; cases a <;> rfl)
    rcases List.mem_cons.mp hm with e | e
    · rw [← e]
      revert hk
      generalize l.foldr Ext.max Ext.ninf = v
      intro hk
      cases v <;> first | rfl | exact absurd rfl hk
    · rw [ih (fun v hv => h v (List.mem_cons_of_mem _ hv)) e hk]
      rcases h a List.mem_cons_self with rfl | ⟨x, rfl⟩ <;> rfl

/-! ## The projection on the simplex -/

/-- The finite entries of a list. -/
def finites (l : List (Ext K)) : List K := l.filterMap fun v => match v with | .fin x => some x | _ => none

theorem finites_perm {l : List (Ext K)} (h : ∀ v ∈ l, Low v) : ∃ m, l.Perm ((finites l).map Ext.fin ++ List.replicate m .ninf) := by
  induction l with
  | nil => exact ⟨0, by simp [finites]⟩
  | cons a l ih =>
    obtain ⟨m, hm⟩ := ih fun v hv => h v (List.mem_cons_of_mem _ hv)
    rcases h a List.mem_cons_self with rfl | ⟨x, rfl⟩
    · refine ⟨m + 1, ?_⟩
      have e : finites (Ext.ninf :: l) = finites l := rfl
      rw [e, List.replicate_succ]
      exact (hm.cons _).trans List.perm_middle.symm
    · refine ⟨m, ?_⟩
      have e : finites (Ext.fin x :: l) = x :: finites l := rfl
      rw [e, List.map_cons, List.cons_append]
      exact hm.cons _

theorem finites_sum (l : List (Ext K)) (g : K → K) (h : Ext K → K) (h1 : ∀ x, h (.fin x) = g x) (h2 : ∀ v ∈ l, (∀ x, v ≠ .fin x) → h v = 0) :
    (l.map h).sum = ((finites l).map g).sum := by
  induction l with
  | nil => rfl
  | cons a l ih =>
    have hi := ih fun v hv => h2 v (List.mem_cons_of_mem _ hv)
    have ha := h2 a List.mem_cons_self
    rw [List.map_cons, List.sum_cons, hi]
    cases a with
    | fin x =>
      have e : finites (Ext.fin x :: l) = x :: finites l := rfl
      rw [e, List.map_cons, List.sum_cons, h1]
    | nan => rw [ha (by simp), zero_add]; rfl
    | ninf => rw [ha (by simp), zero_add]; rfl
    | pinf => rw [ha (by simp), zero_add]; rfl

/-- The sorted array: the sorted finite entries, then the infinite ones. -/
theorem sort_masked {l : List (Ext K)} (h : ∀ v ∈ l, Low v) :
    ∃ m, l.insertionSort sortGe = ((finites l).insertionSort (· ≥ ·)).map Ext.fin ++ List.replicate m .ninf := by
  obtain ⟨m, hm⟩ := finites_perm h
  refine ⟨m, ?_⟩
  have htot : Std.Total (sortGe (K := K)) := ⟨fun a b => by
    cases a <;> cases b <;> simp [sortGe, Ext.le, le_total]⟩
  have htr : IsTrans (Ext K) sortGe := ⟨fun a b c => by
    cases a <;> cases b <;> cases c <;> simp [sortGe, Ext.le]
    exact fun h1 h2 => h2.trans h1⟩
  have p1 : (l.insertionSort sortGe).Perm l := List.perm_insertionSort _ _
  have p2 : (((finites l).insertionSort (· ≥ ·)).map Ext.fin ++ List.replicate m Ext.ninf).Perm l :=
    (((List.perm_insertionSort (· ≥ ·) (finites l)).map Ext.fin).append_right _).trans hm.symm
  refine List.Perm.eq_of_pairwise ?_ (List.pairwise_insertionSort (r := sortGe) l) ?_ (p1.trans p2.symm)
  · intro a b ha hb h1 h2
    have ha' := h a (p1.mem_iff.mp ha)
    have hb' := h b (p2.mem_iff.mp hb)
    rcases ha' with rfl | ⟨x, rfl⟩ <;> rcases hb' with rfl | ⟨y, rfl⟩ <;> simp [sortGe, Ext.le] at h1 h2 ⊢
    exact le_antisymm h2 h1
  · rw [List.pairwise_append]
    refine ⟨?_, List.pairwise_replicate.mpr (Or.inr (by simp [sortGe, Ext.le])), ?_⟩
    · rw [List.pairwise_map]
      refine (List.pairwise_insertionSort (r := (· ≥ ·)) (finites l)).imp fun h => ?_
      simpa [sortGe, Ext.le] using h
    · intro a ha b hb
      rw [List.mem_map] at ha
      obtain ⟨x, _, rfl⟩ := ha
      rw [List.eq_of_mem_replicate hb]
      simp [sortGe, Ext.le]

theorem cumsumE_getD {u : List (Ext K)} {i : ℕ} (hi : i < u.length) : (cumsumE u).getD i .nan = sumE (u.take (i + 1)) := by
  simp [cumsumE, List.getD_eq_getElem?_getD, hi]

theorem cumsumE_left {A : List K} {m i : ℕ} (hi : i < A.length) :
    (cumsumE (A.map Ext.fin ++ List.replicate m .ninf)).getD i .nan = .fin ((cumsum A).getD i 0) := by
  rw [cumsumE_getD (by simp; omega), List.take_append_of_le_length (by simp; omega), ← List.map_take, sumE_fin, getD_cumsum A i hi, sum_take_eq]

theorem countE_eq (A : List K) (m : ℕ) : countE (A.map Ext.fin ++ List.replicate m .ninf) = simplexCount A := by
  set U := A.map Ext.fin ++ List.replicate m Ext.ninf with hU
  have hlen : U.length = A.length + m := by simp [hU]
  unfold countE simplexCount
  rw [hlen, List.range_add, List.filter_append, List.length_append]
  have e1 : (List.range A.length).filter (fun i => Ext.gt (gapE (i + 1) (U.getD i .nan) ((cumsumE U).getD i .nan)) (.fin 0)) =
      (List.range A.length).filter fun i => decide (1 / ((i + 1 : ℕ) : K) + (A.getD i 0 - (cumsum A).getD i 0 / ((i + 1 : ℕ) : K)) > 0) := by
    refine List.filter_congr fun i hi => ?_
    have hi' := List.mem_range.mp hi
    have g : U.getD i .nan = .fin (A.getD i 0) := by
      simp [hU, List.getD_eq_getElem?_getD, List.getElem?_append_left, hi']
    rw [cumsumE_left hi', g]
    simp only [gapE, divNatE, Ext.sub, Ext.neg, Ext.add, Ext.gt, Ext.lt, if_neg (Nat.succ_ne_zero i), sub_eq_add_neg, gt_iff_lt]
  have e2 : ((List.range m).map (A.length + ·)).filter (fun i => Ext.gt (gapE (i + 1) (U.getD i .nan) ((cumsumE U).getD i .nan)) (.fin 0)) = [] := by
    rw [List.filter_eq_nil_iff]
    intro i hi
    rw [List.mem_map] at hi
    obtain ⟨k, hk, rfl⟩ := hi
    have hk' := List.mem_range.mp hk
    have g : U.getD (A.length + k) .nan = .ninf := by
      rw [List.getD_eq_getElem?_getD, hU, List.getElem?_append_right (by simp)]
      simp [hk']
    have c : (cumsumE U).getD (A.length + k) .nan = .ninf := by
      rw [cumsumE_getD (by omega)]
      refine (sumE_low ?_).2 ?_
      · intro v hv
        have := List.mem_of_mem_take hv
        rw [hU, List.mem_append] at this
        rcases this with h | h
        · rw [List.mem_map] at h
          obtain ⟨x, _, rfl⟩ := h
          exact Or.inr ⟨x, rfl⟩
        · exact Or.inl (List.eq_of_mem_replicate h)
      · rw [List.mem_iff_getElem?]
        refine ⟨A.length + k, ?_⟩
        rw [List.getElem?_take_of_lt (by omega), hU, List.getElem?_append_right (by simp)]
        simp [hk']
    rw [g, c]
    simp [gapE, divNatE, Ext.sub, Ext.neg, Ext.add, Ext.gt, Ext.lt]
  rw [e1, e2]
  rfl

theorem entryE_eq {A : List K} (hA : A ≠ []) (hs : A.Pairwise (· ≥ ·)) (m : ℕ) :
    (∀ y, entryE (A.map Ext.fin ++ List.replicate m .ninf) (.fin y) = .fin (simplexEntry A y)) ∧
      entryE (A.map Ext.fin ++ List.replicate m .ninf) .ninf = .fin 0 := by
  have hc : 1 ≤ simplexCount A ∧ simplexCount A ≤ A.length := by
    constructor
    · by_contra hlt
      have h0 : simplexCount A = 0 := by omega
      obtain ⟨τ, h1, h2⟩ := simplexEntry_threshold A hA hs
      obtain ⟨a, l, rfl⟩ := List.exists_cons_of_ne_nil hA
      unfold simplexCount at h0
      rw [List.length_eq_zero_iff, List.filter_eq_nil_iff] at h0
      have := h0 0 (by simp)
      simp [cumsum] at this
    · exact (List.length_filter_le _ _).trans (le_of_eq (List.length_range))
  have hne : simplexCount A ≠ 0 := by omega
  constructor
  · intro y
    unfold entryE simplexEntry
    simp only [countE_eq, if_neg hne]
    rw [cumsumE_left (by omega)]
    simp only [gapE, divNatE, Ext.sub, Ext.neg, Ext.add, Ext.max, if_neg hne, relu, sub_eq_add_neg]
  · unfold entryE
    simp only [countE_eq, if_neg hne]
    rw [cumsumE_left (by omega)]
    simp only [gapE, divNatE, Ext.sub, Ext.neg, Ext.add, Ext.max, if_neg hne]

/-- The projection of scores with excluded classes is the projection of finite scores in which these classes are at least one below the
largest score. -/
theorem simplexE_masked {n : ℕ} {mask : Fin n → Bool} {x : Fin n → K} (hlow : ∀ j, mask j = true → ∃ k, mask k = false ∧ x j ≤ x k - 1)
    {y : Fin n} (hy : mask y = false) : simplexE (maskScores mask x) = (fun j => .fin (projectionUnitSimplex x j)) ∧
      ∀ j, mask j = true → projectionUnitSimplex x j = 0 := by
  have hl : ∀ v ∈ List.ofFn (maskScores mask x), Low v := fun v hv => by
    rw [List.mem_ofFn] at hv
    obtain ⟨j, rfl⟩ := hv
    unfold maskScores
    by_cases h : mask j = true
    · exact Or.inl (by rw [if_pos h])
    · exact Or.inr ⟨x j, by rw [if_neg h]⟩
  obtain ⟨m, hm⟩ := sort_masked hl
  set A := (finites (List.ofFn (maskScores mask x))).insertionSort (· ≥ ·) with hAdef
  have hp : A.Perm (finites (List.ofFn (maskScores mask x))) := List.perm_insertionSort _ _
  have hs : A.Pairwise (· ≥ ·) := List.pairwise_insertionSort (r := (· ≥ ·)) _
  have hmem : ∀ k, mask k = false → x k ∈ A := fun k hk => by
    rw [hp.mem_iff, finites, List.mem_filterMap]
    exact ⟨.fin (x k), List.mem_ofFn.mpr ⟨k, by simp [maskScores, hk]⟩, rfl⟩
  have hA : A ≠ [] := List.ne_nil_of_mem (hmem y hy)
  obtain ⟨h1, h2⟩ := entryE_eq hA hs m
  obtain ⟨τ, t1, t2⟩ := simplexEntry_threshold A hA hs
  -- the threshold is at least the largest score minus one
  have hτ : ∀ k, mask k = false → x k - 1 ≤ τ := fun k hk => by
    have : relu (x k - τ) ≤ (A.map fun z => relu (z - τ)).sum :=
      List.single_le_sum (fun z hz => by
        rw [List.mem_map] at hz
        obtain ⟨w, _, rfl⟩ := hz
        exact relu_nonneg _) _ (List.mem_map.mpr ⟨x k, hmem k hk, rfl⟩)
    rw [t2] at this
    have := (le_max_left (x k - τ) 0).trans this
    linarith
  have hz : ∀ j, mask j = true → relu (x j - τ) = 0 := fun j hj => by
    obtain ⟨k, hk, hle⟩ := hlow j hj
    have := hτ k hk
    exact max_eq_right (by linarith)
  -- it is the threshold of the finite scores
  have hsum : ∑ j, relu (x j - τ) = 1 := by
    rw [← t2, (hp.map _).sum_eq, ← finites_sum (List.ofFn (maskScores mask x)) (fun z => relu (z - τ))
      (fun v => match v with | .fin z => relu (z - τ) | _ => 0) (fun z => rfl) (fun v hv hne => by
        cases v with
        | fin z => exact absurd rfl (hne z)
        | _ => rfl), List.map_ofFn, List.sum_ofFn]
    refine Finset.sum_congr rfl fun j _ => ?_
    simp only [Function.comp, maskScores]
    by_cases h : mask j = true
    · rw [if_pos h, hz j h]
    · rw [if_neg h]
  have hn : 0 < n := Fin.pos y
  obtain ⟨τ', g1, g2⟩ := unitSimplex_threshold hn x
  have hu := (threshold_isUniqueProj x τ' 1 g2).eq (threshold_isUniqueProj x τ 1 hsum).isProj
  refine ⟨?_, fun j hj => by rw [g1, ← hz j hj]; exact (congrFun hu j).symm⟩
  funext j
  unfold simplexE
  rw [hm, g1]
  have hj := congrFun hu j
  by_cases h : mask j = true
  · rw [show maskScores mask x j = .ninf by simp [maskScores, h], h2, ← hj]
    simp only [hz j h]
  · rw [show maskScores mask x j = .fin (x j) by simp [maskScores, h], h1, t1, ← hj]

/-- C131.  The multiclass sparsemax loss handles excluded classes: with a finite score for the label, it is the loss of finite scores in which
every excluded class is at least one below some other class. -/
theorem C131_sparsemax {n : ℕ} {mask : Fin n → Bool} {x : Fin n → K} {y : Fin n} (hy : mask y = false)
    (hlow : ∀ j, mask j = true → ∃ k, mask k = false ∧ x j ≤ x k - 1) :
    multiclassSparsemaxLossE y (maskScores mask x) = .fin (multiclassSparsemaxLoss y x) := by
  obtain ⟨hp, hz⟩ := simplexE_masked hlow hy
  have e1 : projectionSimplex x 1 = projectionUnitSimplex x := by funext j; simp [projectionSimplex]
  set p := projectionUnitSimplex x with hpdef
  have d1 : ∀ a b : Fin n → K, dotE (fun j => .fin (a j)) (fun j => .fin (b j)) = .fin (dot a b) := fun a b => by
    unfold dotE dot
    exact sumE_ofFn_fin fun j => a j * b j
  have hc : (fun j => if Ext.fin (p j) ≠ Ext.fin 0 then centeredE y (maskScores mask x) j else Ext.fin 0) =
      fun j => Ext.fin (if p j ≠ 0 then centered y x j else 0) := by
    funext j
    by_cases h : p j = 0
    · rw [if_neg (by simp [h]), if_neg (by simp [h])]
    · rw [if_pos (by simpa using h), if_pos h]
      have hj : mask j = false := by
        by_contra hm
        exact h (hz j (by simpa using hm))
      unfold centeredE centered
      by_cases hjy : j = y
      · subst hjy; rw [Function.update_self, Function.update_self]
      · rw [Function.update_of_ne hjy, Function.update_of_ne hjy]
        simp [maskScores, hj, hy, Ext.sub, Ext.neg, Ext.add, sub_eq_add_neg]
  unfold multiclassSparsemaxLossE multiclassSparsemaxLoss
  simp only [hp, e1]
  rw [hc, d1, d1]
  simp only [Ext.sub, Ext.neg, Ext.add, Ext.smul, sub_eq_add_neg]

/-! ## The logistic loss -/

theorem centeredE_masked {n : ℕ} {mask : Fin n → Bool} (x : Fin n → ℝ) {y : Fin n} (hy : mask y = false) :
    centeredE y (maskScores mask x) = maskScores mask fun j => x j - x y := by
  funext j
  unfold centeredE
  by_cases hjy : j = y
  · subst hjy; simp [maskScores, hy]
  · rw [Function.update_of_ne hjy]
    by_cases h : mask j = true
    · simp [maskScores, h, hy, Ext.sub, Ext.neg, Ext.add]
    · simp [maskScores, h, hy, Ext.sub, Ext.neg, Ext.add, sub_eq_add_neg]

/-- C131.  The multiclass logistic loss handles excluded classes: with a finite score for the label, it is the logistic loss over the other
classes, which is also the limit of the losses of finite scores when the scores of the excluded classes go to `-inf`. -/
theorem C131_logistic {n : ℕ} (mask : Fin n → Bool) (x : Fin n → ℝ) {y : Fin n} (hy : mask y = false) :
    multiclassLogisticLossE y (maskScores mask x) = .fin (Real.log (∑ j, if mask j then 0 else Real.exp (x j - x y))) ∧
      Tendsto (fun t => multiclassLogisticLoss y fun j => if mask j then t else x j) atBot
        (𝓝 (Real.log (∑ j, if mask j then 0 else Real.exp (x j - x y)))) := by
  have hpos : 0 < ∑ j, if mask j then 0 else Real.exp (x j - x y) := by
    refine Finset.sum_pos' (fun j _ => ?_) ⟨y, Finset.mem_univ y, by simp [hy]⟩
    split_ifs
    · exact le_rfl
    · exact (Real.exp_pos _).le
  constructor
  · unfold multiclassLogisticLossE logsumexpE
    rw [centeredE_masked x hy]
    obtain ⟨M, hM⟩ : ∃ M, vmaxE (maskScores mask fun j => x j - x y) = .fin M := by
      refine (max_low ?_).2 ⟨0, List.mem_ofFn.mpr ⟨y, by simp [maskScores, hy]⟩⟩
      intro v hv
      rw [List.mem_ofFn] at hv
      obtain ⟨j, rfl⟩ := hv
      by_cases h : mask j = true
      · exact Or.inl (by simp [maskScores, h])
      · exact Or.inr ⟨x j - x y, by simp [maskScores, h]⟩
    simp only [hM, Ext.isNan, Ext.isInf, Bool.or_self, Bool.false_eq_true, if_false]
    have e : (fun j => expE (Ext.sub (maskScores mask (fun j => x j - x y) j) (.fin M))) =
        fun j => .fin (Real.exp (-M) * if mask j then 0 else Real.exp (x j - x y)) := by
      funext j
      by_cases h : mask j = true
      · simp [maskScores, h, Ext.sub, Ext.neg, Ext.add, expE]
      · simp only [maskScores, h, Ext.sub, Ext.neg, Ext.add, expE, if_false, Bool.false_eq_true]
        rw [← Real.exp_add, add_comm]
    rw [e, sumE_ofFn_fin, ← Finset.mul_sum]
    rw [logE, if_pos (mul_pos (Real.exp_pos _) hpos), Real.log_mul (Real.exp_pos _).ne' hpos.ne', Real.log_exp, Ext.add]
    congr 1
    ring
  · unfold multiclassLogisticLoss logsumexp
    refine Tendsto.log ?_ hpos.ne'
    refine tendsto_finsetSum _ fun j _ => ?_
    simp only [centered_eq]
    by_cases h : mask j = true
    · simp only [h, hy, if_true, Bool.false_eq_true, if_false]
      exact Real.tendsto_exp_atBot.comp (tendsto_atBot_add_const_right _ _ tendsto_id)
    · simp only [h, hy, Bool.false_eq_true, if_false]
      exact tendsto_const_nhds

/-- C131.  If only the label is excluded, the multiclass logistic loss is `+inf`. -/
theorem C131_logistic_label {n : ℕ} (x : Fin n → ℝ) {y k : Fin n} (hk : k ≠ y) :
    multiclassLogisticLossE y (maskScores (fun j => decide (j = y)) x) = .pinf := by
  have hc : centeredE y (maskScores (fun j => decide (j = y)) x) = fun j => if j = y then .fin 0 else .pinf := by
    funext j
    unfold centeredE
    by_cases h : j = y
    · subst h; simp
    · rw [Function.update_of_ne h, if_neg h]
      simp [maskScores, h, Ext.sub, Ext.neg, Ext.add]
  unfold multiclassLogisticLossE logsumexpE
  rw [hc]
  have hM : vmaxE (fun j => if j = y then Ext.fin 0 else Ext.pinf : Fin n → Ext ℝ) = .pinf := by
    refine max_pinf (fun v hv => ?_) (List.mem_ofFn.mpr ⟨k, by simp [hk]⟩)
    rw [List.mem_ofFn] at hv
    obtain ⟨j, rfl⟩ := hv
    by_cases h : j = y
    · exact Or.inr ⟨0, by simp [h]⟩
    · exact Or.inl (by simp [h])
  simp only [hM, Ext.isNan, Ext.isInf, Bool.or_true, if_true]
  have hs : sumE (List.ofFn fun j => expE (Ext.sub (if j = y then Ext.fin 0 else Ext.pinf) (.fin 0)) : List (Ext ℝ)) = .pinf := by
    refine (sumE_pinf fun v hv => ?_).2 (List.mem_ofFn.mpr ⟨k, by simp [hk, Ext.sub, Ext.neg, Ext.add, expE]⟩)
    rw [List.mem_ofFn] at hv
    obtain ⟨j, rfl⟩ := hv
    by_cases h : j = y
    · exact Or.inr ⟨1, by simp [h, Ext.sub, Ext.neg, Ext.add, expE]⟩
    · exact Or.inl (by simp [h, Ext.sub, Ext.neg, Ext.add, expE])
  rw [hs]
  rfl

/-! ## Hinge, perceptron and Fenchel-Young losses -/

/-- The dot product with a one-hot vector is NaN as soon as another entry is infinite. -/
theorem dotE_oneHot_nan {n : ℕ} {y j : Fin n} {s : Fin n → Ext K} (hj : j ≠ y) (h : s j = .ninf ∨ s j = .pinf) :
    dotE s (oneHotE y) = .nan ∧ dotE (oneHotE y) s = .nan := by
  constructor
  · refine sumE_nan (List.mem_ofFn.mpr ⟨j, ?_⟩)
    rcases h with h | h <;> simp [h, oneHotE, oneHot, hj, mulE, Ext.smul]
  · refine sumE_nan (List.mem_ofFn.mpr ⟨j, ?_⟩)
    rcases h with h | h <;> simp [h, oneHotE, oneHot, hj, mulE, Ext.smul]

/-- C131.  The multiclass hinge and perceptron losses, and every loss of `make_fenchel_young_loss` at a one-hot target, are NaN as soon as one
class other than the label has an infinite score. -/
theorem C131_nan {n : ℕ} {y j : Fin n} {s : Fin n → Ext K} (hj : j ≠ y) (h : s j = .ninf ∨ s j = .pinf) (maxFun : (Fin n → Ext K) → Ext K) :
    multiclassHingeLossE y s = .nan ∧ multiclassPerceptronLossE y s = .nan ∧ fyLossE maxFun (oneHotE y) s = .nan := by
  obtain ⟨h1, h2⟩ := dotE_oneHot_nan hj h
  have hsub : ∀ v : Ext K, Ext.sub v .nan = .nan := fun v => by cases v <;> rfl
  unfold multiclassHingeLossE multiclassPerceptronLossE fyLossE
  rw [h1, h2]
  exact ⟨hsub _, hsub _, hsub _⟩

/-- The maximum of finite scores. -/
theorem vmaxE_fin {n : ℕ} (a : Fin (n + 1) → K) : vmaxE (fun j => Ext.fin (a j)) = .fin (vmax a) := by
  induction n with
  | zero =>
    have h : vmax a = a 0 := le_antisymm (vmax_le fun j => by rw [show j = 0 from Fin.ext (by omega)]) (le_vmax a 0)
    rw [h]
    simp [vmaxE, Ext.max]
  | succ n ih =>
    have h : vmax a = max (a 0) (vmax fun j => a (Fin.succ j)) := by
      refine le_antisymm (vmax_le fun j => ?_) (max_le (le_vmax a 0) (vmax_le fun j => le_vmax a (Fin.succ j)))
      refine Fin.cases (le_max_left _ _) (fun j => ?_) j
      exact le_trans (le_vmax (fun j => a (Fin.succ j)) j) (le_max_right _ _)
    have hi := ih fun j => a (Fin.succ j)
    unfold vmaxE at hi ⊢
    rw [List.ofFn_succ, List.foldr_cons, hi, h]
    simp [Ext.max]

theorem dotE_fin {n : ℕ} (a b : Fin n → K) : dotE (fun j => .fin (a j)) (fun j => .fin (b j)) = .fin (dot a b) := by
  unfold dotE dot
  exact sumE_ofFn_fin fun j => a j * b j

/-- C131.  On finite scores the losses are those of exact arithmetic. -/
theorem C131_finite {n : ℕ} (y : Fin (n + 1)) (x : Fin (n + 1) → K) (label : Bool) (s : K) :
    multiclassHingeLossE y (fun j => .fin (x j)) = .fin (multiclassHingeLoss y x) ∧
      multiclassPerceptronLossE y (fun j => .fin (x j)) = .fin (multiclassPerceptronLoss y x) ∧
      (∀ (F : (Fin (n + 1) → Ext K) → Ext K) (f : (Fin (n + 1) → K) → K) (t : Fin (n + 1) → K), F (fun j => .fin (x j)) = .fin (f x) →
        fyLossE F (fun j => .fin (t j)) (fun j => .fin (x j)) = .fin (f x - ∑ j, t j * x j)) ∧
      binaryHingeLossE label (.fin s) = .fin (binaryHingeLoss label s) ∧
      binaryPerceptronLossE label (.fin s) = .fin (binaryPerceptronLoss label s) ∧
      binarySparsemaxLossE label (.fin s) = .fin (binarySparsemaxLoss label s) := by
  have hd : dotE (fun j => .fin (x j)) (oneHotE y) = .fin (dot x (oneHot y)) := dotE_fin x (oneHot y)
  refine ⟨?_, ?_, fun F f t h => ?_, ?_, ?_, ?_⟩
  · have hv : vmaxE (fun j => Ext.sub (Ext.add (.fin (x j)) (.fin 1)) (oneHotE y j)) = .fin (vmax fun j => x j + 1 - oneHot y j) := by
      rw [← vmaxE_fin]
      congr 1
      funext j
      simp [oneHotE, Ext.sub, Ext.add, Ext.neg, sub_eq_add_neg]
    unfold multiclassHingeLossE multiclassHingeLoss
    rw [hv, hd]
    simp [Ext.sub, Ext.add, Ext.neg, sub_eq_add_neg]
  · unfold multiclassPerceptronLossE multiclassPerceptronLoss
    rw [vmaxE_fin, hd]
    simp [Ext.sub, Ext.add, Ext.neg, sub_eq_add_neg]
  · unfold fyLossE
    rw [h, dotE_fin]
    simp [Ext.sub, Ext.add, Ext.neg, sub_eq_add_neg, dot]
  · cases label <;> simp [binaryHingeLossE, binaryHingeLoss, Ext.sub, Ext.add, Ext.neg, Ext.smul, Ext.max, signedLabel, sub_eq_add_neg, mul_comm]
  · cases label <;> simp [binaryPerceptronLossE, binaryPerceptronLoss, Ext.neg, Ext.smul, Ext.max, signedLabel, mul_comm]
  · cases label <;> simp only [binarySparsemaxLossE, binarySparsemaxLoss, sparsePlus, flipE, flip, Ext.le, Ext.neg, Ext.add, mulE, Ext.smul] <;> split_ifs <;> simp_all <;> ring

/-- C131.  An excluded class should not matter: with the scores `(1, 0, t)` and label 0 the hinge and the perceptron loss are zero for every
`t ≤ 0`, and the logistic loss at `t = -inf` is finite; but the hinge loss, the perceptron loss and the Fenchel-Young loss of `logsumexp`
are NaN at `t = -inf`. -/
theorem C131_masked_false :
    (∀ t : ℝ, t ≤ 0 → multiclassHingeLoss 0 ![1, 0, t] = 0 ∧ multiclassPerceptronLoss 0 ![1, 0, t] = 0) ∧
      (∃ v, multiclassLogisticLossE 0 ![.fin 1, .fin 0, .ninf] = .fin v) ∧
      multiclassHingeLossE 0 ![Ext.fin (1 : ℝ), .fin 0, .ninf] = .nan ∧ multiclassPerceptronLossE 0 ![Ext.fin (1 : ℝ), .fin 0, .ninf] = .nan ∧
      fyLossE logsumexpE (oneHotE 0) ![.fin 1, .fin 0, .ninf] = .nan := by
  refine ⟨fun t ht => ⟨?_, ?_⟩, ?_, C131_nan (j := 2) (by decide) (Or.inl rfl) _⟩
  · unfold multiclassHingeLoss
    rw [dot_oneHot]
    have h1 : vmax (fun j => (![1, 0, t] : Fin 3 → ℝ) j + 1 - oneHot 0 j) = 1 := by
      refine le_antisymm (vmax_le fun j => ?_) ?_
      · fin_cases j <;> simp [oneHot]
        exact ht
      · have := le_vmax (fun j => (![1, 0, t] : Fin 3 → ℝ) j + 1 - oneHot 0 j) 0
        simpa [oneHot] using this
    rw [h1]; simp
  · unfold multiclassPerceptronLoss
    rw [dot_oneHot]
    have h1 : vmax (![1, 0, t] : Fin 3 → ℝ) = 1 := by
      refine le_antisymm (vmax_le fun j => ?_) ?_
      · fin_cases j <;> simp
        linarith
      · simpa using le_vmax (![1, 0, t] : Fin 3 → ℝ) 0
    rw [h1]; simp
  · have e : (![.fin 1, .fin 0, .ninf] : Fin 3 → Ext ℝ) = maskScores ![false, false, true] ![1, 0, 0] := by
      funext j; fin_cases j <;> simp [maskScores]
    rw [e]
    exact ⟨_, (C131_logistic ![false, false, true] ![1, 0, 0] (y := 0) rfl).1⟩

/-! ## Binary losses -/

/-- The logit that favours the label without limit, and the one that favours the other class. -/
def sure (label right : Bool) : Ext K := if label = right then .pinf else .ninf

/-- C131.  An infinite logit gives a binary loss of zero if it has the sign of the label and `+inf` otherwise. -/
theorem C131_binary (label : Bool) :
    (binaryLogisticLossE label (sure label true) = .fin 0 ∧ binaryLogisticLossE label (sure label false) = .pinf) ∧
      (binarySparsemaxLossE label (sure (K := K) label true) = .fin 0 ∧ binarySparsemaxLossE label (sure (K := K) label false) = .pinf) ∧
      (binaryHingeLossE label (sure (K := K) label true) = .fin 0 ∧ binaryHingeLossE label (sure (K := K) label false) = .pinf) ∧
      (binaryPerceptronLossE label (sure (K := K) label true) = .fin 0 ∧ binaryPerceptronLossE label (sure (K := K) label false) = .pinf) := by
  have h10 : ¬ (1 : K) < 0 := not_lt.mpr zero_le_one
  cases label <;>
    simp [h10, sure, binaryLogisticLossE, softplusE, flipE, Ext.sub, Ext.neg, Ext.add, Ext.isNan, Ext.abs, Ext.max, expE, logE, binarySparsemaxLossE, Ext.le,
      binaryHingeLossE, binaryPerceptronLossE, signedLabel, Ext.smul]

/-! ## Examples -/

/-- Four classes, two of them excluded. -/
example : multiclassSparsemaxLossE (K := ℚ) 1 ![.ninf, .fin 2, .ninf, .fin (3 / 2)] = .fin (1 / 16) := by decide +kernel

example : multiclassSparsemaxLossE 1 (maskScores ![true, false, true, false] ![0, 2, -5, 3 / 2]) = .fin (multiclassSparsemaxLoss 1 (![0, 2, -5, 3 / 2] : Fin 4 → ℚ)) :=
  C131_sparsemax rfl fun j hj => ⟨1, rfl, by revert hj; revert j; decide +kernel⟩

example : multiclassHingeLossE (K := ℚ) 1 ![.fin 2, .fin (5 / 2), .fin 0] = .fin (1 / 2) := by decide +kernel

/-- Two classes of equal score and an excluded one: the logistic loss is `log 2`. -/
example : multiclassLogisticLossE 0 (maskScores ![false, false, true] ![3, 3, 0]) = .fin (Real.log 2) := by
  rw [(C131_logistic ![false, false, true] ![3, 3, 0] (y := 0) rfl).1]
  congr 2
  rw [Fin.sum_univ_three]
  simp
  norm_num

end Jaxopt.Loss
