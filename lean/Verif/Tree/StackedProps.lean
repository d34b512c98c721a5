import Verif.Tree.Stacked
import Verif.Tree.Props
import Mathlib.Data.List.GetD
import Mathlib.Tactic.FinCases
import Mathlib.Tactic.NormNum

/-!
# C142: batched pytrees are lists of vectors
-/

set_option autoImplicit false
set_option linter.unusedSectionVars false
set_option linter.unusedVariables false

namespace Jaxopt.Tree

variable {K : Type*} {m : ℕ}

/-! ## Specification -/

/-- The flattened `i`-th vector of a batch. -/
def rowVec (t : PyTree (Stack K m)) (i : Fin m) : List K := (leaves t).flatMap fun a => (a.row i).data

/-- The vector of the first `N` entries of a list (all of them if its length is `N`). -/
def toVec [Zero K] (N : ℕ) (l : List K) : Fin N → K := fun j => l.getD j 0

/-- Same structure and shapes as the rows of a batch. -/
def RowTopo (t : PyTree (Stack K m)) (u : PyTree (Arr K)) : Prop := sameDef t u = true ∧ (leaves t).map (·.shape) = (leaves u).map (·.shape)

/-- The number of entries of every row. -/
def rowSize (t : PyTree (Stack K m)) : ℕ := ((leaves t).map fun a => a.shape.prod).sum

/-! ## Arrays -/

theorem row_length (i : Fin m) (a : Stack K m) : (a.row i).data.length = a.shape.prod := (a.row i).wf

theorem row_getElem? (i : Fin m) (a : Stack K m) {j : ℕ} (hj : j < a.shape.prod) : (a.row i).data[j]? = a.data[(i : ℕ) * a.shape.prod + j]? := by
  show ((a.data.drop (i * a.shape.prod)).take a.shape.prod)[j]? = _
  rw [List.getElem?_take_of_lt hj, List.getElem?_drop]

theorem row_set {i k : Fin m} {a b : Stack K m} {e : Arr K} (h : a.set i e = some b) :
    b.shape = a.shape ∧ (b.row k).data = if k = i then e.data else (a.row k).data := by
  unfold Stack.set at h
  split_ifs at h with hs
  obtain rfl := (Option.some.inj h).symm
  refine ⟨rfl, ?_⟩
  have hb := Stack.row_bound i a.shape.prod
  have hk := Stack.row_bound k a.shape.prod
  have hl : (a.data.take (i * a.shape.prod)).length = i * a.shape.prod := by rw [List.length_take, a.wf]; omega
  have he : e.data.length = a.shape.prod := by rw [e.wf, hs]
  apply List.ext_getElem?
  intro j
  by_cases hj : j < a.shape.prod
  swap
  · rw [List.getElem?_eq_none (by rw [row_length]; exact not_lt.mp hj), List.getElem?_eq_none]
    split_ifs
    · omega
    · rw [row_length]; omega
  refine Eq.trans (row_getElem? k _ hj) ?_
  show (a.data.take (i * a.shape.prod) ++ e.data ++ a.data.drop (i * a.shape.prod + a.shape.prod))[(k : ℕ) * a.shape.prod + j]? = _
  rw [List.append_assoc]
  split_ifs with hki
  · subst hki
    rw [List.getElem?_append_right (by omega), hl, Nat.add_sub_cancel_left, List.getElem?_append_left (by omega)]
  · rw [row_getElem? _ _ hj]
    rcases lt_or_gt_of_ne (fun h => hki (Fin.ext h) : (k : ℕ) ≠ i) with hlt | hgt
    · have := Nat.mul_le_mul_right a.shape.prod (Nat.succ_le_of_lt hlt)
      rw [Nat.succ_mul] at this
      rw [List.getElem?_append_left (by omega), List.getElem?_take_of_lt (by omega)]
    · have := Nat.mul_le_mul_right a.shape.prod (Nat.succ_le_of_lt hgt)
      rw [Nat.succ_mul] at this
      rw [List.getElem?_append_right (by omega), List.getElem?_append_right (by omega), hl, he, List.getElem?_drop]
      congr 1
      omega

theorem flatten_replicate (l : List K) : ∀ (m i : ℕ), i < m → (((List.replicate m l).flatten).drop (i * l.length)).take l.length = l
  | 0, _, h => absurd h (Nat.not_lt_zero _)
  | m + 1, 0, _ => by simp [List.replicate_succ]
  | m + 1, i + 1, h => by
    rw [List.replicate_succ, List.flatten_cons, Nat.succ_mul, Nat.add_comm, ← List.drop_drop, List.drop_left]
    exact flatten_replicate l m i (Nat.lt_of_succ_lt_succ h)

theorem row_tile (x : Arr K) (i : Fin m) : ((Stack.tile m x).row i).data = x.data := by
  show (((List.replicate m x.data).flatten).drop (i * x.shape.prod)).take x.shape.prod = _
  rw [← x.wf]
  exact flatten_replicate x.data m i i.2

section
variable [Ring K]

theorem row_tensordot (w : Fin m → K) (a : Stack K m) (j : ℕ) : (a.tensordot w).data.getD j 0 = ∑ i, w i * (a.row i).data.getD j 0 := by
  by_cases hj : j < a.shape.prod
  · have h1 : ∀ i : Fin m, (a.row i).data.getD j 0 = a.data[(i : ℕ) * a.shape.prod + j]'(by
        have := Stack.row_bound i a.shape.prod
        rw [a.wf]; omega) := fun i => by
      rw [List.getD_eq_getElem?_getD, row_getElem? i a hj, List.getElem?_eq_getElem, Option.getD_some]
    simp only [h1]
    rw [List.getD_eq_getElem?_getD, List.getElem?_eq_getElem (by rw [(a.tensordot w).wf]; exact hj), Option.getD_some]
    unfold Stack.tensordot
    simp
  · rw [List.getD_eq_default _ _ (by rw [(a.tensordot w).wf]; exact not_lt.mp hj)]
    refine (Finset.sum_eq_zero fun i _ => ?_).symm
    rw [List.getD_eq_default _ _ (by rw [row_length]; exact not_lt.mp hj), mul_zero]

theorem average_list (w : Fin m → K) (as : List (Stack K m)) (j : ℕ) :
    ((as.map (Stack.tensordot w)).flatMap (·.data)).getD j 0 = ∑ i, w i * (as.flatMap fun a => (a.row i).data).getD j 0 := by
  induction as generalizing j with
  | nil => simp
  | cons a as ih =>
    have hl : (a.tensordot w).data.length = a.shape.prod := (a.tensordot w).wf
    simp only [List.map_cons, List.flatMap_cons]
    by_cases hj : j < a.shape.prod
    · rw [List.getD_append _ _ _ _ (by rw [hl]; exact hj), row_tensordot]
      refine Finset.sum_congr rfl fun i _ => ?_
      rw [List.getD_append _ _ _ _ (by rw [row_length]; exact hj)]
    · have hj := not_lt.mp hj
      rw [List.getD_append_right _ _ _ _ (by rw [hl]; exact hj), hl, ih]
      refine Finset.sum_congr rfl fun i _ => ?_
      rw [List.getD_append_right _ _ _ _ (by rw [row_length]; exact hj), row_length]

theorem dotL_toVec : ∀ (N : ℕ) (a b : List K), a.length = N → b.length = N → dotL a b = ∑ j, toVec N a j * toVec N b j
  | 0, [], [], _, _ => by simp [dotL]
  | 0, _ :: _, _, h, _ => by simp at h
  | 0, [], _ :: _, _, h => by simp at h
  | N + 1, [], _, h, _ => by simp at h
  | N + 1, _ :: _, [], _, h => by simp at h
  | N + 1, x :: a, y :: b, ha, hb => by
    have ih := dotL_toVec N a b (by simpa using ha) (by simpa using hb)
    rw [Fin.sum_univ_succ]
    unfold dotL at ih ⊢
    rw [List.zipWith_cons_cons, List.sum_cons, ih]
    rfl

theorem zipWith_getD (c : K) : ∀ (a b : List K), a.length = b.length → ∀ j,
    (List.zipWith (fun x y => x + c * y) a b).getD j 0 = a.getD j 0 + c * b.getD j 0
  | [], [], _, j => by simp
  | _ :: _, [], h, _ => by simp at h
  | [], _ :: _, h, _ => by simp at h
  | x :: a, y :: b, h, 0 => by simp
  | x :: a, y :: b, h, j + 1 => by simpa using zipWith_getD c a b (by simpa using h) j

/-! ## Trees -/

theorem treeRow_spec (t : PyTree (Stack K m)) (i : Fin m) : ∃ r, treeRow i t = some r ∧ RowTopo t r ∧ vec r = rowVec t i := by
  obtain ⟨r, h1, h2, h3⟩ := treeMap_spec (Stack.row i) t
  refine ⟨r, h1, ⟨h3, ?_⟩, ?_⟩
  · rw [h2, List.map_map]; rfl
  · unfold vec rowVec; rw [h2, List.flatMap_map]

theorem RowTopo.same {t : PyTree (Stack K m)} {u v : PyTree (Arr K)} (h : RowTopo t u) (h' : RowTopo t v) : SameTopo u v :=
  ⟨sameDef_trans u t v (by rw [sameDef_symm]; exact h.1) h'.1, h.2.symm.trans h'.2⟩

theorem RowTopo.length {t : PyTree (Stack K m)} {u : PyTree (Arr K)} (h : RowTopo t u) : (vec u).length = rowSize t := by
  have key : ∀ (as : List (Stack K m)) (bs : List (Arr K)), as.map (·.shape) = bs.map (·.shape) →
      (bs.flatMap (·.data)).length = (as.map fun a => a.shape.prod).sum := fun as => by
    induction as with
    | nil => intro bs h; cases bs with
      | nil => rfl
      | cons b bs => simp at h
    | cons a as ih => intro bs h; cases bs with
      | nil => simp at h
      | cons b bs =>
        simp only [List.map_cons, List.cons.injEq] at h
        rw [List.flatMap_cons, List.length_append, ih bs h.2, b.wf, List.map_cons, List.sum_cons, h.1]
  exact key _ _ h.2

theorem RowTopo.ne {t : PyTree (Stack K m)} {u : PyTree (Arr K)} (h : RowTopo t u) (hne : leaves t ≠ []) : leaves u ≠ [] := fun hu => by
  have := sameDef_length t u h.1
  rw [hu] at this
  exact hne (List.length_eq_zero_iff.mp this)

theorem rowVec_length (t : PyTree (Stack K m)) (i : Fin m) : (rowVec t i).length = rowSize t := by
  obtain ⟨r, h1, h2, h3⟩ := treeRow_spec t i
  rw [← h3, h2.length]

/-! ## Properties -/

/-- C142.  `tree_average` is the linear combination of the vectors of the batch. -/
theorem C142_average (t : PyTree (Stack K m)) (w : Fin m → K) :
    ∃ s, treeAverage t w = some s ∧ RowTopo t s ∧ (vec s).length = rowSize t ∧
      toVec (rowSize t) (vec s) = fun j => ∑ i, w i * toVec (rowSize t) (rowVec t i) j := by
  obtain ⟨r, h1, h2, h3⟩ := treeMap_spec (Stack.tensordot w) t
  have hr : RowTopo t r := ⟨h3, by rw [h2, List.map_map]; rfl⟩
  refine ⟨r, h1, hr, hr.length, ?_⟩
  funext j
  show ((leaves r).flatMap (·.data)).getD j 0 = _
  rw [h2, average_list]
  rfl

/-- C142.  `pytree_replace_elem` replaces one vector and keeps the others. -/
theorem C142_replace {t : PyTree (Stack K m)} {e : PyTree (Arr K)} (h : RowTopo t e) (i : Fin m) :
    ∃ s, pytreeReplaceElem t i e = some s ∧ (∀ u, RowTopo t u → RowTopo s u) ∧ (leaves s).length = (leaves t).length ∧
      ∀ k, rowVec s k = if k = i then vec e else rowVec t k := by
  have key : ∀ (as : List (Stack K m)) (bs : List (Arr K)), as.map (·.shape) = bs.map (·.shape) →
      ∃ cs, zipM (Stack.set i) as bs = some cs ∧ cs.map (·.shape) = as.map (·.shape) ∧
        ∀ k, (cs.flatMap fun a => (a.row k).data) = if k = i then bs.flatMap (·.data) else as.flatMap fun a => (a.row k).data := fun as => by
    induction as with
    | nil => intro bs h; cases bs with
      | nil => exact ⟨[], rfl, rfl, fun k => by split_ifs <;> rfl⟩
      | cons b bs => simp at h
    | cons a as ih => intro bs h; cases bs with
      | nil => simp at h
      | cons b bs =>
        simp only [List.map_cons, List.cons.injEq] at h
        obtain ⟨cs, h1, h2, h3⟩ := ih bs h.2
        obtain ⟨c, hc⟩ : ∃ c, Stack.set i a b = some c := ⟨_, by unfold Stack.set; rw [dif_pos h.1.symm]⟩
        refine ⟨c :: cs, ?_, ?_, fun k => ?_⟩
        · rw [zipM, hc, h1]; rfl
        · rw [List.map_cons, List.map_cons, h2, (row_set (k := i) hc).1]
        · rw [List.flatMap_cons, h3, (row_set hc).2]
          split_ifs <;> rfl
  obtain ⟨cs, h1, h2, h3⟩ := key _ _ h.2
  obtain ⟨s, g1, g2, g3⟩ := treeMap2_spec h.1 h1
  refine ⟨s, g1, fun u hu => ⟨sameDef_trans s t u (by rw [sameDef_symm]; exact g3) hu.1, by rw [g2, h2]; exact hu.2⟩,
    (sameDef_length t s g3).symm, fun k => ?_⟩
  unfold rowVec vec
  rw [g2]
  exact h3 k

end

section
variable [CommRing K]

/-- C142.  `tree_gram` is the matrix of inner products. -/
theorem C142_gram {t : PyTree (Stack K m)} (hne : leaves t ≠ []) (j i : Fin m) : treeGram t j i = some (dotL (rowVec t j) (rowVec t i)) := by
  obtain ⟨a, a1, a2, a3⟩ := treeRow_spec t i
  obtain ⟨b, b1, b2, b3⟩ := treeRow_spec t j
  unfold treeGram
  rw [a1, b1]
  show treeVdot a b = _
  rw [C47_vdot (a2.same b2) (a2.ne hne), a3, b3]
  congr 1
  unfold dotL
  rw [List.zipWith_comm]
  simp only [mul_comm]

/-- C142.  The initial histories repeat the initial point and zero. -/
theorem C142_init (x0 : PyTree (Arr K)) : ∃ p r, initHistories m x0 = some (p, r) ∧ RowTopo p x0 ∧ RowTopo r x0 ∧
    ∀ i, rowVec p i = vec x0 ∧ rowVec r i = List.replicate (vec x0).length 0 := by
  obtain ⟨p, h1, h2, h3⟩ := treeMap_spec (Stack.tile m) x0
  obtain ⟨r, g1, g2, g3⟩ := treeMap_spec (Stack.zerosLike (K := K) (m := m)) p
  have hp : RowTopo p x0 := ⟨by rw [sameDef_symm]; exact h3, by rw [h2, List.map_map]; rfl⟩
  have hr : RowTopo r x0 := ⟨sameDef_trans r p x0 (by rw [sameDef_symm]; exact g3) hp.1, by rw [g2, List.map_map]; exact hp.2⟩
  refine ⟨p, r, by unfold initHistories; rw [h1]; simp [g1], hp, hr, fun i => ⟨?_, ?_⟩⟩
  · unfold rowVec vec
    rw [h2, List.flatMap_map]
    congr 1
    funext a
    exact row_tile a i
  · rw [hr.length, ← rowVec_length r i]
    refine List.eq_replicate_of_mem fun v hv => ?_
    unfold rowVec at hv
    rw [g2, List.flatMap_map, List.mem_flatMap] at hv
    obtain ⟨a, -, hv⟩ := hv
    have hv := List.mem_of_mem_drop (List.mem_of_mem_take hv)
    obtain ⟨_, -, rfl⟩ := List.mem_map.mp hv
    rfl

end

section
variable [Field K] [LinearOrder K]

open FixedPoint

/-- C142.  `anderson_step` on histories of pytrees is the step on histories of vectors. -/
theorem C142_step (solve : LinSolve K m) {p r : PyTree (Stack K m)} {x : PyTree (Arr K)} (hp : RowTopo p x) (hr : RowTopo r x)
    (gram : Matrix (Fin m) (Fin m) K) (ridge beta : K) :
    ∃ s, andersonStepTree solve p r gram ridge beta = some s ∧ SameTopo x s ∧ toVec (vec x).length (vec s) =
      andersonStep solve (fun i => toVec (vec x).length (rowVec p i)) (fun i => toVec (vec x).length (rowVec r i)) gram ridge beta := by
  obtain ⟨a, a1, a2, a3, a4⟩ := C142_average p fun i => minimizeResiduals solve gram ridge (.inr i)
  obtain ⟨b, b1, b2, b3, b4⟩ := C142_average r fun i => minimizeResiduals solve gram ridge (.inr i)
  have hab : SameTopo a b := (a2.same hp).trans (hr.same b2)
  obtain ⟨s, s1, s2, s3⟩ := C47_add_scalar_mul beta hab
  refine ⟨s, by unfold andersonStepTree; simp only [a1, b1, Option.bind_some]; exact s1, (hp.same a2).trans s2, ?_⟩
  rw [← hp.length] at a4
  rw [← hr.length] at b4
  funext j
  have ea := congrFun a4 j
  have eb := congrFun b4 j
  show (vec s).getD j 0 = _
  rw [s3, zipWith_getD beta _ _ hab.length]
  simp only [andersonStep, FixedPoint.treeAverage, Pi.add_apply, Pi.smul_apply, Finset.sum_apply, smul_eq_mul]
  rw [← ea, ← eb]
  rfl

/-- C142.  `update_history` on histories of pytrees is the update on histories of vectors. -/
theorem C142_update (sqrt : K → K) (pos : Fin m) {p r : PyTree (Stack K m)} {x res : PyTree (Arr K)} (hp : RowTopo p x) (hr : RowTopo r x)
    (hres : SameTopo x res) (hne : leaves x ≠ []) (gram : Matrix (Fin m) (Fin m) K) :
    ∃ p' r' g e, updateHistoryTree sqrt pos p r gram x res = some (p', r', g, e) ∧ RowTopo p' x ∧ RowTopo r' x ∧
      ((⟨fun i => toVec (vec x).length (rowVec p' i), fun i => toVec (vec x).length (rowVec r' i), g⟩ : AHist K (Fin (vec x).length → K) m), e) =
      updateHistory (fun u v => ∑ j, u j * v j) sqrt pos
        ⟨fun i => toVec (vec x).length (rowVec p i), fun i => toVec (vec x).length (rowVec r i), gram⟩ (toVec (vec x).length (vec x))
        (toVec (vec x).length (vec res)) := by
  have hrr : RowTopo r res := ⟨sameDef_trans r x res hr.1 hres.1, hr.2.trans hres.2⟩
  obtain ⟨p', p1, p2, p3, p4⟩ := C142_replace hp pos
  obtain ⟨r', r1, r2, r3, r4⟩ := C142_replace hrr pos
  have hx := r2 _ hr
  have hrow : ∀ i, ((treeRow i r').bind fun a => treeVdot a res) = some (∑ j, toVec (vec x).length (rowVec r' i) j * toVec (vec x).length (vec res) j) := by
    intro i
    obtain ⟨a, a1, a2, a3⟩ := treeRow_spec r' i
    have hne' : leaves r' ≠ [] := fun h => by
      have := sameDef_length r' x hx.1
      rw [h] at this
      exact hne (List.length_eq_zero_iff.mp this.symm)
    rw [a1]
    show treeVdot a res = _
    rw [C47_vdot (a2.same (r2 _ hrr)) (a2.ne hne'), a3]
    congr 1
    exact dotL_toVec _ _ _ (by rw [rowVec_length, hx.length]) hres.length.symm
  have hv : vmapVdot r' res = some fun i => ∑ j, toVec (vec x).length (rowVec r' i) j * toVec (vec x).length (vec res) j := by
    unfold vmapVdot
    rw [dif_pos fun i => by rw [hrow]; rfl]
    congr 1
    funext i
    simp only [hrow, Option.get_some]
  have ep : (fun i => toVec (vec x).length (rowVec p' i)) = Function.update (fun i => toVec (vec x).length (rowVec p i)) pos (toVec (vec x).length (vec x)) := by
    funext i
    rw [p4, Function.update_apply]
    split_ifs <;> rfl
  have er : (fun i => toVec (vec x).length (rowVec r' i)) = Function.update (fun i => toVec (vec x).length (rowVec r i)) pos (toVec (vec x).length (vec res)) := by
    funext i
    rw [r4, Function.update_apply]
    split_ifs <;> rfl
  set v : Fin m → K := fun i => ∑ j, toVec (vec x).length (rowVec r' i) j * toVec (vec x).length (vec res) j with hvdef
  refine ⟨p', r', (gram.updateRow pos v).updateCol pos v, sqrt (((gram.updateRow pos v).updateCol pos v) pos pos), ?_, p2 _ hp, hx, ?_⟩
  · unfold updateHistoryTree
    rw [p1, r1]
    simp only [Option.bind_some]
    rw [hv]
    rfl
  · simp only [updateHistory, ← ep, ← er]
    rfl

/-! ## `tree_mean` -/

theorem treeMean_eq {t : PyTree (Arr K)} (hne : leaves t ≠ []) :
    treeMean t = some (((leaves t).map fun a => a.data.sum / (a.data.length : K)).sum / ((leaves t).length : K)) := by
  obtain ⟨r, g1, g2, g3⟩ := treeMap_spec (arrMean (K := K)) t
  unfold treeMean
  rw [g1]
  simp only [Option.bind_some]
  rw [treeReduce_add (by rw [g2]; simpa using hne), g2, List.length_map]
  rfl

/-- C142.  `tree_mean` is the mean of all entries if the leaves have the same size. -/
theorem C142_mean_partial [IsStrictOrderedRing K] {t : PyTree (Arr K)} (hne : leaves t ≠ []) {q : ℕ} (hq : 0 < q)
    (h : ∀ a ∈ leaves t, a.data.length = q) : treeMean t = some ((vec t).sum / ((vec t).length : K)) := by
  rw [treeMean_eq hne]
  congr 1
  have key : ∀ as : List (Arr K), (∀ a ∈ as, a.data.length = q) →
      (as.map fun a => a.data.sum / (a.data.length : K)).sum = (as.flatMap (·.data)).sum / (q : K) ∧ (as.flatMap (·.data)).length = as.length * q := fun as => by
    induction as with
    | nil => intro _; simp
    | cons a as ih =>
      intro h
      obtain ⟨h1, h2⟩ := ih fun b hb => h b (by simp [hb])
      have ha := h a (by simp)
      constructor
      · rw [List.map_cons, List.sum_cons, h1, List.flatMap_cons, List.sum_append, ha, add_div]
      · rw [List.flatMap_cons, List.length_append, h2, ha, List.length_cons, Nat.succ_mul, Nat.add_comm]
  obtain ⟨h1, h2⟩ := key _ h
  unfold vec
  rw [h1, h2, Nat.cast_mul, div_div, mul_comm]

/-- C142, false for leaves of different sizes: the mean of `([1], [0, 0])` is reported as `1 / 2` instead of `1 / 3`. -/
theorem C142_mean_false : ∃ t : PyTree (Arr ℚ), leaves t ≠ [] ∧ treeMean t = some (1 / 2) ∧ (vec t).sum / ((vec t).length : ℚ) = 1 / 3 := by
  refine ⟨.node "tuple" [.leaf ⟨[1], [1], rfl⟩, .leaf ⟨[2], [0, 0], rfl⟩], by simp [leaves, leavesL], ?_, ?_⟩
  · rw [treeMean_eq (by simp [leaves, leavesL])]
    norm_num [leaves, leavesL]
  · norm_num [vec, leaves, leavesL]

end

/-! ## Examples -/

example : ∃ s, treeAverage (.node "tuple" [.leaf ⟨[], [1, 2], rfl⟩, .leaf ⟨[2], [3, 4, 5, 6], rfl⟩] : PyTree (Stack ℚ 2)) ![10, 1] = some s ∧
    toVec 3 (vec s) = ![12, 35, 46] := by
  obtain ⟨s, h1, -, -, h2⟩ := C142_average (.node "tuple" [.leaf ⟨[], [1, 2], rfl⟩, .leaf ⟨[2], [3, 4, 5, 6], rfl⟩] : PyTree (Stack ℚ 2)) ![10, 1]
  refine ⟨s, h1, h2.trans ?_⟩
  funext j
  fin_cases j <;> simp [toVec, rowVec, leaves, leavesL, Stack.row, Fin.sum_univ_two] <;> norm_num <;> rfl

end Jaxopt.Tree
