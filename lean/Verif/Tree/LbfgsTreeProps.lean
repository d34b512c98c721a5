import Verif.Tree.LbfgsTree
import Verif.Tree.StackedProps

/-!
# C143: the histories of L-BFGS on pytrees are histories of vectors
-/

set_option autoImplicit false
set_option linter.unusedSectionVars false
set_option linter.unusedVariables false

namespace Jaxopt.Tree

open QuasiNewton

variable {K : Type*} {m : ℕ} [Field K] [LinearOrder K]

/-! ## Specification -/

/-- The inner product of vectors. -/
def dotV {N : ℕ} (u v : Fin N → K) : K := ∑ j, u j * v j

/-- A tree with the structure and shapes of `x` and the entries `u`. -/
def Repr (x t : PyTree (Arr K)) (u : Fin (vec x).length → K) : Prop := SameTopo x t ∧ toVec (vec x).length (vec t) = u

/-- The buffers of pytrees hold the vectors of the buffers `h`; entries of `h` beyond the history size do not matter. -/
structure HistRepr (x : PyTree (Arr K)) (s y : PyTree (Stack K m)) (rho : Fin m → K) (h : Hist K (Fin (vec x).length → K)) : Prop where
  s_topo : RowTopo s x
  y_topo : RowTopo y x
  s_eq : ∀ i : Fin m, h.s i = toVec (vec x).length (rowVec s i)
  y_eq : ∀ i : Fin m, h.y i = toVec (vec x).length (rowVec y i)
  rho_eq : ∀ i : Fin m, h.rho i = rho i

/-! ## Operations -/

theorem repr_row {x : PyTree (Arr K)} {s : PyTree (Stack K m)} (h : RowTopo s x) (i : Fin m) :
    ∃ r, treeRow i s = some r ∧ Repr x r (toVec (vec x).length (rowVec s i)) := by
  obtain ⟨r, h1, h2, h3⟩ := treeRow_spec s i
  exact ⟨r, h1, h.same h2, by rw [h3]⟩

theorem repr_vdot {x a b : PyTree (Arr K)} {u v : Fin (vec x).length → K} (ha : Repr x a u) (hb : Repr x b v) : treeVdotReal a b = some (dotV u v) := by
  rw [C47_vdot_real (ha.1.symm.trans hb.1), dotL_toVec _ _ _ ha.1.length.symm hb.1.length.symm, ha.2, hb.2]
  rfl

theorem repr_axpy {x a b : PyTree (Arr K)} {u v : Fin (vec x).length → K} (c : K) (ha : Repr x a u) (hb : Repr x b v) :
    ∃ t, treeAddScalarMul a c b = some t ∧ Repr x t (u + c • v) := by
  have hab := ha.1.symm.trans hb.1
  obtain ⟨t, h1, h2, h3⟩ := C47_add_scalar_mul c hab
  refine ⟨t, h1, ha.1.trans h2, ?_⟩
  funext j
  show (vec t).getD j 0 = _
  rw [h3, zipWith_getD c _ _ hab.length, ← ha.2, ← hb.2]
  rfl

theorem map_getD (c : K) (l : List K) (j : ℕ) : (l.map (c * ·)).getD j 0 = c * l.getD j 0 := by
  induction l generalizing j with
  | nil => simp
  | cons a l ih => cases j with
    | zero => rfl
    | succ j => simpa using ih j

theorem repr_smul {x a : PyTree (Arr K)} {u : Fin (vec x).length → K} (c : K) (ha : Repr x a u) : ∃ t, treeScalarMul c a = some t ∧ Repr x t (c • u) := by
  obtain ⟨t, h1, h2, h3⟩ := C47_scalar_mul c a
  refine ⟨t, h1, ha.1.trans h2, ?_⟩
  funext j
  show (vec t).getD j 0 = _
  rw [h3, map_getD, ← ha.2]
  rfl

theorem indices_eq (m start : ℕ) : (indicesFin m start).map Fin.val = indices m start := by
  unfold indicesFin indices
  rw [List.map_map, ← List.map_coe_finRange_eq_range, List.map_map]
  rfl

variable {x : PyTree (Arr K)} {s y : PyTree (Stack K m)} {rho : Fin m → K} {h : Hist K (Fin (vec x).length → K)}

theorem bodyRight_repr (H : HistRepr x s y rho h) {r : PyTree (Arr K)} {u : Fin (vec x).length → K} (hr : Repr x r u) (i : Fin m) :
    ∃ r', bodyRightTree s y rho r i = some (r', (bodyRight dotV h u i).2) ∧ Repr x r' (bodyRight dotV h u i).1 := by
  obtain ⟨a, a1, a2⟩ := repr_row H.s_topo i
  obtain ⟨b, b1, b2⟩ := repr_row H.y_topo i
  obtain ⟨t, t1, t2⟩ := repr_axpy (-(rho i * dotV (toVec (vec x).length (rowVec s i)) u)) hr b2
  refine ⟨t, ?_, ?_⟩
  · unfold bodyRightTree bodyRight
    rw [a1, b1]
    simp only [Option.bind_some, repr_vdot a2 hr, t1, Option.map_some, H.rho_eq, H.s_eq]
  · unfold bodyRight
    simp only [H.rho_eq, H.s_eq, H.y_eq]
    exact t2

theorem scan_repr (H : HistRepr x s y rho h) {r : PyTree (Arr K)} {u : Fin (vec x).length → K} (hr : Repr x r u) (xs : List (Fin m)) :
    ∃ r', scanReverseM (bodyRightTree s y rho) r xs = some (r', (scanReverse (bodyRight dotV h) u (xs.map Fin.val)).2) ∧
      Repr x r' (scanReverse (bodyRight dotV h) u (xs.map Fin.val)).1 := by
  induction xs with
  | nil => exact ⟨r, rfl, hr⟩
  | cons i xs ih =>
    obtain ⟨r1, h1, h2⟩ := ih
    obtain ⟨r2, g1, g2⟩ := bodyRight_repr H h2 i
    refine ⟨r2, ?_, g2⟩
    rw [scanReverseM, h1]
    simp only [Option.bind_some, g1, Option.map_some]
    rfl

theorem bodyLeft_repr (H : HistRepr x s y rho h) {r : PyTree (Arr K)} {u : Fin (vec x).length → K} (hr : Repr x r u) (a : Fin m × K) :
    ∃ r', bodyLeftTree s y rho r a = some r' ∧ Repr x r' (bodyLeft dotV h u (a.1.val, a.2)) := by
  obtain ⟨p, p1, p2⟩ := repr_row H.s_topo a.1
  obtain ⟨b, b1, b2⟩ := repr_row H.y_topo a.1
  obtain ⟨t, t1, t2⟩ := repr_axpy (a.2 - rho a.1 * dotV (toVec (vec x).length (rowVec y a.1)) u) hr p2
  refine ⟨t, ?_, ?_⟩
  · unfold bodyLeftTree
    rw [p1, b1]
    simp only [Option.bind_some, repr_vdot b2 hr, t1]
  · unfold bodyLeft
    simp only [H.rho_eq, H.s_eq, H.y_eq]
    exact t2

theorem foldl_repr (H : HistRepr x s y rho h) (l : List (Fin m × K)) {r : PyTree (Arr K)} {u : Fin (vec x).length → K} (hr : Repr x r u) :
    ∃ r', l.foldlM (bodyLeftTree s y rho) r = some r' ∧ Repr x r' ((l.map fun a => (a.1.val, a.2)).foldl (bodyLeft dotV h) u) := by
  induction l generalizing r u with
  | nil => exact ⟨r, rfl, hr⟩
  | cons a l ih =>
    obtain ⟨r1, h1, h2⟩ := bodyLeft_repr H hr a
    obtain ⟨r2, g1, g2⟩ := ih h2
    refine ⟨r2, ?_, g2⟩
    rw [List.foldlM_cons, h1]
    exact g1

theorem zip_map_val (l : List (Fin m)) (k : List K) : (l.zip k).map (fun a => (a.1.val, a.2)) = (l.map Fin.val).zip k := by
  induction l generalizing k with
  | nil => rfl
  | cons a l ih => cases k with
    | nil => rfl
    | cons b k => simp [ih]

/-! ## Properties -/

/-- C143.  `inv_hessian_product` on pytrees raises nothing, keeps structure and shapes, and is the two-loop recursion on the vectors of all entries (C24). -/
theorem C143_product (H : HistRepr x s y rho h) {v : PyTree (Arr K)} (hv : SameTopo x v) (gamma : K) (start : ℕ) :
    ∃ r, invHessianProductTree v s y rho gamma start = some r ∧ SameTopo x r ∧
      toVec (vec x).length (vec r) = invHessianProduct dotV m (toVec (vec x).length (vec v)) h gamma start := by
  obtain ⟨r1, h1, h2⟩ := scan_repr H (⟨hv, rfl⟩ : Repr x v _) (indicesFin m start)
  obtain ⟨r2, g1, g2⟩ := repr_smul gamma h2
  obtain ⟨r3, f1, f2⟩ := foldl_repr H ((indicesFin m start).zip (scanReverse (bodyRight dotV h) (toVec (vec x).length (vec v))
    ((indicesFin m start).map Fin.val)).2) g2
  refine ⟨r3, ?_, f2.1, ?_⟩
  · unfold invHessianProductTree
    simp only [h1, Option.bind_some, g1]
    exact f1
  · rw [f2.2, zip_map_val, indices_eq]
    rfl

theorem zipM_rows (i : Fin m) : ∀ (as bs : List (Stack K m)), as.map (·.shape) = bs.map (·.shape) →
    ∃ cs, zipM (fun a b => Arr.vdot (b.row i) (a.row i)) as bs = some cs ∧
      cs.sum = dotL (bs.flatMap fun b => (b.row i).data) (as.flatMap fun a => (a.row i).data)
  | [], [], _ => ⟨[], rfl, rfl⟩
  | [], _ :: _, h => by simp at h
  | _ :: _, [], h => by simp at h
  | a :: as, b :: bs, h => by
    simp only [List.map_cons, List.cons.injEq] at h
    obtain ⟨cs, h1, h2⟩ := zipM_rows i as bs h.2
    have hl : (b.row i).data.length = (a.row i).data.length := by rw [row_length, row_length, h.1]
    refine ⟨(List.zipWith (· * ·) (b.row i).data (a.row i).data).sum :: cs, ?_, ?_⟩
    · rw [zipM, h1]
      unfold Arr.vdot
      rw [if_pos hl]
      rfl
    · rw [List.sum_cons, h2]
      unfold dotL
      rw [List.flatMap_cons, List.flatMap_cons, List.zipWith_append hl, List.sum_append]

theorem gamma_sum {a b : PyTree (Stack K m)} (ha : RowTopo a x) (hb : RowTopo b x) (hne : leaves x ≠ []) (i : Fin m) :
    ((treeMap2 (fun a b => Arr.vdot (b.row i) (a.row i)) a b).bind (treeReduce (· + ·))) =
      some (dotV (toVec (vec x).length (rowVec b i)) (toVec (vec x).length (rowVec a i))) := by
  have hd : sameDef a b = true := sameDef_trans a x b ha.1 (by rw [sameDef_symm]; exact hb.1)
  obtain ⟨cs, h1, h2⟩ := zipM_rows i (leaves a) (leaves b) (ha.2.trans hb.2.symm)
  obtain ⟨r, g1, g2, g3⟩ := treeMap2_spec hd h1
  rw [g1]
  show treeReduce (· + ·) r = _
  have hne' : leaves r ≠ [] := fun hr => by
    have e1 := sameDef_length a r g3
    have e2 := sameDef_length a x ha.1
    rw [hr] at e1
    rw [e1] at e2
    exact hne (List.length_eq_zero_iff.mp e2.symm)
  rw [treeReduce_add hne', g2, h2]
  congr 1
  exact dotL_toVec _ _ _ ((rowVec_length b i).trans hb.length.symm) ((rowVec_length a i).trans ha.length.symm)

/-- C143.  `compute_gamma`, a sum over the leaves, is the quotient of inner products of whole vectors (1 when the denominator is 0). -/
theorem C143_gamma (H : HistRepr x s y rho h) (hne : leaves x ≠ []) (last : Fin m) : computeGammaTree s y last = some (computeGamma dotV h last) := by
  unfold computeGammaTree computeGamma
  rw [gamma_sum H.s_topo H.y_topo hne, gamma_sum H.y_topo H.y_topo hne]
  simp only [Option.bind_some, Option.map_some, H.s_eq, H.y_eq]

/-- C143.  The initial buffers. -/
theorem C143_init (x : PyTree (Arr K)) : ∃ s, initHistoryTree m x = some s ∧ HistRepr x s s (fun _ => 0) (initHist : Hist K (Fin (vec x).length → K)) := by
  obtain ⟨s, h1, h2, h3⟩ := treeMap_spec (fun a : Arr K => (⟨a.shape, List.replicate (m * a.shape.prod) 0, by simp⟩ : Stack K m)) x
  have ht : RowTopo s x := ⟨by rw [sameDef_symm]; exact h3, by rw [h2, List.map_map]; rfl⟩
  have hz : ∀ i : Fin m, (0 : Fin (vec x).length → K) = toVec (vec x).length (rowVec s i) := fun i => by
    have e : rowVec s i = List.replicate (rowSize s) 0 := by
      rw [← rowVec_length s i]
      refine List.eq_replicate_of_mem fun v hv => ?_
      unfold rowVec at hv
      rw [h2, List.flatMap_map, List.mem_flatMap] at hv
      obtain ⟨a, -, hv⟩ := hv
      exact List.eq_of_mem_replicate (List.mem_of_mem_drop (List.mem_of_mem_take hv))
    funext j
    show _ = (rowVec s i).getD j 0
    rw [e, List.getD_eq_getElem?_getD, List.getElem?_replicate]
    split_ifs <;> rfl
  exact ⟨s, h1, ht, ht, hz, hz, fun _ => rfl⟩

/-- C143.  `update_history` on the buffers. -/
theorem C143_update (H : HistRepr x s y rho h) {ds dy : PyTree (Arr K)} (hs : SameTopo x ds) (hy : SameTopo x dy) (last : Fin m) (r : K) :
    ∃ s' y', updateHistoryLbfgs s ds last = some s' ∧ updateHistoryLbfgs y dy last = some y' ∧
      HistRepr x s' y' (Function.update rho last r) (h.set last (toVec (vec x).length (vec ds)) (toVec (vec x).length (vec dy)) r) := by
  have h1 : RowTopo s ds := ⟨sameDef_trans s x ds H.s_topo.1 hs.1, H.s_topo.2.trans hs.2⟩
  have h2 : RowTopo y dy := ⟨sameDef_trans y x dy H.y_topo.1 hy.1, H.y_topo.2.trans hy.2⟩
  obtain ⟨s', a1, a2, -, a3⟩ := C142_replace h1 last
  obtain ⟨y', b1, b2, -, b3⟩ := C142_replace h2 last
  have hv : ∀ i : Fin m, (i : ℕ) = last ↔ i = last := fun i => Fin.val_inj
  refine ⟨s', y', a1, b1, a2 _ H.s_topo, b2 _ H.y_topo, fun i => ?_, fun i => ?_, fun i => ?_⟩
  · rw [a3]
    simp only [Hist.set, Function.update_apply, hv, H.s_eq]
    split_ifs <;> rfl
  · rw [b3]
    simp only [Hist.set, Function.update_apply, hv, H.y_eq]
    split_ifs <;> rfl
  · simp only [Hist.set, Function.update_apply, hv, H.rho_eq]

/-! ## Examples -/

/-- After an update of the initial buffers, with a tree of a scalar and a vector. -/
example : ∃ (s y : PyTree (Stack ℚ 2)) (rho : Fin 2 → ℚ) (h : Hist ℚ (Fin 3 → ℚ)) (x : PyTree (Arr ℚ)) (e : (vec x).length = 3),
    leaves x ≠ [] ∧ h.s 1 = ![1, 2, 3] ∧ HistRepr x s y rho (e ▸ h) := by
  let x : PyTree (Arr ℚ) := .node "tuple" [.leaf ⟨[], [1], rfl⟩, .leaf ⟨[2], [2, 3], rfl⟩]
  obtain ⟨s0, -, H0⟩ := C143_init (m := 2) x
  obtain ⟨s, y, -, -, H⟩ := C143_update H0 (SameTopo.refl x) (SameTopo.refl x) 1 (1 / 14)
  refine ⟨s, y, _, _, x, rfl, by simp [x, leaves, leavesL], ?_, H⟩
  funext j
  fin_cases j <;> rfl

end Jaxopt.Tree
