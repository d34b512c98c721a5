import Verif.QuasiNewton.CompactLemmas
import Verif.QuasiNewton.RunProps
import Mathlib.LinearAlgebra.Matrix.Adjugate

/-!
# Property C75: the quadratic model of L-BFGS-B

`lbfgsb.py` lines 404-447 build `W` and the inverse of `M` from the stored pairs.  The matrix of the quadratic model is
`θI - W M Wᵀ`.  It is compared with the BFGS matrix of the pairs (`bfgsMatrix`).
-/

set_option autoImplicit false
set_option linter.unusedSectionVars false
set_option linter.unusedVariables false

namespace Jaxopt.QuasiNewton.Lbfgsb

open Matrix Finset

variable {K : Type*} [Field K] [LinearOrder K] [IsStrictOrderedRing K] {V : Type*} {n h : ℕ}

/-- The matrix of the quadratic model that the Cauchy point and the subspace minimisation use. -/
def modelMatrix (st : LbfgsbState K V n (h + 1)) (m : Matrix (Fin (h + 1) ⊕ Fin (h + 1)) (Fin (h + 1) ⊕ Fin (h + 1)) K) :
    Matrix (Fin n) (Fin n) K :=
  st.theta • 1 - wFlat st * m * (wFlat st)ᵀ

/-- The pairs stored, in the order of the buffer. -/
def bufferPairs (st : LbfgsbState K V n (h + 1)) : List ((Fin n → K) × (Fin n → K)) :=
  (List.ofFn fun a => (st.s a, st.y a)).take st.numUpdates

/-- What holds of the history in every reachable state (`C75_history`). -/
structure HistOk (st : LbfgsbState K V n (h + 1)) : Prop where
  theta_pos : 0 < st.theta
  pos : ∀ a : Fin (h + 1), a.1 < st.numUpdates → 0 < st.y a ⬝ᵥ st.s a
  pad : ∀ a : Fin (h + 1), st.numUpdates ≤ a.1 → st.s a = 0 ∧ st.y a = 0

/-! ### From the blocks to the system of the lemmas -/

theorem sum_hist {M : Type*} [AddCommMonoid M] {k : ℕ} (hk : k ≤ h + 1) (F : Fin (h + 1) → M) (G : ℕ → M)
    (h1 : ∀ a : Fin (h + 1), a.1 < k → F a = G a.1) (h0 : ∀ a : Fin (h + 1), k ≤ a.1 → F a = 0) :
    ∑ a, F a = ∑ j ∈ range k, G j := by
  have e1 : ∀ a : Fin (h + 1), F a = (fun j => if j < k then G j else 0) a.1 := by
    intro a
    by_cases ha : a.1 < k
    · simp only [if_pos ha, h1 a ha]
    · simp only [if_neg ha, h0 a (by omega)]
  rw [sum_congr rfl fun a _ => e1 a, Fin.sum_univ_eq_sum_range (fun j => if j < k then G j else 0) (h + 1)]
  rw [← sum_subset (range_subset_range.mpr hk) fun j _ hj => if_neg (by simpa using hj)]
  exact sum_congr rfl fun j hj => if_pos (mem_range.mp hj)

/-- Row `j` of the buffer, zero beyond its size. -/
def row (v : Fin (h + 1) → Fin n → K) (j : ℕ) : Fin n → K := if hj : j < h + 1 then v ⟨j, hj⟩ else 0

theorem row_val (v : Fin (h + 1) → Fin n → K) (a : Fin (h + 1)) : row v a.1 = v a := by rw [row, dif_pos a.2]

/-- Entry `j` of a block of unknowns. -/
def ent (z : Fin (h + 1) → K) (j : ℕ) : K := if hj : j < h + 1 then z ⟨j, hj⟩ else 0

theorem ent_val (z : Fin (h + 1) → K) (a : Fin (h + 1)) : ent z a.1 = z a := by rw [ent, dif_pos a.2]

/-- The position written last. -/
def prevPos (st : LbfgsbState K V n (h + 1)) : Fin (h + 1) :=
  ⟨(st.numUpdates % (h + 1) + h) % (h + 1), Nat.mod_lt _ (Nat.succ_pos h)⟩

theorem mInv_11 (st : LbfgsbState K V n (h + 1)) (i j : Fin (h + 1)) : mInv st (.inl i) (.inl j) =
    if i = j then -(st.s i ⬝ᵥ st.y i) + (if st.numUpdates ≤ i.1 then 1 else 0) *
      (if 0 < st.numUpdates then st.s (prevPos st) ⬝ᵥ st.y (prevPos st) else 1) else 0 := rfl

theorem mInv_12 (st : LbfgsbState K V n (h + 1)) (i j : Fin (h + 1)) : mInv st (.inl i) (.inr j) =
    if i < j then st.s j ⬝ᵥ st.y i else 0 := rfl

theorem mInv_21 (st : LbfgsbState K V n (h + 1)) (i j : Fin (h + 1)) : mInv st (.inr i) (.inl j) =
    if j < i then st.s i ⬝ᵥ st.y j else 0 := rfl

theorem mInv_22 (st : LbfgsbState K V n (h + 1)) (i j : Fin (h + 1)) : mInv st (.inr i) (.inr j) =
    (if i = j then (if st.numUpdates ≤ i.1 then 1 else 0) *
      (if 0 < st.numUpdates then st.s (prevPos st) ⬝ᵥ st.s (prevPos st) else 1) * st.theta else 0) + st.theta * (st.s i ⬝ᵥ st.s j) := rfl

theorem mInv_row (st : LbfgsbState K V n (h + 1)) (z : Fin (h + 1) ⊕ Fin (h + 1) → K) (k : Fin (h + 1) ⊕ Fin (h + 1)) :
    (mInv st *ᵥ z) k = ∑ j, mInv st k (.inl j) * z (.inl j) + ∑ j, mInv st k (.inr j) * z (.inr j) := by
  rw [mulVec, dotProduct, Fintype.sum_sum_type]

theorem mInv_inl (st : LbfgsbState K V n (h + 1)) (z : Fin (h + 1) ⊕ Fin (h + 1) → K) (i : Fin (h + 1)) (hi : i.1 < st.numUpdates) :
    (mInv st *ᵥ z) (.inl i) = -(st.s i ⬝ᵥ st.y i) * z (.inl i) + ∑ j, if i < j then (st.s j ⬝ᵥ st.y i) * z (.inr j) else 0 := by
  rw [mInv_row]
  simp only [mInv_11, mInv_12, ite_mul, zero_mul, sum_ite_eq, mem_univ, if_true, if_neg (show ¬ st.numUpdates ≤ i.1 by omega), add_zero]

theorem mInv_inr (st : LbfgsbState K V n (h + 1)) (z : Fin (h + 1) ⊕ Fin (h + 1) → K) (i : Fin (h + 1)) (hi : i.1 < st.numUpdates) :
    (mInv st *ᵥ z) (.inr i) = (∑ j, if j < i then (st.s i ⬝ᵥ st.y j) * z (.inl j) else 0) +
      ∑ j, st.theta * (st.s i ⬝ᵥ st.s j) * z (.inr j) := by
  rw [mInv_row]
  simp only [mInv_21, mInv_22, ite_mul, zero_mul, if_neg (show ¬ st.numUpdates ≤ i.1 by omega), ite_self, zero_add]

/-- A solution of the code's system gives a solution of the system of the stored pairs. -/
theorem sys_of_mInv {st : LbfgsbState K V n (h + 1)} (ho : HistOk st) {v : Fin n → K} {z : Fin (h + 1) ⊕ Fin (h + 1) → K}
    (hz : mInv st *ᵥ z = (wFlat st)ᵀ *ᵥ v) :
    Sys (row st.s) (row st.y) st.theta (min st.numUpdates (h + 1)) v (ent fun a => z (.inr a)) (ent fun a => z (.inl a)) := by
  intro j hj
  have hj' : j < h + 1 := by omega
  have hju : j < st.numUpdates := by omega
  obtain ⟨i, rfl⟩ : ∃ i : Fin (h + 1), i.1 = j := ⟨⟨j, hj'⟩, rfl⟩
  have r1 := congrFun hz (.inl i)
  have r2 := congrFun hz (.inr i)
  rw [mInv_inl st z i hju] at r1
  rw [mInv_inr st z i hju] at r2
  have w1 : ((wFlat st)ᵀ *ᵥ v) (.inl i) = st.y i ⬝ᵥ v := rfl
  have w2 : ((wFlat st)ᵀ *ᵥ v) (.inr i) = st.theta * (st.s i ⬝ᵥ v) := by
    simp only [mulVec, dotProduct, transpose_apply, wFlat, mul_sum, mul_assoc]
  rw [w1] at r1
  rw [w2] at r2
  have hpad : ∀ a : Fin (h + 1), min st.numUpdates (h + 1) ≤ a.1 → st.s a = 0 ∧ st.y a = 0 := fun a ha => ho.pad a (by omega)
  simp only [row_val, ent_val]
  constructor
  · rw [← r1]
    congr 1
    refine (sum_hist (Nat.min_le_right _ _) _ _ (fun a ha => ?_) fun a ha => ?_).symm
    · simp only [row_val, ent_val, Fin.lt_def]
    · rw [(hpad a ha).1, zero_dotProduct, zero_mul, ite_self]
  · rw [← r2]
    congr 1
    · refine (sum_hist (Nat.min_le_right _ _) _ _ (fun a ha => ?_) fun a ha => ?_).symm
      · simp only [row_val, ent_val, Fin.lt_def]
      · rw [(hpad a ha).2, dotProduct_zero, zero_mul, ite_self]
    · refine (sum_hist (Nat.min_le_right _ _) _ _ (fun a ha => ?_) fun a ha => ?_).symm
      · simp only [row_val, ent_val]
      · rw [(hpad a ha).1, dotProduct_zero, mul_zero, zero_mul]

theorem bufferPairs_eq (st : LbfgsbState K V n (h + 1)) :
    bufferPairs st = (List.range (min st.numUpdates (h + 1))).map fun j => (row st.s j, row st.y j) := by
  refine List.ext_getElem (by simp [bufferPairs]) fun i h1 h2 => ?_
  have hi : i < h + 1 := by simp at h2; omega
  simp only [bufferPairs, List.getElem_take, List.getElem_ofFn, List.getElem_map, List.getElem_range, row, dif_pos hi]

theorem mem_bufferPairs {st : LbfgsbState K V n (h + 1)} (ho : HistOk st) :
    ∀ p ∈ bufferPairs st, 0 < p.2 ⬝ᵥ p.1 := by
  intro p hp
  rw [bufferPairs_eq] at hp
  obtain ⟨j, hj, rfl⟩ := List.mem_map.mp hp
  have hj' := List.mem_range.mp hj
  have := ho.pos ⟨j, by omega⟩ (by simp only; omega)
  simpa [row, show j < h + 1 by omega] using this

/-- **C75, the matrix `M` exists.** In every state whose history is in order the matrix inverted by the code is invertible: the padding
of the unused positions keeps it so. -/
theorem C75_invertible {st : LbfgsbState K V n (h + 1)} (ho : HistOk st) : IsUnit (mInv st) := by
  rw [← mulVec_injective_iff_isUnit]
  rw [← Matrix.coe_mulVecLin, injective_iff_map_eq_zero]
  intro z hz
  rw [mulVecLin_apply] at hz
  have hs : mInv st *ᵥ z = (wFlat st)ᵀ *ᵥ 0 := by rw [hz, mulVec_zero]
  have hp : ∀ j < min st.numUpdates (h + 1), 0 < row st.y j ⬝ᵥ row st.s j := by
    intro j hj
    have := ho.pos ⟨j, by omega⟩ (by simp only; omega)
    simpa [row, show j < h + 1 by omega] using this
  have h0 := (sys_of_mInv ho hs).zero ho.theta_pos hp
  -- the fill values are positive
  have hfill : ∀ i : Fin (h + 1), st.numUpdates ≤ i.1 →
      (0 : K) < (if 0 < st.numUpdates then st.s (prevPos st) ⬝ᵥ st.y (prevPos st) else 1) ∧
      (0 : K) < (if 0 < st.numUpdates then st.s (prevPos st) ⬝ᵥ st.s (prevPos st) else 1) := by
    intro i hi
    by_cases hu : 0 < st.numUpdates
    · rw [if_pos hu, if_pos hu]
      have he : (prevPos st).1 = st.numUpdates - 1 := by
        change (st.numUpdates % (h + 1) + h) % (h + 1) = _
        rw [Nat.mod_eq_of_lt (show st.numUpdates < h + 1 by omega), show st.numUpdates + h = (st.numUpdates - 1) + (h + 1) by omega,
          Nat.add_mod_right, Nat.mod_eq_of_lt (by omega)]
      have hpos := ho.pos (prevPos st) (by omega)
      refine ⟨by rw [dotProduct_comm]; exact hpos, dot_self_pos fun hs0 => ?_⟩
      rw [hs0, dotProduct_zero] at hpos
      exact lt_irrefl _ hpos
    · rw [if_neg hu, if_neg hu]; exact ⟨one_pos, one_pos⟩
  funext k
  rcases k with i | i
  · by_cases hi : i.1 < st.numUpdates
    · have := (h0 i.1 (by omega)).2
      rwa [ent_val] at this
    · have r := congrFun hz (.inl i)
      rw [mInv_row] at r
      simp only [mInv_11, mInv_12, (ho.pad i (by omega)).1, (ho.pad i (by omega)).2, dotProduct_zero, neg_zero, zero_add, ite_self, zero_mul,
        sum_const_zero, add_zero, ite_mul, sum_ite_eq, mem_univ, if_true, if_pos (show st.numUpdates ≤ i.1 by omega), one_mul] at r
      have hf := (hfill i (by omega)).1
      by_cases hu : 0 < st.numUpdates
      · rw [if_pos hu] at r hf
        exact (mul_eq_zero.mp r).resolve_left hf.ne'
      · rw [if_neg hu] at r
        exact r
  · by_cases hi : i.1 < st.numUpdates
    · have := (h0 i.1 (by omega)).1
      rwa [ent_val] at this
    · have r := congrFun hz (.inr i)
      rw [mInv_row] at r
      have e1 : ∑ j, mInv st (.inr i) (.inl j) * z (.inl j) = 0 := sum_eq_zero fun j _ => by
        rw [mInv_21, (ho.pad i (by omega)).1, zero_dotProduct, ite_self, zero_mul]
      rw [e1, zero_add, sum_eq_single i, mInv_22, if_pos rfl, if_pos (by omega), one_mul, (ho.pad i (by omega)).1, zero_dotProduct, mul_zero,
        add_zero] at r
      · exact (mul_eq_zero.mp r).resolve_left (mul_pos (hfill i (by omega)).2 ho.theta_pos).ne'
      · intro b _ hb
        rw [mInv_22, if_neg hb.symm, (ho.pad i (by omega)).1, zero_dotProduct, mul_zero, add_zero, zero_mul]
      · simp

/-- **C75, compact representation.** With the exact inverse `m`, the model matrix `θI - W M Wᵀ` is the BFGS matrix obtained from `θI`
by the stored pairs, taken in the order of the buffer; it is symmetric and positive definite. -/
theorem C75_compact {st : LbfgsbState K V n (h + 1)} (ho : HistOk st)
    {m : Matrix (Fin (h + 1) ⊕ Fin (h + 1)) (Fin (h + 1) ⊕ Fin (h + 1)) K} (hm : mInv st * m = 1) :
    modelMatrix st m = bfgsMatrix st.theta (bufferPairs st) ∧ (modelMatrix st m)ᵀ = modelMatrix st m ∧
      ∀ v, v ≠ 0 → 0 < v ⬝ᵥ modelMatrix st m *ᵥ v := by
  have hp : ∀ j < min st.numUpdates (h + 1), 0 < row st.y j ⬝ᵥ row st.s j := by
    intro j hj
    have := ho.pos ⟨j, by omega⟩ (by simp only; omega)
    simpa [row, show j < h + 1 by omega] using this
  have key : modelMatrix st m = bfgsMatrix st.theta (bufferPairs st) := by
    rw [bufferPairs_eq, ← seqB_eq_bfgsMatrix]
    refine Matrix.ext_of_mulVec_single fun i => ?_
    generalize (Pi.single i 1 : Fin n → K) = v
    have hz : mInv st *ᵥ (m *ᵥ ((wFlat st)ᵀ *ᵥ v)) = (wFlat st)ᵀ *ᵥ v := by rw [mulVec_mulVec, hm, one_mulVec]
    rw [(sys_of_mInv ho hz).product ho.theta_pos hp]
    rw [modelMatrix, sub_mulVec, smul_mulVec, one_mulVec, ← mulVec_mulVec, ← mulVec_mulVec]
    congr 1
    generalize m *ᵥ ((wFlat st)ᵀ *ᵥ v) = z
    have hsum := sum_hist (Nat.min_le_right st.numUpdates (h + 1)) (fun a => z (.inl a) • st.y a + (st.theta * z (.inr a)) • st.s a)
      (fun j => (ent fun a => z (.inl a)) j • row st.y j + (st.theta * (ent fun a => z (.inr a)) j) • row st.s j)
      (fun a _ => by simp only [row_val, ent_val])
      (fun a ha => by
        obtain ⟨e1, e2⟩ := ho.pad a (by omega)
        simp only [e1, e2, smul_zero, add_zero])
    rw [← hsum]
    funext l
    simp only [mulVec, dotProduct, Fintype.sum_sum_type, wFlat, Finset.sum_apply, Pi.add_apply, Pi.smul_apply, smul_eq_mul, sum_add_distrib]
    congr 1 <;> exact sum_congr rfl fun a _ => by ring
  have hspd := spd_bfgsMatrix ho.theta_pos (bufferPairs st) (mem_bufferPairs ho)
  rw [key]
  exact ⟨rfl, hspd.1, hspd.2⟩

/-! ### Along a run -/

/-- The pairs (step, gradient difference) of the first `k` updates whose curvature is positive, oldest first. -/
def acceptedPairs (S : Lbfgsb K V n (h + 1)) (lower upper : Fin n → Ext K) (x0 : Fin n → K) : ℕ → List ((Fin n → K) × (Fin n → K))
  | 0 => []
  | k + 1 =>
    match S.iter lower upper x0 k, S.iter lower upper x0 (k + 1) with
    | some p, some q =>
      if 0 < (S.grad q.1 - S.grad p.1) ⬝ᵥ (q.1 - p.1) then
        acceptedPairs S lower upper x0 k ++ [(q.1 - p.1, S.grad q.1 - S.grad p.1)]
      else acceptedPairs S lower upper x0 k
    | _, _ => acceptedPairs S lower upper x0 k

/-- **C75, the history.** After `k` updates the counter is the number of pairs with positive curvature; the buffer position `a` holds the
newest of them whose number is congruent to `a`, positions never written are zero; `theta` is the attribute `theta` scaled by
`yᵀy / sᵀy` of the newest pair (not scaled without `use_gamma`). -/
theorem C75_history (S : Lbfgsb K V n (h + 1)) (hl : S.LsSound) (lower upper : Fin n → Ext K) (x0 : Fin n → K) (k : ℕ)
    {p : (Fin n → K) × LbfgsbState K V n (h + 1)} (hp : S.iter lower upper x0 k = some p) :
    p.2.numUpdates = (acceptedPairs S lower upper x0 k).length ∧
    (∀ q ∈ acceptedPairs S lower upper x0 k, 0 < q.2 ⬝ᵥ q.1) ∧
    (∀ (a : Fin (h + 1)) (j : ℕ) (hj : j < (acceptedPairs S lower upper x0 k).length), j % (h + 1) = a.1 →
      (acceptedPairs S lower upper x0 k).length ≤ j + (h + 1) → (p.2.s a, p.2.y a) = (acceptedPairs S lower upper x0 k)[j]) ∧
    (∀ a : Fin (h + 1), (acceptedPairs S lower upper x0 k).length ≤ a.1 → p.2.s a = 0 ∧ p.2.y a = 0) ∧
    p.2.theta = match (acceptedPairs S lower upper x0 k).getLast? with
      | none => S.theta
      | some q => (if S.useGamma then (q.2 ⬝ᵥ q.2) / (q.2 ⬝ᵥ q.1) else 1) * S.theta := by
  induction k generalizing p with
  | zero =>
    cases hp
    exact ⟨rfl, by simp [acceptedPairs], fun a j hj => by simp [acceptedPairs] at hj, fun a _ => ⟨rfl, rfl⟩, rfl⟩
  | succ k ih =>
    have hp' := hp
    simp only [iter] at hp
    obtain ⟨q, hq, hu⟩ := Option.bind_eq_some_iff.mp hp
    have hgq := (S.C74_lbfgsb_state hl lower upper x0 k hq).2.1
    have hgp := (S.C74_lbfgsb_state hl lower upper x0 (k + 1) hp').2.1
    have hacc : acceptedPairs S lower upper x0 (k + 1) =
        if 0 < (S.grad p.1 - S.grad q.1) ⬝ᵥ (p.1 - q.1) then
          acceptedPairs S lower upper x0 k ++ [(p.1 - q.1, S.grad p.1 - S.grad q.1)]
        else acceptedPairs S lower upper x0 k := by
      rw [acceptedPairs]; simp only [hq, hp']
    obtain ⟨i1, i2, i3, i4, i5⟩ := ih hq
    unfold update at hu
    simp only at hu
    obtain ⟨xs, -, hu⟩ := Option.bind_eq_some_iff.mp hu
    obtain ⟨o, ho, hpo⟩ := Option.map_eq_some_iff.mp hu
    have ep : p.1 = o.params := by rw [← hpo]
    have eg : p.2.grad = o.grad := by rw [← hpo]
    rw [← ep, ← eg, hgp, hgq] at hpo
    generalize hs : p.1 - q.1 = s at *
    generalize hy : S.grad p.1 - S.grad q.1 = y at *
    have e1 : p.2.s = if 0 < y ⬝ᵥ s then Function.update q.2.s ⟨q.2.numUpdates % (h + 1), Nat.mod_lt _ (Nat.succ_pos h)⟩ s else q.2.s := by
      rw [← hpo]
    have e2 : p.2.y = if 0 < y ⬝ᵥ s then Function.update q.2.y ⟨q.2.numUpdates % (h + 1), Nat.mod_lt _ (Nat.succ_pos h)⟩ y else q.2.y := by
      rw [← hpo]
    have e3 : p.2.theta = if 0 < y ⬝ᵥ s then (if S.useGamma then (y ⬝ᵥ y) / (y ⬝ᵥ s) else 1) * S.theta else q.2.theta := by
      rw [← hpo]
    have e4 : p.2.numUpdates = if 0 < y ⬝ᵥ s then q.2.numUpdates + 1 else q.2.numUpdates := by rw [← hpo]
    clear hpo
    by_cases hc : 0 < y ⬝ᵥ s
    · rw [if_pos hc] at e1 e2 e3 e4 hacc
      generalize acceptedPairs S lower upper x0 k = L at *
      rw [hacc]
      refine ⟨by rw [e4, i1, List.length_append]; rfl, ?_, ?_, ?_, ?_⟩
      · intro r hr
        rcases List.mem_append.mp hr with hr | hr
        · exact i2 r hr
        · rw [List.mem_singleton.mp hr]; exact hc
      · intro a j hj hja hlen
        simp only [List.length_append, List.length_singleton] at hj hlen
        rw [e1, e2]
        by_cases hjl : j < L.length
        · have hne : a ≠ ⟨q.2.numUpdates % (h + 1), Nat.mod_lt _ (Nat.succ_pos h)⟩ := by
            intro he
            have he' : j % (h + 1) = L.length % (h + 1) := by rw [hja, he, i1]
            have h1 : L.length - j < h + 1 := by omega
            have h2 : (L.length - j) % (h + 1) = 0 := Nat.sub_mod_eq_zero_of_mod_eq he'.symm
            rw [Nat.mod_eq_of_lt h1] at h2
            omega
          rw [Function.update_of_ne hne, Function.update_of_ne hne, i3 a j hjl hja (by omega), List.getElem_append_left]
        · have hjl' : j = L.length := by omega
          have he : a = ⟨q.2.numUpdates % (h + 1), Nat.mod_lt _ (Nat.succ_pos h)⟩ := by
            apply Fin.ext; rw [← hja, hjl', i1]
          rw [he, Function.update_self, Function.update_self, List.getElem_append_right (by omega)]
          simp [hjl']
      · intro a ha
        simp only [List.length_append, List.length_singleton] at ha
        have hne : a ≠ ⟨q.2.numUpdates % (h + 1), Nat.mod_lt _ (Nat.succ_pos h)⟩ := by
          intro he
          have h1 := congrArg Fin.val he
          simp only [i1] at h1
          have := Nat.mod_le L.length (h + 1)
          omega
        rw [e1, e2, Function.update_of_ne hne, Function.update_of_ne hne]
        exact i4 a (by omega)
      · rw [e3, List.getLast?_concat]
    · rw [if_neg hc] at e1 e2 e3 e4 hacc
      rw [hacc, e1, e2, e3, e4]
      exact ⟨i1, i2, i3, i4, i5⟩

/-- In every reachable state the history is in order. -/
theorem histOk (S : Lbfgsb K V n (h + 1)) (hl : S.LsSound) (ht : 0 < S.theta) (lower upper : Fin n → Ext K) (x0 : Fin n → K) (k : ℕ)
    {p : (Fin n → K) × LbfgsbState K V n (h + 1)} (hp : S.iter lower upper x0 k = some p) : HistOk p.2 := by
  obtain ⟨h1, h2, h3, h4, h5⟩ := S.C75_history hl lower upper x0 k hp
  generalize acceptedPairs S lower upper x0 k = L at *
  refine ⟨?_, fun a ha => ?_, fun a ha => h4 a (by omega)⟩
  · rw [h5]
    cases hL : L.getLast? with
    | none => exact ht
    | some q =>
      have hq := h2 q (List.mem_of_getLast? hL)
      simp only
      refine mul_pos ?_ ht
      split_ifs
      · refine div_pos (dot_self_pos fun h0 => ?_) hq
        rw [h0, zero_dotProduct] at hq
        exact lt_irrefl _ hq
      · exact one_pos
  · -- the newest number congruent to `a`
    have ha' : a.1 < L.length := by omega
    let j := a.1 + (h + 1) * ((L.length - 1 - a.1) / (h + 1))
    have hdm := Nat.div_add_mod (L.length - 1 - a.1) (h + 1)
    have hml : (L.length - 1 - a.1) % (h + 1) < h + 1 := Nat.mod_lt _ (Nat.succ_pos h)
    have hj : j < L.length := by simp only [j]; omega
    have hjm : j % (h + 1) = a.1 := by simp only [j]; rw [Nat.add_mul_mod_self_left, Nat.mod_eq_of_lt a.2]
    have e := h3 a j hj hjm (by simp only [j]; omega)
    have := h2 _ (List.getElem_mem hj)
    rw [← e] at this
    exact this

/-- **C75 along a run.** At every iterate the matrix that the code inverts is invertible, and with its inverse the model matrix is the BFGS
matrix of the stored pairs in buffer order, symmetric and positive definite. -/
theorem C75_run (S : Lbfgsb K V n (h + 1)) (hl : S.LsSound) (ht : 0 < S.theta) (lower upper : Fin n → Ext K) (x0 : Fin n → K) (k : ℕ)
    {p : (Fin n → K) × LbfgsbState K V n (h + 1)} (hp : S.iter lower upper x0 k = some p) :
    IsUnit (mInv p.2) ∧ ∀ m, mInv p.2 * m = 1 →
      modelMatrix p.2 m = bfgsMatrix p.2.theta (bufferPairs p.2) ∧ (modelMatrix p.2 m)ᵀ = modelMatrix p.2 m ∧
      ∀ v, v ≠ 0 → 0 < v ⬝ᵥ modelMatrix p.2 m *ᵥ v :=
  ⟨C75_invertible (S.histOk hl ht lower upper x0 k hp), fun m hm => C75_compact (S.histOk hl ht lower upper x0 k hp) hm⟩

/-- **C75, limited-memory BFGS and secant equation (partial).** As long as the buffer has not wrapped around, and whenever the number
of pairs is a multiple of `history_size`, the model matrix is the BFGS matrix of the last `history_size` pairs, oldest first, and maps the
newest step to the newest gradient difference.  Missing: the other iterates (`C75_wrap_false`). -/
theorem C75_secant_partial (S : Lbfgsb K V n (h + 1)) (hl : S.LsSound) (ht : 0 < S.theta) (lower upper : Fin n → Ext K)
    (x0 : Fin n → K) (k : ℕ) {p : (Fin n → K) × LbfgsbState K V n (h + 1)} (hp : S.iter lower upper x0 k = some p)
    (hk : (acceptedPairs S lower upper x0 k).length ≤ h + 1 ∨ (h + 1) ∣ (acceptedPairs S lower upper x0 k).length)
    {m : Matrix (Fin (h + 1) ⊕ Fin (h + 1)) (Fin (h + 1) ⊕ Fin (h + 1)) K} (hm : mInv p.2 * m = 1) :
    modelMatrix p.2 m = bfgsMatrix p.2.theta
      ((acceptedPairs S lower upper x0 k).drop ((acceptedPairs S lower upper x0 k).length - (h + 1))) ∧
    ∀ q, (acceptedPairs S lower upper x0 k).getLast? = some q → modelMatrix p.2 m *ᵥ q.1 = q.2 := by
  have ho := S.histOk hl ht lower upper x0 k hp
  obtain ⟨h1, h2, h3, h4, h5⟩ := S.C75_history hl lower upper x0 k hp
  have hcomp := (C75_compact ho hm).1
  generalize acceptedPairs S lower upper x0 k = L at *
  have hbuf : bufferPairs p.2 = L.drop (L.length - (h + 1)) := by
    refine List.ext_getElem ?_ fun i hi1 hi2 => ?_
    · simp [bufferPairs, h1]; omega
    · have hi : i < h + 1 := by simp [bufferPairs] at hi1; omega
      have hiL : L.length - (h + 1) + i < L.length := by simp at hi2; omega
      rw [List.getElem_drop]
      have hmod : (L.length - (h + 1) + i) % (h + 1) = i := by
        rcases hk with hk | ⟨c, hc⟩
        · rw [Nat.sub_eq_zero_of_le hk, zero_add, Nat.mod_eq_of_lt hi]
        · have : L.length - (h + 1) = (h + 1) * (c - 1) := by rw [hc, Nat.mul_sub, mul_one]
          rw [this, Nat.mul_add_mod, Nat.mod_eq_of_lt hi]
      have e := h3 ⟨i, hi⟩ _ hiL hmod (by omega)
      rw [← e]
      simp only [bufferPairs, List.getElem_take, List.getElem_ofFn]
  rw [hcomp, hbuf]
  refine ⟨rfl, fun q hq => ?_⟩
  obtain ⟨L', rfl⟩ : ∃ L', L = L' ++ [q] := List.getLast?_eq_some_iff.mp hq
  have hd : (L' ++ [q]).drop ((L' ++ [q]).length - (h + 1)) = L'.drop ((L' ++ [q]).length - (h + 1)) ++ [q] :=
    List.drop_append_of_le_length (by simp)
  rw [hd, bfgsMatrix, List.foldl_append, ← bfgsMatrix]
  refine bfgsDirect_secant (spd_bfgsMatrix ho.theta_pos _ fun r hr => h2 r ?_) (h2 q (by simp))
  exact List.mem_append_left _ (List.mem_of_mem_drop hr)

/-! ### The update is defined -/

/-- The quadratic form of the model in terms of `W` and `M`. -/
theorem modelMatrix_quad (st : LbfgsbState K V n (h + 1)) (m : Matrix (Fin (h + 1) ⊕ Fin (h + 1)) (Fin (h + 1) ⊕ Fin (h + 1)) K)
    (d : Fin n → K) :
    d ⬝ᵥ modelMatrix st m *ᵥ d = st.theta * (d ⬝ᵥ d) - (m *ᵥ ((wFlat st)ᵀ *ᵥ d)) ⬝ᵥ ((wFlat st)ᵀ *ᵥ d) := by
  rw [modelMatrix, sub_mulVec, smul_mulVec, one_mulVec, dotProduct_sub, dotProduct_smul, smul_eq_mul, ← mulVec_mulVec, ← mulVec_mulVec]
  congr 1
  rw [dotProduct_mulVec, ← mulVec_transpose, dotProduct_comm]

/-- The Cauchy point is defined when the direction vanishes: the loop does not start. -/
theorem cauchy_defined_zero {eps : K} (argsort : (Fin n → Ext K) → Equiv.Perm (Fin n)) (x grad : Fin n → K) (lower upper : Fin n → Ext K)
    (theta : K) (w : Matrix (Fin n) (Fin h ⊕ Fin h) K) (m : Matrix (Fin h ⊕ Fin h) (Fin h ⊕ Fin h) K)
    (hd : cauchyDir eps (breakpoints eps x grad lower upper) grad = 0) :
    (findCauchyPoint eps argsort x grad lower upper theta w m).isSome = true := by
  unfold findCauchyPoint
  simp only [hd, dotProduct_zero, mulVec_zero, neg_zero, mul_zero, sub_zero]
  have hloop : ∀ (k : ℕ) (s : CP K n h), s.df = 0 → s.ddf = 0 → ∀ (sigma : Fin n → Fin n) (ts : Fin n → Ext K),
      cpLoop eps theta grad (0 : Fin n → K) x lower upper w m sigma ts k s = some s := by
    intro k s h1 h2 sigma ts
    cases k with
    | zero => rfl
    | succ k =>
      unfold cpLoop
      by_cases hi : s.i < n
      · have hc : cpCond ts s = false := by
          unfold cpCond
          rw [dif_pos hi, h1, h2]
          cases dtAt ts ⟨s.i, hi⟩ <;> simp [divE, Ext.le]
        rw [dif_pos hi, if_neg (by rw [hc]; exact Bool.false_ne_true)]
      · rw [dif_neg hi]
  rw [hloop _ _ rfl rfl]
  simp [divE, Ext.max, Ext.isNan]

/-- **C75, the update is defined.** With an exact inverse the next iterate exists at every feasible iterate whose gradient has no entry
strictly between 0 and machine epsilon: the curvature along the path is positive, so that the arithmetic stays finite. -/
theorem C75_defined (S : Lbfgsb K V n (h + 1)) (hl : S.LsSound) (ht : 0 < S.theta) (he : 0 < S.eps) (lower upper : Fin n → Ext K)
    (hsort : ∀ t, (∀ j, t j ≠ .nan) → IsArgsort t (S.argsort t)) (hinv : ∀ M, IsUnit M → M * S.inv M = 1) (x0 : Fin n → K) (k : ℕ)
    {p : (Fin n → K) × LbfgsbState K V n (h + 1)} (hp : S.iter lower upper x0 k = some p) (hx : InBox lower upper p.1)
    (hg : ∀ j, S.grad p.1 j = 0 ∨ S.eps ≤ |S.grad p.1 j|) : ∃ p', S.iter lower upper x0 (k + 1) = some p' := by
  have ho := S.histOk hl ht lower upper x0 k hp
  have hm := hinv _ (C75_invertible ho)
  have hgr := (S.C74_lbfgsb_state hl lower upper x0 k hp).2.1
  rw [← hgr] at hg
  have hsome : (findCauchyPoint S.eps S.argsort p.1 p.2.grad lower upper p.2.theta (wFlat p.2) (S.inv (mInv p.2))).isSome = true := by
    by_cases hd : cauchyDir S.eps (breakpoints S.eps p.1 p.2.grad lower upper) p.2.grad = 0
    · exact cauchy_defined_zero _ _ _ _ _ _ _ _ hd
    · refine C28_cauchy_defined he _ _ _ _ _ _ _ _ hx hg ?_
      have := (C75_compact ho hm).2.2 _ hd
      rw [modelMatrix_quad] at this
      simp only
      linarith
  obtain ⟨r, hr⟩ := Option.isSome_iff_exists.mp hsome
  have hnan : ∀ j, breakpoints S.eps p.1 p.2.grad lower upper j ≠ .nan := by
    intro j hj
    rcases (goodBreak he hx hg j).nonneg with h1 | ⟨τ, h1, _⟩ <;> rw [h1] at hj <;> cases hj
  obtain ⟨xc, hxc, hbox⟩ := C28_cauchy_partial he S.argsort p.1 p.2.grad lower upper _ _ _ hx (hsort _ hnan) hg r hr
  obtain ⟨xs, hxs, hbox'⟩ := C28_subspace lower upper xc
    (subspaceDir S.solve p.1 p.2.grad xc r.2.1 p.2.theta (wFlat p.2) (S.inv (mInv p.2)) r.2.2) r.2.2 hbox
  have hsub : S.subspaceMin lower upper p.1 p.2 = some xs := by
    unfold subspaceMin
    simp only [hr, Option.bind_some, finite_spec hxc, finite_spec hxs]
  have hfix : ∀ a : K, ∃ o : LsOut K (Fin n → K) V, ((finite fun j => clipE (p.1 j + a * (xs - p.1) j) (lower j) (upper j)).map
      fun x' => (⟨a, x', S.f x', S.grad x', false⟩ : LsOut K (Fin n → K) V)) = some o := by
    intro a
    choose v hv using fun j => clipE_between (y := p.1 j + a * (xs - p.1) j) (hx j)
    exact ⟨_, by rw [finite_spec fun j => (hv j).1]; rfl⟩
  obtain ⟨o, hstep⟩ : ∃ o, S.step lower upper p.1 p.2 (xs - p.1) = some o := by
    unfold step
    simp only
    split
    · split
      · exact ⟨_, rfl⟩
      · exact hfix _
    · exact hfix _
  apply Option.isSome_iff_exists.mp
  simp only [iter, hp, Option.bind_some, update, hsub, hstep, Option.map_some, Option.isSome_some]

/-- **C75, every run is defined** under the hypotheses of `C28_run_partial`, so that the theorems about iterates are about all of them. -/
theorem C75_total (S : Lbfgsb K V n (h + 1)) (hl : S.LsSound) (ht : 0 < S.theta) (he : 0 < S.eps) (lower upper : Fin n → Ext K)
    (hsort : ∀ t, (∀ j, t j ≠ .nan) → IsArgsort t (S.argsort t)) (hinv : ∀ M, IsUnit M → M * S.inv M = 1)
    (x0 : Fin n → K) (hx : InBox lower upper x0) (hg : ∀ x j, S.grad x j = 0 ∨ S.eps ≤ |S.grad x j|)
    (hls : ∀ s x v g d, ∃ a : K, 0 ≤ a ∧ a ≤ 1 ∧ (S.runLs s x v g d).params = x + a • d) (k : ℕ) :
    ∃ p, S.iter lower upper x0 k = some p ∧ InBox lower upper p.1 := by
  have hls' : ∀ s x v g d, ∃ a : K, 0 ≤ a ∧ a ≤ 1 ∧ (S.runLs s x v g d).params = x + a • d ∧
      (S.runLs s x v g d).grad = S.grad (S.runLs s x v g d).params := fun s x v g d => by
    obtain ⟨a, a0, a1, a2⟩ := hls s x v g d
    exact ⟨a, a0, a1, a2, (hl s x v g d).2⟩
  induction k with
  | zero => exact ⟨_, rfl, hx⟩
  | succ k ih =>
    obtain ⟨p, hp, hbox⟩ := ih
    obtain ⟨p', hp'⟩ := S.C75_defined hl ht he lower upper hsort hinv x0 k hp hbox (hg p.1)
    exact ⟨p', hp', (C28_run_partial S he lower upper hsort x0 hx hg hls' (k + 1) p' hp').1⟩

/-! ### Where the claim fails, and witnesses -/

/-- The objective `x² + x⁴` in one dimension without bounds, `history_size = 2`, exact inverse, and a line search that moves from `x` to
`x - 1` (on the half-line `x > 0` this is a step in the direction of descent). -/
noncomputable def exWrap : Lbfgsb ℚ (Ext ℚ) 1 2 where
  f := fun x => .fin (x 0 * x 0 + x 0 * x 0 * x 0 * x 0)
  grad := fun x => ![2 * x 0 + 4 * x 0 * x 0 * x 0]
  eps := 1 / 4503599627370496
  argsort := fun _ => Equiv.refl _
  inv := fun M => M⁻¹
  solve := fun M v => M⁻¹ *ᵥ v
  stepsize := .const 0
  maxStepsize := 1
  initStep := fun _ => 1
  theta := 1
  useGamma := true
  runLs := fun s x _ _ _ => ⟨s, ![x 0 - 1], .fin ((x 0 - 1) * (x 0 - 1) + (x 0 - 1) * (x 0 - 1) * (x 0 - 1) * (x 0 - 1)),
    ![2 * (x 0 - 1) + 4 * (x 0 - 1) * (x 0 - 1) * (x 0 - 1)], false⟩

theorem exWrap_sound : exWrap.LsSound := fun _ _ _ _ _ => ⟨rfl, rfl⟩

theorem exWrap_inv (M : Matrix (Fin 2 ⊕ Fin 2) (Fin 2 ⊕ Fin 2) ℚ) (hM : IsUnit M) : M * exWrap.inv M = 1 :=
  Matrix.mul_nonsing_inv M ((Matrix.isUnit_iff_isUnit_det M).mp hM)

theorem exWrap_sort (t : Fin 1 → Ext ℚ) (ht : ∀ j, t j ≠ .nan) : IsArgsort t (exWrap.argsort t) := by
  intro i j _
  have e : i = j := Subsingleton.elim _ _
  subst e
  have := ht (exWrap.argsort t i)
  cases h : t (exWrap.argsort t i) <;> simp_all [Ext.le]

theorem exWrap_box (x : Fin 1 → ℚ) : InBox (fun _ => .ninf) (fun _ => .pinf) x := fun j => ⟨rfl, rfl⟩

/-- The iterates from `4` are `4, 3, 2, 1`. -/
theorem exWrap_iter (k : ℕ) (hk : k ≤ 3) : ∃ p, exWrap.iter (fun _ => .ninf) (fun _ => .pinf) ![4] k = some p ∧ p.1 = ![4 - (k : ℚ)] := by
  induction k with
  | zero => exact ⟨_, rfl, by simp⟩
  | succ k ih =>
    obtain ⟨p, hp, hx⟩ := ih (by omega)
    have hk' : (k : ℚ) ≤ 2 := by exact_mod_cast (show k ≤ 2 by omega)
    obtain ⟨p', hp'⟩ := exWrap.C75_defined exWrap_sound (by norm_num [exWrap]) (by norm_num [exWrap]) (fun _ => .ninf) (fun _ => .pinf)
      exWrap_sort exWrap_inv ![4] k hp (exWrap_box _) (by
        intro j
        right
        rw [hx]
        have hj : exWrap.grad ![4 - (k : ℚ)] j = 2 * (4 - (k : ℚ)) + 4 * (4 - (k : ℚ)) * (4 - (k : ℚ)) * (4 - (k : ℚ)) := by
          rw [Subsingleton.elim j 0]; rfl
        rw [hj]
        have h2 : (2 : ℚ) ≤ 4 - (k : ℚ) := by linarith
        have h3 : 0 ≤ 4 * (4 - (k : ℚ)) * (4 - (k : ℚ)) * (4 - (k : ℚ)) := by positivity
        refine le_trans ?_ (le_abs_self _)
        have : exWrap.eps ≤ 1 := by norm_num [exWrap]
        linarith)
    refine ⟨p', hp', ?_⟩
    simp only [iter, hp, Option.bind_some] at hp'
    unfold update at hp'
    simp only at hp'
    obtain ⟨xs, -, hu⟩ := Option.bind_eq_some_iff.mp hp'
    obtain ⟨o, ho, hpo⟩ := Option.map_eq_some_iff.mp hu
    have e1 : p'.1 = o.params := by rw [← hpo]
    have e2 : o.params = ![p.1 0 - 1] := by
      simp only [step, exWrap, le_refl, if_true, Option.some.injEq] at ho
      rw [← ho]
    rw [e1, e2, hx]
    simp only [Matrix.cons_val_zero, Nat.cast_add, Nat.cast_one]
    congr 1; ring

/-- The gradient differences of the example. -/
theorem exWrap_pairs : acceptedPairs exWrap (fun _ => .ninf) (fun _ => .pinf) ![4] 3 =
    [(![-1], ![-150]), (![-1], ![-78]), (![-1], ![-30])] := by
  obtain ⟨p0, h0, e0⟩ := exWrap_iter 0 (by omega)
  obtain ⟨p1, h1, e1⟩ := exWrap_iter 1 (by omega)
  obtain ⟨p2, h2, e2⟩ := exWrap_iter 2 (by omega)
  obtain ⟨p3, h3, e3⟩ := exWrap_iter 3 (by omega)
  have d1 : p1.1 - p0.1 = ![-1] ∧ exWrap.grad p1.1 - exWrap.grad p0.1 = ![-150] := by
    rw [e0, e1]; constructor <;> funext j <;> rw [Subsingleton.elim j 0] <;> norm_num [exWrap]
  have d2 : p2.1 - p1.1 = ![-1] ∧ exWrap.grad p2.1 - exWrap.grad p1.1 = ![-78] := by
    rw [e1, e2]; constructor <;> funext j <;> rw [Subsingleton.elim j 0] <;> norm_num [exWrap]
  have d3 : p3.1 - p2.1 = ![-1] ∧ exWrap.grad p3.1 - exWrap.grad p2.1 = ![-30] := by
    rw [e2, e3]; constructor <;> funext j <;> rw [Subsingleton.elim j 0] <;> norm_num [exWrap]
  rw [acceptedPairs]
  simp only [h2, h3, d3.1, d3.2]
  rw [acceptedPairs]
  simp only [h1, h2, d2.1, d2.2]
  rw [acceptedPairs]
  simp only [h0, h1, d1.1, d1.2, acceptedPairs]
  norm_num [dotProduct]

/-- **C75 fails after the buffer has wrapped around**: the buffer is not put into chronological order and `tril` uses buffer positions,
so the pair at the last position is treated as the newest one.  With `history_size = 2` and three pairs the model matrix does not map the
newest step to the newest gradient difference. -/
theorem C75_wrap_false :
    ¬ ∀ (S : Lbfgsb ℚ (Ext ℚ) 1 2) (lower upper : Fin 1 → Ext ℚ) (x0 : Fin 1 → ℚ) (k : ℕ) (p : (Fin 1 → ℚ) × LbfgsbState ℚ (Ext ℚ) 1 2)
      (m : Matrix (Fin 2 ⊕ Fin 2) (Fin 2 ⊕ Fin 2) ℚ), S.LsSound → 0 < S.theta → S.iter lower upper x0 k = some p → mInv p.2 * m = 1 →
      ∀ q, (acceptedPairs S lower upper x0 k).getLast? = some q → modelMatrix p.2 m *ᵥ q.1 = q.2 := by
  intro hall
  obtain ⟨p, hp, -⟩ := exWrap_iter 3 le_rfl
  have ht : 0 < exWrap.theta := by norm_num [exWrap]
  have ho := exWrap.histOk exWrap_sound ht _ _ _ 3 hp
  have hm := exWrap_inv _ (C75_invertible ho)
  have hnew := hall exWrap _ _ _ 3 p _ exWrap_sound ht hp hm (![-1], ![-30]) (by rw [exWrap_pairs]; rfl)
  obtain ⟨h1, h2, h3, h4, h5⟩ := exWrap.C75_history exWrap_sound _ _ _ 3 hp
  simp only [exWrap_pairs] at h1 h2 h3
  have a0 := h3 0 2 (by simp) rfl (by simp)
  have a1 := h3 1 1 (by simp) rfl (by simp)
  simp only [List.getElem_cons_succ, List.getElem_cons_zero] at a0 a1
  have hbuf : bufferPairs p.2 = [(![-1], ![-30]), (![-1], ![-78])] := by
    unfold bufferPairs
    rw [h1, ← a0, ← a1]
    rfl
  rw [(C75_compact ho hm).1, hbuf] at hnew
  have hsec : bfgsMatrix p.2.theta [((![-1] : Fin 1 → ℚ), (![-30] : Fin 1 → ℚ)), (![-1], ![-78])] *ᵥ ![-1] = ![-78] := by
    change bfgsDirect (bfgsMatrix p.2.theta [((![-1] : Fin 1 → ℚ), (![-30] : Fin 1 → ℚ))]) ![-1] ![-78] *ᵥ ![-1] = ![-78]
    refine bfgsDirect_secant (spd_bfgsMatrix ho.theta_pos _ ?_) (by norm_num [dotProduct])
    intro r hr
    rw [List.mem_singleton.mp hr]
    norm_num [dotProduct]
  rw [hsec] at hnew
  have := congrFun hnew 0
  norm_num at this

/-- Non-vacuity of `C75_run`, `C75_defined` and `C75_secant_partial`: after two updates of the example the two pairs fill the buffer and
the model matrix is `78`, the newest difference quotient. -/
example : ∃ p, exWrap.iter (fun _ => .ninf) (fun _ => .pinf) ![4] 2 = some p ∧ p.2.numUpdates = 2 ∧
    modelMatrix p.2 (exWrap.inv (mInv p.2)) 0 0 = 78 := by
  obtain ⟨p, hp, -⟩ := exWrap_iter 2 (by omega)
  have ht : 0 < exWrap.theta := by norm_num [exWrap]
  have h3 := exWrap_pairs
  obtain ⟨p2, hp2, e2⟩ := exWrap_iter 2 (by omega)
  obtain ⟨p3, hp3, e3⟩ := exWrap_iter 3 (by omega)
  have hpairs : acceptedPairs exWrap (fun _ => .ninf) (fun _ => .pinf) ![4] 2 = [(![-1], ![-150]), (![-1], ![-78])] := by
    rw [acceptedPairs] at h3
    simp only [hp2, hp3] at h3
    split_ifs at h3 with hc
    · have h3' := congrArg List.dropLast h3
      rwa [List.dropLast_concat] at h3'
    · exfalso
      apply hc
      rw [e2, e3]
      norm_num [exWrap, dotProduct]
  have hm := exWrap_inv _ (C75_invertible (exWrap.histOk exWrap_sound ht _ _ _ 2 hp))
  have hs := (exWrap.C75_secant_partial exWrap_sound ht _ _ _ 2 hp (by rw [hpairs]; left; simp) hm).2 (![-1], ![-78]) (by rw [hpairs]; rfl)
  refine ⟨p, hp, ?_, ?_⟩
  · rw [(exWrap.C75_history exWrap_sound _ _ _ 2 hp).1, hpairs]; rfl
  · have := congrFun hs 0
    simp [mulVec, dotProduct] at this
    linarith

end Jaxopt.QuasiNewton.Lbfgsb
