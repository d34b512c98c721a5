import Verif.Tree.FlatConcat
import Verif.Tree.StackedProps
import Verif.Scipy.FlattenProps

/-!
# C144: flattening in `LBFGSB` is a bijection and flattened histories have the flattened vectors as rows
-/

set_option autoImplicit false
set_option linter.unusedSectionVars false
set_option linter.unusedVariables false

namespace Jaxopt.Tree

open Jaxopt.Scipy

variable {K : Type*} {m : ℕ}

/-! ## Pytrees -/

theorem foldl_append (l : List (List K)) (a : List K) : l.foldl (· ++ ·) a = a ++ l.flatten := by
  induction l generalizing a with
  | nil => simp
  | cons b l ih => rw [List.foldl_cons, ih, List.flatten_cons, List.append_assoc]

theorem flatten_eq {t : PyTree (Arr K)} (h : leaves t ≠ []) : flattenAndConcat t = some (vec t) := by
  obtain ⟨r, h1, h2, h3⟩ := treeMap_spec (fun a : Arr K => a.data) t
  unfold flattenAndConcat
  rw [h1]
  show treeReduce (· ++ ·) r = _
  unfold treeReduce vec
  rw [h2]
  cases hl : leaves t with
  | nil => exact absurd hl h
  | cons a as =>
    simp only [List.map_cons]
    rw [foldl_append, List.flatMap_cons, List.flatMap_def]

theorem cumsum_dropLast : ∀ (s : ℕ) (l : List ℕ), (cumsum s l).dropLast = cumsum s l.dropLast
  | _, [] => rfl
  | _, [_] => rfl
  | s, a :: b :: l => by
    have ih := cumsum_dropLast (s + a) (b :: l)
    rw [List.dropLast_cons₂]
    show ((s + a) :: cumsum (s + a) (b :: l)).dropLast = (s + a) :: cumsum (s + a) (b :: l).dropLast
    rw [← ih]
    rfl

theorem zipM_reshape : ∀ (ps : List (List K)) (bs : List (Arr K)), ps.map List.length = bs.map (fun b => b.data.length) →
    ∃ cs, zipM (fun y (p : Arr K) => (reshape y p.shape).toOption) ps bs = some cs ∧ cs.map (·.shape) = bs.map (·.shape) ∧ cs.map (·.data) = ps
  | [], [], _ => ⟨[], rfl, rfl, rfl⟩
  | [], _ :: _, h => by simp at h
  | _ :: _, [], h => by simp at h
  | p :: ps, b :: bs, h => by
    simp only [List.map_cons, List.cons.injEq] at h
    obtain ⟨cs, h1, h2, h3⟩ := zipM_reshape ps bs h.2
    have hp : p.length = b.shape.prod := h.1.trans b.wf
    refine ⟨⟨b.shape, p, hp⟩ :: cs, ?_, ?_, ?_⟩
    · rw [zipM, h1]
      unfold reshape
      rw [dif_pos hp]
      rfl
    · rw [List.map_cons, List.map_cons, h2]
    · rw [List.map_cons, h3]

/-- C144.  Every vector of the right length is packed into a pytree of the given structure and shapes that flattens to the vector. -/
theorem C144_pack {t : PyTree (Arr K)} (h : leaves t ≠ []) (x : List K) (hx : x.length = (vec t).length) :
    ∃ s, splitAndPackLike x t = .ok s ∧ SameTopo t s ∧ flattenAndConcat s = some x := by
  cases t with
  | leaf a =>
    have hl : x.length = a.shape.prod := by
      rw [hx, ← a.wf]
      simp [vec, leaves]
    refine ⟨.leaf ⟨a.shape, x, hl⟩, ?_, ⟨rfl, rfl⟩, ?_⟩
    · show (reshape x a.shape).map PyTree.leaf = _
      unfold reshape
      rw [dif_pos hl]
      rfl
    · rw [flatten_eq (by simp [leaves])]
      simp [vec, leaves]
  | node tag ts =>
    have hsum : x.length = ((leaves (.node tag ts : PyTree (Arr K))).map fun a => a.data.length).sum := by
      rw [hx]
      unfold vec
      rw [List.length_flatMap]
    obtain ⟨ps, p1, p2⟩ := exists_pieces _ x hsum
    have hlen : ps.length = (leaves (.node tag ts : PyTree (Arr K))).length := by
      have := congrArg List.length p1
      simpa using this
    have hps : ps ≠ [] := fun h0 => by
      rw [h0] at hlen
      exact h (List.length_eq_zero_iff.mp hlen.symm)
    obtain ⟨s, s1, s2, s3⟩ := unflatten_spec (.node tag ts : PyTree (Arr K)) ps hlen
    obtain ⟨cs, c1, c2, c3⟩ := zipM_reshape ps _ p1
    rw [← s2] at c1
    obtain ⟨r, r1, r2, r3⟩ := treeMap2_spec (by rw [sameDef_symm]; exact s3) c1
    have hr : SameTopo (.node tag ts : PyTree (Arr K)) r := ⟨sameDef_trans _ s r s3 r3, by rw [r2, c2]⟩
    have hrne : leaves r ≠ [] := fun h0 => by
      have := sameDef_length _ r hr.1
      rw [h0] at this
      exact h (List.length_eq_zero_iff.mp this)
    refine ⟨r, ?_, hr, ?_⟩
    · unfold splitAndPackLike
      simp only
      rw [cumsum_dropLast, ← p1, ← p2, split_flatten _ hps, s1]
      simp only
      rw [r1]
    · rw [flatten_eq hrne]
      unfold vec
      rw [r2, List.flatMap_def, c3, p2]

/-- C144.  Flattening and packing gives the pytree back. -/
theorem C144_roundtrip {t : PyTree (Arr K)} (h : leaves t ≠ []) : flattenAndConcat t = some (vec t) ∧ splitAndPackLike (vec t) t = .ok t := by
  refine ⟨flatten_eq h, ?_⟩
  obtain ⟨s, h1, h2, h3⟩ := C144_pack h (vec t) rfl
  rw [h1]
  have hs : leaves s ≠ [] := fun h0 => by
    have := sameDef_length t s h2.1
    rw [h0] at this
    exact h (List.length_eq_zero_iff.mp this)
  rw [flatten_eq hs] at h3
  have hv : vec s = vec t := Option.some.inj h3
  have key : ∀ (as bs : List (Arr K)), as.map (·.shape) = bs.map (·.shape) → as.flatMap (·.data) = bs.flatMap (·.data) → as = bs := fun as => by
    induction as with
    | nil => intro bs h _; cases bs with
      | nil => rfl
      | cons b bs => simp at h
    | cons a as ih => intro bs h h'; cases bs with
      | nil => simp at h
      | cons b bs =>
        simp only [List.map_cons, List.cons.injEq] at h
        rw [List.flatMap_cons, List.flatMap_cons] at h'
        obtain ⟨e1, e2⟩ := List.append_inj h' (by rw [a.wf, b.wf, h.1])
        rw [ih bs h.2 e2]
        congr 1
        obtain ⟨sa, da, wa⟩ := a
        obtain ⟨sb, db, wb⟩ := b
        obtain ⟨rfl, -⟩ := h
        obtain rfl := e1
        rfl
  exact congrArg _ (eq_of_leaves s t h2.symm.1 (key _ _ h2.symm.2 hv))

/-- C144, false without leaves: a pytree without leaves cannot be flattened. -/
theorem C144_empty_false : ∃ t : PyTree (Arr K), flattenAndConcat t = none := ⟨.node "tuple" [], rfl⟩

/-! ## Histories -/

theorem blocks (p : ℕ) : ∀ (m : ℕ) (g : Fin m → List K) (i : Fin m), (∀ j, (g j).length = p) → (((List.finRange m).flatMap g).drop (i * p)).take p = g i
  | 0, _, i, _ => i.elim0
  | m + 1, g, i, h => by
    rw [List.finRange_succ, List.flatMap_cons, List.flatMap_map]
    refine Fin.cases ?_ (fun k => ?_) i
    · simp [← h 0]
    · have ih := blocks p m (fun j => g j.succ) k fun j => h j.succ
      have e : ((k.succ : Fin (m + 1)) : ℕ) * p = (g 0).length + (k : ℕ) * p := by rw [h 0, Fin.val_succ, Nat.succ_mul, Nat.add_comm]
      rw [e, ← List.drop_drop, List.drop_left]
      exact ih

theorem row_concat (a b : Stack K m) (i : Fin m) : ((a.concatLast b).row i).data = (a.row i).data ++ (b.row i).data := by
  have h := blocks (a.shape.prod + b.shape.prod) m (fun i => (a.row i).data ++ (b.row i).data) i fun j => by
    rw [List.length_append, row_length, row_length]
  have e : (a.concatLast b).shape.prod = a.shape.prod + b.shape.prod := by simp [Stack.concatLast]
  show (((a.concatLast b).data.drop (i * (a.concatLast b).shape.prod)).take (a.concatLast b).shape.prod) = _
  rw [e]
  exact h

theorem row_reshapeFlat (a : Stack K m) (i : Fin m) : (a.reshapeFlat.row i).data = (a.row i).data := by
  have e : a.reshapeFlat.shape.prod = a.shape.prod := by simp [Stack.reshapeFlat]
  show ((a.data.drop (i * a.reshapeFlat.shape.prod)).take a.reshapeFlat.shape.prod) = _
  rw [e]
  rfl

theorem foldl_concat (l : List (Stack K m)) (a : Stack K m) (ha : ∃ q, a.shape = [q]) :
    (l.foldl Stack.concatLast a).shape = [a.shape.prod + (l.map fun b => b.shape.prod).sum] ∧
      ∀ i, ((l.foldl Stack.concatLast a).row i).data = (a.row i).data ++ l.flatMap fun b => (b.row i).data := by
  induction l generalizing a with
  | nil =>
    obtain ⟨q, hq⟩ := ha
    exact ⟨by simp [hq], fun i => by simp⟩
  | cons b l ih =>
    obtain ⟨h1, h2⟩ := ih (a.concatLast b) ⟨_, rfl⟩
    rw [List.foldl_cons]
    refine ⟨?_, fun i => ?_⟩
    · rw [h1]
      simp [Stack.concatLast, Nat.add_assoc]
    · rw [h2, row_concat, List.flatMap_cons, List.append_assoc]

/-- C144.  The flattened history is a matrix whose rows are the flattened vectors of the history. -/
theorem C144_history (hm : m ≠ 0) {t : PyTree (Stack K m)} (h : leaves t ≠ []) :
    ∃ f, flattenHistory t = some f ∧ f.shape = [rowSize t] ∧ ∀ i, (f.row i).data = rowVec t i := by
  obtain ⟨r, h1, h2, h3⟩ := treeMap_spec (Stack.reshapeFlat (K := K) (m := m)) t
  cases hl : leaves t with
  | nil => exact absurd hl h
  | cons a as =>
    rw [hl, List.map_cons] at h2
    obtain ⟨g1, g2⟩ := foldl_concat (as.map Stack.reshapeFlat) a.reshapeFlat ⟨_, rfl⟩
    refine ⟨(as.map Stack.reshapeFlat).foldl Stack.concatLast a.reshapeFlat, ?_, ?_, fun i => ?_⟩
    · unfold flattenHistory
      rw [if_neg hm, h1]
      show treeReduce _ r = _
      unfold treeReduce
      rw [h2]
    · rw [g1]
      unfold rowSize
      rw [hl, List.map_map]
      simp [Stack.reshapeFlat, Function.comp_def]
    · rw [g2, row_reshapeFlat]
      unfold rowVec
      rw [hl, List.flatMap_cons, List.flatMap_map]
      simp only [row_reshapeFlat]

/-! ## Examples -/

example : splitAndPackLike [(5 : ℤ), 6, 7] (.node "tuple" [.leaf ⟨[], [1], rfl⟩, .leaf ⟨[2], [2, 3], rfl⟩]) =
    .ok (.node "tuple" [.leaf ⟨[], [5], rfl⟩, .leaf ⟨[2], [6, 7], rfl⟩]) :=
  rfl

example : ∃ f : Stack ℤ 2, flattenHistory (.node "tuple" [.leaf ⟨[], [1, 2], rfl⟩, .leaf ⟨[2], [3, 4, 5, 6], rfl⟩]) = some f ∧ f.shape = [3] ∧
    (f.row 1).data = [2, 5, 6] := by
  obtain ⟨f, h1, h2, h3⟩ := C144_history (m := 2) (by norm_num) (t := .node "tuple" [.leaf ⟨[], [(1 : ℤ), 2], rfl⟩, .leaf ⟨[2], [3, 4, 5, 6], rfl⟩])
    (by simp [leaves, leavesL])
  exact ⟨f, h1, h2, h3 1⟩

end Jaxopt.Tree
