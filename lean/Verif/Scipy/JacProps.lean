import Verif.Scipy.FlattenProps

/-!
# Property C46: the dense Jacobian acts as the pytree of blocks
-/

set_option autoImplicit false
set_option linter.unusedSectionVars false
set_option linter.unusedVariables false

namespace Jaxopt.Scipy

open Jaxopt.Tree

variable {α β K : Type*}

/-! ## Specification -/

mutual
/-- Substitute trees for leaves. -/
def join : PyTree (PyTree α) → PyTree α
  | .leaf t => t
  | .node s ts => .node s (joinL ts)

/-- The same for lists of trees. -/
def joinL : List (PyTree (PyTree α)) → List (PyTree α)
  | [] => []
  | t :: ts => join t :: joinL ts
end

/-- `JJ` is a pytree of Jacobian blocks for outputs like `y` and inputs like `x`: the structure of `y` with, at each leaf, a tree with the
structure of `x` whose leaves have the shape of the output leaf followed by the shape of the input leaf (`jax.jacrev`/`jacfwd`). -/
structure IsJacTree (x y : PyTree (Arr K)) (JJ : PyTree (PyTree (Arr K))) : Prop where
  outer : sameDef JJ y = true
  inner : List.Forall₂ (fun T b => sameDef T x = true ∧ (leaves T).map (·.shape) = (leaves x).map fun a => b.shape ++ a.shape)
    (leaves JJ) (leaves y)

/-- Entry `r` of the contraction of a block with an input leaf. -/
def contract [Ring K] (J a : Arr K) (r : ℕ) : K :=
  ((List.range a.data.length).map fun c => J.data[r * a.data.length + c]?.getD 0 * a.data[c]?.getD 0).sum

/-- The action of one row of blocks on an input tree: entry `r` of the output leaf. -/
def rowAction [Ring K] (T x : PyTree (Arr K)) (r : ℕ) : K := (List.zipWith (fun J a => contract J a r) (leaves T) (leaves x)).sum

/-- The action of the tree of blocks, flattened: for each output leaf its entries, each the sum over the input leaves. -/
def blockAction [Ring K] (JJ : PyTree (PyTree (Arr K))) (y x : PyTree (Arr K)) : List K :=
  (List.zipWith (fun T (b : Arr K) => (List.range b.shape.prod).map (rowAction T x)) (leaves JJ) (leaves y)).flatten

/-- Matrix times vector. -/
def matvec [Ring K] (M : Mat K) (v : List K) : List K := M.rows.map fun row => dotL row v

/-! ## Lemmas -/

mutual
theorem leaves_join : ∀ t : PyTree (PyTree α), leaves (join t) = (leaves t).flatMap leaves
  | .leaf t => by simp [join, leaves]
  | .node s ts => by simp only [join, leaves]; exact leavesL_join ts

theorem leavesL_join : ∀ ts : List (PyTree (PyTree α)), leavesL (joinL ts) = (leavesL ts).flatMap leaves
  | [] => rfl
  | t :: ts => by simp only [joinL, leavesL, List.flatMap_append, leaves_join t, leavesL_join ts]
end

theorem getElem?_flatten {n : ℕ} : ∀ (L : List (List α)) (i j : ℕ), (∀ l ∈ L, l.length = n) → j < n →
    L.flatten[j + i * n]? = L[i]?.bind fun l => l[j]?
  | [], i, j, _, _ => by simp
  | l :: L, 0, j, h, hj => by
    have hl := h l (by simp)
    simp only [List.flatten_cons, Nat.zero_mul, Nat.add_zero, List.getElem?_cons_zero, Option.bind_some]
    rw [List.getElem?_append_left (by rw [hl]; exact hj)]
  | l :: L, i + 1, j, h, hj => by
    have hl := h l (by simp)
    rw [List.flatten_cons, List.getElem?_append_right (by rw [hl, Nat.add_mul]; omega), List.getElem?_cons_succ, hl]
    have he : j + (i + 1) * n - n = j + i * n := by rw [Nat.add_mul]; omega
    rw [he]
    exact getElem?_flatten L i j (fun l' hl' => h l' (by simp [hl'])) hj

theorem collectE_ok (l : List α) : collectE (l.map Except.ok) = .ok l := by
  induction l with
  | nil => rfl
  | cons a l ih => simp only [List.map_cons, collectE, ih, Except.map]

/-- The block that `jacBlock` builds. -/
def blockOf (m : ℕ) (J a : Arr K) : Mat K :=
  ⟨m, a.data.length, (List.range m).map fun r => slice (r * a.data.length) (r * a.data.length + a.data.length) J.data⟩

/-- Row `r` of a row of blocks. -/
def blockRow (r : ℕ) (Js as : List (Arr K)) : List K :=
  (List.zipWith (fun (J a : Arr K) => slice (r * a.data.length) (r * a.data.length + a.data.length) J.data) Js as).flatten

theorem joinWith_hcat (m : ℕ) : ∀ (Js as : List (Arr K)), Js.length = as.length → as ≠ [] →
    joinWith hcat (List.zipWith (blockOf m) Js as) = .ok ⟨m, (as.flatMap (·.data)).length, (List.range m).map fun r => blockRow r Js as⟩
  | _, [], _, h => absurd rfl h
  | [], _ :: _, h, _ => by simp at h
  | [J], [a], _, _ => by simp [joinWith, blockOf, blockRow]
  | J :: J' :: Js, [a], h, _ => by simp at h
  | [J], a :: a' :: as, h, _ => by simp at h
  | J :: J' :: Js, a :: a' :: as, h, _ => by
    have ih := joinWith_hcat m (J' :: Js) (a' :: as) (by simpa using h) (by simp)
    rw [List.zipWith_cons_cons]
    have hne : List.zipWith (blockOf m) (J' :: Js) (a' :: as) = blockOf m J' a' :: List.zipWith (blockOf m) Js as := rfl
    rw [hne] at ih ⊢
    unfold joinWith
    rw [ih]
    simp only [Except.bind, hcat, blockOf, if_true, List.flatMap_cons, List.length_append, Except.ok.injEq, Mat.mk.injEq, true_and]
    rw [List.zipWith_map, List.zipWith_self]
    refine List.map_congr_left fun r _ => ?_
    simp only [blockRow, List.zipWith_cons_cons, List.flatten_cons]

theorem joinWith_vcat (n : ℕ) : ∀ Ms : List (Mat K), Ms ≠ [] → (∀ M ∈ Ms, M.ncols = n) →
    joinWith vcat Ms = .ok ⟨(Ms.map (·.nrows)).sum, n, Ms.flatMap (·.rows)⟩
  | [], h, _ => absurd rfl h
  | [M], _, h => by
    simp only [joinWith, List.map_cons, List.map_nil, List.sum_cons, List.sum_nil, Nat.add_zero, List.flatMap_cons, List.flatMap_nil,
      List.append_nil, ← h M (by simp)]
  | M :: M' :: Ms, _, h => by
    have ih := joinWith_vcat n (M' :: Ms) (by simp) fun N hN => h N (by simp [hN])
    unfold joinWith
    rw [ih]
    simp only [Except.bind, vcat, h M (by simp), if_true, List.map_cons, List.sum_cons, List.flatMap_cons]

section
variable [Ring K]

theorem dotL_append {a b c d : List K} (h : a.length = c.length) : dotL (a ++ b) (c ++ d) = dotL a c + dotL b d := by
  unfold dotL
  rw [List.zipWith_append h, List.sum_append]

theorem dotL_range : ∀ (xs ys : List K), xs.length = ys.length →
    dotL xs ys = ((List.range ys.length).map fun c => xs[c]?.getD 0 * ys[c]?.getD 0).sum
  | [], [], _ => by simp [dotL]
  | [], _ :: _, h => by simp at h
  | _ :: _, [], h => by simp at h
  | x :: xs, y :: ys, h => by
    have ih := dotL_range xs ys (by simpa using h)
    unfold dotL at ih ⊢
    rw [List.zipWith_cons_cons, List.sum_cons, ih, List.length_cons, List.range_succ_eq_map, List.map_cons, List.sum_cons, List.map_map]
    rfl

theorem slice_getElem? (a n c : ℕ) (xs : List K) (hc : c < n) : (slice a (a + n) xs)[c]? = xs[a + c]? := by
  unfold slice
  rw [List.getElem?_drop, List.getElem?_take_of_lt (by omega)]

theorem mul_add_le {r m n : ℕ} (h : r < m) : r * n + n ≤ m * n := by
  calc r * n + n = (r + 1) * n := by rw [Nat.add_mul, Nat.one_mul]
    _ ≤ m * n := Nat.mul_le_mul_right n h

/-- A row of blocks times a flattened input. -/
theorem dotL_blockRow (m r : ℕ) (hr : r < m) : ∀ (Js as xs : List (Arr K)), Js.length = as.length → as.length = xs.length →
    (∀ i (h1 : i < Js.length) (h2 : i < as.length), (Js[i]).data.length = m * (as[i]).data.length) →
    (∀ i (h1 : i < as.length) (h2 : i < xs.length), (as[i]).data.length = (xs[i]).data.length) →
    dotL (blockRow r Js as) (xs.flatMap (·.data)) = (List.zipWith (fun J a => contract J a r) Js xs).sum
  | [], [], [], _, _, _, _ => by simp [blockRow, dotL]
  | [], _ :: _, _, h, _, _, _ => by simp at h
  | _ :: _, [], _, h, _, _, _ => by simp at h
  | _, [], _ :: _, _, h, _, _ => by simp at h
  | _, _ :: _, [], _, h, _, _ => by simp at h
  | J :: Js, a :: as, x :: xs, h1, h2, h3, h4 => by
    have ih := dotL_blockRow m r hr Js as xs (by simpa using h1) (by simpa using h2)
      (fun i p q => h3 (i + 1) (by simpa using p) (by simpa using q)) (fun i p q => h4 (i + 1) (by simpa using p) (by simpa using q))
    have hJ : J.data.length = m * a.data.length := h3 0 (by simp) (by simp)
    have hx : a.data.length = x.data.length := h4 0 (by simp) (by simp)
    have hsl : (slice (r * a.data.length) (r * a.data.length + a.data.length) J.data).length = x.data.length := by
      rw [slice_length, hJ, Nat.min_eq_left (mul_add_le hr), ← hx]; omega
    have hbr : blockRow r (J :: Js) (a :: as) = slice (r * a.data.length) (r * a.data.length + a.data.length) J.data ++ blockRow r Js as := rfl
    rw [hbr, List.flatMap_cons, dotL_append hsl, ih, List.zipWith_cons_cons, List.sum_cons]
    congr 1
    rw [dotL_range _ _ hsl]
    unfold contract
    congr 1
    refine List.map_congr_left fun c hc => ?_
    rw [slice_getElem? _ _ _ _ (by rw [hx]; exact List.mem_range.mp hc), hx]

end

theorem forall₂_get {R : α → β → Prop} {l : List α} {l' : List β} (h : List.Forall₂ R l l') (i : ℕ) (h1 : i < l.length) (h2 : i < l'.length) :
    R l[i] l'[i] := by
  induction h generalizing i with
  | nil => simp at h1
  | cons hr _ ih =>
    cases i with
    | zero => exact hr
    | succ i => exact ih i (by simpa using h1) (by simpa using h2)

theorem sizes_length (x : PyTree (Arr K)) : (topologyFromExample x).sizes.length = (leaves x).length := by
  simp [topologyFromExample, Topology.sizes]

theorem sizes_getElem (x : PyTree (Arr K)) (j : ℕ) (h : j < (topologyFromExample x).sizes.length) (h' : j < (leaves x).length) :
    (topologyFromExample x).sizes[j] = ((leaves x)[j]).data.length := by
  simp only [topologyFromExample, Topology.sizes, List.getElem_map, ((leaves x)[j]).wf]

/-- The number of entries of a block. -/
theorem inner_size {T x : PyTree (Arr K)} {b : Arr K}
    (h : (leaves T).map (·.shape) = (leaves x).map fun a => b.shape ++ a.shape) (j : ℕ) (h1 : j < (leaves T).length)
    (h2 : j < (leaves x).length) : ((leaves T)[j]).data.length = b.shape.prod * ((leaves x)[j]).data.length := by
  have := congrArg (fun l => l[j]?) h
  simp only [List.getElem?_map, List.getElem?_eq_getElem h1, List.getElem?_eq_getElem h2, Option.map_some, Option.some.injEq] at this
  rw [((leaves T)[j]).wf, ((leaves x)[j]).wf, this, List.prod_append]

/-- **C46**: for every pytree of Jacobian blocks over trees with at least one leaf, the dense matrix is built, has as many rows as the
flattened output and as many columns as the flattened input, and multiplying it with any flattened input gives the flattened result of
applying the blocks. -/
theorem C46_jacobian_partial [Ring K] {x y : PyTree (Arr K)} {JJ : PyTree (PyTree (Arr K))} (hJ : IsJacTree x y JJ)
    (hx : leaves x ≠ []) (hy : leaves y ≠ []) :
    ∃ M, jacJnpToOnp (topologyFromExample x) (topologyFromExample y) (join JJ) = .ok M ∧
      M.nrows = (vec y).length ∧ M.ncols = (vec x).length ∧ M.rows.length = M.nrows ∧ (∀ row ∈ M.rows, row.length = M.ncols) ∧
      ∀ u, SameTopo x u → matvec M (vec u) = blockAction JJ y u := by
  have hlenJ : (leaves JJ).length = (leaves y).length := sameDef_length _ _ hJ.outer
  have hinlen : ∀ T ∈ leaves JJ, (leaves T).length = (leaves x).length := by
    intro T hT
    obtain ⟨i, hi, rfl⟩ := List.getElem_of_mem hT
    exact sameDef_length _ _ (forall₂_get hJ.inner i hi (by rw [← hlenJ]; exact hi)).1
  -- the matrices of the rows of blocks
  set Ms : List (Mat K) := List.zipWith (fun T (b : Arr K) => (⟨b.shape.prod, (vec x).length,
      (List.range b.shape.prod).map fun r => blockRow r (leaves T) (leaves x)⟩ : Mat K)) (leaves JJ) (leaves y) with hMs
  have hrow : ∀ i (hi : i < (leaves JJ).length) (hi' : i < (leaves y).length),
      collectE ((topologyFromExample x).sizes.mapIdx fun j inSize => jacBlock (topologyFromExample x).nLeaves (leaves (join JJ)) i j
        ((leaves y)[i]).shape.prod inSize) =
      .ok (List.zipWith (blockOf ((leaves y)[i]).shape.prod) (leaves (leaves JJ)[i]) (leaves x)) := by
    intro i hi hi'
    have hT := hinlen _ (List.getElem_mem hi)
    have hblk : ∀ j (h1 : j < (leaves x).length) (h1' : j < (leaves (leaves JJ)[i]).length),
        jacBlock (topologyFromExample x).nLeaves (leaves (join JJ)) i j ((leaves y)[i]).shape.prod ((leaves x)[j]).data.length =
          .ok (blockOf ((leaves y)[i]).shape.prod (leaves (leaves JJ)[i])[j] (leaves x)[j]) := by
      intro j h1 h1'
      have hidx : (leaves (join JJ))[j + i * (leaves x).length]? = some ((leaves (leaves JJ)[i])[j]) := by
        rw [leaves_join, List.flatMap_def, getElem?_flatten _ _ _ (by
          intro l hl
          obtain ⟨T, hT, rfl⟩ := List.mem_map.mp hl
          exact hinlen T hT) h1]
        simp only [List.getElem?_map, List.getElem?_eq_getElem hi, Option.map_some, Option.bind_some, List.getElem?_eq_getElem h1']
      have hn : (topologyFromExample x).nLeaves = (leaves x).length := by simp [topologyFromExample, Topology.nLeaves]
      unfold jacBlock
      rw [hn, hidx]
      simp only [reshape2]
      rw [if_pos (inner_size (forall₂_get hJ.inner i hi hi').2 j h1' h1)]
      rfl
    rw [← collectE_ok]
    congr 1
    refine List.ext_getElem ?_ ?_
    · rw [List.length_mapIdx, sizes_length, List.length_map, List.length_zipWith, hT, Nat.min_self]
    · intro j h1 h2
      have h3 : j < (leaves x).length := by rw [List.length_mapIdx, sizes_length] at h1; exact h1
      rw [List.getElem_mapIdx, List.getElem_map, List.getElem_zipWith, ← hblk j h3 (by rw [hT]; exact h3)]
      congr 1
      rw [sizes_getElem x j _ h3]
  have hall : collectE ((topologyFromExample y).sizes.mapIdx fun i outSize => collectE ((topologyFromExample x).sizes.mapIdx fun j inSize =>
      jacBlock (topologyFromExample x).nLeaves (leaves (join JJ)) i j outSize inSize)) =
      .ok (List.zipWith (fun T (b : Arr K) => List.zipWith (blockOf b.shape.prod) (leaves T) (leaves x)) (leaves JJ) (leaves y)) := by
    rw [← collectE_ok]
    congr 1
    refine List.ext_getElem ?_ ?_
    · rw [List.length_mapIdx, sizes_length, List.length_map, List.length_zipWith, hlenJ, Nat.min_self]
    · intro i h1 h2
      rw [List.length_mapIdx, sizes_length] at h1
      rw [List.getElem_mapIdx, List.getElem_map, List.getElem_zipWith, ← hrow i (by rw [hlenJ]; exact h1) h1]
      congr 1
      rw [sizes_getElem y i _ h1, ((leaves y)[i]).wf]
  have hcols : collectE ((List.zipWith (fun T (b : Arr K) => List.zipWith (blockOf b.shape.prod) (leaves T) (leaves x))
      (leaves JJ) (leaves y)).map (joinWith hcat)) = .ok Ms := by
    rw [← collectE_ok]
    congr 1
    rw [List.map_zipWith, hMs, List.map_zipWith]
    refine List.ext_getElem ?_ ?_
    · simp only [List.length_zipWith]
    · intro i h1 h2
      rw [List.length_zipWith, hlenJ, Nat.min_self] at h1
      rw [List.getElem_zipWith, List.getElem_zipWith, joinWith_hcat _ _ _ (hinlen _ (List.getElem_mem _)) hx]
      rfl
  have hMsne : Ms ≠ [] := by
    intro h0
    have := congrArg List.length h0
    rw [hMs, List.length_zipWith, hlenJ, Nat.min_self] at this
    exact hy (List.length_eq_zero_iff.mp this)
  have hMscol : ∀ M ∈ Ms, M.ncols = (vec x).length := by
    intro M hM
    obtain ⟨i, hi, rfl⟩ := List.getElem_of_mem hM
    simp only [hMs, List.getElem_zipWith]
  have hfin := joinWith_vcat _ Ms hMsne hMscol
  have hMlen : Ms.length = (leaves y).length := by rw [hMs, List.length_zipWith, hlenJ, Nat.min_self]
  have hMget : ∀ i (h : i < Ms.length) (h1 : i < (leaves JJ).length) (h2 : i < (leaves y).length), Ms[i] = ⟨((leaves y)[i]).shape.prod,
      (vec x).length, (List.range ((leaves y)[i]).shape.prod).map fun r => blockRow r (leaves (leaves JJ)[i]) (leaves x)⟩ := by
    intro i h h1 h2
    simp only [hMs, List.getElem_zipWith]
  have hnr : (Ms.map (·.nrows)).sum = (vec y).length := by
    rw [vec_length]
    congr 1
    refine List.ext_getElem ?_ ?_
    · rw [List.length_map, hMlen, sizes_length]
    · intro i h1 h2
      rw [List.length_map, hMlen] at h1
      rw [List.getElem_map, hMget i (by rw [hMlen]; exact h1) (by rw [hlenJ]; exact h1) h1, sizes_getElem y i _ h1, ((leaves y)[i]).wf]
  refine ⟨⟨(Ms.map (·.nrows)).sum, (vec x).length, Ms.flatMap (·.rows)⟩, ?_, hnr, rfl, ?_, ?_, ?_⟩
  · unfold jacJnpToOnp
    simp only
    rw [hall]
    simp only [Except.bind, block]
    rw [hcols]
    exact hfin
  · simp only
    rw [List.length_flatMap]
    congr 1
    refine List.map_congr_left fun M hM => ?_
    obtain ⟨i, hi, rfl⟩ := List.getElem_of_mem hM
    have hi' : i < (leaves y).length := by rw [← hMlen]; exact hi
    rw [hMget i hi (by rw [hlenJ]; exact hi') hi']
    simp
  · simp only
    intro row hrow'
    obtain ⟨M, hM, hr⟩ := List.mem_flatMap.mp hrow'
    obtain ⟨i, hi, rfl⟩ := List.getElem_of_mem hM
    have hi' : i < (leaves y).length := by rw [← hMlen]; exact hi
    have hiJ : i < (leaves JJ).length := by rw [hlenJ]; exact hi'
    rw [hMget i hi hiJ hi'] at hr
    simp only at hr
    obtain ⟨r, hr1, rfl⟩ := List.mem_map.mp hr
    have hr2 := List.mem_range.mp hr1
    unfold blockRow vec
    rw [List.length_flatten, List.length_flatMap]
    congr 1
    refine List.ext_getElem ?_ ?_
    · rw [List.length_map, List.length_zipWith, List.length_map, hinlen _ (List.getElem_mem hiJ), Nat.min_self]
    · intro j h1 h2
      rw [List.length_map] at h2
      have h1' : j < (leaves (leaves JJ)[i]).length := by rw [hinlen _ (List.getElem_mem hiJ)]; exact h2
      rw [List.getElem_map, List.getElem_zipWith, List.getElem_map, slice_length,
        inner_size (forall₂_get hJ.inner i hiJ hi').2 j h1' h2, Nat.min_eq_left (mul_add_le hr2)]
      omega
  · intro u hu
    have hul : (leaves x).length = (leaves u).length := sameDef_length _ _ hu.1
    unfold matvec blockAction
    simp only
    rw [List.map_flatMap, List.flatMap_def]
    congr 1
    refine List.ext_getElem ?_ ?_
    · rw [List.length_map, hMlen, List.length_zipWith, hlenJ, Nat.min_self]
    · intro i h1 h2
      rw [List.length_map] at h1
      have hi' : i < (leaves y).length := by rw [← hMlen]; exact h1
      have hiJ : i < (leaves JJ).length := by rw [hlenJ]; exact hi'
      rw [List.getElem_map, hMget i h1 hiJ hi', List.getElem_zipWith]
      simp only [List.map_map]
      refine List.map_congr_left fun r hr => ?_
      simp only [Function.comp]
      unfold vec rowAction
      refine dotL_blockRow _ r (List.mem_range.mp hr) _ _ _ (hinlen _ (List.getElem_mem hiJ)) hul ?_ ?_
      · intro j p q
        exact inner_size (forall₂_get hJ.inner i hiJ hi').2 j p q
      · intro j p q
        have := congrArg (fun l => l[j]?) hu.2
        simp only [List.getElem?_map, List.getElem?_eq_getElem p, List.getElem?_eq_getElem q, Option.map_some, Option.some.injEq] at this
        rw [((leaves x)[j]).wf, ((leaves u)[j]).wf, this]

/-- A function without output leaves (or without input leaves) has no dense Jacobian here: `onp.block` raises. -/
theorem C46_empty_false [Ring K] : ∃ (x y : PyTree (Arr K)) (JJ : PyTree (PyTree (Arr K))), IsJacTree x y JJ ∧
    ∃ e, jacJnpToOnp (topologyFromExample x) (topologyFromExample y) (join JJ) = .error e :=
  ⟨.leaf ⟨[], [0], rfl⟩, .node "dict()" [], .node "dict()" [], ⟨rfl, by simp only [leaves, leavesL]; exact List.Forall₂.nil⟩, _, rfl⟩

/-! ## Non-vacuity -/

/-- Two inputs (a pair and a scalar), one output (a pair): blocks of shapes 2x2 and 2. -/
def exJac : PyTree (PyTree (Arr ℚ)) :=
  .leaf (.node "tuple" [.leaf ⟨[2, 2], [1, 2, 3, 4], rfl⟩, .leaf ⟨[2], [5, 6], rfl⟩])
/-- The input. -/
def exX : PyTree (Arr ℚ) := .node "tuple" [.leaf ⟨[2], [10, 20], rfl⟩, .leaf ⟨[], [100], rfl⟩]
/-- The output (only its structure is used). -/
def exY : PyTree (Arr ℚ) := .leaf ⟨[2], [0, 0], rfl⟩

example : IsJacTree exX exY exJac := ⟨rfl, by
  simp only [exJac, exY, leaves]
  exact List.Forall₂.cons ⟨rfl, rfl⟩ List.Forall₂.nil⟩
example : ((jacJnpToOnp (topologyFromExample exX) (topologyFromExample exY) (join exJac)).toOption.map (·.rows)) =
    some [[1, 2, 5], [3, 4, 6]] := by decide +kernel
example : blockAction exJac exY exX = [550, 710] := by decide +kernel

end Jaxopt.Scipy
