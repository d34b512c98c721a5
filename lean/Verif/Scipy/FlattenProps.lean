import Verif.Scipy.Flatten
import Verif.Tree.Props

/-!
# Property C45: flattening and unflattening pytrees are inverse
-/

set_option autoImplicit false
set_option linter.unusedSectionVars false
set_option linter.unusedVariables false

namespace Jaxopt.Scipy

open Jaxopt.Tree

variable {α β K : Type*}

theorem slice_append (pre p suf : List K) : slice pre.length (pre.length + p.length) (pre ++ p ++ suf) = p := by
  unfold slice
  rw [← List.length_append, List.take_left, List.drop_left]

/-- Splitting a concatenation at the running sums of the sizes gives back the pieces. -/
theorem slices_flatten : ∀ (ps : List (List K)) (pre : List K), ps ≠ [] →
    slices (pre ++ ps.flatten) pre.length (cumsum pre.length (ps.map List.length).dropLast ++ [(pre ++ ps.flatten).length]) = ps
  | [], _, h => absurd rfl h
  | [p], pre, _ => by
    simp only [List.map_cons, List.map_nil, List.dropLast_singleton, cumsum, List.nil_append, slices, List.flatten_cons, List.flatten_nil,
      List.append_nil]
    have := slice_append pre p []
    rw [List.append_nil, ← List.length_append] at this
    rw [this]
  | p :: q :: ps, pre, _ => by
    have ih := slices_flatten (q :: ps) (pre ++ p) (by simp)
    have hd : (List.map List.length (p :: q :: ps)).dropLast = p.length :: ((q :: ps).map List.length).dropLast := by
      simp only [List.map_cons, List.dropLast_cons_cons]
    rw [hd]
    simp only [cumsum, List.cons_append, slices]
    have hfl : pre ++ (p :: q :: ps).flatten = (pre ++ p) ++ (q :: ps).flatten := by
      rw [List.flatten_cons, List.append_assoc]
    rw [hfl, slice_append, ← List.length_append, ih]

theorem split_flatten (ps : List (List K)) (h : ps ≠ []) : split ps.flatten (cumsum 0 (ps.map List.length).dropLast) = ps := by
  have := slices_flatten ps [] h
  simpa [split] using this

theorem reshapeAll_data : ∀ as : List (Arr K), reshapeAll (as.map (·.data)) (as.map (·.shape)) = .ok as
  | [] => rfl
  | a :: as => by
    simp only [List.map_cons, reshapeAll, reshape, a.wf, dif_pos, Except.bind, reshapeAll_data as, Except.map]

theorem reshapeAll_ok : ∀ (ps : List (List K)) (ss : List (List ℕ)), ps.map List.length = ss.map List.prod →
    ∃ as, reshapeAll ps ss = .ok as ∧ as.map (·.data) = ps ∧ as.map (·.shape) = ss
  | [], [], _ => ⟨[], rfl, rfl, rfl⟩
  | [], _ :: _, h => by simp at h
  | _ :: _, [], h => by simp at h
  | p :: ps, s :: ss, h => by
    simp only [List.map_cons, List.cons.injEq] at h
    obtain ⟨as, h1, h2, h3⟩ := reshapeAll_ok ps ss h.2
    refine ⟨⟨s, p, h.1⟩ :: as, ?_, ?_, ?_⟩
    · simp only [reshapeAll, reshape, h.1, dif_pos, Except.bind, h1, Except.map]
    · simp only [List.map_cons, h2]
    · simp only [List.map_cons, h3]

/-- Cut a list into pieces of the given sizes. -/
theorem exists_pieces : ∀ (ns : List ℕ) (xs : List K), xs.length = ns.sum → ∃ ps : List (List K), ps.map List.length = ns ∧ ps.flatten = xs
  | [], xs, h => ⟨[], rfl, (List.length_eq_zero_iff.mp (by simpa using h)).symm⟩
  | n :: ns, xs, h => by
    rw [List.sum_cons] at h
    obtain ⟨ps, h1, h2⟩ := exists_pieces ns (xs.drop n) (by rw [List.length_drop]; omega)
    refine ⟨xs.take n :: ps, ?_, ?_⟩
    · rw [List.map_cons, h1, List.length_take, Nat.min_eq_left (by omega)]
    · rw [List.flatten_cons, h2, List.take_append_drop]

theorem jnpToOnp_eq {t : PyTree (Arr K)} (h : leaves t ≠ []) : jnpToOnp t = .ok (vec t) := by
  unfold jnpToOnp vec
  cases hl : leaves t with
  | nil => exact absurd hl h
  | cons a as => rfl

theorem vec_length (t : PyTree (Arr K)) : (vec t).length = (topologyFromExample t).sizes.sum := by
  unfold vec topologyFromExample Topology.sizes
  simp only [List.map_map]
  generalize leaves t = as
  induction as with
  | nil => rfl
  | cons a as ih => simp only [List.flatMap_cons, List.length_append, ih, List.map_cons, List.sum_cons, a.wf, Function.comp]

/-- **C45**: flattening a pytree with at least one leaf succeeds, gives a vector of the total size, and unflattening it with the topology of
the pytree gives the pytree back. -/
theorem C45_roundtrip_partial (t : PyTree (Arr K)) (h : leaves t ≠ []) : ∃ v, jnpToOnp t = .ok v ∧ v.length = (topologyFromExample t).sizes.sum ∧
    onpToJnp (topologyFromExample t) v = .ok t := by
  refine ⟨vec t, jnpToOnp_eq h, vec_length t, ?_⟩
  have h1 : vec t = ((leaves t).map (·.data)).flatten := by unfold vec; rw [List.flatMap_def]
  have h2 : (topologyFromExample t).sizes = ((leaves t).map (·.data)).map List.length := by
    unfold topologyFromExample Topology.sizes
    simp only [List.map_map]
    refine List.map_congr_left fun a _ => ?_
    simp only [Function.comp, a.wf]
  unfold onpToJnp
  rw [h1, h2, split_flatten _ (by simpa using h)]
  have h3 : (topologyFromExample t).shapes = (leaves t).map (·.shape) := rfl
  have h4 : (topologyFromExample t).treedef = t := rfl
  rw [h3, reshapeAll_data, h4]
  simp only [Except.bind]
  obtain ⟨r, r1, r2, r3⟩ := unflatten_spec t (leaves t) rfl
  have hr : r = t := eq_of_leaves _ _ (by rw [sameDef_symm]; exact r3) r2
  rw [r1, hr]

/-- **C45**: conversely every vector of the right length unflattens to a pytree of the same structure and shapes, which flattens back to
the vector. -/
theorem C45_converse_partial (t : PyTree (Arr K)) (h : leaves t ≠ []) (v : List K) (hv : v.length = (topologyFromExample t).sizes.sum) :
    ∃ s, onpToJnp (topologyFromExample t) v = .ok s ∧ SameTopo t s ∧ jnpToOnp s = .ok v := by
  obtain ⟨ps, p1, p2⟩ := exists_pieces _ v hv
  have hps : ps ≠ [] := by
    intro h0
    rw [h0] at p1
    have : (topologyFromExample t).sizes.length = 0 := by rw [← p1]; rfl
    simp only [topologyFromExample, Topology.sizes, List.length_map] at this
    exact h (List.length_eq_zero_iff.mp this)
  obtain ⟨as, a1, a2, a3⟩ := reshapeAll_ok ps (topologyFromExample t).shapes p1
  have hlen : as.length = (leaves t).length := by
    have := congrArg List.length a3
    simpa [topologyFromExample] using this
  obtain ⟨r, r1, r2, r3⟩ := unflatten_spec t as hlen
  refine ⟨r, ?_, ⟨r3, by rw [r2, a3]; rfl⟩, ?_⟩
  · unfold onpToJnp
    rw [← p1, ← p2, split_flatten _ hps, a1]
    have h4 : (topologyFromExample t).treedef = t := rfl
    simp only [Except.bind, h4, r1]
  · rw [jnpToOnp_eq]
    · unfold vec
      rw [r2, List.flatMap_def, a2, p2]
    · rw [r2]
      intro h0
      rw [h0] at hlen
      exact h (List.length_eq_zero_iff.mp hlen.symm)

theorem slice_length (a b : ℕ) (xs : List K) : (slice a b xs).length = min b xs.length - a := by
  unfold slice
  rw [List.length_drop, List.length_take]

theorem reshapeAll_lengths : ∀ (ps : List (List K)) (ss : List (List ℕ)) (as : List (Arr K)), ps.length = ss.length →
    reshapeAll ps ss = .ok as → ps.map List.length = ss.map List.prod
  | [], [], _, _, _ => rfl
  | [], _ :: _, _, h, _ => by simp at h
  | _ :: _, [], _, h, _ => by simp at h
  | p :: ps, s :: ss, as, h, hr => by
    unfold reshapeAll reshape at hr
    by_cases hp : p.length = s.prod
    · rw [dif_pos hp] at hr
      simp only [Except.bind] at hr
      cases hq : reshapeAll ps ss with
      | error e => rw [hq] at hr; simp [Except.map] at hr
      | ok bs =>
        rw [List.map_cons, List.map_cons, hp, reshapeAll_lengths ps ss bs (by simpa using h) hq]
    · rw [dif_neg hp] at hr
      simp [Except.bind] at hr

theorem slices_count (xs : List K) : ∀ (a : ℕ) (bs : List ℕ), (slices xs a bs).length = bs.length
  | _, [] => rfl
  | a, b :: bs => by simp only [slices, List.length_cons, slices_count xs b bs]

theorem cumsum_length : ∀ (s : ℕ) (ns : List ℕ), (cumsum s ns).length = ns.length
  | _, [] => rfl
  | s, n :: ns => by simp only [cumsum, List.length_cons, cumsum_length (s + n) ns]

/-- The pieces of `onp.split` at running sums have the prescribed sizes only if the total size is right. -/
theorem slices_sizes (xs : List K) : ∀ (ns : List ℕ) (a : ℕ), ns ≠ [] →
    (slices xs a (cumsum a ns.dropLast ++ [xs.length])).map List.length = ns → a ≤ xs.length → xs.length = a + ns.sum
  | [], _, h, _, _ => absurd rfl h
  | [n], a, _, h, ha => by
    simp only [List.dropLast_singleton, cumsum, List.nil_append, slices, List.map_cons, List.map_nil, slice_length, List.cons.injEq] at h
    simp only [List.sum_cons, List.sum_nil]
    have := h.1
    omega
  | n :: m :: ns, a, _, h, ha => by
    simp only [List.dropLast_cons_cons, cumsum, List.cons_append, slices, List.map_cons, slice_length, List.cons.injEq] at h
    have h1 : n = 0 ∨ a + n ≤ xs.length := by have := h.1; omega
    have h2 : a + n ≤ xs.length := by rcases h1 with h1 | h1 <;> omega
    have ih := slices_sizes xs (m :: ns) (a + n) (by simp) h.2 h2
    rw [ih, List.sum_cons (a := n)]
    omega

/-- **C45**: a vector of any other length is rejected. -/
theorem C45_wrong_length (t : PyTree (Arr K)) (h : leaves t ≠ []) (v : List K) (hv : v.length ≠ (topologyFromExample t).sizes.sum) :
    ∃ e, onpToJnp (topologyFromExample t) v = .error e := by
  cases hr : reshapeAll (split v (cumsum 0 (topologyFromExample t).sizes.dropLast)) (topologyFromExample t).shapes with
  | error e => exact ⟨e, by unfold onpToJnp; rw [hr]; rfl⟩
  | ok as =>
    exfalso
    have hne : (topologyFromExample t).sizes ≠ [] := by
      simpa [topologyFromExample, Topology.sizes] using h
    have hpos : 0 < (leaves t).length := List.length_pos_iff.mpr h
    have h1 := reshapeAll_lengths _ _ as (by
      unfold split
      rw [slices_count, List.length_append, cumsum_length, List.length_dropLast]
      simp only [topologyFromExample, Topology.sizes, List.length_map, List.length_cons, List.length_nil]
      omega) hr
    have h2 := slices_sizes v (topologyFromExample t).sizes 0 hne h1 (Nat.zero_le _)
    rw [Nat.zero_add] at h2
    exact hv h2

/-- A pytree without leaves cannot be flattened (`onp.concatenate` of nothing raises), so the round trip fails for it. -/
theorem C45_empty_false : ∃ t : PyTree (Arr K), (∃ e, jnpToOnp t = .error e) :=
  ⟨.node "dict()" [], _, rfl⟩

/-! ## Non-vacuity -/

example : jnpToOnp (exTree 1 2 3 4 5) = .ok [1, 2, 3, 4, 5] := by rfl
example : (onpToJnp (topologyFromExample (exTree 0 0 0 0 0)) [6, 7, 8, 9, 10]).toOption = some (exTree 6 7 8 9 10) := by rfl
example : (topologyFromExample (exTree 0 0 0 0 0)).sizes = [4, 1, 0] := by rfl

end Jaxopt.Scipy
