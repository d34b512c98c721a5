import Verif.Tree.Lemmas
import Mathlib.Algebra.Order.Ring.Rat
import Mathlib.Algebra.Order.Field.Basic
import Mathlib.Tactic.Ring
import Mathlib.Tactic.Linarith
import Mathlib.Tactic.Positivity
import Mathlib.Tactic.LinearCombination
import Mathlib.Tactic.FieldSimp

/-!
# Property C47: pytree arithmetic is vector arithmetic; `broadcast_pytrees`
-/

set_option autoImplicit false
set_option linter.unusedSectionVars false
set_option linter.unusedVariables false

namespace Jaxopt.Tree

variable {α β γ K : Type*}

/-! ## Specification -/

/-- The flattened vector: the row-major contents of all leaves, one after the other. -/
def vec (t : PyTree (Arr K)) : List K := (leaves t).flatMap (·.data)

/-- Same structure and same leaf shapes. -/
def SameTopo (t u : PyTree (Arr K)) : Prop := sameDef t u = true ∧ (leaves t).map (·.shape) = (leaves u).map (·.shape)

/-- The inner product of two vectors. -/
def dotL [Ring K] (xs ys : List K) : K := (List.zipWith (· * ·) xs ys).sum

theorem SameTopo.symm {t u : PyTree (Arr K)} (h : SameTopo t u) : SameTopo u t := ⟨by rw [sameDef_symm]; exact h.1, h.2.symm⟩

theorem SameTopo.trans {t u w : PyTree (Arr K)} (h : SameTopo t u) (h' : SameTopo u w) : SameTopo t w :=
  ⟨sameDef_trans t u w h.1 h'.1, h.2.trans h'.2⟩

theorem SameTopo.refl (t : PyTree (Arr K)) : SameTopo t t := ⟨sameDef_refl t, rfl⟩

theorem flatMap_length : ∀ {as bs : List (Arr K)}, as.map (·.shape) = bs.map (·.shape) →
    (as.flatMap (·.data)).length = (bs.flatMap (·.data)).length
  | [], [], _ => rfl
  | [], _ :: _, h => by simp at h
  | _ :: _, [], h => by simp at h
  | a :: as, b :: bs, h => by
    simp only [List.map_cons, List.cons.injEq] at h
    simp only [List.flatMap_cons, List.length_append, a.wf, b.wf, h.1, flatMap_length h.2]

theorem SameTopo.length {t u : PyTree (Arr K)} (h : SameTopo t u) : (vec t).length = (vec u).length := flatMap_length h.2

/-! ## Lists of arrays -/

theorem zipM_zipWith (f : K → K → K) : ∀ {as bs : List (Arr K)}, as.map (·.shape) = bs.map (·.shape) →
    ∃ cs, zipM (Arr.zipWith f) as bs = some cs ∧ cs.map (·.shape) = as.map (·.shape) ∧
      cs.flatMap (·.data) = List.zipWith f (as.flatMap (·.data)) (bs.flatMap (·.data))
  | [], [], _ => ⟨[], rfl, rfl, rfl⟩
  | [], _ :: _, h => by simp at h
  | _ :: _, [], h => by simp at h
  | a :: as, b :: bs, h => by
    simp only [List.map_cons, List.cons.injEq] at h
    obtain ⟨cs, h1, h2, h3⟩ := zipM_zipWith f h.2
    refine ⟨⟨a.shape, List.zipWith f a.data b.data, by rw [List.length_zipWith, a.wf, b.wf, h.1, Nat.min_self]⟩ :: cs, ?_, ?_, ?_⟩
    · simp only [zipM, Arr.zipWith, h.1, dif_pos, Option.bind_some, h1, Option.map_some]
    · simp only [List.map_cons, h2]
    · simp only [List.flatMap_cons, h3]
      rw [List.zipWith_append (by rw [a.wf, b.wf, h.1])]

theorem zipM_axpy [Ring K] (c : K) : ∀ {as bs : List (Arr K)}, as.map (·.shape) = bs.map (·.shape) →
    ∃ cs, zipM (fun x y => Arr.zipWith (· + ·) x (Arr.map (c * ·) y)) as bs = some cs ∧ cs.map (·.shape) = as.map (·.shape) ∧
      cs.flatMap (·.data) = List.zipWith (fun x y => x + c * y) (as.flatMap (·.data)) (bs.flatMap (·.data))
  | [], [], _ => ⟨[], rfl, rfl, rfl⟩
  | [], _ :: _, h => by simp at h
  | _ :: _, [], h => by simp at h
  | a :: as, b :: bs, h => by
    simp only [List.map_cons, List.cons.injEq] at h
    obtain ⟨cs, h1, h2, h3⟩ := zipM_axpy c h.2
    have hlen : (b.data.map (c * ·)).length = b.shape.prod := by rw [List.length_map, b.wf]
    refine ⟨⟨a.shape, List.zipWith (· + ·) a.data (b.data.map (c * ·)), by rw [List.length_zipWith, a.wf, hlen, h.1, Nat.min_self]⟩ :: cs,
      ?_, ?_, ?_⟩
    · simp only [zipM, h1]
      simp only [Arr.zipWith, Arr.map, h.1, dif_pos, Option.bind_some, Option.map_some]
    · simp only [List.map_cons, h2]
    · simp only [List.flatMap_cons, h3]
      rw [List.zipWith_append (by rw [a.wf, b.wf, h.1])]
      congr 1
      rw [List.zipWith_map_right]

theorem zipM_vdot [Ring K] : ∀ {as bs : List (Arr K)}, as.map (·.shape) = bs.map (·.shape) →
    ∃ cs, zipM Arr.vdot as bs = some cs ∧ cs.sum = dotL (as.flatMap (·.data)) (bs.flatMap (·.data))
  | [], [], _ => ⟨[], rfl, by simp [dotL]⟩
  | [], _ :: _, h => by simp at h
  | _ :: _, [], h => by simp at h
  | a :: as, b :: bs, h => by
    simp only [List.map_cons, List.cons.injEq] at h
    obtain ⟨cs, h1, h2⟩ := zipM_vdot h.2
    have hl : a.data.length = b.data.length := by rw [a.wf, b.wf, h.1]
    refine ⟨(List.zipWith (· * ·) a.data b.data).sum :: cs, ?_, ?_⟩
    · simp only [zipM, Arr.vdot, hl, if_true, Option.bind_some, h1, Option.map_some]
    · unfold dotL at h2 ⊢
      rw [List.flatMap_cons, List.flatMap_cons, List.zipWith_append hl, List.sum_append, List.sum_cons, h2]

theorem foldl_add [AddCommMonoid K] (l : List K) (a : K) : l.foldl (· + ·) a = a + l.sum := by
  induction l generalizing a with
  | nil => simp
  | cons x l ih => rw [List.foldl_cons, ih, List.sum_cons, add_assoc]

theorem treeReduce_add [AddCommMonoid K] {t : PyTree K} (h : leaves t ≠ []) : treeReduce (· + ·) t = some (leaves t).sum := by
  unfold treeReduce
  cases hl : leaves t with
  | nil => exact absurd hl h
  | cons a as => simp only [foldl_add, List.sum_cons]

theorem map_flatMap (f : K → K) : ∀ as : List (Arr K), (as.map (Arr.map f)).flatMap (·.data) = (as.flatMap (·.data)).map f
  | [] => rfl
  | a :: as => by
    simp only [List.map_cons, List.flatMap_cons, List.map_append, map_flatMap f as]
    rfl

theorem sum_flatMap [AddCommMonoid K] : ∀ as : List (Arr K), (as.map Arr.sum).sum = (as.flatMap (·.data)).sum
  | [] => rfl
  | a :: as => by
    simp only [List.map_cons, List.sum_cons, List.flatMap_cons, List.sum_append, sum_flatMap as]
    rfl

/-! ## C47: elementwise operations -/

section
variable [Ring K]

/-- A pytree operation that agrees with an operation on vectors and keeps structure and shapes. -/
def Agrees (r : Option (PyTree (Arr K))) (t : PyTree (Arr K)) (v : List K) : Prop := ∃ s, r = some s ∧ SameTopo t s ∧ vec s = v

theorem agrees_zipWith (f : K → K → K) {t u : PyTree (Arr K)} (h : SameTopo t u) :
    Agrees (treeMap2 (Arr.zipWith f) t u) t (List.zipWith f (vec t) (vec u)) := by
  obtain ⟨cs, h1, h2, h3⟩ := zipM_zipWith f h.2
  obtain ⟨r, g1, g2, g3⟩ := treeMap2_spec h.1 h1
  refine ⟨r, g1, ⟨g3, ?_⟩, ?_⟩
  · rw [g2, h2]
  · unfold vec; rw [g2, h3]

theorem agrees_map (f : K → K) (t : PyTree (Arr K)) : Agrees (treeMap (Arr.map f) t) t ((vec t).map f) := by
  obtain ⟨r, g1, g2, g3⟩ := treeMap_spec (Arr.map f) t
  refine ⟨r, g1, ⟨g3, ?_⟩, ?_⟩
  · rw [g2, List.map_map]; rfl
  · unfold vec; rw [g2, map_flatMap]

/-- **C47**: `tree_add`. -/
theorem C47_add {t u : PyTree (Arr K)} (h : SameTopo t u) : Agrees (treeAdd t u) t (List.zipWith (· + ·) (vec t) (vec u)) := agrees_zipWith _ h

/-- **C47**: `tree_sub`. -/
theorem C47_sub {t u : PyTree (Arr K)} (h : SameTopo t u) : Agrees (treeSub t u) t (List.zipWith (· - ·) (vec t) (vec u)) := agrees_zipWith _ h

/-- **C47**: `tree_mul`. -/
theorem C47_mul {t u : PyTree (Arr K)} (h : SameTopo t u) : Agrees (treeMul t u) t (List.zipWith (· * ·) (vec t) (vec u)) := agrees_zipWith _ h

/-- **C47**: `tree_scalar_mul`. -/
theorem C47_scalar_mul (c : K) (t : PyTree (Arr K)) : Agrees (treeScalarMul c t) t ((vec t).map (c * ·)) := agrees_map _ t

/-- **C47**: `tree_negative`. -/
theorem C47_negative (t : PyTree (Arr K)) : Agrees (treeNegative t) t ((vec t).map (- ·)) := by
  obtain ⟨s, h1, h2, h3⟩ := C47_scalar_mul (-1) t
  refine ⟨s, h1, h2, ?_⟩
  rw [h3]
  refine List.map_congr_left fun x _ => ?_
  rw [neg_one_mul]

/-- **C47**: `tree_zeros_like`. -/
theorem C47_zeros_like (t : PyTree (Arr K)) : Agrees (treeZerosLike t) t (List.replicate (vec t).length 0) := by
  obtain ⟨s, h1, h2, h3⟩ := agrees_map (fun _ => (0 : K)) t
  refine ⟨s, h1, h2, ?_⟩
  rw [h3, List.map_const']

/-- **C47**: `tree_add_scalar_mul`. -/
theorem C47_add_scalar_mul {t u : PyTree (Arr K)} (c : K) (h : SameTopo t u) :
    Agrees (treeAddScalarMul t c u) t (List.zipWith (fun x y => x + c * y) (vec t) (vec u)) := by
  obtain ⟨cs, h1, h2, h3⟩ := zipM_axpy c h.2
  obtain ⟨r, g1, g2, g3⟩ := treeMap2_spec h.1 h1
  refine ⟨r, g1, ⟨g3, ?_⟩, ?_⟩
  · rw [g2, h2]
  · unfold vec; rw [g2, h3]

/-- **C47**: operations on trees of different structure raise. -/
theorem C47_mismatch {t u : PyTree (Arr K)} (h : sameDef t u = false) (c : K) :
    treeAdd t u = none ∧ treeSub t u = none ∧ treeMul t u = none ∧ treeAddScalarMul t c u = none ∧ treeVdot t u = none := by
  refine ⟨treeMap2_none h, treeMap2_none h, treeMap2_none h, treeMap2_none h, ?_⟩
  unfold treeVdot
  rw [treeMap2_none h]; rfl

/-! ## C47: reductions -/

/-- **C47**: `tree_vdot` is the inner product of the flattened vectors (at least one leaf). -/
theorem C47_vdot {t u : PyTree (Arr K)} (h : SameTopo t u) (hne : leaves t ≠ []) : treeVdot t u = some (dotL (vec t) (vec u)) := by
  obtain ⟨cs, h1, h2⟩ := zipM_vdot h.2
  obtain ⟨r, g1, g2, g3⟩ := treeMap2_spec h.1 h1
  unfold treeVdot
  rw [g1]
  simp only [Option.bind_some]
  rw [treeReduce_add, g2, h2]; · rfl
  · intro hr
    have := sameDef_length t r g3
    rw [hr] at this
    exact hne (List.length_eq_zero_iff.mp this)

/-- **C47**: `tree_vdot_real`, for every tree. -/
theorem C47_vdot_real {t u : PyTree (Arr K)} (h : SameTopo t u) : treeVdotReal t u = some (dotL (vec t) (vec u)) := by
  obtain ⟨cs, h1, h2⟩ := zipM_vdot h.2
  obtain ⟨r, g1, g2, g3⟩ := treeMap2_spec h.1 h1
  unfold treeVdotReal
  rw [g1]
  simp only [Option.map_some]
  rw [foldl_add, g2, h2, zero_add]; rfl

/-- **C47**: `tree_sum`. -/
theorem C47_sum {t : PyTree (Arr K)} (hne : leaves t ≠ []) : treeSum t = some (vec t).sum := by
  obtain ⟨r, g1, g2, g3⟩ := treeMap_spec (Arr.sum (K := K)) t
  unfold treeSum
  rw [g1]
  simp only [Option.bind_some]
  rw [treeReduce_add, g2, sum_flatMap]; · rfl
  · rw [g2]; simpa using hne

theorem dotL_self (v : List K) : dotL v v = (v.map fun x => x * x).sum := by
  unfold dotL
  rw [List.zipWith_self]

/-- **C47**: the squared `tree_l2_norm` is the sum of squares of the vector, i.e. its inner product with itself. -/
theorem C47_l2_norm {t : PyTree (Arr K)} (hne : leaves t ≠ []) : treeL2NormSq t = some (dotL (vec t) (vec t)) ∧
    ∀ sqrt : K → K, treeL2Norm sqrt t = some (sqrt (dotL (vec t) (vec t))) := by
  have h : treeL2NormSq t = some (dotL (vec t) (vec t)) := by
    obtain ⟨s, h1, h2, h3⟩ := agrees_map (fun x : K => x * x) t
    unfold treeL2NormSq
    rw [h1]
    simp only [Option.bind_some]
    rw [C47_sum, h3, dotL_self]
    intro hs
    have := sameDef_length t s h2.1
    rw [hs] at this
    exact hne (List.length_eq_zero_iff.mp this)
  exact ⟨h, fun sqrt => by unfold treeL2Norm; rw [h]; rfl⟩

/-- Reductions raise on a tree without leaves (`tree_reduce` has no initial value): for such trees the statement is false of the code. -/
theorem C47_empty_false : ∃ t : PyTree (Arr K), SameTopo t t ∧ dotL (vec t) (vec t) = 0 ∧ treeVdot t t = none ∧ treeL2NormSq t = none := by
  refine ⟨.node "None" [], SameTopo.refl _, ?_, rfl, rfl⟩
  simp [vec, leaves, leavesL, dotL]

end

/-! ## C47: the tree inner product is an inner product -/

section
variable [Field K] [LinearOrder K] [IsStrictOrderedRing K]

theorem dotL_comm (xs ys : List K) : dotL xs ys = dotL ys xs := by
  unfold dotL
  rw [List.zipWith_comm]
  congr 1
  congr 1
  funext x y
  exact mul_comm _ _

theorem dotL_axpy (c : K) : ∀ xs ys zs : List K, xs.length = ys.length →
    dotL (List.zipWith (fun x y => x + c * y) xs ys) zs = dotL xs zs + c * dotL ys zs
  | [], [], zs, _ => by simp [dotL]
  | [], _ :: _, _, h => by simp at h
  | _ :: _, [], _, h => by simp at h
  | x :: xs, y :: ys, [], _ => by simp [dotL]
  | x :: xs, y :: ys, z :: zs, h => by
    have := dotL_axpy c xs ys zs (by simpa using h)
    simp only [dotL, List.zipWith_cons_cons, List.sum_cons] at this ⊢
    rw [this]; ring

theorem dotL_self_nonneg : ∀ xs : List K, 0 ≤ dotL xs xs
  | [] => by simp [dotL]
  | x :: xs => by
    have := dotL_self_nonneg xs
    simp only [dotL, List.zipWith_cons_cons, List.sum_cons] at this ⊢
    have := mul_self_nonneg x
    linarith

theorem dotL_cauchy (xs ys : List K) (h : xs.length = ys.length) : dotL xs ys * dotL xs ys ≤ dotL xs xs * dotL ys ys := by
  have key : ∀ c : K, 0 ≤ dotL xs xs + 2 * c * dotL xs ys + c * c * dotL ys ys := by
    intro c
    have h1 := dotL_self_nonneg (List.zipWith (fun x y => x + c * y) xs ys)
    have hl : (List.zipWith (fun x y => x + c * y) xs ys).length = ys.length := by rw [List.length_zipWith, h, Nat.min_self]
    rw [dotL_axpy c xs ys _ h, dotL_comm xs, dotL_comm ys, dotL_axpy c xs ys _ h, dotL_axpy c xs ys _ h, dotL_comm ys xs] at h1
    linarith
  by_cases h0 : dotL ys ys = 0
  · rw [h0, mul_zero]
    by_contra hcon
    have hne : dotL xs ys ≠ 0 := by
      intro h2; rw [h2] at hcon; simp at hcon
    have h3 := key (-(dotL xs xs + 1) / (2 * dotL xs ys))
    rw [h0] at h3
    have h4 : 2 * (-(dotL xs xs + 1) / (2 * dotL xs ys)) * dotL xs ys = -(dotL xs xs + 1) := by field_simp
    rw [h4] at h3
    linarith
  · have hpos : 0 < dotL ys ys := lt_of_le_of_ne (dotL_self_nonneg ys) (Ne.symm h0)
    have h3 := key (-(dotL xs ys) / dotL ys ys)
    have h4 : dotL xs xs + 2 * (-(dotL xs ys) / dotL ys ys) * dotL xs ys + -(dotL xs ys) / dotL ys ys * (-(dotL xs ys) / dotL ys ys) * dotL ys ys
        = (dotL xs xs * dotL ys ys - dotL xs ys * dotL xs ys) / dotL ys ys := by field_simp; ring
    rw [h4] at h3
    have := mul_nonneg h3 hpos.le
    rw [div_mul_cancel₀ _ h0] at this
    linarith

/-- **C47**: the tree inner product is symmetric, linear in the first argument (hence bilinear), positive and satisfies
Cauchy-Schwarz, for every structure with at least one leaf. -/
theorem C47_inner_product {t u w : PyTree (Arr K)} (h : SameTopo t u) (h' : SameTopo t w) (hne : leaves t ≠ []) (c : K) :
    treeVdot t u = treeVdot u t ∧
    (∃ r a b, treeAddScalarMul t c u = some r ∧ treeVdot t w = some a ∧ treeVdot u w = some b ∧ treeVdot r w = some (a + c * b)) ∧
    (∃ a b d, treeVdot t t = some a ∧ treeVdot u u = some b ∧ treeVdot t u = some d ∧ 0 ≤ a ∧ 0 ≤ b ∧ d * d ≤ a * b) := by
  have hu : leaves u ≠ [] := by
    intro hr
    have := sameDef_length t u h.1
    rw [hr] at this
    exact hne (List.length_eq_zero_iff.mp this)
  refine ⟨?_, ?_, ?_⟩
  · rw [C47_vdot h hne, C47_vdot h.symm hu, dotL_comm]
  · obtain ⟨r, r1, r2, r3⟩ := C47_add_scalar_mul c h
    have hr : leaves r ≠ [] := by
      intro hr
      have := sameDef_length t r r2.1
      rw [hr] at this
      exact hne (List.length_eq_zero_iff.mp this)
    refine ⟨r, _, _, r1, C47_vdot h' hne, C47_vdot (h.symm.trans h') hu, ?_⟩
    rw [C47_vdot (r2.symm.trans h') hr, r3, dotL_axpy c _ _ _ h.length]
  · exact ⟨_, _, _, C47_vdot (SameTopo.refl t) hne, C47_vdot (SameTopo.refl u) hu, C47_vdot h hne, dotL_self_nonneg _, dotL_self_nonneg _,
      dotL_cauchy _ _ h.length⟩

/-- **C47**: `tree_inf_norm` is the largest absolute entry of the flattened vector. -/
theorem C47_inf_norm {t : PyTree (Arr K)} (hne : vec t ≠ []) :
    ∃ m, treeInfNorm t = some m ∧ (∀ x ∈ vec t, |x| ≤ m) ∧ ∃ x ∈ vec t, |x| = m := by
  unfold treeInfNorm
  unfold vec at hne ⊢
  cases hv : (leaves t).flatMap (·.data) with
  | nil => exact absurd hv hne
  | cons x xs =>
    refine ⟨_, rfl, ?_⟩
    have key : ∀ (l : List K) (a : K), (a ≤ (l.map (|·|)).foldl max a ∧ ∀ y ∈ l, |y| ≤ (l.map (|·|)).foldl max a) ∧
        ((l.map (|·|)).foldl max a = a ∨ ∃ y ∈ l, |y| = (l.map (|·|)).foldl max a) := by
      intro l
      induction l with
      | nil => intro a; simp
      | cons y l ih =>
        intro a
        obtain ⟨⟨i1, i2⟩, i3⟩ := ih (max a |y|)
        simp only [List.map_cons, List.foldl_cons]
        refine ⟨⟨le_trans (le_max_left _ _) i1, fun z hz => ?_⟩, ?_⟩
        · rcases List.mem_cons.mp hz with rfl | hz
          · exact le_trans (le_max_right _ _) i1
          · exact i2 z hz
        · rcases i3 with i3 | ⟨z, hz, i3⟩
          · rcases max_choice a |y| with hm | hm
            · left; rw [i3, hm]
            · right; exact ⟨y, by simp, by rw [i3, hm]⟩
          · right; exact ⟨z, by simp [hz], i3⟩
    obtain ⟨⟨k1, k2⟩, k3⟩ := key xs |x|
    refine ⟨fun y hy => ?_, ?_⟩
    · rcases List.mem_cons.mp hy with rfl | hy
      · exact k1
      · exact k2 y hy
    · rcases k3 with k3 | ⟨y, hy, k3⟩
      · exact ⟨x, by simp, k3.symm⟩
      · exact ⟨y, by simp [hy], k3⟩

end

/-! ## C47: `broadcast_pytrees` -/

theorem commonDef_some {ts : List (PyTree α)} {td : PyTree α} (h : ∀ t ∈ ts, isLeaf t = false → sameDef t td = true) :
    commonDef ts (some td) = .ok (some td) := by
  induction ts with
  | nil => rfl
  | cons t ts ih =>
    unfold commonDef
    by_cases hl : isLeaf t = true
    · rw [if_pos hl]; exact ih fun u hu => h u (by simp [hu])
    · rw [if_neg hl]
      simp only [Option.getD_some]
      rw [if_pos (h t (by simp) (by simpa using hl))]
      exact ih fun u hu => h u (by simp [hu])

theorem commonDef_none {ts : List (PyTree α)} {td : PyTree α} (hmem : td ∈ ts) (hnl : isLeaf td = false)
    (h : ∀ t ∈ ts, isLeaf t = false → sameDef t td = true) : ∃ td', commonDef ts none = .ok (some td') ∧ sameDef td' td = true := by
  induction ts with
  | nil => simp at hmem
  | cons t ts ih =>
    unfold commonDef
    by_cases hl : isLeaf t = true
    · rw [if_pos hl]
      refine ih ?_ fun u hu => h u (by simp [hu])
      rcases List.mem_cons.mp hmem with rfl | hm
      · rw [hnl] at hl; simp at hl
      · exact hm
    · rw [if_neg hl]
      have ht := h t (by simp) (by simpa using hl)
      simp only [Option.getD_none]
      rw [if_pos (sameDef_refl t)]
      refine ⟨t, commonDef_some fun u hu hul => ?_, ht⟩
      exact sameDef_trans u td t (h u (by simp [hu]) hul) (by rw [sameDef_symm]; exact ht)

theorem collect_ok {l : List (Option α)} {r : List α} (h : l = r.map some) : collect l = .ok r := by
  subst h
  induction r with
  | nil => rfl
  | cons a r ih => simp only [List.map_cons, collect, ih]; rfl

theorem foldl_max_eq {n : ℕ} : ∀ (l : List ℕ) (a : ℕ), a ≤ n → (∀ x ∈ l, x ≤ n) → (a = n ∨ n ∈ l) → l.foldl max a = n
  | [], a, h1, _, h3 => by
    rcases h3 with h3 | h3
    · simpa using h3
    · simp at h3
  | x :: l, a, h1, h2, h3 => by
    rw [List.foldl_cons]
    refine foldl_max_eq l (max a x) (max_le h1 (h2 x (by simp))) (fun y hy => h2 y (by simp [hy])) ?_
    rcases h3 with h3 | h3
    · left; subst h3; exact max_eq_left (h2 x (by simp))
    · rcases List.mem_cons.mp h3 with rfl | h3
      · left; exact max_eq_right h1
      · right; exact h3

/-- **C47**: if all trees that are not single leaves share a structure (with at least one leaf), `broadcast_pytrees` returns them
unchanged and replaces each single leaf by a tree of that structure all of whose leaves are that leaf. -/
theorem C47_broadcast_partial {ts : List (PyTree α)} {td : PyTree α} (hmem : td ∈ ts) (hnl : isLeaf td = false)
    (h : ∀ t ∈ ts, isLeaf t = false → sameDef t td = true) (hne : leaves td ≠ []) :
    ∃ rs, broadcastPytrees ts = .ok rs ∧ rs.length = ts.length ∧
      ∀ i (hi : i < ts.length) (hr : i < rs.length), sameDef rs[i] td = true ∧
        (isLeaf ts[i] = false → rs[i] = ts[i]) ∧
        (∀ a, ts[i] = .leaf a → leaves rs[i] = List.replicate (leaves td).length a) := by
  obtain ⟨td', hc, hs⟩ := commonDef_none hmem hnl h
  have hlen' : (leaves td').length = (leaves td).length := sameDef_length _ _ hs
  have hpos : 1 ≤ (leaves td).length := List.length_pos_iff.mpr hne
  have hmax : (ts.map fun t => (leaves t).length).foldl max 0 = (leaves td).length := by
    refine foldl_max_eq _ _ (Nat.zero_le _) ?_ ?_
    · intro x hx
      obtain ⟨t, ht, rfl⟩ := List.mem_map.mp hx
      cases hl : isLeaf t with
      | false => rw [sameDef_length _ _ (h t ht hl)]
      | true =>
        cases t with
        | leaf a => simpa [leaves] using hpos
        | node s us => simp [isLeaf] at hl
    · right
      exact List.mem_map.mpr ⟨td, hmem, rfl⟩
  -- what each tree becomes
  have hone : ∀ t ∈ ts, ∃ r, (match (generalizing := false) t with
        | .leaf a => unflatten td' (List.replicate (leaves td).length a)
        | t => unflatten td' (leaves t)) = some r ∧ sameDef r td = true ∧ (isLeaf t = false → r = t) ∧
        (∀ a, t = .leaf a → leaves r = List.replicate (leaves td).length a) := by
    intro t ht
    cases t with
    | leaf a =>
      obtain ⟨r, r1, r2, r3⟩ := unflatten_spec td' (List.replicate (leaves td).length a) (by rw [List.length_replicate, hlen'])
      refine ⟨r, r1, ?_, by simp [isLeaf], ?_⟩
      · exact sameDef_trans r td' td (by rw [sameDef_symm]; exact r3) hs
      · intro b hb; cases hb; exact r2
    | node s us =>
      have hst := h _ ht rfl
      have hst' : sameDef td' (.node s us : PyTree α) = true := sameDef_trans _ _ _ hs (by rw [sameDef_symm]; exact hst)
      obtain ⟨r, r1, r2, r3⟩ := unflatten_spec td' (leaves (.node s us)) (sameDef_length _ _ hst').symm
      have hr : r = .node s us := eq_of_leaves _ _ (sameDef_trans r td' _ (by rw [sameDef_symm]; exact r3) hst') r2
      refine ⟨r, r1, by rw [hr]; exact hst, fun _ => hr, fun a ha => by cases ha⟩
  have hall : ∃ rs : List (PyTree α), (ts.map fun t => match t with
        | .leaf a => unflatten td' (List.replicate (leaves td).length a)
        | t => unflatten td' (leaves t)) = rs.map some ∧
      ∀ i (hi : i < ts.length) (hr : i < rs.length), sameDef rs[i] td = true ∧ (isLeaf ts[i] = false → rs[i] = ts[i]) ∧
        (∀ a, ts[i] = .leaf a → leaves rs[i] = List.replicate (leaves td).length a) := by
    clear hmem h hc hmax
    induction ts with
    | nil => exact ⟨[], rfl, by intro i hi; simp at hi⟩
    | cons t ts ih =>
      obtain ⟨r, q1, q2, q3, q4⟩ := hone t (by simp)
      obtain ⟨rs, e1, e2⟩ := ih fun u hu => hone u (by simp [hu])
      refine ⟨r :: rs, by rw [List.map_cons, e1, List.map_cons, q1], ?_⟩
      intro i hi hr
      cases i with
      | zero => exact ⟨q2, q3, q4⟩
      | succ i => exact e2 i (by simpa using hi) (by simpa using hr)
  obtain ⟨rs, e1, e2⟩ := hall
  refine ⟨rs, ?_, ?_, e2⟩
  · unfold broadcastPytrees
    rw [hc]
    simp only [Except.bind, hmax]
    exact collect_ok e1
  · have := congrArg List.length e1
    simpa using this.symm

/-- **C47**: single leaves only are returned unchanged. -/
theorem C47_broadcast_leaves {ts : List (PyTree α)} (h : ∀ t ∈ ts, isLeaf t = true) : broadcastPytrees ts = .ok ts := by
  have : commonDef ts none = .ok none := by
    induction ts with
    | nil => rfl
    | cons t ts ih =>
      unfold commonDef
      rw [if_pos (h t (by simp))]
      exact ih fun u hu => h u (by simp [hu])
  unfold broadcastPytrees
  rw [this]; rfl

/-- **C47**: if two trees that are not single leaves differ in structure, `broadcast_pytrees` raises. -/
theorem C47_broadcast_raises {ts : List (PyTree α)} {t u : PyTree α} (ht : t ∈ ts) (hu : u ∈ ts) (htl : isLeaf t = false) (hul : isLeaf u = false)
    (hd : sameDef t u = false) : ∃ e, broadcastPytrees ts = .error e := by
  have key : ∀ (ts : List (PyTree α)) (td : Option (PyTree α)) (r : Option (PyTree α)), commonDef ts td = .ok r →
      (∀ x, td = some x → r = some x) ∧ ∀ t ∈ ts, isLeaf t = false → ∃ y, r = some y ∧ sameDef t y = true := by
    intro ts
    induction ts with
    | nil => intro td r hr; cases hr; exact ⟨fun x hx => hx, by simp⟩
    | cons a ts ih =>
      intro td r hr
      unfold commonDef at hr
      by_cases hl : isLeaf a = true
      · rw [if_pos hl] at hr
        obtain ⟨i1, i2⟩ := ih td r hr
        refine ⟨i1, fun t ht htl => ?_⟩
        rcases List.mem_cons.mp ht with rfl | ht
        · rw [hl] at htl; simp at htl
        · exact i2 t ht htl
      · rw [if_neg hl] at hr
        simp only at hr
        split_ifs at hr with hs
        obtain ⟨i1, i2⟩ := ih _ r hr
        have hr' := i1 _ rfl
        refine ⟨fun x hx => by rw [hr', hx]; rfl, fun t ht htl => ?_⟩
        rcases List.mem_cons.mp ht with rfl | ht
        · exact ⟨_, hr', hs⟩
        · exact i2 t ht htl
  cases hc : commonDef ts none with
  | error e => exact ⟨e, by unfold broadcastPytrees; rw [hc]; rfl⟩
  | ok r =>
    obtain ⟨-, i2⟩ := key ts none r hc
    obtain ⟨y, hy, h1⟩ := i2 t ht htl
    obtain ⟨y', hy', h2⟩ := i2 u hu hul
    rw [hy] at hy'
    cases hy'
    rw [sameDef_trans t y u h1 (by rw [sameDef_symm]; exact h2)] at hd
    simp at hd

/-- If the common structure has no leaves (`None`, `{}`), broadcasting a single leaf raises: one copy is made for a structure that takes
none. -/
theorem C47_broadcast_empty_false : ∃ ts : List (PyTree ℕ), (∀ t ∈ ts, isLeaf t = false → sameDef t (.node "None" [] : PyTree ℕ) = true) ∧
    ∃ e, broadcastPytrees ts = .error e :=
  ⟨[.leaf 1, .node "None" []], by
    intro t ht hl
    simp only [List.mem_cons, List.not_mem_nil, or_false] at ht
    rcases ht with rfl | rfl
    · simp [isLeaf] at hl
    · rfl, _, rfl⟩

/-! ## Non-vacuity -/

/-- A dictionary with a 2x2 matrix and a list of a scalar and an empty vector. -/
def exTree (a b c d e : ℚ) : PyTree (Arr ℚ) :=
  .node "dict(W,b)" [.leaf ⟨[2, 2], [a, b, c, d], rfl⟩, .node "list" [.leaf ⟨[], [e], rfl⟩, .leaf ⟨[0], [], rfl⟩]]

example : treeVdot (exTree 1 2 3 4 5) (exTree 1 1 1 1 2) = some 20 := by decide +kernel
example : SameTopo (exTree 1 2 3 4 5) (exTree 1 1 1 1 2) := ⟨rfl, rfl⟩
example : (treeAddScalarMul (exTree 1 2 3 4 5) 10 (exTree 1 1 1 1 2)).map vec = some [11, 12, 13, 14, 25] := by decide +kernel
example : treeInfNorm (exTree 1 2 (-7) 4 5) = some 7 := by decide +kernel
example : (broadcastPytrees [.leaf 7, .node "list" [.leaf 1, .leaf 2]]).map (·.map leaves) = .ok [[7, 7], [1, 2]] := by rfl

end Jaxopt.Tree
