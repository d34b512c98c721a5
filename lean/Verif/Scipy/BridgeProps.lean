import Verif.Scipy.Bridge
import Verif.Scipy.JacProps
import Mathlib.Tactic.NormNum

/-!
# Property C69: SciPy solves the flattened problem and the wrapper gives back a solution in pytree form
-/

set_option autoImplicit false
set_option linter.unusedSectionVars false
set_option linter.unusedVariables false

namespace Jaxopt.Scipy

open Jaxopt.Tree

variable {K B R : Type*}

/-! ## Specification -/

/-- Entry by entry comparison of two pytrees, leaf by leaf. -/
def LeafRel {X Y : Type*} (r : X → Y → Prop) (s : PyTree (Arr X)) (t : PyTree (Arr Y)) : Prop :=
  List.Forall₂ (fun a b => List.Forall₂ r a.data b.data) (leaves s) (leaves t)

/-- A pytree of bounds with the structure and the shapes of a pytree of parameters. -/
def SameShape {X Y : Type*} (s : PyTree (Arr X)) (t : PyTree (Arr Y)) : Prop :=
  sameDef s t = true ∧ (leaves s).map (·.shape) = (leaves t).map (·.shape)

/-- The bounds hold for every entry of a vector. -/
def InBoundsVec (leL : B → K → Prop) (leU : K → B → Prop) (b : Option (List B × List B)) (x : List K) : Prop :=
  ∀ lu, b = some lu → List.Forall₂ leL lu.1 x ∧ List.Forall₂ leU x lu.2

/-- The bounds hold for every entry of every leaf. -/
def InBoundsTree (leL : B → K → Prop) (leU : K → B → Prop) (b : Option (PyTree (Arr B) × PyTree (Arr B))) (t : PyTree (Arr K)) : Prop :=
  ∀ lu, b = some lu → LeafRel leL lu.1 t ∧ LeafRel leU t lu.2

/-- `x` is a minimiser of the first component of `obj` over the vectors of length `n` within the bounds. -/
def IsFlatMin [LE K] (leL : B → K → Prop) (leU : K → B → Prop) (obj : List K → Except String (K × List K)) (n : ℕ) (b : Option (List B × List B))
    (x : List K) : Prop :=
  x.length = n ∧ InBoundsVec leL leU b x ∧ ∃ v, (obj x).map Prod.fst = .ok v ∧
    ∀ z, z.length = n → InBoundsVec leL leU b z → ∃ w, (obj z).map Prod.fst = .ok w ∧ v ≤ w

/-- `t` is a minimiser of `f` over the pytrees of the topology of `init` within the bounds. -/
def IsTreeMin [LE K] (leL : B → K → Prop) (leU : K → B → Prop) (f : PyTree (Arr K) → K) (init : PyTree (Arr K))
    (b : Option (PyTree (Arr B) × PyTree (Arr B))) (t : PyTree (Arr K)) : Prop :=
  SameTopo init t ∧ InBoundsTree leL leU b t ∧ ∀ s, SameTopo init s → InBoundsTree leL leU b s → f t ≤ f s

/-! ## Lemmas -/

theorem forall₂_append_iff {X Y : Type*} {r : X → Y → Prop} : ∀ {a : List X} {b : List Y} {c : List X} {d : List Y}, a.length = b.length →
    (List.Forall₂ r (a ++ c) (b ++ d) ↔ List.Forall₂ r a b ∧ List.Forall₂ r c d)
  | [], [], c, d, _ => by simp
  | [], _ :: _, _, _, h => by simp at h
  | _ :: _, [], _, _, h => by simp at h
  | x :: a, y :: b, c, d, h => by
    have h' : a.length = b.length := by simpa using h
    simp only [List.cons_append, List.forall₂_cons, forall₂_append_iff h', and_assoc]

theorem leafRel_aux {X Y : Type*} (r : X → Y → Prop) : ∀ {as : List (Arr X)} {bs : List (Arr Y)}, as.map (·.shape) = bs.map (·.shape) →
    (List.Forall₂ (fun a b => List.Forall₂ r a.data b.data) as bs ↔ List.Forall₂ r (as.flatMap (·.data)) (bs.flatMap (·.data)))
  | [], [], _ => by simp
  | [], _ :: _, h => by simp at h
  | _ :: _, [], h => by simp at h
  | a :: as, b :: bs, h => by
    simp only [List.map_cons, List.cons.injEq] at h
    have hlen : a.data.length = b.data.length := by rw [a.wf, b.wf, h.1]
    simp only [List.flatMap_cons, List.forall₂_cons, forall₂_append_iff hlen, leafRel_aux r h.2]

theorem leafRel_iff {X Y : Type*} (r : X → Y → Prop) {s : PyTree (Arr X)} {t : PyTree (Arr Y)} (h : (leaves s).map (·.shape) = (leaves t).map (·.shape)) :
    LeafRel r s t ↔ List.Forall₂ r (vec s) (vec t) := leafRel_aux r h

/-- Unflattening: the only pytree of the topology with the given content. -/
theorem unflat {init : PyTree (Arr K)} (h : leaves init ≠ []) {x : List K} (hx : x.length = (vec init).length) :
    ∃ t, onpToJnp (topologyFromExample init) x = .ok t ∧ SameTopo init t ∧ vec t = x ∧ leaves t ≠ [] := by
  obtain ⟨t, h1, h2, h3⟩ := C45_converse_partial init h x (by rw [hx, vec_length])
  have hne : leaves t ≠ [] := by
    intro h0
    have := congrArg List.length h2.2
    rw [h0] at this
    simp only [List.length_map, List.length_nil] at this
    exact h (List.length_eq_zero_iff.mp this)
  rw [jnpToOnp_eq hne] at h3
  exact ⟨t, h1, h2, by injection h3, hne⟩

theorem ne_of_topo {init t : PyTree (Arr K)} (h : leaves init ≠ []) (ht : SameTopo init t) : leaves t ≠ [] := by
  intro h0
  have := congrArg List.length ht.2
  rw [h0] at this
  simp only [List.length_map, List.length_nil] at this
  exact h (List.length_eq_zero_iff.mp this)

theorem vec_inj {s t : PyTree (Arr K)} (h : SameTopo s t) (hne : leaves s ≠ []) (hv : vec s = vec t) : s = t := by
  have hs : onpToJnp (topologyFromExample s) (vec s) = .ok s := by
    obtain ⟨v, h1, h2, h3⟩ := C45_roundtrip_partial s hne
    rw [jnpToOnp_eq hne] at h1
    injection h1 with h1
    rw [h1]; exact h3
  obtain ⟨r, r1, r2, r3, _⟩ := unflat hne (x := vec s) rfl
  -- both trees have the topology of `s` and the same content; compare leaves
  have key : ∀ {as bs : List (Arr K)}, as.map (·.shape) = bs.map (·.shape) → as.flatMap (·.data) = bs.flatMap (·.data) → as = bs := by
    intro as
    induction as with
    | nil =>
      intro bs h1 _
      cases bs with
      | nil => rfl
      | cons b bs => simp at h1
    | cons a as ih =>
      intro bs h1 h2
      cases bs with
      | nil => simp at h1
      | cons b bs =>
        simp only [List.map_cons, List.cons.injEq] at h1
        simp only [List.flatMap_cons] at h2
        have hlen : a.data.length = b.data.length := by rw [a.wf, b.wf, h1.1]
        obtain ⟨e1, e2⟩ := List.append_inj h2 hlen
        have : a = b := by
          cases a; cases b
          simp only at h1 e1
          obtain ⟨h1, -⟩ := h1
          subst h1; subst e1; rfl
        rw [this, ih h1.2 e2]
  exact eq_of_leaves s t h.1 (key h.2 hv)

/-- A pytree of the topology is recovered from its content. -/
theorem unflat_vec {init t : PyTree (Arr K)} (h : leaves init ≠ []) (ht : SameTopo init t) : onpToJnp (topologyFromExample init) (vec t) = .ok t := by
  obtain ⟨s, s1, s2, s3, s4⟩ := unflat h (x := vec t) ht.length.symm
  have : s = t := vec_inj (s2.symm.trans ht) s4 s3
  rw [s1, this]

theorem inBounds_iff {leL : B → K → Prop} {leU : K → B → Prop} {init t : PyTree (Arr K)} (ht : SameTopo init t)
    {bounds : Option (PyTree (Arr B) × PyTree (Arr B))} (hb : ∀ lu, bounds = some lu → SameShape lu.1 init ∧ SameShape lu.2 init) :
    InBoundsTree leL leU bounds t ↔ InBoundsVec leL leU (bounds.map fun lu => (vec lu.1, vec lu.2)) (vec t) := by
  unfold InBoundsTree InBoundsVec
  cases bounds with
  | none => simp
  | some lu =>
    obtain ⟨h1, h2⟩ := hb lu rfl
    simp only [Option.some.injEq, Option.map_some, forall_eq']
    rw [leafRel_iff leL (h1.2.trans ht.2), leafRel_iff leU (ht.2.symm.trans h2.2.symm)]

theorem flatBounds_eq {init : PyTree (Arr K)} (h : leaves init ≠ []) {bounds : Option (PyTree (Arr B) × PyTree (Arr B))}
    (hb : ∀ lu, bounds = some lu → SameShape lu.1 init ∧ SameShape lu.2 init) :
    flatBounds bounds = .ok (bounds.map fun lu => (vec lu.1, vec lu.2)) := by
  unfold flatBounds
  cases bounds with
  | none => rfl
  | some lu =>
    obtain ⟨h1, h2⟩ := hb lu rfl
    have n1 : leaves lu.1 ≠ [] := fun h0 => by
      have := congrArg List.length h1.2
      rw [h0] at this
      exact h (List.length_eq_zero_iff.mp (by simpa using this.symm))
    have n2 : leaves lu.2 ≠ [] := fun h0 => by
      have := congrArg List.length h2.2
      rw [h0] at this
      exact h (List.length_eq_zero_iff.mp (by simpa using this.symm))
    simp only [jnpToOnp_eq n1, jnpToOnp_eq n2, Except.bind, Except.map, Option.map_some]

/-! ## C69 -/

section Minimize

variable {valueAndGrad : PyTree (Arr K) → K × PyTree (Arr K)} {init : PyTree (Arr K)}

/-- **C69**: the function that SciPy minimises is the user's function read through the flattening.  It is defined on every vector of the right
length, and at the flattened content of a pytree it gives the value and the flattened gradient at that pytree. -/
theorem C69_objective (hne : leaves init ≠ []) (hg : ∀ t, SameTopo init t → SameTopo init (valueAndGrad t).2) :
    (∀ t, SameTopo init t → minFun valueAndGrad init (vec t) = .ok ((valueAndGrad t).1, vec (valueAndGrad t).2)) ∧
    ∀ x, x.length = (vec init).length → ∃ t, SameTopo init t ∧ vec t = x ∧
      minFun valueAndGrad init x = .ok ((valueAndGrad t).1, vec (valueAndGrad t).2) := by
  have h1 : ∀ t, SameTopo init t → minFun valueAndGrad init (vec t) = .ok ((valueAndGrad t).1, vec (valueAndGrad t).2) := by
    intro t ht
    unfold minFun
    rw [unflat_vec hne ht]
    simp only [Except.bind]
    rw [jnpToOnp_eq (ne_of_topo hne (hg t ht))]
    rfl
  refine ⟨h1, fun x hx => ?_⟩
  obtain ⟨t, t1, t2, t3, t4⟩ := unflat hne hx
  exact ⟨t, t2, t3, by rw [← t3]; exact h1 t t2⟩

/-- **C69**: the flattened gradient is the gradient of the flattened function: its inner product with a flattened direction is the inner product
of the pytrees. -/
theorem C69_gradient [Ring K] (hne : leaves init ≠ []) (hg : ∀ t, SameTopo init t → SameTopo init (valueAndGrad t).2) {t d : PyTree (Arr K)}
    (ht : SameTopo init t) (hd : SameTopo init d) :
    ∃ v g, minFun valueAndGrad init (vec t) = .ok (v, g) ∧ treeVdot (valueAndGrad t).2 d = some (dotL g (vec d)) :=
  ⟨_, _, (C69_objective hne hg).1 t ht, C47_vdot ((hg t ht).symm.trans hd) (ne_of_topo hne (hg t ht))⟩

/-- **C69**: if the callback is called on vectors of the right length, the user's callback receives the pytree with that content. -/
theorem C69_callback (hne : leaves init ≠ []) (cb : PyTree (Arr K) → R) {x : List K} (hx : x.length = (vec init).length) :
    ∃ f t, minCallback (some cb) init = some f ∧ SameTopo init t ∧ vec t = x ∧ f x = .ok (cb t) := by
  obtain ⟨t, t1, t2, t3, t4⟩ := unflat hne hx
  refine ⟨_, t, rfl, t2, t3, ?_⟩
  simp only [t1, Except.map]

/-- **C69**: whatever vector of the right length SciPy returns, the wrapper returns the pytree with that content, and the fields of the result; missing counters are 0. -/
theorem C69_result (hne : leaves init ≠ []) {minimize : MinRoutine K B R} {callback : Option (PyTree (Arr K) → R)}
    {bounds : Option (PyTree (Arr B) × PyTree (Arr B))} (hb : ∀ lu, bounds = some lu → SameShape lu.1 init ∧ SameShape lu.2 init)
    {res : MinResult K} (hres : minimize (minFun valueAndGrad init) (vec init) (bounds.map fun lu => (vec lu.1, vec lu.2)) (minCallback callback init) = .ok res)
    (hlen : res.x.length = (vec init).length) (hh : res.hessInv ≠ some .other) :
    ∃ params info, minimizeRun minimize valueAndGrad callback init bounds = .ok (params, info) ∧ SameTopo init params ∧ vec params = res.x ∧
      info.funVal = res.funVal ∧ info.success = res.success ∧ info.status = res.status ∧ info.iterNum = res.nit ∧ info.hessInv = res.hessInv ∧
      (∀ k, res.nfev = some k → info.numFunEval = k) ∧ (∀ k, res.njev = some k → info.numJacEval = k) ∧
      (∀ k, res.nhev = some k → info.numHessEval = k) ∧ (res.nfev = none → info.numFunEval = 0) ∧ (res.njev = none → info.numJacEval = 0) ∧
      (res.nhev = none → info.numHessEval = 0) := by
  obtain ⟨t, t1, t2, t3, t4⟩ := unflat hne hlen
  have hconv : convertHessInv res.hessInv = .ok res.hessInv := by
    cases hr : res.hessInv with
    | none => rfl
    | some h =>
      cases h with
      | lbfgs sk yk => rfl
      | dense m => rfl
      | other => exact absurd hr hh
  refine ⟨t, ⟨res.funVal, res.success, res.status, res.nit, res.hessInv, res.nfev.getD 0, res.njev.getD 0, res.nhev.getD 0⟩, ?_, t2, t3, rfl, rfl, rfl, rfl,
    rfl, ?_, ?_, ?_, ?_, ?_, ?_⟩
  · unfold minimizeRun
    simp only [flatBounds_eq hne hb, jnpToOnp_eq hne, Except.bind, hres, t1, hconv, Except.map]
  all_goals (intros; simp_all)

/-- **C69**: if SciPy returns a minimiser of the flattened problem it was given (over the vectors of the right length within the flattened bounds),
the wrapper returns a minimiser of the user's function over the pytrees with the structure and shapes of `init_params`, within the bounds. -/
theorem C69_minimize [LE K] (hne : leaves init ≠ []) (hg : ∀ t, SameTopo init t → SameTopo init (valueAndGrad t).2)
    {minimize : MinRoutine K B R} {callback : Option (PyTree (Arr K) → R)} {leL : B → K → Prop} {leU : K → B → Prop}
    {bounds : Option (PyTree (Arr B) × PyTree (Arr B))} (hb : ∀ lu, bounds = some lu → SameShape lu.1 init ∧ SameShape lu.2 init)
    {res : MinResult K} (hres : minimize (minFun valueAndGrad init) (vec init) (bounds.map fun lu => (vec lu.1, vec lu.2)) (minCallback callback init) = .ok res)
    (hh : res.hessInv ≠ some .other)
    (hmin : IsFlatMin leL leU (minFun valueAndGrad init) (vec init).length (bounds.map fun lu => (vec lu.1, vec lu.2)) res.x) :
    ∃ params info, minimizeRun minimize valueAndGrad callback init bounds = .ok (params, info) ∧
      IsTreeMin leL leU (fun t => (valueAndGrad t).1) init bounds params := by
  obtain ⟨params, info, h1, h2, h3, -⟩ := C69_result hne hb hres hmin.1 hh
  refine ⟨params, info, h1, h2, ?_, ?_⟩
  · rw [inBounds_iff h2 hb, h3]; exact hmin.2.1
  · intro s hs hsb
    obtain ⟨v, v1, v2⟩ := hmin.2.2
    obtain ⟨w, w1, w2⟩ := v2 (vec s) hs.length.symm ((inBounds_iff hs hb).mp hsb)
    have e1 := (C69_objective hne hg).1 params h2
    have e2 := (C69_objective hne hg).1 s hs
    rw [h3] at e1
    rw [e1] at v1
    rw [e2] at w1
    simp only [Except.map, Except.ok.injEq] at v1 w1
    rw [← v1, ← w1] at w2
    exact w2

/-- **C69**: conversely the flattened problem has no more solutions: the content of a minimiser over pytrees is a minimiser of the flattened problem. -/
theorem C69_minimize_complete [LE K] (hne : leaves init ≠ []) (hg : ∀ t, SameTopo init t → SameTopo init (valueAndGrad t).2)
    {leL : B → K → Prop} {leU : K → B → Prop} {bounds : Option (PyTree (Arr B) × PyTree (Arr B))}
    (hb : ∀ lu, bounds = some lu → SameShape lu.1 init ∧ SameShape lu.2 init) {t : PyTree (Arr K)}
    (ht : IsTreeMin leL leU (fun t => (valueAndGrad t).1) init bounds t) :
    IsFlatMin leL leU (minFun valueAndGrad init) (vec init).length (bounds.map fun lu => (vec lu.1, vec lu.2)) (vec t) := by
  refine ⟨ht.1.length.symm, (inBounds_iff ht.1 hb).mp ht.2.1, (valueAndGrad t).1, ?_, ?_⟩
  · rw [(C69_objective hne hg).1 t ht.1]; rfl
  · intro z hz hzb
    obtain ⟨s, s1, s2, s3, s4⟩ := unflat hne hz
    refine ⟨(valueAndGrad s).1, ?_, ?_⟩
    · rw [← s3, (C69_objective hne hg).1 s s2]; rfl
    · exact ht.2.2 s s2 (by rw [inBounds_iff s2 hb, s3]; exact hzb)

/-- **C69**: if SciPy returns a point at which the gradient it was given vanishes, `optimality_fun` (the gradient) vanishes at the returned pytree. -/
theorem C69_stationary [Zero K] (hne : leaves init ≠ []) (hg : ∀ t, SameTopo init t → SameTopo init (valueAndGrad t).2)
    {minimize : MinRoutine K B R} {callback : Option (PyTree (Arr K) → R)} {res : MinResult K}
    (hres : minimize (minFun valueAndGrad init) (vec init) none (minCallback callback init) = .ok res) (hh : res.hessInv ≠ some .other)
    (hlen : res.x.length = (vec init).length) (hz : ∀ v g, minFun valueAndGrad init res.x = .ok (v, g) → ∀ a ∈ g, a = 0) :
    ∃ params info, minimizeRun minimize valueAndGrad callback init none = .ok (params, info) ∧ SameTopo init params ∧
      ∀ l ∈ leaves (valueAndGrad params).2, ∀ a ∈ l.data, a = 0 := by
  obtain ⟨params, info, h1, h2, h3, -⟩ := C69_result (B := B) (bounds := none) hne (fun _ h => by simp at h) hres hlen hh
  refine ⟨params, info, h1, h2, fun l hl a ha => ?_⟩
  have e1 := (C69_objective hne hg).1 params h2
  rw [h3] at e1
  exact hz _ _ e1 a (List.mem_flatMap.mpr ⟨l, hl, ha⟩)

/-- **C69**, negative: a result whose `hess_inv` is neither an `LbfgsInvHessProduct` nor an array leaves the variable unbound, and the run raises. -/
theorem C69_hess_inv_raises (hne : leaves init ≠ []) {minimize : MinRoutine K B R} {callback : Option (PyTree (Arr K) → R)}
    {res : MinResult K} (hres : minimize (minFun valueAndGrad init) (vec init) none (minCallback callback init) = .ok res)
    (hlen : res.x.length = (vec init).length) (hh : res.hessInv = some .other) :
    ∃ e, minimizeRun minimize valueAndGrad callback init none = .error e := by
  obtain ⟨t, t1, t2, t3, t4⟩ := unflat hne hlen
  refine ⟨"UnboundLocalError: hess_inv", ?_⟩
  unfold minimizeRun
  simp only [flatBounds, jnpToOnp_eq hne, Except.bind, hres, t1, hh, convertHessInv, Except.map]

end Minimize

section Root

variable {F : PyTree (Arr K) → PyTree (Arr K)} {jac : PyTree (Arr K) → PyTree (PyTree (Arr K))} {init : PyTree (Arr K)}

/-- **C69**: the system and the Jacobian that SciPy's root finder sees at the content of a pytree are the flattened system and the matrix of the
pytree of blocks at that pytree. -/
theorem C69_root_fun [Ring K] (hne : leaves init ≠ []) (hF : ∀ t, SameTopo init t → SameTopo init (F t))
    (hJ : ∀ t, SameTopo init t → IsJacTree init init (jac t)) {t : PyTree (Arr K)} (ht : SameTopo init t) :
    ∃ M, rootFun F (fun s => join (jac s)) init (vec t) = .ok (vec (F t), M) ∧ M.nrows = (vec init).length ∧ M.ncols = (vec init).length ∧
      ∀ u, SameTopo init u → matvec M (vec u) = blockAction (jac t) init u := by
  obtain ⟨M, m1, m2, m3, m4, m5, m6⟩ := C46_jacobian_partial (hJ t ht) hne hne
  refine ⟨M, ?_, m2, m3, m6⟩
  unfold rootFun
  rw [unflat_vec hne ht]
  simp only [Except.bind]
  rw [jnpToOnp_eq (ne_of_topo hne (hF t ht))]
  simp only [Except.bind, m1, Except.map]

/-- **C69**: if SciPy returns a root of the flattened system, the wrapper returns a pytree of the topology of `init_params` at which every entry of
`optimality_fun` is zero; and every root in pytree form is a root of the flattened system. -/
theorem C69_root [Ring K] (hne : leaves init ≠ []) (hF : ∀ t, SameTopo init t → SameTopo init (F t))
    (hJ : ∀ t, SameTopo init t → IsJacTree init init (jac t))
    {root : (List K → Except String (List K × Mat K)) → List K → Except String (RootResult K)} {res : RootResult K}
    (hres : root (rootFun F (fun s => join (jac s)) init) (vec init) = .ok res) (hlen : res.x.length = (vec init).length)
    (hz : ∀ v M, rootFun F (fun s => join (jac s)) init res.x = .ok (v, M) → ∀ a ∈ v, a = 0) :
    ∃ params info, rootRun root F (fun s => join (jac s)) init = .ok (params, info) ∧ SameTopo init params ∧ vec params = res.x ∧
      (∀ l ∈ leaves (F params), ∀ a ∈ l.data, a = 0) ∧ info.funVal = res.funVal ∧ info.iterNum = res.nit ∧ info.numFunEval = res.nfev ∧
      info.success = res.success ∧ info.status = res.status := by
  obtain ⟨t, t1, t2, t3, t4⟩ := unflat hne hlen
  refine ⟨t, ⟨res.funVal, res.success, res.status, res.nit, res.nfev⟩, ?_, t2, t3, fun l hl a ha => ?_, rfl, rfl, rfl, rfl, rfl⟩
  · unfold rootRun
    simp only [jnpToOnp_eq hne, Except.bind, hres, t1, Except.map]
  · obtain ⟨M, m1, -⟩ := C69_root_fun hne hF hJ t2
    rw [t3] at m1
    exact hz _ _ m1 a (List.mem_flatMap.mpr ⟨l, hl, ha⟩)

/-- **C69**: the converse for roots. -/
theorem C69_root_complete [Ring K] (hne : leaves init ≠ []) (hF : ∀ t, SameTopo init t → SameTopo init (F t))
    (hJ : ∀ t, SameTopo init t → IsJacTree init init (jac t)) {t : PyTree (Arr K)} (ht : SameTopo init t)
    (hz : ∀ l ∈ leaves (F t), ∀ a ∈ l.data, a = 0) :
    ∃ v M, rootFun F (fun s => join (jac s)) init (vec t) = .ok (v, M) ∧ ∀ a ∈ v, a = 0 := by
  obtain ⟨M, m1, -⟩ := C69_root_fun hne hF hJ ht
  refine ⟨_, M, m1, fun a ha => ?_⟩
  obtain ⟨l, hl, hal⟩ := List.mem_flatMap.mp ha
  exact hz l hl a hal

end Root

section LeastSquares

variable {F : PyTree (Arr K) → PyTree (Arr K)} {jac : PyTree (Arr K) → PyTree (PyTree (Arr K))} {init : PyTree (Arr K)}

/-- **C69**: the residuals and the Jacobian that `scipy.optimize.least_squares` sees. -/
theorem C69_ls_fun [Ring K] (hne : leaves init ≠ []) (hout : leaves (F init) ≠ []) (hF : ∀ t, SameTopo init t → SameTopo (F init) (F t))
    (hJ : ∀ t, SameTopo init t → IsJacTree init (F init) (jac t)) {t : PyTree (Arr K)} (ht : SameTopo init t) :
    lsFun F init (vec t) = .ok (vec (F t)) ∧
    ∃ M, lsJac F (fun s => join (jac s)) init (vec t) = .ok M ∧ M.nrows = (vec (F t)).length ∧ M.ncols = (vec init).length ∧
      ∀ u, SameTopo init u → matvec M (vec u) = blockAction (jac t) (F init) u := by
  obtain ⟨M, m1, m2, m3, m4, m5, m6⟩ := C46_jacobian_partial (hJ t ht) hne hout
  refine ⟨?_, M, ?_, by rw [m2]; exact (hF t ht).length, m3, m6⟩
  · unfold lsFun
    rw [unflat_vec hne ht]
    simp only [Except.bind]
    exact jnpToOnp_eq (ne_of_topo hout (hF t ht))
  · unfold lsJac
    rw [unflat_vec hne ht]
    simp only [Except.bind, m1]

/-- **C69**: if SciPy returns a vector of the right length within the flattened bounds that minimises any cost of the residuals it was given (such as
half the sum of squares), the wrapper returns a pytree within the bounds that minimises this cost of the residuals of `fun`. -/
theorem C69_least_squares [Ring K] [LE K] (hne : leaves init ≠ []) (hout : leaves (F init) ≠ [])
    (hF : ∀ t, SameTopo init t → SameTopo (F init) (F t)) {leastSquares : LsRoutine K B} {leL : B → K → Prop} {leU : K → B → Prop}
    {bounds : Option (PyTree (Arr B) × PyTree (Arr B))} (hb : ∀ lu, bounds = some lu → SameShape lu.1 init ∧ SameShape lu.2 init)
    {res : LsResult K} (hres : leastSquares (lsFun F init) (vec init) (lsJac F (fun s => join (jac s)) init)
      (bounds.map fun lu => (vec lu.1, vec lu.2)) = .ok res) (cost : List K → K)
    (hlen : res.x.length = (vec init).length) (hbd : InBoundsVec leL leU (bounds.map fun lu => (vec lu.1, vec lu.2)) res.x)
    (hmin : ∀ r, lsFun F init res.x = .ok r → ∀ z r', z.length = (vec init).length → InBoundsVec leL leU (bounds.map fun lu => (vec lu.1, vec lu.2)) z →
      lsFun F init z = .ok r' → cost r ≤ cost r') :
    ∃ params info, lsRun leastSquares F (fun s => join (jac s)) init bounds = .ok (params, info) ∧ vec params = res.x ∧
      IsTreeMin leL leU (fun t => cost (vec (F t))) init bounds params ∧ info.costVal = res.cost ∧ info.funVal = res.funVal ∧
      info.error = res.optimality ∧ info.numFunEval = res.nfev ∧ info.numJacEval = res.njev ∧ info.success = res.success ∧
      info.status = res.status := by
  have hfun : ∀ t, SameTopo init t → lsFun F init (vec t) = .ok (vec (F t)) := by
    intro t ht
    unfold lsFun
    rw [unflat_vec hne ht]
    simp only [Except.bind]
    exact jnpToOnp_eq (ne_of_topo hout (hF t ht))
  obtain ⟨t, t1, t2, t3, t4⟩ := unflat hne hlen
  refine ⟨t, ⟨res.cost, res.funVal, res.success, res.status, res.nfev, res.njev, res.optimality⟩, ?_, t3, ⟨t2, ?_, ?_⟩, rfl, rfl, rfl, rfl, rfl, rfl, rfl⟩
  · unfold lsRun
    simp only [flatBounds_eq hne hb, jnpToOnp_eq hne, Except.bind, hres, t1, Except.map]
  · rw [inBounds_iff t2 hb, t3]; exact hbd
  · intro s hs hsb
    exact hmin _ (by rw [← t3]; exact hfun t t2) (vec s) _ hs.length.symm ((inBounds_iff hs hb).mp hsb) (hfun s hs)

end LeastSquares

/-! ## Example -/

/-- Two leaves, of shapes `(2,)` and `()`. -/
def brInit : PyTree (Arr ℚ) := .node "tuple" [.leaf ⟨[2], [1, 1], rfl⟩, .leaf ⟨[], [1], rfl⟩]

/-- `value_and_grad` of half the sum of squares. -/
def brVg (t : PyTree (Arr ℚ)) : ℚ × PyTree (Arr ℚ) := (1 / 2 * dotL (vec t) (vec t), t)

/-- A routine that returns its lower bound. -/
def brMin : MinRoutine ℚ ℚ Unit := fun obj x0 b cb =>
  match b with
  | some lu => (obj lu.1).map fun vg => ⟨lu.1, vg.1, true, 0, 1, none, some 1, some 1, none⟩
  | none => .error "no bounds"

/-- Bounds of the same structure. -/
def brLo : PyTree (Arr ℚ) := .node "tuple" [.leaf ⟨[2], [1 / 2, 0], rfl⟩, .leaf ⟨[], [1 / 3], rfl⟩]

example : ((minimizeRun brMin brVg none brInit (some (brLo, brInit))).toOption.map fun r => ((leaves r.1).map (·.data), r.2.funVal, r.2.numHessEval)) =
    some ([[1 / 2, 0], [1 / 3]], 13 / 72, 0) := by decide +kernel

example : leaves brInit ≠ [] ∧ (∀ t, SameTopo brInit t → SameTopo brInit (brVg t).2) ∧ SameShape brLo brInit :=
  ⟨by decide +kernel, fun t h => h, by decide +kernel, by decide +kernel⟩

/-- The hypothesis of `C69_minimize` on the result of SciPy holds here: the lower bound, which is non-negative, minimises the sum of squares. -/
example : IsFlatMin (· ≤ ·) (· ≤ ·) (minFun brVg brInit) (vec brInit).length (some (vec brLo, vec brInit)) (vec brLo) := by
  have hg : ∀ t, SameTopo brInit t → SameTopo brInit (brVg t).2 := fun t h => h
  have hlo : SameTopo brInit brLo := ⟨by decide +kernel, by decide +kernel⟩
  refine ⟨by decide +kernel, ?_, (brVg brLo).1, ?_, ?_⟩
  · intro lu h
    injection h with h
    subst h
    have h1 : vec brLo = [1 / 2, 0, 1 / 3] := rfl
    have h2 : vec brInit = [1, 1, 1] := rfl
    simp only [h1, h2]
    constructor <;> simp <;> norm_num
  · rw [(C69_objective (by decide +kernel) hg).1 brLo hlo]; rfl
  · intro z hz hzb
    obtain ⟨t, t1, t2, t3⟩ := (C69_objective (by decide +kernel) hg).2 z hz
    refine ⟨(brVg t).1, by rw [t3]; rfl, ?_⟩
    obtain ⟨hz1, -⟩ := hzb _ rfl
    have h1 : vec brLo = [1 / 2, 0, 1 / 3] := rfl
    have h2 : (vec brInit).length = 3 := rfl
    rw [h2] at hz
    obtain ⟨a, b, c, rfl⟩ := List.length_eq_three.mp hz
    simp only [h1, List.forall₂_cons, List.Forall₂.nil, and_true] at hz1
    obtain ⟨q1, q2, q3⟩ := hz1
    simp only [brVg, t2, h1, dotL, List.zipWith_cons_cons, List.zipWith_nil_right, List.sum_cons, List.sum_nil]
    nlinarith

end Jaxopt.Scipy
