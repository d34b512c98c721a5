import Verif.QuasiNewton.Lbfgs
import Verif.Num.ExtArith
import Mathlib.Data.Matrix.Block
import Mathlib.Data.Matrix.Mul
import Mathlib.Data.Fintype.Sum

/-!
# Model of `jaxopt/_src/lbfgsb.py`

Parameters are flat vectors of length `n` (the code flattens every pytree, lines 48-68).  Bounds may be infinite
(`Ext K`).  `jnp.argsort`, `jnp.linalg.inv`, `jnp.linalg.solve` and the line search are parameters.  The loop that computes
the Cauchy point divides by a curvature that may vanish; quotients are therefore floats (`Ext K`).  If an infinite breakpoint
gap or step enters the arithmetic of that loop, the model gives up (`none`).  `aux`, counters and `verbose` are left out.
-/

set_option autoImplicit false
set_option linter.unusedSectionVars false
set_option linter.unusedVariables false

namespace Jaxopt.QuasiNewton

open Jaxopt.Base Matrix

variable {K : Type*} [Field K] [LinearOrder K] {n h : ℕ}

/-- Float division of finite numbers. -/
def divE (a b : K) : Ext K :=
  if b ≠ 0 then .fin (a / b) else if 0 < a then .pinf else if a < 0 then .ninf else .nan

/-- `jnp.clip(x, l, u)`. -/
def clipE (x : K) (l u : Ext K) : Ext K := Ext.min (Ext.max (.fin x) l) u

/-- `_get_error`, lines 71-76: infinity norm of the projected gradient step. -/
def lbfgsbError (x grad : Fin n → K) (lower upper : Fin n → Ext K) : Ext K :=
  (List.ofFn fun i => Ext.abs (Ext.sub (clipE (x i - grad i) (lower i) (upper i)) (.fin (x i)))).foldl Ext.max (.fin 0)

/-! ### `_find_cauchy_point`, lines 79-175 -/

/-- Breakpoints `t`, lines 115-117. -/
def breakpoints (eps : K) (x grad : Fin n → K) (lower upper : Fin n → Ext K) (j : Fin n) : Ext K :=
  if |grad j| < eps then .pinf
  else if grad j < 0 then Ext.smul (1 / grad j) (Ext.sub (.fin (x j)) (upper j))
  else Ext.smul (1 / grad j) (Ext.sub (.fin (x j)) (lower j))

/-- `d`, line 118. -/
def cauchyDir (eps : K) (t : Fin n → Ext K) (grad : Fin n → K) (j : Fin n) : K :=
  if Ext.lt (t j) (.fin eps) then 0 else -grad j

/-- `x_bound`, line 119. -/
def xBound (d x : Fin n → K) (lower upper : Fin n → Ext K) (j : Fin n) : Ext K :=
  if 0 < d j then upper j else if d j < 0 then lower j else .fin (x j)

/-- `dt = diff(pad(t_sorted, (1, 0)))`, line 124. -/
def dtAt (ts : Fin n → Ext K) (i : Fin n) : Ext K :=
  Ext.sub (ts i) (if h : i.1 = 0 then .fin 0 else ts ⟨i.1 - 1, by omega⟩)

/-- Carry of the loop, lines 137-138. -/
structure CP (K : Type*) (n h : ℕ) where
  i : ℕ
  df : K
  ddf : K
  mask : Fin n → Bool
  c : Fin h ⊕ Fin h → K
  p : Fin h ⊕ Fin h → K

/-- `start_ind`, lines 126-131: the first position with `t_sorted > eps`, or `n`. -/
def startInd (mask : Fin n → Bool) : ℕ := (List.ofFn mask).findIdx id

/-- `_cond`, lines 140-141. -/
def cpCond (ts : Fin n → Ext K) (s : CP K n h) : Bool :=
  if hi : s.i < n then Ext.le (dtAt ts ⟨s.i, hi⟩) (divE (-s.df) s.ddf) else false

/-- `_body`, lines 143-162, for a finite breakpoint gap `r`. -/
def cpBody (eps theta : K) (grad d x : Fin n → K) (lower upper : Fin n → Ext K)
    (w : Matrix (Fin n) (Fin h ⊕ Fin h) K) (m : Matrix (Fin h ⊕ Fin h) (Fin h ⊕ Fin h) K) (sigma : Fin n → Fin n)
    (i : Fin n) (r xb : K) (s : CP K n h) : CP K n h :=
  let j := sigma i
  let c := s.c + r • s.p
  let df := s.df + r * s.ddf + grad j * grad j + theta * grad j * (xb - x j) - grad j * (w j ⬝ᵥ m *ᵥ c)
  let ddf := s.ddf - theta * (grad j * grad j) - 2 * grad j * (w j ⬝ᵥ m *ᵥ s.p) -
    grad j * grad j * (w j ⬝ᵥ m *ᵥ w j)
  { i := s.i + 1, df := df, ddf := max eps ddf, mask := Function.update s.mask i false, c := c,
    p := s.p + grad j • w j }

/-- `lax.while_loop(_cond, _body, init_state)`, line 164.  The counter increases up to `n`, so `n` rounds of fuel suffice. -/
def cpLoop (eps theta : K) (grad d x : Fin n → K) (lower upper : Fin n → Ext K)
    (w : Matrix (Fin n) (Fin h ⊕ Fin h) K) (m : Matrix (Fin h ⊕ Fin h) (Fin h ⊕ Fin h) K) (sigma : Fin n → Fin n)
    (ts : Fin n → Ext K) : ℕ → CP K n h → Option (CP K n h)
  | 0, s => some s
  | k + 1, s =>
    if hi : s.i < n then
      if cpCond ts s then
        match dtAt ts ⟨s.i, hi⟩, xBound d x lower upper (sigma ⟨s.i, hi⟩) with
        | .fin r, .fin xb =>
          cpLoop eps theta grad d x lower upper w m sigma ts k
            (cpBody eps theta grad d x lower upper w m sigma ⟨s.i, hi⟩ r xb s)
        | _, _ => none
      else some s
    else some s

/-- `_find_cauchy_point`: the Cauchy point, `c` and the mask of coordinates that are not at a bound. -/
def findCauchyPoint (eps : K) (argsort : (Fin n → Ext K) → Equiv.Perm (Fin n)) (x grad : Fin n → K)
    (lower upper : Fin n → Ext K) (theta : K) (w : Matrix (Fin n) (Fin h ⊕ Fin h) K)
    (m : Matrix (Fin h ⊕ Fin h) (Fin h ⊕ Fin h) K) :
    Option ((Fin n → Ext K) × (Fin h ⊕ Fin h → K) × (Fin n → Bool)) :=
  let t := breakpoints eps x grad lower upper
  let d := cauchyDir eps t grad
  let xb := xBound d x lower upper
  let sigma := argsort t
  let ts := fun i => t (sigma i)
  let mask0 : Fin n → Bool := fun i => Ext.gt (ts i) (.fin eps)
  let p0 := wᵀ *ᵥ d
  let df0 := -(d ⬝ᵥ d)
  let ddf0 := -theta * df0 - (m *ᵥ p0) ⬝ᵥ p0
  match cpLoop eps theta grad d x lower upper w m sigma ts n ⟨startInd mask0, df0, ddf0, mask0, 0, p0⟩ with
  | none => none
  | some s =>
    let q := Ext.max (divE (-s.df) s.ddf) (.fin 0)
    match (if Ext.isNan q then .fin 0 else q : Ext K) with
    | .fin dtMin =>
      let tPrev : Ext K :=
        if hi : 0 < s.i then (if hn : s.i - 1 < n then ts ⟨s.i - 1, hn⟩ else .fin 0) else .fin 0
      let tOld := Ext.add tPrev (.fin dtMin)
      let active := fun j => s.mask (sigma.symm j)
      some (fun j => if active j then Ext.add (.fin (x j)) (Ext.smul (d j) tOld) else xb j,
        s.c + dtMin • s.p, active)
    | _ => none

/-! ### `_minimize_subspace`, lines 178-203 -/

/-- `du`, lines 181-194. -/
def subspaceDir (solve : Matrix (Fin h ⊕ Fin h) (Fin h ⊕ Fin h) K → (Fin h ⊕ Fin h → K) → (Fin h ⊕ Fin h → K))
    (x grad xc : Fin n → K) (c : Fin h ⊕ Fin h → K) (theta : K) (w : Matrix (Fin n) (Fin h ⊕ Fin h) K)
    (m : Matrix (Fin h ⊕ Fin h) (Fin h ⊕ Fin h) K) (active : Fin n → Bool) : Fin n → K :=
  let wm : Matrix (Fin n) (Fin h ⊕ Fin h) K := fun j k => w j k * (if active j then 1 else 0)
  let rc := grad + theta • (xc - x) - wm *ᵥ (m *ᵥ c)
  let v := m *ᵥ (wmᵀ *ᵥ rc)
  let nn := 1 - m * ((1 / theta) • (wmᵀ * wm))
  let v := solve nn v
  let du := -((1 / theta) • rc) - (1 / (theta * theta)) • (wm *ᵥ v)
  du

/-- `alpha`, lines 199-200. -/
def subspaceAlpha (lower upper : Fin n → Ext K) (xc du : Fin n → K) (active : Fin n → Bool) (j : Fin n) : Ext K :=
  if active j = true ∧ 0 < |du j| then
    Ext.max (Ext.smul (1 / du j) (Ext.sub (upper j) (.fin (xc j)))) (Ext.smul (1 / du j) (Ext.sub (lower j) (.fin (xc j))))
  else .fin 1

/-- Lines 199-203, for a given direction `du`. -/
def subspaceStep (lower upper : Fin n → Ext K) (xc du : Fin n → K) (active : Fin n → Bool) (j : Fin n) : Ext K :=
  let alphaStar := Ext.min ((List.ofFn (subspaceAlpha lower upper xc du active)).foldl Ext.min .pinf) (.fin 1)
  if active j then Ext.add (.fin (xc j)) (Ext.smul (du j) alphaStar) else .fin (xc j)

/-! ### The solver -/

/-- Attributes of `LBFGSB`, lines 280-309. -/
structure Lbfgsb (K V : Type*) (n h : ℕ) where
  f : (Fin n → K) → V
  grad : (Fin n → K) → (Fin n → K)
  eps : K
  argsort : (Fin n → Ext K) → Equiv.Perm (Fin n)
  inv : Matrix (Fin h ⊕ Fin h) (Fin h ⊕ Fin h) K → Matrix (Fin h ⊕ Fin h) (Fin h ⊕ Fin h) K
  solve : Matrix (Fin h ⊕ Fin h) (Fin h ⊕ Fin h) K → (Fin h ⊕ Fin h → K) → (Fin h ⊕ Fin h → K)
  stepsize : Stepsize K
  maxStepsize : K
  initStep : K → K
  theta : K
  useGamma : Bool
  runLs : K → (Fin n → K) → V → (Fin n → K) → (Fin n → K) → LsOut K (Fin n → K) V

/-- `LbfgsbState`, lines 206-222. -/
structure LbfgsbState (K V : Type*) (n h : ℕ) where
  iterNum : ℕ
  value : V
  grad : Fin n → K
  stepsize : K
  error : Ext K
  s : Fin h → Fin n → K
  y : Fin h → Fin n → K
  theta : K
  numUpdates : ℕ
  failedLinesearch : Bool

namespace Lbfgsb

variable {V : Type*}

/-- `init_state`, lines 318-376. -/
def initState (S : Lbfgsb K V n h) (lower upper : Fin n → Ext K) (x0 : Fin n → K) : LbfgsbState K V n h where
  iterNum := 0
  value := S.f x0
  grad := S.grad x0
  stepsize := S.maxStepsize
  error := lbfgsbError x0 (S.grad x0) lower upper
  s := fun _ => 0
  y := fun _ => 0
  theta := S.theta
  numUpdates := 0
  failedLinesearch := false

/-- `w_flat`, lines 412-413. -/
def wFlat (st : LbfgsbState K V n h) : Matrix (Fin n) (Fin h ⊕ Fin h) K :=
  fun j k => match k with
    | .inl a => st.y a j
    | .inr a => st.theta * st.s a j

/-- `m_inv`, lines 414-447.  `prev_ind = num_updates % history_size - 1` may be `-1`, which denotes the last position. -/
def mInv (st : LbfgsbState K V n (h + 1)) : Matrix (Fin (h + 1) ⊕ Fin (h + 1)) (Fin (h + 1) ⊕ Fin (h + 1)) K :=
  let sy : Matrix (Fin (h + 1)) (Fin (h + 1)) K := fun a b => st.s a ⬝ᵥ st.y b
  let ss : Matrix (Fin (h + 1)) (Fin (h + 1)) K := fun a b => st.s a ⬝ᵥ st.s b
  let ones : Fin (h + 1) → K := fun a => if st.numUpdates ≤ a.1 then 1 else 0
  let prev : Fin (h + 1) := ⟨(st.numUpdates % (h + 1) + h) % (h + 1), Nat.mod_lt _ (Nat.succ_pos h)⟩
  let fillSy := if 0 < st.numUpdates then sy prev prev else 1
  let lowerTril : Matrix (Fin (h + 1)) (Fin (h + 1)) K := fun a b => if b < a then sy a b else 0
  let diag : Matrix (Fin (h + 1)) (Fin (h + 1)) K := Matrix.diagonal fun a => -(sy a a) + ones a * fillSy
  let fillSs := if 0 < st.numUpdates then ss prev prev else 1
  let sstAdj : Matrix (Fin (h + 1)) (Fin (h + 1)) K := Matrix.diagonal fun a => ones a * fillSs * st.theta
  fromBlocks diag lowerTrilᵀ lowerTril (sstAdj + st.theta • ss)

/-- The value of a float, if finite. -/
def toK : Ext K → Option K
  | .fin a => some a
  | _ => none

/-- A vector of floats as a vector of numbers, if all are finite. -/
def finite (v : Fin n → Ext K) : Option (Fin n → K) :=
  if ∀ j, (toK (v j)).isSome = true then some fun j => (toK (v j)).getD 0 else none

/-- `x_subspace_min`, lines 449-463. -/
def subspaceMin (S : Lbfgsb K V n (h + 1)) (lower upper : Fin n → Ext K) (x : Fin n → K)
    (st : LbfgsbState K V n (h + 1)) : Option (Fin n → K) :=
  let w := wFlat st
  let m := S.inv (mInv st)
  (findCauchyPoint S.eps S.argsort x st.grad lower upper st.theta w m).bind fun r =>
    (finite r.1).bind fun xc =>
      finite (subspaceStep lower upper xc (subspaceDir S.solve x st.grad xc r.2.1 st.theta w m r.2.2) r.2.2)

/-- The step, lines 465-509; only the branch without line search clips to the bounds (line 501). -/
def step (S : Lbfgsb K V n h) (lower upper : Fin n → Ext K) (x : Fin n → K) (st : LbfgsbState K V n h)
    (d : Fin n → K) : Option (LsOut K (Fin n → K) V) :=
  let fixed (a : K) : Option (LsOut K (Fin n → K) V) :=
    (finite fun j => clipE (x j + a * d j) (lower j) (upper j)).map fun x' => ⟨a, x', S.f x', S.grad x', false⟩
  match S.stepsize with
  | .const a => if a ≤ 0 then some (S.runLs (S.initStep st.stepsize) x st.value st.grad d) else fixed a
  | .fn a => fixed (a st.iterNum)

/-- `update`, lines 378-570. -/
def update (S : Lbfgsb K V n (h + 1)) (lower upper : Fin n → Ext K) (p : (Fin n → K) × LbfgsbState K V n (h + 1)) :
    Option ((Fin n → K) × LbfgsbState K V n (h + 1)) :=
  let x := p.1
  let st := p.2
  (S.subspaceMin lower upper x st).bind fun xs =>
    (S.step lower upper x st (xs - x)).map fun o =>
      let s := o.params - x
      let y := o.grad - st.grad
      let curvature := y ⬝ᵥ s
      let gammaInv := if S.useGamma then (y ⬝ᵥ y) / curvature else 1
      let ind : Fin (h + 1) := ⟨st.numUpdates % (h + 1), Nat.mod_lt _ (Nat.succ_pos h)⟩
      (o.params,
        { iterNum := st.iterNum + 1, value := o.value, grad := o.grad, stepsize := o.stepsize,
          error := lbfgsbError o.params o.grad lower upper,
          s := if 0 < curvature then Function.update st.s ind s else st.s,
          y := if 0 < curvature then Function.update st.y ind y else st.y,
          theta := if 0 < curvature then gammaInv * S.theta else st.theta,
          numUpdates := if 0 < curvature then st.numUpdates + 1 else st.numUpdates,
          failedLinesearch := o.failed })

end Lbfgsb

end Jaxopt.QuasiNewton
