import Verif.QuasiNewton.Lbfgs
import Mathlib.Algebra.BigOperators.Group.Finset.Basic
import Mathlib.Algebra.Module.Pi

/-!
# Model of `jaxopt/_src/broyden.py`

A pytree is a family of leaves indexed by `L`; for simplicity all leaves have the same shape `E`.  `ldot` is the dot product
of two leaves, so that `tree_vdot` is the sum of `ldot` over the leaves.  An array of length `history_size` is a function of
its index.  `1 / x` is only meaningful for `x ≠ 0` (the code then produces infinities); the properties assume it.
The line search is an arbitrary function (it receives the direction only, lines 335-338).
`aux`, the counters and `verbose` are left out.
-/

set_option autoImplicit false
set_option linter.unusedSectionVars false
set_option linter.unusedVariables false

namespace Jaxopt.QuasiNewton

open Jaxopt.Base

variable {K E L : Type*} [Field K] [LinearOrder K] [AddCommGroup E] [Module K E] [Fintype L]

/-- `matvec`, lines 41-46: `C Dᵀ x` for one leaf. -/
def brMatvec (ldot : E → E → K) (d c : ℕ → E) (x : E) (idx : List ℕ) : E :=
  (idx.map fun j => ldot (d j) x • c j).sum

/-- `inv_jacobian_product_leaf`, lines 48-61. -/
def invJacobianProductLeaf (ldot : E → E → K) (m : ℕ) (v : E) (d c : ℕ → E) (gamma : K) (start : ℕ) : E :=
  gamma • v + brMatvec ldot d c v (indices m start)

/-- `inv_jacobian_product`, lines 64-97: leaf by leaf. -/
def invJacobianProduct (ldot : E → E → K) (m : ℕ) (v : L → E) (d c : ℕ → L → E) (gamma : K) (start : ℕ) : L → E :=
  fun l => invJacobianProductLeaf ldot m (v l) (fun j => d j l) (fun j => c j l) gamma start

/-- `inv_jacobian_rproduct`, lines 99-104 (real parameters). -/
def invJacobianRproduct (ldot : E → E → K) (m : ℕ) (v : L → E) (d c : ℕ → L → E) (gamma : K) (start : ℕ) : L → E :=
  invJacobianProduct ldot m v c d gamma start

/-- `tree_vdot`, tree_util.py lines 101-116. -/
def leafVdot (ldot : E → E → K) (x y : L → E) : K := ∑ l, ldot (x l) (y l)

/-- What the solver keeps of the line search. -/
structure BrLsOut (K P : Type*) where
  stepsize : K
  params : P
  value : P
  failed : Bool

/-- Attributes of `Broyden`, lines 189-215. -/
structure Broyden (K E L : Type*) where
  f : (L → E) → (L → E)
  ldot : E → E → K
  norm : (L → E) → K
  historySize : ℕ
  gamma : K
  stepsize : Stepsize K
  maxStepsize : K
  minStepsize : K
  increaseFactor : K
  runLs : K → (L → E) → (L → E) → (L → E) → BrLsOut K (L → E)

/-- `BroydenState`, lines 110-123. -/
structure BroydenState (K E L : Type*) where
  iterNum : ℕ
  value : L → E
  stepsize : K
  error : Ext K
  d : ℕ → L → E
  c : ℕ → L → E
  gamma : K
  failedLinesearch : Bool

namespace Broyden

/-- `init_state` on a pytree of parameters, lines 223-264. -/
def initState (S : Broyden K E L) (x0 : L → E) : BroydenState K E L where
  iterNum := 0
  value := S.f x0
  stepsize := S.maxStepsize
  error := .pinf
  d := fun _ => 0
  c := fun _ => 0
  gamma := S.gamma
  failedLinesearch := false

/-- The operator `jac_prod` of a state (lines 287-297). -/
def jacProd (S : Broyden K E L) (st : BroydenState K E L) (v : L → E) : L → E :=
  invJacobianProduct S.ldot S.historySize v st.d st.c st.gamma (st.iterNum % S.historySize)

/-- The operator `jac_rprod` of a state (lines 299-302). -/
def jacRprod (S : Broyden K E L) (st : BroydenState K E L) (v : L → E) : L → E :=
  invJacobianRproduct S.ldot S.historySize v st.d st.c st.gamma (st.iterNum % S.historySize)

/-- The step, lines 304-360. -/
def step (S : Broyden K E L) (x : L → E) (st : BroydenState K E L) : BrLsOut K (L → E) :=
  let dir := (-1 : K) • S.jacProd st st.value
  match S.stepsize with
  | .const a =>
    if a ≤ 0 then
      let init := if st.stepsize ≤ S.minStepsize then S.maxStepsize else st.stepsize * S.increaseFactor
      S.runLs init x st.value dir
    else
      let x' := x + a • dir
      ⟨a, x', S.f x', false⟩
  | .fn a =>
    let x' := x + a st.iterNum • dir
    ⟨a st.iterNum, x', S.f x', false⟩

/-- `update`, lines 266-394. -/
def update (S : Broyden K E L) (p : (L → E) × BroydenState K E L) : (L → E) × BroydenState K E L :=
  let x := p.1
  let st := p.2
  let start := st.iterNum % S.historySize
  let o := S.step x st
  let deltaX := o.params - x
  let v := S.jacRprod st deltaX
  let deltaG := o.value - st.value
  let denom := 1 / leafVdot S.ldot v deltaG
  let d := denom • v
  let c := deltaX - S.jacProd st deltaG
  let last := (start + S.historySize) % S.historySize
  (o.params,
    { iterNum := st.iterNum + 1, value := o.value, stepsize := o.stepsize, error := .fin (S.norm o.value),
      d := Function.update st.d last d, c := Function.update st.c last c, gamma := st.gamma,
      failedLinesearch := o.failed })

end Broyden

end Jaxopt.QuasiNewton
