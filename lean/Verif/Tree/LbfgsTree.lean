import Verif.Tree.Stacked
import Verif.QuasiNewton.Lbfgs
import Mathlib.Data.List.FinRange

/-!
# Model of the histories of `jaxopt/_src/lbfgs.py` on pytrees

Lines 39-124: `inv_hessian_product`, `compute_gamma`, `init_history` and `update_history` on pytrees of real arrays with a leading axis of size `history_size`.
Python exceptions are `none`.
-/

set_option autoImplicit false
set_option linter.unusedSectionVars false
set_option linter.unusedVariables false

namespace Jaxopt.Tree

variable {K : Type*} {m : ℕ} [Field K]

/-- `indices = (start + arange(history_size)) % history_size`, line 79. -/
def indicesFin (m start : ℕ) : List (Fin m) := (List.finRange m).map fun i : Fin m => ⟨(start + i) % m, Nat.mod_lt _ i.pos⟩

/-- `body_right`, lines 81-85; `select_ith_tree` (lines 39-41) is `treeRow`. -/
def bodyRightTree (s y : PyTree (Stack K m)) (rho : Fin m → K) (r : PyTree (Arr K)) (i : Fin m) : Option (PyTree (Arr K) × K) :=
  (treeRow i s).bind fun si => (treeRow i y).bind fun yi => (treeVdotReal si r).bind fun d =>
    let alpha := rho i * d
    (treeAddScalarMul r (-alpha) yi).map fun r => (r, alpha)

/-- `lax.scan(body, r, xs, reverse=True)` for a body that may raise, line 86. -/
def scanReverseM {C X Y : Type*} (body : C → X → Option (C × Y)) (r : C) : List X → Option (C × List Y)
  | [] => some (r, [])
  | x :: xs => (scanReverseM body r xs).bind fun p => (body p.1 x).map fun q => (q.1, q.2 :: p.2)

/-- `body_left`, lines 90-95. -/
def bodyLeftTree (s y : PyTree (Stack K m)) (rho : Fin m → K) (r : PyTree (Arr K)) (a : Fin m × K) : Option (PyTree (Arr K)) :=
  (treeRow a.1 s).bind fun si => (treeRow a.1 y).bind fun yi => (treeVdotReal yi r).bind fun d =>
    let beta := rho a.1 * d
    treeAddScalarMul r (a.2 - beta) si

/-- `inv_hessian_product`, lines 43-98. -/
def invHessianProductTree (v : PyTree (Arr K)) (s y : PyTree (Stack K m)) (rho : Fin m → K) (gamma : K) (start : ℕ) : Option (PyTree (Arr K)) :=
  let idx := indicesFin m start
  (scanReverseM (bodyRightTree s y rho) v idx).bind fun ra => (treeScalarMul gamma ra.1).bind fun r =>
    (idx.zip ra.2).foldlM (bodyLeftTree s y rho) r

/-- `compute_gamma`, lines 101-114: the sums over the leaves of `vdot(y[last], s[last])` and `vdot(y[last], y[last])`
(every leaf of `y` is paired with itself). -/
def computeGammaTree [LinearOrder K] (s y : PyTree (Stack K m)) (last : Fin m) : Option K :=
  ((treeMap2 (fun a b => Arr.vdot (b.row last) (a.row last)) s y).bind (treeReduce (· + ·))).bind fun num =>
  ((treeMap2 (fun a b => Arr.vdot (b.row last) (a.row last)) y y).bind (treeReduce (· + ·))).map fun denom =>
    if 0 < denom then num / denom else 1

/-- `init_history`, lines 117-119. -/
def initHistoryTree (m : ℕ) (x : PyTree (Arr K)) : Option (PyTree (Stack K m)) :=
  treeMap (fun a : Arr K => (⟨a.shape, List.replicate (m * a.shape.prod) 0, by simp⟩ : Stack K m)) x

/-- `update_history`, lines 122-124. -/
def updateHistoryLbfgs (h : PyTree (Stack K m)) (new : PyTree (Arr K)) (last : Fin m) : Option (PyTree (Stack K m)) := treeMap2 (Stack.set last) h new

end Jaxopt.Tree
