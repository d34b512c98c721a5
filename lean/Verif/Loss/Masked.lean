import Verif.Loss.Model
import Verif.Num.ExtArith

/-!
# Model of `jaxopt/_src/loss.py` on infinite scores

Scores are IEEE numbers: finite, infinite or NaN.  Finite arithmetic is exact (so the order of additions does not matter: addition of `Ext K`
is associative).
-/

set_option autoImplicit false
set_option linter.unusedSectionVars false
set_option linter.unusedVariables false

namespace Jaxopt.Loss

open Jaxopt.Proj

variable {K : Type*} [Field K] [LinearOrder K]

/-- IEEE multiplication. -/
def mulE : Ext K → Ext K → Ext K
  | .nan, _ => .nan
  | _, .nan => .nan
  | .fin x, b => Ext.smul x b
  | a, .fin y => Ext.smul y a
  | .pinf, .pinf => .pinf
  | .ninf, .ninf => .pinf
  | .pinf, .ninf => .ninf
  | .ninf, .pinf => .ninf

/-- IEEE division by a natural number converted to a float. -/
def divNatE (a : Ext K) (k : ℕ) : Ext K :=
  match a with
  | .fin x => if k = 0 then (if 0 < x then .pinf else if x < 0 then .ninf else .nan) else .fin (x / (k : K))
  | v => v

/-- The sum of a list. -/
def sumE (l : List (Ext K)) : Ext K := l.foldr Ext.add (.fin 0)

/-- `jnp.max` of a non-empty vector (NaN propagates). -/
def vmaxE {n : ℕ} (s : Fin n → Ext K) : Ext K := (List.ofFn s).foldr Ext.max .ninf

/-- `jnp.dot` of vectors. -/
def dotE {n : ℕ} (a b : Fin n → Ext K) : Ext K := sumE (List.ofFn fun j => mulE (a j) (b j))

/-- `jax.nn.one_hot`. -/
def oneHotE {n : ℕ} (label : Fin n) : Fin n → Ext K := fun j => .fin (oneHot label j)

/-- `(scores - scores[label]).at[label].set(0.0)`, loss.py lines 183 and 205. -/
def centeredE {n : ℕ} (label : Fin n) (s : Fin n → Ext K) : Fin n → Ext K := Function.update (fun j => Ext.sub (s j) (s label)) label (.fin 0)

/-- The order of `jnp.sort(x)[::-1]`: decreasing, NaN first. -/
def sortGe : Ext K → Ext K → Prop
  | .nan, _ => True
  | a, b => Ext.le b a = true

instance : DecidableRel (sortGe (K := K)) := fun a b => by
  cases a <;> unfold sortGe <;> infer_instance

/-- `jnp.cumsum`. -/
def cumsumE (u : List (Ext K)) : List (Ext K) := (List.range u.length).map fun i => sumE (u.take (i + 1))

/-- `s / ind + (u - cumsum_u / ind)` of projection.py lines 103 and 105. -/
def gapE (k : ℕ) (xi c : Ext K) : Ext K := Ext.add (divNatE (.fin 1) k) (Ext.sub xi (divNatE c k))

/-- `idx` of projection.py lines 101-104. -/
def countE (u : List (Ext K)) : ℕ :=
  ((List.range u.length).filter fun i => Ext.gt (gapE (i + 1) (u.getD i .nan) ((cumsumE u).getD i .nan)) (.fin 0)).length

/-- The value returned on projection.py line 105 for one coordinate (index -1 is the last one). -/
def entryE (u : List (Ext K)) (xi : Ext K) : Ext K :=
  let idx := countE u
  Ext.max (gapE idx xi ((cumsumE u).getD (if idx = 0 then u.length - 1 else idx - 1) .nan)) (.fin 0)

/-- `_projection_unit_simplex`, projection.py lines 95-105; also `projection_simplex` with `value = 1.0`. -/
def simplexE {n : ℕ} (x : Fin n → Ext K) : Fin n → Ext K := fun i => entryE ((List.ofFn x).insertionSort sortGe) (x i)

/-- `multiclass_sparsemax_loss`, loss.py lines 201-207. -/
def multiclassSparsemaxLossE {n : ℕ} (label : Fin n) (scores : Fin n → Ext K) : Ext K :=
  let proba := simplexE scores
  let s := centeredE label scores
  Ext.add (dotE proba (fun j => if proba j ≠ .fin 0 then s j else .fin 0)) (Ext.smul (1 / 2) (Ext.sub (.fin 1) (dotE proba proba)))

/-- `multiclass_hinge_loss`, loss.py lines 223-224. -/
def multiclassHingeLossE {n : ℕ} (label : Fin n) (scores : Fin n → Ext K) : Ext K :=
  Ext.sub (vmaxE fun j => Ext.sub (Ext.add (scores j) (.fin 1)) (oneHotE label j)) (dotE scores (oneHotE label))

/-- `multiclass_perceptron_loss`, loss.py lines 241-242. -/
def multiclassPerceptronLossE {n : ℕ} (label : Fin n) (scores : Fin n → Ext K) : Ext K :=
  Ext.sub (vmaxE scores) (dotE scores (oneHotE label))

/-- The loss made by `make_fenchel_young_loss`, loss.py lines 274-275. -/
def fyLossE {n : ℕ} (maxFun : (Fin n → Ext K) → Ext K) (yTrue scores : Fin n → Ext K) : Ext K := Ext.sub (maxFun scores) (dotE yTrue scores)

/-- `jnp.where(label, -logit, logit)`, loss.py lines 64 and 80. -/
def flipE (label : Bool) (logit : Ext K) : Ext K := if label then Ext.neg logit else logit

/-- `binary_sparsemax_loss`, loss.py lines 80 and 106. -/
def binarySparsemaxLossE (label : Bool) (logit : Ext K) : Ext K :=
  let x := flipE label logit
  if Ext.le x (.fin (-1)) then .fin 0 else if Ext.le (.fin 1) x then x
    else Ext.smul (1 / 4) (mulE (Ext.add x (.fin 1)) (Ext.add x (.fin 1)))

/-- `binary_hinge_loss`, loss.py lines 147-148. -/
def binaryHingeLossE (label : Bool) (score : Ext K) : Ext K := Ext.max (.fin 0) (Ext.sub (.fin 1) (Ext.smul (signedLabel label) score))

/-- `binary_perceptron_loss`, loss.py lines 163-164. -/
def binaryPerceptronLossE (label : Bool) (score : Ext K) : Ext K := Ext.max (.fin 0) (Ext.smul (signedLabel label) (Ext.neg score))

/-- `jnp.exp`. -/
noncomputable def expE : Ext ℝ → Ext ℝ
  | .nan => .nan
  | .ninf => .fin 0
  | .fin x => .fin (Real.exp x)
  | .pinf => .pinf

/-- `jnp.log`. -/
noncomputable def logE : Ext ℝ → Ext ℝ
  | .fin x => if 0 < x then .fin (Real.log x) else if x = 0 then .ninf else .nan
  | .pinf => .pinf
  | _ => .nan

/-- `jax.nn.softplus`: `logaddexp(x, 0)`, computed as `where(isnan(x - 0), x + 0, max(x, 0) + log1p(exp(-|x - 0|)))`. -/
noncomputable def softplusE (x : Ext ℝ) : Ext ℝ :=
  let delta := Ext.sub x (.fin 0)
  if delta.isNan then Ext.add x (.fin 0) else Ext.add (Ext.max x (.fin 0)) (logE (Ext.add (.fin 1) (expE (Ext.neg (Ext.abs delta)))))

/-- `binary_logistic_loss`, loss.py line 64. -/
noncomputable def binaryLogisticLossE (label : Bool) (logit : Ext ℝ) : Ext ℝ := softplusE (flipE label logit)

/-- `jax.scipy.special.logsumexp`: the maximum is subtracted if it is finite. -/
noncomputable def logsumexpE {n : ℕ} (a : Fin n → Ext ℝ) : Ext ℝ :=
  let amax := vmaxE a
  let amax := if amax.isNan || amax.isInf then .fin 0 else amax
  Ext.add (logE (sumE (List.ofFn fun j => expE (Ext.sub (a j) amax)))) amax

/-- `multiclass_logistic_loss`, loss.py lines 183-184. -/
noncomputable def multiclassLogisticLossE {n : ℕ} (label : Fin n) (logits : Fin n → Ext ℝ) : Ext ℝ := logsumexpE (centeredE label logits)

end Jaxopt.Loss
