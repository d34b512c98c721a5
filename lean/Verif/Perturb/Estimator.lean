import Mathlib.Analysis.Calculus.Deriv.Basic
import Mathlib.Analysis.SpecialFunctions.Exp
import Mathlib.Algebra.BigOperators.Group.Finset.Basic

/-!
# Model of the derivative estimators of `jaxopt/_src/perturbations.py`

Arrays are flattened (`jnp.reshape(..., (num_samples, -1))`): an input is `Fin D → ℝ`, an output `Fin R → ℝ`, the samples are an
`N × D` array.  For a fixed key `noise.sample` is a fixed array, which is a parameter; `jax.grad(noise.log_prob)` is the derivative.
-/

set_option autoImplicit false
set_option linter.unusedSectionVars false
set_option linter.unusedVariables false

namespace Jaxopt.Perturb

variable {N D R : ℕ}

/-- `Normal.log_prob`, perturbations.py lines 29-30. -/
noncomputable def normalLogProb (z : ℝ) : ℝ := -(1 / 2) * z ^ 2

/-- `Gumbel.log_prob`, perturbations.py lines 41-42. -/
noncomputable def gumbelLogProb (z : ℝ) : ℝ := -z - Real.exp (-z)

/-- `forward_pert` of `make_perturbed_argmax` (lines 92-97, `R = D`) and of `make_perturbed_fun` (lines 249-254). -/
noncomputable def forwardPert (f : (Fin D → ℝ) → Fin R → ℝ) (sigma : ℝ) (samples : Fin N → Fin D → ℝ) (inputs : Fin D → ℝ) (d : Fin R) : ℝ :=
  (∑ n, f (inputs + sigma • samples n) d) / (N : ℝ)

/-- `nabla_z_flat` reshaped, lines 104, 118, 261 and 276. -/
noncomputable def nablaZ (logProb : ℝ → ℝ) (samples : Fin N → Fin D → ℝ) (n : Fin N) (e : Fin D) : ℝ := -deriv logProb (samples n e)

/-- `pert_jvp` of `make_perturbed_argmax` (lines 99-110) and of `make_perturbed_fun` (lines 256-268), flattened. -/
noncomputable def pertJvp (f : (Fin D → ℝ) → Fin R → ℝ) (sigma : ℝ) (logProb : ℝ → ℝ) (samples : Fin N → Fin D → ℝ)
    (inputs tangent : Fin D → ℝ) (d : Fin R) : ℝ :=
  1 / ((N : ℝ) * sigma) * ∑ n, ∑ e, f (inputs + sigma • samples n) d * nablaZ logProb samples n e * tangent e

/-- `pert_jvp_control_variate` of `make_perturbed_argmax` (lines 112-124), and of `make_perturbed_fun` (lines 270-284) for outputs
without axes (`R = 1`), flattened. -/
noncomputable def pertJvpCv (f : (Fin D → ℝ) → Fin R → ℝ) (sigma : ℝ) (logProb : ℝ → ℝ) (samples : Fin N → Fin D → ℝ)
    (inputs tangent : Fin D → ℝ) (d : Fin R) : ℝ :=
  1 / ((N : ℝ) * sigma) * ∑ n, ∑ e, (f (inputs + sigma • samples n) d - f inputs d) * nablaZ logProb samples n e * tangent e

/-! ## Shapes -/

/-- The shape rule of `jnp` broadcasting, on reversed shapes. -/
def broadcastRev : List ℕ → List ℕ → Option (List ℕ)
  | [], t => some t
  | s, [] => some s
  | a :: s, b :: t =>
    if a = b then (broadcastRev s t).map (a :: ·)
    else if a = 1 then (broadcastRev s t).map (b :: ·)
    else if b = 1 then (broadcastRev s t).map (a :: ·)
    else none

/-- The shape of a sum or difference of arrays, `none` if they cannot be broadcast. -/
def broadcast (s t : List ℕ) : Option (List ℕ) := (broadcastRev s.reverse t.reverse).map List.reverse

/-- The size of the second axis of `jnp.reshape(a, (num_samples, -1))`. -/
def flatSize (numSamples : ℕ) (s : List ℕ) : Option ℕ :=
  if numSamples ≠ 0 ∧ s.prod % numSamples = 0 then some (s.prod / numSamples) else none

/-- `jnp.squeeze(jnp.reshape(a, target))` for a vector of `size` entries. -/
def squeezeReshape (size : ℕ) (target : List ℕ) : Option (List ℕ) :=
  if size = target.prod then some (target.filter (· ≠ 1)) else none

/-- The shape of the result of `pert_jvp` of `make_perturbed_fun`, lines 256-268, for outputs of shape `out`; `none` if it raises. -/
def funJvpShape (numSamples : ℕ) (out : List ℕ) : Option (List ℕ) :=
  let outputPert := numSamples :: (out ++ [1])
  (flatSize numSamples outputPert).bind fun d => squeezeReshape d (out ++ [1])

/-- The shape of the result of `pert_jvp_control_variate` of `make_perturbed_fun`, lines 270-284; `none` if it raises. -/
def funJvpCvShape (numSamples : ℕ) (out : List ℕ) : Option (List ℕ) :=
  let outputPert := numSamples :: (out ++ [1])
  (broadcast outputPert out).bind fun diff =>
    (flatSize numSamples diff).bind fun d => squeezeReshape d (out ++ [1])

end Jaxopt.Perturb
