import Mathlib.Analysis.Real.Sqrt

/-!
# Model of the interpolation formulas of `jaxopt/_src/zoom_linesearch.py` (lines 63-120)

Arguments are finite numbers.  `none` stands for a result that is NaN or infinite; such a result is ignored by the caller, because every
comparison of the validity test (lines 518-533) with it is false.
-/

set_option autoImplicit false
set_option linter.unusedSectionVars false
set_option linter.unusedVariables false

namespace Jaxopt.LineSearch

/-- The coefficients `A, B` of `_cubicmin`, lines 84-88 (for `denom ≠ 0`). -/
noncomputable def cubicCoefs (a fa fpa b fb c fc : ℝ) : ℝ × ℝ :=
  let C := fpa
  let db := b - a
  let dc := c - a
  let denom := (db * dc) ^ 2 * (db - dc)
  let r1 := fb - fa - C * db
  let r2 := fc - fa - C * dc
  ((dc ^ 2 * r1 + -(db ^ 2) * r2) / denom, (-(dc ^ 3) * r1 + db ^ 3 * r2) / denom)

/-- `_cubicmin`, lines 63-93.  With `denom = 0` both coefficients are infinite or NaN and the result is NaN; with a negative radical the root
is NaN; with `A = 0` the last quotient has denominator zero. -/
noncomputable def cubicmin (a fa fpa b fb c fc : ℝ) : Option ℝ :=
  let C := fpa
  let db := b - a
  let dc := c - a
  let denom := (db * dc) ^ 2 * (db - dc)
  if denom = 0 then none
  else
    let AB := cubicCoefs a fa fpa b fb c fc
    let A := AB.1
    let B := AB.2
    let radical := B * B - 3 * A * C
    if radical < 0 then none
    else if 3 * A = 0 then none
    else some (a + (-B + √radical) / (3 * A))

/-- `_quadmin`, lines 96-120; `none` when a division by zero makes the result NaN or infinite. -/
noncomputable def quadmin (a fa fpa b fb : ℝ) : Option ℝ :=
  let D := fa
  let C := fpa
  let db := b - a
  if db ^ 2 = 0 then none
  else
    let B := (fb - D - C * db) / db ^ 2
    if 2 * B = 0 then none else some (a - C / (2 * B))

end Jaxopt.LineSearch
