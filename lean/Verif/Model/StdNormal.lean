import Mathlib.MeasureTheory.Integral.IntervalIntegral.Basic
import Mathlib.MeasureTheory.Measure.Lebesgue.Basic
import Mathlib.Analysis.SpecialFunctions.Exp
import Mathlib.Analysis.SpecialFunctions.Sqrt
import Mathlib.Analysis.SpecialFunctions.Trigonometric.Basic

/-!
Model of `class StdNormal` (src/pystra/distributions/distribution.py 10–67).
`scipy.special.erf` is the error function (an integral); `scipy.special.erfinv` its inverse on `(-1, 1)`.
-/

namespace Pystra

open Real

/-- `scipy.special.erf`: `2/√π ∫₀ˣ e^{-t²} dt`. -/
noncomputable def erf (x : ℝ) : ℝ := 2 / √π * ∫ t in (0:ℝ)..x, exp (-t ^ 2)

open Classical in
/-- `scipy.special.erfinv`: some `x` with `erf x = y` if there is one (it is unique); outside `(-1, 1)` scipy
returns `±inf` or `nan`, here an arbitrary number — theorems only use `(-1, 1)`. -/
noncomputable def erfinv (y : ℝ) : ℝ := if h : ∃ x, erf x = y then h.choose else 0

namespace StdNormal

/-- `StdNormal.pdf` (distribution.py 19–33). -/
noncomputable def pdf (u : ℝ) : ℝ := exp (-0.5 * u ^ 2) / √(2 * π)

/-- `StdNormal.cdf` (distribution.py 35–50). -/
noncomputable def cdf (u : ℝ) : ℝ := 0.5 + erf (u / √2) / 2

/-- `StdNormal.ppf` (distribution.py 52–67). -/
noncomputable def ppf (p : ℝ) : ℝ := erfinv (2 * p - 1) * √2

end StdNormal
end Pystra
