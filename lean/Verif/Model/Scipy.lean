import Verif.Model.StdNormal
import Verif.Model.Basic
import Mathlib.Analysis.SpecialFunctions.Gamma.Basic
import Mathlib.Analysis.SpecialFunctions.Pow.Real
import Mathlib.Analysis.SpecialFunctions.Log.Basic
import Mathlib.MeasureTheory.Integral.Bochner.Basic

/-!
The `scipy.stats` frozen distributions that pystra's distribution classes wrap, by their documented
densities, distribution functions and quantile functions (standard form, then `loc`/`scale`).
This file is part of the trusted base: it models scipy, not pystra.
-/

namespace Pystra

open Real MeasureTheory

/-- A frozen continuous distribution (`scipy.stats.rv_frozen`). -/
structure Frozen where
  /-- `.pdf` -/
  pdf : ℝ → ℝ
  /-- `.cdf` -/
  cdf : ℝ → ℝ
  /-- `.ppf` -/
  ppf : ℝ → ℝ

/-- A floating point number that may be infinite or nan. -/
inductive Num where
  | fin (v : ℝ)
  | nonfinite

namespace Frozen

/-- `.mean()`: the expectation. -/
noncomputable def mean (f : Frozen) : ℝ := ∫ x, x * f.pdf x

open Classical in
/-- `.std()`: the standard deviation, non-finite when the second moment diverges. -/
noncomputable def std (f : Frozen) : Num :=
  if Integrable (fun x => x ^ 2 * f.pdf x) then .fin (√(∫ x, (x - f.mean) ^ 2 * f.pdf x)) else .nonfinite

/-- scipy's `loc`/`scale` convention for continuous distributions. -/
noncomputable def locScale (f : Frozen) (loc scale : ℝ) : Frozen where
  pdf x := f.pdf ((x - loc) / scale) / scale
  cdf x := f.cdf ((x - loc) / scale)
  ppf p := loc + scale * f.ppf p

open Classical in
/-- A quantile function by inversion of the cdf (used where scipy inverts a special function). -/
noncomputable def invOf (cdf : ℝ → ℝ) (p : ℝ) : ℝ := if h : ∃ x, cdf x = p then h.choose else 0

/-- `uniform` on `[0, 1]`. -/
noncomputable def uniform01 : Frozen where
  pdf x := if 0 ≤ x ∧ x ≤ 1 then 1 else 0
  cdf x := max 0 (min x 1)
  ppf p := p

/-- `lognorm(s)`. -/
noncomputable def lognorm (s : ℝ) : Frozen where
  pdf x := if 0 < x then exp (-(log x) ^ 2 / (2 * s ^ 2)) / (s * x * √(2 * π)) else 0
  cdf x := if 0 < x then StdNormal.cdf (log x / s) else 0
  ppf p := exp (s * StdNormal.ppf p)

/-- `expon`. -/
noncomputable def expon : Frozen where
  pdf x := if 0 ≤ x then exp (-x) else 0
  cdf x := if 0 ≤ x then 1 - exp (-x) else 0
  ppf p := -log (1 - p)

/-- `rayleigh`. -/
noncomputable def rayleigh : Frozen where
  pdf x := if 0 ≤ x then x * exp (-x ^ 2 / 2) else 0
  cdf x := if 0 ≤ x then 1 - exp (-x ^ 2 / 2) else 0
  ppf p := √(-2 * log (1 - p))

/-- `gumbel_r`. -/
noncomputable def gumbelR : Frozen where
  pdf x := exp (-(x + exp (-x)))
  cdf x := exp (-exp (-x))
  ppf p := -log (-log p)

/-- `gumbel_l`. -/
noncomputable def gumbelL : Frozen where
  pdf x := exp (x - exp x)
  cdf x := 1 - exp (-exp x)
  ppf p := log (-log (1 - p))

/-- `weibull_min(c)`. -/
noncomputable def weibullMin (c : ℝ) : Frozen where
  pdf x := if 0 < x then c * x ^ (c - 1) * exp (-x ^ c) else 0
  cdf x := if 0 < x then 1 - exp (-x ^ c) else 0
  ppf p := (-log (1 - p)) ^ (1 / c)

/-- `invweibull(c)` (Fréchet). -/
noncomputable def invweibull (c : ℝ) : Frozen where
  pdf x := if 0 < x then c * x ^ (-c - 1) * exp (-x ^ (-c)) else 0
  cdf x := if 0 < x then exp (-x ^ (-c)) else 0
  ppf p := (-log p) ^ (-1 / c)

/-- `gamma(a)`. -/
noncomputable def gamma (a : ℝ) : Frozen where
  pdf x := if 0 < x then x ^ (a - 1) * exp (-x) / Gamma a else 0
  cdf x := if 0 < x then ∫ t in (0:ℝ)..x, t ^ (a - 1) * exp (-t) / Gamma a else 0
  ppf := invOf (fun x => if 0 < x then ∫ t in (0:ℝ)..x, t ^ (a - 1) * exp (-t) / Gamma a else 0)

/-- `chi2(df)`: a gamma distribution with shape `df/2` and scale 2. -/
noncomputable def chi2 (df : ℝ) : Frozen := (gamma (df / 2)).locScale 0 2

/-- `beta(a, b)` on `[0, 1]`. -/
noncomputable def betaDist (a b : ℝ) : Frozen where
  pdf x := if 0 < x ∧ x < 1 then Gamma (a + b) / (Gamma a * Gamma b) * x ^ (a - 1) * (1 - x) ^ (b - 1) else 0
  cdf x := ∫ t in Set.Iic x,
    (if 0 < t ∧ t < 1 then Gamma (a + b) / (Gamma a * Gamma b) * t ^ (a - 1) * (1 - t) ^ (b - 1) else 0)
  ppf := invOf (fun x => ∫ t in Set.Iic x,
    (if 0 < t ∧ t < 1 then Gamma (a + b) / (Gamma a * Gamma b) * t ^ (a - 1) * (1 - t) ^ (b - 1) else 0))

open Classical in
/-- `genextreme(c)` (scipy's sign convention; `c = 0` is Gumbel). -/
noncomputable def genextreme (c : ℝ) : Frozen where
  pdf x := if c = 0 then exp (-(x + exp (-x)))
    else if 0 < 1 - c * x then exp (-(1 - c * x) ^ (1 / c)) * (1 - c * x) ^ (1 / c - 1) else 0
  cdf x := if c = 0 then exp (-exp (-x))
    else if 0 < 1 - c * x then exp (-(1 - c * x) ^ (1 / c)) else (if 0 < c then 1 else 0)
  ppf p := if c = 0 then -log (-log p) else (1 - (-log p) ^ c) / c

end Frozen
end Pystra
