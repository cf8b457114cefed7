import Mathlib.Analysis.SpecialFunctions.Pow.Real
import Mathlib.LinearAlgebra.Matrix.PosDef

/-!
Specification for C118: limit states that compare two products of powers of lognormal variables, and the textbook index of the logarithmic
safety margin.
-/

namespace Pystra.Spec

variable {n : ℕ}

/-- `c · Π xᵢ^aᵢ`. -/
noncomputable def product (c : ℝ) (a x : Fin n → ℝ) : ℝ := c * ∏ i, x i ^ a i

/-- Standard deviation of the logarithm of a lognormal variable with the given mean and standard deviation. -/
noncomputable def logDev (mean sd : ℝ) : ℝ := √(Real.log (1 + (sd / mean) ^ 2))

/-- Mean of the logarithm of such a variable. -/
noncomputable def logMean (mean sd : ℝ) : ℝ := Real.log mean - logDev mean sd ^ 2 / 2

/-- Standard deviation of `Σ aᵢ ln Xᵢ` when the logarithms have correlation matrix `R`. -/
noncomputable def productDev (a mean sd : Fin n → ℝ) (R : Matrix (Fin n) (Fin n) ℝ) : ℝ :=
  √(∑ i, ∑ j, (a i * logDev (mean i) (sd i)) * R i j * (a j * logDev (mean j) (sd j)))

/-- Mean of the logarithmic margin `ln (cR Π Xᵢ^aᵢ) - ln (cS Π Xᵢ^bᵢ)` divided by its standard deviation. -/
noncomputable def logIndex (cR : ℝ) (a : Fin n → ℝ) (cS : ℝ) (b mean sd : Fin n → ℝ) (R : Matrix (Fin n) (Fin n) ℝ) : ℝ :=
  (Real.log cR - Real.log cS + ∑ i, (a i - b i) * logMean (mean i) (sd i)) / productDev (fun i => a i - b i) mean sd R

end Pystra.Spec
