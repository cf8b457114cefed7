import Mathlib.Probability.Distributions.Gaussian.Real
import Mathlib.MeasureTheory.Constructions.Pi

/-! The standard normal law on `ℝⁿ`. -/

namespace Pystra.Spec
open MeasureTheory ProbabilityTheory

/-- `n` independent standard normal variables. -/
noncomputable def stdGauss (n : ℕ) : Measure (Fin n → ℝ) := Measure.pi (fun _ => gaussianReal 0 1)

instance (n : ℕ) : IsProbabilityMeasure (stdGauss n) := by unfold stdGauss; infer_instance

end Pystra.Spec
