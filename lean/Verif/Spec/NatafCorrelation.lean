import Verif.Spec.NatafLaw
import Mathlib.Probability.Moments.Variance
import Mathlib.Probability.Moments.Covariance

/-! The correlation coefficient of two random variables. -/

namespace Pystra.Spec
open MeasureTheory ProbabilityTheory

/-- The correlation coefficient `Cov[X, Y] / (σ_X σ_Y)` of two random variables. -/
noncomputable def pearson {Ω : Type} [MeasurableSpace Ω] (P : Measure Ω) (X Y : Ω → ℝ) : ℝ :=
  (∫ ω, (X ω - ∫ ω, X ω ∂P) * (Y ω - ∫ ω, Y ω ∂P) ∂P) /
    (√(∫ ω, (X ω - ∫ ω, X ω ∂P) ^ 2 ∂P) * √(∫ ω, (Y ω - ∫ ω, Y ω ∂P) ^ 2 ∂P))

/-- The correlation coefficient of two variables that are increasing functions of the same standard normal variable:
the variables `mi` and `mj` with the strongest possible dependence. -/
noncomputable def highest (mi mj : Marginal) : ℝ := pearson (gaussianReal 0 1) mi.uToX mj.uToX

/-- The same with the strongest possible negative dependence. -/
noncomputable def lowest (mi mj : Marginal) : ℝ := pearson (gaussianReal 0 1) mi.uToX fun z => mj.uToX (-z)

end Pystra.Spec
