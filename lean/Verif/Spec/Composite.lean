import Verif.Spec.Wrappers
import Verif.Spec.NatafLaw
import Mathlib.Probability.CDF

/-! Specification vocabulary for variables of the composite classes (C93). -/

namespace Pystra.Spec
open MeasureTheory ProbabilityTheory Set

/-- A distribution object whose `cdf` is the distribution function of `μ`, whose `ppf` is its quantile function, and whose `u_to_x` is
`ppf(Φ(u))`. -/
structure Describes (d : Marginal) (μ : Measure ℝ) : Prop where
  cdf : ∀ x, d.cdf x = ProbabilityTheory.cdf μ x
  ppf : ∀ t, 0 < t → t < 1 → ∀ x, t ≤ ProbabilityTheory.cdf μ x ↔ d.ppf t ≤ x
  uToX : ∀ u, d.uToX u = d.ppf (StdNormal.cdf u)

/-- `u_to_x` turns a standard normal variable into one with the law `μ`. -/
structure Draws (m : Marginal) (μ : Measure ℝ) : Prop where
  measurable : Measurable m.uToX
  law : (gaussianReal 0 1).map m.uToX = μ

/-- The law of the largest of `n + 1` independent variables with the law `μ`. -/
noncomputable def largestOf (n : ℕ) (μ : Measure ℝ) : Measure ℝ :=
  (Measure.pi fun _ : Fin (n + 1) => μ).map (fun v => Finset.univ.sup' Finset.univ_nonempty v)

/-- Continuous and strictly increasing where strictly between 0 and 1. -/
structure Continuously (F : ℝ → ℝ) : Prop where
  attains : ∀ p, 0 < p → p < 1 → ∃ x, F x = p
  injective : ∀ x y, 0 < F x → F x < 1 → F x = F y → x = y

/-- Monotone with values in `[0, 1]`. -/
structure ProperCdf (F : ℝ → ℝ) : Prop where
  mono : Monotone F
  mem : ∀ x, 0 ≤ F x ∧ F x ≤ 1

end Pystra.Spec
