import Verif.Model.Distribution
import Mathlib.Analysis.Calculus.Deriv.Basic

/-! Specification vocabulary for marginal distributions. -/

namespace Pystra.Spec
open MeasureTheory

/-- `x_to_u` and `u_to_x` are strictly increasing bijections between `S` and the real line, inverse to each
other. -/
structure RoundTrip (m : Marginal) (S : Set ℝ) : Prop where
  /-- `u_to_x` lands in `S` -/
  mem : ∀ u, m.uToX u ∈ S
  /-- `x_to_u ∘ u_to_x = id` -/
  left : ∀ u, m.xToU (m.uToX u) = u
  /-- `u_to_x ∘ x_to_u = id` on `S` -/
  right : ∀ x ∈ S, m.uToX (m.xToU x) = x
  /-- `u_to_x` is strictly increasing -/
  mono_x : StrictMono m.uToX
  /-- `x_to_u` is strictly increasing on `S` -/
  mono_u : StrictMonoOn m.xToU S

/-- `jacobian(x_to_u(x), x)` is the derivative of `x_to_u`, at every point of `S`. -/
def JacobianCorrect (m : Marginal) (S : Set ℝ) : Prop :=
  ∀ x ∈ S, HasDerivAt m.xToU (m.jac (m.xToU x) x) x

/-- `pdf` is a probability density with mean `μ` and standard deviation `σ`. -/
structure Law (pdf : ℝ → ℝ) (μ σ : ℝ) : Prop where
  /-- nonnegative -/
  nonneg : ∀ x, 0 ≤ pdf x
  /-- integrable -/
  int0 : Integrable pdf
  /-- total mass one -/
  mass : ∫ x, pdf x = 1
  /-- the mean exists -/
  int1 : Integrable (fun x => x * pdf x)
  /-- it is `μ` -/
  mean : ∫ x, x * pdf x = μ
  /-- the second moment exists -/
  int2 : Integrable (fun x => x ^ 2 * pdf x)
  /-- the variance is `σ²` -/
  var : ∫ x, (x - μ) ^ 2 * pdf x = σ ^ 2

end Pystra.Spec
