import Verif.Model.Distribution
import Mathlib.Probability.CDF

/-! Specification of mixtures, and of the minimiser's contract. -/

namespace Pystra.Spec
open MeasureTheory

/-- What `fmin` is trusted for: the point returned minimises the objective. -/
def Minimises (fmin : Minimiser) : Prop := ∀ obj : ℝ → ℝ, (∃ y, ∀ x, obj y ≤ obj x) → ∀ x, obj (fmin obj) ≤ obj x

/-- The mixture that is 0 with probability `p` and distributed as `μ` otherwise. -/
noncomputable def zeroInflate (μ : Measure ℝ) (p : ℝ) : Measure ℝ :=
  ENNReal.ofReal p • Measure.dirac 0 + ENNReal.ofReal (1 - p) • μ

/-- `ppf` is the generalised inverse of `cdf` at probability `t`, tested at the points outside `W`. -/
def QuantileAt (cdf ppf : ℝ → ℝ) (t : ℝ) (W : Set ℝ) : Prop := ∀ x ∉ W, t ≤ cdf x ↔ ppf t ≤ x

end Pystra.Spec
