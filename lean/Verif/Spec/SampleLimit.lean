import Mathlib.Probability.ProductMeasure
import Mathlib.MeasureTheory.Measure.Lebesgue.Basic
import Mathlib.MeasureTheory.Constructions.UnitInterval

/-! Specification vocabulary for C114: statistics of a list of numbers, and the law of a stream of uniform numbers. -/

namespace Pystra.Spec
open MeasureTheory

/-- `np.mean` of a list. -/
noncomputable def listMean (xs : List ℝ) : ℝ := xs.sum / xs.length

/-- `np.std` of a list. -/
noncomputable def listStd (xs : List ℝ) : ℝ := √(listMean (xs.map fun x => (x - listMean xs) ^ 2))

open Classical in
/-- The share of the numbers in a list that do not exceed `x`. -/
noncomputable def listCdf (xs : List ℝ) (x : ℝ) : ℝ := (xs.countP fun y => y ≤ x) / (xs.length : ℝ)

/-- The law of a stream of independent numbers, uniform on `(0, 1)`. -/
noncomputable def uniStream : Measure (ℕ → ℝ) := Measure.infinitePi fun _ => volume.restrict (Set.Ioo (0:ℝ) 1)

end Pystra.Spec
