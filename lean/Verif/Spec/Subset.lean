import Mathlib.Data.Real.Basic
import Mathlib.Data.Set.Card
import Mathlib.Probability.ProductMeasure
import Mathlib.MeasureTheory.Measure.Lebesgue.Basic

/-! Specification vocabulary for subset simulation. -/

namespace Pystra.Spec

open Classical in
/-- How many numbers of the list are at most `y`. -/
noncomputable def countLe (G : List ℝ) (y : ℝ) : ℕ := (G.filter (fun g => g ≤ y)).length

open Classical in
/-- How many numbers of the list are below `y`. -/
noncomputable def countLt (G : List ℝ) (y : ℝ) : ℕ := (G.filter (fun g => g < y)).length

/-- `y` is a `p`-quantile of the list (up to the interpolation between two neighbouring order statistics). -/
def IsQuantile (p : ℝ) (G : List ℝ) (y : ℝ) : Prop :=
  p * ((G.length : ℝ) - 1) < countLe G y ∧ (countLt G y : ℝ) ≤ p * ((G.length : ℝ) - 1) + 1

/-- The uniform law on `[0, 1)`. -/
noncomputable def unif01 : MeasureTheory.Measure ℝ := MeasureTheory.volume.restrict (Set.Ico 0 1)

instance : MeasureTheory.IsProbabilityMeasure unif01 := ⟨by simp [unif01]⟩

/-- The law of a stream of independent uniform draws. -/
noncomputable def unifStream : MeasureTheory.Measure (ℕ → ℝ) := MeasureTheory.Measure.infinitePi (fun _ => unif01)

instance : MeasureTheory.IsProbabilityMeasure unifStream := by unfold unifStream; infer_instance

end Pystra.Spec
