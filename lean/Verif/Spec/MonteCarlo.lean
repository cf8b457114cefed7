import Verif.Model.MonteCarlo
import Verif.Spec.LimitState
import Verif.Spec.Gauss
import Mathlib.Probability.ProductMeasure

/-! Specification vocabulary for the sampling methods. -/

namespace Pystra.Spec
open Transformation

variable {σ : Type} {n : ℕ}

/-- The standard normal vector of sample `j` (counted from 0) in a simulation of `N` samples in blocks of `bs`, drawn
from position `pos` of the stream: sample `j` is column `j % bs` of block `j / bs`; a block of `b` samples consists of
`n` consecutive runs of `b` draws, one run per variable. -/
def mcDraw (ω : ℕ → ℝ) (n bs N pos j : ℕ) : Fin n → ℝ :=
  fun r => ω (pos + n * (bs * (j / bs)) + r.val * min bs (N - bs * (j / bs)) + j % bs)

/-- The coefficient of variation of the mean of `k` numbers with sum `S` and sum of squares `S2`, as the ratio of the
estimated standard error to the mean; 1 when the mean is not positive or the ratio is 0. -/
noncomputable def cvOfMean (k : ℕ) (S S2 : ℝ) : ℝ :=
  open Classical in
  if 0 < S then
    let r := √((S2 / k - (S / k) ^ 2) / k) / (S / k)
    if r = 0 then 1 else r
  else 1

/-- An evaluator that returns the values of `f` at every list of points, as long as its state satisfies `P` (which it
preserves). -/
def Values (ev : Form.Evaluator σ n) (P : σ → Prop) (f : (Fin n → ℝ) → ℝ) : Prop :=
  ∀ s, P s → ∀ xs, ∃ s', ev.values s xs = (s', .ok (xs.map f)) ∧ P s'

/-- The density of `n` independent normal variables with means `c` and common standard deviation `s`. -/
noncomputable def normalDensity (c : Fin n → ℝ) (s : ℝ) (u : Fin n → ℝ) : ℝ :=
  ∏ i, ProbabilityTheory.gaussianPDFReal (c i) (Real.toNNReal (s ^ 2)) (u i)

/-- The law of a stream of independent standard normal draws. -/
noncomputable def stream : MeasureTheory.Measure (ℕ → ℝ) :=
  MeasureTheory.Measure.infinitePi (fun _ => ProbabilityTheory.gaussianReal 0 1)

/-- Sample `j` of a simulation centred at `c` with standard deviation `s`. -/
def mcSample (s : ℝ) (c : Fin n → ℝ) (ω : ℕ → ℝ) (bs N pos j : ℕ) : Fin n → ℝ :=
  fun r => c r + s * mcDraw ω n bs N pos j r

end Pystra.Spec
