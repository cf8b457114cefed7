import Verif.Lemmas.StdNormal

/-! Property C11: the standard normal functions used by every transformation. -/

namespace Pystra.Props
open Real MeasureTheory Set Filter Topology ProbabilityTheory

/-- C11: the cdf is strictly increasing, with values in `(0, 1)` and limits 0 and 1. -/
theorem C11_cdf_shape :
    StrictMono StdNormal.cdf ∧ (∀ u, StdNormal.cdf u ∈ Ioo 0 1) ∧
      Tendsto StdNormal.cdf atBot (𝓝 0) ∧ Tendsto StdNormal.cdf atTop (𝓝 1) :=
  ⟨StdNormal.strictMono_cdf, fun u => ⟨StdNormal.cdf_pos u, StdNormal.cdf_lt_one u⟩,
    StdNormal.tendsto_cdf_atBot, StdNormal.tendsto_cdf_atTop⟩

/-- C11: symmetry. -/
theorem C11_symmetry (u : ℝ) :
    StdNormal.cdf (-u) = 1 - StdNormal.cdf u ∧ StdNormal.pdf (-u) = StdNormal.pdf u :=
  ⟨StdNormal.cdf_neg u, StdNormal.pdf_neg u⟩

/-- C11: the pdf is the Gaussian density and the derivative of the cdf. -/
theorem C11_density (u : ℝ) :
    StdNormal.pdf u = gaussianPDFReal 0 1 u ∧ HasDerivAt StdNormal.cdf (StdNormal.pdf u) u :=
  ⟨StdNormal.pdf_eq_gaussian u, StdNormal.hasDerivAt_cdf u⟩

/-- C11: the cdf is the distribution function of Mathlib's standard Gaussian measure. -/
theorem C11_measure (u : ℝ) : StdNormal.cdf u = cdf (gaussianReal 0 1) u := by
  rw [cdf_eq_real, gaussianReal_of_var_ne_zero _ one_ne_zero, measureReal_def,
    withDensity_apply _ measurableSet_Iic, ← StdNormal.integral_Iic_pdf,
    integral_eq_lintegral_of_nonneg_ae (Eventually.of_forall fun t => (StdNormal.pdf_pos t).le)
      StdNormal.continuous_pdf.aestronglyMeasurable]
  congr 1
  apply lintegral_congr
  intro t
  rw [gaussianPDF, StdNormal.pdf_eq_gaussian]

/-- C11: `ppf` is the two-sided inverse on `(0, 1)`. -/
theorem C11_inverse :
    (∀ p, 0 < p → p < 1 → StdNormal.cdf (StdNormal.ppf p) = p) ∧ (∀ u, StdNormal.ppf (StdNormal.cdf u) = u) ∧
      StrictMonoOn StdNormal.ppf (Ioo 0 1) :=
  ⟨fun _ => StdNormal.cdf_ppf, StdNormal.ppf_cdf, StdNormal.strictMonoOn_ppf⟩

/-- Non-vacuity: the median. -/
example : StdNormal.ppf (1 / 2) = 0 := by rw [← StdNormal.cdf_zero, StdNormal.ppf_cdf]

end Pystra.Props
