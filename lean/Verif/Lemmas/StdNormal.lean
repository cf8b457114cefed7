import Verif.Model.StdNormal
import Mathlib.Analysis.SpecialFunctions.Gaussian.GaussianIntegral
import Mathlib.MeasureTheory.Integral.IntegralEqImproper
import Mathlib.Analysis.Calculus.Deriv.MeanValue
import Mathlib.Analysis.Calculus.Deriv.Inverse
import Mathlib.Probability.Distributions.Gaussian.Real
import Mathlib.Probability.CDF
import Mathlib.Tactic.FieldSimp

namespace Pystra
open Real MeasureTheory Filter Topology Set

theorem hasDerivAt_erf (x : ℝ) : HasDerivAt erf (2 / √π * exp (-x ^ 2)) x := by
  unfold erf
  apply HasDerivAt.const_mul
  have hc : Continuous (fun t : ℝ => exp (-t ^ 2)) := by fun_prop
  exact intervalIntegral.integral_hasDerivAt_right (hc.intervalIntegrable _ _)
    (hc.stronglyMeasurableAtFilter _ _) hc.continuousAt

theorem continuous_erf : Continuous erf :=
  continuous_iff_continuousAt.2 fun x => (hasDerivAt_erf x).continuousAt

theorem strictMono_erf : StrictMono erf := by
  apply strictMono_of_hasDerivAt_pos hasDerivAt_erf
  intro x
  positivity

theorem erf_zero : erf 0 = 0 := by simp [erf]

theorem erf_neg (x : ℝ) : erf (-x) = -erf x := by
  unfold erf
  rw [← mul_neg]
  congr 1
  have h := intervalIntegral.integral_comp_neg (a := 0) (b := x) (fun t : ℝ => exp (-t ^ 2))
  simp only [neg_sq, neg_zero] at h
  rw [h, intervalIntegral.integral_symm]

theorem tendsto_erf_atTop : Tendsto erf atTop (𝓝 1) := by
  have hI : IntegrableOn (fun t : ℝ => exp (-t ^ 2)) (Ioi 0) := by
    have := (integrable_exp_neg_mul_sq (b := 1) one_pos).integrableOn (s := Ioi 0)
    simpa using this
  have h := intervalIntegral_tendsto_integral_Ioi (0:ℝ) hI tendsto_id
  have hv : ∫ t in Ioi (0:ℝ), exp (-t ^ 2) = √π / 2 := by
    have := integral_gaussian_Ioi 1
    simpa using this
  rw [hv] at h
  have h2 := h.const_mul (2 / √π)
  have : 2 / √π * (√π / 2) = 1 := by
    have : √π ≠ 0 := by positivity
    field_simp
  rw [this] at h2
  exact h2

theorem tendsto_erf_atBot : Tendsto erf atBot (𝓝 (-1)) := by
  have h := (tendsto_erf_atTop.comp tendsto_neg_atBot_atTop).neg
  refine h.congr ?_
  intro x
  simp [erf_neg]

theorem erf_lt_one (x : ℝ) : erf x < 1 := by
  have h1 : erf x < erf (x + 1) := strictMono_erf (by linarith)
  have h2 : erf (x + 1) ≤ 1 := strictMono_erf.monotone.ge_of_tendsto tendsto_erf_atTop _
  linarith

theorem neg_one_lt_erf (x : ℝ) : -1 < erf x := by
  have := erf_lt_one (-x)
  rw [erf_neg] at this
  linarith

theorem exists_erf_eq {y : ℝ} (h1 : -1 < y) (h2 : y < 1) : ∃ x, erf x = y := by
  obtain ⟨a, ha⟩ := (tendsto_erf_atBot.eventually_lt_const h1).exists
  obtain ⟨b, hb⟩ := (tendsto_erf_atTop.eventually_const_lt h2).exists
  exact mem_range_of_exists_le_of_exists_ge continuous_erf ⟨a, ha.le⟩ ⟨b, hb.le⟩

theorem erf_erfinv {y : ℝ} (h1 : -1 < y) (h2 : y < 1) : erf (erfinv y) = y := by
  have h := exists_erf_eq h1 h2
  unfold erfinv
  rw [dif_pos h]
  exact h.choose_spec

theorem erfinv_erf (x : ℝ) : erfinv (erf x) = x :=
  strictMono_erf.injective (erf_erfinv (neg_one_lt_erf x) (erf_lt_one x))

namespace StdNormal

theorem pdf_pos (u : ℝ) : 0 < pdf u := by unfold pdf; positivity

theorem pdf_neg (u : ℝ) : pdf (-u) = pdf u := by simp [pdf]

theorem continuous_pdf : Continuous pdf := by unfold pdf; fun_prop

theorem hasDerivAt_cdf (u : ℝ) : HasDerivAt cdf (pdf u) u := by
  have h1 : HasDerivAt (fun v : ℝ => v / √2) (1 / √2) u := (hasDerivAt_id u).div_const _
  have h := (((hasDerivAt_erf (u / √2)).comp u h1).div_const 2).const_add (0.5 : ℝ)
  refine h.congr_deriv ?_
  unfold pdf
  rw [div_pow, Real.sq_sqrt (by norm_num : (0:ℝ) ≤ 2)]
  rw [show √(2 * π) = √2 * √π from Real.sqrt_mul (by norm_num) _]
  have e : -(u ^ 2 / 2) = -0.5 * u ^ 2 := by ring
  rw [e]
  field_simp

theorem continuous_cdf : Continuous cdf :=
  continuous_iff_continuousAt.2 fun x => (hasDerivAt_cdf x).continuousAt

theorem strictMono_cdf : StrictMono cdf :=
  strictMono_of_hasDerivAt_pos hasDerivAt_cdf pdf_pos

theorem cdf_pos (u : ℝ) : 0 < cdf u := by
  unfold cdf
  have := neg_one_lt_erf (u / √2)
  linarith

theorem cdf_lt_one (u : ℝ) : cdf u < 1 := by
  unfold cdf
  have := erf_lt_one (u / √2)
  linarith

theorem cdf_neg (u : ℝ) : cdf (-u) = 1 - cdf u := by
  unfold cdf
  rw [neg_div, erf_neg]
  ring

theorem cdf_zero : cdf 0 = 1 / 2 := by
  unfold cdf; rw [zero_div, erf_zero]; norm_num

theorem tendsto_cdf_atTop : Tendsto cdf atTop (𝓝 1) := by
  have h : Tendsto (fun u : ℝ => u / √2) atTop atTop := tendsto_id.atTop_div_const (by positivity)
  have := ((tendsto_erf_atTop.comp h).div_const 2).const_add (0.5 : ℝ)
  rw [show (0.5 : ℝ) + 1 / 2 = 1 by norm_num] at this
  exact this

theorem tendsto_cdf_atBot : Tendsto cdf atBot (𝓝 0) := by
  have h : Tendsto (fun u : ℝ => u / √2) atBot atBot := tendsto_id.atBot_div_const (by positivity)
  have := ((tendsto_erf_atBot.comp h).div_const 2).const_add (0.5 : ℝ)
  rw [show (0.5 : ℝ) + -1 / 2 = 0 by norm_num] at this
  exact this

theorem cdf_ppf {p : ℝ} (h0 : 0 < p) (h1 : p < 1) : cdf (ppf p) = p := by
  unfold cdf ppf
  have : erfinv (2 * p - 1) * √2 / √2 = erfinv (2 * p - 1) := by
    field_simp
  rw [this, erf_erfinv (by linarith) (by linarith)]
  ring

theorem ppf_cdf (u : ℝ) : ppf (cdf u) = u :=
  strictMono_cdf.injective (cdf_ppf (cdf_pos u) (cdf_lt_one u))

theorem strictMonoOn_ppf : StrictMonoOn ppf (Ioo 0 1) := by
  intro p hp q hq hpq
  rw [← strictMono_cdf.lt_iff_lt, cdf_ppf hp.1 hp.2, cdf_ppf hq.1 hq.2]
  exact hpq

theorem ppf_one_sub {p : ℝ} (h0 : 0 < p) (h1 : p < 1) : ppf (1 - p) = -ppf p := by
  apply strictMono_cdf.injective
  rw [cdf_ppf (by linarith) (by linarith), cdf_neg, cdf_ppf h0 h1]

theorem continuousOn_ppf : ContinuousOn ppf (Ioo 0 1) := by
  intro p hp
  apply ContinuousAt.continuousWithinAt
  have hs : StrictMonoOn ppf (Ioo 0 1) := strictMonoOn_ppf
  apply hs.continuousAt_of_image_mem_nhds (Ioo_mem_nhds hp.1 hp.2)
  have : ppf '' Ioo 0 1 = univ := by
    apply eq_univ_of_forall
    intro u
    exact ⟨cdf u, ⟨cdf_pos u, cdf_lt_one u⟩, ppf_cdf u⟩
  rw [this]
  exact univ_mem

theorem hasDerivAt_ppf {p : ℝ} (h0 : 0 < p) (h1 : p < 1) : HasDerivAt ppf (pdf (ppf p))⁻¹ p := by
  apply HasDerivAt.of_local_left_inverse (f := cdf)
  · exact (continuousOn_ppf p ⟨h0, h1⟩).continuousAt (Ioo_mem_nhds h0 h1)
  · exact hasDerivAt_cdf _
  · exact (pdf_pos _).ne'
  · filter_upwards [Ioo_mem_nhds h0 h1] with q hq
    exact cdf_ppf hq.1 hq.2

theorem pdf_eq_gaussian (u : ℝ) : pdf u = ProbabilityTheory.gaussianPDFReal 0 1 u := by
  unfold pdf
  rw [ProbabilityTheory.gaussianPDFReal_def]
  simp only [NNReal.coe_one, mul_one, sub_zero]
  rw [div_eq_inv_mul]
  congr 2
  ring

theorem integrable_pdf : Integrable pdf := by
  have := ProbabilityTheory.integrable_gaussianPDFReal 0 1
  exact this.congr (Eventually.of_forall fun u => (pdf_eq_gaussian u).symm)

theorem integral_pdf : ∫ u, pdf u = 1 := by
  rw [integral_congr_ae (Eventually.of_forall pdf_eq_gaussian)]
  exact ProbabilityTheory.integral_gaussianPDFReal_eq_one 0 one_ne_zero

theorem integral_Iic_pdf (u : ℝ) : ∫ t in Iic u, pdf t = cdf u := by
  rw [integral_Iic_of_hasDerivAt_of_tendsto' (fun x _ => hasDerivAt_cdf x) integrable_pdf.integrableOn
    tendsto_cdf_atBot, sub_zero]

end StdNormal
end Pystra
