import Verif.Lemmas.LineGauss
import Verif.Model.Sorm
import Mathlib.Analysis.SpecialFunctions.Gaussian.GaussianIntegral
import Mathlib.Analysis.Calculus.MeanValue

/-! The hazard rate `φ(x)/Φ(-x)` of the normal distribution (the factor of Hohenbichler and Rackwitz), and Gaussian integrals of
exponentials of squares. -/

namespace Pystra
open Filter Topology MeasureTheory ProbabilityTheory Sorm

namespace StdNormal

theorem hasDerivAt_pdf (x : ℝ) : HasDerivAt pdf (-x * pdf x) x := by
  have h1 : HasDerivAt (fun u : ℝ => -0.5 * u ^ 2) (-0.5 * (2 * x)) x := by
    simpa using (hasDerivAt_pow 2 x).const_mul (-0.5)
  have h := h1.exp.div_const √(2 * Real.pi)
  refine h.congr_deriv ?_
  unfold pdf
  ring

theorem tendsto_pdf_atTop : Tendsto pdf atTop (𝓝 0) := by
  have h1 : Tendsto (fun u : ℝ => 0.5 * u ^ 2) atTop atTop :=
    (tendsto_pow_atTop two_ne_zero).const_mul_atTop (by norm_num)
  have h2 := (Real.tendsto_exp_neg_atTop_nhds_zero.comp h1).div_const √(2 * Real.pi)
  rw [zero_div] at h2
  refine h2.congr fun u => ?_
  simp only [Function.comp_apply, pdf]
  ring_nf

theorem hasDerivAt_cdf_neg (x : ℝ) : HasDerivAt (fun y => cdf (-y)) (-pdf x) x := by
  have h := (hasDerivAt_cdf (-x)).comp x (hasDerivAt_neg x)
  rw [pdf_neg] at h
  refine h.congr_deriv ?_
  ring

theorem tendsto_cdf_neg_atTop : Tendsto (fun y => cdf (-y)) atTop (𝓝 0) := tendsto_cdf_atBot.comp tendsto_neg_atTop_atBot

/-- A function with negative derivative on `(a, ∞)` that vanishes at infinity is positive. -/
theorem pos_of_deriv_neg {K K' : ℝ → ℝ} {a : ℝ} (hd : ∀ x, a < x → HasDerivAt K (K' x) x) (hn : ∀ x, a < x → K' x < 0)
    (ht : Tendsto K atTop (𝓝 0)) {x : ℝ} (hx : a < x) : 0 < K x := by
  have hanti : StrictAntiOn K (Set.Ioi a) := strictAntiOn_of_deriv_neg (convex_Ioi a)
    (fun y hy => (hd y hy).continuousAt.continuousWithinAt) (fun y hy => by
      rw [interior_Ioi] at hy
      rw [(hd y hy).deriv]; exact hn y hy)
  have h1 : K (x + 1) < K x := hanti hx (by simp only [Set.mem_Ioi]; linarith) (by linarith)
  have h2 : 0 ≤ K (x + 1) := le_of_tendsto ht (by
    filter_upwards [eventually_gt_atTop (x + 1)] with y hy
    exact (hanti (by simp only [Set.mem_Ioi]; linarith) (by simp only [Set.mem_Ioi]; linarith) hy).le)
  linarith

/-- Mills: `x Φ(-x) < φ(x)`. -/
theorem mul_cdf_neg_lt (x : ℝ) : x * cdf (-x) < pdf x := by
  rcases le_or_gt x 0 with hx | hx
  · exact lt_of_le_of_lt (mul_nonpos_of_nonpos_of_nonneg hx (cdf_pos _).le) (pdf_pos x)
  · have h := pos_of_deriv_neg (a := 0) (K := fun y => pdf y / y - cdf (-y)) (K' := fun y => -pdf y / y ^ 2) (x := x)
      (fun y hy => by
        have := ((hasDerivAt_pdf y).div (hasDerivAt_id y) hy.ne').sub (hasDerivAt_cdf_neg y)
        refine this.congr_deriv ?_
        simp only [id]
        field_simp
        ring)
      (fun y hy => div_neg_of_neg_of_pos (neg_neg_of_pos (pdf_pos y)) (by positivity))
      (by
        have h1 : Tendsto (fun y : ℝ => pdf y / y) atTop (𝓝 0) := by
          have := tendsto_pdf_atTop.mul tendsto_inv_atTop_zero
          rw [mul_zero] at this
          exact this.congr fun y => by rw [div_eq_mul_inv]
        simpa using h1.sub tendsto_cdf_neg_atTop) hx
    simp only [sub_pos] at h
    rw [lt_div_iff₀ hx] at h
    linarith

/-- The other bound of Mills: `x φ(x) < (x² + 1) Φ(-x)` for `x > 0`. -/
theorem lt_mul_cdf_neg {x : ℝ} (hx : 0 < x) : x * pdf x < (x ^ 2 + 1) * cdf (-x) := by
  have h := pos_of_deriv_neg (a := 0) (K := fun y => cdf (-y) - pdf y * y / (y ^ 2 + 1))
      (K' := fun y => -2 * pdf y / (y ^ 2 + 1) ^ 2) (x := x)
      (fun y hy => by
        have hne : y ^ 2 + 1 ≠ 0 := by positivity
        have h2 : HasDerivAt (fun y : ℝ => y ^ 2 + 1) (2 * y) y := by simpa using (hasDerivAt_pow 2 y).add_const 1
        have := (hasDerivAt_cdf_neg y).sub (((hasDerivAt_pdf y).mul (hasDerivAt_id y)).div h2 hne)
        refine this.congr_deriv ?_
        simp only [id, Pi.mul_apply]
        field_simp
        ring)
      (fun y hy => div_neg_of_neg_of_pos (by nlinarith [pdf_pos y]) (by positivity))
      (by
        have h1 : Tendsto (fun y : ℝ => pdf y * y / (y ^ 2 + 1)) atTop (𝓝 0) := by
          refine squeeze_zero' ?_ ?_ tendsto_pdf_atTop
          · filter_upwards [eventually_gt_atTop 0] with y hy
            have := pdf_pos y
            positivity
          · filter_upwards [eventually_gt_atTop 0] with y hy
            have := pdf_pos y
            rw [div_le_iff₀ (by positivity)]
            nlinarith [sq_nonneg (y - 1)]
        simpa using tendsto_cdf_neg_atTop.sub h1) hx
  simp only [sub_pos] at h
  rw [div_lt_iff₀ (by positivity)] at h
  linarith

end StdNormal

open StdNormal

theorem psi_pos' (x : ℝ) : 0 < psi x := div_pos (pdf_pos x) (cdf_pos _)

theorem lt_psi (x : ℝ) : x < psi x := by
  unfold psi
  rw [lt_div_iff₀ (cdf_pos _)]
  exact mul_cdf_neg_lt x

theorem psi_lt {x : ℝ} (hx : 0 < x) : psi x < x + 1 / x := by
  unfold psi
  rw [div_lt_iff₀ (cdf_pos _)]
  have h := lt_mul_cdf_neg hx
  have e : (x + 1 / x) * cdf (-x) = ((x ^ 2 + 1) * cdf (-x)) / x := by field_simp
  rw [e, lt_div_iff₀ hx]
  linarith

theorem hasDerivAt_psi (x : ℝ) : HasDerivAt psi (psi x * (psi x - x)) x := by
  have h := (hasDerivAt_pdf x).div (hasDerivAt_cdf_neg x) (cdf_pos (-x)).ne'
  refine h.congr_deriv ?_
  have := (cdf_pos (-x)).ne'
  unfold psi
  field_simp
  ring

theorem strictMono_psi : StrictMono psi := strictMono_of_deriv_pos fun x => by
  rw [(hasDerivAt_psi x).deriv]
  exact mul_pos (psi_pos' x) (by linarith [lt_psi x])

/-- `log Φ(-x)` is concave: it lies below its tangents. -/
theorem cdf_neg_le (x y : ℝ) : cdf (-y) ≤ cdf (-x) * Real.exp (-(psi x) * (y - x)) := by
  have hd : ∀ z, HasDerivAt (fun z => Real.log (cdf (-z))) (-psi z) z := by
    intro z
    have h := (hasDerivAt_cdf_neg z).log (cdf_pos (-z)).ne'
    refine h.congr_deriv ?_
    unfold psi
    ring
  have hc : Continuous (fun z => Real.log (cdf (-z))) := continuous_iff_continuousAt.2 fun z => (hd z).continuousAt
  have key : Real.log (cdf (-y)) ≤ Real.log (cdf (-x)) + -(psi x) * (y - x) := by
    rcases lt_trichotomy x y with h | h | h
    · obtain ⟨z, hz, e⟩ := exists_hasDerivAt_eq_slope _ _ h hc.continuousOn (fun z _ => hd z)
      have h1 := strictMono_psi hz.1
      rw [eq_div_iff (by linarith)] at e
      nlinarith
    · rw [h]; simp
    · obtain ⟨z, hz, e⟩ := exists_hasDerivAt_eq_slope _ _ h hc.continuousOn (fun z _ => hd z)
      have h1 := strictMono_psi hz.2
      rw [eq_div_iff (by linarith)] at e
      nlinarith
  calc cdf (-y) = Real.exp (Real.log (cdf (-y))) := (Real.exp_log (cdf_pos _)).symm
    _ ≤ Real.exp (Real.log (cdf (-x)) + -(psi x) * (y - x)) := Real.exp_le_exp.2 key
    _ = _ := by rw [Real.exp_add, Real.exp_log (cdf_pos _)]

/-- The tangent at the other end. -/
theorem le_cdf_neg (x y : ℝ) : cdf (-x) * Real.exp (-(psi y) * (y - x)) ≤ cdf (-y) := by
  have h := cdf_neg_le y x
  calc cdf (-x) * Real.exp (-(psi y) * (y - x))
      ≤ cdf (-y) * Real.exp (-(psi y) * (x - y)) * Real.exp (-(psi y) * (y - x)) := by gcongr
    _ = cdf (-y) := by
        rw [mul_assoc, ← Real.exp_add]
        have : -(psi y) * (x - y) + -(psi y) * (y - x) = 0 := by ring
        rw [this, Real.exp_zero, mul_one]

theorem psi_div_tendsto : Tendsto (fun x => psi x / x) atTop (𝓝 1) := by
  have h1 : Tendsto (fun x : ℝ => 1 + 1 / x ^ 2) atTop (𝓝 1) := by
    have : Tendsto (fun x : ℝ => 1 / x ^ 2) atTop (𝓝 0) := by
      exact (tendsto_pow_atTop (α := ℝ) two_ne_zero).inv_tendsto_atTop.congr fun x => by simp
    simpa using tendsto_const_nhds.add this
  refine tendsto_of_tendsto_of_tendsto_of_le_of_le' tendsto_const_nhds h1 ?_ ?_
  · filter_upwards [eventually_gt_atTop 0] with x hx
    rw [le_div_iff₀ hx, one_mul]
    exact (lt_psi x).le
  · filter_upwards [eventually_gt_atTop 0] with x hx
    rw [div_le_iff₀ hx]
    refine (psi_lt hx).le.trans (le_of_eq ?_)
    field_simp

/-! Gaussian integrals -/

theorem gauss_exp_sq {a : ℝ} (ha : 0 < 1 + a) :
    Integrable (fun z : ℝ => Real.exp (-(a / 2) * z ^ 2)) (gaussianReal 0 1) ∧
    ∫ z, Real.exp (-(a / 2) * z ^ 2) ∂(gaussianReal 0 1) = 1 / √(1 + a) := by
  have hp : ∀ z : ℝ, gaussianPDFReal 0 1 z * Real.exp (-(a / 2) * z ^ 2) =
      (√(2 * Real.pi))⁻¹ * Real.exp (-((1 + a) / 2) * z ^ 2) := by
    intro z
    rw [gaussianPDFReal]
    simp only [NNReal.coe_one, mul_one, sub_zero]
    rw [mul_assoc, ← Real.exp_add]
    congr 2
    ring
  constructor
  · rw [gaussianReal_of_var_ne_zero _ one_ne_zero, integrable_withDensity_iff_integrable_smul' (measurable_gaussianPDF _ _)
      (Eventually.of_forall fun z => gaussianPDF_lt_top)]
    have e : (fun z : ℝ => (gaussianPDF 0 1 z).toReal • Real.exp (-(a / 2) * z ^ 2)) =
        fun z => (√(2 * Real.pi))⁻¹ * Real.exp (-((1 + a) / 2) * z ^ 2) := by
      funext z
      rw [toReal_gaussianPDF, smul_eq_mul, hp]
    rw [e]
    exact (integrable_exp_neg_mul_sq (by linarith)).const_mul _
  · rw [integral_gaussianReal_eq_integral_smul one_ne_zero]
    simp only [smul_eq_mul, hp]
    rw [integral_const_mul, integral_gaussian]
    have h1 : Real.pi / ((1 + a) / 2) = (2 * Real.pi) / (1 + a) := by field_simp
    rw [h1, Real.sqrt_div (by positivity)]
    have : √(2 * Real.pi) ≠ 0 := (Real.sqrt_pos.2 (by positivity)).ne'
    field_simp

theorem stdGauss_exp_sq {n : ℕ} {a : Fin n → ℝ} (ha : ∀ i, 0 < 1 + a i) :
    Integrable (fun z : Fin n → ℝ => Real.exp (-(1 / 2 * ∑ i, a i * z i ^ 2))) (Spec.stdGauss n) ∧
    ∫ z, Real.exp (-(1 / 2 * ∑ i, a i * z i ^ 2)) ∂(Spec.stdGauss n) = ∏ i, 1 / √(1 + a i) := by
  have e : (fun z : Fin n → ℝ => Real.exp (-(1 / 2 * ∑ i, a i * z i ^ 2))) = fun z => ∏ i, Real.exp (-(a i / 2) * z i ^ 2) := by
    funext z
    rw [← Real.exp_sum]
    congr 1
    rw [Finset.mul_sum, ← Finset.sum_neg_distrib]
    exact Finset.sum_congr rfl fun i _ => by ring
  rw [e]
  unfold Spec.stdGauss
  constructor
  · exact Integrable.fintype_prod (f := fun i (z : ℝ) => Real.exp (-(a i / 2) * z ^ 2)) fun i => (gauss_exp_sq (ha i)).1
  · rw [integral_fintype_prod_eq_prod (f := fun i (z : ℝ) => Real.exp (-(a i / 2) * z ^ 2))]
    exact Finset.prod_congr rfl fun i _ => (gauss_exp_sq (ha i)).2

end Pystra
