import Verif.Spec.Gauss
import Verif.Props.StdNormal
import Mathlib.MeasureTheory.Integral.Pi
import Mathlib.MeasureTheory.Measure.CharacteristicFunction.Basic

namespace Pystra
open MeasureTheory ProbabilityTheory Spec

variable {n : ℕ}

/-- A linear form of independent standard normals is normal, with variance the sum of squared coefficients. -/
theorem map_linear_stdGauss (w : Fin n → ℝ) :
    (stdGauss n).map (fun u => ∑ i, w i * u i) = gaussianReal 0 (Real.toNNReal (∑ i, w i ^ 2)) := by
  have hmeas : Measurable (fun u : Fin n → ℝ => ∑ i, w i * u i) := by fun_prop
  haveI : IsProbabilityMeasure ((stdGauss n).map (fun u => ∑ i, w i * u i)) :=
    Measure.isProbabilityMeasure_map hmeas.aemeasurable
  apply Measure.ext_of_charFun
  funext t
  rw [charFun_apply_real, integral_map hmeas.aemeasurable (by fun_prop), charFun_gaussianReal]
  have e : ∀ u : Fin n → ℝ, Complex.exp ((t:ℂ) * ((∑ i, w i * u i : ℝ) : ℂ) * Complex.I) =
      ∏ i, Complex.exp (((t * w i : ℝ) : ℂ) * (u i : ℂ) * Complex.I) := by
    intro u
    rw [← Complex.exp_sum]
    congr 1
    push_cast
    rw [Finset.mul_sum, Finset.sum_mul]
    refine Finset.sum_congr rfl fun i _ => ?_
    ring
  simp only [e]
  rw [stdGauss, integral_fintype_prod_eq_prod (𝕜 := ℂ) (fun i (x : ℝ) => Complex.exp (((t * w i : ℝ) : ℂ) * (x : ℂ) * Complex.I))]
  have e2 : ∀ i, ∫ x : ℝ, Complex.exp (((t * w i : ℝ) : ℂ) * (x : ℂ) * Complex.I) ∂(gaussianReal 0 1) =
      Complex.exp (-((t * w i) ^ 2 / 2 : ℝ)) := by
    intro i
    rw [← charFun_apply_real, charFun_gaussianReal]
    congr 1
    push_cast; simp
  simp only [e2]
  rw [← Complex.exp_sum]
  congr 1
  rw [Real.coe_toNNReal _ (Finset.sum_nonneg fun i _ => sq_nonneg _)]
  push_cast
  rw [Finset.sum_neg_distrib, ← Finset.sum_div]
  simp only [mul_pow, ← Finset.mul_sum]
  ring

/-- The half-space probability: for `w ≠ 0`, `P(b + w·u ≤ 0) = Φ(-b/|w|)`. -/
theorem halfspace_prob (w : Fin n → ℝ) (hw : 0 < ∑ i, w i ^ 2) (b : ℝ) :
    (stdGauss n).real {u | b + ∑ i, w i * u i ≤ 0} = StdNormal.cdf (-(b / √(∑ i, w i ^ 2))) := by
  set S := ∑ i, w i ^ 2 with hS
  have hs : 0 < √S := Real.sqrt_pos.2 hw
  -- normalise
  have hlin := map_linear_stdGauss (fun i => w i / √S)
  have hvar : ∑ i, (w i / √S) ^ 2 = 1 := by
    simp only [div_pow, ← Finset.sum_div, ← hS, Real.sq_sqrt hw.le]
    exact div_self hw.ne'
  rw [hvar, Real.toNNReal_one] at hlin
  have hset : {u : Fin n → ℝ | b + ∑ i, w i * u i ≤ 0} =
      (fun u : Fin n → ℝ => ∑ i, w i / √S * u i) ⁻¹' Set.Iic (-(b / √S)) := by
    ext u
    simp only [Set.mem_setOf_eq, Set.mem_preimage, Set.mem_Iic]
    have : ∑ i, w i / √S * u i = (∑ i, w i * u i) / √S := by
      rw [Finset.sum_div]; exact Finset.sum_congr rfl fun i _ => by ring
    rw [this, ← neg_div, div_le_div_iff_of_pos_right hs]
    constructor <;> intro h <;> linarith
  have hmeas : Measurable (fun u : Fin n → ℝ => ∑ i, w i / √S * u i) := by fun_prop
  rw [hset, ← map_measureReal_apply hmeas measurableSet_Iic, hlin, Props.C11_measure, cdf_eq_real]

end Pystra
