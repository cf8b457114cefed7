import Verif.Lemmas.Gauss
import Verif.Lemmas.ImportanceSampling
import Verif.Model.LineSampling
import Mathlib.MeasureTheory.Measure.CharacteristicFunction.Basic
import Mathlib.MeasureTheory.Integral.Prod
import Mathlib.Analysis.Calculus.MeanValue

/-! Gaussian facts behind line sampling. -/

namespace Pystra
open MeasureTheory ProbabilityTheory Spec Matrix

variable {n : ℕ}

theorem StdNormal.pdf_le (u : ℝ) : StdNormal.pdf u ≤ 1 / √(2 * Real.pi) := by
  unfold StdNormal.pdf
  have h1 : Real.exp (-0.5 * u ^ 2) ≤ 1 := Real.exp_le_one_iff.2 (by nlinarith [sq_nonneg u])
  exact div_le_div_of_nonneg_right h1 (Real.sqrt_nonneg _)

/-- `Φ` is Lipschitz. -/
theorem StdNormal.cdf_lip (a b : ℝ) : |StdNormal.cdf a - StdNormal.cdf b| ≤ |a - b| / √(2 * Real.pi) := by
  have h := Convex.norm_image_sub_le_of_norm_hasDerivWithin_le (f := StdNormal.cdf) (f' := StdNormal.pdf)
    (C := 1 / √(2 * Real.pi)) (s := Set.univ) (x := b) (y := a)
    (fun x _ => (StdNormal.hasDerivAt_cdf x).hasDerivWithinAt)
    (fun x _ => by rw [Real.norm_eq_abs, abs_of_pos (StdNormal.pdf_pos x)]; exact StdNormal.pdf_le x) convex_univ
    (Set.mem_univ _) (Set.mem_univ _)
  rw [Real.norm_eq_abs, Real.norm_eq_abs] at h
  calc _ ≤ _ := h
    _ = _ := by ring

/-- Redrawing the component along a unit direction leaves the standard normal law unchanged. -/
theorem redraw_law (alpha : Fin n → ℝ) (ha : alpha ⬝ᵥ alpha = 1) :
    ((stdGauss n).prod (gaussianReal 0 1)).map
      (fun p : (Fin n → ℝ) × ℝ => fun i => LineSampling.project alpha p.1 i + p.2 * alpha i) = stdGauss n := by
  have hm : Measurable (fun p : (Fin n → ℝ) × ℝ => fun i => LineSampling.project alpha p.1 i + p.2 * alpha i) := by
    unfold LineSampling.project
    simp only [dotProduct]
    fun_prop
  haveI := Measure.isProbabilityMeasure_map (μ := (stdGauss n).prod (gaussianReal 0 1)) hm.aemeasurable
  apply Measure.ext_of_charFunDual
  funext L
  set w : Fin n → ℝ := fun i => L (Pi.single i 1) with hw
  have hL : ∀ x : Fin n → ℝ, L x = ∑ i, w i * x i := by
    intro x
    conv_lhs => rw [pi_eq_sum_univ' x]
    rw [map_sum]
    refine Finset.sum_congr rfl fun i _ => ?_
    rw [map_smul, smul_eq_mul, mul_comm, hw]
  have hlin : ∀ (w : Fin n → ℝ), ∫ u, Complex.exp (((∑ i, w i * u i : ℝ) : ℂ) * Complex.I) ∂(stdGauss n) =
      Complex.exp (-(((∑ i, w i ^ 2) / 2 : ℝ) : ℂ)) := by
    intro w
    have h1 := map_linear_stdGauss w
    have hmw : Measurable (fun u : Fin n → ℝ => ∑ i, w i * u i) := by fun_prop
    have h2 : charFun ((stdGauss n).map (fun u => ∑ i, w i * u i)) 1 =
        ∫ u, Complex.exp (((∑ i, w i * u i : ℝ) : ℂ) * Complex.I) ∂(stdGauss n) := by
      rw [charFun_apply_real, integral_map hmw.aemeasurable (by fun_prop)]
      simp
    rw [← h2, h1, charFun_gaussianReal]
    rw [Real.coe_toNNReal _ (Finset.sum_nonneg fun i _ => sq_nonneg _)]
    congr 1
    push_cast
    ring
  rw [charFunDual_apply, charFunDual_apply, integral_map hm.aemeasurable (by fun_prop)]
  set d := ∑ i, w i * alpha i with hd
  have e : ∀ p : (Fin n → ℝ) × ℝ, Complex.exp ((L (fun i => LineSampling.project alpha p.1 i + p.2 * alpha i) : ℂ) * Complex.I) =
      Complex.exp (((∑ i, (w i - d * alpha i) * p.1 i : ℝ) : ℂ) * Complex.I) *
        Complex.exp (((d * p.2 : ℝ) : ℂ) * Complex.I) := by
    intro p
    rw [← Complex.exp_add, ← add_mul, ← Complex.ofReal_add, hL]
    congr 3
    unfold LineSampling.project
    simp only [dotProduct, mul_add, mul_sub, sub_mul, Finset.sum_add_distrib, Finset.sum_sub_distrib]
    have h1 : ∑ x, w x * (alpha x * ∑ i, alpha i * p.1 i) = d * ∑ i, alpha i * p.1 i := by
      rw [hd, Finset.sum_mul]; exact Finset.sum_congr rfl fun i _ => by ring
    have h2 : ∑ x, d * alpha x * p.1 x = d * ∑ i, alpha i * p.1 i := by
      rw [Finset.mul_sum]; exact Finset.sum_congr rfl fun i _ => by ring
    have h3 : ∑ x, w x * (p.2 * alpha x) = d * p.2 := by
      rw [hd, Finset.sum_mul]; exact Finset.sum_congr rfl fun i _ => by ring
    rw [h1, h2, h3]
  simp only [e]
  rw [integral_prod_mul (fun u : Fin n → ℝ => Complex.exp (((∑ i, (w i - d * alpha i) * u i : ℝ) : ℂ) * Complex.I))
    (fun z : ℝ => Complex.exp (((d * z : ℝ) : ℂ) * Complex.I)), hlin]
  have h1 : ∫ z : ℝ, Complex.exp (((d * z : ℝ) : ℂ) * Complex.I) ∂(gaussianReal 0 1) = Complex.exp (-((d ^ 2 / 2 : ℝ) : ℂ)) := by
    have := charFun_apply_real (μ := gaussianReal 0 1) d
    rw [charFun_gaussianReal] at this
    push_cast at this ⊢
    rw [← this]
    congr 1
    simp
  have h2 : ∫ u, Complex.exp ((L u : ℂ) * Complex.I) ∂(stdGauss n) = Complex.exp (-(((∑ i, w i ^ 2) / 2 : ℝ) : ℂ)) := by
    simp only [hL]; exact hlin w
  rw [h1, h2, ← Complex.exp_add]
  congr 1
  rw [← neg_add, ← Complex.ofReal_add]
  congr 2
  rw [← add_div]
  congr 1
  have h3 : ∑ i, (w i - d * alpha i) ^ 2 = ∑ i, w i ^ 2 - 2 * d * ∑ i, w i * alpha i + d ^ 2 * ∑ i, alpha i * alpha i := by
    generalize d = d'
    rw [Finset.mul_sum, Finset.mul_sum, ← Finset.sum_sub_distrib, ← Finset.sum_add_distrib]
    exact Finset.sum_congr rfl fun i _ => by ring
  have h4 : ∑ i, alpha i * alpha i = 1 := ha
  rw [h3, h4, ← hd]
  ring

/-- The columns of `randn(n, N)` are independent standard normal vectors. -/
theorem randn_law (N pos : ℕ) :
    stream.map (fun ω (j : Fin N) (r : Fin n) => ω (pos + r.val * N + j.val)) = Measure.pi (fun _ : Fin N => stdGauss n) := by
  have hinj : Function.Injective (fun p : Fin N × Fin n => pos + p.2.val * N + p.1.val) := by
    rintro ⟨j, r⟩ ⟨j', r'⟩ h
    simp only at h
    have hN : 0 < N := lt_of_le_of_lt (Nat.zero_le _) j.2
    have h1 : r.val * N + j.val = r'.val * N + j'.val := by omega
    have h2 : j.val = j'.val := by
      have := congrArg (· % N) h1
      simpa [Nat.mul_add_mod', Nat.mod_eq_of_lt j.2, Nat.mod_eq_of_lt j'.2] using this
    have h3 : r.val = r'.val := by
      have h4 : r.val * N = r'.val * N := by omega
      exact Nat.eq_of_mul_eq_mul_right hN h4
    exact Prod.ext (Fin.ext h2) (Fin.ext h3)
  have h1 := MonteCarlo.stream_map hinj
  have h2 := Measure.infinitePi_map_curry (ι := Fin N) (κ := Fin n) (X := ℝ) (fun _ _ => gaussianReal 0 1)
  simp only [Measure.infinitePi_eq_pi] at h2
  unfold stdGauss
  rw [← h2, ← h1, Measure.map_map (MeasurableEquiv.measurable _) (by fun_prop)]
  rfl

/-- The failure probability is the mean over the lines of the probability along the line. -/
theorem line_fubini (alpha : Fin n → ℝ) (ha : alpha ⬝ᵥ alpha = 1) {G : (Fin n → ℝ) → ℝ} (hG : Measurable G)
    {C : (Fin n → ℝ) → ℝ}
    (hC : ∀ v, alpha ⬝ᵥ v = 0 → ∀ c, (c < C v → 0 < G (fun i => v i + c * alpha i)) ∧
      (C v < c → G (fun i => v i + c * alpha i) < 0)) :
    Integrable (fun u => StdNormal.cdf (-(C (LineSampling.project alpha u)))) (stdGauss n) ∧
    ∫ u, StdNormal.cdf (-(C (LineSampling.project alpha u))) ∂(stdGauss n) = (stdGauss n).real {u | G u ≤ 0} := by
  set T : (Fin n → ℝ) × ℝ → (Fin n → ℝ) := fun p => fun i => LineSampling.project alpha p.1 i + p.2 * alpha i with hT
  have hm : Measurable T := by
    rw [hT]
    unfold LineSampling.project
    simp only [dotProduct]
    fun_prop
  have hS : MeasurableSet {u | G u ≤ 0} := hG measurableSet_Iic
  have horth : ∀ u : Fin n → ℝ, alpha ⬝ᵥ LineSampling.project alpha u = 0 := by
    intro u
    have : LineSampling.project alpha u = u - (alpha ⬝ᵥ u) • alpha := by
      funext i; simp [LineSampling.project]; ring
    rw [this, dotProduct_sub, dotProduct_smul, ha]
    simp
  have hpt : ∀ u : Fin n → ℝ, (gaussianReal 0 1).real (Prod.mk u ⁻¹' (T ⁻¹' {u | G u ≤ 0})) =
      StdNormal.cdf (-(C (LineSampling.project alpha u))) := by
    intro u
    have h1 : (gaussianReal 0 1).real (Prod.mk u ⁻¹' (T ⁻¹' {u | G u ≤ 0})) =
        (gaussianReal 0 1).real (Set.Ici (C (LineSampling.project alpha u))) := by
      haveI : NullSingletonClass (gaussianReal 0 1) := nullSingletonClass_gaussianReal (by norm_num)
      apply measureReal_congr
      have hae : ∀ᵐ z ∂(gaussianReal 0 1), z ≠ C (LineSampling.project alpha u) := by
        rw [ae_iff]; simp only [ne_eq, not_not, Set.setOf_eq_eq_singleton]; exact measure_singleton _
      filter_upwards [hae] with z hz
      apply propext
      change G (T (u, z)) ≤ 0 ↔ C (LineSampling.project alpha u) ≤ z
      obtain ⟨h1, h2⟩ := hC _ (horth u) z
      constructor
      · intro h
        by_contra hlt
        exact absurd (h1 (not_le.1 hlt)) (not_lt.2 h)
      · intro h
        exact (h2 (lt_of_le_of_ne h (Ne.symm hz))).le
    rw [h1, ← Set.compl_Iio, probReal_compl_eq_one_sub measurableSet_Iio, StdNormal.cdf_neg, Props.C11_measure, cdf_eq_real]
    congr 1
    apply measureReal_congr
    haveI : NullSingletonClass (gaussianReal 0 1) := nullSingletonClass_gaussianReal (by norm_num)
    exact Iio_ae_eq_Iic
  have hmeas : Measurable fun u : Fin n → ℝ => (gaussianReal 0 1).real (Prod.mk u ⁻¹' (T ⁻¹' {u | G u ≤ 0})) :=
    (measurable_measure_prodMk_left (hm hS)).ennreal_toReal
  simp only [← hpt]
  constructor
  · refine Integrable.of_bound (C := 1) hmeas.aestronglyMeasurable (Filter.Eventually.of_forall fun u => ?_)
    rw [Real.norm_eq_abs, abs_of_nonneg measureReal_nonneg]
    exact measureReal_le_one
  · have h2 := redraw_law alpha ha
    have h3 : (stdGauss n) {u | G u ≤ 0} = ∫⁻ u, (gaussianReal 0 1) (Prod.mk u ⁻¹' (T ⁻¹' {u | G u ≤ 0})) ∂(stdGauss n) := by
      conv_lhs => rw [← h2]
      rw [Measure.map_apply hm hS, Measure.prod_apply (hm hS)]
    unfold Measure.real
    rw [h3, integral_toReal]
    · exact (measurable_measure_prodMk_left (hm hS)).aemeasurable
    · exact Filter.Eventually.of_forall fun u => measure_lt_top _ _

end Pystra
