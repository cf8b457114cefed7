import Verif.Spec.NatafLaw
import Verif.Lemmas.LineGauss
import Verif.Props.Transformation
import Verif.Props.Integration
import Mathlib.MeasureTheory.Function.JacobianOneDim

namespace Pystra
open MeasureTheory ProbabilityTheory Spec Matrix Set
open scoped ENNReal

variable {n : ℕ}

theorem gauss_density : gaussianReal 0 1 = densityLaw StdNormal.pdf := by
  rw [gaussianReal_of_var_ne_zero _ one_ne_zero, densityLaw]
  congr 1
  funext x
  rw [gaussianPDF, StdNormal.pdf_eq_gaussian]

theorem densityLaw_apply {E : Type} [MeasureSpace E] (f : E → ℝ) {A : Set E} (hA : MeasurableSet A) :
    densityLaw f A = ∫⁻ x in A, ENNReal.ofReal (f x) := withDensity_apply _ hA

theorem normalPdf_pos (u : Fin n → ℝ) : 0 < normalPdf u := Finset.prod_pos fun i _ => StdNormal.pdf_pos _

theorem normalPdf_measurable : Measurable (normalPdf (n := n)) := by
  unfold normalPdf
  refine Finset.measurable_prod _ fun i _ => ?_
  exact StdNormal.continuous_pdf.measurable.comp (measurable_pi_apply i)

theorem stdGauss_density : stdGauss n = densityLaw (normalPdf (n := n)) := by
  refine Measure.pi_eq fun S hS => ?_
  rw [densityLaw_apply _ (MeasurableSet.univ_pi hS)]
  have e : ∀ i, gaussianReal 0 1 (S i) = ENNReal.ofReal (∫ x, (S i).indicator StdNormal.pdf x) := by
    intro i
    rw [gauss_density, densityLaw_apply _ (hS i), integral_indicator (hS i),
      ofReal_integral_eq_lintegral_ofReal StdNormal.integrable_pdf.integrableOn
        (Filter.Eventually.of_forall fun x => (StdNormal.pdf_pos x).le)]
  simp only [e]
  have hnn : ∀ i, 0 ≤ ∫ x, (S i).indicator StdNormal.pdf x := fun i =>
    integral_nonneg fun x => indicator_nonneg (fun x _ => (StdNormal.pdf_pos x).le) x
  rw [← ENNReal.ofReal_prod_of_nonneg (fun i _ => hnn i),
    ← integral_fintype_prod_volume_eq_prod (fun i (x : ℝ) => (S i).indicator StdNormal.pdf x)]
  have hind : ∀ u : Fin n → ℝ, ∏ i, (S i).indicator StdNormal.pdf (u i) = (univ.pi S).indicator normalPdf u := by
    intro u
    by_cases h : u ∈ univ.pi S
    · rw [indicator_of_mem h]
      exact Finset.prod_congr rfl fun i _ => indicator_of_mem (h i (mem_univ i)) _
    · rw [indicator_of_notMem h]
      simp only [mem_pi, mem_univ, true_implies, not_forall] at h
      obtain ⟨i, hi⟩ := h
      exact Finset.prod_eq_zero (Finset.mem_univ i) (indicator_of_notMem hi _)
  simp only [hind]
  have hint : Integrable (normalPdf (n := n)) :=
    Integrable.fintype_prod (f := fun _ => StdNormal.pdf) (fun i => StdNormal.integrable_pdf)
  rw [integral_indicator (MeasurableSet.univ_pi hS), ofReal_integral_eq_lintegral_ofReal hint.integrableOn
    (Filter.Eventually.of_forall fun x => (normalPdf_pos x).le)]

theorem charFun_linear (w : Fin n → ℝ) : ∫ u, Complex.exp (((∑ i, w i * u i : ℝ) : ℂ) * Complex.I) ∂(stdGauss n) =
    Complex.exp (-(((∑ i, w i ^ 2) / 2 : ℝ) : ℂ)) := by
  have h1 := map_linear_stdGauss w
  have hmw : Measurable (fun u : Fin n → ℝ => ∑ i, w i * u i) := by fun_prop
  have h2 : charFun ((stdGauss n).map (fun u => ∑ i, w i * u i)) 1 =
      ∫ u, Complex.exp (((∑ i, w i * u i : ℝ) : ℂ) * Complex.I) ∂(stdGauss n) := by
    rw [charFun_apply_real, integral_map hmw.aemeasurable (by fun_prop)]
    simp
  rw [← h2, h1, charFun_gaussianReal, Real.coe_toNNReal _ (Finset.sum_nonneg fun i _ => sq_nonneg _)]
  congr 1
  push_cast
  ring

theorem charFun_scalar (d : ℝ) : ∫ z : ℝ, Complex.exp (((d * z : ℝ) : ℂ) * Complex.I) ∂(gaussianReal 0 1) =
    Complex.exp (-((d ^ 2 / 2 : ℝ) : ℂ)) := by
  have := charFun_apply_real (μ := gaussianReal 0 1) d
  rw [charFun_gaussianReal] at this
  push_cast at this ⊢
  rw [← this]
  congr 1
  simp

theorem sq_le_one_of_dot {a b : Fin n → ℝ} (ha : a ⬝ᵥ a = 1) (hb : b ⬝ᵥ b = 1) : (a ⬝ᵥ b) ^ 2 ≤ 1 := by
  have h := Finset.sum_mul_sq_le_sq_mul_sq Finset.univ a b
  have h1 : ∑ i, a i ^ 2 = 1 := by rw [← ha]; exact Finset.sum_congr rfl fun i _ => by ring
  have h2 : ∑ i, b i ^ 2 = 1 := by rw [← hb]; exact Finset.sum_congr rfl fun i _ => by ring
  rw [h1, h2, one_mul] at h
  exact h

/-- The joint law of two linear forms with unit norms. -/
theorem map_pair_stdGauss (a b : Fin n → ℝ) {ρ : ℝ} (ha : a ⬝ᵥ a = 1) (hb : b ⬝ᵥ b = 1) (hab : a ⬝ᵥ b = ρ) :
    (stdGauss n).map (fun u => (a ⬝ᵥ u, b ⬝ᵥ u)) =
      ((gaussianReal 0 1).prod (gaussianReal 0 1)).map (fun p => (p.1, ρ * p.1 + √(1 - ρ ^ 2) * p.2)) := by
  have hc : √(1 - ρ ^ 2) ^ 2 = 1 - ρ ^ 2 := by
    apply Real.sq_sqrt
    have := sq_le_one_of_dot ha hb
    rw [hab] at this
    linarith
  generalize √(1 - ρ ^ 2) = c at *
  have hm1 : Measurable (fun u : Fin n → ℝ => (a ⬝ᵥ u, b ⬝ᵥ u)) := by
    simp only [dotProduct]; fun_prop
  have hm2 : Measurable (fun p : ℝ × ℝ => (p.1, ρ * p.1 + c * p.2)) := by fun_prop
  haveI := Measure.isProbabilityMeasure_map (μ := stdGauss n) hm1.aemeasurable
  haveI := Measure.isProbabilityMeasure_map (μ := (gaussianReal 0 1).prod (gaussianReal 0 1)) hm2.aemeasurable
  apply Measure.ext_of_charFunDual
  funext L
  obtain ⟨s, hs⟩ : ∃ s, s = L (1, 0) := ⟨_, rfl⟩
  obtain ⟨t, ht⟩ : ∃ t, t = L (0, 1) := ⟨_, rfl⟩
  have hL : ∀ x y : ℝ, L (x, y) = s * x + t * y := by
    intro x y
    have : ((x, y) : ℝ × ℝ) = x • ((1, 0) : ℝ × ℝ) + y • ((0, 1) : ℝ × ℝ) := by simp
    rw [this, map_add, map_smul, map_smul, hs, ht, smul_eq_mul, smul_eq_mul]
    ring
  rw [charFunDual_apply, charFunDual_apply, integral_map hm1.aemeasurable (by fun_prop),
    integral_map hm2.aemeasurable (by fun_prop)]
  have e1 : ∀ u : Fin n → ℝ, Complex.exp ((L (a ⬝ᵥ u, b ⬝ᵥ u) : ℂ) * Complex.I) =
      Complex.exp (((∑ i, (s * a i + t * b i) * u i : ℝ) : ℂ) * Complex.I) := by
    intro u
    rw [hL]
    congr 3
    simp only [dotProduct, Finset.mul_sum, ← Finset.sum_add_distrib]
    exact Finset.sum_congr rfl fun i _ => by ring
  have e2 : ∀ p : ℝ × ℝ, Complex.exp ((L (p.1, ρ * p.1 + c * p.2) : ℂ) * Complex.I) =
      Complex.exp ((((s + t * ρ) * p.1 : ℝ) : ℂ) * Complex.I) * Complex.exp (((t * c * p.2 : ℝ) : ℂ) * Complex.I) := by
    intro p
    rw [hL, ← Complex.exp_add, ← add_mul, ← Complex.ofReal_add]
    congr 3
    ring
  simp only [e1, e2]
  rw [charFun_linear, integral_prod_mul (fun x : ℝ => Complex.exp ((((s + t * ρ) * x : ℝ) : ℂ) * Complex.I))
    (fun z : ℝ => Complex.exp (((t * c * z : ℝ) : ℂ) * Complex.I)), charFun_scalar, charFun_scalar,
    ← Complex.exp_add]
  congr 1
  rw [← neg_add, ← Complex.ofReal_add]
  congr 2
  rw [← add_div]
  congr 1
  have h3 : ∑ i, (s * a i + t * b i) ^ 2 = s ^ 2 * (a ⬝ᵥ a) + 2 * s * t * (a ⬝ᵥ b) + t ^ 2 * (b ⬝ᵥ b) := by
    simp only [dotProduct, Finset.mul_sum, ← Finset.sum_add_distrib]
    exact Finset.sum_congr rfl fun i _ => by ring
  rw [h3, ha, hb, hab, mul_pow t c, hc]
  ring

/-- The bivariate normal density is the density of `(s, ρ s + √(1-ρ²) t)`. -/
theorem map_pair_density {ρ : ℝ} (h : |ρ| < 1) :
    ((gaussianReal 0 1).prod (gaussianReal 0 1)).map (fun p : ℝ × ℝ => (p.1, ρ * p.1 + √(1 - ρ ^ 2) * p.2)) =
      densityLaw (fun p : ℝ × ℝ => Integration.phi2 p.1 p.2 ρ) := by
  have hc := Props.c_pos h
  have hs : 0 < √(1 - ρ ^ 2) := Real.sqrt_pos.2 hc
  obtain ⟨c, hce⟩ : ∃ c, c = √(1 - ρ ^ 2) := ⟨_, rfl⟩
  have hd : ∀ z1 z2, Integration.phi2 z1 z2 ρ = StdNormal.pdf z1 * gaussianPDFReal (ρ * z1) (Real.toNNReal (c ^ 2)) z2 := by
    intro z1 z2
    rw [Props.C53_density z1 z2 h, hce, Props.scaled_pdf_eq _ hs]
  rw [← hce] at hs ⊢
  have hm2 : Measurable (fun p : ℝ × ℝ => (p.1, ρ * p.1 + c * p.2)) := by fun_prop
  have hv : Real.toNNReal (c ^ 2) ≠ 0 := (Real.toNNReal_pos.2 (by positivity)).ne'
  have hmg : Measurable (fun p : ℝ × ℝ => gaussianPDFReal (ρ * p.1) (Real.toNNReal (c ^ 2)) p.2) := by
    unfold gaussianPDFReal; fun_prop
  ext A hA
  rw [Measure.map_apply hm2 hA, densityLaw_apply _ hA, Measure.prod_apply (hm2 hA), gauss_density, densityLaw,
    lintegral_withDensity_eq_lintegral_mul₀ (StdNormal.continuous_pdf.measurable.ennreal_ofReal.aemeasurable)
      (measurable_measure_prodMk_left (hm2 hA)).aemeasurable, ← densityLaw, ← gauss_density,
    ← lintegral_indicator hA, Measure.volume_eq_prod, lintegral_prod _ (by
      refine (Measurable.indicator ?_ hA).aemeasurable
      simp only [hd]
      exact ((StdNormal.continuous_pdf.measurable.comp measurable_fst).mul hmg).ennreal_ofReal)]
  refine lintegral_congr fun z1 => ?_
  simp only [Pi.mul_apply]
  have hsec : MeasurableSet (Prod.mk z1 ⁻¹' A) := measurable_prodMk_left hA
  have e1 : Prod.mk z1 ⁻¹' ((fun p : ℝ × ℝ => (p.1, ρ * p.1 + c * p.2)) ⁻¹' A) =
      (fun t => ρ * z1 + c * t) ⁻¹' (Prod.mk z1 ⁻¹' A) := rfl
  have e2 : (gaussianReal 0 1).map (fun t => ρ * z1 + c * t) = gaussianReal (ρ * z1) (Real.toNNReal (c ^ 2)) := by
    have h1 := gaussianReal_map_const_mul (μ := 0) (v := 1) c
    have h2 := gaussianReal_map_const_add (μ := c * 0) (v := NNReal.mk (c ^ 2) (sq_nonneg _) * 1) (ρ * z1)
    rw [← h1, Measure.map_map (by fun_prop) (by fun_prop)] at h2
    have : (fun t => ρ * z1 + c * t) = (fun x => ρ * z1 + x) ∘ fun x => c * x := rfl
    rw [this, h2]
    congr 1
    · ring
    · rw [mul_one]
      ext
      simp [Real.coe_toNNReal _ (sq_nonneg c)]
  rw [e1, ← Measure.map_apply (by fun_prop) hsec, e2, gaussianReal_of_var_ne_zero _ hv, withDensity_apply _ hsec,
    ← lintegral_const_mul _ (by fun_prop), ← lintegral_indicator hsec]
  refine lintegral_congr fun z2 => ?_
  by_cases hz : (z1, z2) ∈ A
  · rw [indicator_of_mem (show z2 ∈ Prod.mk z1 ⁻¹' A from hz), indicator_of_mem hz, hd, gaussianPDF,
      ENNReal.ofReal_mul (StdNormal.pdf_pos _).le]
  · rw [indicator_of_notMem (show z2 ∉ Prod.mk z1 ⁻¹' A from hz), indicator_of_notMem hz]

/-- The law of a linear image depends only on the product of the matrix with its transpose. -/
theorem map_mulVec_congr {A B : Matrix (Fin n) (Fin n) ℝ} (h : A * Aᵀ = B * Bᵀ) :
    (stdGauss n).map (fun u => A.mulVec u) = (stdGauss n).map (fun u => B.mulVec u) := by
  have hm : ∀ A : Matrix (Fin n) (Fin n) ℝ, Measurable (fun u : Fin n → ℝ => A.mulVec u) := fun A =>
    (Continuous.matrix_mulVec continuous_const continuous_id).measurable
  haveI := Measure.isProbabilityMeasure_map (μ := stdGauss n) (hm A).aemeasurable
  haveI := Measure.isProbabilityMeasure_map (μ := stdGauss n) (hm B).aemeasurable
  apply Measure.ext_of_charFunDual
  funext L
  obtain ⟨w, hw⟩ : ∃ w : Fin n → ℝ, w = fun i => L (Pi.single i 1) := ⟨_, rfl⟩
  have hL : ∀ x : Fin n → ℝ, L x = w ⬝ᵥ x := by
    intro x
    conv_lhs => rw [pi_eq_sum_univ' x]
    rw [map_sum]
    refine Finset.sum_congr rfl fun i _ => ?_
    rw [map_smul, smul_eq_mul, mul_comm, hw]
  have key : ∀ A : Matrix (Fin n) (Fin n) ℝ, charFunDual ((stdGauss n).map (fun u => A.mulVec u)) L =
      Complex.exp (-(((w ⬝ᵥ (A * Aᵀ).mulVec w) / 2 : ℝ) : ℂ)) := by
    intro A
    rw [charFunDual_apply, integral_map (hm A).aemeasurable (by fun_prop)]
    have e : ∀ u : Fin n → ℝ, Complex.exp ((L (A.mulVec u) : ℂ) * Complex.I) =
        Complex.exp (((∑ i, (vecMul w A) i * u i : ℝ) : ℂ) * Complex.I) := by
      intro u
      rw [hL, dotProduct_mulVec]
      rfl
    simp only [e]
    rw [charFun_linear]
    have : ∑ i, (vecMul w A) i ^ 2 = w ⬝ᵥ (A * Aᵀ).mulVec w := by
      rw [← mulVec_mulVec, dotProduct_mulVec, mulVec_transpose]
      exact Finset.sum_congr rfl fun i _ => by ring
    rw [this]
  rw [key, key, h]

/-- The image of the standard normal law under `u_to_x` of one variable. -/
theorem map_uToX {m : Marginal} {S : Set ℝ} (hr : RoundTrip m S) (hS : MeasurableSet S) (hj : JacobianCorrect m S)
    (hp : JacobianRatio m S) (h0 : ∀ x ∈ S, 0 ≤ m.pdf x) :
    (gaussianReal 0 1).map m.uToX = densityLaw (S.indicator m.pdf) := by
  have hmeas : Measurable m.uToX := hr.mono_x.monotone.measurable
  ext A hA
  have e : m.uToX ⁻¹' A = m.xToU '' (A ∩ S) := by
    ext u
    constructor
    · intro hu
      exact ⟨m.uToX u, ⟨hu, hr.mem u⟩, hr.left u⟩
    · rintro ⟨x, ⟨hx, hxS⟩, rfl⟩
      show m.uToX (m.xToU x) ∈ A
      rw [hr.right x hxS]; exact hx
  rw [Measure.map_apply hmeas hA, densityLaw_apply _ hA, gauss_density, densityLaw_apply _ (hmeas hA), e,
    lintegral_image_eq_lintegral_abs_deriv_mul (hA.inter hS) (f' := fun x => m.jac (m.xToU x) x)
      (fun x hx => (hj x hx.2).hasDerivWithinAt) (hr.mono_u.injOn.mono inter_subset_right),
    ← lintegral_indicator (hA.inter hS), ← lintegral_indicator hA]
  refine lintegral_congr fun x => ?_
  by_cases hx : x ∈ A
  · by_cases hxS : x ∈ S
    · have hφ := StdNormal.pdf_pos (m.xToU x)
      rw [indicator_of_mem (show x ∈ A ∩ S from ⟨hx, hxS⟩), indicator_of_mem hx, indicator_of_mem hxS, hp x hxS,
        abs_of_nonneg (div_nonneg (h0 x hxS) hφ.le), ← ENNReal.ofReal_mul (div_nonneg (h0 x hxS) hφ.le),
        div_mul_cancel₀ _ hφ.ne']
    · rw [indicator_of_notMem (fun h => hxS h.2), indicator_of_mem hx, indicator_of_notMem hxS, ENNReal.ofReal_zero]
  · rw [indicator_of_notMem (fun h => hx h.1), indicator_of_notMem hx]

theorem measurable_uToX {m : Transformation.Mats n} {marg : Fin n → Marginal} (h : ∀ i, Measurable (marg i).uToX) :
    Measurable (Transformation.uToX m marg) := by
  refine measurable_pi_iff.2 fun i => (h i).comp ?_
  simp only [mulVec, dotProduct]
  fun_prop

theorem map_uToX_congr {m m' : Transformation.Mats n} {marg : Fin n → Marginal} (h : ∀ i, Measurable (marg i).uToX)
    (hm : m.invT * m.invTᵀ = m'.invT * m'.invTᵀ) :
    (stdGauss n).map (Transformation.uToX m marg) = (stdGauss n).map (Transformation.uToX m' marg) := by
  have hd : Measurable (fun (z : Fin n → ℝ) i => (marg i).uToX (z i)) :=
    measurable_pi_iff.2 fun i => (h i).comp (measurable_pi_apply i)
  have hA : ∀ A : Matrix (Fin n) (Fin n) ℝ, Measurable (fun u : Fin n → ℝ => A.mulVec u) := fun A =>
    (Continuous.matrix_mulVec continuous_const continuous_id).measurable
  have e : ∀ m : Transformation.Mats n, (stdGauss n).map (Transformation.uToX m marg) =
      ((stdGauss n).map (fun u => m.invT.mulVec u)).map (fun (z : Fin n → ℝ) i => (marg i).uToX (z i)) := by
    intro m
    rw [Measure.map_map hd (hA _)]
    rfl
  rw [e, e, map_mulVec_congr hm]

theorem integral_densityLaw {E : Type} [MeasureSpace E] {f : E → ℝ} (hf : AEMeasurable f volume) (h0 : ∀ x, 0 ≤ f x)
    (g : E → ℝ) : ∫ x, g x ∂(densityLaw f) = ∫ x, g x * f x := by
  rw [densityLaw, integral_withDensity_eq_integral_toReal_smul₀ hf.ennreal_ofReal
    (Filter.Eventually.of_forall fun x => ENNReal.ofReal_lt_top)]
  congr 1
  funext x
  rw [ENNReal.toReal_ofReal (h0 x), smul_eq_mul, mul_comm]

theorem integrable_densityLaw {E : Type} [MeasureSpace E] {f : E → ℝ} (hf : AEMeasurable f volume) (h0 : ∀ x, 0 ≤ f x)
    {g : E → ℝ} : Integrable g (densityLaw f) ↔ Integrable (fun x => g x * f x) := by
  rw [densityLaw, integrable_withDensity_iff_integrable_smul₀' hf.ennreal_ofReal
    (Filter.Eventually.of_forall fun x => ENNReal.ofReal_lt_top)]
  have : (fun x => (ENNReal.ofReal (f x)).toReal • g x) = fun x => g x * f x := by
    funext x
    rw [ENNReal.toReal_ofReal (h0 x), smul_eq_mul, mul_comm]
  rw [this]

theorem abs_offdiag_lt {Ro : Matrix (Fin n) (Fin n) ℝ} (hR : Ro.PosDef) (hd : ∀ i, Ro i i = 1) {i j : Fin n}
    (hij : i ≠ j) : |Ro i j| < 1 := by
  have hsymm : Ro j i = Ro i j := by
    have := hR.1
    unfold IsHermitian at this
    rw [conjTranspose_eq_transpose_of_trivial] at this
    exact congrFun (congrFun this i) j
  rw [posDef_iff_dotProduct_mulVec] at hR
  have key : ∀ c : ℝ, 0 < 1 + 2 * c * Ro i j + c ^ 2 := by
    intro c
    have hx : (Pi.single i 1 + c • Pi.single j 1 : Fin n → ℝ) ≠ 0 := by
      intro h0
      have := congrFun h0 i
      simp [hij] at this
    have := hR.2 hx
    simp only [star_trivial, mulVec_add, mulVec_smul, mulVec_single_one, add_dotProduct, dotProduct_add, smul_dotProduct,
      dotProduct_smul, single_one_dotProduct, col_apply, hd, hsymm, smul_eq_mul] at this
    nlinarith
  rw [abs_lt]
  constructor
  · have := key 1; linarith
  · have := key (-1); linarith

theorem det_linMap (A : Matrix (Fin n) (Fin n) ℝ) : (Props.linMap A).det = A.det := by
  show LinearMap.det (A.mulVecLin) = A.det
  rw [← Matrix.toLin'_apply', LinearMap.det_toLin']

end Pystra
