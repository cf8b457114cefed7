import Verif.Lemmas.Frozen

/-! Regularity of the frozen distributions given by integrals (gamma, chi-square, beta), and of `genextreme`. -/

namespace Pystra
open Real MeasureTheory Set Filter Topology

namespace Frozen

theorem invOf_spec {F : ℝ → ℝ} {p : ℝ} (h : ∃ x, F x = p) : F (invOf F p) = p := by
  unfold invOf
  rw [dif_pos h]
  exact h.choose_spec

theorem regular_of_density {f : Frozen} {S : Set ℝ} (hopen : IsOpen S) (hconv : Convex ℝ S)
    (hint : Integrable f.pdf) (h1 : ∫ x, f.pdf x = 1) (hnn : ∀ x, 0 ≤ f.pdf x)
    (hpos : ∀ x ∈ S, 0 < f.pdf x) (hzero : ∀ x, x ∉ S → f.pdf x = 0) (hcont : ContinuousOn f.pdf S)
    (hcdf : ∀ x, f.cdf x = ∫ t in Iic x, f.pdf t) (hppf : f.ppf = invOf f.cdf) : Regular f S := by
  have hd : ∀ x ∈ S, HasDerivAt f.cdf (f.pdf x) x := by
    intro x hx
    have e : f.cdf = fun y => f.cdf x + ∫ t in x..y, f.pdf t := by
      funext y
      rw [hcdf, hcdf, ← intervalIntegral.integral_Iic_sub_Iic hint.integrableOn hint.integrableOn]
      ring
    rw [e]
    have hc : ContinuousAt f.pdf x := hcont.continuousAt (hopen.mem_nhds hx)
    exact (intervalIntegral.integral_hasDerivAt_right (hint.intervalIntegrable)
      (hint.aestronglyMeasurable.stronglyMeasurableAtFilter) hc).const_add _
  have hcontF : Continuous f.cdf := by
    have e : f.cdf = fun y => f.cdf 0 + ∫ t in (0:ℝ)..y, f.pdf t := by
      funext y
      rw [hcdf, hcdf, ← intervalIntegral.integral_Iic_sub_Iic hint.integrableOn hint.integrableOn]
      ring
    rw [e]
    exact continuous_const.add (intervalIntegral.continuous_primitive (fun a b => hint.intervalIntegrable) 0)
  have hmono : StrictMonoOn f.cdf S := by
    apply strictMonoOn_of_deriv_pos hconv hcontF.continuousOn
    intro x hx
    rw [hopen.interior_eq] at hx
    rw [(hd x hx).deriv]; exact hpos x hx
  have h0le : ∀ x, 0 ≤ f.cdf x := fun x => by
    rw [hcdf]; exact setIntegral_nonneg measurableSet_Iic (fun t _ => hnn t)
  have hle1 : ∀ x, f.cdf x ≤ 1 := fun x => by
    rw [hcdf, ← h1]
    exact setIntegral_le_integral hint (Eventually.of_forall hnn)
  have hmem : ∀ x ∈ S, 0 < f.cdf x ∧ f.cdf x < 1 := by
    intro x hx
    obtain ⟨ε, hε, hb⟩ := Metric.isOpen_iff.1 hopen x hx
    have a1 : x - ε / 2 ∈ S := hb (by rw [Metric.mem_ball, Real.dist_eq, abs_lt]; constructor <;> linarith)
    have a2 : x + ε / 2 ∈ S := hb (by rw [Metric.mem_ball, Real.dist_eq, abs_lt]; constructor <;> linarith)
    exact ⟨(h0le _).trans_lt (hmono a1 hx (by linarith)), (hmono hx a2 (by linarith)).trans_le (hle1 _)⟩
  have htop : Tendsto f.cdf atTop (𝓝 1) := by
    have := (intervalIntegral_tendsto_integral_Ioi (μ := volume) (f := f.pdf) 0 hint.integrableOn tendsto_id).const_add (f.cdf 0)
    have e : f.cdf 0 + ∫ x in Ioi (0:ℝ), f.pdf x = 1 := by
      rw [hcdf, ← h1, ← integral_add_compl (measurableSet_Iic (a := (0:ℝ))) hint, compl_Iic]
    rw [e] at this
    refine this.congr (fun y => ?_)
    simp only [id]
    rw [hcdf, hcdf, ← intervalIntegral.integral_Iic_sub_Iic hint.integrableOn hint.integrableOn]
    ring
  have hbot : Tendsto f.cdf atBot (𝓝 0) := by
    have := (intervalIntegral_tendsto_integral_Iic (μ := volume) (f := f.pdf) 0 hint.integrableOn tendsto_id).const_sub (f.cdf 0)
    rw [← hcdf 0, sub_self] at this
    refine this.congr (fun y => ?_)
    simp only [id]
    rw [hcdf, hcdf, ← intervalIntegral.integral_Iic_sub_Iic hint.integrableOn hint.integrableOn]
    ring
  refine ⟨hmem, hmono, ?_, hd⟩
  intro p h0 hp1
  have hex : ∃ x, f.cdf x = p :=
    mem_range_of_exists_le_of_exists_ge hcontF
      (((hbot.eventually (gt_mem_nhds h0)).exists).imp fun _ h => h.le)
      (((htop.eventually (lt_mem_nhds hp1)).exists).imp fun _ h => h.le)
  have hsp := invOf_spec hex
  rw [hppf]
  refine ⟨?_, hsp⟩
  by_contra hx
  set x := invOf f.cdf p
  by_cases hS : ∃ y ∈ S, x < y
  · obtain ⟨y, hy, hxy⟩ := hS
    have : f.cdf x = 0 := by
      rw [hcdf]
      apply setIntegral_eq_zero_of_forall_eq_zero
      intro t ht
      apply hzero
      intro htS
      rcases (mem_Iic.1 ht).eq_or_lt with e | e
      · exact hx (e ▸ htS)
      · exact hx (hconv.ordConnected.out htS hy ⟨e.le, hxy.le⟩)
    rw [hsp] at this; exact h0.ne' this
  · push Not at hS
    have : f.cdf x = 1 := by
      rw [hcdf, ← h1]
      rw [← integral_add_compl (measurableSet_Iic (a := x)) hint, compl_Iic]
      rw [setIntegral_eq_zero_of_forall_eq_zero (t := Ioi x), add_zero]
      intro t ht
      exact hzero t fun htS => absurd (hS t htS) (not_le.2 ht)
    rw [hsp] at this; exact hp1.ne this

/-! gamma -/

theorem integrableOn_gammaPdf {a : ℝ} (ha : 0 < a) :
    IntegrableOn (fun x : ℝ => x ^ (a - 1) * exp (-x) / Gamma a) (Ioi 0) := by
  have : IntegrableOn (fun x : ℝ => exp (-x) * x ^ (a - 1) / Gamma a) (Ioi 0) :=
    (Real.GammaIntegral_convergent ha).div_const (Gamma a)
  refine this.congr_fun (fun x _ => ?_) measurableSet_Ioi
  ring

theorem gamma_pdf_eq (a : ℝ) : (gamma a).pdf = (Ioi 0).indicator (fun x : ℝ => x ^ (a - 1) * exp (-x) / Gamma a) := by
  funext x
  simp only [gamma, indicator, mem_Ioi]

theorem regular_gamma {a : ℝ} (ha : 0 < a) : Regular (gamma a) (Ioi 0) := by
  have hG := Gamma_pos_of_pos ha
  have hint : Integrable (gamma a).pdf := by
    rw [gamma_pdf_eq, integrable_indicator_iff measurableSet_Ioi]; exact integrableOn_gammaPdf ha
  apply regular_of_density isOpen_Ioi (convex_Ioi 0) hint
  · rw [gamma_pdf_eq, integral_indicator measurableSet_Ioi]
    rw [integral_div]
    rw [div_eq_one_iff_eq hG.ne', Gamma_eq_integral ha]
    apply setIntegral_congr_fun measurableSet_Ioi
    intro x _; simp only []; ring
  · intro x
    rw [gamma_pdf_eq]
    apply indicator_nonneg
    intro x hx
    have : (0:ℝ) < x ^ (a - 1) := rpow_pos_of_pos hx _
    positivity
  · intro x hx
    rw [gamma_pdf_eq, indicator_of_mem hx]
    have : (0:ℝ) < x ^ (a - 1) := rpow_pos_of_pos hx _
    positivity
  · intro x hx; rw [gamma_pdf_eq, indicator_of_notMem hx]
  · rw [gamma_pdf_eq]
    have : ContinuousOn (fun x : ℝ => x ^ (a - 1) * exp (-x) / Gamma a) (Ioi 0) := by
      apply ContinuousOn.div_const
      apply ContinuousOn.mul
      · exact fun x hx => (continuousAt_rpow_const x _ (Or.inl (ne_of_gt hx))).continuousWithinAt
      · fun_prop
    exact this.congr (fun x hx => indicator_of_mem hx _)
  · intro x
    by_cases hx : 0 < x
    · have e1 : (gamma a).cdf x = ∫ t in (0:ℝ)..x, t ^ (a - 1) * exp (-t) / Gamma a := if_pos hx
      rw [e1, intervalIntegral.integral_of_le hx.le, gamma_pdf_eq, setIntegral_indicator measurableSet_Ioi,
        Iic_inter_Ioi]
    · have e1 : (gamma a).cdf x = 0 := if_neg hx
      rw [e1]
      symm
      apply setIntegral_eq_zero_of_forall_eq_zero
      intro t ht
      rw [gamma_pdf_eq, indicator_of_notMem]
      exact fun h => hx ((mem_Ioi.1 h).trans_le ht)
  · rfl

theorem regular_chi2 {df : ℝ} (h : 0 < df) : Regular (chi2 df) (Ioi 0) := by
  have := (regular_gamma (a := df / 2) (by linarith)).locScale 0 (scale := 2) (by norm_num)
  have e : {x : ℝ | (x - 0) / 2 ∈ Ioi (0:ℝ)} = Ioi 0 := by
    ext x
    simp only [mem_ofPred_eq, mem_Ioi]
    constructor <;> intro h <;> linarith
  rw [e] at this
  exact this

/-! beta -/

theorem betaDist_pdf_eq (a b : ℝ) : (betaDist a b).pdf = ProbabilityTheory.betaPDFReal a b := by
  funext x
  simp only [betaDist, ProbabilityTheory.betaPDFReal, ProbabilityTheory.beta]
  split_ifs
  · rw [one_div_div]
  · rfl

theorem betaDist_nonneg {a b : ℝ} (ha : 0 < a) (hb : 0 < b) (x : ℝ) : 0 ≤ (betaDist a b).pdf x := by
  rw [betaDist_pdf_eq]
  by_cases h : 0 < x ∧ x < 1
  · exact (ProbabilityTheory.betaPDFReal_pos h.1 h.2 ha hb).le
  · simp [ProbabilityTheory.betaPDFReal, h]

theorem integrable_betaDist {a b : ℝ} (ha : 0 < a) (hb : 0 < b) :
    Integrable (betaDist a b).pdf ∧ ∫ x, (betaDist a b).pdf x = 1 := by
  have h := ProbabilityTheory.lintegral_betaPDF_eq_one ha hb
  have hm : AEStronglyMeasurable (betaDist a b).pdf volume := by
    rw [betaDist_pdf_eq]
    exact (ProbabilityTheory.stronglyMeasurable_betaPDFReal a b).aestronglyMeasurable
  have hnn := betaDist_nonneg ha hb
  have e : ∫⁻ x, ENNReal.ofReal ((betaDist a b).pdf x) = 1 := by
    rw [betaDist_pdf_eq]; exact h
  refine ⟨⟨hm, ?_⟩, ?_⟩
  · rw [hasFiniteIntegral_iff_ofReal (Eventually.of_forall hnn), e]
    exact ENNReal.one_lt_top
  · rw [integral_eq_lintegral_of_nonneg_ae (Eventually.of_forall hnn) hm, e]; rfl

theorem regular_betaDist {a b : ℝ} (ha : 0 < a) (hb : 0 < b) : Regular (betaDist a b) (Ioo 0 1) := by
  obtain ⟨hint, h1⟩ := integrable_betaDist ha hb
  apply regular_of_density isOpen_Ioo (convex_Ioo 0 1) hint h1 (betaDist_nonneg ha hb)
  · intro x hx
    rw [betaDist_pdf_eq]
    exact ProbabilityTheory.betaPDFReal_pos hx.1 hx.2 ha hb
  · intro x hx
    exact if_neg hx
  · have : ContinuousOn (fun x : ℝ => Gamma (a + b) / (Gamma a * Gamma b) * x ^ (a - 1) * (1 - x) ^ (b - 1))
        (Ioo 0 1) := by
      intro x hx
      apply ContinuousAt.continuousWithinAt
      apply ContinuousAt.mul
      · exact (continuousAt_const).mul (continuousAt_rpow_const x _ (Or.inl hx.1.ne'))
      · exact (ContinuousAt.rpow_const (by fun_prop) (Or.inl (by linarith [hx.2])))
    exact this.congr (fun x hx => if_pos hx)
  · intro x; rfl
  · rfl

/-! genextreme -/

theorem genextreme_zero : genextreme 0 = gumbelR := by
  simp only [genextreme, gumbelR, if_true]

/-- The support of `genextreme c`. -/
def gevSupport (c : ℝ) : Set ℝ := {x | 0 < 1 - c * x}

theorem isOpen_gevSupport (c : ℝ) : IsOpen (gevSupport c) :=
  isOpen_lt continuous_const (by fun_prop)

theorem convex_gevSupport (c : ℝ) : Convex ℝ (gevSupport c) := by
  intro x hx y hy s t hs ht hst
  simp only [gevSupport, mem_ofPred_eq] at *
  have e : 1 - c * (s • x + t • y) = s * (1 - c * x) + t * (1 - c * y) := by
    simp only [smul_eq_mul]
    linear_combination (-hst)
  rw [e]
  rcases hs.eq_or_lt with h | h
  · have : t = 1 := by linarith
    rw [← h, this]; linarith
  · have := mul_pos h hx
    have := mul_nonneg ht hy.le
    linarith

theorem regular_genextreme (c : ℝ) : Regular (genextreme c) (gevSupport c) := by
  by_cases h0 : c = 0
  · subst h0
    rw [genextreme_zero]
    have : gevSupport 0 = univ := by ext x; simp [gevSupport]
    rw [this]
    exact regular_gumbelR
  have hc : ∀ x ∈ gevSupport c, (genextreme c).cdf x = exp (-(1 - c * x) ^ (1 / c)) := fun x hx => by
    have : 0 < 1 - c * x := hx
    simp only [genextreme, if_neg h0, if_pos this]
  have hp : ∀ x ∈ gevSupport c, (genextreme c).pdf x = exp (-(1 - c * x) ^ (1 / c)) * (1 - c * x) ^ (1 / c - 1) :=
    fun x hx => by
    have : 0 < 1 - c * x := hx
    simp only [genextreme, if_neg h0, if_pos this]
  apply regular_of_deriv (convex_gevSupport c) (isOpen_gevSupport c)
  · intro x hx
    have hx' : 0 < 1 - c * x := hx
    have he : (genextreme c).cdf =ᶠ[𝓝 x] (fun x => exp (-(1 - c * x) ^ (1 / c))) := by
      filter_upwards [(isOpen_gevSupport c).mem_nhds hx] with y hy using hc y hy
    have hlin : HasDerivAt (fun x : ℝ => 1 - c * x) (-(c * 1)) x := ((hasDerivAt_id x).const_mul c).const_sub 1
    have h := ((hasDerivAt_exp (-(1 - c * x) ^ (1 / c))).comp x
      ((hlin.rpow_const (p := 1 / c) (Or.inl hx'.ne')).neg))
    refine (HasDerivAt.congr_of_eventuallyEq h he).congr_deriv ?_
    rw [hp x hx]; field_simp
  · intro x hx; rw [hp x hx]; have := rpow_pos_of_pos (show 0 < 1 - c * x from hx) (1 / c - 1); positivity
  · intro x hx
    rw [hc x hx]
    refine ⟨exp_pos _, ?_⟩
    rw [exp_lt_one_iff]
    have := rpow_pos_of_pos (show 0 < 1 - c * x from hx) (1 / c)
    linarith
  · intro p hp0 hp1
    have hl : 0 < -log p := by have := log_neg hp0 hp1; linarith
    have e : (genextreme c).ppf p = (1 - (-log p) ^ c) / c := by simp only [genextreme, if_neg h0]
    have e2 : 1 - c * ((1 - (-log p) ^ c) / c) = (-log p) ^ c := by field_simp; ring
    have hx : (1 - (-log p) ^ c) / c ∈ gevSupport c := by
      show 0 < 1 - c * ((1 - (-log p) ^ c) / c)
      rw [e2]; exact rpow_pos_of_pos hl c
    rw [e]
    refine ⟨hx, ?_⟩
    rw [hc _ hx, e2, ← rpow_mul hl.le, mul_one_div_cancel h0, rpow_one, neg_neg, exp_log hp0]

end Frozen
end Pystra
