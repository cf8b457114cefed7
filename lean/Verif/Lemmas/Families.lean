import Verif.Lemmas.Marginal
import Mathlib.Analysis.Real.Pi.Bounds

/-! Every distribution class: round trip, Jacobian and moments. -/

namespace Pystra
open Real MeasureTheory Set Filter Topology Distribution

theorem ae_mem_Ioi_zero {f : ℝ → ℝ} (h : ∀ x, x < 0 → f x = 0) : ∀ᵐ x, x ∉ Ioi (0:ℝ) → f x = 0 := by
  have : ∀ᵐ x : ℝ, x ≠ 0 := by
    rw [ae_iff]; simp
  filter_upwards [this] with x hx h0
  exact h x (lt_of_le_of_ne (not_lt.1 h0) hx)

/-! Normal -/

theorem good_normal (μ : ℝ) {σ : ℝ} (hσ : 0 < σ) (sp : Option ℝ) : Good (Normal.new μ (.fin σ) sp) sp univ μ σ := by
  have hr := Frozen.regular_norm.locScale μ hσ
  rw [set_univ] at hr
  have hm := Frozen.mom_norm.locScale μ hσ
  constructor
  refine ⟨_, rfl, rfl, rfl, startPoint_eq μ sp, ?_, ?_, ?_⟩
  · refine roundTrip_of_regular hr _ (fun u => ?_) (fun x _ => ?_)
    · simp only [Normal.uToX, Frozen.locScale, Frozen.norm, StdNormal.ppf_cdf]; ring
    · simp only [Normal.xToU, Frozen.locScale, Frozen.norm, StdNormal.ppf_cdf]
  · intro x _
    refine HasDerivAt.congr_deriv (((hasDerivAt_id x).sub_const μ).div_const σ) ?_
    simp only [Normal.jac]
  · have := law_indicator (S := univ) hm (σ := σ) (by ring) (by simp)
    simp only [mul_zero, add_zero] at this
    exact this

/-! Log-normal -/

theorem lognormal_frozen_pdf {lamb zeta x : ℝ} (hz : 0 < zeta) (hx : 0 < x) :
    ((Frozen.lognorm zeta).locScale 0 (exp lamb)).pdf x = Lognormal.pdf lamb zeta x := by
  have hy : 0 < (x - 0) / exp lamb := by rw [sub_zero]; positivity
  rw [show ((Frozen.lognorm zeta).locScale 0 (exp lamb)).pdf x =
    (Frozen.lognorm zeta).pdf ((x - 0) / exp lamb) / exp lamb from rfl, Frozen.lognorm_pdf hz hy, sub_zero]
  unfold Lognormal.pdf StdNormal.pdf
  rw [log_div hx.ne' (exp_pos _).ne', log_exp]
  field_simp

theorem lognormal_frozen_cdf {lamb zeta x : ℝ} (hx : 0 < x) :
    ((Frozen.lognorm zeta).locScale 0 (exp lamb)).cdf x = StdNormal.cdf ((log x - lamb) / zeta) := by
  have hy : 0 < (x - 0) / exp lamb := by rw [sub_zero]; positivity
  simp only [Frozen.locScale, Frozen.lognorm, if_pos hy]
  rw [sub_zero, log_div hx.ne' (exp_pos _).ne', log_exp]

theorem lognorm_zero (s : ℝ) : ∀ᵐ x, x ∉ Ioi (0:ℝ) → (Frozen.lognorm s).pdf x = 0 := by
  filter_upwards with x hx
  exact if_neg hx

/-- Mean and standard deviation of a log-normal law. -/
noncomputable def lnMean (lamb zeta : ℝ) : ℝ := exp (lamb + zeta ^ 2 / 2)
/-- Standard deviation of a log-normal law. -/
noncomputable def lnStd (lamb zeta : ℝ) : ℝ := lnMean lamb zeta * √(exp (zeta ^ 2) - 1)

theorem lnStd_sq {lamb zeta : ℝ} : lnStd lamb zeta ^ 2 = exp lamb ^ 2 * (exp (2 * zeta ^ 2) - exp (zeta ^ 2 / 2) ^ 2) := by
  unfold lnStd lnMean
  have h : 0 ≤ exp (zeta ^ 2) - 1 := by
    have := one_le_exp (sq_nonneg zeta); linarith
  rw [mul_pow, sq_sqrt h, exp_add, mul_pow, ← exp_nat_mul (zeta ^ 2 / 2)]
  have e1 : ((2:ℕ):ℝ) * (zeta ^ 2 / 2) = zeta ^ 2 := by push_cast; ring
  have e2 : exp (2 * zeta ^ 2) = exp (zeta ^ 2) * exp (zeta ^ 2) := by rw [← exp_add]; ring_nf
  rw [e1, e2]; ring

theorem lnStd_nonneg (lamb zeta : ℝ) : 0 ≤ lnStd lamb zeta :=
  mul_nonneg (exp_pos _).le (sqrt_nonneg _)

theorem good_lognormal_params (lamb : ℝ) {zeta : ℝ} (hz : 0 < zeta) (sp : Option ℝ) :
    Good (Lognormal.new lamb zeta true sp) sp (Ioi 0) (lnMean lamb zeta) (lnStd lamb zeta) := by
  have hs := exp_pos lamb
  have hr := (Frozen.regular_lognorm hz).locScale 0 hs
  rw [set_Ioi hs] at hr
  have hm := (Frozen.mom_lognorm hz).locScale 0 hs
  have e : 0 + exp lamb * exp (zeta ^ 2 / 2) = lnMean lamb zeta := by rw [zero_add, ← exp_add]; rfl
  rw [e] at hm
  have hσ : lnStd lamb zeta ^ 2 = 0 ^ 2 + 2 * 0 * exp lamb * exp (zeta ^ 2 / 2) +
      exp lamb ^ 2 * exp (2 * zeta ^ 2) - lnMean lamb zeta ^ 2 := by
    rw [lnStd_sq, ← e]; ring
  constructor
  unfold Lognormal.new Lognormal.ofParams
  simp only [if_true]
  rw [initMoments_frozen hm (lnStd_nonneg _ _) hσ]
  refine ⟨_, rfl, rfl, rfl, startPoint_eq _ sp, ?_, ?_, ?_⟩
  · refine roundTrip_of_regular hr _ (fun u => ?_) (fun x hx => ?_)
    · simp only [Lognormal.uToX, Frozen.locScale, Frozen.lognorm, StdNormal.ppf_cdf]
      rw [zero_add, ← exp_add]; congr 1; ring
    · simp only [Lognormal.xToU]
      rw [lognormal_frozen_cdf hx, StdNormal.ppf_cdf]
  · refine jacobian_of_regular hr isOpen_Ioi _ (fun x hx => ?_) (fun x hx u => ?_)
    · simp only [Lognormal.xToU]
      rw [lognormal_frozen_cdf hx, StdNormal.ppf_cdf]
    · simp only [baseJac]
      rw [lognormal_frozen_pdf hz hx]
  · have := law_indicator (S := Ioi 0) hm hσ (by
      filter_upwards with x hx
      have hx' : ¬0 < (x - 0) / exp lamb := by
        rw [sub_zero, div_pos_iff_of_pos_right hs]; exact hx
      simp only [Frozen.locScale, Frozen.lognorm, if_neg hx', zero_div])
    have e2 : (Ioi 0).indicator (Lognormal.pdf lamb zeta) =
        (Ioi 0).indicator ((Frozen.lognorm zeta).locScale 0 (exp lamb)).pdf := by
      apply indicator_congr
      intro x hx; exact (lognormal_frozen_pdf hz hx).symm
    rw [e2]; exact this

theorem lognormal_params_spec {μ σ : ℝ} (hμ : 0 < μ) (hσ : 0 < σ) :
    0 < (Lognormal.params μ σ).2 ∧ lnMean (Lognormal.params μ σ).1 (Lognormal.params μ σ).2 = μ ∧
      lnStd (Lognormal.params μ σ).1 (Lognormal.params μ σ).2 = σ := by
  simp only [Lognormal.params]
  have hc : 0 < (σ / μ) ^ 2 := by positivity
  have hl : 0 < log (1 + (σ / μ) ^ 2) := log_pos (by linarith)
  have hm : lnMean (log μ - 0.5 * √(log (1 + (σ / μ) ^ 2)) ^ 2) (√(log (1 + (σ / μ) ^ 2))) = μ := by
    unfold lnMean
    rw [show log μ - 0.5 * √(log (1 + (σ / μ) ^ 2)) ^ 2 + √(log (1 + (σ / μ) ^ 2)) ^ 2 / 2 = log μ by ring,
      exp_log hμ]
  refine ⟨sqrt_pos.2 hl, hm, ?_⟩
  unfold lnStd
  rw [hm, sq_sqrt hl.le, exp_log (by linarith), add_sub_cancel_left, sqrt_sq (by positivity)]
  field_simp

theorem good_lognormal {μ σ : ℝ} (hμ : 0 < μ) (hσ : 0 < σ) (sp : Option ℝ) :
    Good (Lognormal.new μ σ false sp) sp (Ioi 0) μ σ := by
  obtain ⟨h1, h2, h3⟩ := lognormal_params_spec hμ hσ
  have := good_lognormal_params (Lognormal.params μ σ).1 h1 sp
  rw [h2, h3] at this
  exact this

theorem good_shiftedLognormal {μ σ lower : ℝ} (hμ : lower < μ) (hσ : 0 < σ) (sp : Option ℝ) :
    Good (ShiftedLognormal.new μ σ lower false sp) sp (Ioi lower) μ σ := by
  obtain ⟨hz, h2, h3⟩ := lognormal_params_spec (sub_pos.2 hμ) hσ
  set lamb := (Lognormal.params (μ - lower) σ).1 with hlamb
  set zeta := (Lognormal.params (μ - lower) σ).2 with hzeta
  have hs := exp_pos lamb
  have hr := (Frozen.regular_lognorm hz).locScale lower hs
  rw [set_Ioi hs] at hr
  have hm := (Frozen.mom_lognorm hz).locScale lower hs
  have e0 : exp lamb * exp (zeta ^ 2 / 2) = μ - lower := by rw [← exp_add]; exact h2
  have e : lower + exp lamb * exp (zeta ^ 2 / 2) = μ := by rw [e0]; ring
  have hσ' : σ ^ 2 = lower ^ 2 + 2 * lower * exp lamb * exp (zeta ^ 2 / 2) + exp lamb ^ 2 * exp (2 * zeta ^ 2) -
      (lower + exp lamb * exp (zeta ^ 2 / 2)) ^ 2 := by
    rw [← h3, lnStd_sq]; ring
  have hpdf : ∀ x ∈ Ioi lower, ((Frozen.lognorm zeta).locScale lower (exp lamb)).pdf x =
      Lognormal.pdf lamb zeta (x - lower) := fun x hx => by
    rw [← lognormal_frozen_pdf hz (sub_pos.2 hx)]; simp only [Frozen.locScale, sub_zero]
  have hcdf : ∀ x ∈ Ioi lower, ((Frozen.lognorm zeta).locScale lower (exp lamb)).cdf x =
      StdNormal.cdf ((log (x - lower) - lamb) / zeta) := fun x hx => by
    rw [← lognormal_frozen_cdf (sub_pos.2 hx)]; simp only [Frozen.locScale, sub_zero]
  constructor
  unfold ShiftedLognormal.new
  simp only [Bool.false_eq_true, if_false]
  rw [initMoments_frozen hm hσ.le hσ', e]
  refine ⟨_, rfl, rfl, rfl, startPoint_eq _ sp, ?_, ?_, ?_⟩
  · refine roundTrip_of_regular hr _ (fun u => ?_) (fun x hx => ?_)
    · simp only [Lognormal.uToX, Frozen.locScale, Frozen.lognorm, StdNormal.ppf_cdf]
      rw [add_comm, ← exp_add, ← hlamb, ← hzeta]; congr 2; ring
    · simp only [Lognormal.xToU]
      rw [hcdf x hx, StdNormal.ppf_cdf]
  · refine jacobian_of_regular hr isOpen_Ioi _ (fun x hx => ?_) (fun x hx u => ?_)
    · simp only [Lognormal.xToU]
      rw [hcdf x hx, StdNormal.ppf_cdf]
    · simp only [baseJac]
      rw [hpdf x hx]
  · have := law_indicator (S := Ioi lower) hm hσ' (by
      filter_upwards with x hx
      have hx' : ¬0 < (x - lower) / exp lamb := by
        rw [div_pos_iff_of_pos_right hs, sub_pos]; exact hx
      simp only [Frozen.locScale, Frozen.lognorm, if_neg hx', zero_div])
    rw [e] at this
    have e2 : (Ioi lower).indicator (fun x => Lognormal.pdf lamb zeta (x - lower)) =
        (Ioi lower).indicator ((Frozen.lognorm zeta).locScale lower (exp lamb)).pdf := by
      apply indicator_congr
      intro x hx; exact (hpdf x hx).symm
    rw [e2]; exact this

/-! Uniform -/

theorem good_uniform_params {a b : ℝ} (hab : a < b) (sp : Option ℝ) :
    Good (Uniform.new a b true sp) sp (Ioo a b) ((a + b) / 2) ((b - a) / √12) := by
  have hs : 0 < b - a := sub_pos.2 hab
  have hr := Frozen.regular_uniform01.locScale a hs
  rw [set_Ioo hs, add_sub_cancel] at hr
  have hm := Frozen.mom_uniform01.locScale a hs
  have e : a + (b - a) * (1 / 2) = (a + b) / 2 := by ring
  have h12 : ((b - a) / √12) ^ 2 = (b - a) ^ 2 / 12 := by rw [div_pow, sq_sqrt (by norm_num)]
  have hσ : ((b - a) / √12) ^ 2 = a ^ 2 + 2 * a * (b - a) * (1 / 2) + (b - a) ^ 2 * (1 / 3) -
      (a + (b - a) * (1 / 2)) ^ 2 := by rw [h12]; ring
  constructor
  unfold Uniform.new Uniform.bounds
  simp only [if_true]
  rw [initMoments_frozen hm (by positivity) hσ, e]
  refine ⟨_, rfl, rfl, rfl, startPoint_eq _ sp, ?_, ?_, ?_⟩
  · exact roundTrip_of_regular hr _ (fun u => rfl) (fun x _ => rfl)
  · exact jacobian_of_regular hr isOpen_Ioo _ (fun x _ => rfl) (fun x _ u => rfl)
  · have := law_indicator (S := Ioo a b) hm hσ (by
      have h1 : ∀ᵐ x : ℝ, x ≠ a := by rw [ae_iff]; simp
      have h2 : ∀ᵐ x : ℝ, x ≠ b := by rw [ae_iff]; simp
      filter_upwards [h1, h2] with x ha hb hx
      have : ¬(0 ≤ (x - a) / (b - a) ∧ (x - a) / (b - a) ≤ 1) := by
        rintro ⟨h1, h2⟩
        rw [div_le_one hs] at h2
        have h3 : 0 ≤ x - a := by
          by_contra hc
          exact absurd h1 (not_le.2 (div_neg_of_neg_of_pos (not_le.1 hc) hs))
        exact hx ⟨lt_of_le_of_ne (by linarith) (Ne.symm ha), lt_of_le_of_ne (by linarith) hb⟩
      simp only [Frozen.locScale, Frozen.uniform01, if_neg this, zero_div])
    rw [e] at this
    exact this

theorem good_uniform (μ : ℝ) {σ : ℝ} (hσ : 0 < σ) (sp : Option ℝ) :
    Good (Uniform.new μ σ false sp) sp (Ioo (μ - √3 * σ) (μ + √3 * σ)) μ σ := by
  have h3 : 0 < √(3:ℝ) := by positivity
  have := good_uniform_params (a := μ - √3 * σ) (b := μ + √3 * σ) (by nlinarith) sp
  have e1 : (μ - √3 * σ + (μ + √3 * σ)) / 2 = μ := by ring
  have e2 : (μ + √3 * σ - (μ - √3 * σ)) / √12 = σ := by
    have : √(12:ℝ) = 2 * √3 := by
      rw [show (12:ℝ) = 2 ^ 2 * 3 by norm_num, sqrt_mul (by norm_num), sqrt_sq (by norm_num)]
    rw [this]; field_simp; ring
  rw [e1, e2] at this
  exact this

/-! Gamma -/

theorem ae_imp_of_forall {S : Set ℝ} {f : ℝ → ℝ} (h : ∀ x, x ∉ S → f x = 0) : ∀ᵐ x, x ∉ S → f x = 0 :=
  Eventually.of_forall h

theorem good_gamma_params {beta alpha : ℝ} (hb : 0 < beta) (ha : 0 < alpha) (sp : Option ℝ) :
    Good (GammaDist.new beta alpha true sp) sp (Ioi 0) (alpha / beta) (√alpha / beta) := by
  have hs : 0 < 1 / beta := by positivity
  have := good_locScale (loc := 0) (σ := √alpha / beta) (Frozen.regular_gamma ha) isOpen_Ioi (Frozen.mom_gamma ha)
    (ae_imp_of_forall fun x hx => if_neg hx) hs (by positivity)
    (by rw [div_pow, sq_sqrt ha.le, div_pow]; ring) sp
  rw [set_Ioi hs, show 0 + 1 / beta * alpha = alpha / beta by ring] at this
  exact this

theorem good_gamma {μ σ : ℝ} (hμ : 0 < μ) (hσ : 0 < σ) (sp : Option ℝ) :
    Good (GammaDist.new μ σ false sp) sp (Ioi 0) μ σ := by
  have := good_gamma_params (beta := μ / σ ^ 2) (alpha := μ ^ 2 / σ ^ 2) (by positivity) (by positivity) sp
  rw [show μ ^ 2 / σ ^ 2 / (μ / σ ^ 2) = μ by field_simp,
    show √(μ ^ 2 / σ ^ 2) / (μ / σ ^ 2) = σ by
      rw [← div_pow, sqrt_sq (by positivity)]; field_simp] at this
  exact this

/-! Shifted exponential -/

theorem good_shiftedExponential_params {lamb : ℝ} (hl : 0 < lamb) (x0 : ℝ) (sp : Option ℝ) :
    Good (ShiftedExponential.new lamb x0 true sp) sp (Ioi x0) (x0 + 1 / lamb) (1 / lamb) := by
  have hs : 0 < 1 / lamb := by positivity
  have := good_locScale (loc := x0) (σ := 1 / lamb) Frozen.regular_expon isOpen_Ioi Frozen.mom_expon
    (ae_mem_Ioi_zero fun x hx => if_neg (not_le.2 hx)) hs hs.le (by ring) sp
  rw [set_Ioi hs, mul_one] at this
  exact this

theorem good_shiftedExponential (μ : ℝ) {σ : ℝ} (hσ : 0 < σ) (sp : Option ℝ) :
    Good (ShiftedExponential.new μ σ false sp) sp (Ioi (μ - σ)) μ σ := by
  have := good_shiftedExponential_params (lamb := 1 / σ) (by positivity) (μ - σ) sp
  rw [one_div_one_div, sub_add_cancel] at this
  exact this

/-! Shifted Rayleigh -/

theorem good_shiftedRayleigh_params {a : ℝ} (ha : 0 < a) (x0 : ℝ) (sp : Option ℝ) :
    Good (ShiftedRayleigh.new a x0 true sp) sp (Ioi x0) (x0 + a * √(π / 2)) (a * √(2 - π / 2)) := by
  have hp : 0 ≤ 2 - π / 2 := by linarith [pi_le_four]
  have := good_locScale (loc := x0) (σ := a * √(2 - π / 2)) Frozen.regular_rayleigh isOpen_Ioi Frozen.rayleigh_mom
    (ae_mem_Ioi_zero fun x hx => if_neg (not_le.2 hx)) ha (by positivity)
    (by rw [mul_pow, sq_sqrt hp, sq_sqrt (by positivity)]) sp
  rw [set_Ioi ha] at this
  exact this

theorem good_shiftedRayleigh (μ : ℝ) {σ : ℝ} (hσ : 0 < σ) (sp : Option ℝ) :
    Good (ShiftedRayleigh.new μ σ false sp) sp (Ioi (μ - σ * √(π / (4 - π)))) μ σ := by
  have h4 : 0 < 4 - π := by linarith [pi_lt_d2]
  have hp : 0 < 2 - π / 2 := by linarith
  have hq : 0 < √(2 - π / 2) := sqrt_pos.2 hp
  have := good_shiftedRayleigh_params (a := σ / √(2 - π * 0.5)) (by
    rw [show 2 - π * 0.5 = 2 - π / 2 by ring]; positivity) (μ - σ * √(π / (4 - π))) sp
  have e1 : μ - σ * √(π / (4 - π)) + σ / √(2 - π * 0.5) * √(π / 2) = μ := by
    rw [show 2 - π * 0.5 = 2 - π / 2 by ring]
    have : √(π / (4 - π)) = √(π / 2) / √(2 - π / 2) := by
      rw [← sqrt_div (by positivity)]
      congr 1; rw [show 2 - π / 2 = (4 - π) / 2 by ring, div_div_div_cancel_right₀ (by norm_num)]
    rw [this]; ring
  have e2 : σ / √(2 - π * 0.5) * √(2 - π / 2) = σ := by
    rw [show 2 - π * 0.5 = 2 - π / 2 by ring, div_mul_cancel₀ _ hq.ne']
  rw [e1, e2] at this
  exact this

/-! Gumbel and its mirror image -/

theorem good_gumbel_params (mu : ℝ) {scale : ℝ} (hs : 0 < scale) (sp : Option ℝ) :
    Good (Gumbel.new mu scale true sp) sp univ (mu + scale * eulerMascheroniConstant) (scale * π / √6) := by
  have := good_locScale (loc := mu) (σ := scale * π / √6) Frozen.regular_gumbelR isOpen_univ Frozen.mom_gumbelR
    (by simp) hs (by positivity) (by rw [div_pow, sq_sqrt (by norm_num)]; ring) sp
  rw [set_univ] at this
  exact this

theorem good_gumbel (μ : ℝ) {σ : ℝ} (hσ : 0 < σ) (sp : Option ℝ) :
    Good (Gumbel.new μ σ false sp) sp univ
      (μ + (eulerMascheroniConstant - 0.5772156649) * (σ * √6 / π)) σ := by
  have := good_gumbel_params (μ - 0.5772156649 * σ * √6 / π) (scale := σ * √6 / π) (by positivity) sp
  have e1 : μ - 0.5772156649 * σ * √6 / π + σ * √6 / π * eulerMascheroniConstant =
      μ + (eulerMascheroniConstant - 0.5772156649) * (σ * √6 / π) := by ring
  have e2 : σ * √6 / π * π / √6 = σ := by field_simp
  rw [e1, e2] at this
  exact this

theorem good_typeIsmallest_params (mu : ℝ) {beta : ℝ} (hb : 0 < beta) (sp : Option ℝ) :
    Good (TypeIsmallest.new mu beta true sp) sp univ (mu - eulerMascheroniConstant / beta) (π / (beta * √6)) := by
  have hs : 0 < 1 / beta := by positivity
  have := good_locScale (loc := mu) (σ := π / (beta * √6)) Frozen.regular_gumbelL isOpen_univ Frozen.mom_gumbelL
    (by simp) hs (by positivity) (by rw [div_pow, mul_pow, sq_sqrt (by norm_num)]; field_simp; ring) sp
  rw [set_univ, show mu + 1 / beta * -eulerMascheroniConstant = mu - eulerMascheroniConstant / beta by ring] at this
  exact this

theorem good_typeIsmallest (μ : ℝ) {σ : ℝ} (hσ : 0 < σ) (sp : Option ℝ) :
    Good (TypeIsmallest.new μ σ false sp) sp univ
      (μ - (eulerMascheroniConstant - 0.5772156649) * (σ * √6 / π)) σ := by
  have := good_typeIsmallest_params (μ + (0.5772156649 * σ * √6) / π) (beta := π / (σ * √6)) (by positivity) sp
  have e1 : μ + (0.5772156649 * σ * √6) / π - eulerMascheroniConstant / (π / (σ * √6)) =
      μ - (eulerMascheroniConstant - 0.5772156649) * (σ * √6 / π) := by
    rw [div_div_eq_mul_div]; ring
  have e2 : π / (π / (σ * √6) * √6) = σ := by field_simp
  rw [e1, e2] at this
  exact this

/-! Chi-square -/

theorem good_chiSquare_params {nu : ℝ} (h : 0 < nu) (s : ℝ) (sp : Option ℝ) :
    Good (ChiSquare.new nu s true sp) sp (Ioi 0) nu (√(2 * nu)) := by
  have := good_locScale (loc := 0) (scale := 2) (σ := √(2 * nu)) (Frozen.regular_gamma (a := nu / 2) (by linarith))
    isOpen_Ioi (Frozen.mom_gamma (a := nu / 2) (by linarith)) (ae_imp_of_forall fun x hx => if_neg hx)
    (by norm_num) (by positivity) (by rw [sq_sqrt (by positivity)]; ring) sp
  rw [set_Ioi (by norm_num), show 0 + 2 * (nu / 2) = nu by ring] at this
  exact this

theorem good_chiSquare {μ σ : ℝ} (hμ : 0 < μ) (hσ : 0 < σ) (sp : Option ℝ) :
    Good (ChiSquare.new μ σ false sp) sp (Ioi 0) (2 * μ ^ 2 / σ ^ 2) (2 * μ / σ) := by
  have := good_chiSquare_params (nu := 2 * μ ^ 2 / σ ^ 2) (by positivity) σ sp
  rw [show √(2 * (2 * μ ^ 2 / σ ^ 2)) = 2 * μ / σ by
    rw [show 2 * (2 * μ ^ 2 / σ ^ 2) = (2 * μ / σ) ^ 2 by ring, sqrt_sq (by positivity)]] at this
  exact this

/-! Weibull -/

theorem weibull_var_nonneg {k : ℝ} (hk : 0 < k) : 0 ≤ Gamma (1 + 2 / k) - Gamma (1 + 1 / k) ^ 2 := by
  have h := Frozen.mom_weibullMin hk
  have := h.int_centered (Gamma (1 + 1 / k))
  have h2 : 0 ≤ ∫ x, (x - Gamma (1 + 1 / k)) ^ 2 * (Frozen.weibullMin k).pdf x :=
    integral_nonneg fun x => mul_nonneg (sq_nonneg _) (h.nonneg x)
  rw [this] at h2; linarith

theorem good_weibull_params {k u1 eps : ℝ} (hk : 0 < k) (hu : eps < u1) (k0 : ℝ) (sp : Option ℝ) :
    Good (Weibull.new k0 u1 k eps true sp) sp (Ioi eps) (eps + (u1 - eps) * Gamma (1 + 1 / k))
      ((u1 - eps) * √(Gamma (1 + 2 / k) - Gamma (1 + 1 / k) ^ 2)) := by
  have hs : 0 < u1 - eps := sub_pos.2 hu
  have := good_locScale (loc := eps) (σ := (u1 - eps) * √(Gamma (1 + 2 / k) - Gamma (1 + 1 / k) ^ 2))
    (Frozen.regular_weibullMin hk) isOpen_Ioi
    (Frozen.mom_weibullMin hk) (ae_imp_of_forall fun x hx => if_neg hx) hs (by positivity)
    (by rw [mul_pow, sq_sqrt (weibull_var_nonneg hk)]) sp
  rw [set_Ioi hs] at this
  exact this

theorem good_weibull {μ σ eps k : ℝ} (hk : 0 < k) (hμ : eps < μ) (sp : Option ℝ) :
    Good (Weibull.new k μ σ eps false sp) sp (Ioi eps) μ
      (σ + (μ - eps) / Gamma (1 + 1 / k) * Weibull.parameter k (μ - eps) σ) := by
  have hG : 0 < Gamma (1 + 1 / k) := Gamma_pos_of_pos (by positivity)
  have hm : 0 < μ - eps := sub_pos.2 hμ
  have hs : 0 < (μ - eps) / Gamma (1 + 1 / k) := by positivity
  have := good_weibull_params (k := k) (u1 := (μ - eps) / Gamma (1 + 1 / k) + eps) (eps := eps) hk (by linarith) k sp
  have e1 : eps + ((μ - eps) / Gamma (1 + 1 / k) + eps - eps) * Gamma (1 + 1 / k) = μ := by field_simp; ring
  have e2 : ((μ - eps) / Gamma (1 + 1 / k) + eps - eps) * √(Gamma (1 + 2 / k) - Gamma (1 + 1 / k) ^ 2) =
      σ + (μ - eps) / Gamma (1 + 1 / k) * Weibull.parameter k (μ - eps) σ := by
    unfold Weibull.parameter; field_simp; ring
  rw [e1, e2] at this
  exact this

/-! Type II largest value (Fréchet) -/

theorem frechet_var_nonneg {k : ℝ} (hk : 2 < k) : 0 ≤ Gamma (1 - 2 / k) - Gamma (1 - 1 / k) ^ 2 := by
  have h := Frozen.mom_invweibull hk
  have := h.int_centered (Gamma (1 - 1 / k))
  have h2 : 0 ≤ ∫ x, (x - Gamma (1 - 1 / k)) ^ 2 * (Frozen.invweibull k).pdf x :=
    integral_nonneg fun x => mul_nonneg (sq_nonneg _) (h.nonneg x)
  rw [this] at h2; linarith

theorem good_typeIIlargest_params {k u : ℝ} (hk : 2 < k) (hu : 0 < u) (k0 : ℝ) (sp : Option ℝ) :
    Good (TypeIIlargest.new k0 u k true sp) sp (Ioi 0) (u * Gamma (1 - 1 / k))
      (u * √(Gamma (1 - 2 / k) - Gamma (1 - 1 / k) ^ 2)) := by
  have := good_locScale (loc := 0) (σ := u * √(Gamma (1 - 2 / k) - Gamma (1 - 1 / k) ^ 2))
    (Frozen.regular_invweibull (by linarith)) isOpen_Ioi
    (Frozen.mom_invweibull hk) (ae_imp_of_forall fun x hx => if_neg hx) hu (by positivity)
    (by rw [mul_pow, sq_sqrt (frechet_var_nonneg hk)]) sp
  rw [set_Ioi hu, zero_add] at this
  exact this

theorem good_typeIIlargest {μ σ k : ℝ} (hk : 2 < k) (hμ : 0 < μ) (sp : Option ℝ) :
    Good (TypeIIlargest.new k μ σ false sp) sp (Ioi 0) μ
      (σ + μ / Gamma (1 - 1 / k) * TypeIIlargest.parameter k μ σ) := by
  have h1 : 1 / k < 1 := by rw [div_lt_one (by linarith)]; linarith
  have hG : 0 < Gamma (1 - 1 / k) := Gamma_pos_of_pos (by linarith)
  have := good_typeIIlargest_params (k := k) (u := μ / Gamma (1 - 1 / k)) hk (by positivity) k sp
  have e1 : μ / Gamma (1 - 1 / k) * Gamma (1 - 1 / k) = μ := div_mul_cancel₀ _ hG.ne'
  have e2 : μ / Gamma (1 - 1 / k) * √(Gamma (1 - 2 / k) - Gamma (1 - 1 / k) ^ 2) =
      σ + μ / Gamma (1 - 1 / k) * TypeIIlargest.parameter k μ σ := by
    unfold TypeIIlargest.parameter
    generalize Gamma (1 - 1 / k) = G at hG
    generalize √(Gamma (1 - 2 / k) - G ^ 2) = R
    field_simp; ring
  rw [e1, e2] at this
  exact this

/-! Beta -/

theorem good_beta_params {q r a b : ℝ} (hq : 0 < q) (hr : 0 < r) (hab : a < b) (q0 : ℝ) (sp : Option ℝ) :
    Good (BetaDist.new q0 q r a b true sp) sp (Ioo a b) (a + (b - a) * (q / (q + r)))
      ((b - a) * (q + r)⁻¹ * √(q * r * (q + r + 1)⁻¹)) := by
  have hs : 0 < b - a := sub_pos.2 hab
  have := good_locScale (loc := a) (σ := (b - a) * (q + r)⁻¹ * √(q * r * (q + r + 1)⁻¹))
    (Frozen.regular_betaDist hq hr) isOpen_Ioo
    (Frozen.mom_betaDist hq hr) (ae_imp_of_forall fun x hx => if_neg hx) hs (by positivity)
    (by rw [mul_pow, mul_pow, sq_sqrt (by positivity)]; field_simp; ring) sp
  rw [set_Ioo hs, add_sub_cancel] at this
  exact this

theorem good_beta {μ σ a b q : ℝ} (hq : 0 < q) (ha : a < μ) (hb : μ < b) (sp : Option ℝ) :
    ∃ s, Good (BetaDist.new q μ σ a b false sp) sp (Ioo a b) μ s ∧ |s - σ| = BetaDist.parameter q a b μ σ := by
  have h1 : 0 < μ - a := sub_pos.2 ha
  have h2 : 0 < b - μ := sub_pos.2 hb
  have h3 : 0 < b - a := by linarith
  have hr : 0 < q * (b - a) * (μ - a)⁻¹ - q := by
    rw [show q * (b - a) * (μ - a)⁻¹ - q = q * ((b - μ) / (μ - a)) by field_simp; ring]; positivity
  have := good_beta_params hq hr (by linarith : a < b) q sp
  refine ⟨(b - a) * (q + (q * (b - a) * (μ - a)⁻¹ - q))⁻¹ *
      √(q * (q * (b - a) * (μ - a)⁻¹ - q) * (q + (q * (b - a) * (μ - a)⁻¹ - q) + 1)⁻¹), ?_, ?_⟩
  · have e1 : a + (b - a) * (q / (q + (q * (b - a) * (μ - a)⁻¹ - q))) = μ := by
      rw [add_sub_cancel]; field_simp; ring
    rw [e1] at this
    exact this
  · unfold BetaDist.parameter
    have : (b - μ) * (μ - a)⁻¹ * q = q * (b - a) * (μ - a)⁻¹ - q := by field_simp; ring
    simp only [this]

end Pystra
