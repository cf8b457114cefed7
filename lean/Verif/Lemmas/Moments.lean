import Verif.Lemmas.Frozen2
import Mathlib.Probability.Moments.MGFAnalytic
import Mathlib.NumberTheory.Harmonic.GammaDeriv

/-! Moments of the frozen distributions. -/

namespace Pystra
open Real MeasureTheory Set Filter Topology

/-- Raw moments: density, mean `m`, second moment `q`. -/
structure Mom (pdf : ℝ → ℝ) (m q : ℝ) : Prop where
  nonneg : ∀ x, 0 ≤ pdf x
  int0 : Integrable pdf
  mass : ∫ x, pdf x = 1
  int1 : Integrable (fun x => x * pdf x)
  mean : ∫ x, x * pdf x = m
  int2 : Integrable (fun x => x ^ 2 * pdf x)
  sq : ∫ x, x ^ 2 * pdf x = q

namespace Mom
variable {pdf : ℝ → ℝ} {m q : ℝ}

theorem int_centered (h : Mom pdf m q) (c : ℝ) : ∫ x, (x - c) ^ 2 * pdf x = q - 2 * c * m + c ^ 2 := by
  have e : (fun x => (x - c) ^ 2 * pdf x) = fun x => (x ^ 2 * pdf x - 2 * c * (x * pdf x)) + c ^ 2 * pdf x := by
    funext x; ring
  rw [e, integral_add, integral_sub, integral_const_mul, integral_const_mul, h.sq, h.mean, h.mass]
  · ring
  · exact h.int2
  · exact h.int1.const_mul _
  · exact h.int2.sub (h.int1.const_mul _)
  · exact h.int0.const_mul _

theorem law (h : Mom pdf m q) {σ : ℝ} (hσ : σ ^ 2 = q - m ^ 2) : Spec.Law pdf m σ where
  nonneg := h.nonneg
  int0 := h.int0
  mass := h.mass
  int1 := h.int1
  mean := h.mean
  int2 := h.int2
  var := by rw [h.int_centered, hσ]; ring

theorem locScale {f : Frozen} (h : Mom f.pdf m q) (loc : ℝ) {scale : ℝ} (hs : 0 < scale) :
    Mom (f.locScale loc scale).pdf (loc + scale * m) (loc ^ 2 + 2 * loc * scale * m + scale ^ 2 * q) := by
  have key : ∀ g : ℝ → ℝ, Integrable (fun y => g (loc + scale * y) * f.pdf y) →
      Integrable (fun x => g x * (f.locScale loc scale).pdf x) ∧
      ∫ x, g x * (f.locScale loc scale).pdf x = ∫ y, g (loc + scale * y) * f.pdf y := by
    intro g hg
    have e : (fun x => g x * (f.locScale loc scale).pdf x) =
        fun x => scale⁻¹ * ((fun z => (fun y => g (loc + scale * y) * f.pdf y) (z / scale)) (x - loc)) := by
      funext x
      simp only [Frozen.locScale]
      rw [show loc + scale * ((x - loc) / scale) = x by field_simp; ring]
      rw [div_eq_inv_mul (f.pdf _)]; ring
    rw [e]
    constructor
    · exact ((hg.comp_div hs.ne').comp_sub_right loc).const_mul _
    · rw [integral_const_mul, integral_sub_right_eq_self (fun z => (fun y => g (loc + scale * y) * f.pdf y) (z / scale)) loc,
        Measure.integral_comp_div (fun y => g (loc + scale * y) * f.pdf y) scale, abs_of_pos hs, smul_eq_mul]
      rw [← mul_assoc, inv_mul_cancel₀ hs.ne', one_mul]
  have k0 := key (fun _ => 1) (by simpa using h.int0)
  have k1 := key (fun x => x) (by
    have e : (fun y => (loc + scale * y) * f.pdf y) = fun y => loc * f.pdf y + scale * (y * f.pdf y) := by
      funext y; ring
    rw [e]; exact (h.int0.const_mul _).add (h.int1.const_mul _))
  have e2 : (fun y => (loc + scale * y) ^ 2 * f.pdf y) =
      fun y => (loc ^ 2 * f.pdf y + 2 * loc * scale * (y * f.pdf y)) + scale ^ 2 * (y ^ 2 * f.pdf y) := by
    funext y; ring
  have k2 := key (fun x => x ^ 2) (by
    rw [e2]; exact ((h.int0.const_mul _).add (h.int1.const_mul _)).add (h.int2.const_mul _))
  refine ⟨fun x => div_nonneg (h.nonneg _) hs.le, by simpa using k0.1, ?_, k1.1, ?_, k2.1, ?_⟩
  · have := k0.2; simp only [one_mul] at this; rw [this, h.mass]
  · rw [k1.2]
    have e : (fun y => (loc + scale * y) * f.pdf y) = fun y => loc * f.pdf y + scale * (y * f.pdf y) := by
      funext y; ring
    rw [e, integral_add (h.int0.const_mul _) (h.int1.const_mul _), integral_const_mul, integral_const_mul,
      h.mass, h.mean]; ring
  · have i01 : Integrable (fun y => loc ^ 2 * f.pdf y + 2 * loc * scale * (y * f.pdf y)) :=
      (h.int0.const_mul _).add (h.int1.const_mul _)
    rw [k2.2, e2, integral_add i01 (h.int2.const_mul _),
      integral_add (h.int0.const_mul _) (h.int1.const_mul _), integral_const_mul, integral_const_mul,
      integral_const_mul, h.mass, h.mean, h.sq]; ring

theorem frozen_mean {f : Frozen} (h : Mom f.pdf m q) : f.mean = m := h.mean

theorem frozen_std {f : Frozen} (h : Mom f.pdf m q) {σ : ℝ} (hσ0 : 0 ≤ σ) (hσ : σ ^ 2 = q - m ^ 2) :
    f.std = .fin σ := by
  unfold Frozen.std
  rw [if_pos h.int2]
  congr 1
  rw [h.frozen_mean, h.int_centered, show q - 2 * m * m + m ^ 2 = σ ^ 2 by rw [hσ]; ring, sqrt_sq hσ0]

end Mom

/-- Change of variables `x = h t`, `t ∈ s` with weight `w`. -/
theorem push {pdf : ℝ → ℝ} {s : Set ℝ} {h h' w : ℝ → ℝ} (hs : MeasurableSet s)
    (hd : ∀ t ∈ s, HasDerivAt h (h' t) t) (hinj : InjOn h s)
    (hw : ∀ t ∈ s, |h' t| * pdf (h t) = w t) (hz : ∀ x, x ∉ h '' s → pdf x = 0) (g : ℝ → ℝ) :
    (Integrable (fun x => g x * pdf x) ↔ IntegrableOn (fun t => g (h t) * w t) s) ∧
    ∫ x, g x * pdf x = ∫ t in s, g (h t) * w t := by
  have hd' : ∀ t ∈ s, HasDerivWithinAt h (h' t) s t := fun t ht => (hd t ht).hasDerivWithinAt
  have hsupp : Function.support (fun x => g x * pdf x) ⊆ h '' s := by
    intro x hx
    by_contra hc
    exact hx (by simp [hz x hc])
  have hpt : ∀ t ∈ s, |h' t| • (g (h t) * pdf (h t)) = g (h t) * w t := fun t ht => by
    rw [smul_eq_mul, ← hw t ht]; ring
  constructor
  · rw [← integrableOn_iff_integrable_of_support_subset hsupp,
      integrableOn_image_iff_integrableOn_abs_deriv_smul hs hd' hinj]
    exact integrableOn_congr_fun (fun t ht => hpt t ht) hs
  · rw [← setIntegral_eq_integral_of_forall_compl_eq_zero (s := h '' s)
      (fun x hx => by rw [hz x hx, mul_zero]),
      integral_image_eq_integral_abs_deriv_smul hs hd' hinj]
    exact setIntegral_congr_fun hs (fun t ht => hpt t ht)

/-- The moments of a law obtained from another one by `x = h t`. -/
theorem mom_push {pdf : ℝ → ℝ} {s : Set ℝ} {h h' w : ℝ → ℝ} {m q : ℝ} (hs : MeasurableSet s)
    (hd : ∀ t ∈ s, HasDerivAt h (h' t) t) (hinj : InjOn h s)
    (hw : ∀ t ∈ s, |h' t| * pdf (h t) = w t) (hz : ∀ x, x ∉ h '' s → pdf x = 0) (hnn : ∀ x, 0 ≤ pdf x)
    (i0 : IntegrableOn w s) (e0 : ∫ t in s, w t = 1)
    (i1 : IntegrableOn (fun t => h t * w t) s) (e1 : ∫ t in s, h t * w t = m)
    (i2 : IntegrableOn (fun t => h t ^ 2 * w t) s) (e2 : ∫ t in s, h t ^ 2 * w t = q) : Mom pdf m q := by
  have p0 := push hs hd hinj hw hz (fun _ => 1)
  have p1 := push hs hd hinj hw hz (fun x => x)
  have p2 := push hs hd hinj hw hz (fun x => x ^ 2)
  simp only [one_mul] at p0
  exact ⟨hnn, p0.1.2 i0, p0.2.trans e0, p1.1.2 i1, p1.2.trans e1, p2.1.2 i2, p2.2.trans e2⟩

/-! Powers and logarithms of an exponential variable. -/

theorem integrableOn_rpow_exp {s : ℝ} (hs : -1 < s) : IntegrableOn (fun t : ℝ => t ^ s * exp (-t)) (Ioi 0) := by
  have := Real.GammaIntegral_convergent (s := s + 1) (by linarith)
  refine this.congr_fun (fun t _ => ?_) measurableSet_Ioi
  simp only [add_sub_cancel_right]; ring

theorem integral_rpow_exp {s : ℝ} (hs : -1 < s) : ∫ t in Ioi (0:ℝ), t ^ s * exp (-t) = Gamma (1 + s) := by
  rw [Gamma_eq_integral (by linarith)]
  refine setIntegral_congr_fun measurableSet_Ioi (fun t _ => ?_)
  simp only [show 1 + s - 1 = s by ring]; ring

theorem integrableOn_exp_neg : IntegrableOn (fun t : ℝ => exp (-t)) (Ioi 0) := by
  simpa using integrableOn_rpow_exp (s := 0) (by norm_num)

theorem integral_exp_neg : ∫ t in Ioi (0:ℝ), exp (-t) = 1 := by
  simpa using integral_rpow_exp (s := 0) (by norm_num)

/-- The law of an exponential variable as a measure. -/
noncomputable def expMeas : Measure ℝ :=
  (volume.restrict (Ioi 0)).withDensity (fun t => ((exp (-t)).toNNReal : ENNReal))

theorem integral_expMeas (g : ℝ → ℝ) : ∫ t, g t ∂expMeas = ∫ t in Ioi (0:ℝ), g t * exp (-t) := by
  unfold expMeas
  rw [integral_withDensity_eq_integral_smul (by fun_prop)]
  apply integral_congr_ae
  filter_upwards with t
  rw [NNReal.smul_def, coe_toNNReal _ (exp_pos _).le, smul_eq_mul, mul_comm]

theorem integrable_expMeas (g : ℝ → ℝ) : Integrable g expMeas ↔ IntegrableOn (fun t => g t * exp (-t)) (Ioi 0) := by
  unfold expMeas IntegrableOn
  rw [integrable_withDensity_iff_integrable_smul (by fun_prop)]
  apply integrable_congr
  filter_upwards with t
  rw [NNReal.smul_def, coe_toNNReal _ (exp_pos _).le, smul_eq_mul, mul_comm]

theorem exp_mul_log {t : ℝ} (ht : 0 < t) (s : ℝ) : exp (s * log t) = t ^ s := by
  rw [rpow_def_of_pos ht, mul_comm]

open ProbabilityTheory in
theorem mem_interior_expSet {s : ℝ} (hs : -1 < s) : s ∈ interior (integrableExpSet log expMeas) := by
  apply mem_interior.2
  refine ⟨Ioi (-1), ?_, isOpen_Ioi, hs⟩
  intro r hr
  show Integrable (fun t => exp (r * log t)) expMeas
  rw [integrable_expMeas]
  refine (integrableOn_rpow_exp hr).congr_fun (fun t ht => ?_) measurableSet_Ioi
  simp only [exp_mul_log ht]

open ProbabilityTheory in
theorem mgf_log {s : ℝ} (hs : -1 < s) : mgf log expMeas s = Gamma (1 + s) := by
  unfold mgf
  rw [integral_expMeas, ← integral_rpow_exp hs]
  refine setIntegral_congr_fun measurableSet_Ioi (fun t ht => ?_)
  simp only [exp_mul_log ht]

theorem integral_log_exp : ∫ t in Ioi (0:ℝ), log t * exp (-t) = -eulerMascheroniConstant := by
  rw [← integral_expMeas, ← ProbabilityTheory.deriv_mgf_zero (mem_interior_expSet (by norm_num))]
  have e : ProbabilityTheory.mgf log expMeas =ᶠ[𝓝 0] fun s => Gamma (1 + s) := by
    filter_upwards [Ioi_mem_nhds (show (-1:ℝ) < 0 by norm_num)] with s hs using mgf_log hs
  rw [e.deriv_eq]
  have h : HasDerivAt (fun s : ℝ => 1 + s) 1 0 := (hasDerivAt_id 0).const_add 1
  have h2 : HasDerivAt Gamma (-eulerMascheroniConstant) (1 + 0) := by
    rw [add_zero]; exact Real.hasDerivAt_Gamma_one
  have := h2.comp (0:ℝ) h
  rw [mul_one] at this
  exact this.deriv

theorem integrableOn_log_exp (n : ℕ) : IntegrableOn (fun t : ℝ => log t ^ n * exp (-t)) (Ioi 0) := by
  rw [← integrable_expMeas (fun t => log t ^ n)]
  exact ProbabilityTheory.integrable_pow_of_mem_interior_integrableExpSet (mem_interior_expSet (by norm_num)) n

theorem integral_log_sq_exp :
    ∫ t in Ioi (0:ℝ), log t ^ 2 * exp (-t) = π ^ 2 / 6 + eulerMascheroniConstant ^ 2 := by
  -- derivatives of the moment generating function
  set M : ℕ → ℝ → ℝ := fun n s => ∫ t, log t ^ n * exp (s * log t) ∂expMeas with hM
  have hD : ∀ n s, -1 < s → HasDerivAt (M n) (M (n + 1) s) s := fun n s hs =>
    ProbabilityTheory.hasDerivAt_integral_pow_mul_exp_real (mem_interior_expSet hs) n
  have hM0 : ∀ s, -1 < s → M 0 s = Gamma (1 + s) := fun s hs => by
    rw [← mgf_log hs]; simp [hM, ProbabilityTheory.mgf]
  have hDn : ∀ n s, s < 1 → HasDerivAt (fun r => M n (-r)) (-M (n + 1) (-s)) s := fun n s hs => by
    have := (hD n (-s) (by linarith)).comp s (hasDerivAt_neg s)
    refine this.congr_deriv ?_
    ring
  set P : ℝ → ℝ := fun s => M 0 s * M 0 (-s)
  set P1 : ℝ → ℝ := fun s => M 1 s * M 0 (-s) - M 0 s * M 1 (-s)
  set P2 : ℝ → ℝ := fun s => M 2 s * M 0 (-s) - 2 * (M 1 s * M 1 (-s)) + M 0 s * M 2 (-s)
  set P3 : ℝ → ℝ := fun s => M 3 s * M 0 (-s) - M 2 s * M 1 (-s) - 2 * (M 2 s * M 1 (-s) - M 1 s * M 2 (-s))
    + (M 1 s * M 2 (-s) - M 0 s * M 3 (-s))
  have dP : ∀ s ∈ Ioo (-1:ℝ) 1, HasDerivAt P (P1 s) s := fun s hs => by
    refine ((hD 0 s hs.1).mul (hDn 0 s hs.2)).congr_deriv ?_
    simp only [P1]; ring
  have dP1 : ∀ s ∈ Ioo (-1:ℝ) 1, HasDerivAt P1 (P2 s) s := fun s hs => by
    refine (((hD 1 s hs.1).mul (hDn 0 s hs.2)).sub ((hD 0 s hs.1).mul (hDn 1 s hs.2))).congr_deriv ?_
    simp only [P2]; ring
  have dP2 : ∀ s ∈ Ioo (-1:ℝ) 1, HasDerivAt P2 (P3 s) s := fun s hs => by
    refine ((((hD 2 s hs.1).mul (hDn 0 s hs.2)).sub (((hD 1 s hs.1).mul (hDn 1 s hs.2)).const_mul 2)).add
      ((hD 0 s hs.1).mul (hDn 2 s hs.2))).congr_deriv ?_
    simp only [P3]; ring
  have dsin : ∀ s : ℝ, HasDerivAt (fun r => sin (π * r)) (π * cos (π * s)) s := fun s => by
    have := (hasDerivAt_sin (π * s)).comp s ((hasDerivAt_id s).const_mul π)
    refine this.congr_deriv ?_
    simp only [mul_one]; ring
  have dcos : ∀ s : ℝ, HasDerivAt (fun r => cos (π * r)) (-(π * sin (π * s))) s := fun s => by
    have := (hasDerivAt_cos (π * s)).comp s ((hasDerivAt_id s).const_mul π)
    refine this.congr_deriv ?_
    simp only [mul_one]; ring
  have hmem : Ioo (-1:ℝ) 1 ∈ 𝓝 (0:ℝ) := Ioo_mem_nhds (by norm_num) (by norm_num)
  have key0 : ∀ s ∈ Ioo (-1:ℝ) 1, P s * sin (π * s) = π * s := fun s hs => by
    rcases eq_or_ne s 0 with h | h
    · simp [h]
    simp only [P]
    rw [hM0 s hs.1, hM0 (-s) (by linarith [hs.2]), add_comm 1 s, Real.Gamma_add_one h, mul_assoc s,
      ← sub_eq_add_neg, Real.Gamma_mul_Gamma_one_sub]
    have : sin (π * s) ≠ 0 := by
      intro hsin
      obtain ⟨k, hk⟩ := sin_eq_zero_iff.1 hsin
      have hk' : (k:ℝ) = s := by
        have hp := pi_pos
        have : π * ((k:ℝ) - s) = 0 := by linarith
        rcases mul_eq_zero.1 this with h1 | h1
        · exact absurd h1 hp.ne'
        · linarith
      rw [← hk'] at hs h
      have h1 : -1 < k := by exact_mod_cast hs.1
      have h2 : k < 1 := by exact_mod_cast hs.2
      have : k = 0 := by omega
      exact h (by exact_mod_cast this)
    rw [mul_assoc, div_mul_cancel₀ _ this]; ring
  have key1 : ∀ s ∈ Ioo (-1:ℝ) 1, P1 s * sin (π * s) + P s * (π * cos (π * s)) = π := fun s hs => by
    have d1 := (dP s hs).mul (dsin s)
    have d2 : HasDerivAt (fun s : ℝ => π * s) (π * 1) s := (hasDerivAt_id s).const_mul π
    have e : (P * fun r => sin (π * r)) =ᶠ[𝓝 s] fun s => π * s := by
      filter_upwards [isOpen_Ioo.mem_nhds hs] with r hr using key0 r hr
    have := (d2.congr_of_eventuallyEq e).unique d1
    linarith
  have key2 : ∀ s ∈ Ioo (-1:ℝ) 1, P2 s * sin (π * s) + 2 * (P1 s * (π * cos (π * s)))
      - P s * (π * (π * sin (π * s))) = 0 := fun s hs => by
    have d1 := ((dP1 s hs).mul (dsin s)).add ((dP s hs).mul ((dcos s).const_mul π))
    have d2 : HasDerivAt (fun _ : ℝ => π) 0 s := hasDerivAt_const s π
    have e : ((P1 * fun r => sin (π * r)) + (P * fun r => π * cos (π * r))) =ᶠ[𝓝 s] fun _ => π := by
      filter_upwards [isOpen_Ioo.mem_nhds hs] with r hr using key1 r hr
    have := (d2.congr_of_eventuallyEq e).unique d1
    linarith
  have h0 : (0:ℝ) ∈ Ioo (-1:ℝ) 1 := by constructor <;> norm_num
  have key3 : 3 * (P2 0 * π) - π ^ 3 * P 0 = 0 := by
    have d1 := (((dP2 0 h0).mul (dsin 0)).add (((dP1 0 h0).mul ((dcos 0).const_mul π)).const_mul 2)).sub
      ((dP 0 h0).mul (((dsin 0).const_mul π).const_mul π))
    have e : (((P2 * fun r => sin (π * r)) + fun r => 2 * (P1 * fun r => π * cos (π * r)) r)
        - (P * fun r => π * (π * sin (π * r)))) =ᶠ[𝓝 0] fun _ => 0 := by
      filter_upwards [hmem] with r hr using key2 r hr
    have := ((hasDerivAt_const (0:ℝ) (0:ℝ)).congr_of_eventuallyEq e).unique d1
    simp only [mul_zero, sin_zero, cos_zero, mul_one] at this
    ring_nf at this ⊢
    linarith
  have v0 : M 0 0 = 1 := by rw [hM0 0 (by norm_num)]; simp
  have v1 : M 1 0 = -eulerMascheroniConstant := by
    rw [← integral_log_exp, ← integral_expMeas]; simp [hM]
  have v2 : M 2 0 = ∫ t in Ioi (0:ℝ), log t ^ 2 * exp (-t) := by
    rw [← integral_expMeas]; simp [hM]
  simp only [P, P2, neg_zero, v0, v1] at key3
  rw [← v2]
  have hp := pi_pos
  have : π * (6 * M 2 0 - 6 * eulerMascheroniConstant ^ 2 - π ^ 2) = 0 := by linarith
  rcases mul_eq_zero.1 this with h | h
  · exact absurd h hp.ne'
  · linarith

end Pystra
