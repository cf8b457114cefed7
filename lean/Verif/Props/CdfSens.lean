import Verif.Lemmas.Families

/-! C19: the analytical cdf sensitivities `dF_dtheta`. -/

namespace Pystra.Spec

/-- The number `F(x)` reported by a freshly constructed object (0 if construction raises). -/
noncomputable def cdfOf (r : Except PyErr Marginal) (x : ℝ) : ℝ :=
  match r with
  | .ok m => m.cdf x
  | .error _ => 0

end Pystra.Spec

namespace Pystra.Props
open Real Set Filter Topology Spec Distribution

theorem hasDerivAt_const_div (a : ℝ) {t : ℝ} (ht : t ≠ 0) : HasDerivAt (fun s : ℝ => a / s) (-a / t ^ 2) t := by
  have := (hasDerivAt_inv ht).const_mul a
  refine HasDerivAt.congr_deriv (f := fun s : ℝ => a / s) this ?_
  field_simp

/-- C19 for `Normal`: the entries of `dF_dtheta(x)` are the derivatives of `Normal(mean, stdv).cdf(x)` with respect
to `mean` and `stdv`. -/
theorem C19_normal (μ : ℝ) {σ : ℝ} (hσ : 0 < σ) (sp : Option ℝ) (x : ℝ) :
    HasDerivAt (fun t => cdfOf (Normal.new t (.fin σ) sp) x) (Normal.dFdTheta μ σ x).1 μ ∧
    HasDerivAt (fun t => cdfOf (Normal.new μ (.fin t) sp) x) (Normal.dFdTheta μ σ x).2 σ := by
  constructor
  · show HasDerivAt (fun t => StdNormal.cdf ((x - t) / σ)) _ μ
    have h1 : HasDerivAt (fun t : ℝ => (x - t) / σ) (-1 / σ) μ := by
      simpa using ((hasDerivAt_const μ x).sub (hasDerivAt_id μ)).div_const σ
    refine ((StdNormal.hasDerivAt_cdf _).comp μ h1).congr_deriv ?_
    simp only [Normal.dFdTheta]; ring
  · show HasDerivAt (fun t => StdNormal.cdf ((x - μ) / t)) _ σ
    have h1 : HasDerivAt (fun t : ℝ => (x - μ) / t) (-(x - μ) / σ ^ 2) σ :=
      hasDerivAt_const_div _ hσ.ne'
    refine ((StdNormal.hasDerivAt_cdf _).comp σ h1).congr_deriv ?_
    simp only [Normal.dFdTheta]; field_simp

/-- Derivative of `ζ` along a curve of covs. -/
theorem hasDerivAt_zeta {c : ℝ → ℝ} {c' t : ℝ} (hc : HasDerivAt c c' t) (h0 : 0 < c t) :
    HasDerivAt (fun s => √(log (1 + c s ^ 2))) (c t * c' / (√(log (1 + c t ^ 2)) * (1 + c t ^ 2))) t := by
  have hpos : 0 < 1 + c t ^ 2 := by positivity
  have hl : 0 < log (1 + c t ^ 2) := log_pos (by nlinarith)
  have := ((hc.pow 2).const_add 1).log (by simpa using hpos.ne')
  have := this.sqrt (by simpa using hl.ne')
  refine this.congr_deriv ?_
  have := (sqrt_pos.2 hl).ne'
  simp only [Pi.pow_apply]
  field_simp
  simp; ring

/-- The cdf of the object made by `Lognormal(mean, stdv)`. -/
theorem cdfOf_lognormal' {μ σ x : ℝ} (hμ : 0 < μ) (hσ : 0 < σ) (sp : Option ℝ) :
    cdfOf (Lognormal.new μ σ false sp) x = Lognormal.cdf (Lognormal.params μ σ).1 (Lognormal.params μ σ).2 x := by
  obtain ⟨m, h, -⟩ := (good_lognormal hμ hσ sp).ex
  rw [h]
  unfold Lognormal.new Lognormal.ofParams at h
  simp only [Bool.false_eq_true, if_false] at h
  split at h
  · cases h
  · injection h with h; subst h
    rfl

theorem cdfOf_lognormal {μ σ x : ℝ} (hμ : 0 < μ) (hσ : 0 < σ) (sp : Option ℝ) (hx : 0 < x) :
    cdfOf (Lognormal.new μ σ false sp) x =
      StdNormal.cdf ((log x - (Lognormal.params μ σ).1) / (Lognormal.params μ σ).2) := by
  rw [cdfOf_lognormal' hμ hσ, Lognormal.cdf, if_pos hx]
  rfl

/-- C19 for `Lognormal`: the entries of `dF_dtheta(x)`, computed from the object's attributes, are the derivatives
of `Lognormal(mean, stdv).cdf(x)` with respect to `mean` and `stdv`. -/
theorem C19_lognormal {μ σ : ℝ} (hμ : 0 < μ) (hσ : 0 < σ) (sp : Option ℝ) {x : ℝ} (hx : 0 < x) :
    HasDerivAt (fun t => cdfOf (Lognormal.new t σ false sp) x)
      (Lognormal.dFdTheta μ σ (Lognormal.params μ σ).1 (Lognormal.params μ σ).2 x).1 μ ∧
    HasDerivAt (fun t => cdfOf (Lognormal.new μ t false sp) x)
      (Lognormal.dFdTheta μ σ (Lognormal.params μ σ).1 (Lognormal.params μ σ).2 x).2 σ := by
  have hc0 : 0 < σ / μ := by positivity
  have hl : 0 < log (1 + (σ / μ) ^ 2) := log_pos (by nlinarith)
  have hz : 0 < √(log (1 + (σ / μ) ^ 2)) := sqrt_pos.2 hl
  constructor
  · have e : (fun t => cdfOf (Lognormal.new t σ false sp) x) =ᶠ[𝓝 μ]
        fun t => StdNormal.cdf ((log x - (Lognormal.params t σ).1) / (Lognormal.params t σ).2) := by
      filter_upwards [Ioi_mem_nhds hμ] with t ht
      exact cdfOf_lognormal ht hσ sp hx
    refine HasDerivAt.congr_of_eventuallyEq ?_ e
    have hc : HasDerivAt (fun t : ℝ => σ / t) (-σ / μ ^ 2) μ :=
      hasDerivAt_const_div _ hμ.ne'
    have hz' := hasDerivAt_zeta hc hc0
    have hlam : HasDerivAt (fun t => (Lognormal.params t σ).1) _ μ :=
      (hasDerivAt_log hμ.ne').sub ((hz'.pow 2).const_mul 0.5)
    have hzz : HasDerivAt (fun t => (Lognormal.params t σ).2) _ μ := hz'
    have := ((hasDerivAt_const μ (log x)).sub hlam).div hzz hz.ne'
    refine ((StdNormal.hasDerivAt_cdf _).comp μ this).congr_deriv ?_
    simp only [Lognormal.dFdTheta, Lognormal.params, Pi.sub_apply, Pi.pow_apply, Pi.div_apply]
    generalize hzg : √(log (1 + (σ / μ) ^ 2)) = z at *
    generalize StdNormal.pdf _ = φ
    field_simp
    ring
  · have e : (fun t => cdfOf (Lognormal.new μ t false sp) x) =ᶠ[𝓝 σ]
        fun t => StdNormal.cdf ((log x - (Lognormal.params μ t).1) / (Lognormal.params μ t).2) := by
      filter_upwards [Ioi_mem_nhds hσ] with t ht
      exact cdfOf_lognormal hμ ht sp hx
    refine HasDerivAt.congr_of_eventuallyEq ?_ e
    have hc : HasDerivAt (fun t : ℝ => t / μ) (1 / μ) σ := (hasDerivAt_id σ).div_const μ
    have hz' := hasDerivAt_zeta hc hc0
    have hlam : HasDerivAt (fun t => (Lognormal.params μ t).1) _ σ :=
      (hasDerivAt_const σ (log μ)).sub ((hz'.pow 2).const_mul 0.5)
    have hzz : HasDerivAt (fun t => (Lognormal.params μ t).2) _ σ := hz'
    have := ((hasDerivAt_const σ (log x)).sub hlam).div hzz hz.ne'
    refine ((StdNormal.hasDerivAt_cdf _).comp σ this).congr_deriv ?_
    simp only [Lognormal.dFdTheta, Lognormal.params, Pi.sub_apply, Pi.pow_apply, Pi.div_apply]
    generalize hzg : √(log (1 + (σ / μ) ^ 2)) = z at *
    generalize StdNormal.pdf _ = φ
    field_simp
    ring

/-- The shifted variable is a shifted lognormal. -/
theorem cdfOf_shifted {μ σ lower x : ℝ} (hμ : lower < μ) (hσ : 0 < σ) (sp : Option ℝ) :
    cdfOf (ShiftedLognormal.new μ σ lower false sp) x = cdfOf (Lognormal.new (μ - lower) σ false sp) (x - lower) := by
  rw [cdfOf_lognormal' (sub_pos.2 hμ) hσ]
  obtain ⟨m, h, -⟩ := (good_shiftedLognormal hμ hσ sp).ex
  rw [h]
  unfold ShiftedLognormal.new at h
  simp only [Bool.false_eq_true, if_false] at h
  split at h
  · cases h
  · injection h with h; subst h
    rfl

/-- C19 for `ShiftedLognormal`: what the derivatives of the cdf are, for every `lower`. -/
theorem C19_shiftedLognormal_true {μ σ lower : ℝ} (hμ : lower < μ) (hσ : 0 < σ) (sp : Option ℝ) {x : ℝ}
    (hx : lower < x) :
    HasDerivAt (fun t => cdfOf (ShiftedLognormal.new t σ lower false sp) x)
      (Lognormal.dFdTheta (μ - lower) σ (Lognormal.params (μ - lower) σ).1 (Lognormal.params (μ - lower) σ).2
        (x - lower)).1 μ ∧
    HasDerivAt (fun t => cdfOf (ShiftedLognormal.new μ t lower false sp) x)
      (Lognormal.dFdTheta (μ - lower) σ (Lognormal.params (μ - lower) σ).1 (Lognormal.params (μ - lower) σ).2
        (x - lower)).2 σ := by
  obtain ⟨h1, h2⟩ := C19_lognormal (sub_pos.2 hμ) hσ sp (sub_pos.2 hx)
  constructor
  · have e : (fun t => cdfOf (ShiftedLognormal.new t σ lower false sp) x) =ᶠ[𝓝 μ]
        fun t => cdfOf (Lognormal.new (t - lower) σ false sp) (x - lower) := by
      filter_upwards [Ioi_mem_nhds hμ] with t ht
      exact cdfOf_shifted ht hσ sp
    refine HasDerivAt.congr_of_eventuallyEq ?_ e
    have := h1.comp (x := μ) (h := fun t => t - lower) ((hasDerivAt_id μ).sub_const lower)
    exact this.congr_deriv (mul_one _)
  · have e : (fun t => cdfOf (ShiftedLognormal.new μ t lower false sp) x) =ᶠ[𝓝 σ]
        fun t => cdfOf (Lognormal.new (μ - lower) t false sp) (x - lower) := by
      filter_upwards [Ioi_mem_nhds hσ] with t ht
      exact cdfOf_shifted hμ ht sp
    exact HasDerivAt.congr_of_eventuallyEq h2 e

/-- C19 (positive part for `ShiftedLognormal`): with `lower = 0` the inherited formulas are right. -/
theorem C19_shiftedLognormal_zero {μ σ : ℝ} (hμ : 0 < μ) (hσ : 0 < σ) (sp : Option ℝ) {x : ℝ} (hx : 0 < x) :
    HasDerivAt (fun t => cdfOf (ShiftedLognormal.new t σ 0 false sp) x) (ShiftedLognormal.dFdTheta μ σ 0 x).1 μ ∧
    HasDerivAt (fun t => cdfOf (ShiftedLognormal.new μ t 0 false sp) x) (ShiftedLognormal.dFdTheta μ σ 0 x).2 σ := by
  have := C19_shiftedLognormal_true hμ hσ sp hx
  simp only [sub_zero] at this
  simpa only [ShiftedLognormal.dFdTheta, sub_zero] using this

/-- C19 (finding): with `lower ≠ 0` the inherited `"std"` entry is not the derivative of the cdf: at
`x = exp(λ + ζ²)` it is zero and the true derivative is not.  (`lower < x` holds for every `lower < 0`.) -/
theorem C19_shiftedLognormal_wrong {μ σ lower : ℝ} (hμ : lower < μ) (hσ : 0 < σ) (sp : Option ℝ) (hl : lower ≠ 0)
    {x : ℝ} (hxd : x = exp ((Lognormal.params (μ - lower) σ).1 + (Lognormal.params (μ - lower) σ).2 ^ 2))
    (hx : lower < x) :
    (ShiftedLognormal.dFdTheta μ σ lower x).2 = 0 ∧
    ¬ HasDerivAt (fun t => cdfOf (ShiftedLognormal.new μ t lower false sp) x)
      (ShiftedLognormal.dFdTheta μ σ lower x).2 σ := by
  have hz := (lognormal_params_spec (sub_pos.2 hμ) hσ).1
  have h0 : (ShiftedLognormal.dFdTheta μ σ lower x).2 = 0 := by
    simp only [ShiftedLognormal.dFdTheta, Lognormal.dFdTheta]
    rw [hxd, log_exp]
    field_simp
    ring
  refine ⟨h0, fun h => ?_⟩
  have hu := h.unique (C19_shiftedLognormal_true hμ hσ sp hx).2
  rw [h0] at hu
  simp only [Lognormal.dFdTheta] at hu
  set lam := (Lognormal.params (μ - lower) σ).1
  set z := (Lognormal.params (μ - lower) σ).2
  have hφ := StdNormal.pdf_pos ((log (x - lower) - lam) / z)
  have hd : 0 < σ / (μ - lower) / ((μ - lower) * z * (1 + (σ / (μ - lower)) ^ 2)) := by
    have := sub_pos.2 hμ; positivity
  have hf : StdNormal.pdf ((log (x - lower) - lam) / z) / z ≠ 0 := by positivity
  have h3 := (mul_eq_zero.1 hu.symm).resolve_left hf
  have h4 : (z - (log (x - lower) - lam) / z) * (σ / (μ - lower) / ((μ - lower) * z * (1 + (σ / (μ - lower)) ^ 2))) = 0 := by
    rw [← h3]; ring
  have h5 := (mul_eq_zero.1 h4).resolve_right hd.ne'
  have h6 : log (x - lower) = lam + z ^ 2 := by
    field_simp at h5; linarith
  have h7 : x - lower = x := by
    rw [← exp_log (sub_pos.2 hx), h6, hxd]
  exact hl (by linarith)

/-- The hypotheses of `C19_shiftedLognormal_wrong` are met for every negative bound. -/
example : ∃ x : ℝ, (ShiftedLognormal.dFdTheta 1 1 (-1) x).2 = 0 ∧
    ¬ HasDerivAt (fun t => cdfOf (ShiftedLognormal.new 1 t (-1) false none) x)
      (ShiftedLognormal.dFdTheta 1 1 (-1) x).2 1 :=
  ⟨_, C19_shiftedLognormal_wrong (by norm_num) one_pos none (by norm_num) rfl ((by norm_num : (-1:ℝ) < 0).trans (exp_pos _))⟩

end Pystra.Props
