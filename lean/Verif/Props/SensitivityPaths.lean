import Verif.Props.Sensitivity

/-! The parameter paths of normal and lognormal variables (hypotheses of C50). -/

namespace Pystra.Props
open Spec Real Filter Topology

/-- Distributions of the form `Φ((ψ(x) - λ)/ζ)`. -/
theorem path_of_std {m : ℝ → Marginal} {θ : ℝ} {ψ ψ' χ : ℝ → ℝ} {lam zet : ℝ → ℝ} {lam' zet' : ℝ} {S : Set ℝ} (hS : IsOpen S)
    (hlam : HasDerivAt lam lam' θ) (hzet : HasDerivAt zet zet' θ) (h0 : 0 < zet θ)
    (hψ : ∀ x ∈ S, HasDerivAt ψ (ψ' x) x) (hχ : ∀ y, HasDerivAt χ (1 / ψ' (χ y)) y) (hψχ : ∀ y, ψ (χ y) = y) (hχS : ∀ y, χ y ∈ S)
    (hψ0 : ∀ x ∈ S, ψ' x ≠ 0)
    (hm : ∀ᶠ s in 𝓝 θ, (∀ x ∈ S, (m s).cdf x = StdNormal.cdf ((ψ x - lam s) / zet s) ∧ (m s).xToU x = (ψ x - lam s) / zet s) ∧
      ∀ z, (m s).uToX z = χ (z * zet s + lam s))
    (hpdf : ∀ x ∈ S, (m θ).pdf x = StdNormal.pdf ((ψ x - lam θ) / zet θ) * ψ' x / zet θ)
    {dF : ℝ → ℝ} (hdF : ∀ x ∈ S, dF x = StdNormal.pdf ((ψ x - lam θ) / zet θ) / zet θ * (-lam' - (ψ x - lam θ) / zet θ * zet'))
    {dmu dsig : ℝ} (hmu : HasDerivAt (fun s => (m s).mean) dmu θ) (hsig : HasDerivAt (fun s => (m s).stdv) dsig θ) :
    ParamPath m θ dF dmu dsig S where
  mean := hmu
  stdv := hsig
  cdf := by
    intro x hx
    have hfst : HasFDerivAt (fun p : ℝ × ℝ => p.1) (ContinuousLinearMap.fst ℝ ℝ ℝ) (θ, x) := hasFDerivAt_fst
    have hsnd : HasFDerivAt (fun p : ℝ × ℝ => p.2) (ContinuousLinearMap.snd ℝ ℝ ℝ) (θ, x) := hasFDerivAt_snd
    have h1 := HasDerivAt.comp_hasFDerivAt (θ, x) (f := fun p : ℝ × ℝ => p.2) (hψ x hx) hsnd
    have h2 := HasDerivAt.comp_hasFDerivAt (θ, x) (f := fun p : ℝ × ℝ => p.1) hlam hfst
    have h3 := HasDerivAt.comp_hasFDerivAt (θ, x) (f := fun p : ℝ × ℝ => p.1) (hzet.fun_inv h0.ne') hfst
    have h4 := (h1.sub h2).mul h3
    have h5 := HasDerivAt.comp_hasFDerivAt (θ, x)
      (f := fun p : ℝ × ℝ => (ψ p.2 - lam p.1) * (zet p.1)⁻¹) (StdNormal.hasDerivAt_cdf _) h4
    refine (h5.congr_of_eventuallyEq ?_).congr_fderiv ?_
    · have : Tendsto (fun p : ℝ × ℝ => p.1) (𝓝 (θ, x)) (𝓝 θ) := continuous_fst.tendsto (θ, x)
      have hin : ∀ᶠ p : ℝ × ℝ in 𝓝 (θ, x), p.2 ∈ S := (continuous_snd.tendsto (θ, x)).eventually (hS.mem_nhds hx)
      filter_upwards [this.eventually hm, hin] with p hp hp2
      simp only [Function.comp_apply]
      rw [(hp.1 p.2 hp2).1, div_eq_mul_inv]
    · ext <;> simp [hpdf x hx, hdF x hx, div_eq_mul_inv]
      · field_simp
        ring
      · ring
  quantile := by
    intro z
    have h1 : HasDerivAt (fun s => z * zet s + lam s) (z * zet' + lam') θ := (hzet.const_mul z).add hlam
    have h2 := (hχ (z * zet θ + lam θ)).comp θ h1
    have hx := hm.self_of_nhds.2 z
    have hS' := hχS (z * zet θ + lam θ)
    refine (h2.congr_of_eventuallyEq ?_).congr_deriv ?_
    · filter_upwards [hm] with s hs
      exact hs.2 z
    · rw [hx, hdF _ hS', hpdf _ hS', hψχ]
      have e : (z * zet θ + lam θ - lam θ) / zet θ = z := by field_simp; ring
      rw [e]
      have := (StdNormal.pdf_pos z).ne'
      have := hψ0 _ hS'
      field_simp
      ring
  link := by
    intro x hx
    have : Tendsto (fun p : ℝ × ℝ => p.1) (𝓝 (θ, x)) (𝓝 θ) := continuous_fst.tendsto (θ, x)
    have hin : ∀ᶠ p : ℝ × ℝ in 𝓝 (θ, x), p.2 ∈ S := (continuous_snd.tendsto (θ, x)).eventually (hS.mem_nhds hx)
    filter_upwards [this.eventually hm, hin] with p hp hp2
    rw [(hp.1 p.2 hp2).1, (hp.1 p.2 hp2).2]

/-- The object made by `Normal(name, mean, stdv, startpoint)`. -/
noncomputable def normalOf (sp : Option ℝ) (μ σ : ℝ) : Marginal :=
  { mean := μ, stdv := σ, startpoint := sp.getD μ, pdf := Normal.pdf μ σ, cdf := Normal.cdf μ σ, ppf := Normal.ppf μ σ
    uToX := Normal.uToX μ σ, xToU := Normal.xToU μ σ, jac := Normal.jac σ }

theorem normal_new (sp : Option ℝ) (μ σ : ℝ) : Normal.new μ (.fin σ) sp = .ok (normalOf sp μ σ) := by
  cases sp <;> rfl

/-- A normal variable as a function of its mean. -/
theorem normal_mean_path (sp : Option ℝ) (μ : ℝ) {σ : ℝ} (hσ : 0 < σ) :
    ParamPath (fun s => normalOf sp s σ) μ (fun x => (Normal.dFdTheta μ σ x).1) 1 0 Set.univ := by
  refine path_of_std (ψ := id) (ψ' := fun _ => 1) (χ := id) (lam := id) (zet := fun _ => σ) (lam' := 1) (zet' := 0) isOpen_univ
    (hasDerivAt_id μ) (hasDerivAt_const μ σ) hσ (fun x _ => hasDerivAt_id x) (fun y => by simpa using hasDerivAt_id y)
    (fun _ => rfl) (fun _ => trivial) (fun _ _ => one_ne_zero) (Eventually.of_forall fun s => ⟨fun x _ => ⟨rfl, rfl⟩, fun z => rfl⟩)
    (fun x _ => ?_) (fun x _ => ?_) (hasDerivAt_id μ) (hasDerivAt_const μ σ)
  · simp [normalOf, Normal.pdf]
  · simp [Normal.dFdTheta]; ring

/-- A normal variable as a function of its standard deviation. -/
theorem normal_std_path (sp : Option ℝ) (μ : ℝ) {σ : ℝ} (hσ : 0 < σ) :
    ParamPath (fun s => normalOf sp μ s) σ (fun x => (Normal.dFdTheta μ σ x).2) 0 1 Set.univ := by
  refine path_of_std (ψ := id) (ψ' := fun _ => 1) (χ := id) (lam := fun _ => μ) (zet := id) (lam' := 0) (zet' := 1) isOpen_univ
    (hasDerivAt_const σ μ) (hasDerivAt_id σ) hσ (fun x _ => hasDerivAt_id x) (fun y => by simpa using hasDerivAt_id y)
    (fun _ => rfl) (fun _ => trivial) (fun _ _ => one_ne_zero) (Eventually.of_forall fun s => ⟨fun x _ => ⟨rfl, rfl⟩, fun z => rfl⟩)
    (fun x _ => ?_) (fun x _ => ?_) (hasDerivAt_const σ μ) (hasDerivAt_id σ)
  · simp [normalOf, Normal.pdf]
  · simp [Normal.dFdTheta]; ring

/-- The object made by `Lognormal(name, mean, stdv, startpoint)` for positive moments. -/
noncomputable def lognormalOf (sp : Option ℝ) (μ σ : ℝ) : Marginal :=
  match Lognormal.new μ σ false sp with
  | .ok m => m
  | .error _ => normalOf sp μ σ

theorem lognormal_new (sp : Option ℝ) {μ σ : ℝ} (hμ : 0 < μ) (hσ : 0 < σ) :
    Lognormal.new μ σ false sp = .ok (lognormalOf sp μ σ) ∧ (lognormalOf sp μ σ).mean = μ ∧ (lognormalOf sp μ σ).stdv = σ ∧
    (∀ x ∈ Set.Ioi (0:ℝ), (lognormalOf sp μ σ).cdf x = StdNormal.cdf ((log x - (Lognormal.params μ σ).1) / (Lognormal.params μ σ).2) ∧
      (lognormalOf sp μ σ).xToU x = (log x - (Lognormal.params μ σ).1) / (Lognormal.params μ σ).2) ∧
    (∀ z, (lognormalOf sp μ σ).uToX z = exp (z * (Lognormal.params μ σ).2 + (Lognormal.params μ σ).1)) ∧
    (lognormalOf sp μ σ).pdf = Lognormal.pdf (Lognormal.params μ σ).1 (Lognormal.params μ σ).2 := by
  obtain ⟨m, h, h1, h2, -⟩ := (good_lognormal hμ hσ sp).ex
  have e : lognormalOf sp μ σ = m := by unfold lognormalOf; rw [h]
  rw [e]
  refine ⟨h, h1, h2, ?_⟩
  unfold Lognormal.new Lognormal.ofParams at h
  simp only [Bool.false_eq_true, if_false] at h
  split at h
  · cases h
  · injection h with h; subst h
    refine ⟨fun x hx => ⟨?_, rfl⟩, fun z => rfl, rfl⟩
    show Lognormal.cdf _ _ _ = _
    rw [Lognormal.cdf, if_pos (Set.mem_Ioi.1 hx)]
    rfl

theorem lognormal_pdf_eq {l z x : ℝ} (hz : 0 < z) (hx : 0 < x) :
    Lognormal.pdf l z x = StdNormal.pdf ((log x - l) / z) * x⁻¹ / z := by
  unfold Lognormal.pdf StdNormal.pdf
  have : √(2 * π) ≠ 0 := by positivity
  have e : (-0.5 * ((log x - l) / z) ^ 2 : ℝ) = -((log x - l) / z) ^ 2 / 2 := by ring
  rw [e]
  field_simp

theorem zeta_pos {μ σ : ℝ} (hμ : 0 < μ) (hσ : 0 < σ) : 0 < (Lognormal.params μ σ).2 := by
  have hc0 : 0 < σ / μ := by positivity
  have hl : 0 < log (1 + (σ / μ) ^ 2) := log_pos (by nlinarith)
  exact sqrt_pos.2 hl

theorem exp_path (y : ℝ) : HasDerivAt exp (1 / (fun x : ℝ => x⁻¹) (exp y)) y := by
  simpa using hasDerivAt_exp y

/-- A lognormal variable as a function of its mean. -/
theorem lognormal_mean_path (sp : Option ℝ) {μ σ : ℝ} (hμ : 0 < μ) (hσ : 0 < σ) :
    ParamPath (fun s => lognormalOf sp s σ) μ
      (fun x => (Lognormal.dFdTheta μ σ (Lognormal.params μ σ).1 (Lognormal.params μ σ).2 x).1) 1 0 (Set.Ioi 0) := by
  have hc0 : 0 < σ / μ := by positivity
  have hc : HasDerivAt (fun t : ℝ => σ / t) (-σ / μ ^ 2) μ := hasDerivAt_const_div _ hμ.ne'
  have hz' := hasDerivAt_zeta hc hc0
  have hlam : HasDerivAt (fun t => (Lognormal.params t σ).1) _ μ :=
    (hasDerivAt_log hμ.ne').sub ((hz'.pow 2).const_mul 0.5)
  have hzz : HasDerivAt (fun t => (Lognormal.params t σ).2) _ μ := hz'
  have hev : ∀ᶠ s in 𝓝 μ, 0 < s := Ioi_mem_nhds hμ
  have hpz := zeta_pos hμ hσ
  refine path_of_std (ψ := log) (ψ' := fun x => x⁻¹) (χ := exp) isOpen_Ioi hlam hzz hpz
    (fun x hx => hasDerivAt_log (ne_of_gt hx)) exp_path log_exp (fun y => exp_pos y) (fun x hx => inv_ne_zero (ne_of_gt hx))
    ?_ (fun x hx => ?_) (fun x hx => ?_) ?_ ?_
  · filter_upwards [hev] with s hs
    obtain ⟨-, -, -, h1, h2, -⟩ := lognormal_new sp hs hσ
    exact ⟨h1, h2⟩
  · obtain ⟨-, -, -, -, -, h3⟩ := lognormal_new sp hμ hσ
    rw [h3]
    exact lognormal_pdf_eq hpz hx
  · have hz : 0 < √(log (1 + (σ / μ) ^ 2)) := hpz
    simp only [Lognormal.dFdTheta, Lognormal.params, Pi.sub_apply, Pi.pow_apply, Pi.div_apply]
    generalize hzg : √(log (1 + (σ / μ) ^ 2)) = z at *
    generalize StdNormal.pdf _ = φ
    field_simp
    ring
  · refine (hasDerivAt_id μ).congr_of_eventuallyEq ?_
    filter_upwards [hev] with s hs
    exact (lognormal_new sp hs hσ).2.1
  · refine (hasDerivAt_const μ σ).congr_of_eventuallyEq ?_
    filter_upwards [hev] with s hs
    exact (lognormal_new sp hs hσ).2.2.1

/-- A lognormal variable as a function of its standard deviation. -/
theorem lognormal_std_path (sp : Option ℝ) {μ σ : ℝ} (hμ : 0 < μ) (hσ : 0 < σ) :
    ParamPath (fun s => lognormalOf sp μ s) σ
      (fun x => (Lognormal.dFdTheta μ σ (Lognormal.params μ σ).1 (Lognormal.params μ σ).2 x).2) 0 1 (Set.Ioi 0) := by
  have hc0 : 0 < σ / μ := by positivity
  have hc : HasDerivAt (fun t : ℝ => t / μ) (1 / μ) σ := (hasDerivAt_id σ).div_const μ
  have hz' := hasDerivAt_zeta hc hc0
  have hlam : HasDerivAt (fun t => (Lognormal.params μ t).1) _ σ :=
    (hasDerivAt_const σ (log μ)).sub ((hz'.pow 2).const_mul 0.5)
  have hzz : HasDerivAt (fun t => (Lognormal.params μ t).2) _ σ := hz'
  have hev : ∀ᶠ s in 𝓝 σ, 0 < s := Ioi_mem_nhds hσ
  have hpz := zeta_pos hμ hσ
  refine path_of_std (ψ := log) (ψ' := fun x => x⁻¹) (χ := exp) isOpen_Ioi hlam hzz hpz
    (fun x hx => hasDerivAt_log (ne_of_gt hx)) exp_path log_exp (fun y => exp_pos y) (fun x hx => inv_ne_zero (ne_of_gt hx))
    ?_ (fun x hx => ?_) (fun x hx => ?_) ?_ ?_
  · filter_upwards [hev] with s hs
    obtain ⟨-, -, -, h1, h2, -⟩ := lognormal_new sp hμ hs
    exact ⟨h1, h2⟩
  · obtain ⟨-, -, -, -, -, h3⟩ := lognormal_new sp hμ hσ
    rw [h3]
    exact lognormal_pdf_eq hpz hx
  · have hz : 0 < √(log (1 + (σ / μ) ^ 2)) := hpz
    simp only [Lognormal.dFdTheta, Lognormal.params, Pi.sub_apply, Pi.pow_apply, Pi.div_apply]
    generalize hzg : √(log (1 + (σ / μ) ^ 2)) = z at *
    generalize StdNormal.pdf _ = φ
    field_simp
    ring
  · refine (hasDerivAt_const σ μ).congr_of_eventuallyEq ?_
    filter_upwards [hev] with s hs
    exact (lognormal_new sp hμ hs).2.1
  · refine (hasDerivAt_id σ).congr_of_eventuallyEq ?_
    filter_upwards [hev] with s hs
    exact (lognormal_new sp hμ hs).2.2.1

end Pystra.Props
