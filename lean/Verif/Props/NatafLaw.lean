import Verif.Lemmas.NatafLaw
import Verif.Lemmas.Families

/-! C74: the law of the random vector `X = u_to_x(U)` for independent standard normal `U`. -/

namespace Pystra.Props
open MeasureTheory ProbabilityTheory Spec Matrix Set Transformation

variable {n : ℕ}

/-- C74: `u_to_x` of one variable maps a standard normal variable to a variable with density `pdf`. -/
theorem C74_marginal {m : Marginal} {S : Set ℝ} (hr : RoundTrip m S) (hS : IsOpen S) (hj : JacobianCorrect m S)
    (hp : JacobianRatio m S) {μ σ : ℝ} (hl : Law (S.indicator m.pdf) μ σ) :
    (gaussianReal 0 1).map m.uToX = densityLaw (S.indicator m.pdf) := by
  refine map_uToX hr hS.measurableSet hj hp fun x hx => ?_
  have := hl.nonneg x
  rwa [indicator_of_mem hx] at this

variable {la : LinAlg} {ty : TransformType} {Ro : Matrix (Fin n) (Fin n) ℝ} {m : Mats n} {marg : Fin n → Marginal}
  {S : Fin n → Set ℝ}

theorem _root_.Pystra.Spec.NatafSetting.fact (h : NatafSetting la ty Ro m marg S) : m.invT * m.invTᵀ = Ro := by
  obtain ⟨m', hm', hfac, -⟩ := C22_posdef h.linAlg ty h.posDef
  rw [h.mats] at hm'
  injection hm' with hm'
  rw [hm']; exact hfac

theorem _root_.Pystra.Spec.NatafSetting.row (h : NatafSetting la ty Ro m marg S) (i j : Fin n) : m.invT i ⬝ᵥ m.invT j = Ro i j := by
  rw [← h.fact]; rfl

/-- C74: every component of `X` has exactly the density its marginal reports. -/
theorem C74_component (h : NatafSetting la ty Ro m marg S) (i : Fin n) :
    (stdGauss n).map (fun u => uToX m marg u i) = densityLaw ((S i).indicator (marg i).pdf) := by
  have hf := h.marg i
  rw [← C74_marginal hf.round hf.isOpen hf.jac hf.ratio hf.law]
  have e := map_linear_stdGauss (fun k => m.invT i k)
  have h1 : ∑ k, m.invT i k ^ 2 = 1 := by
    rw [← h.diag i, ← h.row i i]
    exact Finset.sum_congr rfl fun k _ => by ring
  rw [h1, Real.toNNReal_one] at e
  rw [← e, Measure.map_map hf.round.mono_x.monotone.measurable (by fun_prop)]
  rfl

/-- C74: `P(X_i ≤ x) = ∫_{-∞}^{x} pdf`, and the mean and standard deviation of `X_i` are those of the marginal. -/
theorem C74_moments (h : NatafSetting la ty Ro m marg S) (i : Fin n) :
    ∫ u, uToX m marg u i ∂(stdGauss n) = (marg i).mean ∧
    ∫ u, (uToX m marg u i - (marg i).mean) ^ 2 ∂(stdGauss n) = (marg i).stdv ^ 2 ∧
    ∀ x, (stdGauss n).real {u | uToX m marg u i ≤ x} = ∫ y in Iic x, (S i).indicator (marg i).pdf y := by
  have hf := h.marg i
  have hl := hf.law
  have hm : Measurable (fun u => uToX m marg u i) := by
    refine hf.round.mono_x.monotone.measurable.comp ?_
    simp only [mulVec, dotProduct]
    fun_prop
  have key : ∀ g : ℝ → ℝ, Measurable g → ∫ u, g (uToX m marg u i) ∂(stdGauss n) =
      ∫ x, g x * (S i).indicator (marg i).pdf x := by
    intro g hg
    have := integral_map (μ := stdGauss n) hm.aemeasurable (f := g) hg.aestronglyMeasurable
    rw [← this, C74_component h i, integral_densityLaw hl.int0.aestronglyMeasurable.aemeasurable hl.nonneg]
  refine ⟨?_, ?_, fun x => ?_⟩
  · rw [key (fun x => x) measurable_id]; exact hl.mean
  · rw [key (fun x => (x - (marg i).mean) ^ 2) (by fun_prop)]; exact hl.var
  · have e : {u | uToX m marg u i ≤ x} = (fun u => uToX m marg u i) ⁻¹' Iic x := rfl
    rw [e, ← map_measureReal_apply hm measurableSet_Iic, C74_component h i, measureReal_def,
      densityLaw_apply _ measurableSet_Iic, ← ofReal_integral_eq_lintegral_ofReal hl.int0.integrableOn
        (Filter.Eventually.of_forall hl.nonneg), ENNReal.toReal_ofReal (integral_nonneg hl.nonneg)]

/-- C74: two components of `X` have the bivariate law of the Nataf model: `(X_i, X_j)` is distributed as
`(u_to_x_i(z1), u_to_x_j(z2))` for `(z1, z2)` with the density `phi2(z1, z2, Ro[i, j])`. -/
theorem C74_pair (h : NatafSetting la ty Ro m marg S) {i j : Fin n} (hij : i ≠ j) :
    |Ro i j| < 1 ∧
    (stdGauss n).map (fun u => (uToX m marg u i, uToX m marg u j)) =
      (densityLaw (fun p : ℝ × ℝ => Integration.phi2 p.1 p.2 (Ro i j))).map
        (fun p => ((marg i).uToX p.1, (marg j).uToX p.2)) := by
  have hlt : |Ro i j| < 1 :=
    abs_offdiag_lt h.posDef h.diag hij
  refine ⟨hlt, ?_⟩
  rw [← map_pair_density hlt, ← map_pair_stdGauss (m.invT i) (m.invT j) (by rw [h.row, h.diag]) (by rw [h.row, h.diag])
    (h.row i j), Measure.map_map]
  · rfl
  · exact ((h.marg i).round.mono_x.monotone.measurable.comp measurable_fst).prodMk
      ((h.marg j).round.mono_x.monotone.measurable.comp measurable_snd)
  · simp only [dotProduct]; fun_prop

/-- C74: hence the correlation coefficient of `X_i` and `X_j` is the double integral of `h_i(z1) h_j(z2) phi2` with
`h(z) = (u_to_x(z) - mean)/stdv`, the integral of which `rho_integral` is the quadrature. -/
theorem C74_correlation (h : NatafSetting la ty Ro m marg S) {i j : Fin n} (hij : i ≠ j) :
    let std := fun (m : Marginal) (z : ℝ) => (m.uToX z - m.mean) / m.stdv
    ∫ u, (uToX m marg u i - (marg i).mean) / (marg i).stdv * ((uToX m marg u j - (marg j).mean) / (marg j).stdv) ∂(stdGauss n) =
      ∫ z1, ∫ z2, std (marg i) z1 * std (marg j) z2 * Integration.phi2 z1 z2 (Ro i j) := by
  intro std
  obtain ⟨hlt, hpair⟩ := C74_pair h hij
  have hmi := (h.marg i).round.mono_x.monotone.measurable
  have hmj := (h.marg j).round.mono_x.monotone.measurable
  have hmX : ∀ i, Measurable (fun u => uToX m marg u i) := by
    intro i
    refine (h.marg i).round.mono_x.monotone.measurable.comp ?_
    simp only [mulVec, dotProduct]
    fun_prop
  have hL2 : ∀ i, MemLp (fun u => (uToX m marg u i - (marg i).mean) / (marg i).stdv) 2 (stdGauss n) := by
    intro i
    have hl := (h.marg i).law
    have h2 : Integrable (fun x : ℝ => x ^ 2) (densityLaw ((S i).indicator (marg i).pdf)) := by
      rw [integrable_densityLaw hl.int0.aestronglyMeasurable.aemeasurable hl.nonneg]
      exact hl.int2
    rw [← C74_component h i, integrable_map_measure (by fun_prop) (hmX i).aemeasurable] at h2
    have h3 : MemLp (fun u => uToX m marg u i) 2 (stdGauss n) :=
      (memLp_two_iff_integrable_sq (hmX i).aestronglyMeasurable).2 h2
    have h4 := (h3.sub (memLp_const (marg i).mean)).const_mul (marg i).stdv⁻¹
    refine h4.ae_eq (Filter.Eventually.of_forall fun u => ?_)
    simp only [Pi.sub_apply]
    rw [div_eq_inv_mul]
  have hint := (hL2 i).integrable_mul (hL2 j)
  have hmg : Measurable (fun p : ℝ × ℝ => (p.1 - (marg i).mean) / (marg i).stdv * ((p.2 - (marg j).mean) / (marg j).stdv)) := by
    fun_prop
  have hmp : Measurable (fun p : ℝ × ℝ => ((marg i).uToX p.1, (marg j).uToX p.2)) :=
    (hmi.comp measurable_fst).prodMk (hmj.comp measurable_snd)
  have hmX2 : Measurable (fun u => (uToX m marg u i, uToX m marg u j)) := (hmX i).prodMk (hmX j)
  have hφm : Measurable (fun p : ℝ × ℝ => Integration.phi2 p.1 p.2 (Ro i j)) := by
    unfold Integration.phi2; fun_prop
  have hφ0 : ∀ p : ℝ × ℝ, 0 ≤ Integration.phi2 p.1 p.2 (Ro i j) := fun p => ((C53_symmetric p.1 p.2 (Ro i j)).2 hlt).le
  have h1 := integral_map (μ := stdGauss n) hmX2.aemeasurable hmg.aestronglyMeasurable
  have h2 := integral_map (μ := densityLaw (fun p : ℝ × ℝ => Integration.phi2 p.1 p.2 (Ro i j))) hmp.aemeasurable
    hmg.aestronglyMeasurable
  have hi2 : Integrable (fun p : ℝ × ℝ => std (marg i) p.1 * std (marg j) p.2)
      (densityLaw (fun p : ℝ × ℝ => Integration.phi2 p.1 p.2 (Ro i j))) := by
    have h3 : Integrable (fun p : ℝ × ℝ => (p.1 - (marg i).mean) / (marg i).stdv * ((p.2 - (marg j).mean) / (marg j).stdv))
        ((stdGauss n).map (fun u => (uToX m marg u i, uToX m marg u j))) := by
      rw [integrable_map_measure hmg.aestronglyMeasurable hmX2.aemeasurable]
      exact hint
    rw [hpair, integrable_map_measure hmg.aestronglyMeasurable hmp.aemeasurable] at h3
    exact h3
  rw [hpair, h2, integral_densityLaw hφm.aemeasurable hφ0] at h1
  rw [← h1, Measure.volume_eq_prod, integral_prod]
  rw [integrable_densityLaw hφm.aemeasurable hφ0] at hi2
  exact hi2

/-- C74: the joint density of `X` at `x` is `φ(u) |det jacobian(u, x)|` with `u = x_to_u(x)` (zero off the support). -/
theorem C74_joint (h : NatafSetting la ty Ro m marg S) :
    (stdGauss n).map (uToX m marg) = densityLaw ((univ.pi S).indicator fun x =>
      |(jacobian m marg (xToU m marg x) x).det| * normalPdf (xToU m marg x)) := by
  have hinv := C21_round_trip h.mats marg S fun i => (h.marg i).round
  have hmeas : Measurable (uToX m marg) := measurable_uToX fun i => (h.marg i).round.mono_x.monotone.measurable
  have hSm : MeasurableSet (univ.pi S) := MeasurableSet.univ_pi fun i => (h.marg i).isOpen.measurableSet
  obtain ⟨h1, h2, h3⟩ := hinv
  ext A hA
  have e : uToX m marg ⁻¹' A = xToU m marg '' (A ∩ univ.pi S) := by
    ext u
    constructor
    · intro hu
      exact ⟨uToX m marg u, ⟨hu, fun i _ => h1 u i⟩, h2 u⟩
    · rintro ⟨x, ⟨hx, hxS⟩, rfl⟩
      show uToX m marg (xToU m marg x) ∈ A
      rw [h3 x fun i => hxS i (mem_univ i)]; exact hx
  rw [Measure.map_apply hmeas hA, densityLaw_apply _ hA, stdGauss_density, densityLaw_apply _ (hmeas hA), e,
    lintegral_image_eq_lintegral_abs_det_fderiv_mul volume (hA.inter hSm)
      (f' := fun x => linMap (jacobian m marg (xToU m marg x) x))
      (fun x hx => (C23_jacobian h.mats marg S (fun i => (h.marg i).jac) x fun i => hx.2 i (mem_univ i)).hasFDerivWithinAt)
      (fun x hx y hy hxy => by
        rw [← h3 x fun i => hx.2 i (mem_univ i), hxy, h3 y fun i => hy.2 i (mem_univ i)]),
    ← lintegral_indicator (hA.inter hSm), ← lintegral_indicator hA]
  refine lintegral_congr fun x => ?_
  by_cases hx : x ∈ A
  · by_cases hxS : x ∈ univ.pi S
    · rw [indicator_of_mem (show x ∈ A ∩ univ.pi S from ⟨hx, hxS⟩), indicator_of_mem hx, indicator_of_mem hxS,
        ENNReal.ofReal_mul (abs_nonneg _), det_linMap]
    · rw [indicator_of_notMem (fun h => hxS h.2), indicator_of_mem hx, indicator_of_notMem hxS, ENNReal.ofReal_zero]
  · rw [indicator_of_notMem (fun h => hx h.1), indicator_of_notMem hx]

/-- C74: the law of `X` does not depend on the transformation: Cholesky and SVD give the same law. -/
theorem C74_type {la' : LinAlg} {ty' : TransformType} {m' : Mats n} (h : NatafSetting la ty Ro m marg S)
    (h' : NatafSetting la' ty' Ro m' marg S) : (stdGauss n).map (uToX m marg) = (stdGauss n).map (uToX m' marg) := by
  exact map_uToX_congr (fun i => (h.marg i).round.mono_x.monotone.measurable) (h.fact.trans h'.fact.symm)

/-- C74: uncorrelated (`Ro = 1`) means independent. -/
theorem C74_independent (h : NatafSetting la ty (1 : Matrix (Fin n) (Fin n) ℝ) m marg S) :
    (stdGauss n).map (uToX m marg) = Measure.pi fun i => densityLaw ((S i).indicator (marg i).pdf) := by
  have hm : ∀ i, Measurable (marg i).uToX := fun i => (h.marg i).round.mono_x.monotone.measurable
  have e : (stdGauss n).map (uToX m marg) = (stdGauss n).map (uToX ⟨1, 1⟩ marg) :=
    map_uToX_congr hm (by rw [h.fact]; simp)
  rw [e]
  have e2 : uToX (⟨1, 1⟩ : Mats n) marg = fun u i => (marg i).uToX (u i) := by
    funext u i
    simp only [uToX, one_mulVec]
  have hp : ∀ i, (gaussianReal 0 1).map (marg i).uToX = densityLaw ((S i).indicator (marg i).pdf) := fun i =>
    C74_marginal (h.marg i).round (h.marg i).isOpen (h.marg i).jac (h.marg i).ratio (h.marg i).law
  simp only [← hp]
  rw [e2, stdGauss, Measure.pi_map_pi (fun i => (hm i).aemeasurable)]

theorem faithful_of_good {r : Except PyErr Marginal} {sp : Option ℝ} {S : Set ℝ} {μ σ : ℝ} (h : Good r sp S μ σ)
    (hS : IsOpen S) (hp : ∀ m, r = .ok m → JacobianRatio m S) : ∃ m, r = .ok m ∧ Faithful m S := by
  obtain ⟨m, h1, h2, h3, -, hr, hj, hl⟩ := h.ex
  exact ⟨m, h1, hr, hS, hj, hp m h1, by rw [h2, h3]; exact hl⟩

theorem ratio_ofFrozen (f : Frozen) (sp : Option ℝ) (S : Set ℝ) (m : Marginal)
    (h : Distribution.ofFrozen f sp = .ok m) : JacobianRatio m S := by
  unfold Distribution.ofFrozen at h
  split at h
  · cases h
  · injection h with h; subst h
    intro x _
    rfl

theorem ratio_normal (μ σ : ℝ) (sp : Option ℝ) (S : Set ℝ) (m : Marginal) (h : Normal.new μ (.fin σ) sp = .ok m) :
    JacobianRatio m S := by
  injection h with h; subst h
  intro x _
  have := StdNormal.pdf_pos ((x - μ) / σ)
  simp only [Normal.jac, Normal.pdf, Normal.xToU]
  rw [div_right_comm, div_self this.ne']

theorem ratio_lognormal (μ σ : ℝ) (b : Bool) (sp : Option ℝ) (S : Set ℝ) (m : Marginal)
    (h : Lognormal.new μ σ b sp = .ok m) : JacobianRatio m S := by
  have key : ∀ l z : ℝ, Lognormal.ofParams l z sp = .ok m → JacobianRatio m S := by
    intro l z h
    unfold Lognormal.ofParams at h
    dsimp only at h
    split at h
    · cases h
    · injection h with h; subst h; intro x _; rfl
  cases b
  · exact key _ _ h
  · exact key _ _ h

theorem ratio_shiftedLognormal (μ σ lower : ℝ) (sp : Option ℝ) (S : Set ℝ) (m : Marginal)
    (h : ShiftedLognormal.new μ σ lower false sp = .ok m) : JacobianRatio m S := by
  simp only [ShiftedLognormal.new, Bool.false_eq_true, if_false] at h
  split at h
  · cases h
  · injection h with h; subst h; intro x _; rfl

theorem ratio_uniform (μ σ : ℝ) (b : Bool) (sp : Option ℝ) (S : Set ℝ) (m : Marginal)
    (h : Uniform.new μ σ b sp = .ok m) : JacobianRatio m S := by
  simp only [Uniform.new] at h
  split at h
  · cases h
  · injection h with h; subst h; intro x _; rfl

/-- C74: the standard classes are covered, with parameters from moments; the support is open and the transformation,
the Jacobian, the density and the recorded moments all belong to one law. -/
theorem C74_classes (sp : Option ℝ) :
    (∀ μ σ : ℝ, 0 < σ → ∃ m, Normal.new μ (.fin σ) sp = .ok m ∧ Faithful m univ) ∧
    (∀ μ σ : ℝ, 0 < μ → 0 < σ → ∃ m, Lognormal.new μ σ false sp = .ok m ∧ Faithful m (Ioi 0)) ∧
    (∀ μ σ lower : ℝ, lower < μ → 0 < σ → ∃ m, ShiftedLognormal.new μ σ lower false sp = .ok m ∧ Faithful m (Ioi lower)) ∧
    (∀ μ σ : ℝ, 0 < σ → ∃ m, Uniform.new μ σ false sp = .ok m ∧ Faithful m (Ioo (μ - √3 * σ) (μ + √3 * σ))) ∧
    (∀ μ σ : ℝ, 0 < μ → 0 < σ → ∃ m, GammaDist.new μ σ false sp = .ok m ∧ Faithful m (Ioi 0)) ∧
    (∀ μ σ : ℝ, 0 < σ → ∃ m, ShiftedExponential.new μ σ false sp = .ok m ∧ Faithful m (Ioi (μ - σ))) ∧
    (∀ μ σ : ℝ, 0 < σ → ∃ m, ShiftedRayleigh.new μ σ false sp = .ok m ∧
      Faithful m (Ioi (μ - σ * √(Real.pi / (4 - Real.pi))))) ∧
    (∀ μ σ : ℝ, 0 < σ → ∃ m, Gumbel.new μ σ false sp = .ok m ∧ Faithful m univ) ∧
    (∀ μ σ : ℝ, 0 < σ → ∃ m, TypeIsmallest.new μ σ false sp = .ok m ∧ Faithful m univ) ∧
    (∀ μ σ : ℝ, 0 < μ → 0 < σ → ∃ m, ChiSquare.new μ σ false sp = .ok m ∧ Faithful m (Ioi 0)) ∧
    (∀ μ σ eps k : ℝ, 0 < k → eps < μ → ∃ m, Weibull.new k μ σ eps false sp = .ok m ∧ Faithful m (Ioi eps)) ∧
    (∀ μ σ k : ℝ, 2 < k → 0 < μ → ∃ m, TypeIIlargest.new k μ σ false sp = .ok m ∧ Faithful m (Ioi 0)) ∧
    (∀ μ σ a b q : ℝ, 0 < q → a < μ → μ < b → ∃ m, BetaDist.new q μ σ a b false sp = .ok m ∧ Faithful m (Ioo a b)) := by
  refine ⟨?_, ?_, ?_, ?_, ?_, ?_, ?_, ?_, ?_, ?_, ?_, ?_, ?_⟩
  · intro μ σ h; exact faithful_of_good (good_normal μ h sp) isOpen_univ (ratio_normal μ σ sp univ)
  · intro μ σ h0 h; exact faithful_of_good (good_lognormal h0 h sp) isOpen_Ioi (ratio_lognormal μ σ false sp _)
  · intro μ σ l h0 h
    exact faithful_of_good (good_shiftedLognormal h0 h sp) isOpen_Ioi (ratio_shiftedLognormal μ σ l sp _)
  · intro μ σ h; exact faithful_of_good (good_uniform μ h sp) isOpen_Ioo (ratio_uniform μ σ false sp _)
  · intro μ σ h0 h; exact faithful_of_good (good_gamma h0 h sp) isOpen_Ioi (ratio_ofFrozen _ sp _)
  · intro μ σ h; exact faithful_of_good (good_shiftedExponential μ h sp) isOpen_Ioi (ratio_ofFrozen _ sp _)
  · intro μ σ h; exact faithful_of_good (good_shiftedRayleigh μ h sp) isOpen_Ioi (ratio_ofFrozen _ sp _)
  · intro μ σ h; exact faithful_of_good (good_gumbel μ h sp) isOpen_univ (ratio_ofFrozen _ sp _)
  · intro μ σ h; exact faithful_of_good (good_typeIsmallest μ h sp) isOpen_univ (ratio_ofFrozen _ sp _)
  · intro μ σ h0 h; exact faithful_of_good (good_chiSquare h0 h sp) isOpen_Ioi (ratio_ofFrozen _ sp _)
  · intro μ σ e k h0 h; exact faithful_of_good (good_weibull (σ := σ) h0 h sp) isOpen_Ioi (ratio_ofFrozen _ sp _)
  · intro μ σ k h0 h; exact faithful_of_good (good_typeIIlargest (σ := σ) h0 h sp) isOpen_Ioi (ratio_ofFrozen _ sp _)
  · intro μ σ a b q h0 h h'
    obtain ⟨s, g, -⟩ := good_beta (σ := σ) h0 h h' sp
    exact faithful_of_good g isOpen_Ioo (ratio_ofFrozen _ sp _)

/-- The setting of C74 is met by a Gumbel, a lognormal and a uniform variable with pairwise correlation one half. -/
theorem nataf_three (ty : TransformType) : ∃ (la : LinAlg) (m : Mats 3) (marg : Fin 3 → Marginal) (S : Fin 3 → Set ℝ)
    (Ro : Matrix (Fin 3) (Fin 3) ℝ), (∀ i j, i ≠ j → Ro i j = 1 / 2) ∧ NatafSetting la ty Ro m marg S := by
  obtain ⟨la, hla⟩ := linAlgOK_exists
  have hpd : (Matrix.of fun i j : Fin 3 => if i = j then (1 : ℝ) else 1 / 2).PosDef := by
    rw [posDef_iff_dotProduct_mulVec]
    refine ⟨by ext i j; simp [eq_comm], fun {x} hx => ?_⟩
    have hx' : 0 < x 0 ^ 2 + x 1 ^ 2 + x 2 ^ 2 := by
      by_contra hc
      apply hx
      have h0 := sq_nonneg (x 0); have h1 := sq_nonneg (x 1); have h2 := sq_nonneg (x 2)
      funext i
      fin_cases i <;> simp <;> nlinarith
    simp [dotProduct, mulVec, Fin.sum_univ_three]
    nlinarith [sq_nonneg (x 0 + x 1 + x 2)]
  obtain ⟨m, hm, -⟩ := C22_posdef hla ty hpd
  obtain ⟨-, hl, -, hu, -, -, -, hg, -⟩ := C74_classes none
  obtain ⟨m0, -, f0⟩ := hg 10 2 (by norm_num)
  obtain ⟨m1, -, f1⟩ := hl 3 1 (by norm_num) (by norm_num)
  obtain ⟨m2, -, f2⟩ := hu 5 1 (by norm_num)
  refine ⟨la, m, ![m0, m1, m2], ![univ, Ioi 0, Ioo (5 - √3 * 1) (5 + √3 * 1)], _, fun i j hij => by simp [hij], hla, hpd, fun i => by simp, hm, fun i => ?_⟩
  fin_cases i
  · exact f0
  · exact f1
  · exact f2

end Pystra.Props
