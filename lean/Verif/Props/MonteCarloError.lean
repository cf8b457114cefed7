import Verif.Props.MonteCarlo
import Verif.Props.NatafLaw
import Mathlib.Analysis.SpecialFunctions.Gaussian.GaussianIntegral

/-! C75: what the estimates of the simulation methods converge to, and how fast. -/

namespace Pystra.Props
open MeasureTheory ProbabilityTheory Spec Matrix Transformation MonteCarlo Form

variable {n : ℕ} {σ : Type}

/-- The variance of the mean of a function of the samples. -/
theorem variance_mean {X : (Fin n → ℝ) → ℝ} (hXm : Measurable X) (hXL : MemLp X 2 (stdGauss n)) {bs N : ℕ} (hb : 1 ≤ bs)
    (hN : 1 ≤ N) (pos : ℕ) :
    Var[fun ω => (∑ j : Fin N, X (mcDraw ω n bs N pos j)) / N; stream] = Var[X; stdGauss n] / N := by
  have hsum : Var[∑ j : Fin N, fun z : Fin N → Fin n → ℝ => X (z j);
      Measure.pi (fun _ : Fin N => stdGauss n)] = N * Var[X; stdGauss n] := by
    rw [variance_sum_pi (X := fun _ => X) (fun _ => hXL)]
    simp
  rw [← samples_law (n := n) (N := N) hb pos, variance_map (by
    apply Measurable.aemeasurable
    have e0 : (∑ j : Fin N, fun z : Fin N → Fin n → ℝ => X (z j)) = fun z => ∑ j, X (z j) := by
      funext z; simp only [Finset.sum_apply]
    rw [e0]
    exact Finset.measurable_sum _ fun j _ => hXm.comp (measurable_pi_apply j)) (measurable_draw _ _ _).aemeasurable] at hsum
  have e : (fun ω => (∑ j : Fin N, X (mcDraw ω n bs N pos j)) / N) =
      (fun ω => (N:ℝ)⁻¹ * ((∑ j : Fin N, fun z : Fin N → Fin n → ℝ => X (z j)) ∘
        (fun ω (j : Fin N) => mcDraw ω n bs N pos j)) ω) := by
    funext ω
    simp only [Function.comp_apply, Finset.sum_apply]
    rw [div_eq_inv_mul]
  have hN' : (N:ℝ) ≠ 0 := by positivity
  rw [e, variance_const_mul, hsum]
  field_simp

theorem memLp_mean {X : (Fin n → ℝ) → ℝ} (hXL : MemLp X 2 (stdGauss n)) {bs N : ℕ} (hb : 1 ≤ bs) (pos : ℕ) :
    MemLp (fun ω => (∑ j : Fin N, X (mcDraw ω n bs N pos j)) / N) 2 stream := by
  have h1 : ∀ j : Fin N, MemLp (fun ω => X (mcDraw ω n bs N pos j)) 2 stream := by
    intro j
    have hlaw : stream.map (fun ω => mcDraw ω n bs N pos j) = stdGauss n := by
      have h2 := (measurePreserving_eval (fun _ : Fin N => stdGauss n) j).map_eq
      rw [← samples_law (n := n) (N := N) hb pos, Measure.map_map (measurable_pi_apply j) (measurable_draw _ _ _)] at h2
      exact h2
    have hmd : Measurable (fun ω => mcDraw ω n bs N pos j) :=
      (measurable_pi_apply j).comp (measurable_draw (n := n) bs N pos)
    rw [← hlaw] at hXL
    exact hXL.comp_of_map hmd.aemeasurable
  have h2 := (memLp_finset_sum Finset.univ fun j _ => h1 j).const_mul ((N:ℝ)⁻¹)
  refine h2.ae_eq (Filter.Eventually.of_forall fun ω => ?_)
  simp only [div_eq_inv_mul]

/-- The summand of one sample as a function of its standard normal draw. -/
noncomputable def perSample (A : Set (Fin n → ℝ)) (s : ℝ) (c z : Fin n → ℝ) : ℝ :=
  A.indicator (weight s c) (fun r => c r + s * z r)

theorem measurable_perSample {A : Set (Fin n → ℝ)} (hA : MeasurableSet A) (s : ℝ) (c : Fin n → ℝ) :
    Measurable (perSample A s c) := by
  have hm : Measurable (fun (z : Fin n → ℝ) r => c r + s * z r) := by fun_prop
  exact ((measurable_weight s c).indicator hA).comp hm

/-- `exp(-a x² + b x)` is integrable for `a > 0`. -/
theorem integrable_exp_quad {a : ℝ} (ha : 0 < a) (b c : ℝ) :
    Integrable (fun x : ℝ => Real.exp (-a * x ^ 2 + b * x + c)) := by
  have h := (integrable_exp_neg_mul_sq ha).comp_sub_right (b / (2 * a))
  refine (h.const_mul (Real.exp (b ^ 2 / (4 * a) + c))).congr (Filter.Eventually.of_forall fun x => ?_)
  beta_reduce
  rw [← Real.exp_add]
  congr 1
  field_simp
  ring

/-- The weights have a finite second moment when the sampling standard deviation exceeds `1/√2`. -/
theorem integrable_weight {s : ℝ} (hs : 0 < s) (h2 : 1 / 2 < s ^ 2) (c : Fin n → ℝ) : Integrable (weight s c) (stdGauss n) := by
  rw [stdGauss_density, integrable_densityLaw normalPdf_measurable.aemeasurable fun x => (normalPdf_pos x).le]
  have e : (fun x => weight s c x * normalPdf x) = fun x => ∏ i, (s / √(2 * Real.pi) *
      Real.exp (-(1 - 1 / (2 * s ^ 2)) * x i ^ 2 + -(c i / s ^ 2) * x i + c i ^ 2 / (2 * s ^ 2))) := by
    funext x
    have hp : ∀ y : ℝ, StdNormal.pdf y = (√(2 * Real.pi))⁻¹ * Real.exp (-y ^ 2 / 2) := by
      intro y
      rw [StdNormal.pdf_eq_gaussian, gaussianPDFReal]
      simp
    have hn : s ^ n = ∏ _i : Fin n, s := by simp
    have he : -0.5 * (x ⬝ᵥ x) + 0.5 * ((x - c) ⬝ᵥ ((s ^ 2)⁻¹ • (x - c))) =
        ∑ i, (-(x i) ^ 2 / 2 + (x i - c i) ^ 2 / (2 * s ^ 2)) := by
      simp only [dotProduct, Finset.mul_sum, ← Finset.sum_add_distrib]
      apply Finset.sum_congr rfl
      intro i _
      simp only [Pi.sub_apply, Pi.smul_apply, smul_eq_mul]
      field_simp
      ring
    unfold weight normalPdf
    rw [he, Real.exp_sum, hn, ← Finset.prod_mul_distrib, ← Finset.prod_mul_distrib]
    refine Finset.prod_congr rfl fun i _ => ?_
    rw [hp, div_eq_mul_inv, mul_mul_mul_comm, ← Real.exp_add]
    congr 2
    field_simp
    ring
  rw [e]
  refine Integrable.fintype_prod (f := fun i (y : ℝ) => s / √(2 * Real.pi) *
      Real.exp (-(1 - 1 / (2 * s ^ 2)) * y ^ 2 + -(c i / s ^ 2) * y + c i ^ 2 / (2 * s ^ 2))) fun i => ?_
  refine (integrable_exp_quad ?_ _ _).const_mul _
  rw [sub_pos, div_lt_one (by positivity)]
  linarith

theorem lintegral_perSample_sq {s : ℝ} (hs : 0 < s) (c : Fin n → ℝ) {A : Set (Fin n → ℝ)} (hA : MeasurableSet A) :
    ∫⁻ z, ENNReal.ofReal (perSample A s c z ^ 2) ∂(stdGauss n) = ∫⁻ u in A, ENNReal.ofReal (weight s c u) ∂(stdGauss n) := by
  have hm : Measurable (fun (z : Fin n → ℝ) r => c r + s * z r) := by fun_prop
  have hw := measurable_weight s c
  have e1 : ∫⁻ z, ENNReal.ofReal (perSample A s c z ^ 2) ∂(stdGauss n) =
      ∫⁻ u, ENNReal.ofReal (A.indicator (weight s c) u ^ 2) ∂((stdGauss n).map (fun z r => c r + s * z r)) :=
    (lintegral_map ((hw.indicator hA).pow_const 2).ennreal_ofReal hm).symm
  rw [e1]
  conv_rhs => rw [stdGauss_eq hs c]
  rw [← lintegral_indicator hA, lintegral_withDensity_eq_lintegral_mul₀ hw.ennreal_ofReal.aemeasurable
    (hw.ennreal_ofReal.indicator hA).aemeasurable]
  refine lintegral_congr fun u => ?_
  simp only [Pi.mul_apply]
  by_cases h : u ∈ A
  · rw [Set.indicator_of_mem h, Set.indicator_of_mem h, ← ENNReal.ofReal_mul (weight_nonneg hs c u), sq]
  · rw [Set.indicator_of_notMem h, Set.indicator_of_notMem h]; simp

theorem memLp_perSample {s : ℝ} (hs : 0 < s) (h2 : 1 / 2 < s ^ 2) (c : Fin n → ℝ) {A : Set (Fin n → ℝ)}
    (hA : MeasurableSet A) : MemLp (perSample A s c) 2 (stdGauss n) := by
  rw [memLp_two_iff_integrable_sq (measurable_perSample hA s c).aestronglyMeasurable]
  refine ⟨((measurable_perSample hA s c).pow_const 2).aestronglyMeasurable, ?_⟩
  rw [hasFiniteIntegral_iff_ofReal (Filter.Eventually.of_forall fun z => sq_nonneg _), lintegral_perSample_sq hs c hA]
  have h := (integrable_weight hs h2 c).integrableOn (s := A)
  have := h.2
  rwa [hasFiniteIntegral_iff_ofReal (Filter.Eventually.of_forall fun u => weight_nonneg hs c u)] at this

theorem variance_perSample {s : ℝ} (hs : 0 < s) (h2 : 1 / 2 < s ^ 2) (c : Fin n → ℝ) {A : Set (Fin n → ℝ)}
    (hA : MeasurableSet A) :
    Var[perSample A s c; stdGauss n] = ∫ u in A, weight s c u ∂(stdGauss n) - (stdGauss n).real A ^ 2 := by
  rw [variance_eq_sub (memLp_perSample hs h2 c hA)]
  have h1 : ∫ z, perSample A s c z ∂(stdGauss n) = (stdGauss n).real A := (integral_weighted hs c hA).2
  rw [h1]
  congr 1
  have e1 := integral_eq_lintegral_of_nonneg_ae (μ := stdGauss n) (f := fun z => perSample A s c z ^ 2)
    (Filter.Eventually.of_forall fun z => sq_nonneg _) ((measurable_perSample hA s c).pow_const 2).aestronglyMeasurable
  have e2 := integral_eq_lintegral_of_nonneg_ae (μ := (stdGauss n).restrict A) (f := weight s c)
    (Filter.Eventually.of_forall fun u => weight_nonneg hs c u) (measurable_weight s c).aestronglyMeasurable
  rw [lintegral_perSample_sq hs c hA] at e1
  rw [e2, ← e1]
  rfl

theorem setIntegral_weight_unit (c : Fin n → ℝ) {A : Set (Fin n → ℝ)} (hA : MeasurableSet A) :
    ∫ u in A, weight 1 c u ∂(stdGauss n) = Real.exp (c ⬝ᵥ c) * (stdGauss n).real {u | u - c ∈ A} := by
  have hm : Measurable (fun (z : Fin n → ℝ) r => (-c) r + 1 * z r) := by fun_prop
  have hw := measurable_weight 1 c
  rw [integral_eq_lintegral_of_nonneg_ae (Filter.Eventually.of_forall fun u => weight_nonneg one_pos c u)
    hw.aestronglyMeasurable, ← lintegral_indicator hA]
  conv_lhs => rw [stdGauss_eq one_pos (-c)]
  rw [lintegral_withDensity_eq_lintegral_mul₀ (measurable_weight 1 (-c)).ennreal_ofReal.aemeasurable
    (hw.ennreal_ofReal.indicator hA).aemeasurable]
  have e : ∀ u : Fin n → ℝ, ((fun u => ENNReal.ofReal (weight 1 (-c) u)) *
      A.indicator fun u => ENNReal.ofReal (weight 1 c u)) u = ENNReal.ofReal (Real.exp (c ⬝ᵥ c)) * A.indicator 1 u := by
    intro u
    rw [Pi.mul_apply]
    by_cases h : u ∈ A
    · rw [Set.indicator_of_mem h, Set.indicator_of_mem h, ← ENNReal.ofReal_mul (weight_nonneg one_pos _ u), Pi.one_apply,
        mul_one]
      congr 1
      unfold weight
      simp only [one_pow, inv_one, one_smul, one_mul]
      rw [← Real.exp_add]
      congr 1
      simp only [dotProduct, Finset.mul_sum, ← Finset.sum_add_distrib]
      refine Finset.sum_congr rfl fun i _ => ?_
      simp only [Pi.sub_apply, Pi.neg_apply]
      ring
    · rw [Set.indicator_of_notMem h, Set.indicator_of_notMem h]; simp
  simp only [e]
  rw [lintegral_const_mul _ (measurable_one.indicator hA), lintegral_indicator_one hA, Measure.map_apply hm hA,
    ENNReal.toReal_mul, ENNReal.toReal_ofReal (Real.exp_pos _).le]
  congr 3
  ext u
  have : (fun r => (-c) r + 1 * u r) = u - c := by
    funext r; simp only [Pi.neg_apply, Pi.sub_apply]; ring
  simp only [Set.mem_preimage, this, Set.mem_setOf_eq]

variable {t : Mats n} {marg : Fin n → Marginal} {ev : Evaluator σ n} {P : σ → Prop} {f : (Fin n → ℝ) → ℝ}
  {opt : MonteCarlo.Options}

/-- The reported `Pf` of a simulation with target 0, as a function of the stream. -/
theorem run_perSample (hev : Values ev P f) (hg : opt.randomGenerator = 0) (hb : 1 ≤ opt.blockSize)
    (hN : 1 ≤ opt.samples) (hs : 0 < opt.stdv) (hcov : opt.cov ≤ 0) (point : Option (Fin n → ℝ)) (ω : ℕ → ℝ)
    (pos fuel : ℕ) (hf : opt.samples ≤ fuel) (s : σ) (hP : P s) :
    ∃ r, MonteCarlo.run t marg ev opt point ω pos fuel s = some (.ok r) ∧ r.st.k = opt.samples ∧
      r.Pf = (∑ j : Fin opt.samples, perSample {u | f (uToX t marg u) < 0} opt.stdv (point.getD fun _ => 0)
        (mcDraw ω n opt.blockSize opt.samples pos j)) / opt.samples := by
  obtain ⟨r, h1, h2, h3⟩ := run_full hev hg hb hN hs hcov point ω pos fuel hf s hP (t := t) (marg := marg)
  refine ⟨r, h1, h2, h3.trans ?_⟩
  congr 1
  exact Finset.sum_congr rfl fun j _ => summand_indicator hs _ ω pos j

/-- C75: the mean square error of importance sampling.  With centre `c` and sampling standard deviation `s > 1/√2` the
variance of the reported `Pf` (simulation of fixed length) is `(E[w; failure] - p²)/N`, where `w` is the ratio of the
standard normal density to the sampling density. -/
theorem C75_variance (hev : Values ev P f) (hA : MeasurableSet {u : Fin n → ℝ | f (uToX t marg u) < 0})
    (hg : opt.randomGenerator = 0) (hb : 1 ≤ opt.blockSize) (hN : 1 ≤ opt.samples) (hs : 0 < opt.stdv)
    (hs2 : 1 / 2 < opt.stdv ^ 2) (hcov : opt.cov ≤ 0) (point : Option (Fin n → ℝ)) (pos fuel : ℕ)
    (hf : opt.samples ≤ fuel) (s : σ) (hP : P s) :
    let c := point.getD fun _ => 0
    let p := (stdGauss n).real {u | f (uToX t marg u) < 0}
    ∃ Pf : (ℕ → ℝ) → ℝ,
      (∀ ω, ∃ r, MonteCarlo.run t marg ev opt point ω pos fuel s = some (.ok r) ∧ r.st.k = opt.samples ∧ r.Pf = Pf ω) ∧
      MemLp Pf 2 stream ∧ ∫ ω, Pf ω ∂stream = p ∧
      Var[Pf; stream] = ((∫ u in {u | f (uToX t marg u) < 0},
        normalDensity (fun _ => 0) 1 u / normalDensity c opt.stdv u ∂(stdGauss n)) - p ^ 2) / opt.samples := by
  intro c p
  obtain ⟨Pf, h1, -, h3⟩ := C38_unbiased hev hA hg hb hN hs hcov point pos fuel hf s hP
  have e : Pf = fun ω => (∑ j : Fin opt.samples, perSample {u | f (uToX t marg u) < 0} opt.stdv c
      (mcDraw ω n opt.blockSize opt.samples pos j)) / opt.samples := by
    funext ω
    obtain ⟨r, hr, -, hq⟩ := h1 ω
    obtain ⟨r', hr', -, hq'⟩ := run_perSample (t := t) (marg := marg) hev hg hb hN hs hcov point ω pos fuel hf s hP
    rw [hr] at hr'
    cases hr'
    rw [← hq, hq']
  refine ⟨Pf, h1, ?_, h3, ?_⟩
  · rw [e]; exact memLp_mean (memLp_perSample hs hs2 c hA) hb pos
  · rw [e, variance_mean (measurable_perSample hA _ _) (memLp_perSample hs hs2 c hA) hb hN, variance_perSample hs hs2 c hA]
    simp only [← weight_eq hs, p]

/-- C75: for the default sampling standard deviation 1 the second moment is explicit: `exp(|c|²)` times the probability
that a point shifted by `-c` fails.  (At the centre 0 this is the variance `p(1-p)/N` of crude Monte Carlo.) -/
theorem C75_variance_unit (hev : Values ev P f) (hA : MeasurableSet {u : Fin n → ℝ | f (uToX t marg u) < 0})
    (hg : opt.randomGenerator = 0) (hb : 1 ≤ opt.blockSize) (hN : 1 ≤ opt.samples) (hs : opt.stdv = 1)
    (hcov : opt.cov ≤ 0) (point : Option (Fin n → ℝ)) (pos fuel : ℕ) (hf : opt.samples ≤ fuel) (s : σ) (hP : P s) :
    let c := point.getD fun _ => 0
    let p := (stdGauss n).real {u | f (uToX t marg u) < 0}
    ∃ Pf : (ℕ → ℝ) → ℝ,
      (∀ ω, ∃ r, MonteCarlo.run t marg ev opt point ω pos fuel s = some (.ok r) ∧ r.st.k = opt.samples ∧ r.Pf = Pf ω) ∧
      Var[Pf; stream] = (Real.exp (c ⬝ᵥ c) * (stdGauss n).real {u | f (uToX t marg (u - c)) < 0} - p ^ 2) / opt.samples := by
  intro c p
  obtain ⟨Pf, h1, -, -, h4⟩ := C75_variance hev hA hg hb hN (by rw [hs]; exact one_pos) (by rw [hs]; norm_num) hcov point
    pos fuel hf s hP
  refine ⟨Pf, h1, h4.trans ?_⟩
  have := setIntegral_weight_unit c hA
  simp only [weight_eq one_pos] at this
  rw [hs, this]
  rfl

/-- C75: the probability that the reported `Pf` of a simulation of `N` samples misses the probability of failure by `ε`
or more is at most `V/(N ε²)`, with `V` the variance of one summand: it can be made as small as wanted by raising `N`. -/
theorem C75_error (hev : Values ev P f) (hA : MeasurableSet {u : Fin n → ℝ | f (uToX t marg u) < 0})
    (hg : opt.randomGenerator = 0) (hb : 1 ≤ opt.blockSize) (hN : 1 ≤ opt.samples) (hs : 0 < opt.stdv)
    (hs2 : 1 / 2 < opt.stdv ^ 2) (hcov : opt.cov ≤ 0) (point : Option (Fin n → ℝ)) (pos fuel : ℕ)
    (hf : opt.samples ≤ fuel) (s : σ) (hP : P s) {ε : ℝ} (hε : 0 < ε) :
    let c := point.getD fun _ => 0
    let p := (stdGauss n).real {u | f (uToX t marg u) < 0}
    let V := (∫ u in {u | f (uToX t marg u) < 0},
      normalDensity (fun _ => 0) 1 u / normalDensity c opt.stdv u ∂(stdGauss n)) - p ^ 2
    stream.real {ω | ∃ r, MonteCarlo.run t marg ev opt point ω pos fuel s = some (.ok r) ∧ ε ≤ |r.Pf - p|} ≤
      V / (opt.samples * ε ^ 2) := by
  intro c p V
  obtain ⟨Pf, h1, h2, h3, h4⟩ := C75_variance hev hA hg hb hN hs hs2 hcov point pos fuel hf s hP
  have e : {ω | ∃ r, MonteCarlo.run t marg ev opt point ω pos fuel s = some (.ok r) ∧ ε ≤ |r.Pf - p|} =
      {ω | ε ≤ |Pf ω - ∫ ω, Pf ω ∂stream|} := by
    ext ω
    obtain ⟨r, hr, -, hq⟩ := h1 ω
    simp only [Set.mem_setOf_eq, h3]
    constructor
    · rintro ⟨r', hr', h⟩
      rw [hr] at hr'
      cases hr'
      rw [← hq]; exact h
    · intro h
      exact ⟨r, hr, by rw [hq]; exact h⟩
  rw [e, measureReal_def]
  haveI : IsProbabilityMeasure stream := by unfold stream; infer_instance
  have hc := meas_ge_le_variance_div_sq h2 hε
  have hv : 0 ≤ Var[Pf; stream] / ε ^ 2 := div_nonneg (variance_nonneg _ _) (sq_nonneg _)
  have := ENNReal.toReal_mono ENNReal.ofReal_ne_top hc
  rw [ENNReal.toReal_ofReal hv, h4] at this
  refine this.trans (le_of_eq ?_)
  rw [div_div]

/-- C75: for crude Monte Carlo (centre 0, standard deviation 1) the bound is `p(1-p)/(N ε²)`, at most `1/(4 N ε²)`. -/
theorem C75_crude_error (hev : Values ev P f) (hA : MeasurableSet {u : Fin n → ℝ | f (uToX t marg u) < 0})
    (hg : opt.randomGenerator = 0) (hb : 1 ≤ opt.blockSize) (hN : 1 ≤ opt.samples) (hs : opt.stdv = 1)
    (hcov : opt.cov ≤ 0) (pos fuel : ℕ) (hf : opt.samples ≤ fuel) (s : σ) (hP : P s) {ε : ℝ} (hε : 0 < ε) :
    let p := (stdGauss n).real {u | f (uToX t marg u) < 0}
    stream.real {ω | ∃ r, MonteCarlo.run t marg ev opt none ω pos fuel s = some (.ok r) ∧ ε ≤ |r.Pf - p|} ≤
      p * (1 - p) / (opt.samples * ε ^ 2) ∧ p * (1 - p) / (opt.samples * ε ^ 2) ≤ 1 / (4 * opt.samples * ε ^ 2) := by
  intro p
  have hN' : (0:ℝ) < opt.samples := by exact_mod_cast hN
  constructor
  · have h := C75_error (t := t) (marg := marg) hev hA hg hb hN (by rw [hs]; exact one_pos) (by rw [hs]; norm_num) hcov none
      pos fuel hf s hP hε
    refine h.trans (le_of_eq ?_)
    have := setIntegral_weight_unit (fun _ => 0) hA
    simp only [weight_eq one_pos] at this
    rw [Option.getD_none, hs, this]
    have e : {u : Fin n → ℝ | u - (fun _ => 0) ∈ {u : Fin n → ℝ | f (uToX t marg u) < 0}} = {u | f (uToX t marg u) < 0} := by
      ext u
      have : u - (fun _ => (0:ℝ)) = u := by funext i; simp
      simp only [Set.mem_setOf_eq, this]
    rw [e]
    simp only [dotProduct, mul_zero, Finset.sum_const_zero, Real.exp_zero, one_mul]
    congr 1
    ring
  · rw [div_le_div_iff₀ (by positivity) (by positivity)]
    have : p * (1 - p) ≤ 1 / 4 := by nlinarith [sq_nonneg (p - 1 / 2)]
    have h2 : 0 < (opt.samples:ℝ) * ε ^ 2 := by positivity
    nlinarith

/-- C75: and the quantity estimated is the probability of failure of the physical vector: the integral over `g(x) < 0`
of the joint Nataf density, with the marginals and the correlation matrix of the model. -/
theorem C75_physical {la : LinAlg} {ty : TransformType} {Ro : Matrix (Fin n) (Fin n) ℝ} {S : Fin n → Set ℝ}
    (h : NatafSetting la ty Ro t marg S) (hfm : MeasurableSet {x : Fin n → ℝ | f x < 0}) (hev : Values ev P f)
    (hg : opt.randomGenerator = 0) (hb : 1 ≤ opt.blockSize) (hN : 1 ≤ opt.samples) (hs : 0 < opt.stdv)
    (hcov : opt.cov ≤ 0) (point : Option (Fin n → ℝ)) (pos fuel : ℕ) (hf : opt.samples ≤ fuel) (s : σ) (hP : P s) :
    ∃ Pf : (ℕ → ℝ) → ℝ,
      (∀ ω, ∃ r, MonteCarlo.run t marg ev opt point ω pos fuel s = some (.ok r) ∧ r.st.k = opt.samples ∧ r.Pf = Pf ω) ∧
      ∫ ω, Pf ω ∂stream = (densityLaw ((Set.univ.pi S).indicator fun x =>
        |(jacobian t marg (xToU t marg x) x).det| * normalPdf (xToU t marg x))).real {x | f x < 0} := by
  have hmeas : Measurable (uToX t marg) := measurable_uToX fun i => (h.marg i).round.mono_x.monotone.measurable
  obtain ⟨Pf, h1, -, h3⟩ := C38_unbiased hev (hmeas hfm) hg hb hN hs hcov point pos fuel hf s hP
  refine ⟨Pf, h1, h3.trans ?_⟩
  rw [← C74_joint h, map_measureReal_apply hmeas hfm]
  rfl

/-- The hypotheses are met, with a failure probability strictly between 0 and 1: a limit state `x` in one standard normal
variable. -/
example : ∃ (ev : Evaluator Unit 1) (t : Mats 1) (marg : Fin 1 → Marginal) (f : (Fin 1 → ℝ) → ℝ),
    Values ev (fun _ => True) f ∧ MeasurableSet {u : Fin 1 → ℝ | f (uToX t marg u) < 0} ∧
    (stdGauss 1).real {u | f (uToX t marg u) < 0} = StdNormal.cdf (-1) := by
  obtain ⟨m, hm, hr⟩ := C12_normal 0 (σ := 1) one_pos none
  have hu : m.uToX = fun u => u := by
    injection hm with hm; subst hm
    funext u
    simp [Normal.uToX]
  refine ⟨⟨fun s _ => (s, .error .valueError), fun s xs => (s, .ok (xs.map fun x => 1 + x 0))⟩, ⟨1, 1⟩, fun _ => m, fun x => 1 + x 0,
    fun s _ xs => ⟨s, rfl, trivial⟩, ?_, ?_⟩
  · simp only [uToX, hu, one_mulVec]
    exact measurableSet_lt (by fun_prop) measurable_const
  · simp only [uToX, hu, one_mulVec]
    have h := halfspace_prob (n := 1) (fun _ => -1) (by simp) (-1)
    simp only [Finset.univ_unique, Fin.default_eq_zero, Finset.sum_singleton] at h
    have hm : MeasurableSet {u : Fin 1 → ℝ | -1 + -1 * u 0 ≤ 0} := measurableSet_le (by fun_prop) measurable_const
    have e : {u : Fin 1 → ℝ | 1 + u 0 < 0} = {u : Fin 1 → ℝ | -1 + -1 * u 0 ≤ 0}ᶜ := by
      ext u
      simp only [Set.mem_compl_iff, Set.mem_setOf_eq, not_le]
      constructor <;> intro h <;> linarith
    rw [e, probReal_compl_eq_one_sub hm, h, StdNormal.cdf_neg]
    congr 2
    norm_num

end Pystra.Props
