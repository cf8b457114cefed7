import Verif.Props.NatafCorrelation
import Mathlib.Probability.Moments.MGFAnalytic

/-! C119: closed forms for normal and lognormal variables. -/

namespace Pystra.Props
open MeasureTheory ProbabilityTheory Spec Matrix Set Transformation

variable {n : ℕ}

theorem gauss_exp (s : ℝ) : Integrable (fun z => Real.exp (s * z)) (gaussianReal 0 1) ∧
    ∫ z, Real.exp (s * z) ∂(gaussianReal 0 1) = Real.exp (s ^ 2 / 2) := by
  refine ⟨integrable_exp_mul_gaussianReal s, ?_⟩
  have := congrFun (mgf_id_gaussianReal (μ := 0) (v := 1)) s
  simp only [mgf, id] at this
  rw [this]; simp

theorem gauss_mul_exp (s : ℝ) : ∫ z, z * Real.exp (s * z) ∂(gaussianReal 0 1) = s * Real.exp (s ^ 2 / 2) := by
  have h1 := hasDerivAt_mgf (X := id) (μ := gaussianReal 0 1) (t := s) (by rw [integrableExpSet_id_gaussianReal]; simp)
  rw [mgf_id_gaussianReal] at h1
  have h2 : HasDerivAt (fun t : ℝ => Real.exp (0 * t + ((1 : NNReal) : ℝ) * t ^ 2 / 2)) (s * Real.exp (s ^ 2 / 2)) s := by
    have h3 : HasDerivAt (fun t : ℝ => t ^ 2 / 2) s s := by
      have := (hasDerivAt_pow 2 s).div_const 2
      refine this.congr_deriv ?_
      simp
    have h4 := h3.exp
    rw [mul_comm] at h4
    refine h4.congr_of_eventuallyEq (Filter.Eventually.of_forall fun t => ?_)
    simp
  have := h1.unique h2
  simpa using this

theorem gauss_lin : ∫ z, z ∂(gaussianReal 0 1) = 0 ∧ ∫ z, z * z ∂(gaussianReal 0 1) = 1 := by
  refine ⟨by simpa using integral_id_gaussianReal (μ := 0) (v := 1), ?_⟩
  have h1 := variance_id_gaussianReal (μ := 0) (v := 1)
  rw [variance_eq_integral (by fun_prop)] at h1
  simp only [id_eq, integral_id_gaussianReal, sub_zero, NNReal.coe_one] at h1
  simpa only [sq] using h1

theorem mixed_const_left {g : ℝ → ℝ} (mg : Measurable g) (c : ℝ) {ρ : ℝ} (hρ : ρ ∈ Icc (-1 : ℝ) 1) :
    mixed (fun _ => c) g ρ = c * ∫ z, g z ∂(gaussianReal 0 1) := by
  have u1 := arm_unit (show (1 : ℝ) ∈ Icc (-1 : ℝ) 1 by simp)
  have uv := arm_unit hρ
  rw [← mixed_eq measurable_const mg u1 uv (arm_fst ρ ρ), integral_const_mul, ← map_dot uv,
    integral_map (dot_meas _).aemeasurable mg.aestronglyMeasurable]

theorem mixed_const_right {h : ℝ → ℝ} (c : ℝ) {ρ : ℝ} : mixed h (fun _ => c) ρ = (∫ z, h z ∂(gaussianReal 0 1)) * c := by
  unfold mixed
  rw [integral_mul_const, integral_fun_fst]
  simp

/-- The covariance is the mixed moment less the product of the means. -/
theorem mixed_center {h g : ℝ → ℝ} (mh : Measurable h) (mg : Measurable g) (hL : MemLp h 2 (gaussianReal 0 1))
    (gL : MemLp g 2 (gaussianReal 0 1)) {ρ : ℝ} (hρ : ρ ∈ Icc (-1 : ℝ) 1) :
    mixed (fun z => h z - ∫ z, h z ∂(gaussianReal 0 1)) (fun z => g z - ∫ z, g z ∂(gaussianReal 0 1)) ρ =
      mixed h g ρ - (∫ z, h z ∂(gaussianReal 0 1)) * ∫ z, g z ∂(gaussianReal 0 1) := by
  obtain ⟨a, ha⟩ : ∃ a, a = ∫ z, h z ∂(gaussianReal 0 1) := ⟨_, rfl⟩
  obtain ⟨b, hb⟩ : ∃ b, b = ∫ z, g z ∂(gaussianReal 0 1) := ⟨_, rfl⟩
  rw [← ha, ← hb]
  have i1 := mixed_integrable mh mg hL gL hρ
  have i2 := mixed_integrable (h := fun _ => a) measurable_const mg (memLp_const a) gL hρ
  have i3 := mixed_integrable (g := fun _ => b) mh measurable_const hL (memLp_const b) hρ
  have c1 := mixed_const_left mg a hρ
  have c2 := mixed_const_right (h := h) b (ρ := ρ)
  rw [← hb] at c1
  rw [← ha] at c2
  have e : mixed (fun z => h z - a) (fun z => g z - b) ρ = ((mixed h g ρ - mixed (fun _ => a) g ρ) - mixed h (fun _ => b) ρ) + a * b := by
    unfold mixed
    have j1 : Integrable (fun p : ℝ × ℝ => h p.1 * g (ρ * p.1 + √(1 - ρ ^ 2) * p.2) - a * g (ρ * p.1 + √(1 - ρ ^ 2) * p.2) - h p.1 * b)
        ((gaussianReal 0 1).prod (gaussianReal 0 1)) := (i1.sub i2).sub i3
    have j2 : Integrable (fun p : ℝ × ℝ => h p.1 * g (ρ * p.1 + √(1 - ρ ^ 2) * p.2) - a * g (ρ * p.1 + √(1 - ρ ^ 2) * p.2))
        ((gaussianReal 0 1).prod (gaussianReal 0 1)) := i1.sub i2
    rw [← integral_sub i1 i2, ← integral_sub j2 i3]
    have j3 := integral_add j1 (integrable_const (a * b))
    simp only [integral_const, probReal_univ, smul_eq_mul, one_mul] at j3
    rw [← j3]
    exact integral_congr_ae (Filter.Eventually.of_forall fun p => by ring)
  rw [e, c1, c2]; ring

section
variable {ρ : ℝ}

theorem root_sq (hρ : ρ ∈ Icc (-1 : ℝ) 1) : √(1 - ρ ^ 2) ^ 2 = 1 - ρ ^ 2 := Real.sq_sqrt (by nlinarith [hρ.1, hρ.2])

theorem mixed_exp_exp (hρ : ρ ∈ Icc (-1 : ℝ) 1) (s l s' l' : ℝ) :
    mixed (fun z => Real.exp (z * s + l)) (fun z => Real.exp (z * s' + l')) ρ =
      Real.exp (l + s ^ 2 / 2) * Real.exp (l' + s' ^ 2 / 2) * Real.exp (ρ * s * s') := by
  unfold mixed
  have e : ∀ p : ℝ × ℝ, Real.exp (p.1 * s + l) * Real.exp ((ρ * p.1 + √(1 - ρ ^ 2) * p.2) * s' + l') =
      (Real.exp (l + l') * Real.exp ((s + ρ * s') * p.1)) * Real.exp ((√(1 - ρ ^ 2) * s') * p.2) := by
    intro p
    rw [← Real.exp_add, ← Real.exp_add, ← Real.exp_add]
    congr 1; ring
  simp only [e]
  rw [integral_prod_mul (fun z => Real.exp (l + l') * Real.exp ((s + ρ * s') * z)) fun z => Real.exp ((√(1 - ρ ^ 2) * s') * z),
    integral_const_mul, (gauss_exp _).2, (gauss_exp _).2, ← Real.exp_add, ← Real.exp_add, ← Real.exp_add, ← Real.exp_add]
  congr 1
  rw [mul_pow, root_sq hρ]; ring

theorem mixed_lin_exp (hρ : ρ ∈ Icc (-1 : ℝ) 1) (s s' l' : ℝ) :
    mixed (fun z => z * s) (fun z => Real.exp (z * s' + l')) ρ = s * (ρ * s') * Real.exp (l' + s' ^ 2 / 2) := by
  unfold mixed
  have e : ∀ p : ℝ × ℝ, p.1 * s * Real.exp ((ρ * p.1 + √(1 - ρ ^ 2) * p.2) * s' + l') =
      ((s * Real.exp l') * (p.1 * Real.exp ((ρ * s') * p.1))) * Real.exp ((√(1 - ρ ^ 2) * s') * p.2) := by
    intro p
    have : (ρ * p.1 + √(1 - ρ ^ 2) * p.2) * s' + l' = l' + (ρ * s') * p.1 + (√(1 - ρ ^ 2) * s') * p.2 := by ring
    rw [this, Real.exp_add, Real.exp_add]; ring
  simp only [e]
  rw [integral_prod_mul (fun z => (s * Real.exp l') * (z * Real.exp ((ρ * s') * z))) fun z => Real.exp ((√(1 - ρ ^ 2) * s') * z),
    integral_const_mul, gauss_mul_exp, (gauss_exp _).2, mul_pow (√(1 - ρ ^ 2)), root_sq hρ]
  have : l' + s' ^ 2 / 2 = l' + (ρ * s') ^ 2 / 2 + (1 - ρ ^ 2) * s' ^ 2 / 2 := by ring
  rw [this, Real.exp_add, Real.exp_add]; ring

theorem mixed_lin_lin (s s' : ℝ) : mixed (fun z => z * s) (fun z => z * s') ρ = s * s' * ρ := by
  unfold mixed
  have e : ∀ p : ℝ × ℝ, p.1 * s * ((ρ * p.1 + √(1 - ρ ^ 2) * p.2) * s') =
      (s * s' * ρ) * (p.1 * p.1) * 1 + (s * s' * √(1 - ρ ^ 2)) * p.1 * p.2 := fun p => by ring
  simp only [e]
  have hid : Integrable (fun z : ℝ => z) (gaussianReal 0 1) := (memLp_id_gaussianReal 1).integrable le_rfl
  have hsq : Integrable (fun z : ℝ => z * z) (gaussianReal 0 1) :=
    MemLp.integrable_mul (p := 2) (q := 2) (memLp_id_gaussianReal 2) (memLp_id_gaussianReal 2)
  have h1 : Integrable (fun p : ℝ × ℝ => (s * s' * ρ) * (p.1 * p.1) * 1) ((gaussianReal 0 1).prod (gaussianReal 0 1)) :=
    (hsq.const_mul (s * s' * ρ)).mul_prod (integrable_const (1 : ℝ))
  have h2 : Integrable (fun p : ℝ × ℝ => (s * s' * √(1 - ρ ^ 2)) * p.1 * p.2) ((gaussianReal 0 1).prod (gaussianReal 0 1)) :=
    (hid.const_mul (s * s' * √(1 - ρ ^ 2))).mul_prod hid
  rw [integral_add h1 h2, integral_prod_mul (fun z : ℝ => (s * s' * ρ) * (z * z)) fun _ => (1 : ℝ),
    integral_prod_mul (fun z : ℝ => (s * s' * √(1 - ρ ^ 2)) * z) fun z => z, integral_const_mul, gauss_lin.2, gauss_lin.1]
  simp

end

/-! The marginals. -/

theorem normal_dev {μ s : ℝ} {sp : Option ℝ} {m : Marginal} (h : Normal.new μ (.fin s) sp = .ok m) (hs : 0 < s) :
    dev m = (fun z => z * s) ∧ rms m = s := by
  obtain ⟨h1, -⟩ := normal_ok h
  have hd : dev m = fun z => z * s := by
    funext z
    unfold dev
    rw [h1]
    unfold Normal.uToX
    have hid : Integrable (fun z : ℝ => z) (gaussianReal 0 1) := (memLp_id_gaussianReal 1).integrable le_rfl
    rw [integral_add (hid.mul_const s) (integrable_const μ), integral_mul_const, gauss_lin.1]
    simp
  refine ⟨hd, ?_⟩
  unfold rms
  rw [hd]
  have : ∫ z : ℝ, (z * s) ^ 2 ∂(gaussianReal 0 1) = s ^ 2 := by
    have e : ∀ z : ℝ, (z * s) ^ 2 = s ^ 2 * (z * z) := fun z => by ring
    simp only [e]
    rw [integral_const_mul, gauss_lin.2, mul_one]
  rw [this, Real.sqrt_sq hs.le]

theorem lognormal_dev {μ s : ℝ} (hμ : 0 < μ) (hs : 0 < s) {sp : Option ℝ} {m : Marginal} (h : Lognormal.new μ s false sp = .ok m) :
    m.uToX = (fun z => Real.exp (z * logDev μ s + logMean μ s)) ∧ ∫ z, m.uToX z ∂(gaussianReal 0 1) = μ ∧ rms m = s := by
  obtain ⟨m', h', hf⟩ := (C74_classes sp).2.1 μ s hμ hs
  rw [h] at h'; injection h' with h'; subst h'
  obtain ⟨m', h', hmean, hstd, -⟩ := (good_lognormal hμ hs sp).ex
  rw [h] at h'; injection h' with h'; subst h'
  have mm := hf.round.mono_x.monotone.measurable
  have hm : ∫ z, m.uToX z ∂(gaussianReal 0 1) = μ := by
    rw [← hmean, ← hf.law.mean, ← integral_densityLaw hf.law.int0.aestronglyMeasurable.aemeasurable hf.law.nonneg (fun x => x),
      ← C74_marginal hf.round hf.isOpen hf.jac hf.ratio hf.law, integral_map mm.aemeasurable (by fun_prop)]
  refine ⟨(lognormal_fields hμ hs h).2.1, hm, ?_⟩
  unfold rms dev
  rw [hm]
  have : ∫ z, (m.uToX z - μ) ^ 2 ∂(gaussianReal 0 1) = s ^ 2 := by
    have h2 := hf.law.var
    rw [hmean, hstd] at h2
    rw [← h2, ← integral_densityLaw hf.law.int0.aestronglyMeasurable.aemeasurable hf.law.nonneg (fun x => (x - μ) ^ 2),
      ← C74_marginal hf.round hf.isOpen hf.jac hf.ratio hf.law, integral_map mm.aemeasurable (by fun_prop)]
  rw [this, Real.sqrt_sq hs.le]

theorem logMean_dev {μ s : ℝ} (hμ : 0 < μ) : Real.exp (logMean μ s + logDev μ s ^ 2 / 2) = μ := by
  unfold logMean; rw [sub_add_cancel, Real.exp_log hμ]

theorem mixed_lognormal {μ s μ' s' : ℝ} (hμ : 0 < μ) (hs : 0 < s) (hμ' : 0 < μ') (hs' : 0 < s') {sp sp' : Option ℝ} {m m' : Marginal}
    (h : Lognormal.new μ s false sp = .ok m) (h' : Lognormal.new μ' s' false sp' = .ok m') {ρ : ℝ} (hρ : ρ ∈ Icc (-1 : ℝ) 1) :
    mixed (dev m) (dev m') ρ / (rms m * rms m') = (Real.exp (ρ * logDev μ s * logDev μ' s') - 1) / (s / μ * (s' / μ')) := by
  obtain ⟨f1, f2, f3⟩ := lognormal_dev hμ hs h
  obtain ⟨g1, g2, g3⟩ := lognormal_dev hμ' hs' h'
  obtain ⟨k, hk, hf⟩ := (C74_classes sp).2.1 μ s hμ hs
  rw [h] at hk; injection hk with hk; subst hk
  obtain ⟨k, hk, hg⟩ := (C74_classes sp').2.1 μ' s' hμ' hs'
  rw [h'] at hk; injection hk with hk; subst hk
  have e := mixed_center hf.round.mono_x.monotone.measurable hg.round.mono_x.monotone.measurable (uToX_memLp hf) (uToX_memLp hg) hρ
  have e' : mixed (dev m) (dev m') ρ = mixed m.uToX m'.uToX ρ - (∫ z, m.uToX z ∂(gaussianReal 0 1)) * ∫ z, m'.uToX z ∂(gaussianReal 0 1) := e
  rw [e', f2, g2, f3, g3, f1, g1, mixed_exp_exp hρ, logMean_dev hμ, logMean_dev hμ']
  have := hs.ne'; have := hs'.ne'; have := hμ.ne'; have := hμ'.ne'
  field_simp

variable {la : LinAlg} {ty : TransformType} {Ro : Matrix (Fin n) (Fin n) ℝ} {t : Mats n} {marg : Fin n → Marginal} {S : Fin n → Set ℝ}

theorem entry_mem (h : NatafSetting la ty Ro t marg S) (i j : Fin n) : Ro i j ∈ Icc (-1 : ℝ) 1 := by
  by_cases hij : i = j
  · subst hij; rw [h.diag]; simp
  · exact offdiag_mem h hij

/-- C119: two normal variables have exactly the correlation coefficient of the matrix. -/
theorem C119_normal (h : NatafSetting la ty Ro t marg S) {i j : Fin n} {μ s μ' s' : ℝ} (hs : 0 < s) (hs' : 0 < s') {sp sp' : Option ℝ}
    (hi : Normal.new μ (.fin s) sp = .ok (marg i)) (hj : Normal.new μ' (.fin s') sp' = .ok (marg j)) :
    pearson (stdGauss n) (fun u => uToX t marg u i) (fun u => uToX t marg u j) = Ro i j := by
  obtain ⟨f1, f2⟩ := normal_dev hi hs
  obtain ⟨g1, g2⟩ := normal_dev hj hs'
  rw [pearson_setting h, f1, g1, f2, g2, mixed_lin_lin]
  field_simp

/-- C119: two lognormal variables: `(exp(Ro ζ ζ') - 1) / (δ δ')`, with `ζ` the standard deviations of the logarithms and `δ` the
coefficients of variation. -/
theorem C119_lognormal (h : NatafSetting la ty Ro t marg S) {i j : Fin n} {μ s μ' s' : ℝ} (hμ : 0 < μ) (hs : 0 < s) (hμ' : 0 < μ')
    (hs' : 0 < s') {sp sp' : Option ℝ} (hi : Lognormal.new μ s false sp = .ok (marg i))
    (hj : Lognormal.new μ' s' false sp' = .ok (marg j)) :
    pearson (stdGauss n) (fun u => uToX t marg u i) (fun u => uToX t marg u j) =
      (Real.exp (Ro i j * logDev μ s * logDev μ' s') - 1) / (s / μ * (s' / μ')) := by
  rw [pearson_setting h, mixed_lognormal hμ hs hμ' hs' hi hj (entry_mem h i j)]

/-- C119: the extreme coefficients of two lognormal variables. -/
theorem C119_lognormal_range {m m' : Marginal} {μ s μ' s' : ℝ} (hμ : 0 < μ) (hs : 0 < s) (hμ' : 0 < μ')
    (hs' : 0 < s') {sp sp' : Option ℝ} (hi : Lognormal.new μ s false sp = .ok m) (hj : Lognormal.new μ' s' false sp' = .ok m') :
    highest m m' = (Real.exp (logDev μ s * logDev μ' s') - 1) / (s / μ * (s' / μ')) ∧
    lowest m m' = (Real.exp (-(logDev μ s * logDev μ' s')) - 1) / (s / μ * (s' / μ')) := by
  obtain ⟨k, hk, hf⟩ := (C74_classes sp).2.1 μ s hμ hs
  rw [hi] at hk; injection hk with hk; subst hk
  obtain ⟨k, hk, hg⟩ := (C74_classes sp').2.1 μ' s' hμ' hs'
  rw [hj] at hk; injection hk with hk; subst hk
  rw [highest_eq hf hg, lowest_eq hf hg, mixed_lognormal hμ hs hμ' hs' hi hj (by simp), mixed_lognormal hμ hs hμ' hs' hi hj (by simp)]
  refine ⟨by rw [one_mul], ?_⟩
  rw [neg_one_mul, neg_mul]

theorem pearson_comm {Ω : Type} [MeasurableSpace Ω] (P : Measure Ω) (X Y : Ω → ℝ) : pearson P X Y = pearson P Y X := by
  unfold pearson
  rw [mul_comm (√_)]
  congr 1
  exact integral_congr_ae (Filter.Eventually.of_forall fun ω => mul_comm _ _)

/-- C119: a normal and a lognormal variable: `Ro ζ / δ`, in either order. -/
theorem C119_normal_lognormal (h : NatafSetting la ty Ro t marg S) {i j : Fin n} {μ s μ' s' : ℝ} (hs : 0 < s) (hμ' : 0 < μ')
    (hs' : 0 < s') {sp sp' : Option ℝ} (hi : Normal.new μ (.fin s) sp = .ok (marg i))
    (hj : Lognormal.new μ' s' false sp' = .ok (marg j)) :
    pearson (stdGauss n) (fun u => uToX t marg u i) (fun u => uToX t marg u j) = Ro i j * logDev μ' s' / (s' / μ') ∧
    pearson (stdGauss n) (fun u => uToX t marg u j) (fun u => uToX t marg u i) = Ro i j * logDev μ' s' / (s' / μ') := by
  rw [pearson_comm _ (fun u => uToX t marg u j), and_self]
  obtain ⟨f1, f2⟩ := normal_dev hi hs
  obtain ⟨g1, g2, g3⟩ := lognormal_dev hμ' hs' hj
  have hρ := entry_mem h i j
  have hid : MemLp (fun z : ℝ => z * s) 2 (gaussianReal 0 1) := (memLp_id_gaussianReal 2).mul_const s
  have e := mixed_center (h := fun z : ℝ => z * s) (by fun_prop) (h.marg j).round.mono_x.monotone.measurable hid (uToX_memLp (h.marg j)) hρ
  have hz : ∫ z : ℝ, z * s ∂(gaussianReal 0 1) = 0 := by rw [integral_mul_const, gauss_lin.1, zero_mul]
  rw [hz] at e
  simp only [sub_zero, zero_mul] at e
  have e' : mixed (fun z => z * s) (dev (marg j)) (Ro i j) = mixed (fun z => z * s) (marg j).uToX (Ro i j) := e
  rw [pearson_setting h, f1, f2, g3, e', g1, mixed_lin_exp hρ, logMean_dev hμ']
  have := hs.ne'; have := hs'.ne'; have := hμ'.ne'
  field_simp

/-- C119: so a requested coefficient outside the range of the two distributions is never realised, whatever matrix the code
arrives at: two lognormal variables with coefficient of variation 1 always have a coefficient above -1/2 (a request of -0.9,
say, is accepted without a warning). -/
theorem C119_unreachable (h : NatafSetting la ty Ro t marg S) {i j : Fin n} (hij : i ≠ j) {μ μ' : ℝ} (hμ : 0 < μ) (hμ' : 0 < μ')
    {sp sp' : Option ℝ} (hi : Lognormal.new μ μ false sp = .ok (marg i)) (hj : Lognormal.new μ' μ' false sp' = .ok (marg j)) :
    -1 / 2 < pearson (stdGauss n) (fun u => uToX t marg u i) (fun u => uToX t marg u j) := by
  have h1 := (C119_range h hij).1
  rw [(C119_lognormal_range hμ hμ hμ' hμ' hi hj).2] at h1
  refine lt_of_le_of_lt (le_of_eq ?_) h1
  have hd : ∀ x : ℝ, 0 < x → logDev x x = √(Real.log 2) := by
    intro x hx
    unfold logDev
    rw [div_self hx.ne']; norm_num
  rw [hd μ hμ, hd μ' hμ', Real.mul_self_sqrt (Real.log_nonneg (by norm_num)), Real.exp_neg, Real.exp_log (by norm_num),
    div_self hμ.ne', div_self hμ'.ne']
  norm_num

/-- The hypotheses are met: two lognormal variables with coefficient of variation 1 and the entry -0.9. -/
example (ty : TransformType) : ∃ (la : LinAlg) (t : Mats 2) (m : Marginal), Lognormal.new 5 5 false none = .ok m ∧
    NatafSetting la ty !![1, -0.9; -0.9, 1] t ![m, m] ![Ioi 0, Ioi 0] ∧
    -1 / 2 < pearson (stdGauss 2) (fun u => uToX t ![m, m] u 0) (fun u => uToX t ![m, m] u 1) ∧
    pearson (stdGauss 2) (fun u => uToX t ![m, m] u 0) (fun u => uToX t ![m, m] u 1) < 0 := by
  obtain ⟨la, hla⟩ := linAlgOK_exists
  obtain ⟨m, hm, hf⟩ := (C74_classes none).2.1 5 5 (by norm_num) (by norm_num)
  obtain ⟨t, h⟩ := two_setting hla ty hf hf (show |(-0.9 : ℝ)| < 1 by norm_num [abs_lt])
  refine ⟨la, t, m, hm, h, C119_unreachable h (by decide) (by norm_num : (0 : ℝ) < 5) (by norm_num : (0 : ℝ) < 5) hm hm, ?_⟩
  exact (C119_sign h (i := 0) (j := 1) (by decide)).2.2.2 (by simp; norm_num)

/-- The hypotheses of the mixed case and of `C119_solvable` are met: the coefficient 1/10 lies in the range of a normal variable
and a lognormal variable. -/
example (ty : TransformType) : ∃ (la : LinAlg) (t : Mats 2) (m m' : Marginal), NatafSetting la ty !![1, 1 / 10; 1 / 10, 1] t ![m, m'] ![univ, Ioi 0] ∧
    pearson (stdGauss 2) (fun u => uToX t ![m, m'] u 0) (fun u => uToX t ![m, m'] u 1) = 1 / 10 * logDev 5 5 / (5 / 5) ∧
    lowest m m' < 1 / 10 * logDev 5 5 / (5 / 5) ∧ 1 / 10 * logDev 5 5 / (5 / 5) < highest m m' := by
  obtain ⟨la, hla⟩ := linAlgOK_exists
  obtain ⟨m, hm, hf⟩ := (C74_classes none).1 10 2 (by norm_num)
  obtain ⟨m', hm', hf'⟩ := (C74_classes none).2.1 5 5 (by norm_num) (by norm_num)
  obtain ⟨t, h⟩ := two_setting hla ty hf hf' (show |(1 / 10 : ℝ)| < 1 by norm_num [abs_lt])
  have e := (C119_normal_lognormal h (i := 0) (j := 1) (by norm_num : (0 : ℝ) < 2) (by norm_num : (0 : ℝ) < 5)
    (by norm_num : (0 : ℝ) < 5) hm hm').1
  have r := C119_range h (i := 0) (j := 1) (by decide)
  have e2 : (!![1, 1 / 10; 1 / 10, 1] : Matrix (Fin 2) (Fin 2) ℝ) 0 1 = 1 / 10 := by simp
  rw [e2] at e
  rw [e] at r
  exact ⟨la, t, m, m', h, e, r⟩

/-- The hypotheses of `C119_monotone`, `C119_joint`, `C119_solvable` and `C119_lognormal` are met: the entries 0.3 and 0.5 between the same two
lognormal variables, in models of two variables with different transformations. -/
example : ∃ (la : LinAlg) (t t' : Mats 2) (m : Marginal), NatafSetting la .cholesky !![1, 0.3; 0.3, 1] t ![m, m] ![Ioi 0, Ioi 0] ∧
    NatafSetting la .svd !![1, 0.5; 0.5, 1] t' ![m, m] ![Ioi 0, Ioi 0] ∧
    pearson (stdGauss 2) (fun u => uToX t ![m, m] u 0) (fun u => uToX t ![m, m] u 1) <
      pearson (stdGauss 2) (fun u => uToX t' ![m, m] u 0) (fun u => uToX t' ![m, m] u 1) ∧
    pearson (stdGauss 2) (fun u => uToX t ![m, m] u 0) (fun u => uToX t ![m, m] u 1) =
      (Real.exp (0.3 * logDev 5 5 * logDev 5 5) - 1) / (5 / 5 * (5 / 5)) ∧
    (stdGauss 2).real {u | uToX t ![m, m] u 0 ≤ 7 ∧ uToX t ![m, m] u 1 ≤ 8} <
      (stdGauss 2).real {u | uToX t' ![m, m] u 0 ≤ 7 ∧ uToX t' ![m, m] u 1 ≤ 8} ∧
    ∃ ρ0 : ℝ, |ρ0| < 1 ∧ (pearson (stdGauss 2) (fun u => uToX t ![m, m] u 0) (fun u => uToX t ![m, m] u 1) = 1 / 3 ↔ 0.3 = ρ0) := by
  obtain ⟨la, hla⟩ := linAlgOK_exists
  obtain ⟨m, hm, hf⟩ := (C74_classes none).2.1 5 5 (by norm_num) (by norm_num)
  obtain ⟨t, h⟩ := two_setting hla .cholesky hf hf (show |(0.3 : ℝ)| < 1 by norm_num [abs_lt])
  obtain ⟨t', h'⟩ := two_setting hla .svd hf hf (show |(0.5 : ℝ)| < 1 by norm_num [abs_lt])
  have e3 : (!![1, 0.3; 0.3, 1] : Matrix (Fin 2) (Fin 2) ℝ) 0 1 = 0.3 := by simp
  have e5 : (!![1, 0.5; 0.5, 1] : Matrix (Fin 2) (Fin 2) ℝ) 0 1 = 0.5 := by simp
  have hl := C119_lognormal h (i := 0) (j := 1) (by norm_num : (0 : ℝ) < 5) (by norm_num : (0 : ℝ) < 5) (by norm_num : (0 : ℝ) < 5)
    (by norm_num : (0 : ℝ) < 5) hm hm
  rw [e3] at hl
  have hr := C119_lognormal_range (by norm_num : (0 : ℝ) < 5) (by norm_num : (0 : ℝ) < 5) (by norm_num : (0 : ℝ) < 5)
    (by norm_num : (0 : ℝ) < 5) hm hm
  have hd : logDev 5 5 = √(Real.log 2) := by unfold logDev; norm_num
  rw [hd, Real.mul_self_sqrt (Real.log_nonneg (by norm_num)), Real.exp_neg, Real.exp_log (by norm_num)] at hr
  norm_num at hr
  obtain ⟨ρ0, h1, -, h2⟩ := C119_solvable hf hf (r := 1 / 3) (by rw [hr.2]; norm_num) (by rw [hr.1]; norm_num)
  refine ⟨la, t, t', m, h, h', (C119_monotone h h' (i := 0) (j := 1) (i' := 0) (j' := 1) (by decide) (by decide) rfl rfl).1.2 ?_, hl,
    (C119_joint h h' (i := 0) (j := 1) (i' := 0) (j' := 1) (by decide) (by decide) rfl rfl (show (7 : ℝ) ∈ Ioi 0 by norm_num)
      (show (8 : ℝ) ∈ Ioi 0 by norm_num) (show (7 : ℝ) ∈ Ioi 0 by norm_num) (show (8 : ℝ) ∈ Ioi 0 by norm_num) ?_).2.1, ρ0, h1, ?_⟩
  · rw [e3, e5]; norm_num
  · rw [e3, e5]; norm_num
  · have := h2 h (i := 0) (j := 1) (by decide) rfl rfl
    rwa [e3] at this

end Pystra.Props
