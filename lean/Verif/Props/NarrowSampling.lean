import Verif.Props.ConvergenceExample

/-! C106: importance sampling with a sampling standard deviation of at most `1/√2`. -/

namespace Pystra.Props
open MeasureTheory ProbabilityTheory Spec Matrix Transformation MonteCarlo Form Filter Topology

variable {n : ℕ} {σ : Type}

/-- The weight times the standard normal density is a product over the variables. -/
theorem weight_density {s : ℝ} (hs : 0 < s) (c x : Fin n → ℝ) :
    weight s c x * normalPdf x = ∏ i, (s / √(2 * Real.pi) *
      Real.exp ((1 / (2 * s ^ 2) - 1) * x i ^ 2 - c i / s ^ 2 * x i + c i ^ 2 / (2 * s ^ 2))) := by
  have hp : ∀ y : ℝ, StdNormal.pdf y = (√(2 * Real.pi))⁻¹ * Real.exp (-y ^ 2 / 2) := by
    intro y
    rw [StdNormal.pdf_eq_gaussian, gaussianPDFReal]
    simp
  have hn : s ^ n = ∏ _i : Fin n, s := by simp
  have he : -0.5 * (x ⬝ᵥ x) + 0.5 * ((x - c) ⬝ᵥ ((s ^ 2)⁻¹ • (x - c))) =
      ∑ i, (-(x i) ^ 2 / 2 + (x i - c i) ^ 2 / (2 * s ^ 2)) := by
    simp only [dotProduct, Finset.mul_sum, ← Finset.sum_add_distrib]
    apply Finset.sum_congr rfl
    intro i _
    simp only [Pi.sub_apply, Pi.smul_apply, smul_eq_mul]
    field_simp
    ring
  unfold weight normalPdf
  rw [he, Real.exp_sum, hn, ← Finset.prod_mul_distrib, ← Finset.prod_mul_distrib]
  refine Finset.prod_congr rfl fun i _ => ?_
  rw [hp, div_eq_mul_inv, mul_mul_mul_comm, ← Real.exp_add]
  congr 2
  field_simp
  ring

/-- A sampling density so narrow that the square of the standard normal density is not small compared with it anywhere. -/
def Narrow (s : ℝ) (c : Fin n → ℝ) : Prop := s ^ 2 < 1 / 2 ∨ s ^ 2 = 1 / 2 ∧ c = 0

theorem narrow_bound {s : ℝ} (hs : 0 < s) {c : Fin n → ℝ} (h : Narrow s c) : ∃ ε > 0, ∀ x, ε ≤ weight s c x * normalPdf x := by
  have key : ∀ i, ∃ b : ℝ, ∀ y : ℝ, b ≤ (1 / (2 * s ^ 2) - 1) * y ^ 2 - c i / s ^ 2 * y + c i ^ 2 / (2 * s ^ 2) := by
    intro i
    rcases h with h | ⟨h, rfl⟩
    · have ha : 0 < 1 / (2 * s ^ 2) - 1 := by
        rw [sub_pos, lt_div_iff₀ (by positivity)]; linarith
      obtain ⟨a, hae⟩ : ∃ a, a = 1 / (2 * s ^ 2) - 1 := ⟨_, rfl⟩
      rw [← hae] at ha ⊢
      refine ⟨-(c i / s ^ 2) ^ 2 / (4 * a) + c i ^ 2 / (2 * s ^ 2), fun y => ?_⟩
      have : a * y ^ 2 - c i / s ^ 2 * y + (c i / s ^ 2) ^ 2 / (4 * a) = a * (y - c i / s ^ 2 / (2 * a)) ^ 2 := by
        field_simp
        ring
      have h2 := mul_nonneg ha.le (sq_nonneg (y - c i / s ^ 2 / (2 * a)))
      rw [neg_div]
      linarith
    · refine ⟨0, fun y => ?_⟩
      rw [h]
      norm_num
  choose b hb using key
  refine ⟨∏ i, (s / √(2 * Real.pi) * Real.exp (b i)), Finset.prod_pos fun i _ => by positivity, fun x => ?_⟩
  rw [weight_density hs]
  refine Finset.prod_le_prod (fun i _ => by positivity) fun i _ => ?_
  exact mul_le_mul_of_nonneg_left (Real.exp_le_exp.2 (hb i (x i))) (by positivity)

/-- The second moment of a summand is infinite. -/
theorem second_infinite {s : ℝ} (hs : 0 < s) {c : Fin n → ℝ} (h : Narrow s c) {A : Set (Fin n → ℝ)} (hA : MeasurableSet A)
    (hv : volume A = ⊤) : ∫⁻ z, ENNReal.ofReal (perSample A s c z ^ 2) ∂(stdGauss n) = ⊤ := by
  obtain ⟨ε, hε, hb⟩ := narrow_bound hs h
  rw [lintegral_perSample_sq hs c hA, stdGauss_density]
  unfold densityLaw
  rw [restrict_withDensity hA, lintegral_withDensity_eq_lintegral_mul₀ normalPdf_measurable.ennreal_ofReal.aemeasurable
    (measurable_weight s c).ennreal_ofReal.aemeasurable]
  refine top_le_iff.1 (le_trans ?_ (setLIntegral_mono' (s := A) (f := fun _ => ENNReal.ofReal ε) hA fun x _ => ?_))
  · rw [setLIntegral_const, hv, ENNReal.mul_top (by simpa using hε)]
  · simp only [Pi.mul_apply]
    rw [← ENNReal.ofReal_mul (normalPdf_pos x).le, mul_comm]
    exact ENNReal.ofReal_le_ofReal (hb x)

theorem prob_pos {s : ℝ} (hs : 0 < s) {c : Fin n → ℝ} (h : Narrow s c) {A : Set (Fin n → ℝ)} (hA : MeasurableSet A)
    (hv : volume A = ⊤) : 0 < (stdGauss n).real A := by
  refine lt_of_le_of_ne measureReal_nonneg fun h0 => ?_
  have h1 := second_infinite hs h hA hv
  rw [lintegral_perSample_sq hs c hA] at h1
  have h2 : stdGauss n A = 0 := (measureReal_eq_zero_iff).1 h0.symm
  rw [Measure.restrict_eq_zero.2 h2] at h1
  simp at h1

/-- Means of squares with an infinite expectation grow without bound. -/
theorem squares_infinite {X : (Fin n → ℝ) → ℝ} (hX : Measurable X)
    (hinf : ∫⁻ z, ENNReal.ofReal (X z ^ 2) ∂(stdGauss n) = ⊤) {bs : ℕ} (hb : 1 ≤ bs) (pos : ℕ) :
    ∀ᵐ ω ∂stream,
      Tendsto (fun N : ℕ => (∑ j ∈ Finset.range N, X (blockDraw ω n bs pos j) ^ 2) / N) atTop atTop ∧
      Tendsto (fun N : ℕ => (∑ j ∈ Finset.range N, X (mcDraw ω n bs N pos j) ^ 2) / N) atTop atTop := by
  have hm : ∀ K : ℕ, Measurable (fun z => min (X z ^ 2) (K:ℝ)) := fun K => (hX.pow_const 2).min measurable_const
  have hint : ∀ K : ℕ, Integrable (fun z => min (X z ^ 2) (K:ℝ)) (stdGauss n) := fun K => by
    refine Integrable.of_bound (hm K).aestronglyMeasurable (K:ℝ) (Eventually.of_forall fun z => ?_)
    rw [Real.norm_eq_abs, abs_of_nonneg (le_min (sq_nonneg _) (Nat.cast_nonneg _))]
    exact min_le_right _ _
  have hsup : Tendsto (fun K : ℕ => ∫ z, min (X z ^ 2) (K:ℝ) ∂(stdGauss n)) atTop atTop := by
    have h1 : Tendsto (fun K : ℕ => ∫⁻ z, ENNReal.ofReal (min (X z ^ 2) (K:ℝ)) ∂(stdGauss n)) atTop (𝓝 ⊤) := by
      rw [← hinf]
      refine lintegral_tendsto_of_tendsto_of_monotone (fun K => (hm K).ennreal_ofReal.aemeasurable)
        (Eventually.of_forall fun z K L hKL => ENNReal.ofReal_le_ofReal (min_le_min_left _ (by exact_mod_cast hKL)))
        (Eventually.of_forall fun z => ?_)
      obtain ⟨K0, hK0⟩ := exists_nat_ge (X z ^ 2)
      refine tendsto_const_nhds.congr' ?_
      filter_upwards [eventually_ge_atTop K0] with K hK
      rw [min_eq_left (hK0.trans (by exact_mod_cast hK))]
    refine tendsto_atTop.2 fun b => ?_
    rw [ENNReal.tendsto_nhds_top_iff_nnreal] at h1
    filter_upwards [h1 b.toNNReal] with K hK
    have e := ofReal_integral_eq_lintegral_ofReal (hint K) (Eventually.of_forall fun z =>
      le_min (sq_nonneg (X z)) (Nat.cast_nonneg K))
    rw [← e] at hK
    by_contra hc
    exact absurd (ENNReal.ofReal_le_ofReal (not_le.1 hc).le) (not_le.2 hK)
  have hall := ae_all_iff.2 fun K : ℕ => (block_mean hb pos (hm K) (hint K)).and (mean_tendsto hb pos (hm K) (hint K))
  filter_upwards [hall] with ω hω
  constructor
  all_goals
    refine tendsto_atTop.2 fun b => ?_
    obtain ⟨K, hK⟩ := (hsup.eventually_gt_atTop b).exists
  · filter_upwards [((hω K).1).eventually_const_lt hK] with N hN
    refine hN.le.trans ?_
    gcongr
    exact min_le_left _ _
  · filter_upwards [((hω K).2).eventually_const_lt hK] with N hN
    refine hN.le.trans ?_
    rw [Fin.sum_univ_eq_sum_range (fun j => min (X (mcDraw ω n bs N pos j) ^ 2) (K:ℝ))]
    gcongr
    exact min_le_left _ _

/-- If the means of the numbers converge and those of their squares grow without bound, `√N` times the coefficient of variation of
the mean grows without bound. -/
theorem cv_infinite {S S2 : ℕ → ℝ} {m : ℝ} (hm : 0 < m) (h1 : Tendsto (fun N : ℕ => S N / N) atTop (𝓝 m))
    (h2 : Tendsto (fun N : ℕ => S2 N / N) atTop atTop) : Tendsto (fun N : ℕ => √N * cvOfMean N (S N) (S2 N)) atTop atTop := by
  have hd : Tendsto (fun N : ℕ => S2 N / N - (S N / N) ^ 2) atTop atTop := by
    simp only [sub_eq_add_neg]
    exact h2.atTop_add (h1.pow 2).neg
  have hlim : Tendsto (fun N : ℕ => √(S2 N / N - (S N / N) ^ 2) / (S N / N)) atTop atTop := by
    simp only [div_eq_mul_inv (√_)]
    exact (Real.tendsto_sqrt_atTop.comp hd).atTop_mul_pos (inv_pos.2 hm) (h1.inv₀ hm.ne')
  refine hlim.congr' ?_
  filter_upwards [h1.eventually_const_lt hm, hd.eventually_gt_atTop 0, eventually_ge_atTop 1] with N e1 e2 e3
  have hN : (0:ℝ) < N := by exact_mod_cast e3
  have hS : 0 < S N := by
    rcases div_pos_iff.1 e1 with h | h
    · exact h.1
    · exact absurd h.2 (not_lt.2 hN.le)
  have hr : 0 < √((S2 N / N - (S N / N) ^ 2) / N) / (S N / N) := div_pos (Real.sqrt_pos.2 (div_pos e2 hN)) e1
  unfold cvOfMean
  simp only [if_pos hS, if_neg hr.ne']
  rw [Real.sqrt_div' _ hN.le]
  have := Real.sqrt_pos.2 hN
  field_simp

/-- Sums of squares of numbers that grow more slowly than their index and whose means converge are small compared with the square
of their number. -/
theorem squares_small {a : ℕ → ℝ} (ha : ∀ j, 0 ≤ a j) {m : ℝ} (h1 : Tendsto (fun N : ℕ => (∑ j ∈ Finset.range N, a j) / N) atTop (𝓝 m))
    (h2 : Tendsto (fun q : ℕ => a q / q) atTop (𝓝 0)) :
    Tendsto (fun N : ℕ => (∑ j ∈ Finset.range N, a j ^ 2) / N / N) atTop (𝓝 0) := by
  have hm : 0 ≤ m := ge_of_tendsto' h1 fun N => div_nonneg (Finset.sum_nonneg fun j _ => ha j) (Nat.cast_nonneg N)
  rw [Metric.tendsto_atTop]
  intro ε hε
  obtain ⟨δ, hδ, hδε⟩ : ∃ δ : ℝ, 0 < δ ∧ δ * (m + 1) ≤ ε / 2 :=
    ⟨ε / 2 / (m + 1), by positivity, le_of_eq (div_mul_cancel₀ _ (by positivity))⟩
  obtain ⟨q0, hq0⟩ := eventually_atTop.1 (h2.eventually_lt_const hδ)
  have hq : ∀ q, max q0 1 ≤ q → a q ≤ δ * q := fun q h => by
    have hq' : (0:ℝ) < q := by exact_mod_cast (le_trans (le_max_right _ _) h : 1 ≤ q)
    exact ((div_lt_iff₀ hq').1 (hq0 q (le_trans (le_max_left _ _) h))).le
  obtain ⟨Q, hQ⟩ : ∃ Q, Q = max q0 1 := ⟨_, rfl⟩
  rw [← hQ] at hq
  have hC : Tendsto (fun N : ℕ => (∑ j ∈ Finset.range Q, a j ^ 2) / N / N) atTop (𝓝 0) := by
    have h := tendsto_const_div_atTop_nhds_zero_nat (∑ j ∈ Finset.range Q, a j ^ 2)
    have h' := h.mul (tendsto_inv_atTop_nhds_zero_nat (𝕜 := ℝ))
    simpa [div_eq_mul_inv] using h'
  obtain ⟨N1, hN1⟩ := eventually_atTop.1 ((hC.eventually_lt_const (half_pos hε)).and (h1.eventually_lt_const (lt_add_one m)))
  refine ⟨max (max N1 Q) 1, fun N hN => ?_⟩
  have hNpos : (0:ℝ) < N := by exact_mod_cast (le_trans (le_max_right _ _) hN : 1 ≤ N)
  obtain ⟨e1, e2⟩ := hN1 N (le_trans (le_trans (le_max_left _ _) (le_max_left _ _)) hN)
  have hQN : Q ≤ N := le_trans (le_trans (le_max_right _ _) (le_max_left _ _)) hN
  have h0 : 0 ≤ (∑ j ∈ Finset.range N, a j ^ 2) / N / N :=
    div_nonneg (div_nonneg (Finset.sum_nonneg fun j _ => sq_nonneg _) hNpos.le) hNpos.le
  rw [Real.dist_eq, sub_zero, abs_of_nonneg h0]
  have hsum : ∑ j ∈ Finset.range N, a j ^ 2 ≤ ∑ j ∈ Finset.range Q, a j ^ 2 + δ * N * ∑ j ∈ Finset.range N, a j := by
    have hsplit := Finset.sum_range_add_sum_Ico (fun j => a j ^ 2) hQN
    rw [← hsplit]
    refine add_le_add le_rfl ?_
    have h3 : ∑ j ∈ Finset.Ico Q N, a j ^ 2 ≤ ∑ j ∈ Finset.Ico Q N, δ * N * a j := by
      refine Finset.sum_le_sum fun j hj => ?_
      obtain ⟨hj1, hj2⟩ := Finset.mem_Ico.1 hj
      have h4 : a j ≤ δ * N := (hq j hj1).trans (mul_le_mul_of_nonneg_left (by exact_mod_cast hj2.le) hδ.le)
      rw [sq]
      exact mul_le_mul_of_nonneg_right h4 (ha j)
    refine h3.trans ?_
    rw [← Finset.mul_sum]
    refine mul_le_mul_of_nonneg_left ?_ (by positivity)
    refine Finset.sum_le_sum_of_subset_of_nonneg (fun j hj => ?_) fun j _ _ => ha j
    exact Finset.mem_range.2 (Finset.mem_Ico.1 hj).2
  calc (∑ j ∈ Finset.range N, a j ^ 2) / N / N
      ≤ (∑ j ∈ Finset.range Q, a j ^ 2 + δ * N * ∑ j ∈ Finset.range N, a j) / N / N := by gcongr
    _ = (∑ j ∈ Finset.range Q, a j ^ 2) / N / N + δ * ((∑ j ∈ Finset.range N, a j) / N) := by field_simp
    _ < ε / 2 + δ * (m + 1) := by
        have := mul_lt_mul_of_pos_left e2 hδ
        linarith
    _ ≤ ε := by linarith

variable {t : Mats n} {marg : Fin n → Marginal} {ev : Evaluator σ n} {P : σ → Prop} {f : (Fin n → ℝ) → ℝ}

/-- **C106** (variance).  If the failure region has infinite volume in standard normal space and the sampling density is narrow
(standard deviation below `1/√2`, or `1/√2` at the origin), the reported `Pf` of a simulation of any fixed length has the right
expectation, but infinite mean square. -/
theorem C106_variance {opt : MonteCarlo.Options} (hev : Values ev P f) (hA : MeasurableSet {u : Fin n → ℝ | f (uToX t marg u) < 0})
    (hv : volume {u : Fin n → ℝ | f (uToX t marg u) < 0} = ⊤) (hg : opt.randomGenerator = 0) (hb : 1 ≤ opt.blockSize)
    (hN : 1 ≤ opt.samples) (hs : 0 < opt.stdv) (hcov : opt.cov ≤ 0) (point : Option (Fin n → ℝ))
    (hnar : opt.stdv ^ 2 < 1 / 2 ∨ opt.stdv ^ 2 = 1 / 2 ∧ point = none) (pos fuel : ℕ) (hf : opt.samples ≤ fuel) (s : σ) (hP : P s) :
    ∃ Pf : (ℕ → ℝ) → ℝ,
      (∀ ω, ∃ r, MonteCarlo.run t marg ev opt point ω pos fuel s = some (.ok r) ∧ r.st.k = opt.samples ∧ r.Pf = Pf ω) ∧
      ∫ ω, Pf ω ∂stream = (stdGauss n).real {u | f (uToX t marg u) < 0} ∧
      ∫⁻ ω, ENNReal.ofReal (Pf ω ^ 2) ∂stream = ⊤ := by
  obtain ⟨c, hc⟩ : ∃ c, c = point.getD fun _ => (0:ℝ) := ⟨_, rfl⟩
  have hn : Narrow opt.stdv c := by
    rcases hnar with h | ⟨h, rfl⟩
    · exact .inl h
    · exact .inr ⟨h, hc⟩
  obtain ⟨Pf, h1, -, h3⟩ := C38_unbiased hev hA hg hb hN hs hcov point pos fuel hf s hP
  have e : ∀ ω, Pf ω = (∑ j : Fin opt.samples, perSample {u | f (uToX t marg u) < 0} opt.stdv c
      (mcDraw ω n opt.blockSize opt.samples pos j)) / opt.samples := by
    intro ω
    obtain ⟨r, hr, -, hq⟩ := h1 ω
    obtain ⟨r', hr', -, hq'⟩ := run_perSample (t := t) (marg := marg) hev hg hb hN hs hcov point ω pos fuel hf s hP
    rw [hr] at hr'
    cases hr'
    rw [← hq, hq', ← hc]
  refine ⟨Pf, h1, h3, ?_⟩
  obtain ⟨X, hX⟩ : ∃ X, X = perSample {u | f (uToX t marg u) < 0} opt.stdv c := ⟨_, rfl⟩
  have hXm : Measurable X := by rw [hX]; exact measurable_perSample hA _ _
  have hX0 : ∀ z, 0 ≤ X z := fun z => by
    rw [hX]; exact Set.indicator_nonneg (fun u _ => weight_nonneg hs c u) _
  have hinf := second_infinite hs hn hA hv
  rw [← hX] at hinf
  have hdm : Measurable (fun ω => mcDraw ω n opt.blockSize opt.samples pos ((⟨0, hN⟩ : Fin opt.samples) : ℕ)) :=
    (measurable_pi_apply (⟨0, hN⟩ : Fin opt.samples)).comp (measurable_mcDraws opt.blockSize opt.samples pos)
  rw [← sample_law hb pos (⟨0, hN⟩ : Fin opt.samples), lintegral_map (hXm.pow_const 2).ennreal_ofReal hdm] at hinf
  have hNpos : (0:ℝ) < opt.samples := by exact_mod_cast hN
  have hle : ∀ ω, ENNReal.ofReal ((1 / opt.samples) ^ 2) * ENNReal.ofReal (X (mcDraw ω n opt.blockSize opt.samples pos 0) ^ 2) ≤
      ENNReal.ofReal (Pf ω ^ 2) := by
    intro ω
    rw [← ENNReal.ofReal_mul (by positivity)]
    refine ENNReal.ofReal_le_ofReal ?_
    rw [e, ← hX, ← mul_pow]
    refine pow_le_pow_left₀ (mul_nonneg (by positivity) (hX0 _)) ?_ 2
    rw [one_div, inv_mul_eq_div]
    refine div_le_div_of_nonneg_right ?_ hNpos.le
    exact Finset.single_le_sum (f := fun j : Fin opt.samples => X (mcDraw ω n opt.blockSize opt.samples pos j))
      (fun j _ => hX0 _) (Finset.mem_univ (⟨0, hN⟩ : Fin opt.samples))
  refine top_le_iff.1 (le_trans ?_ (lintegral_mono hle))
  rw [lintegral_const_mul' _ _ ENNReal.ofReal_ne_top]
  have h0 : ENNReal.ofReal ((1 / (opt.samples:ℝ)) ^ 2) ≠ 0 := by
    rw [Ne, ENNReal.ofReal_eq_zero, not_le]; positivity
  have hinf' : ∫⁻ ω, ENNReal.ofReal (X (mcDraw ω n opt.blockSize opt.samples pos 0) ^ 2) ∂stream = ⊤ := hinf
  rw [hinf', ENNReal.mul_top h0]

/-- **C106** (reported coefficient of variation).  In the same situation, for almost every stream, `√N` times the reported coefficient
of variation of a simulation with `N` samples grows without bound: it does not decrease at the rate `1/√N`. -/
theorem C106_cov (hev : Values ev P f) (hA : MeasurableSet {u : Fin n → ℝ | f (uToX t marg u) < 0})
    (hv : volume {u : Fin n → ℝ | f (uToX t marg u) < 0} = ⊤) (bs : ℕ) (hb : 1 ≤ bs) (stdv : ℝ) (hs : 0 < stdv)
    (cov : ℝ) (hcov : cov ≤ 0) (point : Option (Fin n → ℝ)) (hnar : stdv ^ 2 < 1 / 2 ∨ stdv ^ 2 = 1 / 2 ∧ point = none)
    (pos : ℕ) (s : σ) (hP : P s) :
    ∃ cv : (ℕ → ℝ) → ℕ → ℝ,
      (∀ ω N fuel, 1 ≤ N → N ≤ fuel → ∃ r, MonteCarlo.run t marg ev ⟨N, bs, stdv, cov, 0⟩ point ω pos fuel s = some (.ok r) ∧
        r.st.covQBar = cv ω N) ∧
      ∀ᵐ ω ∂stream, Tendsto (fun N : ℕ => √N * cv ω N) atTop atTop := by
  obtain ⟨c, hc⟩ : ∃ c, c = point.getD fun _ => (0:ℝ) := ⟨_, rfl⟩
  have hn : Narrow stdv c := by
    rcases hnar with h | ⟨h, rfl⟩
    · exact .inl h
    · exact .inr ⟨h, hc⟩
  obtain ⟨X, hX⟩ : ∃ X, X = perSample {u | f (uToX t marg u) < 0} stdv c := ⟨_, rfl⟩
  have hXm : Measurable X := by rw [hX]; exact measurable_perSample hA _ _
  refine ⟨fun ω N => cvOfMean N (∑ j ∈ Finset.range N, X (mcDraw ω n bs N pos j))
    (∑ j ∈ Finset.range N, X (mcDraw ω n bs N pos j) ^ 2), fun ω N fuel hN hf => ?_, ?_⟩
  · obtain ⟨r, hr, -, -, -, -, -, -, hq, hst, -⟩ := C37_run (t := t) (marg := marg) hev (opt := ⟨N, bs, stdv, cov, 0⟩) rfl hb
      hN hs point ω pos fuel hf s hP
    refine ⟨r, hr, ?_⟩
    have hk : r.st.k = N := by
      rcases hst with h | ⟨-, h⟩
      · exact h
      · rw [hq] at h
        exact absurd (h.trans hcov) (not_le.2 (cvOfMean_pos _ _ _))
    rw [hq, hk]
    have e : ∀ j, summand t marg f ⟨N, bs, stdv, cov, 0⟩ (point.getD fun _ => 0) ω pos j = X (mcDraw ω n bs N pos j) := fun j => by
      rw [hX, hc]
      exact summand_perSample (opt := ⟨N, bs, stdv, cov, 0⟩) hs _ ω pos j
    simp only [e]
  · have hinf := second_infinite hs hn hA hv
    rw [← hX] at hinf
    filter_upwards [means_tendsto hA hs hb c pos, squares_infinite hXm hinf hb pos] with ω h1 h2
    rw [← hX] at h1
    exact cv_infinite (prob_pos hs hn hA hv) h1.2 h2.2

/-- **C106** (stopping).  In the same situation a simulation with a positive target coefficient of variation nevertheless stops, for
almost every stream, after a number of samples that does not depend on the number requested, and reports a coefficient of
variation within the target, although that of its estimate is infinite. -/
theorem C106_stops (hev : Values ev P f) (hA : MeasurableSet {u : Fin n → ℝ | f (uToX t marg u) < 0})
    (hv : volume {u : Fin n → ℝ | f (uToX t marg u) < 0} = ⊤) (bs : ℕ) (hb : 1 ≤ bs) (stdv : ℝ) (hs : 0 < stdv)
    (cov : ℝ) (hcov : 0 < cov) (point : Option (Fin n → ℝ)) (hnar : stdv ^ 2 < 1 / 2 ∨ stdv ^ 2 = 1 / 2 ∧ point = none)
    (pos : ℕ) (s : σ) (hP : P s) :
    ∀ᵐ ω ∂stream, ∃ K, ∀ N fuel, K < N → N ≤ fuel →
      ∃ r, MonteCarlo.run t marg ev ⟨N, bs, stdv, cov, 0⟩ point ω pos fuel s = some (.ok r) ∧ r.st.k ≤ K ∧ r.st.covQBar ≤ cov := by
  obtain ⟨c, hc⟩ : ∃ c, c = point.getD fun _ => (0:ℝ) := ⟨_, rfl⟩
  have hn : Narrow stdv c := by
    rcases hnar with h | ⟨h, rfl⟩
    · exact .inl h
    · exact .inr ⟨h, hc⟩
  obtain ⟨X, hX⟩ : ∃ X, X = perSample {u | f (uToX t marg u) < 0} stdv c := ⟨_, rfl⟩
  have hXm : Measurable X := by rw [hX]; exact measurable_perSample hA _ _
  have hX0 : ∀ z, 0 ≤ X z := fun z => by
    rw [hX]; exact Set.indicator_nonneg (fun u _ => weight_nonneg hs c u) _
  have hint : Integrable X (stdGauss n) := by rw [hX]; exact (integral_weighted hs c hA).1
  have hinf := second_infinite hs hn hA hv
  rw [← hX] at hinf
  have hp := prob_pos hs hn hA hv
  filter_upwards [means_tendsto hA hs hb c pos, squares_infinite hXm hinf hb pos,
    div_tendsto_zero (μ := stream) (fun q => measurable_blockDraw (n := n) bs pos q) (fun q => blockDraw_law hb pos q) hXm hint]
    with ω h1 h2 h3
  rw [← hX] at h1
  have h4 := squares_small (a := fun j => X (blockDraw ω n bs pos j)) (fun j => hX0 _) h1.1
    (h3.congr fun q => by rw [abs_of_nonneg (hX0 _)])
  have hd : Tendsto (fun N : ℕ => (∑ j ∈ Finset.range N, X (blockDraw ω n bs pos j) ^ 2) / N -
      ((∑ j ∈ Finset.range N, X (blockDraw ω n bs pos j)) / N) ^ 2) atTop atTop := by
    simp only [sub_eq_add_neg]
    exact h2.1.atTop_add (h1.1.pow 2).neg
  have hev' : ∀ᶠ N : ℕ in atTop, cvOfMean N (∑ j ∈ Finset.range N, X (blockDraw ω n bs pos j))
      (∑ j ∈ Finset.range N, X (blockDraw ω n bs pos j) ^ 2) < cov := by
    have hlim : Tendsto (fun N : ℕ => √((∑ j ∈ Finset.range N, X (blockDraw ω n bs pos j) ^ 2) / N / N) /
        ((∑ j ∈ Finset.range N, X (blockDraw ω n bs pos j)) / N)) atTop (𝓝 0) := by
      have := h4.sqrt.div h1.1 hp.ne'
      rw [Real.sqrt_zero, zero_div] at this
      exact this
    filter_upwards [hlim.eventually_lt_const hcov, h1.1.eventually_const_lt hp, hd.eventually_gt_atTop 0,
      eventually_ge_atTop 1] with N e0 e1 e2 e3
    have hN : (0:ℝ) < N := by exact_mod_cast e3
    have hS : 0 < ∑ j ∈ Finset.range N, X (blockDraw ω n bs pos j) := by
      rcases div_pos_iff.1 e1 with h | h
      · exact h.1
      · exact absurd h.2 (not_lt.2 hN.le)
    have hr := div_pos (Real.sqrt_pos.2 (div_pos e2 hN)) e1
    unfold cvOfMean
    simp only [if_pos hS, if_neg hr.ne']
    refine lt_of_le_of_lt ?_ e0
    refine div_le_div_of_nonneg_right (Real.sqrt_le_sqrt ?_) e1.le
    refine div_le_div_of_nonneg_right ?_ hN.le
    exact sub_le_self _ (sq_nonneg _)
  obtain ⟨M, hM⟩ := eventually_atTop.1 hev'
  refine ⟨(M + 1) * bs, fun N fuel hN hf => ?_⟩
  obtain ⟨r, hr, -, hkN, -, -, -, -, hq, hst, hall⟩ := C37_run (t := t) (marg := marg) hev (opt := ⟨N, bs, stdv, cov, 0⟩) rfl hb
    (by simp only; omega) hs point ω pos fuel hf s hP
  have hk : r.st.k ≤ (M + 1) * bs := by
    by_contra hlt
    push Not at hlt
    have h3 := hall (M + 1) (by omega) hlt
    simp only at h3 hkN
    have hle : (M + 1) * bs ≤ N := by omega
    have hd : bs ∣ (M + 1) * bs := dvd_mul_left _ _
    have e1 := sum_whole (t := t) (marg := marg) (f := f) (opt := ⟨N, bs, stdv, cov, 0⟩) hs hb c ω pos (fun x => x) hle hd
    have e2 := sum_whole (t := t) (marg := marg) (f := f) (opt := ⟨N, bs, stdv, cov, 0⟩) hs hb c ω pos (fun x => x ^ 2) hle hd
    simp only at e1 e2
    rw [← hc, e1, e2, ← hX] at h3
    have h4 := hM ((M + 1) * bs) (by nlinarith)
    exact absurd h3 (not_lt.2 h4.le)
  refine ⟨r, hr, hk, ?_⟩
  rcases hst with h | ⟨-, h⟩
  · simp only at h; omega
  · exact h

/-- A half-space has infinite volume; so has every failure region that contains one. -/
theorem halfspace_volume {w : Fin n → ℝ} (hw : w ≠ 0) (b : ℝ) : volume {u : Fin n → ℝ | b < w ⬝ᵥ u} = ⊤ := by
  obtain ⟨i, hi⟩ := Function.ne_iff.1 hw
  rw [Pi.zero_apply] at hi
  obtain ⟨B, hB⟩ : ∃ B, B = |b| + ∑ j, |w j| := ⟨_, rfl⟩
  obtain ⟨T, hT⟩ : ∃ T : Set ℝ, T = {y | B < w i * y} := ⟨_, rfl⟩
  have hTv : volume T = ⊤ := by
    rcases lt_or_gt_of_ne hi with h | h
    · have : T = Set.Iio (B / w i) := by
        ext y; rw [hT, Set.mem_setOf_eq, Set.mem_Iio, lt_div_iff_of_neg h, mul_comm]
      rw [this, Real.volume_Iio]
    · have : T = Set.Ioi (B / w i) := by
        ext y; rw [hT, Set.mem_setOf_eq, Set.mem_Ioi, div_lt_iff₀ h, mul_comm]
      rw [this, Real.volume_Ioi]
  have hsub : Set.pi Set.univ (Function.update (fun _ : Fin n => Set.Icc (0:ℝ) 1) i T) ⊆ {u : Fin n → ℝ | b < w ⬝ᵥ u} := by
    intro u hu
    have h1 : u i ∈ T := by have := hu i (Set.mem_univ i); rwa [Function.update_self] at this
    have h2 : ∀ j, j ≠ i → u j ∈ Set.Icc (0:ℝ) 1 := fun j hj => by
      have := hu j (Set.mem_univ j); rwa [Function.update_of_ne hj] at this
    rw [hT, Set.mem_setOf_eq] at h1
    rw [Set.mem_setOf_eq, dotProduct, ← Finset.add_sum_erase _ _ (Finset.mem_univ i)]
    have h3 : -(∑ j, |w j|) ≤ ∑ j ∈ Finset.univ.erase i, w j * u j := by
      have h4 : ∑ j ∈ Finset.univ.erase i, -|w j| ≤ ∑ j ∈ Finset.univ.erase i, w j * u j := by
        refine Finset.sum_le_sum fun j hj => ?_
        obtain ⟨h5, h6⟩ := h2 j (Finset.ne_of_mem_erase hj)
        have h7 : |w j * u j| ≤ |w j| := by
          rw [abs_mul, abs_of_nonneg h5]
          exact mul_le_of_le_one_right (abs_nonneg _) h6
        exact (neg_le_neg h7).trans (neg_abs_le _)
      refine le_trans ?_ h4
      rw [Finset.sum_neg_distrib, neg_le_neg_iff]
      exact Finset.sum_le_sum_of_subset_of_nonneg (Finset.erase_subset _ _) fun j _ _ => abs_nonneg _
    have := le_abs_self b
    linarith
  refine top_le_iff.1 (le_trans ?_ (measure_mono hsub))
  rw [volume_pi_pi, ← Finset.mul_prod_erase _ _ (Finset.mem_univ i), Function.update_self, hTv,
    Finset.prod_congr rfl (g := fun _ => (1 : ENNReal)) fun j hj => ?_]
  · simp
  · rw [Function.update_of_ne (Finset.ne_of_mem_erase hj)]
    simp

/-- The hypotheses of C106 are met: two standard normal variables, failure where `x₀ + x₁ > 3`, sampling around the design point with
standard deviation 1/2. -/
example : ∃ m : Marginal, Normal.new 0 (.fin 1) none = .ok m ∧
    (∀ N, 1 ≤ N → ∃ Pf : (ℕ → ℝ) → ℝ,
      (∀ ω, ∃ r, MonteCarlo.run (n := 2) ⟨1, 1⟩ (fun _ => m) (plainEv fun x => 3 - x 0 - x 1) ⟨N, 100, 1 / 2, 0, 0⟩
        (some fun _ => 3 / 2) ω 0 N () = some (.ok r) ∧ r.st.k = N ∧ r.Pf = Pf ω) ∧
      ∫ ω, Pf ω ∂stream = (stdGauss 2).real {u | 3 - u 0 - u 1 < 0} ∧ ∫⁻ ω, ENNReal.ofReal (Pf ω ^ 2) ∂stream = ⊤) ∧
    ∀ᵐ ω ∂stream, ∃ K, ∀ N fuel, K < N → N ≤ fuel →
      ∃ r, MonteCarlo.run (n := 2) ⟨1, 1⟩ (fun _ => m) (plainEv fun x => 3 - x 0 - x 1) ⟨N, 100, 1 / 2, 0.05, 0⟩
        (some fun _ => 3 / 2) ω 0 fuel () = some (.ok r) ∧ r.st.k ≤ K ∧ r.st.covQBar ≤ 0.05 := by
  obtain ⟨m, hm⟩ : ∃ m, Normal.new 0 (.fin (1 : ℝ)) none = .ok m := ⟨_, rfl⟩
  have hux : ∀ u : Fin 2 → ℝ, uToX (n := 2) ⟨1, 1⟩ (fun _ => m) u = u := by
    intro u; funext i; simp [uToX, (normal_ok hm).1, Normal.uToX]
  have hA : MeasurableSet {u : Fin 2 → ℝ | (fun x : Fin 2 → ℝ => 3 - x 0 - x 1) (uToX (n := 2) ⟨1, 1⟩ (fun _ => m) u) < 0} := by
    simp only [hux]; exact measurableSet_lt (by fun_prop) measurable_const
  have hv : volume {u : Fin 2 → ℝ | (fun x : Fin 2 → ℝ => 3 - x 0 - x 1) (uToX (n := 2) ⟨1, 1⟩ (fun _ => m) u) < 0} = ⊤ := by
    have h := halfspace_volume (w := fun _ : Fin 2 => (1:ℝ)) (fun h => one_ne_zero (congrFun h 0)) 3
    refine Eq.trans ?_ h
    congr 1
    ext u
    simp only [hux, Set.mem_setOf_eq, dotProduct, Fin.sum_univ_two, one_mul]
    constructor <;> intro h <;> linarith
  refine ⟨m, hm, fun N hN => ?_, ?_⟩
  · have h := C106_variance (t := ⟨1, 1⟩) (marg := fun _ => m) (opt := ⟨N, 100, 1 / 2, 0, 0⟩) (plainEv_values fun x : Fin 2 → ℝ => 3 - x 0 - x 1) hA hv rfl (by norm_num)
      hN (by norm_num) le_rfl (some fun _ => 3 / 2) (.inl (by norm_num)) 0 N le_rfl () trivial
    simp only [hux] at h
    exact h
  · exact C106_stops (t := ⟨1, 1⟩) (marg := fun _ => m) (plainEv_values fun x : Fin 2 → ℝ => 3 - x 0 - x 1) hA hv 100 (by norm_num) (1 / 2) (by norm_num) 0.05 (by norm_num)
      (some fun _ => 3 / 2) (.inl (by norm_num)) 0 () trivial

end Pystra.Props
