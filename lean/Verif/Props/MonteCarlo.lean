import Verif.Lemmas.ImportanceSampling
import Verif.Props.FormLinear
import Verif.Props.FormCalls
import Mathlib.Probability.Moments.Variance

/-! C36–C39: crude Monte Carlo, importance sampling, distribution analysis. -/

namespace Pystra.Props
open Spec Transformation Form MonteCarlo MeasureTheory ProbabilityTheory

variable {σ : Type} {n : ℕ}

/-- The value added by sample `j` to the sum behind `Pf`: the ratio of the standard normal density to the sampling
density at the sampled point if the limit state is negative there, 0 otherwise. -/
noncomputable def summand (t : Mats n) (marg : Fin n → Marginal) (f : (Fin n → ℝ) → ℝ) (opt : MonteCarlo.Options) (c : Fin n → ℝ)
    (ω : ℕ → ℝ) (pos j : ℕ) : ℝ :=
  let u := mcSample opt.stdv c ω opt.blockSize opt.samples pos j
  open Classical in
  if f (uToX t marg u) < 0 then normalDensity (fun _ => 0) 1 u / normalDensity c opt.stdv u else 0

theorem term_eq {t : Mats n} {marg : Fin n → Marginal} {f : (Fin n → ℝ) → ℝ} {opt : MonteCarlo.Options} (hs : 0 < opt.stdv)
    {c : Fin n → ℝ} {ω : ℕ → ℝ} {pos j : ℕ} :
    term t marg opt c ω pos f j = summand t marg f opt c ω pos j := by
  unfold term summand indicator sampleU
  rw [weight_eq hs]
  simp only
  split_ifs <;> simp

theorem summand_nonneg {t : Mats n} {marg : Fin n → Marginal} {f : (Fin n → ℝ) → ℝ} {opt : MonteCarlo.Options}
    (hs : 0 < opt.stdv) {c : Fin n → ℝ} {ω : ℕ → ℝ} {pos j : ℕ} : 0 ≤ summand t marg f opt c ω pos j := by
  unfold summand
  simp only
  split_ifs
  · exact (div_pos (normalDensity_pos _ one_pos _) (normalDensity_pos _ hs _)).le
  · exact le_rfl

/-- C36/C37/C38, the whole `CrudeMonteCarlo.run()` / `ImportanceSampling.run()`: it finishes; `Pf` is the mean of the
summands over the `k` evaluated samples; `beta` is the matching index; the reported coefficient of variation is that of
the mean; `k` is the requested number or a whole number of blocks after which the coefficient of variation was at or
below the target, and at every earlier block boundary it was above the target. -/
theorem C37_run {t : Mats n} {marg : Fin n → Marginal} {ev : Evaluator σ n} {P : σ → Prop} {f : (Fin n → ℝ) → ℝ}
    (hev : Values ev P f) {opt : MonteCarlo.Options} (hg : opt.randomGenerator = 0) (hb : 1 ≤ opt.blockSize)
    (hN : 1 ≤ opt.samples) (hs : 0 < opt.stdv) (point : Option (Fin n → ℝ)) (ω : ℕ → ℝ) (pos fuel : ℕ)
    (hf : opt.samples ≤ fuel) (s : σ) (hP : P s) :
    let c := point.getD (fun _ => 0)
    let q := summand t marg f opt c ω pos
    let S := fun k => ∑ j ∈ Finset.range k, q j
    let S2 := fun k => ∑ j ∈ Finset.range k, q j ^ 2
    ∃ r, MonteCarlo.run t marg ev opt point ω pos fuel s = some (.ok r) ∧
      1 ≤ r.st.k ∧ r.st.k ≤ opt.samples ∧
      r.Pf = S r.st.k / r.st.k ∧
      (S r.st.k = 0 → r.beta = .fin 0) ∧
      (0 < r.Pf → r.Pf < 1 → ∃ b, r.beta = .fin b ∧ StdNormal.cdf (-b) = r.Pf) ∧
      (1 ≤ r.Pf → r.beta = .nonfinite) ∧
      r.st.covQBar = cvOfMean r.st.k (S r.st.k) (S2 r.st.k) ∧
      (r.st.k = opt.samples ∨ opt.blockSize ∣ r.st.k ∧ r.st.covQBar ≤ opt.cov) ∧
      (∀ m, 1 ≤ m → m * opt.blockSize < r.st.k →
        opt.cov < cvOfMean (m * opt.blockSize) (S (m * opt.blockSize)) (S2 (m * opt.blockSize))) := by
  intro c q S S2
  have hterm : ∀ j, term t marg opt c ω pos f j = q j := fun j => term_eq hs
  obtain ⟨st, hl, hi, -, h0, -, hq, hc, hst, hall⟩ := loop_spec (pos := pos) (ω := ω) (point := c) (t := t) (marg := marg)
    hev hg hb hN (Q := fun _ _ => True) (fun _ _ _ _ _ _ _ => trivial) fuel ⟨0, pos, 0, 0, 0, 1, .none, .none, [], [], s⟩
    ⟨hP, Nat.zero_le _, Or.inr (dvd_zero _), by simp, by simp, by simp, Or.inl ⟨rfl, rfl, rfl⟩, rfl, rfl⟩ trivial hf
    (fun h => absurd h (lt_irrefl _))
  have hS : st.sumQ = S st.k := by rw [hi.sumQ]; exact Finset.sum_congr rfl fun j _ => hterm j
  have hS2 : st.sumQ2 = S2 st.k := by rw [hi.sumQ2]; exact Finset.sum_congr rfl fun j _ => by rw [hterm j]
  have hnn : 0 ≤ S st.k := Finset.sum_nonneg fun j _ => summand_nonneg hs
  refine ⟨finish st, ?_, h0, hi.kle, ?_, ?_, ?_, ?_, ?_, ?_, ?_⟩
  · unfold MonteCarlo.run runOn Records.fresh
    simp only [if_neg hs.ne', if_neg (show opt.samples ≠ 0 by omega)]
    rw [show point.getD (fun _ => 0) = c from rfl, hl]
  · change (if st.sumQ > 0 then st.qBar else 0) = _
    rw [hq, hS]
    by_cases h : 0 < S st.k
    · rw [if_pos h, if_pos h]; rfl
    · rw [if_neg h]
      change 0 = S st.k / st.k
      rw [le_antisymm (not_lt.1 h) hnn, zero_div]
  · intro h
    unfold finish
    simp only [hS]
    rw [if_neg]
    rw [show S st.k = 0 from h]; exact lt_irrefl 0
  · intro h1 h2
    have hpos : st.sumQ > 0 := by
      by_contra hn
      have : (finish st).Pf = 0 := if_neg hn
      rw [this] at h1; exact lt_irrefl _ h1
    refine ⟨-StdNormal.ppf (finish st).Pf, ?_, ?_⟩
    · have : (finish st).Pf = st.qBar := if_pos hpos
      rw [this] at h2 ⊢
      unfold finish
      simp only [if_pos hpos]
      rw [if_pos h2]
    · rw [neg_neg, StdNormal.cdf_ppf h1 h2]
  · intro h1
    have hpos : st.sumQ > 0 := by
      by_contra hn
      have : (finish st).Pf = 0 := if_neg hn
      rw [this] at h1; linarith
    have : (finish st).Pf = st.qBar := if_pos hpos
    rw [this] at h1
    unfold finish
    simp only [if_pos hpos]
    rw [if_neg (not_lt.2 h1)]
  · change st.covQBar = _
    rw [hc, hS, hS2]; rfl
  · change st.k = _ ∨ opt.blockSize ∣ st.k ∧ _
    rcases hst with h | h
    · exact Or.inl h
    · rcases hi.whole with hw | hw
      · exact Or.inl hw
      · exact Or.inr ⟨hw, h⟩
  · intro m hm hlt
    have := hall m (by change 0 < _; exact Nat.mul_pos hm hb) hlt
    simp only [hterm] at this
    exact this

/-- C36: crude Monte Carlo (unit standard deviation, no centre given). -/
theorem C36_crude {t : Mats n} {marg : Fin n → Marginal} {ev : Evaluator σ n} {P : σ → Prop} {f : (Fin n → ℝ) → ℝ}
    (hev : Values ev P f) {opt : MonteCarlo.Options} (hg : opt.randomGenerator = 0) (hb : 1 ≤ opt.blockSize)
    (hN : 1 ≤ opt.samples) (hs : opt.stdv = 1) (ω : ℕ → ℝ) (pos fuel : ℕ) (hf : opt.samples ≤ fuel) (s : σ) (hP : P s) :
    ∃ r, MonteCarlo.run t marg ev opt none ω pos fuel s = some (.ok r) ∧
      let k := r.st.k
      let fails := Set.ncard {j | j < k ∧ f (uToX t marg (mcDraw ω n opt.blockSize opt.samples pos j)) < 0}
      1 ≤ k ∧ k ≤ opt.samples ∧ fails ≤ k ∧ r.Pf = fails / k ∧ 0 ≤ r.Pf ∧ r.Pf ≤ 1 ∧
      (fails = 0 → r.Pf = 0 ∧ r.beta = .fin 0 ∧ r.st.covQBar = 1) ∧
      (0 < fails → fails < k → r.st.covQBar = √((1 - r.Pf) / (k * r.Pf)) ∧
        ∃ b, r.beta = .fin b ∧ StdNormal.cdf (-b) = r.Pf) ∧
      (fails = k → r.Pf = 1 ∧ r.beta = .nonfinite ∧ r.st.covQBar = 1) := by
  obtain ⟨r, h1, h2, h3, h4, h5, h6, h7, h8, -⟩ := C37_run (t := t) (marg := marg) hev hg hb hN (by rw [hs]; exact one_pos)
    none ω pos fuel hf s hP
  refine ⟨r, h1, ?_⟩
  intro k fails
  classical
  set F : Finset ℕ := (Finset.range k).filter (fun j => f (uToX t marg (mcDraw ω n opt.blockSize opt.samples pos j)) < 0)
    with hF
  have hcard : fails = F.card := by
    rw [← Set.ncard_coe_finset]
    change Set.ncard _ = Set.ncard _
    congr 1
    ext j
    simp [hF]
  have hq : ∀ j, summand t marg f opt ((none : Option (Fin n → ℝ)).getD (fun _ => 0)) ω pos j =
      if f (uToX t marg (mcDraw ω n opt.blockSize opt.samples pos j)) < 0 then 1 else 0 := by
    intro j
    unfold summand mcSample
    simp only [hs, Option.getD_none, zero_add, one_mul]
    split_ifs
    · exact div_self (normalDensity_pos _ one_pos _).ne'
    · rfl
  have hsum : ∀ p : ℕ, p ≠ 0 → ∑ j ∈ Finset.range k,
      summand t marg f opt ((none : Option (Fin n → ℝ)).getD (fun _ => 0)) ω pos j ^ p = fails := by
    intro p hp
    simp only [hq]
    rw [hcard, hF, Finset.card_filter]
    push_cast
    apply Finset.sum_congr rfl
    intro j _
    split_ifs
    · exact one_pow p
    · exact zero_pow hp
  have hsum1 := hsum 1 one_ne_zero
  simp only [pow_one] at hsum1
  have hle : fails ≤ k := by
    rw [hcard]; exact (Finset.card_filter_le _ _).trans_eq (Finset.card_range k)
  have hk : (0:ℝ) < k := by exact_mod_cast h2
  have hPf : r.Pf = fails / k := by rw [h4]; congr 1
  have hcv : r.st.covQBar = cvOfMean k fails fails := by rw [h8]; congr 1; exact hsum 2 two_ne_zero
  refine ⟨h2, h3, hle, hPf, by rw [hPf]; positivity, ?_, ?_, ?_, ?_⟩
  · rw [hPf, div_le_one hk]; exact_mod_cast hle
  · intro h
    refine ⟨by rw [hPf, h]; simp, h5 (by change (∑ _ ∈ Finset.range k, _ : ℝ) = 0; rw [hsum1, h]; simp), ?_⟩
    rw [hcv, h]; unfold cvOfMean; simp
  · intro hpos hlt
    have hfp : (0:ℝ) < fails := by exact_mod_cast hpos
    have hlt' : (fails:ℝ) < k := by exact_mod_cast hlt
    refine ⟨?_, h6 (by rw [hPf]; positivity) (by rw [hPf, div_lt_one hk]; exact hlt')⟩
    rw [hcv]
    unfold cvOfMean
    simp only [if_pos hfp]
    have hpp : 0 < (fails:ℝ) / k := by positivity
    have hlt1 : (fails:ℝ) / k < 1 := by rw [div_lt_one hk]; exact hlt'
    rw [hPf]
    generalize (fails:ℝ) / k = p at hpp hlt1
    have e : √((p - p ^ 2) / k) / p = √((1 - p) / (k * p)) := by
      have : (1 - p) / (k * p) = ((p - p ^ 2) / k) / p ^ 2 := by field_simp
      rw [this, Real.sqrt_div' ((p - p ^ 2) / k) (by positivity : (0:ℝ) ≤ p ^ 2), Real.sqrt_sq hpp.le]
    rw [e, if_neg]
    refine (Real.sqrt_pos.2 (div_pos (by linarith) (by positivity))).ne'
  · intro h
    have h1' : r.Pf = 1 := by rw [hPf, h]; exact div_self hk.ne'
    refine ⟨h1', h7 h1'.ge, ?_⟩
    rw [hcv, h]
    unfold cvOfMean
    simp only [if_pos hk, div_self hk.ne']
    simp

/-! C38 -/

theorem cvOfMean_pos (k : ℕ) (S S2 : ℝ) : 0 < cvOfMean k S S2 := by
  unfold cvOfMean
  split_ifs with h
  · simp only
    split_ifs with h1
    · exact one_pos
    · exact lt_of_le_of_ne (div_nonneg (Real.sqrt_nonneg _) (div_nonneg h.le (Nat.cast_nonneg _))) (Ne.symm h1)
  · exact one_pos

/-- With a target of 0 the simulation evaluates all requested samples, and `Pf` is their mean. -/
theorem run_full {t : Mats n} {marg : Fin n → Marginal} {ev : Evaluator σ n} {P : σ → Prop} {f : (Fin n → ℝ) → ℝ}
    (hev : Values ev P f) {opt : MonteCarlo.Options} (hg : opt.randomGenerator = 0) (hb : 1 ≤ opt.blockSize)
    (hN : 1 ≤ opt.samples) (hs : 0 < opt.stdv) (hcov : opt.cov ≤ 0) (point : Option (Fin n → ℝ)) (ω : ℕ → ℝ)
    (pos fuel : ℕ) (hf : opt.samples ≤ fuel) (s : σ) (hP : P s) :
    ∃ r, MonteCarlo.run t marg ev opt point ω pos fuel s = some (.ok r) ∧ r.st.k = opt.samples ∧
      r.Pf = (∑ j : Fin opt.samples, summand t marg f opt (point.getD (fun _ => 0)) ω pos j) / opt.samples := by
  obtain ⟨r, h1, h2, h3, h4, -, -, -, h8, h9, -⟩ := C37_run (t := t) (marg := marg) hev hg hb hN hs point ω pos fuel hf s hP
  have hk : r.st.k = opt.samples := by
    rcases h9 with h | ⟨-, h⟩
    · exact h
    · rw [h8] at h
      exact absurd (h.trans hcov) (not_le.2 (cvOfMean_pos _ _ _))
  refine ⟨r, h1, hk, ?_⟩
  rw [h4, hk]
  beta_reduce
  rw [Finset.sum_range]

theorem measurable_draw (bs N pos : ℕ) : Measurable (fun ω (j : Fin N) => mcDraw ω n bs N pos j) := by
  unfold mcDraw
  exact measurable_pi_lambda _ fun j => measurable_pi_lambda _ fun r => measurable_pi_apply _

theorem summand_indicator {t : Mats n} {marg : Fin n → Marginal} {f : (Fin n → ℝ) → ℝ} {opt : MonteCarlo.Options}
    (hs : 0 < opt.stdv) (c : Fin n → ℝ) (ω : ℕ → ℝ) (pos j : ℕ) :
    summand t marg f opt c ω pos j = Set.indicator {u | f (uToX t marg u) < 0} (weight opt.stdv c)
      (fun r => c r + opt.stdv * mcDraw ω n opt.blockSize opt.samples pos j r) := by
  unfold summand mcSample Set.indicator
  simp only [Set.mem_setOf_eq, weight_eq hs]

/-- C38: for every centre, sampling standard deviation and block size, the expected value of the reported `Pf` over the
stream of independent standard normal draws is the probability that `g < 0` (simulation with target 0, so that the
number of samples is fixed; `n` independent standard normal variables are mapped to `x` by the transformation). -/
theorem C38_unbiased {t : Mats n} {marg : Fin n → Marginal} {ev : Evaluator σ n} {P : σ → Prop} {f : (Fin n → ℝ) → ℝ}
    (hev : Values ev P f) (hA : MeasurableSet {u : Fin n → ℝ | f (uToX t marg u) < 0})
    {opt : MonteCarlo.Options} (hg : opt.randomGenerator = 0) (hb : 1 ≤ opt.blockSize)
    (hN : 1 ≤ opt.samples) (hs : 0 < opt.stdv) (hcov : opt.cov ≤ 0) (point : Option (Fin n → ℝ))
    (pos fuel : ℕ) (hf : opt.samples ≤ fuel) (s : σ) (hP : P s) :
    ∃ Pf : (ℕ → ℝ) → ℝ,
      (∀ ω, ∃ r, MonteCarlo.run t marg ev opt point ω pos fuel s = some (.ok r) ∧ r.st.k = opt.samples ∧ r.Pf = Pf ω) ∧
      Integrable Pf stream ∧ ∫ ω, Pf ω ∂stream = (stdGauss n).real {u | f (uToX t marg u) < 0} := by
  refine ⟨fun ω => (∑ j : Fin opt.samples, summand t marg f opt (point.getD (fun _ => 0)) ω pos j) / opt.samples,
    fun ω => run_full hev hg hb hN hs hcov point ω pos fuel hf s hP, ?_⟩
  set c := point.getD (fun _ => 0)
  have hlaw : ∀ j : Fin opt.samples, stream.map (fun ω => mcDraw ω n opt.blockSize opt.samples pos j) = stdGauss n := by
    intro j
    have h := samples_law (n := n) (N := opt.samples) hb pos
    have h2 := (measurePreserving_eval (fun _ : Fin opt.samples => stdGauss n) j).map_eq
    rw [← h, Measure.map_map (measurable_pi_apply j) (measurable_draw _ _ _)] at h2
    exact h2
  have hmd : ∀ j : Fin opt.samples, Measurable (fun ω => mcDraw ω n opt.blockSize opt.samples pos j) := fun j =>
    (measurable_pi_apply j).comp (measurable_draw (n := n) opt.blockSize opt.samples pos)
  have hw := integral_weighted hs c hA
  have hmeas : AEStronglyMeasurable (fun z : Fin n → ℝ => Set.indicator {u | f (uToX t marg u) < 0} (weight opt.stdv c)
      (fun r => c r + opt.stdv * z r)) (stdGauss n) := hw.1.aestronglyMeasurable
  have hint : ∀ j : Fin opt.samples, Integrable (fun ω => summand t marg f opt c ω pos j) stream := by
    intro j
    simp only [summand_indicator hs]
    rw [← hlaw j] at hw hmeas
    exact (integrable_map_measure hmeas (hmd j).aemeasurable).1 hw.1
  have hexp : ∀ j : Fin opt.samples, ∫ ω, summand t marg f opt c ω pos j ∂stream =
      (stdGauss n).real {u | f (uToX t marg u) < 0} := by
    intro j
    simp only [summand_indicator hs]
    rw [← hw.2]
    have := integral_map (hmd j).aemeasurable (by rw [hlaw j]; exact hmeas) (μ := stream)
      (f := fun z : Fin n → ℝ => Set.indicator {u | f (uToX t marg u) < 0} (weight opt.stdv c)
        (fun r => c r + opt.stdv * z r))
    rw [hlaw j] at this
    exact this.symm
  refine ⟨(integrable_finsetSum _ fun j _ => hint j).div_const _, ?_⟩
  rw [integral_div, integral_finsetSum _ (fun j _ => hint j)]
  simp only [hexp, Finset.sum_const, Finset.card_univ, Fintype.card_fin, nsmul_eq_mul]
  field_simp

/-- C36: the variance of the crude Monte Carlo estimate of a simulation of fixed length `N` is `p (1 - p) / N`. -/
theorem C36_variance {t : Mats n} {marg : Fin n → Marginal} {ev : Evaluator σ n} {P : σ → Prop} {f : (Fin n → ℝ) → ℝ}
    (hev : Values ev P f) (hA : MeasurableSet {u : Fin n → ℝ | f (uToX t marg u) < 0})
    {opt : MonteCarlo.Options} (hg : opt.randomGenerator = 0) (hb : 1 ≤ opt.blockSize)
    (hN : 1 ≤ opt.samples) (hs : opt.stdv = 1) (hcov : opt.cov ≤ 0)
    (pos fuel : ℕ) (hf : opt.samples ≤ fuel) (s : σ) (hP : P s) :
    let p := (stdGauss n).real {u | f (uToX t marg u) < 0}
    ∃ Pf : (ℕ → ℝ) → ℝ,
      (∀ ω, ∃ r, MonteCarlo.run t marg ev opt none ω pos fuel s = some (.ok r) ∧ r.st.k = opt.samples ∧ r.Pf = Pf ω) ∧
      Var[Pf; stream] = p * (1 - p) / opt.samples := by
  intro p
  have hs' : 0 < opt.stdv := by rw [hs]; exact one_pos
  refine ⟨fun ω => (∑ j : Fin opt.samples, summand t marg f opt (fun _ => 0) ω pos j) / opt.samples,
    fun ω => run_full hev hg hb hN hs' hcov none ω pos fuel hf s hP, ?_⟩
  set A := {u : Fin n → ℝ | f (uToX t marg u) < 0} with hAdef
  let X : (Fin n → ℝ) → ℝ := A.indicator 1
  have hX : ∀ ω (j : Fin opt.samples), summand t marg f opt (fun _ => 0) ω pos j =
      X (mcDraw ω n opt.blockSize opt.samples pos j) := by
    intro ω j
    rw [summand_indicator hs']
    simp only [hs, zero_add, one_mul]
    have hw1 : ∀ u : Fin n → ℝ, weight 1 (fun _ => 0) u = 1 := fun u => by
      rw [weight_eq one_pos]; exact div_self (normalDensity_pos _ one_pos _).ne'
    unfold Set.indicator
    simp only [hw1]
    simp only [X, Set.indicator]; rfl
  have hXm : Measurable X := measurable_one.indicator hA
  have hXL : MemLp X 2 (stdGauss n) := by
    refine MemLp.of_bound hXm.aestronglyMeasurable 1 (Filter.Eventually.of_forall fun u => ?_)
    simp only [X, Set.indicator]; split_ifs <;> simp
  have hXint : ∫ u, X u ∂(stdGauss n) = p := integral_indicator_one hA
  have hX2 : ∫ u, X u ^ 2 ∂(stdGauss n) = p := by
    rw [← hXint]; congr 1; funext u
    simp only [X, Set.indicator]; split_ifs <;> simp
  have hvar : Var[X; stdGauss n] = p * (1 - p) := by
    rw [variance_eq_sub hXL]
    have : ∫ u, (X ^ 2) u ∂(stdGauss n) = p := hX2
    rw [this, hXint]; ring
  have hsum : Var[∑ j : Fin opt.samples, fun z : Fin opt.samples → Fin n → ℝ => X (z j);
      Measure.pi (fun _ : Fin opt.samples => stdGauss n)] = opt.samples * (p * (1 - p)) := by
    rw [variance_sum_pi (X := fun _ => X) (fun _ => hXL)]
    simp [hvar]
  rw [← samples_law (n := n) (N := opt.samples) hb pos, variance_map (by
    apply Measurable.aemeasurable
    have e0 : (∑ j : Fin opt.samples, fun z : Fin opt.samples → Fin n → ℝ => X (z j)) = fun z => ∑ j, X (z j) := by
      funext z; simp only [Finset.sum_apply]
    rw [e0]
    exact Finset.measurable_sum _ fun j _ => hXm.comp (measurable_pi_apply j)) (measurable_draw _ _ _).aemeasurable] at hsum
  have e : (fun ω => (∑ j : Fin opt.samples, summand t marg f opt (fun _ => 0) ω pos j) / opt.samples) =
      (fun ω => (opt.samples:ℝ)⁻¹ * ((∑ j : Fin opt.samples, fun z : Fin opt.samples → Fin n → ℝ => X (z j)) ∘
        (fun ω (j : Fin opt.samples) => mcDraw ω n opt.blockSize opt.samples pos j)) ω) := by
    funext ω
    simp only [hX, Function.comp_apply, Finset.sum_apply]
    rw [div_eq_inv_mul]
  rw [e, variance_const_mul, hsum]
  field_simp

/-- C38: with unit standard deviation and centre at the origin every weight is 1. -/
theorem C38_unit_weights (u : Fin n → ℝ) : weight 1 (fun _ => 0) u = 1 := by
  rw [weight_eq one_pos]; exact div_self (normalDensity_pos _ one_pos _).ne'

/-! The evaluator of the code -/

/-- The values returned by the code's evaluator for a pointwise user function, for every block size. -/
theorem ls_values {D : Type} {expr : Kwargs → GRet} {g : Dict String ℝ → ℝ} (hp : Pointwise expr g) (lo : LSOptions)
    (hbs : 1 ≤ lo.blockSize) (hmp : lo.multiProc ≠ 0) (stdv : Fin n → ℝ) (m : StochModel D ℝ) (hm : Reachable m)
    (hn : m.nMarg ≤ n) (hne : m.getNames ≠ []) :
    Values (lsEvaluator expr lo stdv) (fun ev : Ev D => ∃ k, ev.model = m.addCallFunction k)
      (fun x => g (pointArgs m x)) := by
  rintro ev ⟨k, hk⟩ xs
  have hm' : Reachable ev.model := hk ▸ reachable_calls hm k
  obtain ⟨ev', out, h1, h2, -⟩ := C05_block_size_invisible hp lo hbs xs ev hm' (hk ▸ hn) (hk ▸ hne)
    (7 + n + xs.length) (by omega)
  have he : LimitState.evaluateLsf (7 + n + xs.length) expr lo stdv (some "no") xs ev = some (ev', .ok out) := by
    rw [C08_suppressed (7 + n + xs.length) expr lo hmp stdv (some "no") (Or.inl (by simp)) xs ev, h1]
  refine ⟨ev', ?_, ?_⟩
  · simp only [lsEvaluator, he, h2, hk]; rfl
  · have := (C04_counts _ _ _ _ _ _ _ _ _ he).2 out rfl
    change ∃ k, ev'.model = m.addCallFunction k
    rw [this, hk]
    exact ⟨_, addCall_addCall m k _⟩

/-- C37: the points handed to the user's function during a run are the `k` samples, each once, in order, and the call
counter grows by `k`. -/
theorem C37_evaluations {D : Type} {t : Mats n} {marg : Fin n → Marginal} {expr : Kwargs → GRet} {g : Dict String ℝ → ℝ}
    (hp : Pointwise expr g) (lo : LSOptions) (hbs : 1 ≤ lo.blockSize) (hmp : lo.multiProc ≠ 0) (stdv : Fin n → ℝ)
    (ev : Ev D) (hm : Reachable ev.model) (hn : ev.model.nMarg ≤ n) (hne : ev.model.getNames ≠ [])
    {opt : MonteCarlo.Options} (hg : opt.randomGenerator = 0) (hb : 1 ≤ opt.blockSize)
    (hN : 1 ≤ opt.samples) (hs : 0 < opt.stdv) (point : Option (Fin n → ℝ)) (ω : ℕ → ℝ) (pos fuel : ℕ)
    (hf : opt.samples ≤ fuel) :
    ∃ r tr, MonteCarlo.run t marg (lsEvaluator expr lo stdv) opt point ω pos fuel ev = some (.ok r) ∧
      r.st.s.model = ev.model.addCallFunction r.st.k ∧
      r.st.s.trace = ev.trace ++ tr ∧
      pointsOf tr = (List.range r.st.k).map (fun j => pointArgs ev.model (uToX t marg
        (mcSample opt.stdv (point.getD (fun _ => 0)) ω opt.blockSize opt.samples pos j))) := by
  set c := point.getD (fun _ => 0) with hc
  have hev := ls_values hp lo hbs hmp stdv ev.model hm hn hne
  let Q : ℕ → Ev D → Prop := fun k s => s.model = ev.model.addCallFunction k ∧ ∃ tr, s.trace = ev.trace ++ tr ∧
    pointsOf tr = (List.range k).map (fun j => pointArgs ev.model (uToX t marg
        (mcSample opt.stdv c ω opt.blockSize opt.samples pos j)))
  have hQ : ∀ k b s s', (∃ k, s.model = ev.model.addCallFunction k) → Q k s →
      (lsEvaluator expr lo stdv).values s ((List.range b).map
        (fun i => uToX t marg (sampleU opt c ω pos (k + i)))) = (s', .ok ((List.range b).map
        (fun i => g (pointArgs ev.model (uToX t marg (sampleU opt c ω pos (k + i))))))) → Q (k + b) s' := by
    rintro k b s s' - ⟨hmod, tr, htr, hpts⟩ hv
    refine ⟨?_, ?_⟩
    · have := values_calls hv
      rw [this, hmod, addCall_addCall, List.length_map, List.length_range]
    · set xs := (List.range b).map (fun i => uToX t marg (sampleU opt c ω pos (k + i))) with hxs
      obtain ⟨ev', out, h1, h2, -, tr', h3, h4, -⟩ := C05_block_size_invisible hp lo hbs xs s
        (by rw [hmod]; exact reachable_calls hm k) (by rw [hmod]; exact hn) (by rw [hmod]; exact hne)
        (7 + n + xs.length) (by omega)
      have he : LimitState.evaluateLsf (7 + n + xs.length) expr lo stdv (some "no") xs s = some (ev', .ok out) := by
        rw [C08_suppressed (7 + n + xs.length) expr lo hmp stdv (some "no") (Or.inl (by simp)) xs s, h1]
      simp only [lsEvaluator, he] at hv
      injection hv with hv1 _
      subst hv1
      refine ⟨tr ++ tr', by rw [h3, htr, List.append_assoc], ?_⟩
      have happ : pointsOf (tr ++ tr') = pointsOf tr ++ pointsOf tr' := by unfold pointsOf; rw [List.flatMap_append]
      rw [happ, hpts, h4, List.range_add, List.map_append, List.map_map, List.map_map]
      congr 1
      apply List.map_congr_left
      intro i _
      simp only [Function.comp_apply, hmod]
      rfl
  obtain ⟨st, hl, hi, hq, h0, -⟩ := loop_spec (pos := pos) (ω := ω) (point := c) (t := t) (marg := marg)
    hev hg hb hN hQ fuel ⟨0, pos, 0, 0, 0, 1, .none, .none, [], [], ev⟩
    ⟨⟨0, rfl⟩, Nat.zero_le _, Or.inr (dvd_zero _), by simp, by simp, by simp, Or.inl ⟨rfl, rfl, rfl⟩, rfl, rfl⟩
    ⟨rfl, [], by simp, by simp [pointsOf]⟩ hf (fun h => absurd h (lt_irrefl _))
  obtain ⟨hmod, tr, htr, hpts⟩ := hq
  refine ⟨finish st, tr, ?_, hmod, htr, hpts⟩
  unfold MonteCarlo.run runOn Records.fresh
  simp only [if_neg hs.ne', if_neg (show opt.samples ≠ 0 by omega)]
  rw [← hc, hl]

/-- C37: with block size 0 and a target below 1 the simulation never ends. -/
theorem C37_block_size_zero {t : Mats n} {marg : Fin n → Marginal} {ev : Evaluator σ n} {P : σ → Prop}
    {f : (Fin n → ℝ) → ℝ} (hev : Values ev P f) {opt : MonteCarlo.Options} (hg : opt.randomGenerator = 0)
    (hb : opt.blockSize = 0) (hN : 1 ≤ opt.samples) (hs : opt.stdv ≠ 0) (hcov : opt.cov < 1)
    (point : Option (Fin n → ℝ)) (ω : ℕ → ℝ) (pos fuel : ℕ) (s : σ) (hP : P s) :
    MonteCarlo.run t marg ev opt point ω pos fuel s = none := by
  have key : ∀ fuel (st : MonteCarlo.State σ n), st.k = 0 → st.sumQ = 0 → P st.s →
      MonteCarlo.loop t marg ev opt (point.getD (fun _ => 0)) ω fuel st = none := by
    intro fuel
    induction fuel with
    | zero => intro st hk _ _; unfold MonteCarlo.loop; rw [if_pos (by omega)]
    | succ fuel ih =>
      intro st hk hq hP
      obtain ⟨s', hv, hP'⟩ := hev st.s hP []
      unfold MonteCarlo.loop
      rw [if_pos (by omega)]
      unfold block randomNumbers
      simp only [if_pos hg, hb, Nat.zero_min, randn, List.range_zero, List.map_nil, hv, List.zipWith_nil_left,
        List.sum_nil, hq, coefficient, add_zero, gt_iff_lt, lt_irrefl, if_false]
      rw [if_neg (not_le.2 hcov)]
      exact ih _ hk rfl hP'
  unfold MonteCarlo.run runOn Records.fresh
  simp only [if_neg hs, if_neg (show opt.samples ≠ 0 by omega)]
  rw [key fuel _ rfl rfl hP]

/-! C39 -/

/-- C39: the number of histogram bins: the option, if it is set; otherwise `4 N^(1/4)` rounded up, that is, the least number
whose fourth power is at least `256 N`. -/
theorem C39_bins (samples : ℕ) : (∀ b, computeBins (some b) samples = b) ∧
    ∀ k : ℕ, computeBins none samples ≤ k ↔ 256 * samples ≤ k ^ 4 := by
  refine ⟨fun b => rfl, fun k => ?_⟩
  unfold computeBins
  rw [Nat.ceil_le]
  have h1 : (4 * √√(samples:ℝ)) ^ 4 = 256 * samples := by
    rw [mul_pow, show (4:ℕ) = 2 * 2 from rfl, pow_mul (√√(samples:ℝ)), Real.sq_sqrt (Real.sqrt_nonneg _),
      Real.sq_sqrt (Nat.cast_nonneg _)]
    norm_num
  rw [← pow_le_pow_iff_left₀ (by positivity) (Nat.cast_nonneg k) (n := 4) (by norm_num), h1]
  exact_mod_cast Iff.rfl

example : computeBins none 1000 = 23 := by
  apply le_antisymm
  · rw [(C39_bins 1000).2]; norm_num
  · have := mt ((C39_bins 1000).2 22).1 (by norm_num); omega

/-- C39: `DistributionAnalysis.run()` evaluates exactly the requested number of samples and stores every one of them and
its value, in order. -/
theorem C39_stores_every_sample {t : Mats n} {marg : Fin n → Marginal} {ev : Evaluator σ n} {P : σ → Prop}
    {f : (Fin n → ℝ) → ℝ} (hev : Values ev P f) {opt : MonteCarlo.Options} (hg : opt.randomGenerator = 0)
    (hb : 1 ≤ opt.blockSize) (ω : ℕ → ℝ) (pos fuel : ℕ) (hf : opt.samples ≤ fuel) (s : σ) (hP : P s) :
    ∃ st, dLoop t marg ev opt ω fuel ⟨0, pos, [], [], s⟩ = some (.ok st) ∧ st.k = opt.samples ∧
      st.allX = (List.range opt.samples).map (fun j =>
        uToX t marg (mcSample opt.stdv (fun _ => 0) ω opt.blockSize opt.samples pos j)) ∧
      st.allG = (List.range opt.samples).map (fun j =>
        f (uToX t marg (mcSample opt.stdv (fun _ => 0) ω opt.blockSize opt.samples pos j))) := by
  have key : ∀ fuel (st : DState σ n), opt.samples ≤ fuel + st.k → P st.s → st.k ≤ opt.samples →
      (st.k = opt.samples ∨ opt.blockSize ∣ st.k) → st.pos = pos + n * st.k →
      st.allX = (List.range st.k).map (fun j =>
        uToX t marg (mcSample opt.stdv (fun _ => 0) ω opt.blockSize opt.samples pos j)) →
      st.allG = (List.range st.k).map (fun j =>
        f (uToX t marg (mcSample opt.stdv (fun _ => 0) ω opt.blockSize opt.samples pos j))) →
      ∃ st', dLoop t marg ev opt ω fuel st = some (.ok st') ∧ st'.k = opt.samples ∧
      st'.allX = (List.range opt.samples).map (fun j =>
        uToX t marg (mcSample opt.stdv (fun _ => 0) ω opt.blockSize opt.samples pos j)) ∧
      st'.allG = (List.range opt.samples).map (fun j =>
        f (uToX t marg (mcSample opt.stdv (fun _ => 0) ω opt.blockSize opt.samples pos j))) := by
    intro fuel
    induction fuel with
    | zero =>
      intro st h1 _ h3 _ _ h6 h7
      have hk : st.k = opt.samples := by omega
      refine ⟨st, ?_, hk, hk ▸ h6, hk ▸ h7⟩
      unfold dLoop; rw [if_neg (by omega)]
    | succ fuel ih =>
      intro st h1 h2 h3 h4 h5 h6 h7
      by_cases hk : st.k < opt.samples
      · have hd : opt.blockSize ∣ st.k := by
          rcases h4 with h | h
          · omega
          · exact h
        have hus := block_samples (σ := σ) (n := n) (opt := opt) (point := fun _ => (0:ℝ)) (ω := ω) (pos := pos)
          (st := ⟨st.k, st.pos, 0, 0, 0, 0, .none, .none, [], [], st.s⟩) hk hb hd h5
        simp only at hus
        set b := min opt.blockSize (opt.samples - st.k) with hbd
        obtain ⟨s', hv, hP'⟩ := hev st.s h2 (((List.range b).map (fun c => sampleU opt (fun _ => (0:ℝ)) ω pos (st.k + c))).map
          (uToX t marg))
        unfold dLoop
        rw [if_pos hk]
        unfold randomNumbers
        simp only [if_pos hg, ← hbd, hus, hv]
        apply ih
        · simp only; omega
        · exact hP'
        · simp only; omega
        · simp only
          by_cases h : opt.samples ≤ st.k + opt.blockSize
          · left; omega
          · right
            have : b = opt.blockSize := by omega
            rw [this]; exact Nat.dvd_add hd (dvd_refl _)
        · simp only [h5]; ring
        · simp only [h6, List.range_add, List.map_append, List.map_map]; rfl
        · simp only [h7, List.range_add, List.map_append, List.map_map]; rfl
      · have hk' : st.k = opt.samples := by omega
        refine ⟨st, ?_, hk', hk' ▸ h6, hk' ▸ h7⟩
        unfold dLoop; rw [if_neg hk]
  exact key fuel _ hf hP (Nat.zero_le _) (Or.inr (dvd_zero _)) (by simp) (by simp) (by simp)

/-! C63 -/

/-- C63: the arrays of all samples kept by a run.  While the run consists of one block they are the samples in the two
spaces.  As soon as there is a second block, both become flat, and what is appended to the array of `x`-samples are the
`u`-coordinates of the later blocks (`rest`), one block after the other, each with one row per variable: the two arrays agree after
their first `n·block_size` entries.  The kept limit-state values and
distances from the origin are those of the `k` samples, in order. -/
theorem C63_kept {t : Mats n} {marg : Fin n → Marginal} {ev : Evaluator σ n} {P : σ → Prop} {f : (Fin n → ℝ) → ℝ}
    (hev : Values ev P f) {opt : MonteCarlo.Options} (hg : opt.randomGenerator = 0) (hb : 1 ≤ opt.blockSize)
    (hN : 1 ≤ opt.samples) (hs : 0 < opt.stdv) (point : Option (Fin n → ℝ)) (ω : ℕ → ℝ) (pos fuel : ℕ)
    (hf : opt.samples ≤ fuel) (s : σ) (hP : P s) :
    let us := (List.range (min opt.blockSize opt.samples)).map
      (mcSample opt.stdv (point.getD (fun _ => 0)) ω opt.blockSize opt.samples pos)
    ∃ r, MonteCarlo.run t marg ev opt point ω pos fuel s = some (.ok r) ∧
      (r.st.k ≤ opt.blockSize → r.st.uAll = .cols us ∧ r.st.xAll = .cols (us.map (uToX t marg))) ∧
      (opt.blockSize < r.st.k → ∃ q, opt.blockSize * q < r.st.k ∧ r.st.k ≤ opt.blockSize * (q + 1) ∧
        let rest := (List.range q).flatMap (fun m => rowMajor
          ((List.range (min opt.blockSize (opt.samples - opt.blockSize * (m + 1)))).map (fun c =>
            mcSample opt.stdv (point.getD (fun _ => 0)) ω opt.blockSize opt.samples pos (opt.blockSize * (m + 1) + c))))
        r.st.uAll = .flat (rowMajor us ++ rest) ∧ r.st.xAll = .flat (rowMajor (us.map (uToX t marg)) ++ rest)) ∧
      r.st.allG = (List.range r.st.k).map (fun j => f (uToX t marg
        (mcSample opt.stdv (point.getD (fun _ => 0)) ω opt.blockSize opt.samples pos j))) ∧
      r.st.betaAll = (List.range r.st.k).map (fun j =>
        √(∑ i, mcSample opt.stdv (point.getD (fun _ => 0)) ω opt.blockSize opt.samples pos j i ^ 2)) := by
  intro us
  obtain ⟨st, hl, hi, -, h0, -⟩ := loop_spec (pos := pos) (ω := ω) (point := point.getD (fun _ => 0)) (t := t) (marg := marg)
    hev hg hb hN (Q := fun _ _ => True) (fun _ _ _ _ _ _ _ => trivial) fuel ⟨0, pos, 0, 0, 0, 1, .none, .none, [], [], s⟩
    ⟨hP, Nat.zero_le _, Or.inr (dvd_zero _), by simp, by simp, by simp, Or.inl ⟨rfl, rfl, rfl⟩, rfl, rfl⟩ trivial hf
    (fun h => absurd h (lt_irrefl _))
  refine ⟨finish st, ?_, ?_⟩
  · unfold MonteCarlo.run runOn Records.fresh
    simp only [if_neg hs.ne', if_neg (show opt.samples ≠ 0 by omega)]
    rw [hl]
  · rw [← and_assoc]
    refine ⟨?_, hi.allG, hi.betaAll⟩
    change (st.k ≤ _ → st.uAll = _ ∧ st.xAll = _) ∧ (_ < st.k → ∃ q, _ < st.k ∧ st.k ≤ _ ∧ st.uAll = _ ∧ st.xAll = _)
    rcases hi.kept with ⟨hk, -⟩ | ⟨vs, -, hvs, ⟨h1, h2, h3⟩ | ⟨R, h1, h2, h3, h4, h5⟩⟩
    · omega
    · have : vs = us := hvs
      subst this
      exact ⟨fun _ => ⟨h2, h3⟩, fun h => by omega⟩
    · have : vs = us := hvs
      subst this
      exact ⟨fun h => by omega, fun _ => ⟨R, h2, h3, h4, h5⟩⟩

/-! A concrete case: one standard normal variable, `g = x`, stream `-1, 1, 0, -2, …`, 3 samples in blocks of 2: one
of the three samples fails. -/
example : ∃ m r, Normal.new 0 (.fin 1) none = .ok m ∧ MonteCarlo.run (n := 1) ⟨1, 1⟩ (fun _ => m)
    (⟨fun s _ => (s, .error .typeError), fun s xs => (s, .ok (xs.map (fun x => x 0)))⟩ : Evaluator Unit 1)
    ⟨3, 2, 1, 0, 0⟩ none (fun k => [-1, 1, 0, -2].getD k 0) 0 3 () = some (.ok r) ∧ r.st.k = 3 ∧ r.Pf = 1 / 3 := by
  obtain ⟨m, hm⟩ : ∃ m, Normal.new 0 (.fin (1 : ℝ)) none = .ok m := ⟨_, rfl⟩
  have hu := (normal_ok hm).1
  obtain ⟨r, h1, h2, h3⟩ := run_full (t := ⟨1, 1⟩) (marg := fun _ => m) (ev := (⟨fun s _ => (s, .error .typeError), fun s xs => (s, .ok (xs.map (fun x => x 0)))⟩ : Evaluator Unit 1))
    (P := fun _ => True) (f := fun x : Fin 1 → ℝ => x 0) (fun s _ xs => ⟨s, rfl, trivial⟩) (opt := ⟨3, 2, 1, 0, 0⟩) rfl (by norm_num) (by norm_num) (by norm_num)
    (by norm_num) none (fun k => [-1, 1, 0, -2].getD k 0) 0 3 le_rfl () trivial
  refine ⟨m, r, hm, h1, h2, ?_⟩
  have hd : ∀ u, normalDensity (fun _ : Fin 1 => (0:ℝ)) 1 u / normalDensity (fun _ => 0) 1 u = 1 := fun u =>
    div_self (normalDensity_pos _ one_pos _).ne'
  rw [h3, Fin.sum_univ_three]
  simp [summand, mcSample, mcDraw, uToX, hu, hd, Normal.uToX]
  norm_num

end Pystra.Props
