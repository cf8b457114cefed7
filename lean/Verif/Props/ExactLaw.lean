import Verif.Props.ImportanceGain
import Verif.Lemmas.StrongLaw
import Mathlib.Probability.Moments.SubGaussian

/-! C124: the exact law of the crude Monte Carlo estimate, runs that see no failure, and exponential error bounds. -/

namespace Pystra.Props
open MeasureTheory Set Spec Matrix Transformation MonteCarlo Form
open ProbabilityTheory hiding cdf

variable {n : ℕ} {σ : Type}

/-- The number of independent draws that fall into a set has the binomial law. -/
theorem binomial_count {α : Type} [MeasurableSpace α] (μ : Measure α) [IsProbabilityMeasure μ] {A : Set α} (hA : MeasurableSet A) (N k : ℕ) :
    (Measure.pi fun _ : Fin N => μ).real {z | Set.ncard {j | z j ∈ A} = k} =
      N.choose k * μ.real A ^ k * (1 - μ.real A) ^ (N - k) := by
  classical
  have hset : {z : Fin N → α | Set.ncard {j | z j ∈ A} = k} =
      ⋃ T ∈ (Finset.univ : Finset (Fin N)).powersetCard k, Set.univ.pi fun j => if j ∈ T then A else Aᶜ := by
    ext z
    simp only [mem_setOf_eq, mem_iUnion, Finset.mem_powersetCard, Finset.subset_univ, true_and, Set.mem_pi, mem_univ, true_implies,
      exists_prop]
    constructor
    · intro h
      refine ⟨Finset.univ.filter fun j => z j ∈ A, ?_, fun j => ?_⟩
      · rw [← h, ← Set.ncard_coe_finset]
        congr 1
        ext j; simp
      · by_cases hj : z j ∈ A
        · simp [hj]
        · simp [hj]
    · rintro ⟨T, hT, hz⟩
      rw [← hT, ← Set.ncard_coe_finset]
      congr 1
      ext j
      have := hz j
      by_cases hj : j ∈ T
      · rw [if_pos hj] at this
        simp [hj, this]
      · rw [if_neg hj] at this
        simpa [hj] using this
  rw [hset, measureReal_biUnion_finset]
  · have h1 : ∀ T ∈ (Finset.univ : Finset (Fin N)).powersetCard k,
        (Measure.pi fun _ : Fin N => μ).real (Set.univ.pi fun j => if j ∈ T then A else Aᶜ) =
          μ.real A ^ k * (1 - μ.real A) ^ (N - k) := by
      intro T hT
      rw [Finset.mem_powersetCard] at hT
      rw [measureReal_def, Measure.pi_pi, ENNReal.toReal_prod]
      have h2 : ∀ j, (μ (if j ∈ T then A else Aᶜ)).toReal = if j ∈ T then μ.real A else 1 - μ.real A := by
        intro j
        split
        · rfl
        · exact probReal_compl_eq_one_sub hA
      simp only [h2]
      rw [Finset.prod_ite, Finset.prod_const, Finset.prod_const]
      have e1 : (Finset.univ.filter fun j => j ∈ T).card = k := by rw [← hT.2]; congr 1; ext j; simp
      have e2 : (Finset.univ.filter fun j => j ∉ T).card = N - k := by
        have := Finset.card_compl T
        rw [hT.2, Fintype.card_fin] at this
        rw [← this]; congr 1; ext j; simp
      rw [e1, e2]
    rw [Finset.sum_congr rfl h1, Finset.sum_const, Finset.card_powersetCard, Finset.card_univ, Fintype.card_fin, nsmul_eq_mul, mul_assoc]
  · intro T _ T' _ hne
    rw [Function.onFun, Set.disjoint_left]
    intro z hz hz'
    apply hne
    ext j
    have h1 := hz j (mem_univ j)
    have h2 := hz' j (mem_univ j)
    by_cases hj : j ∈ T <;> by_cases hj' : j ∈ T' <;> simp [hj, hj'] at h1 h2 ⊢
    · exact h2 h1
    · exact h1 h2
  · intro T _
    refine MeasurableSet.univ_pi fun j => ?_
    split
    · exact hA
    · exact hA.compl

section runs
variable {t : Mats n} {marg : Fin n → Marginal} {ev : Evaluator σ n} {P : σ → Prop} {f : (Fin n → ℝ) → ℝ} {opt : MonteCarlo.Options}

/-- C124: the exact law of crude Monte Carlo with a fixed number `N` of samples: `Pf` is `k/N` with the binomial probability. -/
theorem C124_law (hev : Values ev P f) (hA : MeasurableSet {u : Fin n → ℝ | f (uToX t marg u) < 0})
    (hg : opt.randomGenerator = 0) (hb : 1 ≤ opt.blockSize) (hN : 1 ≤ opt.samples) (hs : opt.stdv = 1) (hcov : opt.cov ≤ 0)
    (pos fuel : ℕ) (hf : opt.samples ≤ fuel) (s : σ) (hP : P s) (k : ℕ) :
    let p := (stdGauss n).real {u | f (uToX t marg u) < 0}
    stream.real {ω | ∃ r, MonteCarlo.run t marg ev opt none ω pos fuel s = some (.ok r) ∧ r.Pf = k / opt.samples} =
      opt.samples.choose k * p ^ k * (1 - p) ^ (opt.samples - k) := by
  intro p
  haveI : IsProbabilityMeasure (stdGauss n) := by unfold stdGauss; infer_instance
  have hN' : (0:ℝ) < opt.samples := by exact_mod_cast hN
  have hs0 : 0 < opt.stdv := by rw [hs]; exact one_pos
  rw [← binomial_count (stdGauss n) hA opt.samples k, ← samples_law (n := n) (N := opt.samples) hb pos]
  have hcnt : ∀ z : Fin opt.samples → Fin n → ℝ,
      ((Set.ncard {j | z j ∈ {u : Fin n → ℝ | f (uToX t marg u) < 0}} : ℕ) : ℝ) =
        ∑ j, Set.indicator {u : Fin n → ℝ | f (uToX t marg u) < 0} (fun _ => (1:ℝ)) (z j) := by
    intro z
    classical
    rw [show {j | z j ∈ {u : Fin n → ℝ | f (uToX t marg u) < 0}} =
      ((Finset.univ.filter fun j => z j ∈ {u : Fin n → ℝ | f (uToX t marg u) < 0} : Finset (Fin opt.samples)) : Set _) by ext j; simp,
      Set.ncard_coe_finset, Finset.card_filter]
    push_cast
    refine Finset.sum_congr rfl fun j _ => ?_
    simp only [Set.indicator]
  have hmeas : MeasurableSet {z : Fin opt.samples → Fin n → ℝ | Set.ncard {j | z j ∈ {u : Fin n → ℝ | f (uToX t marg u) < 0}} = k} := by
    have e : {z : Fin opt.samples → Fin n → ℝ | Set.ncard {j | z j ∈ {u : Fin n → ℝ | f (uToX t marg u) < 0}} = k} =
        {z | ∑ j, Set.indicator {u : Fin n → ℝ | f (uToX t marg u) < 0} (fun _ => (1:ℝ)) (z j) = k} := by
      ext z
      simp only [mem_setOf_eq, ← hcnt, Nat.cast_inj]
    rw [e]
    refine measurableSet_eq_fun (Finset.measurable_sum _ fun j _ => ?_) measurable_const
    exact (measurable_const.indicator hA).comp (measurable_pi_apply j)
  rw [map_measureReal_apply (measurable_draw _ _ _) hmeas]
  congr 1
  ext ω
  simp only [mem_setOf_eq, mem_preimage]
  obtain ⟨r, h1, h2, h3⟩ := run_full (t := t) (marg := marg) hev hg hb hN hs0 hcov none ω pos fuel hf s hP
  have h4 : r.Pf = ((Set.ncard {j : Fin opt.samples | f (uToX t marg (mcDraw ω n opt.blockSize opt.samples pos j)) < 0} : ℕ) : ℝ) /
      opt.samples := by
    have := hcnt (fun j => mcDraw ω n opt.blockSize opt.samples pos j)
    simp only [mem_setOf_eq] at this
    rw [h3, this]
    congr 1
    refine Finset.sum_congr rfl fun j _ => ?_
    rw [summand_indicator hs0, hs]
    simp only [Option.getD_none, zero_add, one_mul]
    unfold Set.indicator
    simp only [C38_unit_weights]
  constructor
  · rintro ⟨r', h1', h2'⟩
    rw [h1] at h1'; cases h1'
    rw [h4, div_left_inj' hN'.ne', Nat.cast_inj] at h2'
    exact h2'
  · intro h
    refine ⟨r, h1, ?_⟩
    rw [h4, h]

/-- C124: runs that see no failure.  Whatever the centre, the sampling standard deviation and the target (below 1), the run reports
`Pf = 0` and `β = 0` with probability `(1 - q)^N`, where `q` is the probability that one sample fails. -/
theorem C124_blind (hev : Values ev P f) (hA : MeasurableSet {u : Fin n → ℝ | f (uToX t marg u) < 0})
    (hg : opt.randomGenerator = 0) (hb : 1 ≤ opt.blockSize) (hN : 1 ≤ opt.samples) (hs : 0 < opt.stdv) (hcov : opt.cov < 1)
    (point : Option (Fin n → ℝ)) (pos fuel : ℕ) (hf : opt.samples ≤ fuel) (s : σ) (hP : P s) :
    let c := point.getD fun _ => 0
    let q := (stdGauss n).real {z | f (uToX t marg fun i => c i + opt.stdv * z i) < 0}
    stream.real {ω | ∃ r, MonteCarlo.run t marg ev opt point ω pos fuel s = some (.ok r) ∧ r.Pf = 0 ∧ r.beta = .fin 0} =
        (1 - q) ^ opt.samples ∧
      stream.real {ω | ∃ r, MonteCarlo.run t marg ev opt point ω pos fuel s = some (.ok r) ∧ r.Pf = 0} = (1 - q) ^ opt.samples ∧
      1 - opt.samples * q ≤ (1 - q) ^ opt.samples ∧ (1 - q) ^ opt.samples ≤ Real.exp (-(opt.samples * q)) := by
  intro c q
  haveI : IsProbabilityMeasure (stdGauss n) := by unfold stdGauss; infer_instance
  have hq0 : 0 ≤ q := measureReal_nonneg
  have hq1 : q ≤ 1 := measureReal_le_one
  have hmz : Measurable (fun (z : Fin n → ℝ) i => c i + opt.stdv * z i) := by fun_prop
  have hB : MeasurableSet {z : Fin n → ℝ | f (uToX t marg fun i => c i + opt.stdv * z i) < 0} := hmz hA
  -- the event: no sample fails
  have hev0 : ∀ ω, ∃ r, MonteCarlo.run t marg ev opt point ω pos fuel s = some (.ok r) ∧
      (r.Pf = 0 ↔ ∀ j : Fin opt.samples, ¬ f (uToX t marg fun i => c i + opt.stdv * mcDraw ω n opt.blockSize opt.samples pos j i) < 0) ∧
      (r.Pf = 0 → r.beta = .fin 0) := by
    intro ω
    obtain ⟨r, h1, h2, h3, h4, h5, -, -, h8, h9, -⟩ := C37_run (t := t) (marg := marg) hev hg hb hN hs point ω pos fuel hf s hP
    have hk : (0:ℝ) < r.st.k := by exact_mod_cast h2
    have hnn : ∀ j ∈ Finset.range r.st.k, 0 ≤ summand t marg f opt c ω pos j := fun j _ => by
      rw [summand_indicator hs]
      exact Set.indicator_nonneg (fun u _ => weight_nonneg hs _ _) _
    have hz : ∀ j, summand t marg f opt c ω pos j = 0 ↔
        ¬ f (uToX t marg fun i => c i + opt.stdv * mcDraw ω n opt.blockSize opt.samples pos j i) < 0 := by
      intro j
      rw [summand_indicator hs]
      by_cases h : f (uToX t marg fun i => c i + opt.stdv * mcDraw ω n opt.blockSize opt.samples pos j i) < 0
      · rw [Set.indicator_of_mem (by exact h)]
        refine ⟨fun h0 => absurd h0 ?_, fun h' => absurd h h'⟩
        rw [weight_eq hs]
        exact (div_pos (normalDensity_pos _ one_pos _) (normalDensity_pos _ hs _)).ne'
      · rw [Set.indicator_of_notMem (by exact h)]
        simp [h]
    have hS : r.Pf = 0 ↔ ∑ j ∈ Finset.range r.st.k, summand t marg f opt c ω pos j = 0 := by
      rw [h4, div_eq_zero_iff]
      exact ⟨fun h => h.resolve_right hk.ne', Or.inl⟩
    refine ⟨r, h1, ⟨fun h0 => ?_, fun hall => ?_⟩, fun h0 => h5 (hS.1 h0)⟩
    · have hS0 := hS.1 h0
      have hkN : r.st.k = opt.samples := by
        rcases h9 with h | ⟨-, h⟩
        · exact h
        · exfalso
          rw [h8] at h
          have hc1 : cvOfMean r.st.k (∑ j ∈ Finset.range r.st.k, summand t marg f opt c ω pos j)
              (∑ j ∈ Finset.range r.st.k, summand t marg f opt c ω pos j ^ 2) = 1 := by
            unfold cvOfMean
            rw [hS0]
            simp
          linarith [hc1 ▸ h]
      have := (Finset.sum_eq_zero_iff_of_nonneg hnn).1 hS0
      intro j
      exact (hz j).1 (this j (Finset.mem_range.2 (by rw [hkN]; exact j.2)))
    · refine hS.2 (Finset.sum_eq_zero fun j hj => (hz j).2 ?_)
      exact hall ⟨j, lt_of_lt_of_le (Finset.mem_range.1 hj) h3⟩
  have hprob : stream.real {ω | ∀ j : Fin opt.samples,
      ¬ f (uToX t marg fun i => c i + opt.stdv * mcDraw ω n opt.blockSize opt.samples pos j i) < 0} = (1 - q) ^ opt.samples := by
    have h1 : {ω | ∀ j : Fin opt.samples, ¬ f (uToX t marg fun i => c i + opt.stdv * mcDraw ω n opt.blockSize opt.samples pos j i) < 0} =
        (fun ω (j : Fin opt.samples) => mcDraw ω n opt.blockSize opt.samples pos j) ⁻¹'
          (Set.univ.pi fun _ => {z : Fin n → ℝ | f (uToX t marg fun i => c i + opt.stdv * z i) < 0}ᶜ) := by
      ext ω; simp [Set.mem_pi]
    rw [h1, ← map_measureReal_apply (measurable_draw _ _ _) (MeasurableSet.univ_pi fun _ => hB.compl), samples_law hb pos,
      measureReal_def, Measure.pi_pi, ENNReal.toReal_prod]
    simp only [← measureReal_def, probReal_compl_eq_one_sub hB, Finset.prod_const, Finset.card_univ, Fintype.card_fin]
    rfl
  refine ⟨?_, ?_, ?_, ?_⟩
  · rw [← hprob]
    congr 1
    ext ω
    obtain ⟨r, h1, h2, h3⟩ := hev0 ω
    simp only [mem_setOf_eq]
    rw [← h2]
    constructor
    · rintro ⟨r', h1', h2', -⟩
      rw [h1] at h1'; cases h1'
      exact h2'
    · exact fun h => ⟨r, h1, h, h3 h⟩
  · rw [← hprob]
    congr 1
    ext ω
    obtain ⟨r, h1, h2, h3⟩ := hev0 ω
    simp only [mem_setOf_eq]
    rw [← h2]
    constructor
    · rintro ⟨r', h1', h2'⟩
      rw [h1] at h1'; cases h1'
      exact h2'
    · exact fun h => ⟨r, h1, h⟩
  · have := one_add_mul_le_pow (a := -q) (by linarith) opt.samples
    calc 1 - opt.samples * q = 1 + opt.samples * -q := by ring
      _ ≤ (1 + -q) ^ opt.samples := this
      _ = _ := by ring
  · calc (1 - q) ^ opt.samples ≤ Real.exp (-q) ^ opt.samples :=
        pow_le_pow_left₀ (by linarith) (by linarith [Real.add_one_le_exp (-q)]) _
      _ = _ := by rw [← Real.exp_nat_mul]; congr 1; ring

/-- Hoeffding's inequality for the mean of bounded functions of the samples. -/
theorem hoeffding_bounded {X : (Fin n → ℝ) → ℝ} (hX : Measurable X) {B : ℝ} (hB : 0 < B) (hX0 : ∀ z, 0 ≤ X z) (hX1 : ∀ z, X z ≤ B)
    {bs N : ℕ} (hb : 1 ≤ bs) (hN : 1 ≤ N) (pos : ℕ) {ε : ℝ} (hε : 0 ≤ ε) :
    stream.real {ω | ε ≤ |(∑ j : Fin N, X (mcDraw ω n bs N pos j)) / N - ∫ z, X z ∂(stdGauss n)|} ≤
      2 * Real.exp (-(2 * N * ε ^ 2 / B ^ 2)) := by
  have hN' : (0:ℝ) < N := by exact_mod_cast hN
  obtain ⟨m, hm⟩ : ∃ m, m = ∫ z, X z ∂(stdGauss n) := ⟨_, rfl⟩
  have hmd : ∀ j : Fin N, Measurable (fun ω => mcDraw ω n bs N pos j) := fun j =>
    (measurable_pi_apply j).comp (measurable_draw (n := n) bs N pos)
  have hint : ∀ j : Fin N, ∫ ω, X (mcDraw ω n bs N pos j) ∂stream = m := by
    intro j
    rw [hm, ← sample_law (n := n) hb pos j, integral_map (hmd j).aemeasurable hX.aestronglyMeasurable]
  have hind : iIndepFun (fun (j : Fin N) ω => X (mcDraw ω n bs N pos j) - m) stream :=
    (samples_indep (n := n) (N := N) hb pos).comp (fun _ z => X z - m) fun _ => hX.sub_const m
  have hsub : ∀ j ∈ (Finset.univ : Finset (Fin N)),
      HasSubgaussianMGF (fun ω => X (mcDraw ω n bs N pos j) - m) ((‖B - 0‖₊ / 2) ^ 2) stream := by
    intro j _
    have h := hasSubgaussianMGF_of_mem_Icc (μ := stream) (X := fun ω => X (mcDraw ω n bs N pos j)) (a := 0) (b := B)
      (hX.comp (hmd j)).aemeasurable (Filter.Eventually.of_forall fun ω => ⟨hX0 _, hX1 _⟩)
    rw [hint j] at h
    exact h
  have hc : ((∑ _j : Fin N, ((‖B - 0‖₊ / 2) ^ 2 : NNReal) : NNReal) : ℝ) = N * (B / 2) ^ 2 := by
    rw [Finset.sum_const, Finset.card_univ, Fintype.card_fin, nsmul_eq_mul]
    push_cast
    rw [sub_zero, Real.norm_of_nonneg hB.le]
  have hexp : -(N * ε) ^ 2 / (2 * (N * (B / 2) ^ 2)) = -(2 * N * ε ^ 2 / B ^ 2) := by field_simp
  have hup := HasSubgaussianMGF.measure_sum_ge_le_of_iIndepFun hind hsub (ε := N * ε) (by positivity)
  have hlo := HasSubgaussianMGF.measure_sum_ge_le_of_iIndepFun (X := fun (j : Fin N) ω => -(X (mcDraw ω n bs N pos j) - m))
    (hind.comp (fun _ y => -y) fun _ => measurable_neg) (c := fun _ => (‖B - 0‖₊ / 2) ^ 2) (s := Finset.univ)
    (fun j hj => (hsub j hj).neg) (ε := N * ε) (by positivity)
  rw [hc, hexp] at hup hlo
  rw [← hm]
  have hsum : ∀ ω, ∑ j : Fin N, (X (mcDraw ω n bs N pos j) - m) = (∑ j : Fin N, X (mcDraw ω n bs N pos j)) - N * m := by
    intro ω
    rw [Finset.sum_sub_distrib, Finset.sum_const, Finset.card_univ, Fintype.card_fin, nsmul_eq_mul]
  calc stream.real {ω | ε ≤ |(∑ j : Fin N, X (mcDraw ω n bs N pos j)) / N - m|}
      ≤ stream.real ({ω | N * ε ≤ ∑ j : Fin N, (X (mcDraw ω n bs N pos j) - m)} ∪
          {ω | N * ε ≤ ∑ j : Fin N, -(X (mcDraw ω n bs N pos j) - m)}) := by
        refine measureReal_mono fun ω hω => ?_
        simp only [mem_setOf_eq, mem_union, Finset.sum_neg_distrib, hsum] at hω ⊢
        have e : (∑ j : Fin N, X (mcDraw ω n bs N pos j)) / N - m =
            ((∑ j : Fin N, X (mcDraw ω n bs N pos j)) - N * m) / N := by field_simp
        rw [e, abs_div, abs_of_pos hN', le_div_iff₀ hN'] at hω
        rcases le_abs'.1 hω with h | h
        · right; linarith
        · left; linarith
    _ ≤ _ := measureReal_union_le _ _
    _ ≤ 2 * Real.exp (-(2 * N * ε ^ 2 / B ^ 2)) := by linarith

/-- C124: importance sampling with a failure domain beyond the plane through the centre (C122) misses the probability of failure by `ε` or
more with a probability of at most `2 exp(-2Nε² exp(|c|²))`: the bound of crude Monte Carlo (C97) with `exp(|c|²)` times as many samples. -/
theorem C124_importance_error (hev : Values ev P f) (hA : MeasurableSet {u : Fin n → ℝ | f (uToX t marg u) < 0})
    (hg : opt.randomGenerator = 0) (hb : 1 ≤ opt.blockSize) (hN : 1 ≤ opt.samples) (hs : opt.stdv = 1) (hcov : opt.cov ≤ 0)
    {c : Fin n → ℝ} (hc : ∀ u, f (uToX t marg u) < 0 → ∑ i, c i ^ 2 ≤ ∑ i, c i * u i)
    (pos fuel : ℕ) (hf : opt.samples ≤ fuel) (s : σ) (hP : P s) {ε : ℝ} (hε : 0 ≤ ε) :
    stream.real {ω | ∃ r, MonteCarlo.run t marg ev opt (some c) ω pos fuel s = some (.ok r) ∧
      ε ≤ |r.Pf - (stdGauss n).real {u | f (uToX t marg u) < 0}|} ≤
        2 * Real.exp (-(2 * opt.samples * ε ^ 2 * Real.exp (∑ i, c i ^ 2))) := by
  have hs0 : 0 < opt.stdv := by rw [hs]; exact one_pos
  obtain ⟨X, hX⟩ : ∃ X, X = perSample {u | f (uToX t marg u) < 0} opt.stdv c := ⟨_, rfl⟩
  have hm : ∫ z, X z ∂(stdGauss n) = (stdGauss n).real {u | f (uToX t marg u) < 0} := by
    rw [hX]; exact (integral_weighted hs0 _ hA).2
  have hXb : ∀ z, 0 ≤ X z ∧ X z ≤ Real.exp (-(∑ i, c i ^ 2) / 2) := by
    intro z
    rw [hX, hs]
    unfold perSample
    by_cases h : (fun r => c r + 1 * z r) ∈ {u | f (uToX t marg u) < 0}
    · rw [indicator_of_mem h]
      exact ⟨weight_nonneg one_pos _ _, weight_beyond (A := {u | f (uToX t marg u) < 0}) hc h⟩
    · rw [indicator_of_notMem h]
      exact ⟨le_rfl, (Real.exp_pos _).le⟩
  have h := hoeffding_bounded (X := X) (by rw [hX]; exact measurable_perSample hA _ _) (Real.exp_pos _) (fun z => (hXb z).1)
    (fun z => (hXb z).2) hb hN pos hε
  have e : 2 * (opt.samples:ℝ) * ε ^ 2 / Real.exp (-(∑ i, c i ^ 2) / 2) ^ 2 = 2 * opt.samples * ε ^ 2 * Real.exp (∑ i, c i ^ 2) := by
    rw [← Real.exp_nat_mul, div_eq_mul_inv, ← Real.exp_neg]
    congr 2
    push_cast
    ring
  rw [e, hm] at h
  refine le_trans (measureReal_mono fun ω => ?_) h
  rintro ⟨r, h1, h2⟩
  obtain ⟨r', h1', -, h3⟩ := run_perSample (t := t) (marg := marg) hev hg hb hN hs0 hcov (some c) ω pos fuel hf s hP
  rw [h1] at h1'; cases h1'
  rw [h3, Option.getD_some, ← hX] at h2
  exact h2

end runs

/-- A case of `C124_law`, `C124_blind` and the error bounds: `3 - x₀` of one standard normal variable (`p = Φ(-3)`).  Crude Monte Carlo with
100 samples reports a reliability index of 0 with probability `(1 - Φ(-3))^100`; importance sampling at the design point, with
probability `2^(-100)`. -/
example : ∃ m : Marginal, Normal.new 0 (.fin 1) none = .ok m ∧
    stream.real {ω | ∃ r, MonteCarlo.run ⟨1, 1⟩ (fun _ => m) (gradEv (fun x : Fin 1 → ℝ => 3 - x 0) fun _ _ => -1) ⟨100, 100, 1, 0, 0⟩ none ω 0
      100 () = some (.ok r) ∧ r.Pf = ((2:ℕ):ℝ) / (100:ℕ)} = (Nat.choose 100 2 : ℕ) * StdNormal.cdf (-3) ^ 2 * (1 - StdNormal.cdf (-3)) ^ 98 ∧
    stream.real {ω | ∃ r, MonteCarlo.run ⟨1, 1⟩ (fun _ => m) (gradEv (fun x : Fin 1 → ℝ => 3 - x 0) fun _ _ => -1) ⟨100, 100, 1, 0, 0⟩ none ω 0
      100 () = some (.ok r) ∧ r.Pf = 0 ∧ r.beta = .fin 0} = (1 - StdNormal.cdf (-3)) ^ 100 ∧
    stream.real {ω | ∃ r, MonteCarlo.run ⟨1, 1⟩ (fun _ => m) (gradEv (fun x : Fin 1 → ℝ => 3 - x 0) fun _ _ => -1) ⟨100, 100, 1, 0, 0⟩
      (some fun _ => 3) ω 0 100 () = some (.ok r) ∧ r.Pf = 0 ∧ r.beta = .fin 0} = (1 / 2) ^ 100 ∧
    stream.real {ω | ∃ r, MonteCarlo.run ⟨1, 1⟩ (fun _ => m) (gradEv (fun x : Fin 1 → ℝ => 3 - x 0) fun _ _ => -1) ⟨100, 100, 1, 0, 0⟩
      (some fun _ => 3) ω 0 100 () = some (.ok r) ∧ 0.001 ≤ |r.Pf - StdNormal.cdf (-3)|} ≤
        2 * Real.exp (-(2 * (100:ℕ) * 0.001 ^ 2 * Real.exp 9)) := by
  obtain ⟨m, hm, -⟩ := C12_normal 0 (σ := 1) one_pos none
  have hev : Values (gradEv (fun x : Fin 1 → ℝ => 3 - x 0) fun _ _ => -1) (fun _ => True) fun x : Fin 1 → ℝ => 3 - x 0 :=
    fun s xs _ => ⟨s, rfl, trivial⟩
  have hA : MeasurableSet {u : Fin 1 → ℝ | 3 - uToX ⟨1, 1⟩ (fun _ => m) u 0 < 0} := by
    simp only [std_uToX hm]; exact measurableSet_lt (by fun_prop) measurable_const
  have hp : ∀ d : ℝ, (stdGauss 1).real {u : Fin 1 → ℝ | d - u 0 < 0} = StdNormal.cdf (-d) := by
    intro d
    have h1 := halfspace_lt (n := 1) (fun _ => -1) (by simp) d
    simp only [Fin.sum_univ_one] at h1
    norm_num at h1
    rw [← h1]
    congr 1
    ext u
    simp only [mem_setOf_eq]
    constructor <;> intro h <;> linarith
  have hp3 : (stdGauss 1).real {u : Fin 1 → ℝ | 3 - uToX ⟨1, 1⟩ (fun _ => m) u 0 < 0} = StdNormal.cdf (-3) := by
    simp only [std_uToX hm]; exact hp 3
  refine ⟨m, hm, ?_, ?_, ?_, ?_⟩
  · have h := C124_law (t := ⟨1, 1⟩) (marg := fun _ => m) hev hA (opt := ⟨100, 100, 1, 0, 0⟩) rfl (by norm_num) (by norm_num) rfl le_rfl 0 100
      le_rfl () trivial 2
    simp only [hp3] at h
    exact h
  · have h := (C124_blind (t := ⟨1, 1⟩) (marg := fun _ => m) hev hA (opt := ⟨100, 100, 1, 0, 0⟩) rfl (by norm_num) (by norm_num) one_pos
      (by norm_num) none 0 100 le_rfl () trivial).1
    simp only [std_uToX hm, Option.getD_none, zero_add, one_mul, hp] at h
    exact h
  · have h := (C124_blind (t := ⟨1, 1⟩) (marg := fun _ => m) hev hA (opt := ⟨100, 100, 1, 0, 0⟩) rfl (by norm_num) (by norm_num) one_pos
      (by norm_num) (some fun _ => 3) 0 100 le_rfl () trivial).1
    have e : ∀ z : Fin 1 → ℝ, 3 - (3 + 1 * z 0) < 0 ↔ 0 - z 0 < 0 := fun z => by constructor <;> intro h <;> linarith
    simp only [std_uToX hm, Option.getD_some, e, hp, neg_zero, StdNormal.cdf_zero] at h
    rw [h]; norm_num
  · have h := C124_importance_error (t := ⟨1, 1⟩) (marg := fun _ => m) hev hA (opt := ⟨100, 100, 1, 0, 0⟩) rfl (by norm_num) (by norm_num) rfl
      le_rfl (c := fun _ => 3) (fun u hu => by
        rw [std_uToX hm] at hu
        simp only [Fin.sum_univ_one]
        linarith) 0 100 le_rfl () trivial (ε := 0.001) (by norm_num)
    simp only [hp3, Fin.sum_univ_one] at h
    norm_num at h ⊢
    exact h

end Pystra.Props
