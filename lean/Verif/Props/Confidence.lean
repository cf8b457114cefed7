import Verif.Lemmas.StudentLimit
import Verif.Props.ConvergenceExample

/-! C115: confidence intervals made from the reported coefficient of variation have the coverage they promise. -/

namespace Pystra.Props
open MeasureTheory ProbabilityTheory Spec Matrix Transformation MonteCarlo Form Filter Topology

variable {n : ℕ} {σ : Type} {t : Mats n} {marg : Fin n → Marginal} {ev : Evaluator σ n} {P : σ → Prop} {f : (Fin n → ℝ) → ℝ}

/-- What a run without a target for the coefficient of variation reports. -/
theorem run_reports (hev : Values ev P f) {bs N fuel : ℕ} (hb : 1 ≤ bs) {stdv : ℝ} (hs : 0 < stdv) {cov : ℝ} (hcov : cov ≤ 0)
    (point : Option (Fin n → ℝ)) (ω : ℕ → ℝ) (pos : ℕ) (hN : 1 ≤ N) (hf : N ≤ fuel) (s : σ) (hP : P s) :
    let X := perSample {u | f (uToX t marg u) < 0} stdv (point.getD fun _ => 0)
    ∃ r, MonteCarlo.run t marg ev ⟨N, bs, stdv, cov, 0⟩ point ω pos fuel s = some (.ok r) ∧
      r.Pf = (∑ j : Fin N, X (mcDraw ω n bs N pos j)) / N ∧
      r.st.covQBar = cvOfMean N (∑ j : Fin N, X (mcDraw ω n bs N pos j)) (∑ j : Fin N, X (mcDraw ω n bs N pos j) ^ 2) := by
  intro X
  obtain ⟨r, hr, -, -, hpf, -, -, -, hq, hst, -⟩ := C37_run (t := t) (marg := marg) hev (opt := ⟨N, bs, stdv, cov, 0⟩) rfl hb
    hN hs point ω pos fuel hf s hP
  have hk : r.st.k = N := by
    rcases hst with h | ⟨-, h⟩
    · exact h
    · rw [hq] at h
      exact absurd (h.trans hcov) (not_le.2 (cvOfMean_pos _ _ _))
  have e : ∀ j, summand t marg f ⟨N, bs, stdv, cov, 0⟩ (point.getD fun _ => 0) ω pos j = X (mcDraw ω n bs N pos j) := fun j =>
    summand_perSample (opt := ⟨N, bs, stdv, cov, 0⟩) hs _ ω pos j
  rw [hk] at hpf hq
  simp only [e] at hpf hq
  refine ⟨r, hr, ?_, ?_⟩
  · rw [hpf, Fin.sum_univ_eq_sum_range (fun j => X (mcDraw ω n bs N pos j))]
  · rw [hq, Fin.sum_univ_eq_sum_range (fun j => X (mcDraw ω n bs N pos j)),
      Fin.sum_univ_eq_sum_range (fun j => X (mcDraw ω n bs N pos j) ^ 2)]

/-- The probability of the events `Pf - p ≤ z · cov · Pf` and `Pf - p < z · cov · Pf`. -/
theorem coverage (hev : Values ev P f) (hA : MeasurableSet {u : Fin n → ℝ | f (uToX t marg u) < 0})
    (bs : ℕ) (hb : 1 ≤ bs) (stdv : ℝ) (hs : 0 < stdv) (hs2 : 1 / 2 < stdv ^ 2) (cov : ℝ) (hcov : cov ≤ 0)
    (point : Option (Fin n → ℝ)) (pos : ℕ) (s : σ) (hP : P s) (fuel : ℕ → ℕ) (hf : ∀ N, N ≤ fuel N)
    (hp : 0 < (stdGauss n).real {u | f (uToX t marg u) < 0})
    (hV : 0 < (∫ u in {u | f (uToX t marg u) < 0}, normalDensity (fun _ => 0) 1 u / normalDensity (point.getD fun _ => 0) stdv u ∂(stdGauss n)) -
      (stdGauss n).real {u | f (uToX t marg u) < 0} ^ 2) (z : ℝ) (E : Set ℝ) (hE : E = Set.Iic 0 ∨ E = Set.Iio 0) :
    (∀ N, 1 ≤ N → MeasurableSet {ω | ∃ r, MonteCarlo.run t marg ev ⟨N, bs, stdv, cov, 0⟩ point ω pos (fuel N) s = some (.ok r) ∧
      r.Pf - (stdGauss n).real {u | f (uToX t marg u) < 0} - z * (r.st.covQBar * r.Pf) ∈ E}) ∧
    Tendsto (fun N => stream.real {ω | ∃ r, MonteCarlo.run t marg ev ⟨N, bs, stdv, cov, 0⟩ point ω pos (fuel N) s = some (.ok r) ∧
      r.Pf - (stdGauss n).real {u | f (uToX t marg u) < 0} - z * (r.st.covQBar * r.Pf) ∈ E}) atTop (𝓝 (StdNormal.cdf z)) := by
  obtain ⟨c, hc⟩ : ∃ c, c = point.getD fun _ => 0 := ⟨_, rfl⟩
  rw [← hc] at hV
  obtain ⟨X, hX⟩ : ∃ X, X = perSample {u | f (uToX t marg u) < 0} stdv c := ⟨_, rfl⟩
  have hXm : Measurable X := hX ▸ measurable_perSample hA stdv c
  have hmem : MemLp X 2 (stdGauss n) := hX ▸ memLp_perSample hs hs2 c hA
  have hmean : ∫ z, X z ∂(stdGauss n) = (stdGauss n).real {u | f (uToX t marg u) < 0} := hX ▸ (integral_weighted hs c hA).2
  have hsq := variance_second hs hs2 c hA
  rw [← hsq, ← hX] at hV
  haveI : IsProbabilityMeasure ((stdGauss n).map X) := Measure.isProbabilityMeasure_map hXm.aemeasurable
  have m1 : ∫ x, x ∂((stdGauss n).map X) = (stdGauss n).real {u | f (uToX t marg u) < 0} := by
    rw [integral_map hXm.aemeasurable (by fun_prop), hmean]
  have m2 : ∫ x, x ^ 2 ∂((stdGauss n).map X) = ∫ z, X z ^ 2 ∂(stdGauss n) := integral_map hXm.aemeasurable (by fun_prop)
  have hlim := student_limit (ρ := (stdGauss n).map X)
    ((memLp_map_measure_iff (by fun_prop) hXm.aemeasurable).2 hmem) (by rw [m1]; exact hp) (by rw [m1, m2]; exact hV) z E hE
  rw [m1] at hlim
  have hEm : MeasurableSet E := by
    rcases hE with rfl | rfl
    · exact measurableSet_Iic
    · exact measurableSet_Iio
  have hset : ∀ N, MeasurableSet {y : Fin N → ℝ | (∑ j, y j) / N - (stdGauss n).real {u | f (uToX t marg u) < 0} -
      z * (cvOfMean N (∑ j, y j) (∑ j, y j ^ 2) * ((∑ j, y j) / N)) ∈ E} := by
    intro N
    have a : Measurable fun y : Fin N → ℝ => ∑ j, y j := by fun_prop
    have b : Measurable fun y : Fin N → ℝ => ∑ j, y j ^ 2 := by fun_prop
    exact (((a.div_const _).sub_const _).sub (((measurable_cvOfMean N a b).mul (a.div_const _)).const_mul _)) hEm
  have hdraw : ∀ N, Measurable fun (ω : ℕ → ℝ) (j : Fin N) => X (mcDraw ω n bs N pos j) := fun N =>
    measurable_pi_lambda _ fun j => hXm.comp ((measurable_pi_apply j).comp (measurable_mcDraws (n := n) bs N pos))
  have hev' : ∀ N, 1 ≤ N → {ω | ∃ r, MonteCarlo.run t marg ev ⟨N, bs, stdv, cov, 0⟩ point ω pos (fuel N) s = some (.ok r) ∧
      r.Pf - (stdGauss n).real {u | f (uToX t marg u) < 0} - z * (r.st.covQBar * r.Pf) ∈ E} =
      (fun (ω : ℕ → ℝ) (j : Fin N) => X (mcDraw ω n bs N pos j)) ⁻¹' {y : Fin N → ℝ | (∑ j, y j) / N -
        (stdGauss n).real {u | f (uToX t marg u) < 0} - z * (cvOfMean N (∑ j, y j) (∑ j, y j ^ 2) * ((∑ j, y j) / N)) ∈ E} := by
    intro N hN
    ext ω
    obtain ⟨r, hr, h1, h2⟩ := run_reports (t := t) (marg := marg) hev hb hs hcov point ω pos hN (hf N) s hP
    rw [← hc, ← hX] at h1 h2
    simp only [Set.mem_setOf_eq, Set.mem_preimage]
    rw [← h2, ← h1]
    constructor
    · rintro ⟨r', hr', h⟩
      rw [hr] at hr'
      cases hr'
      exact h
    · exact fun h => ⟨r, hr, h⟩
  refine ⟨fun N hN => by rw [hev' N hN]; exact hdraw N (hset N), ?_⟩
  refine hlim.congr' ?_
  filter_upwards [eventually_ge_atTop 1] with N hN
  have hlaw : stream.map (fun (ω : ℕ → ℝ) (j : Fin N) => X (mcDraw ω n bs N pos j)) = Measure.pi fun _ : Fin N => (stdGauss n).map X := by
    rw [← Measure.pi_map_pi (μ := fun _ : Fin N => stdGauss n) (f := fun _ => X) (fun _ => hXm.aemeasurable), ← samples_law (n := n) (N := N) hb pos,
      Measure.map_map (by fun_prop) (measurable_mcDraws (n := n) bs N pos)]
    rfl
  rw [hev' N hN, ← hlaw, map_measureReal_apply (hdraw N) (hset N)]

/-- C115: the reported coefficient of variation gives confidence intervals.  In crude Monte Carlo and importance-sampling runs of fixed
length `N`, the interval `Pf ± z · cov · Pf` made of the reported failure probability and the reported coefficient of variation contains
the exact failure probability with a probability that converges to `Φ(z) - Φ(-z)` as `N` grows, and the one-sided bound `Pf - z · cov · Pf`
lies below it with a probability that converges to `Φ(z)`: for every limit state that fails with positive probability, every centre, every
block size, and every sampling standard deviation above `1/√2` (with which the summands have a variance), if that variance is not zero. -/
theorem C115_interval (hev : Values ev P f) (hA : MeasurableSet {u : Fin n → ℝ | f (uToX t marg u) < 0})
    (bs : ℕ) (hb : 1 ≤ bs) (stdv : ℝ) (hs : 0 < stdv) (hs2 : 1 / 2 < stdv ^ 2) (cov : ℝ) (hcov : cov ≤ 0)
    (point : Option (Fin n → ℝ)) (pos : ℕ) (s : σ) (hP : P s) (fuel : ℕ → ℕ) (hf : ∀ N, N ≤ fuel N) :
    let c := point.getD fun _ => 0
    let p := (stdGauss n).real {u | f (uToX t marg u) < 0}
    let V := (∫ u in {u | f (uToX t marg u) < 0},
      normalDensity (fun _ => 0) 1 u / normalDensity c stdv u ∂(stdGauss n)) - p ^ 2
    0 < p → 0 < V →
      (∀ z : ℝ, 0 ≤ z → Tendsto (fun N => stream.real {ω | ∃ r,
        MonteCarlo.run t marg ev ⟨N, bs, stdv, cov, 0⟩ point ω pos (fuel N) s = some (.ok r) ∧
          |r.Pf - p| ≤ z * (r.st.covQBar * r.Pf)}) atTop (𝓝 (StdNormal.cdf z - StdNormal.cdf (-z)))) ∧
      ∀ z : ℝ, Tendsto (fun N => stream.real {ω | ∃ r,
        MonteCarlo.run t marg ev ⟨N, bs, stdv, cov, 0⟩ point ω pos (fuel N) s = some (.ok r) ∧
          r.Pf - z * (r.st.covQBar * r.Pf) ≤ p}) atTop (𝓝 (StdNormal.cdf z)) := by
  intro c p V hp hV
  have cov1 := fun z => coverage (t := t) (marg := marg) hev hA bs hb stdv hs hs2 cov hcov point pos s hP fuel hf hp hV z (Set.Iic 0) (Or.inl rfl)
  have cov2 := fun z => coverage (t := t) (marg := marg) hev hA bs hb stdv hs hs2 cov hcov point pos s hP fuel hf hp hV z (Set.Iio 0) (Or.inr rfl)
  simp only [Set.mem_Iic, Set.mem_Iio] at cov1 cov2
  refine ⟨fun z hz => ?_, fun z => ?_⟩
  · refine ((cov1 z).2.sub (cov2 (-z)).2).congr' ?_
    filter_upwards [eventually_ge_atTop 1] with N hN
    rw [← measureReal_diff ?_ ((cov2 (-z)).1 N hN)]
    · congr 1
      ext ω
      obtain ⟨r, hr, -⟩ := run_reports (t := t) (marg := marg) hev hb hs hcov point ω pos hN (hf N) s hP
      have hex : ∀ Q : Result σ n → Prop, (∃ r', MonteCarlo.run t marg ev ⟨N, bs, stdv, cov, 0⟩ point ω pos (fuel N) s = some (.ok r') ∧ Q r') ↔ Q r := by
        intro Q
        constructor
        · rintro ⟨r', hr', h⟩
          rw [hr] at hr'; cases hr'; exact h
        · exact fun h => ⟨r, hr, h⟩
      simp only [Set.mem_diff, Set.mem_setOf_eq, hex, abs_le, not_lt]
      constructor
      · rintro ⟨h1, h2⟩; constructor <;> linarith
      · rintro ⟨h1, h2⟩; constructor <;> linarith
    · rintro ω ⟨r, hr, h⟩
      obtain ⟨r', hr', h1, h2⟩ := run_reports (t := t) (marg := marg) hev hb hs hcov point ω pos hN (hf N) s hP
      rw [hr] at hr'
      cases hr'
      refine ⟨r, hr, ?_⟩
      have hPf : 0 ≤ r.Pf := by
        rw [h1]
        refine div_nonneg (Finset.sum_nonneg fun j _ => Set.indicator_nonneg (fun u _ => weight_nonneg hs _ u) _) (Nat.cast_nonneg _)
      have hcv : 0 ≤ r.st.covQBar := by rw [h2]; exact (cvOfMean_pos _ _ _).le
      have := mul_nonneg hz (mul_nonneg hcv hPf)
      linarith
  · refine (cov1 z).2.congr fun N => ?_
    congr 1
    ext ω
    refine exists_congr fun r => and_congr_right fun _ => ?_
    constructor <;> intro h <;> linarith

/-- C115 for crude Monte Carlo: it is enough that failure and survival are both possible. -/
theorem C115_crude (hev : Values ev P f) (hA : MeasurableSet {u : Fin n → ℝ | f (uToX t marg u) < 0})
    (bs : ℕ) (hb : 1 ≤ bs) (cov : ℝ) (hcov : cov ≤ 0) (pos : ℕ) (s : σ) (hP : P s) (fuel : ℕ → ℕ) (hf : ∀ N, N ≤ fuel N) :
    let p := (stdGauss n).real {u | f (uToX t marg u) < 0}
    0 < p → p < 1 →
      (∀ z : ℝ, 0 ≤ z → Tendsto (fun N => stream.real {ω | ∃ r,
        MonteCarlo.run t marg ev ⟨N, bs, 1, cov, 0⟩ none ω pos (fuel N) s = some (.ok r) ∧
          |r.Pf - p| ≤ z * (r.st.covQBar * r.Pf)}) atTop (𝓝 (StdNormal.cdf z - StdNormal.cdf (-z)))) ∧
      ∀ z : ℝ, Tendsto (fun N => stream.real {ω | ∃ r,
        MonteCarlo.run t marg ev ⟨N, bs, 1, cov, 0⟩ none ω pos (fuel N) s = some (.ok r) ∧
          r.Pf - z * (r.st.covQBar * r.Pf) ≤ p}) atTop (𝓝 (StdNormal.cdf z)) := by
  intro p hp hp1
  refine C115_interval (t := t) (marg := marg) hev hA bs hb 1 one_pos (by norm_num) cov hcov none pos s hP fuel hf hp ?_
  have h2 := setIntegral_weight_unit (fun _ => 0) hA
  simp only [MonteCarlo.weight_eq one_pos] at h2
  have e0 : ∀ u : Fin n → ℝ, u - (fun _ => 0) = u := fun u => by funext i; simp
  simp only [Option.getD_none]
  rw [h2]
  simp only [e0, Set.setOf_mem_eq, dotProduct, mul_zero, Finset.sum_const_zero, Real.exp_zero, one_mul]
  show 0 < p - p ^ 2
  nlinarith

/-- Non-vacuity: crude Monte Carlo on the limit state `1 + x` of one standard normal variable, in blocks of 10.  The interval
`Pf ± 1.96 · cov · Pf` contains `Φ(-1)` with a probability that converges to `Φ(1.96) - Φ(-1.96)`. -/
example : ∃ m : Marginal, Normal.new 0 (.fin 1) none = .ok m ∧
    Tendsto (fun N => stream.real {ω | ∃ r, MonteCarlo.run (n := 1) ⟨1, 1⟩ (fun _ => m) (plainEv fun x => 1 + x 0) ⟨N, 10, 1, 0, 0⟩ none ω 0 N () =
        some (.ok r) ∧ |r.Pf - StdNormal.cdf (-1)| ≤ 1.96 * (r.st.covQBar * r.Pf)}) atTop
      (𝓝 (StdNormal.cdf 1.96 - StdNormal.cdf (-1.96))) := by
  obtain ⟨m, hm, hux, hA, hp⟩ := half_prob
  have hA' : MeasurableSet {u : Fin 1 → ℝ | (fun x : Fin 1 → ℝ => 1 + x 0) (uToX (n := 1) ⟨1, 1⟩ (fun _ => m) u) < 0} := by
    simp only [hux]; exact hA
  have h := C115_crude (t := ⟨1, 1⟩) (marg := fun _ => m) (plainEv_values fun x : Fin 1 → ℝ => 1 + x 0) hA' 10 (by norm_num) 0 le_rfl 0 () trivial
    (fun N => N) (fun _ => le_rfl)
  simp only [hux, hp] at h
  exact ⟨m, hm, (h (StdNormal.cdf_pos _) (StdNormal.cdf_lt_one _)).1 1.96 (by norm_num)⟩

end Pystra.Props
