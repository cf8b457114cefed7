import Verif.Props.MonteCarloError
import Verif.Lemmas.StrongLaw
import Mathlib.Probability.Moments.SubGaussian

/-! C97: the estimates of the simulation methods converge. -/

namespace Pystra.Props
open MeasureTheory ProbabilityTheory Spec Matrix Transformation MonteCarlo Form Filter Topology

variable {n : ℕ} {σ : Type} {t : Mats n} {marg : Fin n → Marginal} {ev : Evaluator σ n} {P : σ → Prop} {f : (Fin n → ℝ) → ℝ}

theorem summand_perSample {opt : MonteCarlo.Options} (hs : 0 < opt.stdv) (c : Fin n → ℝ) (ω : ℕ → ℝ) (pos j : ℕ) :
    summand t marg f opt c ω pos j = perSample {u | f (uToX t marg u) < 0} opt.stdv c
      (mcDraw ω n opt.blockSize opt.samples pos j) := summand_indicator hs c ω pos j

/-- Sums over whole blocks do not depend on the requested number of samples. -/
theorem sum_whole {opt : MonteCarlo.Options} (hs : 0 < opt.stdv) (hb : 1 ≤ opt.blockSize) (c : Fin n → ℝ) (ω : ℕ → ℝ) (pos : ℕ)
    (F : ℝ → ℝ) {k : ℕ} (hk : k ≤ opt.samples) (hd : opt.blockSize ∣ k) :
    ∑ j ∈ Finset.range k, F (summand t marg f opt c ω pos j) =
      ∑ j ∈ Finset.range k, F (perSample {u | f (uToX t marg u) < 0} opt.stdv c (blockDraw ω n opt.blockSize pos j)) := by
  refine Finset.sum_congr rfl fun j hj => ?_
  obtain ⟨q, rfl⟩ := hd
  rw [summand_perSample hs, mcDraw_block pos ((div_bound hb (Finset.mem_range.1 hj)).trans hk)]

/-- The sequence of estimates: at every number of samples at which a run can stop. -/
theorem means_tendsto (hA : MeasurableSet {u : Fin n → ℝ | f (uToX t marg u) < 0}) {s : ℝ} (hs : 0 < s) {bs : ℕ} (hb : 1 ≤ bs)
    (c : Fin n → ℝ) (pos : ℕ) :
    let p := (stdGauss n).real {u | f (uToX t marg u) < 0}
    let X := perSample {u | f (uToX t marg u) < 0} s c
    ∀ᵐ ω ∂stream,
      Tendsto (fun N : ℕ => (∑ j ∈ Finset.range N, X (blockDraw ω n bs pos j)) / N) atTop (𝓝 p) ∧
      Tendsto (fun N : ℕ => (∑ j ∈ Finset.range N, X (mcDraw ω n bs N pos j)) / N) atTop (𝓝 p) := by
  intro p X
  obtain ⟨h1, h2⟩ := integral_weighted hs c hA
  have hX : Measurable X := measurable_perSample hA s c
  filter_upwards [block_mean hb pos hX h1, mean_tendsto hb pos hX h1] with ω h3 h4
  have e : ∫ z, X z ∂(stdGauss n) = p := h2
  rw [e] at h3 h4
  refine ⟨h3, h4.congr fun N => ?_⟩
  rw [Fin.sum_univ_eq_sum_range (fun j => X (mcDraw ω n bs N pos j))]

/-- C97: crude Monte Carlo and importance sampling converge.  For almost every stream of independent standard normal draws
the reported `Pf` of a run comes as close as wanted to the probability that the limit state is negative, when the requested
number of samples is large and the target coefficient of variation is small (or not positive): whatever the centre and the
sampling standard deviation, and even when the variance of the estimate is infinite. -/
theorem C97_simulation (hev : Values ev P f) (hA : MeasurableSet {u : Fin n → ℝ | f (uToX t marg u) < 0})
    (bs : ℕ) (hb : 1 ≤ bs) (stdv : ℝ) (hs : 0 < stdv) (point : Option (Fin n → ℝ)) (pos : ℕ) (s : σ) (hP : P s) :
    ∀ᵐ ω ∂stream, ∀ ε > 0, ∃ c0 > 0, ∃ N0 : ℕ, ∀ (N fuel : ℕ) (cov : ℝ), N0 ≤ N → N ≤ fuel → cov ≤ c0 →
      ∃ r, MonteCarlo.run t marg ev ⟨N, bs, stdv, cov, 0⟩ point ω pos fuel s = some (.ok r) ∧
        |r.Pf - (stdGauss n).real {u | f (uToX t marg u) < 0}| < ε := by
  filter_upwards [means_tendsto hA hs hb (point.getD fun _ => 0) pos] with ω hω ε hε
  obtain ⟨h1, h2⟩ := hω
  set c := point.getD fun _ => 0 with hc
  set X := perSample {u | f (uToX t marg u) < 0} stdv c with hX
  obtain ⟨M1, hM1⟩ := Metric.tendsto_atTop.1 h1 ε hε
  obtain ⟨M2, hM2⟩ := Metric.tendsto_atTop.1 h2 ε hε
  -- the coefficients of variation at the block boundaries below `M1`
  let cv : ℕ → ℝ := fun m => cvOfMean (m * bs) (∑ j ∈ Finset.range (m * bs), X (blockDraw ω n bs pos j))
    (∑ j ∈ Finset.range (m * bs), X (blockDraw ω n bs pos j) ^ 2)
  obtain ⟨c0, hc0, hcv⟩ : ∃ c0 > 0, ∀ m ≤ M1, c0 < cv m := by
    have : ∀ M, ∃ c0 > 0, ∀ m ≤ M, c0 < cv m := by
      intro M
      induction M with
      | zero =>
        refine ⟨cv 0 / 2, half_pos (cvOfMean_pos _ _ _), fun m hm => ?_⟩
        obtain rfl : m = 0 := by omega
        exact half_lt_self (cvOfMean_pos _ _ _)
      | succ M ih =>
        obtain ⟨c1, h1, h2⟩ := ih
        refine ⟨min c1 (cv (M + 1) / 2), lt_min h1 (half_pos (cvOfMean_pos _ _ _)), fun m hm => ?_⟩
        rcases Nat.lt_or_ge m (M + 1) with h | h
        · exact lt_of_le_of_lt (min_le_left _ _) (h2 m (by omega))
        · obtain rfl : m = M + 1 := by omega
          exact lt_of_le_of_lt (min_le_right _ _) (half_lt_self (cvOfMean_pos _ _ _))
    exact this M1
  refine ⟨c0, hc0, max (max M1 M2) 1, fun N fuel cov hN hf hcov => ?_⟩
  have hN1 : 1 ≤ N := le_trans (le_max_right _ _) hN
  have hNM1 : M1 ≤ N := le_trans (le_trans (le_max_left _ _) (le_max_left _ _)) hN
  have hNM2 : M2 ≤ N := le_trans (le_trans (le_max_right _ _) (le_max_left _ _)) hN
  obtain ⟨r, hr, hk1, hkN, hPf, -, -, -, hq, hst, -⟩ := C37_run (t := t) (marg := marg) hev (opt := ⟨N, bs, stdv, cov, 0⟩) rfl hb
    hN1 hs point ω pos fuel hf s hP
  refine ⟨r, hr, ?_⟩
  rw [← hc] at hPf hq
  simp only at hkN hst hPf hq
  rcases hst with hst | ⟨hd, hst⟩
  · rw [hPf, hst, ← Real.dist_eq]
    have e : ∑ j ∈ Finset.range N, summand t marg f ⟨N, bs, stdv, cov, 0⟩ c ω pos j =
        ∑ j ∈ Finset.range N, X (mcDraw ω n bs N pos j) :=
      Finset.sum_congr rfl fun j _ => summand_perSample (opt := ⟨N, bs, stdv, cov, 0⟩) hs c ω pos j
    rw [e]
    exact hM2 N hNM2
  · have e1 := sum_whole (t := t) (marg := marg) (f := f) (opt := ⟨N, bs, stdv, cov, 0⟩) hs hb c ω pos (fun x => x) hkN hd
    have e2 := sum_whole (t := t) (marg := marg) (f := f) (opt := ⟨N, bs, stdv, cov, 0⟩) hs hb c ω pos (fun x => x ^ 2) hkN hd
    simp only at e1 e2
    rw [e1] at hPf
    rw [e1, e2] at hq
    rcases Nat.lt_or_ge r.st.k M1 with hlt | hge
    · exfalso
      obtain ⟨m, hm⟩ := hd
      have hmM : m ≤ M1 := by nlinarith
      have h3 := hcv m hmM
      have h4 : r.st.covQBar = cv m := by
        rw [hq, hm, mul_comm]
      linarith
    · rw [hPf, ← Real.dist_eq]
      exact hM1 _ hge

/-- C97: and so does the reported reliability index, to the index that belongs to the failure probability. -/
theorem C97_beta (hev : Values ev P f) (hA : MeasurableSet {u : Fin n → ℝ | f (uToX t marg u) < 0})
    (bs : ℕ) (hb : 1 ≤ bs) (stdv : ℝ) (hs : 0 < stdv) (point : Option (Fin n → ℝ)) (pos : ℕ) (s : σ) (hP : P s)
    (beta : ℝ) (hbeta : StdNormal.cdf (-beta) = (stdGauss n).real {u | f (uToX t marg u) < 0}) :
    ∀ᵐ ω ∂stream, ∀ ε > 0, ∃ c0 > 0, ∃ N0 : ℕ, ∀ (N fuel : ℕ) (cov : ℝ), N0 ≤ N → N ≤ fuel → cov ≤ c0 →
      ∃ r b, MonteCarlo.run t marg ev ⟨N, bs, stdv, cov, 0⟩ point ω pos fuel s = some (.ok r) ∧ r.beta = .fin b ∧
        |b - beta| < ε := by
  filter_upwards [C97_simulation (t := t) (marg := marg) hev hA bs hb stdv hs point pos s hP] with ω hω ε hε
  rw [← hbeta] at hω
  have hlo := StdNormal.strictMono_cdf (show -(beta + ε) < -beta by linarith)
  have hhi := StdNormal.strictMono_cdf (show -beta < -(beta - ε) by linarith)
  have hlo0 := StdNormal.cdf_pos (-(beta + ε))
  have hhi1 := StdNormal.cdf_lt_one (-(beta - ε))
  obtain ⟨c0, hc0, N0, h⟩ := hω (min (StdNormal.cdf (-beta) - StdNormal.cdf (-(beta + ε)))
    (StdNormal.cdf (-(beta - ε)) - StdNormal.cdf (-beta))) (lt_min (by linarith) (by linarith))
  refine ⟨c0, hc0, max N0 1, fun N fuel cov hN hf hcov => ?_⟩
  obtain ⟨r, hr, hd⟩ := h N fuel cov (le_trans (le_max_left _ _) hN) hf hcov
  obtain ⟨r', hr', -, -, -, -, hfin, -⟩ := C37_run (t := t) (marg := marg) hev (opt := ⟨N, bs, stdv, cov, 0⟩) rfl hb
    (le_trans (le_max_right _ _) hN) hs point ω pos fuel hf s hP
  rw [hr] at hr'
  cases hr'
  rw [lt_min_iff, abs_lt, abs_lt] at hd
  obtain ⟨⟨h1, -⟩, ⟨-, h2⟩⟩ := hd
  have hP1 : StdNormal.cdf (-(beta + ε)) < r.Pf := by linarith
  have hP2 : r.Pf < StdNormal.cdf (-(beta - ε)) := by linarith
  obtain ⟨b, hb1, hb2⟩ := hfin (by linarith) (by linarith)
  refine ⟨r, b, hr, hb1, ?_⟩
  rw [← hb2] at hP1 hP2
  have h3 := StdNormal.strictMono_cdf.lt_iff_lt.1 hP1
  have h4 := StdNormal.strictMono_cdf.lt_iff_lt.1 hP2
  rw [abs_lt]
  constructor <;> linarith

/-- The mean of the squares of the summands. -/
theorem squares_tendsto (hA : MeasurableSet {u : Fin n → ℝ | f (uToX t marg u) < 0}) {s : ℝ} (hs : 0 < s)
    (h2 : 1 / 2 < s ^ 2) {bs : ℕ} (hb : 1 ≤ bs) (c : Fin n → ℝ) (pos : ℕ) :
    let X := perSample {u | f (uToX t marg u) < 0} s c
    ∀ᵐ ω ∂stream,
      Tendsto (fun N : ℕ => (∑ j ∈ Finset.range N, X (blockDraw ω n bs pos j) ^ 2) / N) atTop
        (𝓝 (∫ z, X z ^ 2 ∂(stdGauss n))) ∧
      Tendsto (fun N : ℕ => (∑ j ∈ Finset.range N, X (mcDraw ω n bs N pos j) ^ 2) / N) atTop
        (𝓝 (∫ z, X z ^ 2 ∂(stdGauss n))) := by
  intro X
  have hX : Measurable X := measurable_perSample hA s c
  have hint : Integrable (fun z => X z ^ 2) (stdGauss n) :=
    (memLp_two_iff_integrable_sq hX.aestronglyMeasurable).1 (memLp_perSample hs h2 c hA)
  filter_upwards [block_mean hb pos (hX.pow_const 2) hint, mean_tendsto hb pos (hX.pow_const 2) hint] with ω h3 h4
  refine ⟨h3, h4.congr fun N => ?_⟩
  rw [Fin.sum_univ_eq_sum_range (fun j => X (mcDraw ω n bs N pos j) ^ 2)]

/-- If the means of the numbers and of their squares converge, so does `√N` times the coefficient of variation of the mean. -/
theorem cv_tendsto {S S2 : ℕ → ℝ} {m m2 : ℝ} (hm : 0 < m) (hv : 0 < m2 - m ^ 2) (h1 : Tendsto (fun N : ℕ => S N / N) atTop (𝓝 m))
    (h2 : Tendsto (fun N : ℕ => S2 N / N) atTop (𝓝 m2)) :
    Tendsto (fun N : ℕ => √N * cvOfMean N (S N) (S2 N)) atTop (𝓝 (√(m2 - m ^ 2) / m)) := by
  have hlim : Tendsto (fun N : ℕ => √(S2 N / N - (S N / N) ^ 2) / (S N / N)) atTop (𝓝 (√(m2 - m ^ 2) / m)) :=
    ((h2.sub (h1.pow 2)).sqrt).div h1 hm.ne'
  refine hlim.congr' ?_
  filter_upwards [h1.eventually_const_lt hm, (h2.sub (h1.pow 2)).eventually_const_lt hv, eventually_ge_atTop 1] with N e1 e2 e3
  have hN : (0:ℝ) < N := by exact_mod_cast e3
  have hS : 0 < S N := by
    rcases div_pos_iff.1 e1 with h | h
    · exact h.1
    · exact absurd h.2 (not_lt.2 hN.le)
  have hr : 0 < √((S2 N / N - (S N / N) ^ 2) / N) / (S N / N) := div_pos (Real.sqrt_pos.2 (div_pos e2 hN)) e1
  unfold cvOfMean
  simp only [if_pos hS, if_neg hr.ne']
  rw [Real.sqrt_div' _ hN.le]
  have := Real.sqrt_pos.2 hN
  field_simp

/-- The variance of a summand, in terms of its second moment. -/
theorem variance_second {s : ℝ} (hs : 0 < s) (h2 : 1 / 2 < s ^ 2) (c : Fin n → ℝ) {A : Set (Fin n → ℝ)} (hA : MeasurableSet A) :
    ∫ z, perSample A s c z ^ 2 ∂(stdGauss n) - (stdGauss n).real A ^ 2 =
      ∫ u in A, normalDensity (fun _ => 0) 1 u / normalDensity c s u ∂(stdGauss n) - (stdGauss n).real A ^ 2 := by
  have h := variance_perSample hs h2 c hA
  rw [variance_eq_sub (memLp_perSample hs h2 c hA)] at h
  have h1 : ∫ z, perSample A s c z ∂(stdGauss n) = (stdGauss n).real A := (integral_weighted hs c hA).2
  rw [h1] at h
  simp only [← weight_eq hs]
  exact h

/-- C97: the reported coefficient of variation is consistent.  In runs of fixed length, `√N` times the reported coefficient of
variation converges, for almost every stream, to the coefficient of variation of one summand: the reported value and the
exact coefficient of variation of the estimate become proportional with ratio 1. -/
theorem C97_cov (hev : Values ev P f) (hA : MeasurableSet {u : Fin n → ℝ | f (uToX t marg u) < 0})
    (bs : ℕ) (hb : 1 ≤ bs) (stdv : ℝ) (hs : 0 < stdv) (hs2 : 1 / 2 < stdv ^ 2) (cov : ℝ) (hcov : cov ≤ 0)
    (point : Option (Fin n → ℝ)) (pos : ℕ) (s : σ) (hP : P s) :
    let c := point.getD fun _ => 0
    let p := (stdGauss n).real {u | f (uToX t marg u) < 0}
    let V := (∫ u in {u | f (uToX t marg u) < 0},
      normalDensity (fun _ => 0) 1 u / normalDensity c stdv u ∂(stdGauss n)) - p ^ 2
    0 < p → 0 < V → ∃ cv : (ℕ → ℝ) → ℕ → ℝ,
      (∀ ω N fuel, 1 ≤ N → N ≤ fuel → ∃ r, MonteCarlo.run t marg ev ⟨N, bs, stdv, cov, 0⟩ point ω pos fuel s = some (.ok r) ∧
        r.st.covQBar = cv ω N) ∧
      ∀ᵐ ω ∂stream, Tendsto (fun N : ℕ => √N * cv ω N) atTop (𝓝 (√V / p)) := by
  intro c p V hp hV
  let X := perSample {u | f (uToX t marg u) < 0} stdv c
  refine ⟨fun ω N => cvOfMean N (∑ j ∈ Finset.range N, X (mcDraw ω n bs N pos j))
    (∑ j ∈ Finset.range N, X (mcDraw ω n bs N pos j) ^ 2), fun ω N fuel hN hf => ?_, ?_⟩
  · obtain ⟨r, hr, -, -, -, -, -, -, hq, hst, -⟩ := C37_run (t := t) (marg := marg) hev (opt := ⟨N, bs, stdv, cov, 0⟩) rfl hb
      hN hs point ω pos fuel hf s hP
    refine ⟨r, hr, ?_⟩
    have hk : r.st.k = N := by
      rcases hst with h | ⟨-, h⟩
      · exact h
      · rw [hq] at h
        exact absurd (h.trans hcov) (not_le.2 (cvOfMean_pos _ _ _))
    rw [hq, hk]
    have e : ∀ j, summand t marg f ⟨N, bs, stdv, cov, 0⟩ (point.getD fun _ => 0) ω pos j = X (mcDraw ω n bs N pos j) := fun j =>
      summand_perSample (opt := ⟨N, bs, stdv, cov, 0⟩) hs _ ω pos j
    simp only [e]
  · filter_upwards [means_tendsto hA hs hb c pos, squares_tendsto hA hs hs2 hb c pos] with ω h1 h2
    have hv := variance_second hs hs2 c hA
    rw [show V = ∫ z, X z ^ 2 ∂(stdGauss n) - p ^ 2 from hv.symm] at hV ⊢
    exact cv_tendsto hp hV h1.2 h2.2

/-- C97: a run with a positive target stops.  If failure is possible and the summands are not almost surely constant, then for
almost every stream there is a bound on the number of samples a run evaluates, whatever number is requested. -/
theorem C97_stops (hev : Values ev P f) (hA : MeasurableSet {u : Fin n → ℝ | f (uToX t marg u) < 0})
    (bs : ℕ) (hb : 1 ≤ bs) (stdv : ℝ) (hs : 0 < stdv) (hs2 : 1 / 2 < stdv ^ 2) (cov : ℝ) (hcov : 0 < cov)
    (point : Option (Fin n → ℝ)) (pos : ℕ) (s : σ) (hP : P s) :
    let c := point.getD fun _ => 0
    let p := (stdGauss n).real {u | f (uToX t marg u) < 0}
    0 < p → 0 < (∫ u in {u | f (uToX t marg u) < 0},
        normalDensity (fun _ => 0) 1 u / normalDensity c stdv u ∂(stdGauss n)) - p ^ 2 →
      ∀ᵐ ω ∂stream, ∃ K, ∀ N fuel, 1 ≤ N → N ≤ fuel →
        ∃ r, MonteCarlo.run t marg ev ⟨N, bs, stdv, cov, 0⟩ point ω pos fuel s = some (.ok r) ∧ r.st.k ≤ K := by
  intro c p hp hV
  filter_upwards [means_tendsto hA hs hb c pos, squares_tendsto hA hs hs2 hb c pos] with ω h1 h2
  set X := perSample {u | f (uToX t marg u) < 0} stdv c with hX
  have hv := variance_second hs hs2 c hA
  rw [← hv] at hV
  have hcv := cv_tendsto hp hV h1.1 h2.1
  have hsq : Tendsto (fun N : ℕ => (√N)⁻¹) atTop (𝓝 0) :=
    tendsto_inv_atTop_zero.comp (Real.tendsto_sqrt_atTop.comp tendsto_natCast_atTop_atTop)
  have hz := hsq.mul hcv
  rw [zero_mul] at hz
  have hev' : ∀ᶠ N : ℕ in atTop, cvOfMean N (∑ j ∈ Finset.range N, X (blockDraw ω n bs pos j))
      (∑ j ∈ Finset.range N, X (blockDraw ω n bs pos j) ^ 2) < cov := by
    filter_upwards [hz.eventually_lt_const hcov, eventually_ge_atTop 1] with N h3 h4
    have : (0:ℝ) < √N := Real.sqrt_pos.2 (by exact_mod_cast h4)
    rwa [inv_mul_cancel_left₀ this.ne'] at h3
  obtain ⟨M, hM⟩ := eventually_atTop.1 hev'
  refine ⟨(M + 1) * bs, fun N fuel hN hf => ?_⟩
  obtain ⟨r, hr, -, hkN, -, -, -, -, -, -, hall⟩ := C37_run (t := t) (marg := marg) hev (opt := ⟨N, bs, stdv, cov, 0⟩) rfl hb
    hN hs point ω pos fuel hf s hP
  refine ⟨r, hr, ?_⟩
  by_contra hlt
  push Not at hlt
  have h3 := hall (M + 1) (by omega) hlt
  simp only at h3 hkN
  have hle : (M + 1) * bs ≤ N := by omega
  have hd : bs ∣ (M + 1) * bs := dvd_mul_left _ _
  have e1 := sum_whole (t := t) (marg := marg) (f := f) (opt := ⟨N, bs, stdv, cov, 0⟩) hs hb c ω pos (fun x => x) hle hd
  have e2 := sum_whole (t := t) (marg := marg) (f := f) (opt := ⟨N, bs, stdv, cov, 0⟩) hs hb c ω pos (fun x => x ^ 2) hle hd
  simp only at e1 e2
  rw [e1, e2] at h3
  have h4 := hM ((M + 1) * bs) (by nlinarith)
  exact absurd h3 (not_lt.2 h4.le)

/-- C97: a run without spread never stops early.  If failure has probability 0, or (crude Monte Carlo) probability 1, then for
almost every stream every run with a target below 1 evaluates all the samples requested: the reported coefficient of
variation stays at 1, also when every sample fails. -/
theorem C97_never (hev : Values ev P f) (hA : MeasurableSet {u : Fin n → ℝ | f (uToX t marg u) < 0})
    (bs : ℕ) (hb : 1 ≤ bs) (stdv : ℝ) (hs : 0 < stdv) (cov : ℝ) (hcov : cov < 1)
    (point : Option (Fin n → ℝ)) (pos : ℕ) (s : σ) (hP : P s)
    (hp : (stdGauss n).real {u | f (uToX t marg u) < 0} = 0 ∨
      (stdGauss n).real {u | f (uToX t marg u) < 0} = 1 ∧ stdv = 1 ∧ point = none) :
    ∀ᵐ ω ∂stream, ∀ N fuel, 1 ≤ N → N ≤ fuel →
      ∃ r, MonteCarlo.run t marg ev ⟨N, bs, stdv, cov, 0⟩ point ω pos fuel s = some (.ok r) ∧ r.st.k = N := by
  set c := point.getD fun _ => 0 with hc
  set X := perSample {u | f (uToX t marg u) < 0} stdv c with hX
  obtain ⟨κ, hκ⟩ : ∃ κ, ∀ᵐ z ∂(stdGauss n), X z = κ := by
    rcases hp with hp | ⟨hp, h1, h2⟩
    · refine ⟨0, ?_⟩
      obtain ⟨hi, he⟩ := integral_weighted hs c hA
      rw [hp] at he
      exact (integral_eq_zero_iff_of_nonneg (fun z => Set.indicator_nonneg (fun u _ => weight_nonneg hs c u) _) hi).1 he
    · refine ⟨1, ?_⟩
      have h3 : ∀ᵐ z ∂(stdGauss n), z ∈ {u : Fin n → ℝ | f (uToX t marg u) < 0} := by
        have h0 := probReal_compl_eq_one_sub (μ := stdGauss n) hA
        rw [hp, sub_self, measureReal_eq_zero_iff] at h0
        exact mem_ae_iff.2 h0
      filter_upwards [h3] with z hz
      have e : (fun r => c r + stdv * z r) = z := by
        funext r; rw [hc, h2, h1]; simp
      rw [hX]
      unfold perSample
      rw [e, Set.indicator_of_mem (s := {u : Fin n → ℝ | f (uToX t marg u) < 0}) hz, h1, hc, h2]
      exact C38_unit_weights z
  have hall : ∀ j, ∀ᵐ ω ∂stream, X (blockDraw ω n bs pos j) = κ := by
    intro j
    rw [← blockDraw_law (n := n) hb pos j] at hκ
    exact ae_of_ae_map (measurable_blockDraw bs pos j).aemeasurable hκ
  filter_upwards [ae_all_iff.2 hall] with ω hω N fuel hN hf
  obtain ⟨r, hr, hk1, hkN, -, -, -, -, hq, hst, -⟩ := C37_run (t := t) (marg := marg) hev (opt := ⟨N, bs, stdv, cov, 0⟩) rfl hb
    hN hs point ω pos fuel hf s hP
  refine ⟨r, hr, ?_⟩
  rw [← hc] at hq
  simp only at hst hkN hq
  rcases hst with hst | ⟨hd, hst⟩
  · exact hst
  · exfalso
    have e1 := sum_whole (t := t) (marg := marg) (f := f) (opt := ⟨N, bs, stdv, cov, 0⟩) hs hb c ω pos (fun x => x) hkN hd
    have e2 := sum_whole (t := t) (marg := marg) (f := f) (opt := ⟨N, bs, stdv, cov, 0⟩) hs hb c ω pos (fun x => x ^ 2) hkN hd
    simp only at e1 e2
    rw [e1, e2] at hq
    have hX' : ∀ j, perSample {u | f (uToX t marg u) < 0} stdv c (blockDraw ω n bs pos j) = κ := hω
    simp only [hX', Finset.sum_const, Finset.card_range, nsmul_eq_mul] at hq
    have hk : (r.st.k : ℝ) ≠ 0 := by
      have : r.st.k ≠ 0 := by omega
      exact_mod_cast this
    unfold cvOfMean at hq
    have hz : √((r.st.k * κ ^ 2 / (r.st.k:ℝ) - (r.st.k * κ / (r.st.k:ℝ)) ^ 2) / r.st.k) / (r.st.k * κ / (r.st.k:ℝ)) = 0 := by
      rw [mul_div_cancel_left₀ _ hk, mul_div_cancel_left₀ _ hk, sub_self, zero_div, Real.sqrt_zero, zero_div]
    simp only [hz, if_true, ite_self] at hq
    rw [hq] at hst
    linarith

/-! Exponential bounds -/

/-- Hoeffding's inequality for the mean of a function, with values in [0, 1], of independent draws. -/
theorem hoeffding_mean {Ω E : Type*} {mΩ : MeasurableSpace Ω} {μ : Measure Ω} [IsProbabilityMeasure μ] {mE : MeasurableSpace E}
    {ν : Measure E} [IsProbabilityMeasure ν] {N : ℕ} (hN : 1 ≤ N) {Z : Fin N → Ω → E} (hZ : ∀ j, Measurable (Z j))
    (hlaw : μ.map (fun ω j => Z j ω) = Measure.pi (fun _ => ν)) {X : E → ℝ} (hX : AEMeasurable X ν)
    (h01 : ∀ e, X e ∈ Set.Icc (0:ℝ) 1) {ε : ℝ} (hε : 0 < ε) :
    μ.real {ω | ε ≤ |(∑ j, X (Z j ω)) / N - ∫ e, X e ∂ν|} ≤ 2 * Real.exp (-2 * N * ε ^ 2) := by
  have hN' : (0:ℝ) < N := by exact_mod_cast hN
  have hlaw1 : ∀ j, μ.map (Z j) = ν := by
    intro j
    have h2 := (measurePreserving_eval (fun _ : Fin N => ν) j).map_eq
    rw [← hlaw, Measure.map_map (measurable_pi_apply j) (measurable_pi_lambda _ hZ)] at h2
    exact h2
  have hXZ : ∀ j, AEMeasurable X (μ.map (Z j)) := fun j => by rw [hlaw1]; exact hX
  have hmean : ∀ j, ∫ ω, X (Z j ω) ∂μ = ∫ e, X e ∂ν := by
    intro j
    rw [← hlaw1 j, integral_map (hZ j).aemeasurable (hXZ j).aestronglyMeasurable]
  have hind : iIndepFun Z μ := by
    rw [iIndepFun_iff_map_fun_eq_pi_map fun j => (hZ j).aemeasurable, hlaw]
    simp only [hlaw1]
  have key : ∀ a : ℝ, (a = 1 ∨ a = -1) →
      μ.real {ω | N * ε ≤ ∑ j ∈ Finset.univ, (a * X (Z j ω) - ∫ ω, a * X (Z j ω) ∂μ)} ≤ Real.exp (-2 * N * ε ^ 2) := by
    intro a ha
    have hi : iIndepFun (fun j ω => a * X (Z j ω) - ∫ ω, a * X (Z j ω) ∂μ) μ := by
      have := hind.comp₀ (fun j e => a * X e - ∫ ω, a * X (Z j ω) ∂μ) (fun j => (hZ j).aemeasurable)
        (fun j => ((hXZ j).const_mul a).sub_const _)
      exact this
    have hsub : ∀ j ∈ (Finset.univ : Finset (Fin N)), HasSubgaussianMGF (fun ω => a * X (Z j ω) - ∫ ω, a * X (Z j ω) ∂μ)
        ((1 / 2) ^ 2) μ := by
      intro j _
      have hm : AEMeasurable (fun ω => a * X (Z j ω)) μ := ((hXZ j).comp_aemeasurable (hZ j).aemeasurable).const_mul a
      rcases ha with rfl | rfl
      · have h := hasSubgaussianMGF_of_mem_Icc (a := 0) (b := 1) hm (Eventually.of_forall fun ω => by
          rw [one_mul]; exact h01 _)
        simpa using h
      · have h := hasSubgaussianMGF_of_mem_Icc (a := -1) (b := 0) hm (Eventually.of_forall fun ω => by
          have := h01 (Z j ω)
          simp only [Set.mem_Icc] at this ⊢
          constructor <;> linarith)
        simpa using h
    have h := HasSubgaussianMGF.measure_sum_ge_le_of_iIndepFun hi hsub (ε := N * ε) (by positivity)
    refine h.trans (le_of_eq ?_)
    congr 1
    simp only [Finset.sum_const, Finset.card_univ, Fintype.card_fin, nsmul_eq_mul]
    push_cast
    field_simp
  have hsplit : {ω | ε ≤ |(∑ j, X (Z j ω)) / N - ∫ e, X e ∂ν|} ⊆
      {ω | N * ε ≤ ∑ j ∈ Finset.univ, ((1:ℝ) * X (Z j ω) - ∫ ω, (1:ℝ) * X (Z j ω) ∂μ)} ∪
      {ω | N * ε ≤ ∑ j ∈ Finset.univ, ((-1:ℝ) * X (Z j ω) - ∫ ω, (-1:ℝ) * X (Z j ω) ∂μ)} := by
    intro ω hω
    simp only [integral_const_mul, hmean, Finset.sum_sub_distrib, ← Finset.mul_sum, Finset.sum_const, Finset.card_univ,
      Fintype.card_fin, nsmul_eq_mul, Set.mem_union, Set.mem_setOf_eq] at hω ⊢
    rcases le_abs.1 hω with h | h
    · left
      rw [le_sub_iff_add_le, le_div_iff₀ hN'] at h
      linarith
    · right
      have h' : ε ≤ ∫ e, X e ∂ν - (∑ j, X (Z j ω)) / N := by linarith
      rw [le_sub_iff_add_le, ← le_sub_iff_add_le', div_le_iff₀ hN'] at h'
      linarith
  calc _ ≤ _ := measureReal_mono hsplit
    _ ≤ _ := measureReal_union_le _ _
    _ ≤ Real.exp (-2 * N * ε ^ 2) + Real.exp (-2 * N * ε ^ 2) := add_le_add (key 1 (Or.inl rfl)) (key (-1) (Or.inr rfl))
    _ = _ := by ring

/-- C97: the error of crude Monte Carlo has exponentially small tails: in a run of fixed length `N` the probability that the
reported `Pf` misses the probability of failure by `ε` or more is at most `2 exp(-2 N ε²)`. -/
theorem C97_exponential (hev : Values ev P f) (hA : MeasurableSet {u : Fin n → ℝ | f (uToX t marg u) < 0})
    {opt : MonteCarlo.Options} (hg : opt.randomGenerator = 0) (hb : 1 ≤ opt.blockSize) (hN : 1 ≤ opt.samples) (hs : opt.stdv = 1)
    (hcov : opt.cov ≤ 0) (pos fuel : ℕ) (hf : opt.samples ≤ fuel) (s : σ) (hP : P s) {ε : ℝ} (hε : 0 < ε) :
    stream.real {ω | ∃ r, MonteCarlo.run t marg ev opt none ω pos fuel s = some (.ok r) ∧
      ε ≤ |r.Pf - (stdGauss n).real {u | f (uToX t marg u) < 0}|} ≤ 2 * Real.exp (-2 * opt.samples * ε ^ 2) := by
  have hs' : 0 < opt.stdv := by rw [hs]; exact one_pos
  let X := perSample {u | f (uToX t marg u) < 0} opt.stdv (fun _ => 0)
  have hXm : Measurable X := measurable_perSample hA _ _
  have h01 : ∀ z, X z ∈ Set.Icc (0:ℝ) 1 := by
    intro z
    simp only [X, perSample, hs]
    unfold Set.indicator
    split_ifs
    · rw [C38_unit_weights]; simp
    · simp
  have h := hoeffding_mean hN (fun j => (measurable_pi_apply j).comp (measurable_draw (n := n) opt.blockSize opt.samples pos))
    (samples_law hb pos) hXm.aemeasurable h01 hε
  have he : ∫ z, X z ∂(stdGauss n) = (stdGauss n).real {u | f (uToX t marg u) < 0} := (integral_weighted hs' _ hA).2
  rw [he] at h
  refine le_trans (measureReal_mono ?_) h
  rintro ω ⟨r, hr, hd⟩
  obtain ⟨r', hr', -, hq⟩ := run_perSample (t := t) (marg := marg) hev hg hb hN hs' hcov none ω pos fuel hf s hP
  rw [hr] at hr'
  cases hr'
  rw [hq] at hd
  exact hd

end Pystra.Props
