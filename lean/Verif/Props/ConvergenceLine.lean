import Verif.Props.Convergence
import Verif.Props.LineSampling

/-! C97: line sampling and the distribution analysis. -/

namespace Pystra.Props
open MeasureTheory ProbabilityTheory Spec Matrix Transformation LineSampling Form Filter Topology

variable {n : ℕ} {σ : Type} {t : Mats n} {marg : Fin n → Marginal} {ev : Evaluator σ n} {P : σ → Prop} {f : (Fin n → ℝ) → ℝ}

/-- Errors with exponentially small tails vanish almost surely. -/
theorem tendsto_of_tails {Ω : Type*} {mΩ : MeasurableSpace Ω} {μ : Measure Ω} [IsProbabilityMeasure μ] {e : ℕ → Ω → ℝ}
    (h : ∀ N : ℕ, 1 ≤ N → ∀ ε > 0, μ.real {ω | ε ≤ |e N ω|} ≤ 2 * Real.exp (-2 * N * ε ^ 2)) :
    ∀ᵐ ω ∂μ, Tendsto (fun N => e N ω) atTop (𝓝 0) := by
  have key : ∀ k : ℕ, ∀ᵐ ω ∂μ, ∀ᶠ N : ℕ in atTop, |e N ω| < 1 / (k + 1 : ℝ) := by
    intro k
    set ε : ℝ := 1 / (k + 1 : ℝ) with hε
    have hε0 : 0 < ε := by positivity
    have hlt : Real.exp (-2 * ε ^ 2) < 1 := Real.exp_lt_one_iff.2 (by nlinarith [sq_pos_of_pos hε0])
    have hgeo : ∀ N : ℕ, Real.exp (-2 * (N + 1 : ℕ) * ε ^ 2) = Real.exp (-2 * ε ^ 2) ^ (N + 1) := by
      intro N
      rw [← Real.exp_nat_mul]
      congr 1
      ring
    have hsum : Summable (fun N : ℕ => 2 * Real.exp (-2 * (N + 1 : ℕ) * ε ^ 2)) := by
      simp only [hgeo]
      exact ((summable_nat_add_iff 1).2 (summable_geometric_of_lt_one (Real.exp_pos _).le hlt)).mul_left 2
    have hfin : (∑' N : ℕ, μ {ω | ε ≤ |e (N + 1) ω|}) ≠ ⊤ := by
      refine ne_top_of_le_ne_top (b := ∑' N : ℕ, ENNReal.ofReal (2 * Real.exp (-2 * (N + 1 : ℕ) * ε ^ 2))) ?_ ?_
      · rw [← ENNReal.ofReal_tsum_of_nonneg (fun N => by positivity) hsum]
        exact ENNReal.ofReal_ne_top
      · refine ENNReal.tsum_le_tsum fun N => ?_
        have := h (N + 1) (by omega) ε hε0
        rw [measureReal_def] at this
        exact (ENNReal.le_ofReal_iff_toReal_le (measure_ne_top _ _) (by positivity)).2 this
    filter_upwards [ae_eventually_notMem hfin] with ω hω
    obtain ⟨N0, h0⟩ := eventually_atTop.1 hω
    refine eventually_atTop.2 ⟨N0 + 1, fun N hN => ?_⟩
    obtain ⟨M, rfl⟩ : ∃ M, N = M + 1 := ⟨N - 1, by omega⟩
    simpa using h0 M (by omega)
  filter_upwards [ae_all_iff.2 key] with ω hω
  rw [Metric.tendsto_atTop]
  intro ε hε
  obtain ⟨k, hk⟩ := exists_nat_one_div_lt hε
  obtain ⟨N0, h0⟩ := eventually_atTop.1 (hω k)
  refine ⟨N0, fun N hN => ?_⟩
  rw [Real.dist_eq, sub_zero]
  exact (h0 N hN).trans hk

/-- C97: line sampling converges.  If every line in the direction `alpha` crosses from safe to failed once, then with `E` the
bound of C45 on the error made on single lines (the tolerance of the root finder or the cut-off of the search, whichever is
larger; half a scan interval if the root finder may give up): the probability that the reported `Pf` of a run with `N` lines
misses the failure probability by `E + ε` or more is at most `2 exp(-2 N ε²)`, and for almost every stream the error is
below `E + ε` from some number of lines on. -/
theorem C97_line (hev : PointValues ev P (fun x => some (f x)))
    (hfm : Measurable (fun u => f (uToX t marg u))) (alpha : Fin n → ℝ) (ha : ∑ i, alpha i * alpha i = 1)
    (C : (Fin n → ℝ) → ℝ)
    (hC : ∀ v, ∑ i, alpha i * v i = 0 → ∀ c, (c < C v → 0 < f (uToX t marg (fun i => v i + c * alpha i))) ∧
      (C v < c → f (uToX t marg (fun i => v i + c * alpha i)) < 0)) (betaForm : ℝ) (pos : ℕ) :
    let m := max (|betaForm| * 3 + 5) 15
    let p := (stdGauss n).real {u | f (uToX t marg u) ≤ 0}
    let V : ℕ → (ℕ → ℝ) → ℕ → Fin n → ℝ := fun N ω j i =>
      lsDraw ω n N pos j i - (∑ k, alpha k * lsDraw ω n N pos j k) * alpha i
    ∀ E : ℝ, (E = max (m / 39 / √(2 * Real.pi)) (StdNormal.cdf (-m)) ∨
        E = max ((1e-6 + 4 * (1 / 2) ^ 52 * m) / √(2 * Real.pi)) (StdNormal.cdf (-m)) ∧
        ∀ N ω, ∀ j < N, ∀ k < 39, ∀ s', P s' →
          SignChange (onLine t marg (fun x => some (f x)) (V N ω j) alpha) (scanPoint m k) (scanPoint m (k + 1)) →
          ∃ c, (Brent.brentq (evalAt t marg ev (V N ω j) alpha) (scanPoint m k) (scanPoint m (k + 1)) 1e-6 (4 * (1 / 2) ^ 52) 50 s').2
            = .ok c) →
      (∀ N : ℕ, 1 ≤ N → ∀ ε > 0,
        stream.real {ω | ∃ s, P s ∧ E + ε ≤ |(sample t marg ev alpha betaForm N ω pos s).2.Pf - p|} ≤
          2 * Real.exp (-2 * N * ε ^ 2)) ∧
      ∀ᵐ ω ∂stream, ∀ ε > 0, ∃ N0 : ℕ, ∀ N, N0 ≤ N → ∀ s, P s →
        |(sample t marg ev alpha betaForm N ω pos s).2.Pf - p| < E + ε := by
  intro m p V E hE
  let X : (Fin n → ℝ) → ℝ := fun u => StdNormal.cdf (-(C (project alpha u)))
  obtain ⟨hint, hval⟩ := line_fubini alpha ha hfm hC
  have hVp : ∀ N ω j, V N ω j = project alpha (lsDraw ω n N pos j) := by
    intro N ω j
    funext i
    simp only [V, project, dotProduct]
    ring
  let ideal : ℕ → (ℕ → ℝ) → ℝ := fun N ω => (∑ j ∈ Finset.range N, StdNormal.cdf (-(C (V N ω j)))) / N
  have hideal : ∀ N ω, ideal N ω = (∑ j : Fin N, X (lsDraw ω n N pos j)) / N := by
    intro N ω
    simp only [ideal, X, hVp]
    rw [Fin.sum_univ_eq_sum_range (fun j => StdNormal.cdf (-(C (project alpha (lsDraw ω n N pos j)))))]
  have herr : ∀ N, 1 ≤ N → ∀ ω s, P s → |(sample t marg ev alpha betaForm N ω pos s).2.Pf - ideal N ω| ≤ E := by
    intro N hN ω s hs
    obtain ⟨h1, h2, -⟩ := C45_unbiased hev hfm alpha ha C hC betaForm hN pos
    rcases hE with hE | ⟨hE, hconv⟩
    · rw [hE]; exact h1 ω s hs
    · rw [hE]; exact h2 ω s hs (hconv N ω)
  have htail : ∀ N : ℕ, 1 ≤ N → ∀ ε > 0, stream.real {ω | ε ≤ |ideal N ω - p|} ≤ 2 * Real.exp (-2 * N * ε ^ 2) := by
    intro N hN ε hε
    have hm : ∀ j : Fin N, Measurable (fun ω : ℕ → ℝ => lsDraw ω n N pos j) := fun j => by unfold lsDraw; fun_prop
    have h := hoeffding_mean hN hm (randn_law (n := n) N pos) hint.aemeasurable
      (fun u => ⟨(StdNormal.cdf_pos _).le, (StdNormal.cdf_lt_one _).le⟩) hε
    rw [hval] at h
    simp only [hideal]
    exact h
  refine ⟨fun N hN ε hε => le_trans (measureReal_mono ?_) (htail N hN ε hε), ?_⟩
  · rintro ω ⟨s, hs, hd⟩
    have h1 := herr N hN ω s hs
    have h2 := abs_sub_le (sample t marg ev alpha betaForm N ω pos s).2.Pf (ideal N ω) p
    simp only [Set.mem_setOf_eq]
    linarith
  · filter_upwards [tendsto_of_tails htail] with ω hω ε hε
    obtain ⟨N0, h0⟩ := Metric.tendsto_atTop.1 hω ε hε
    refine ⟨max N0 1, fun N hN s hs => ?_⟩
    have h1 := herr N (le_trans (le_max_right _ _) hN) ω s hs
    have h2 := abs_sub_le (sample t marg ev alpha betaForm N ω pos s).2.Pf (ideal N ω) p
    have h3 := h0 N (le_trans (le_max_left _ _) hN)
    rw [Real.dist_eq, sub_zero] at h3
    linarith

/-- C97: with exact line probabilities line sampling is never worse than crude Monte Carlo with the same number of samples:
the variance of the mean of the exact line probabilities is at most `p(1-p)/N`. -/
theorem C97_line_variance (hfm : Measurable (fun u => f (uToX t marg u))) (alpha : Fin n → ℝ) (ha : ∑ i, alpha i * alpha i = 1)
    (C : (Fin n → ℝ) → ℝ)
    (hC : ∀ v, ∑ i, alpha i * v i = 0 → ∀ c, (c < C v → 0 < f (uToX t marg (fun i => v i + c * alpha i))) ∧
      (C v < c → f (uToX t marg (fun i => v i + c * alpha i)) < 0)) {N : ℕ} (hN : 1 ≤ N) (pos : ℕ) :
    let p := (stdGauss n).real {u | f (uToX t marg u) ≤ 0}
    let V : (ℕ → ℝ) → ℕ → Fin n → ℝ := fun ω j i => lsDraw ω n N pos j i - (∑ k, alpha k * lsDraw ω n N pos j k) * alpha i
    Var[fun ω => (∑ j ∈ Finset.range N, StdNormal.cdf (-(C (V ω j)))) / N; stream] ≤ p * (1 - p) / N := by
  intro p V
  let X : (Fin n → ℝ) → ℝ := fun u => StdNormal.cdf (-(C (project alpha u)))
  obtain ⟨hint, hval⟩ := line_fubini alpha ha hfm hC
  have hVp : ∀ ω j, V ω j = project alpha (lsDraw ω n N pos j) := by
    intro ω j
    funext i
    simp only [V, project, dotProduct]
    ring
  have hX01 : ∀ u, 0 ≤ X u ∧ X u ≤ 1 := fun u => ⟨(StdNormal.cdf_pos _).le, (StdNormal.cdf_lt_one _).le⟩
  have hXL : MemLp X 2 (stdGauss n) := MemLp.of_bound hint.aestronglyMeasurable 1
    (Eventually.of_forall fun u => by rw [Real.norm_eq_abs, abs_of_nonneg (hX01 u).1]; exact (hX01 u).2)
  have hvar : Var[X; stdGauss n] ≤ p * (1 - p) := by
    rw [variance_eq_sub hXL]
    have h1 : ∫ u, (X ^ 2) u ∂(stdGauss n) ≤ ∫ u, X u ∂(stdGauss n) := by
      refine integral_mono hXL.integrable_sq hint fun u => ?_
      have := hX01 u
      simp only [Pi.pow_apply]
      nlinarith
    have h2 : ∫ u, X u ∂(stdGauss n) = p := hval
    rw [h2] at h1 ⊢
    linarith
  have hsum : Var[∑ j : Fin N, fun z : Fin N → Fin n → ℝ => X (z j);
      Measure.pi (fun _ : Fin N => stdGauss n)] = N * Var[X; stdGauss n] := by
    rw [variance_sum_pi (X := fun _ => X) (fun _ => hXL)]
    simp
  have hlaw := randn_law (n := n) N pos
  have hmd : Measurable (fun (ω : ℕ → ℝ) (j : Fin N) (r : Fin n) => ω (pos + r.val * N + j.val)) := by fun_prop
  have hae : AEMeasurable (∑ j : Fin N, fun z : Fin N → Fin n → ℝ => X (z j)) (Measure.pi (fun _ : Fin N => stdGauss n)) := by
    have e0 : (∑ j : Fin N, fun z : Fin N → Fin n → ℝ => X (z j)) = fun z => ∑ j, X (z j) := by
      funext z; simp only [Finset.sum_apply]
    rw [e0]
    refine Finset.aemeasurable_fun_sum _ fun j _ => ?_
    exact hint.aemeasurable.comp_quasiMeasurePreserving
      (measurePreserving_eval (fun _ : Fin N => stdGauss n) j).quasiMeasurePreserving
  rw [← hlaw] at hsum hae
  rw [variance_map hae hmd.aemeasurable] at hsum
  have e : (fun ω => (∑ j ∈ Finset.range N, StdNormal.cdf (-(C (V ω j)))) / N) =
      (fun ω => (N:ℝ)⁻¹ * ((∑ j : Fin N, fun z : Fin N → Fin n → ℝ => X (z j)) ∘
        (fun (ω : ℕ → ℝ) (j : Fin N) (r : Fin n) => ω (pos + r.val * N + j.val))) ω) := by
    funext ω
    simp only [Function.comp_apply, Finset.sum_apply, hVp]
    rw [div_eq_inv_mul, ← Fin.sum_univ_eq_sum_range (fun j => StdNormal.cdf (-(C (project alpha (lsDraw ω n N pos j)))))]
    rfl
  have hN' : (0:ℝ) < N := by exact_mod_cast hN
  rw [e, variance_const_mul, hsum, le_div_iff₀ hN']
  calc ((N:ℝ)⁻¹) ^ 2 * (N * Var[X; stdGauss n]) * N = Var[X; stdGauss n] := by field_simp
    _ ≤ _ := hvar

open Classical in
/-- C97: the distribution analysis.  For almost every stream the fraction of the stored limit-state values (of the stored
values of a variable) that lie at or below `y` converges to the probability that the limit state (the variable) does, for
every `y` out of a countable set. -/
theorem C97_distribution (hev : Values ev P f) (bs : ℕ) (hb : 1 ≤ bs) (cov : ℝ) (pos : ℕ) (s : σ) (hP : P s)
    (A : ℕ → Set (Fin n → ℝ)) (hA : ∀ k, MeasurableSet {u : Fin n → ℝ | uToX t marg u ∈ A k})
    (y : ℕ → ℝ) (hy : ∀ k, MeasurableSet {u : Fin n → ℝ | f (uToX t marg u) ≤ y k}) :
    ∃ X : (ℕ → ℝ) → ℕ → List (Fin n → ℝ), ∃ G : (ℕ → ℝ) → ℕ → List ℝ,
      (∀ ω N fuel, N ≤ fuel → ∃ st, MonteCarlo.dLoop t marg ev ⟨N, bs, 1, cov, 0⟩ ω fuel ⟨0, pos, [], [], s⟩ = some (.ok st) ∧
        st.allX = X ω N ∧ st.allG = G ω N ∧ st.allX.length = N ∧ st.allG.length = N) ∧
      ∀ᵐ ω ∂stream, ∀ k,
        Tendsto (fun N : ℕ => (((X ω N).countP (fun x => decide (x ∈ A k)) : ℕ) : ℝ) / N) atTop
          (𝓝 ((stdGauss n).real {u | uToX t marg u ∈ A k})) ∧
        Tendsto (fun N : ℕ => (((G ω N).countP (fun g => decide (g ≤ y k)) : ℕ) : ℝ) / N) atTop
          (𝓝 ((stdGauss n).real {u | f (uToX t marg u) ≤ y k})) := by
  let x : (ℕ → ℝ) → ℕ → ℕ → Fin n → ℝ := fun ω N j => uToX t marg (mcDraw ω n bs N pos j)
  have hsamp : ∀ ω N j, mcSample 1 (fun _ => 0) ω bs N pos j = mcDraw ω n bs N pos j := by
    intro ω N j; funext r; simp [mcSample]
  have hcount : ∀ (B : Set (Fin n → ℝ)) (F : ℕ → Fin n → ℝ) (N : ℕ), ((((List.range N).map F).countP (fun v => decide (v ∈ B)) : ℕ) : ℝ) =
      ∑ j ∈ Finset.range N, B.indicator (fun _ => (1:ℝ)) (F j) := by
    intro B F N
    induction N with
    | zero => simp
    | succ N ih =>
      rw [List.range_succ, List.map_append, List.countP_append, Finset.sum_range_succ, ← ih]
      by_cases h : F N ∈ B <;> simp [h]
  have hlim : ∀ B : Set (Fin n → ℝ), MeasurableSet {u : Fin n → ℝ | uToX t marg u ∈ B} → ∀ᵐ ω ∂stream,
      Tendsto (fun N : ℕ => ((((List.range N).map (x ω N)).countP (fun v => decide (v ∈ B)) : ℕ) : ℝ) / N) atTop
        (𝓝 ((stdGauss n).real {u | uToX t marg u ∈ B})) := by
    intro B hB
    have hm : Measurable ({u : Fin n → ℝ | uToX t marg u ∈ B}.indicator (fun _ => (1:ℝ))) := measurable_const.indicator hB
    have hi : Integrable ({u : Fin n → ℝ | uToX t marg u ∈ B}.indicator (fun _ => (1:ℝ))) (stdGauss n) :=
      (integrable_const 1).indicator hB
    filter_upwards [MonteCarlo.mean_tendsto hb pos hm hi] with ω h
    rw [integral_indicator_const _ hB, smul_eq_mul, mul_one] at h
    refine h.congr fun N => ?_
    rw [hcount, Fin.sum_univ_eq_sum_range (fun j => {u : Fin n → ℝ | uToX t marg u ∈ B}.indicator (fun _ => (1:ℝ)) (mcDraw ω n bs N pos j))]
    congr 1
  refine ⟨fun ω N => (List.range N).map (x ω N), fun ω N => ((List.range N).map (x ω N)).map f, fun ω N fuel hf => ?_, ?_⟩
  · obtain ⟨st, h1, -, h3, h4⟩ := C39_stores_every_sample (t := t) (marg := marg) hev (opt := ⟨N, bs, 1, cov, 0⟩) rfl hb ω pos fuel
      hf s hP
    simp only [hsamp] at h3 h4
    refine ⟨st, h1, h3, ?_, by rw [h3]; simp, by rw [h4]; simp⟩
    rw [h4]
    simp only [List.map_map]
    rfl
  · filter_upwards [ae_all_iff.2 fun k => hlim (A k) (hA k), ae_all_iff.2 fun k => hlim {v | f v ≤ y k} (hy k)] with ω h1 h2 k
    refine ⟨h1 k, (h2 k).congr fun N => ?_⟩
    simp only [List.countP_map]
    rfl

end Pystra.Props
