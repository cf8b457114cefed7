import Verif.Lemmas.StudentLimit
import Verif.Lemmas.Kolmogorov

/-! Means over a random number of samples. -/

namespace Pystra.Props
open MeasureTheory ProbabilityTheory Spec MonteCarlo Filter Topology

/-- A limit in distribution to a centred normal law, shifted by something that converges to `-z` standard deviations. -/
theorem slutsky_event {Ω : Type*} [MeasurableSpace Ω] {P : Measure Ω} [IsProbabilityMeasure P] {A B : ℕ → Ω → ℝ} {V z : ℝ} (hv : 0 < V)
    (hA : TendstoInDistribution A atTop (id : ℝ → ℝ) (fun _ => P) (gaussianReal 0 V.toNNReal))
    (hB : TendstoInMeasure P B atTop fun _ => -z * √V) (hBm : ∀ i, AEMeasurable (B i) P) (E : Set ℝ) (hE : E = Set.Iic 0 ∨ E = Set.Iio 0) :
    Tendsto (fun i => P.real {ω | A i ω + B i ω ∈ E}) atTop (𝓝 (StdNormal.cdf z)) := by
  have hboth := hA.add_of_tendstoInMeasure_const hB hBm
  have hlim := hboth.tendsto
  have hG : (gaussianReal 0 V.toNNReal).map (fun x => id x + -z * √V) = gaussianReal (-z * √V) V.toNNReal := by
    have := gaussianReal_map_add_const (μ := 0) (v := V.toNNReal) (-z * √V)
    rw [zero_add] at this
    exact this
  have hstd : gaussianReal (-z * √V) V.toNNReal = (gaussianReal 0 1).map fun x => √V * x + -z * √V := by
    have h1 : (gaussianReal 0 1).map (fun x => √V * x) = gaussianReal 0 V.toNNReal := by
      have := gaussianReal_map_const_mul (μ := 0) (v := 1) (√V)
      rw [mul_zero, mul_one] at this
      refine this.trans ?_
      congr 1
      ext; simp [Real.sq_sqrt hv.le, hv.le]
    have h3 := gaussianReal_map_add_const (μ := 0) (v := V.toNNReal) (-z * √V)
    rw [← h1, Measure.map_map (by fun_prop) (by fun_prop), zero_add] at h3
    rw [← h3]; rfl
  have hno : NullSingletonClass (gaussianReal (-z * √V) V.toNNReal) := noAtoms_gaussianReal (by simp [hv])
  have hval : (gaussianReal (-z * √V) V.toNNReal).real E = StdNormal.cdf z := by
    have hpos := Real.sqrt_pos.2 hv
    have hIic : (gaussianReal (-z * √V) V.toNNReal).real (Set.Iic 0) = StdNormal.cdf z := by
      rw [hstd, map_measureReal_apply (by fun_prop) measurableSet_Iic, C11_measure, cdf_eq_real]
      congr 1
      ext x
      simp only [Set.mem_preimage, Set.mem_Iic]
      constructor
      · intro h; by_contra hn; nlinarith [not_le.1 hn]
      · intro h; nlinarith
    rcases hE with rfl | rfl
    · exact hIic
    · rw [← hIic]; exact measureReal_congr Iio_ae_eq_Iic
  have hfr : (gaussianReal (-z * √V) V.toNNReal) (frontier E) = 0 := by
    have : frontier E = {0} := by
      rcases hE with rfl | rfl
      · exact frontier_Iic
      · exact frontier_Iio
    rw [this]; exact measure_singleton _
  have hport := ProbabilityMeasure.tendsto_measure_of_null_frontier_of_tendsto' hlim (E := E) (by
    show ((gaussianReal 0 V.toNNReal).map fun x => id x + -z * √V) (frontier E) = 0
    rw [hG]; exact hfr)
  have hport' : Tendsto (fun i => (P.map (A i + B i)) E) atTop (𝓝 (((gaussianReal 0 V.toNNReal).map fun x => id x + -z * √V) E)) := hport
  have hreal := (ENNReal.tendsto_toReal (by rw [hG]; exact measure_ne_top _ _)).comp hport'
  have hEm : MeasurableSet E := by
    rcases hE with rfl | rfl
    · exact measurableSet_Iic
    · exact measurableSet_Iio
  have hend : (((gaussianReal 0 V.toNNReal).map fun x => id x + -z * √V) E).toReal = StdNormal.cdf z := by
    rw [hG]; exact hval
  rw [← hend]
  refine hreal.congr fun i => ?_
  show ((P.map (A i + B i)) E).toReal = _
  rw [Measure.map_apply_of_aemeasurable (hboth.forall_aemeasurable i) hEm]
  rfl

/-- A quantity read at a random index. -/
theorem measurable_at {Ω : Type*} [MeasurableSpace Ω] {F : ℕ → Ω → ℝ} (hF : ∀ n, Measurable (F n)) {T : Ω → ℕ} (hT : Measurable T) :
    Measurable fun ω => F (T ω) ω :=
  (measurable_from_prod_countable_right (f := fun p : ℕ × Ω => F p.1 p.2) hF).comp (hT.prodMk measurable_id)

/-- Partial sums of independent centred variables at a random index that is close to `k` are close to the partial sum at `k`. -/
theorem random_index {Ω : Type*} [MeasurableSpace Ω] {P : Measure Ω} [IsProbabilityMeasure P] {Z : ℕ → Ω → ℝ}
    (hm : ∀ i, Measurable (Z i)) (hind : iIndepFun Z P) (hL : ∀ i, MemLp (Z i) 2 P) (h0 : ∀ i, ∫ ω, Z i ω ∂P = 0)
    {V : ℝ} (hV : ∀ i, Var[Z i; P] = V) {k : ℕ → ℕ} (hk : Tendsto k atTop atTop) {T : ℕ → Ω → ℕ} (hTm : ∀ i, Measurable (T i))
    (hT : ∀ᵐ ω ∂P, Tendsto (fun i => (T i ω : ℝ) / k i) atTop (𝓝 1)) :
    TendstoInMeasure P (fun i ω => (∑ j ∈ Finset.range (T i ω), Z j ω - ∑ j ∈ Finset.range (k i), Z j ω) / √(k i)) atTop fun _ => 0 := by
  have hV0 : 0 ≤ V := by rw [← hV 0]; exact variance_nonneg _ _
  have hTin : TendstoInMeasure P (fun i ω => (T i ω : ℝ) / k i) atTop fun _ => 1 :=
    tendstoInMeasure_of_tendsto_ae (fun i => ((measurable_from_nat.comp (hTm i)).div_const _).aestronglyMeasurable) hT
  rw [tendstoInMeasure_iff_measureReal_norm] at hTin ⊢
  intro ε hε
  rw [Metric.tendsto_atTop]
  intro η hη
  -- the width of the window
  obtain ⟨d, hd0, hd1, hd⟩ : ∃ d : ℝ, 0 < d ∧ d < 1 ∧ 8 * d * V / ε ^ 2 < η / 2 := by
    refine ⟨min (1 / 2) (η * ε ^ 2 / (32 * (V + 1))), lt_min (by norm_num) (by positivity), lt_of_le_of_lt (min_le_left _ _) (by norm_num), ?_⟩
    rw [div_lt_iff₀ (by positivity)]
    have h := min_le_right (1 / 2) (η * ε ^ 2 / (32 * (V + 1)))
    have h' : min (1 / 2) (η * ε ^ 2 / (32 * (V + 1))) * (32 * (V + 1)) ≤ η * ε ^ 2 := by
      rw [← le_div_iff₀ (by positivity)]; exact h
    have hp : 0 < min (1 / 2) (η * ε ^ 2 / (32 * (V + 1))) := lt_min (by norm_num) (by positivity)
    nlinarith [mul_nonneg hp.le hV0]
  have hnear := (hTin d hd0).eventually_lt_const (show (0:ℝ) < η / 2 by positivity)
  obtain ⟨I, hI⟩ := eventually_atTop.1 (hnear.and (hk.eventually_ge_atTop 1))
  refine ⟨I, fun i hi => ?_⟩
  obtain ⟨h1, hk1⟩ := hI i hi
  have hkpos : (0:ℝ) < k i := by exact_mod_cast hk1
  have hsk := Real.sqrt_pos.2 hkpos
  obtain ⟨b, hb⟩ : ∃ b, b = ⌊d * k i⌋₊ := ⟨_, rfl⟩
  have hbk : b ≤ k i := by
    rw [hb]
    exact Nat.floor_le_of_le (by nlinarith)
  have hbd : (b:ℝ) ≤ d * k i := by rw [hb]; exact Nat.floor_le (by positivity)
  let Z' : ℕ → Ω → ℝ := fun j => Z (k i - b + j)
  have hkol := kolmogorov_max (P := P) (Z := Z') (fun j => hm _) (hind.precomp (g := fun j => k i - b + j) (fun x y h => by simpa using h))
    (fun j => hL _) (fun j => h0 _) (fun j => hV _) (a := ε * √(k i) / 2) (by positivity) (2 * b)
  have hsh : ∀ (l : ℕ) (ω : Ω), ∑ j ∈ Finset.range (k i - b + l), Z j ω = ∑ j ∈ Finset.range (k i - b), Z j ω + ∑ j ∈ Finset.range l, Z' j ω :=
    fun l ω => Finset.sum_range_add _ _ _
  have hsubset : {ω | ε ≤ ‖(∑ j ∈ Finset.range (T i ω), Z j ω - ∑ j ∈ Finset.range (k i), Z j ω) / √(k i) - 0‖} ⊆
      {ω | d ≤ ‖(T i ω : ℝ) / k i - 1‖} ∪ {ω | ∃ j ≤ 2 * b, ε * √(k i) / 2 ≤ |∑ l ∈ Finset.range j, Z' l ω|} := by
    intro ω hω
    by_cases hdω : d ≤ ‖(T i ω : ℝ) / k i - 1‖
    · exact Or.inl hdω
    refine Or.inr ?_
    rw [not_le, Real.norm_eq_abs, abs_lt] at hdω
    have e1 : (T i ω : ℝ) - k i < d * k i := by
      have : (T i ω : ℝ) / k i < 1 + d := by linarith [hdω.2]
      rw [div_lt_iff₀ hkpos] at this; linarith
    have e2 : (k i : ℝ) - T i ω < d * k i := by
      have : 1 - d < (T i ω : ℝ) / k i := by linarith [hdω.1]
      rw [lt_div_iff₀ hkpos] at this; linarith
    have f1 : T i ω ≤ k i + b := by
      by_contra hn
      have : T i ω - k i ≤ b := by
        rw [hb]
        refine Nat.le_floor ?_
        rw [Nat.cast_sub (by omega)]
        exact e1.le
      omega
    have f2 : k i ≤ T i ω + b := by
      by_contra hn
      have : k i - T i ω ≤ b := by
        rw [hb]
        refine Nat.le_floor ?_
        rw [Nat.cast_sub (by omega)]
        exact e2.le
      omega
    have hω' : ε * √(k i) ≤ |∑ j ∈ Finset.range (T i ω), Z j ω - ∑ j ∈ Finset.range (k i), Z j ω| := by
      have : ε ≤ ‖(∑ j ∈ Finset.range (T i ω), Z j ω - ∑ j ∈ Finset.range (k i), Z j ω) / √(k i) - 0‖ := hω
      rw [sub_zero, Real.norm_eq_abs, abs_div, abs_of_pos hsk, le_div_iff₀ hsk] at this
      exact this
    have eT := hsh (T i ω - (k i - b)) ω
    have ek := hsh b ω
    rw [show k i - b + (T i ω - (k i - b)) = T i ω by omega] at eT
    rw [show k i - b + b = k i by omega] at ek
    rw [eT, ek, add_sub_add_left_eq_sub] at hω'
    by_contra hn
    simp only [Set.mem_setOf_eq, not_exists, not_and, not_le] at hn
    have g1 := hn (T i ω - (k i - b)) (by omega)
    have g2 := hn b (by omega)
    have := abs_sub (∑ j ∈ Finset.range (T i ω - (k i - b)), Z' j ω) (∑ j ∈ Finset.range b, Z' j ω)
    linarith
  have hle := (measureReal_mono (μ := P) hsubset).trans (measureReal_union_le _ _)
  rw [Real.dist_eq, sub_zero, abs_of_nonneg measureReal_nonneg]
  refine lt_of_le_of_lt hle ?_
  have hw : ((2 * b : ℕ) : ℝ) * V / (ε * √(k i) / 2) ^ 2 ≤ 8 * d * V / ε ^ 2 := by
    have hsq : (ε * √(k i) / 2) ^ 2 = ε ^ 2 * k i / 4 := by
      rw [div_pow, mul_pow, Real.sq_sqrt hkpos.le]; norm_num
    rw [hsq, div_le_div_iff₀ (by positivity) (by positivity)]
    push_cast
    have := mul_le_mul_of_nonneg_right hbd (mul_nonneg hV0 (sq_nonneg ε))
    nlinarith
  linarith

/-- Anscombe's theorem for the mean of a random number `T` of independent numbers with the law `ρ`: if `T` is asymptotically a fixed number
`k`, and `h` is asymptotically the standard error of the mean of `k` numbers, then the mean is asymptotically normal with the standard
error `h`. -/
theorem anscombe {ρ : Measure ℝ} [IsProbabilityMeasure ρ] (h2 : MemLp (fun x : ℝ => x) 2 ρ) {m V : ℝ} (hm : ∫ x, x ∂ρ = m)
    (hV : ∫ x, x ^ 2 ∂ρ - m ^ 2 = V) (hv : 0 < V) {k : ℕ → ℕ} (hk : Tendsto k atTop atTop)
    {T : ℕ → (ℕ → ℝ) → ℕ} (hTm : ∀ i, Measurable (T i)) (hT1 : ∀ i ω, 1 ≤ T i ω)
    (hT : ∀ᵐ ω ∂(Measure.infinitePi fun _ : ℕ => ρ), Tendsto (fun i => (T i ω : ℝ) / k i) atTop (𝓝 1))
    {h : ℕ → (ℕ → ℝ) → ℝ} (hhm : ∀ i, Measurable (h i))
    (hh : ∀ᵐ ω ∂(Measure.infinitePi fun _ : ℕ => ρ), Tendsto (fun i => h i ω * √(k i)) atTop (𝓝 √V))
    (z : ℝ) (E : Set ℝ) (hE : E = Set.Iic 0 ∨ E = Set.Iio 0) :
    Tendsto (fun i => (Measure.infinitePi fun _ : ℕ => ρ).real {ω | (∑ j ∈ Finset.range (T i ω), ω j) / T i ω - m - z * h i ω ∈ E}) atTop
      (𝓝 (StdNormal.cdf z)) := by
  let P : Measure (ℕ → ℝ) := Measure.infinitePi fun _ : ℕ => ρ
  have hind : iIndepFun (fun (k : ℕ) (ω : ℕ → ℝ) => ω k) P :=
    iIndepFun_infinitePi (P := fun _ : ℕ => ρ) (X := fun _ x => x) (fun _ => measurable_id)
  have hlaw : ∀ k, P.map (fun ω : ℕ → ℝ => ω k) = ρ := fun k => (measurePreserving_eval_infinitePi (fun _ : ℕ => ρ) k).map_eq
  have hid : ∀ k, IdentDistrib (fun ω : ℕ → ℝ => ω k) (fun ω => ω 0) P P := fun k =>
    ⟨(measurable_pi_apply k).aemeasurable, (measurable_pi_apply 0).aemeasurable, by rw [hlaw, hlaw]⟩
  have hmem : MemLp (fun ω : ℕ → ℝ => ω 0) 2 P := by
    rw [← hlaw 0] at h2
    exact h2.comp_of_map (measurable_pi_apply 0).aemeasurable
  have hmean : ∫ ω, ω 0 ∂P = m := by
    rw [← hm, ← hlaw 0, integral_map (measurable_pi_apply 0).aemeasurable (by fun_prop)]
  have hsq : ∫ ω, ω 0 ^ 2 ∂P = V + m ^ 2 := by
    rw [← hV, sub_add_cancel, ← hlaw 0, integral_map (measurable_pi_apply 0).aemeasurable (by fun_prop)]
  have hvar : Var[fun ω : ℕ → ℝ => ω 0; P] = V := by
    rw [variance_eq_sub hmem, hmean]
    have : ∫ ω, ((fun ω : ℕ → ℝ => ω 0) ^ 2) ω ∂P = V + m ^ 2 := hsq
    rw [this]; ring
  -- the central limit theorem along `k`
  have hclt := tendstoInDistribution_inv_sqrt_mul_sum_sub (P := P) (P' := gaussianReal 0 V.toNNReal) (Y := id) (X := fun k ω => ω k)
    (by rw [hvar]; exact HasLaw.id) hmem hind hid
  rw [hmean] at hclt
  have hA : TendstoInDistribution (fun i (ω : ℕ → ℝ) => (√(k i : ℝ))⁻¹ * (∑ j ∈ Finset.range (k i), ω j - k i * m)) atTop (id : ℝ → ℝ)
      (fun _ => P) (gaussianReal 0 V.toNNReal) :=
    ⟨fun i => hclt.forall_aemeasurable (k i), hclt.aemeasurable_limit, hclt.tendsto.comp hk⟩
  -- replacing `k` by the random number
  have hcentre := random_index (P := P) (Z := fun j ω => ω j - m) (fun j => by fun_prop)
    (hind.comp (fun _ x => x - m) (fun _ => by fun_prop))
    (fun j => ((hid j).symm.memLp_iff.1 hmem |>.sub (memLp_const m)))
    (fun j => by
      rw [integral_sub (((hid j).symm.memLp_iff.1 hmem).integrable (by norm_num)) (integrable_const m), (hid j).integral_eq, hmean]
      simp)
    (V := V) (fun j => by
      rw [variance_sub_const (measurable_pi_apply j).aestronglyMeasurable, (hid j).variance_eq, hvar]) hk hTm hT
  have hFm : ∀ i, Measurable fun ω : ℕ → ℝ => (∑ j ∈ Finset.range (T i ω), (ω j - m) - ∑ j ∈ Finset.range (k i), (ω j - m)) / √(k i) := by
    intro i
    have := measurable_at (F := fun n (ω : ℕ → ℝ) => ∑ j ∈ Finset.range n, (ω j - m)) (fun n => by fun_prop) (hTm i)
    exact (this.sub (by fun_prop)).div_const _
  have hA' := hA.add_of_tendstoInMeasure_const hcentre fun i => (hFm i).aemeasurable
  simp only [add_zero] at hA'
  have hA'' : TendstoInDistribution (fun i (ω : ℕ → ℝ) => (√(k i : ℝ))⁻¹ * (∑ j ∈ Finset.range (T i ω), ω j - T i ω * m)) atTop (id : ℝ → ℝ)
      (fun _ => P) (gaussianReal 0 V.toNNReal) := by
    refine hA'.congr (fun i => Eventually.of_forall fun ω => ?_) (Eventually.of_forall fun x => rfl)
    simp only [Pi.add_apply, Finset.sum_sub_distrib, Finset.sum_const, Finset.card_range, nsmul_eq_mul]
    rw [div_eq_inv_mul]; ring
  -- the error
  have hTr : ∀ i, Measurable fun ω => (T i ω : ℝ) := fun i => measurable_from_nat.comp (hTm i)
  have hB : TendstoInMeasure P (fun i ω => -z * (h i ω * √(k i) * (T i ω / k i))) atTop fun _ => -z * √V := by
    refine tendstoInMeasure_of_tendsto_ae (fun i => ((((hhm i).mul_const _).mul ((hTr i).div_const _)).const_mul _).aestronglyMeasurable) ?_
    filter_upwards [hT, hh] with ω a b
    have := (b.mul a).const_mul (-z)
    rwa [mul_one] at this
  have hlim := slutsky_event hv hA'' hB (fun i => ((((hhm i).mul_const _).mul ((hTr i).div_const _)).const_mul _).aemeasurable) E hE
  refine hlim.congr' ?_
  filter_upwards [hk.eventually_ge_atTop 1] with i hi
  have hkpos : (0:ℝ) < k i := by exact_mod_cast hi
  have hsk := Real.sqrt_pos.2 hkpos
  congr 1
  ext ω
  simp only [Set.mem_setOf_eq]
  have hTpos : (0:ℝ) < T i ω := by exact_mod_cast hT1 i ω
  have key : (√(k i : ℝ))⁻¹ * (∑ j ∈ Finset.range (T i ω), ω j - T i ω * m) + -z * (h i ω * √(k i) * (T i ω / k i)) =
      (T i ω / √(k i)) * ((∑ j ∈ Finset.range (T i ω), ω j) / T i ω - m - z * h i ω) := by
    have hs : √(k i : ℝ) / k i = 1 / √(k i) := by
      rw [div_eq_div_iff hkpos.ne' hsk.ne', one_mul, Real.mul_self_sqrt hkpos.le]
    have e1 : h i ω * √(k i) * (T i ω / k i) = h i ω * T i ω * (√(k i) / k i) := by ring
    rw [e1, hs]
    field_simp
    ring
  rw [key]
  have hc : 0 < (T i ω : ℝ) / √(k i) := div_pos hTpos hsk
  rcases hE with rfl | rfl
  · simp only [Set.mem_Iic]
    exact ⟨fun h => by by_contra hn; nlinarith [mul_pos hc (not_le.1 hn)], fun h => mul_nonpos_of_nonneg_of_nonpos hc.le h⟩
  · simp only [Set.mem_Iio]
    exact ⟨fun h => by by_contra hn; nlinarith [mul_nonneg hc.le (not_lt.1 hn)], fun h => mul_neg_of_pos_of_neg hc h⟩

/-- How long a run lasts that stops at the first multiple of the block size where the coefficient of variation is at most `δ`. -/
theorem stop_limit {c : ℕ → ℝ} (hc : ∀ k, 0 < c k) {c0 : ℝ} (hlim : Tendsto (fun k : ℕ => √k * c k) atTop (𝓝 c0)) {bs : ℕ} (hb : 1 ≤ bs)
    {δ : ℕ → ℝ} (hδ : ∀ i, 0 < δ i) (hδ0 : Tendsto δ atTop (𝓝 0)) {N : ℕ → ℕ} (hN : Tendsto (fun i => N i * δ i ^ 2) atTop atTop)
    {T : ℕ → ℕ} (hstop : ∀ i, 1 ≤ N i → 1 ≤ T i ∧ (T i = N i ∨ c (T i) ≤ δ i))
    (hgo : ∀ i, ∀ l, 1 ≤ l → l * bs < T i → δ i < c (l * bs)) :
    Tendsto T atTop atTop ∧ Tendsto (fun i => T i * δ i ^ 2) atTop (𝓝 (c0 ^ 2)) := by
  have hNinf : Tendsto N atTop atTop := by
    rw [tendsto_atTop]
    intro b
    filter_upwards [hN.eventually_ge_atTop (b:ℝ), hδ0.eventually_lt_const one_pos] with i h1 h2
    have : δ i ^ 2 ≤ 1 := by nlinarith [hδ i]
    have h3 : (N i : ℝ) * δ i ^ 2 ≤ N i := by nlinarith [Nat.cast_nonneg (α := ℝ) (N i)]
    exact_mod_cast h1.trans h3
  have hTinf : Tendsto T atTop atTop := by
    rw [tendsto_atTop]
    intro J
    obtain ⟨η, hη, hall⟩ : ∃ η : ℝ, 0 < η ∧ ∀ k < J, η ≤ c k := by
      induction J with
      | zero => exact ⟨1, one_pos, fun k hk => absurd hk (Nat.not_lt_zero _)⟩
      | succ J ih =>
        obtain ⟨η, h1, h2⟩ := ih
        refine ⟨min η (c J), lt_min h1 (hc J), fun k hk => ?_⟩
        rcases Nat.lt_succ_iff_lt_or_eq.1 hk with h | rfl
        · exact (min_le_left _ _).trans (h2 k h)
        · exact min_le_right _ _
    filter_upwards [hδ0.eventually_lt_const hη, hNinf.eventually_ge_atTop (J + 1)] with i h1 h2
    by_contra hn
    rw [not_le] at hn
    rcases (hstop i (by omega)).2 with h | h
    · omega
    · linarith [hall _ hn]
  refine ⟨hTinf, ?_⟩
  have hTr : Tendsto (fun i => (T i : ℝ)) atTop atTop := tendsto_natCast_atTop_atTop.comp hTinf
  -- the last multiple of the block size before the end
  let j : ℕ → ℕ := fun i => (T i - 1) / bs * bs
  have hj1 : ∀ i, j i ≤ T i - 1 := fun i => Nat.div_mul_le_self _ _
  have hj2 : ∀ i, T i ≤ j i + bs := fun i => by
    have := Nat.div_add_mod' (T i - 1) bs
    have := Nat.mod_lt (T i - 1) hb
    show T i ≤ (T i - 1) / bs * bs + bs
    omega
  have hjinf : Tendsto j atTop atTop := by
    rw [tendsto_atTop]
    intro J
    filter_upwards [hTinf.eventually_ge_atTop (J + bs)] with i hi
    have := hj2 i
    omega
  have hjr : Tendsto (fun i => (j i : ℝ)) atTop atTop := tendsto_natCast_atTop_atTop.comp hjinf
  have hup : Tendsto (fun i => (√(j i) * c (j i)) ^ 2 + bs * δ i ^ 2) atTop (𝓝 (c0 ^ 2)) := by
    have h := ((hlim.comp hjinf).pow 2).add ((hδ0.pow 2).const_mul (bs:ℝ))
    simpa using h
  have hlow : Tendsto (fun i => min (c0 ^ 2) ((√(T i) * c (T i)) ^ 2)) atTop (𝓝 (c0 ^ 2)) := by
    have h := (tendsto_const_nhds (x := c0 ^ 2)).min ((hlim.comp hTinf).pow 2)
    rw [min_self] at h
    exact h
  refine tendsto_of_tendsto_of_tendsto_of_le_of_le' hlow hup ?_ ?_
  · filter_upwards [hN.eventually_ge_atTop (c0 ^ 2), hNinf.eventually_ge_atTop 1] with i h1 h2
    rcases (hstop i h2).2 with h | h
    · rw [h] at *
      exact (min_le_left _ _).trans h1
    · refine (min_le_right _ _).trans ?_
      rw [mul_pow, Real.sq_sqrt (Nat.cast_nonneg _)]
      exact mul_le_mul_of_nonneg_left (pow_le_pow_left₀ (hc _).le h 2) (Nat.cast_nonneg _)
  · filter_upwards [hjinf.eventually_ge_atTop 1, hTinf.eventually_ge_atTop 1] with i h1 h2
    have hl : 1 ≤ (T i - 1) / bs := by
      by_contra hn
      have : (T i - 1) / bs = 0 := Nat.lt_one_iff.1 (not_le.1 hn)
      simp [j, this] at h1
    have hlt := hgo i ((T i - 1) / bs) hl (by have := hj1 i; show j i < T i; omega)
    have h3 : (j i : ℝ) * δ i ^ 2 ≤ (√(j i) * c (j i)) ^ 2 := by
      rw [mul_pow, Real.sq_sqrt (Nat.cast_nonneg _)]
      exact mul_le_mul_of_nonneg_left (pow_le_pow_left₀ (hδ i).le hlt.le 2) (Nat.cast_nonneg _)
    have h4 : (T i : ℝ) ≤ j i + bs := by exact_mod_cast hj2 i
    have h5 := mul_le_mul_of_nonneg_right h4 (sq_nonneg (δ i))
    show (T i : ℝ) * δ i ^ 2 ≤ _
    linarith

end Pystra.Props
