import Verif.Lemmas.Anscombe
import Verif.Props.Confidence

/-! C116: runs that stop at a target coefficient of variation have the accuracy they were asked for. -/

namespace Pystra.Props
open MeasureTheory ProbabilityTheory Spec Matrix Transformation MonteCarlo Form Filter Topology

variable {n : ℕ} {σ : Type} {t : Mats n} {marg : Fin n → Marginal} {ev : Evaluator σ n} {P : σ → Prop} {f : (Fin n → ℝ) → ℝ}

/-- The coefficient of variation after `k` of the summands `y`. -/
noncomputable def cvAt (y : ℕ → ℝ) (k : ℕ) : ℝ := cvOfMean k (∑ j ∈ Finset.range k, y j) (∑ j ∈ Finset.range k, y j ^ 2)

theorem stop_exists (bs N : ℕ) (δ : ℝ) (y : ℕ → ℝ) : ∃ k, k = N ∨ (1 ≤ k ∧ k < N ∧ bs ∣ k ∧ cvAt y k ≤ δ) := ⟨N, Or.inl rfl⟩

open Classical in
/-- Where a run with the summands `y` stops. -/
noncomputable def stopAt (bs N : ℕ) (δ : ℝ) (y : ℕ → ℝ) : ℕ := Nat.find (stop_exists bs N δ y)

theorem measurable_cvAt (k : ℕ) : Measurable fun y => cvAt y k := by
  have a : Measurable fun y : ℕ → ℝ => ∑ j ∈ Finset.range k, y j := by fun_prop
  have b : Measurable fun y : ℕ → ℝ => ∑ j ∈ Finset.range k, y j ^ 2 := by fun_prop
  exact measurable_cvOfMean k a b

theorem measurable_stopAt (bs N : ℕ) (δ : ℝ) : Measurable (stopAt bs N δ) := by
  classical
  refine measurable_find (stop_exists bs N δ) fun k => ?_
  have : {y : ℕ → ℝ | k = N ∨ (1 ≤ k ∧ k < N ∧ bs ∣ k ∧ cvAt y k ≤ δ)} =
      {_y : ℕ → ℝ | k = N} ∪ ({_y : ℕ → ℝ | 1 ≤ k ∧ k < N ∧ bs ∣ k} ∩ {y | cvAt y k ≤ δ}) := by
    ext y; simp [and_assoc]
  rw [this]
  exact (MeasurableSet.const _).union ((MeasurableSet.const _).inter (measurableSet_le (measurable_cvAt k) measurable_const))

theorem stopAt_le (bs N : ℕ) (δ : ℝ) (y : ℕ → ℝ) : stopAt bs N δ y ≤ N := Nat.find_min' _ (Or.inl rfl)

theorem stopAt_spec (bs : ℕ) {N : ℕ} (δ : ℝ) (y : ℕ → ℝ) (hN : 1 ≤ N) :
    1 ≤ stopAt bs N δ y ∧ (stopAt bs N δ y = N ∨ bs ∣ stopAt bs N δ y ∧ cvAt y (stopAt bs N δ y) ≤ δ) := by
  classical
  rcases Nat.find_spec (stop_exists bs N δ y) with h | ⟨h1, h2, h3, h4⟩
  · exact ⟨by show 1 ≤ Nat.find _; omega, Or.inl h⟩
  · exact ⟨h1, Or.inr ⟨h3, h4⟩⟩

theorem stopAt_go {bs N : ℕ} (hb : 1 ≤ bs) (δ : ℝ) (y : ℕ → ℝ) {l : ℕ} (hl : 1 ≤ l) (h : l * bs < stopAt bs N δ y) : δ < cvAt y (l * bs) := by
  classical
  have := Nat.find_min (stop_exists bs N δ y) h
  by_contra hn
  exact this (Or.inr ⟨Nat.mul_pos hl hb, lt_of_lt_of_le h (stopAt_le bs N δ y), dvd_mul_left _ _, not_lt.1 hn⟩)

theorem stopAt_unique {bs N : ℕ} (hb : 1 ≤ bs) {δ : ℝ} {y : ℕ → ℝ} {k : ℕ} (h1 : 1 ≤ k) (hk : k ≤ N)
    (h2 : k = N ∨ bs ∣ k ∧ cvAt y k ≤ δ) (h3 : ∀ l, 1 ≤ l → l * bs < k → δ < cvAt y (l * bs)) : stopAt bs N δ y = k := by
  have hN : 1 ≤ N := h1.trans hk
  refine le_antisymm ?_ ?_
  · classical
    rcases h2 with h | ⟨h, h'⟩
    · rw [h]; exact stopAt_le _ _ _ _
    · rcases hk.lt_or_eq with hlt | heq
      · exact Nat.find_min' _ (Or.inr ⟨h1, hlt, h, h'⟩)
      · rw [heq]; exact stopAt_le _ _ _ _
  · by_contra hn
    rw [not_le] at hn
    obtain ⟨g1, g2 | ⟨⟨l, g2⟩, g3⟩⟩ := stopAt_spec bs δ y hN
    · omega
    · rw [mul_comm] at g2
      have hl : 1 ≤ l := Nat.one_le_iff_ne_zero.2 fun h0 => by rw [h0, zero_mul] at g2; omega
      have := h3 l hl (by rw [← g2]; exact hn)
      rw [← g2] at this
      exact absurd g3 (not_le.2 this)

/-- What a run reports, in terms of its summands. -/
theorem run_stops (hev : Values ev P f) {bs N fuel : ℕ} (hb : 1 ≤ bs) {stdv : ℝ} (hs : 0 < stdv) (δ : ℝ)
    (point : Option (Fin n → ℝ)) (ω : ℕ → ℝ) (pos : ℕ) (hN : 1 ≤ N) (hf : N ≤ fuel) (s : σ) (hP : P s) {y : ℕ → ℝ}
    (hy : ∀ j < N, y j = perSample {u | f (uToX t marg u) < 0} stdv (point.getD fun _ => 0) (mcDraw ω n bs N pos j)) :
    ∃ r, MonteCarlo.run t marg ev ⟨N, bs, stdv, δ, 0⟩ point ω pos fuel s = some (.ok r) ∧
      r.st.k = stopAt bs N δ y ∧ r.Pf = (∑ j ∈ Finset.range (stopAt bs N δ y), y j) / stopAt bs N δ y ∧
      r.st.covQBar = cvAt y (stopAt bs N δ y) := by
  obtain ⟨r, hr, k1, k2, hpf, -, -, -, hq, hst, hall⟩ := C37_run (t := t) (marg := marg) hev (opt := ⟨N, bs, stdv, δ, 0⟩) rfl hb
    hN hs point ω pos fuel hf s hP
  have e : ∀ j < N, summand t marg f ⟨N, bs, stdv, δ, 0⟩ (point.getD fun _ => 0) ω pos j = y j := fun j hj => by
    rw [hy j hj]; exact summand_perSample (opt := ⟨N, bs, stdv, δ, 0⟩) hs _ ω pos j
  have e1 : ∀ k ≤ N, ∑ j ∈ Finset.range k, summand t marg f ⟨N, bs, stdv, δ, 0⟩ (point.getD fun _ => 0) ω pos j = ∑ j ∈ Finset.range k, y j :=
    fun k hk => Finset.sum_congr rfl fun j hj => e j (lt_of_lt_of_le (Finset.mem_range.1 hj) hk)
  have e2 : ∀ k ≤ N, ∑ j ∈ Finset.range k, summand t marg f ⟨N, bs, stdv, δ, 0⟩ (point.getD fun _ => 0) ω pos j ^ 2 =
      ∑ j ∈ Finset.range k, y j ^ 2 :=
    fun k hk => Finset.sum_congr rfl fun j hj => by rw [e j (lt_of_lt_of_le (Finset.mem_range.1 hj) hk)]
  have k2' : r.st.k ≤ N := k2
  have hq' : r.st.covQBar = cvAt y r.st.k := by
    rw [hq]; simp only; rw [e1 _ k2', e2 _ k2']; rfl
  have hT : stopAt bs N δ y = r.st.k := by
    refine stopAt_unique hb k1 k2' ?_ fun l hl h => ?_
    · rcases hst with h | ⟨h, h'⟩
      · exact Or.inl h
      · exact Or.inr ⟨h, by rw [← hq']; exact h'⟩
    · have := hall l hl h
      simp only at this
      rw [e1 _ (h.le.trans k2'), e2 _ (h.le.trans k2')] at this
      exact this
  refine ⟨r, hr, hT.symm, ?_, ?_⟩
  · rw [hT, hpf]; simp only; rw [e1 _ k2']
  · rw [hT, hq']

/-- The number of samples, the failure probability and the coefficient of variation of a run with the summands `y`. -/
noncomputable def stopped (bs N : ℕ) (δ : ℝ) (y : ℕ → ℝ) : ℕ × ℝ × ℝ :=
  (stopAt bs N δ y, (∑ j ∈ Finset.range (stopAt bs N δ y), y j) / stopAt bs N δ y, cvAt y (stopAt bs N δ y))

theorem measurable_stopped (bs N : ℕ) (δ : ℝ) : Measurable (stopped bs N δ) := by
  have hT := measurable_stopAt bs N δ
  refine hT.prodMk (Measurable.prodMk ?_ ?_)
  · exact (measurable_at (F := fun k (y : ℕ → ℝ) => ∑ j ∈ Finset.range k, y j) (fun k => by fun_prop) hT).div (measurable_from_nat.comp hT)
  · exact measurable_at (F := fun k y => cvAt y k) measurable_cvAt hT

/-- The probability of an event about what a run reports. -/
theorem run_event (hev : Values ev P f) (hA : MeasurableSet {u : Fin n → ℝ | f (uToX t marg u) < 0})
    {bs N fuel : ℕ} (hb : 1 ≤ bs) {stdv : ℝ} (hs : 0 < stdv) (δ : ℝ) (point : Option (Fin n → ℝ)) (pos : ℕ) (hN : 1 ≤ N) (hf : N ≤ fuel)
    (s : σ) (hP : P s) {B : Set (ℕ × ℝ × ℝ)} (hB : MeasurableSet B) :
    stream.real {ω | ∃ r, MonteCarlo.run t marg ev ⟨N, bs, stdv, δ, 0⟩ point ω pos fuel s = some (.ok r) ∧ (r.st.k, r.Pf, r.st.covQBar) ∈ B} =
      (Measure.infinitePi fun _ : ℕ => (stdGauss n).map (perSample {u | f (uToX t marg u) < 0} stdv (point.getD fun _ => 0))).real
        {y | stopped bs N δ y ∈ B} := by
  obtain ⟨X, hX⟩ : ∃ X, X = perSample {u | f (uToX t marg u) < 0} stdv (point.getD fun _ => 0) := ⟨_, rfl⟩
  have hXm : Measurable X := hX ▸ measurable_perSample hA stdv _
  rw [← hX]
  haveI : IsProbabilityMeasure ((stdGauss n).map X) := Measure.isProbabilityMeasure_map hXm.aemeasurable
  let ext : (Fin N → ℝ) → ℕ → ℝ := fun y j => if h : j < N then y ⟨j, h⟩ else 0
  have hext : Measurable ext := by
    refine measurable_pi_lambda _ fun j => ?_
    by_cases h : j < N
    · simp only [ext, dif_pos h]; exact measurable_pi_apply _
    · simp only [ext, dif_neg h]; exact measurable_const
  have hset : MeasurableSet {y : Fin N → ℝ | stopped bs N δ (ext y) ∈ B} := ((measurable_stopped bs N δ).comp hext) hB
  have hdraw : Measurable fun (ω : ℕ → ℝ) (j : Fin N) => X (mcDraw ω n bs N pos j) :=
    measurable_pi_lambda _ fun j => hXm.comp ((measurable_pi_apply j).comp (measurable_mcDraws (n := n) bs N pos))
  have hlaw : stream.map (fun (ω : ℕ → ℝ) (j : Fin N) => X (mcDraw ω n bs N pos j)) = Measure.pi fun _ : Fin N => (stdGauss n).map X := by
    rw [← Measure.pi_map_pi (μ := fun _ : Fin N => stdGauss n) (f := fun _ => X) (fun _ => hXm.aemeasurable), ← samples_law (n := n) (N := N) hb pos,
      Measure.map_map (by fun_prop) (measurable_mcDraws (n := n) bs N pos)]
    rfl
  have left : {ω | ∃ r, MonteCarlo.run t marg ev ⟨N, bs, stdv, δ, 0⟩ point ω pos fuel s = some (.ok r) ∧ (r.st.k, r.Pf, r.st.covQBar) ∈ B} =
      (fun (ω : ℕ → ℝ) (j : Fin N) => X (mcDraw ω n bs N pos j)) ⁻¹' {y : Fin N → ℝ | stopped bs N δ (ext y) ∈ B} := by
    ext ω
    obtain ⟨r, hr, h1, h2, h3⟩ := run_stops (t := t) (marg := marg) hev hb hs δ point ω pos hN hf s hP
      (y := ext fun j => X (mcDraw ω n bs N pos j)) (fun j hj => by simp only [ext, dif_pos hj]; rw [hX])
    simp only [Set.mem_setOf_eq, Set.mem_preimage]
    have hst : stopped bs N δ (ext fun j : Fin N => X (mcDraw ω n bs N pos j)) = (r.st.k, r.Pf, r.st.covQBar) := by
      rw [h2, h3, h1]; rfl
    rw [hst]
    constructor
    · rintro ⟨r', hr', h⟩
      rw [hr] at hr'
      cases hr'
      exact h
    · exact fun h => ⟨r, hr, h⟩
  rw [left, ← map_measureReal_apply hdraw hset, hlaw, ← prefix_law _ N, map_measureReal_apply (by fun_prop) hset]
  congr 1
  ext y
  simp only [Set.mem_preimage, Set.mem_setOf_eq]
  have hsame : ∀ j < N, ext (fun j : Fin N => y j) j = y j := fun j hj => by simp only [ext, dif_pos hj]
  have h1 : ∀ k ≤ N, ∑ j ∈ Finset.range k, ext (fun j : Fin N => y j) j = ∑ j ∈ Finset.range k, y j :=
    fun k hk => Finset.sum_congr rfl fun j hj => hsame j (lt_of_lt_of_le (Finset.mem_range.1 hj) hk)
  have h2 : ∀ k ≤ N, cvAt (ext fun j : Fin N => y j) k = cvAt y k := fun k hk => by
    unfold cvAt
    rw [h1 k hk]
    congr 1
    exact Finset.sum_congr rfl fun j hj => by rw [hsame j (lt_of_lt_of_le (Finset.mem_range.1 hj) hk)]
  have h3 : stopAt bs N δ (ext fun j : Fin N => y j) = stopAt bs N δ y := by
    obtain ⟨g1, g2⟩ := stopAt_spec bs δ y hN
    have g0 := stopAt_le bs N δ y
    refine stopAt_unique hb g1 g0 ?_ fun l hl h => ?_
    · rwa [h2 _ g0]
    · rw [h2 _ (h.le.trans g0)]
      exact stopAt_go hb δ y hl h
  have : stopped bs N δ (ext fun j : Fin N => y j) = stopped bs N δ y := by
    unfold stopped
    rw [h3, h1 _ (stopAt_le bs N δ y), h2 _ (stopAt_le bs N δ y)]
  rw [this]

/-- The length of a run whose summands are independent with the law `ρ`, and its accuracy. -/
theorem stopped_limit {ρ : Measure ℝ} [IsProbabilityMeasure ρ] (h2 : MemLp (fun x : ℝ => x) 2 ρ) {m V : ℝ} (hm : ∫ x, x ∂ρ = m)
    (hV : ∫ x, x ^ 2 ∂ρ - m ^ 2 = V) (hm0 : 0 < m) (hv : 0 < V) (hnn : ∀ᵐ x ∂ρ, 0 ≤ x) {bs : ℕ} (hb : 1 ≤ bs)
    {δ : ℕ → ℝ} (hδ : ∀ i, 0 < δ i) (hδ0 : Tendsto δ atTop (𝓝 0)) {N : ℕ → ℕ} (hN1 : ∀ i, 1 ≤ N i)
    (hN : Tendsto (fun i => N i * δ i ^ 2) atTop atTop) :
    (∀ ε : ℝ, 0 < ε → Tendsto (fun i => (Measure.infinitePi fun _ : ℕ => ρ).real
      {y | stopped bs (N i) (δ i) y ∈ {q : ℕ × ℝ × ℝ | |q.1 * δ i ^ 2 - V / m ^ 2| < ε}}) atTop (𝓝 1)) ∧
    (∀ z : ℝ, 0 ≤ z → Tendsto (fun i => (Measure.infinitePi fun _ : ℕ => ρ).real
      {y | stopped bs (N i) (δ i) y ∈ {q : ℕ × ℝ × ℝ | |q.2.1 - m| ≤ z * (δ i * m)}}) atTop (𝓝 (StdNormal.cdf z - StdNormal.cdf (-z)))) ∧
    ∀ z : ℝ, 0 ≤ z → Tendsto (fun i => (Measure.infinitePi fun _ : ℕ => ρ).real
      {y | stopped bs (N i) (δ i) y ∈ {q : ℕ × ℝ × ℝ | |q.2.1 - m| ≤ z * (q.2.2 * q.2.1)}}) atTop
        (𝓝 (StdNormal.cdf z - StdNormal.cdf (-z))) := by
  let Q : Measure (ℕ → ℝ) := Measure.infinitePi fun _ : ℕ => ρ
  obtain ⟨c0, hc0⟩ : ∃ c0, c0 = √V / m := ⟨_, rfl⟩
  have hc0p : 0 < c0 := by rw [hc0]; exact div_pos (Real.sqrt_pos.2 hv) hm0
  have hc0m : c0 * m = √V := by rw [hc0, div_mul_cancel₀ _ hm0.ne']
  have hc0s : c0 ^ 2 = V / m ^ 2 := by rw [hc0, div_pow, Real.sq_sqrt hv.le]
  -- the strong laws
  have hind : iIndepFun (fun (k : ℕ) (ω : ℕ → ℝ) => ω k) Q :=
    iIndepFun_infinitePi (P := fun _ : ℕ => ρ) (X := fun _ x => x) (fun _ => measurable_id)
  have hlaw : ∀ k, Q.map (fun ω : ℕ → ℝ => ω k) = ρ := fun k => (measurePreserving_eval_infinitePi (fun _ : ℕ => ρ) k).map_eq
  have hid : ∀ k, IdentDistrib (fun ω : ℕ → ℝ => ω k) (fun ω => ω 0) Q Q := fun k =>
    ⟨(measurable_pi_apply k).aemeasurable, (measurable_pi_apply 0).aemeasurable, by rw [hlaw, hlaw]⟩
  have hmem : MemLp (fun ω : ℕ → ℝ => ω 0) 2 Q := by
    rw [← hlaw 0] at h2
    exact h2.comp_of_map (measurable_pi_apply 0).aemeasurable
  have hmean : ∫ ω, ω 0 ∂Q = m := by
    rw [← hm, ← hlaw 0, integral_map (measurable_pi_apply 0).aemeasurable (by fun_prop)]
  have hsq : ∫ ω, ω 0 ^ 2 ∂Q = V + m ^ 2 := by
    rw [← hV, sub_add_cancel, ← hlaw 0, integral_map (measurable_pi_apply 0).aemeasurable (by fun_prop)]
  have hsum := strong_law_ae_real (μ := Q) (fun k ω => ω k) (hmem.integrable (by norm_num)) (fun i j hij => hind.indepFun hij) hid
  have hsums := strong_law_ae_real (μ := Q) (fun k ω => ω k ^ 2) hmem.integrable_sq
    (fun i j hij => (hind.indepFun hij).comp (measurable_id.pow_const 2) (measurable_id.pow_const 2)) (fun k => (hid k).pow (n := 2))
  let T : ℕ → (ℕ → ℝ) → ℕ := fun i y => stopAt bs (N i) (δ i) y
  have hTm : ∀ i, Measurable (T i) := fun i => measurable_stopAt _ _ _
  have hT1 : ∀ i y, 1 ≤ T i y := fun i y => (stopAt_spec bs (δ i) y (hN1 i)).1
  have hcv : ∀ᵐ y ∂Q, Tendsto (fun k : ℕ => √k * cvAt y k) atTop (𝓝 c0) := by
    filter_upwards [hsum, hsums] with ω a b
    rw [hmean] at a
    rw [hsq] at b
    have := cv_tendsto hm0 (show 0 < V + m ^ 2 - m ^ 2 by linarith) a b
    rw [add_sub_cancel_right, ← hc0] at this
    exact this
  have hlen : ∀ᵐ y ∂Q, Tendsto (fun i => T i y) atTop atTop ∧ Tendsto (fun i => T i y * δ i ^ 2) atTop (𝓝 (c0 ^ 2)) := by
    filter_upwards [hcv] with y h
    refine stop_limit (c := cvAt y) (fun k => cvOfMean_pos _ _ _) h hb hδ hδ0 hN (fun i _ => ?_) fun i l hl h => stopAt_go hb (δ i) y hl h
    obtain ⟨a, b⟩ := stopAt_spec bs (δ i) y (hN1 i)
    exact ⟨a, b.imp id fun h => h.2⟩
  -- the number that stands for the length
  let k : ℕ → ℕ := fun i => ⌈c0 ^ 2 / δ i ^ 2⌉₊
  have hx : Tendsto (fun i => c0 ^ 2 / δ i ^ 2) atTop atTop := by
    have h1 : Tendsto (fun i => δ i ^ 2) atTop (𝓝[>] 0) := by
      refine tendsto_nhdsWithin_iff.2 ⟨by simpa using hδ0.pow 2, Eventually.of_forall fun i => ?_⟩
      exact pow_pos (hδ i) 2
    exact (h1.inv_tendsto_nhdsGT_zero).const_mul_atTop (by positivity)
  have hk : Tendsto k atTop atTop := tendsto_nat_ceil_atTop.comp hx
  have hkδ : Tendsto (fun i => (k i : ℝ) * δ i ^ 2) atTop (𝓝 (c0 ^ 2)) := by
    have h := ((tendsto_nat_ceil_div_atTop (R := ℝ)).comp hx).mul_const (c0 ^ 2)
    rw [one_mul] at h
    refine h.congr fun i => ?_
    have : 0 < δ i ^ 2 := pow_pos (hδ i) 2
    simp only [Function.comp, k]
    have hc : c0 ≠ 0 := hc0p.ne'
    have hd : δ i ≠ 0 := (hδ i).ne'
    field_simp
  have hkpos : ∀ i, (0:ℝ) < k i := fun i => by
    have : 0 < k i := Nat.ceil_pos.2 (div_pos (pow_pos hc0p 2) (pow_pos (hδ i) 2))
    exact_mod_cast this
  have hratio : ∀ᵐ y ∂Q, Tendsto (fun i => (T i y : ℝ) / k i) atTop (𝓝 1) := by
    filter_upwards [hlen] with y h
    have := h.2.div hkδ (pow_pos hc0p 2).ne'
    rw [div_self (pow_pos hc0p 2).ne'] at this
    refine this.congr fun i => ?_
    exact mul_div_mul_right _ _ (pow_pos (hδ i) 2).ne'
  have hsk : Tendsto (fun i => δ i * √(k i)) atTop (𝓝 c0) := by
    have := hkδ.sqrt
    rw [Real.sqrt_sq hc0p.le] at this
    refine this.congr fun i => ?_
    rw [mul_comm, Real.sqrt_mul (sq_nonneg _), Real.sqrt_sq (hδ i).le]
  -- two-sided intervals
  have htwo : ∀ (h : ℕ → (ℕ → ℝ) → ℝ), (∀ i, Measurable (h i)) → (∀ᵐ y ∂Q, ∀ i, 0 ≤ h i y) →
      (∀ᵐ y ∂Q, Tendsto (fun i => h i y * √(k i)) atTop (𝓝 √V)) → ∀ z : ℝ, 0 ≤ z →
      Tendsto (fun i => Q.real {y | |(∑ j ∈ Finset.range (T i y), y j) / T i y - m| ≤ z * h i y}) atTop
        (𝓝 (StdNormal.cdf z - StdNormal.cdf (-z))) := by
    intro h hhm hh0 hh z hz
    have a := anscombe h2 hm hV hv hk hTm hT1 hratio hhm hh z (Set.Iic 0) (Or.inl rfl)
    have b := anscombe h2 hm hV hv hk hTm hT1 hratio hhm hh (-z) (Set.Iio 0) (Or.inr rfl)
    refine (a.sub b).congr fun i => ?_
    have hmeas : Measurable fun y : ℕ → ℝ => (∑ j ∈ Finset.range (T i y), y j) / T i y - m - -z * h i y := by
      have := (measurable_at (F := fun k (y : ℕ → ℝ) => ∑ j ∈ Finset.range k, y j) (fun k => by fun_prop) (hTm i)).div
        (measurable_from_nat.comp (hTm i) : Measurable fun y => (T i y : ℝ))
      exact (this.sub_const m).sub ((hhm i).const_mul _)
    have hsub : ∀ᵐ y ∂Q, y ∈ {y : ℕ → ℝ | (∑ j ∈ Finset.range (T i y), y j) / T i y - m - -z * h i y ∈ Set.Iio 0} →
        y ∈ {y : ℕ → ℝ | (∑ j ∈ Finset.range (T i y), y j) / T i y - m - z * h i y ∈ Set.Iic 0} := by
      filter_upwards [hh0] with y h0 hy
      simp only [Set.mem_setOf_eq, Set.mem_Iio, Set.mem_Iic] at hy ⊢
      nlinarith [mul_nonneg hz (h0 i)]
    have hsplit := measureReal_inter_add_diff (μ := Q)
      (s := {y : ℕ → ℝ | (∑ j ∈ Finset.range (T i y), y j) / T i y - m - z * h i y ∈ Set.Iic 0})
      (t := {y : ℕ → ℝ | (∑ j ∈ Finset.range (T i y), y j) / T i y - m - -z * h i y ∈ Set.Iio 0}) (hmeas measurableSet_Iio)
    have hinter : Q.real ({y : ℕ → ℝ | (∑ j ∈ Finset.range (T i y), y j) / T i y - m - z * h i y ∈ Set.Iic 0} ∩
        {y : ℕ → ℝ | (∑ j ∈ Finset.range (T i y), y j) / T i y - m - -z * h i y ∈ Set.Iio 0}) =
        Q.real {y : ℕ → ℝ | (∑ j ∈ Finset.range (T i y), y j) / T i y - m - -z * h i y ∈ Set.Iio 0} := by
      refine measureReal_congr ?_
      filter_upwards [hsub] with y hy
      exact propext ⟨fun h => h.2, fun h => ⟨hy h, h⟩⟩
    rw [hinter] at hsplit
    have hd : {y : ℕ → ℝ | |(∑ j ∈ Finset.range (T i y), y j) / T i y - m| ≤ z * h i y} =
        {y : ℕ → ℝ | (∑ j ∈ Finset.range (T i y), y j) / T i y - m - z * h i y ∈ Set.Iic 0} \
          {y : ℕ → ℝ | (∑ j ∈ Finset.range (T i y), y j) / T i y - m - -z * h i y ∈ Set.Iio 0} := by
      ext y
      simp only [Set.mem_diff, Set.mem_setOf_eq, Set.mem_Iic, Set.mem_Iio, not_lt, abs_le]
      constructor
      · rintro ⟨h1, h2⟩; constructor <;> linarith
      · rintro ⟨h1, h2⟩; constructor <;> linarith
    rw [hd]
    linarith
  refine ⟨fun ε hε => ?_, fun z hz => ?_, fun z hz => ?_⟩
  · have hTr : ∀ i, Measurable fun y => (T i y : ℝ) := fun i => measurable_from_nat.comp (hTm i)
    have hin : TendstoInMeasure Q (fun i y => (T i y : ℝ) * δ i ^ 2) atTop fun _ => c0 ^ 2 :=
      tendstoInMeasure_of_tendsto_ae (fun i => ((hTr i).mul_const _).aestronglyMeasurable) (hlen.mono fun y h => h.2)
    have h0 := (tendstoInMeasure_iff_measureReal_norm.1 hin ε hε).const_sub 1
    rw [sub_zero] at h0
    refine h0.congr fun i => ?_
    have hms : MeasurableSet {y : ℕ → ℝ | ε ≤ ‖(T i y : ℝ) * δ i ^ 2 - c0 ^ 2‖} :=
      measurableSet_le measurable_const (((hTr i).mul_const _).sub_const _).norm
    rw [← probReal_compl_eq_one_sub hms]
    congr 1
    ext y
    simp only [Set.mem_compl_iff, Set.mem_setOf_eq, not_le, Real.norm_eq_abs, hc0s]
    rfl
  · refine htwo (fun i _ => δ i * m) (fun i => measurable_const) (Eventually.of_forall fun y i => mul_nonneg (hδ i).le hm0.le) ?_ z hz
    refine Eventually.of_forall fun y => ?_
    have := hsk.mul_const m
    rw [hc0m] at this
    exact this.congr fun i => by ring
  · have hall : ∀ᵐ y ∂Q, ∀ j, 0 ≤ y j := by
      rw [ae_all_iff]
      intro j
      have h := hnn
      rw [← hlaw j] at h
      exact ae_of_ae_map (measurable_pi_apply j).aemeasurable h
    refine htwo (fun i y => cvAt y (T i y) * ((∑ j ∈ Finset.range (T i y), y j) / T i y)) (fun i => ?_) ?_ ?_ z hz
    · exact (measurable_at (F := fun k y => cvAt y k) measurable_cvAt (hTm i)).mul
        ((measurable_at (F := fun k (y : ℕ → ℝ) => ∑ j ∈ Finset.range k, y j) (fun k => by fun_prop) (hTm i)).div
          (measurable_from_nat.comp (hTm i)))
    · filter_upwards [hall] with y hy i
      exact mul_nonneg (cvOfMean_pos _ _ _).le (div_nonneg (Finset.sum_nonneg fun j _ => hy j) (Nat.cast_nonneg _))
    · filter_upwards [hcv, hlen, hratio, hsum] with y a b c d
      rw [hmean] at d
      have e1 := a.comp b.1
      have e2 : Tendsto (fun i => √((T i y : ℝ) / k i)⁻¹) atTop (𝓝 1) := by
        have := (c.inv₀ one_ne_zero).sqrt
        simpa using this
      have e3 := d.comp b.1
      have e4 := (e1.mul e2).mul e3
      rw [mul_one, hc0m] at e4
      refine e4.congr fun i => ?_
      simp only [Function.comp]
      have hTp : (0:ℝ) < T i y := by exact_mod_cast hT1 i y
      have : √((T i y : ℝ) / k i)⁻¹ = √(k i) / √(T i y) := by rw [inv_div, Real.sqrt_div (hkpos i).le]
      rw [this]
      have := Real.sqrt_pos.2 hTp
      field_simp

/-- C116: runs with a target.  A crude Monte Carlo or importance-sampling run with the target `δ` for the coefficient of variation, and with
so many samples allowed that the limit does not matter (`N δ² → ∞`), reaches the accuracy asked for: as the target goes to 0, the number of
samples is asymptotically `V / (p δ)²`, where `p` is the exact failure probability and `V` the variance of a summand; the reported failure
probability is within `z δ p` of `p` with a probability that converges to `Φ(z) - Φ(-z)`, although the run chose itself when to stop; and so
is the coverage of the interval `Pf ± z · cov · Pf` made of the reported values. -/
theorem C116_target (hev : Values ev P f) (hA : MeasurableSet {u : Fin n → ℝ | f (uToX t marg u) < 0})
    (bs : ℕ) (hb : 1 ≤ bs) (stdv : ℝ) (hs : 0 < stdv) (hs2 : 1 / 2 < stdv ^ 2) (point : Option (Fin n → ℝ)) (pos : ℕ) (s : σ) (hP : P s)
    (δ : ℕ → ℝ) (hδ : ∀ i, 0 < δ i) (hδ0 : Tendsto δ atTop (𝓝 0)) (N : ℕ → ℕ) (hN1 : ∀ i, 1 ≤ N i)
    (hN : Tendsto (fun i => N i * δ i ^ 2) atTop atTop) (fuel : ℕ → ℕ) (hf : ∀ i, N i ≤ fuel i) :
    let c := point.getD fun _ => 0
    let p := (stdGauss n).real {u | f (uToX t marg u) < 0}
    let V := (∫ u in {u | f (uToX t marg u) < 0},
      normalDensity (fun _ => 0) 1 u / normalDensity c stdv u ∂(stdGauss n)) - p ^ 2
    0 < p → 0 < V →
      (∀ ε : ℝ, 0 < ε → Tendsto (fun i => stream.real {ω | ∃ r,
        MonteCarlo.run t marg ev ⟨N i, bs, stdv, δ i, 0⟩ point ω pos (fuel i) s = some (.ok r) ∧
          |r.st.k * δ i ^ 2 - V / p ^ 2| < ε}) atTop (𝓝 1)) ∧
      (∀ z : ℝ, 0 ≤ z → Tendsto (fun i => stream.real {ω | ∃ r,
        MonteCarlo.run t marg ev ⟨N i, bs, stdv, δ i, 0⟩ point ω pos (fuel i) s = some (.ok r) ∧
          |r.Pf - p| ≤ z * (δ i * p)}) atTop (𝓝 (StdNormal.cdf z - StdNormal.cdf (-z)))) ∧
      ∀ z : ℝ, 0 ≤ z → Tendsto (fun i => stream.real {ω | ∃ r,
        MonteCarlo.run t marg ev ⟨N i, bs, stdv, δ i, 0⟩ point ω pos (fuel i) s = some (.ok r) ∧
          |r.Pf - p| ≤ z * (r.st.covQBar * r.Pf)}) atTop (𝓝 (StdNormal.cdf z - StdNormal.cdf (-z))) := by
  intro c p V hp hV
  obtain ⟨X, hX⟩ : ∃ X, X = perSample {u | f (uToX t marg u) < 0} stdv c := ⟨_, rfl⟩
  have hXm : Measurable X := hX ▸ measurable_perSample hA stdv c
  have hmem : MemLp X 2 (stdGauss n) := hX ▸ memLp_perSample hs hs2 c hA
  have hmean : ∫ z, X z ∂(stdGauss n) = p := hX ▸ (integral_weighted hs c hA).2
  have hsq := variance_second hs hs2 c hA
  rw [← hX] at hsq
  haveI : IsProbabilityMeasure ((stdGauss n).map X) := Measure.isProbabilityMeasure_map hXm.aemeasurable
  have m1 : ∫ x, x ∂((stdGauss n).map X) = p := by
    rw [integral_map hXm.aemeasurable (by fun_prop), hmean]
  have m2 : ∫ x, x ^ 2 ∂((stdGauss n).map X) - p ^ 2 = V := by
    rw [integral_map hXm.aemeasurable (by fun_prop)]
    show ∫ z, X z ^ 2 ∂(stdGauss n) - p ^ 2 = V
    rw [hsq]
  have hnn : ∀ᵐ x ∂((stdGauss n).map X), 0 ≤ x := by
    rw [ae_map_iff hXm.aemeasurable (measurableSet_Ici : MeasurableSet {x : ℝ | 0 ≤ x})]
    refine Eventually.of_forall fun u => ?_
    rw [hX]
    exact Set.indicator_nonneg (fun u _ => weight_nonneg hs _ u) _
  obtain ⟨l1, l2, l3⟩ := stopped_limit (ρ := (stdGauss n).map X) ((memLp_map_measure_iff (by fun_prop) hXm.aemeasurable).2 hmem) m1 m2 hp hV hnn hb
    hδ hδ0 hN1 hN
  have hev' := fun i (B : Set (ℕ × ℝ × ℝ)) (hB : MeasurableSet B) => run_event (t := t) (marg := marg) hev hA hb hs (δ i) point pos (hN1 i) (hf i)
    s hP hB
  have hn : Measurable fun q : ℕ × ℝ × ℝ => (q.1 : ℝ) := measurable_from_nat.comp measurable_fst
  refine ⟨fun ε hε => ?_, fun z hz => ?_, fun z hz => ?_⟩
  · refine (l1 ε hε).congr fun i => ?_
    rw [hX]
    exact (hev' i {q : ℕ × ℝ × ℝ | |q.1 * δ i ^ 2 - V / p ^ 2| < ε}
      (measurableSet_lt (continuous_abs.measurable.comp ((hn.mul_const _).sub_const _)) measurable_const)).symm
  · refine (l2 z hz).congr fun i => ?_
    rw [hX]
    exact (hev' i {q : ℕ × ℝ × ℝ | |q.2.1 - p| ≤ z * (δ i * p)}
      (measurableSet_le (continuous_abs.measurable.comp (by fun_prop)) measurable_const)).symm
  · refine (l3 z hz).congr fun i => ?_
    rw [hX]
    exact (hev' i {q : ℕ × ℝ × ℝ | |q.2.1 - p| ≤ z * (q.2.2 * q.2.1)}
      (measurableSet_le (continuous_abs.measurable.comp (by fun_prop)) (by fun_prop))).symm

/-- C116 for crude Monte Carlo: it is enough that failure and survival are both possible, and the number of samples is asymptotically
`(1 - p) / (p δ²)`. -/
theorem C116_crude (hev : Values ev P f) (hA : MeasurableSet {u : Fin n → ℝ | f (uToX t marg u) < 0})
    (bs : ℕ) (hb : 1 ≤ bs) (pos : ℕ) (s : σ) (hP : P s)
    (δ : ℕ → ℝ) (hδ : ∀ i, 0 < δ i) (hδ0 : Tendsto δ atTop (𝓝 0)) (N : ℕ → ℕ) (hN1 : ∀ i, 1 ≤ N i)
    (hN : Tendsto (fun i => N i * δ i ^ 2) atTop atTop) (fuel : ℕ → ℕ) (hf : ∀ i, N i ≤ fuel i) :
    let p := (stdGauss n).real {u | f (uToX t marg u) < 0}
    0 < p → p < 1 →
      (∀ ε : ℝ, 0 < ε → Tendsto (fun i => stream.real {ω | ∃ r,
        MonteCarlo.run t marg ev ⟨N i, bs, 1, δ i, 0⟩ none ω pos (fuel i) s = some (.ok r) ∧
          |r.st.k * δ i ^ 2 - (1 - p) / p| < ε}) atTop (𝓝 1)) ∧
      (∀ z : ℝ, 0 ≤ z → Tendsto (fun i => stream.real {ω | ∃ r,
        MonteCarlo.run t marg ev ⟨N i, bs, 1, δ i, 0⟩ none ω pos (fuel i) s = some (.ok r) ∧
          |r.Pf - p| ≤ z * (δ i * p)}) atTop (𝓝 (StdNormal.cdf z - StdNormal.cdf (-z)))) ∧
      ∀ z : ℝ, 0 ≤ z → Tendsto (fun i => stream.real {ω | ∃ r,
        MonteCarlo.run t marg ev ⟨N i, bs, 1, δ i, 0⟩ none ω pos (fuel i) s = some (.ok r) ∧
          |r.Pf - p| ≤ z * (r.st.covQBar * r.Pf)}) atTop (𝓝 (StdNormal.cdf z - StdNormal.cdf (-z))) := by
  intro p hp hp1
  have h2 := setIntegral_weight_unit (fun _ => 0) hA
  simp only [MonteCarlo.weight_eq one_pos] at h2
  have e0 : ∀ u : Fin n → ℝ, u - (fun _ => 0) = u := fun u => by funext i; simp
  have hV : (∫ u in {u | f (uToX t marg u) < 0}, normalDensity (fun _ => 0) 1 u / normalDensity (fun _ => 0) 1 u ∂(stdGauss n)) = p := by
    rw [h2]
    simp only [e0, Set.setOf_mem_eq, dotProduct, mul_zero, Finset.sum_const_zero, Real.exp_zero, one_mul]
    rfl
  have h := C116_target (t := t) (marg := marg) hev hA bs hb 1 one_pos (by norm_num) none pos s hP δ hδ hδ0 N hN1 hN fuel hf
  simp only [Option.getD_none] at h
  rw [hV] at h
  obtain ⟨h1, h3, h4⟩ := h hp (by show 0 < p - p ^ 2; nlinarith)
  refine ⟨fun ε hε => ?_, h3, h4⟩
  have e : (p - p ^ 2) / p ^ 2 = (1 - p) / p := by field_simp
  rw [← e]
  exact h1 ε hε

/-- Non-vacuity: crude Monte Carlo on the limit state `1 + x` of one standard normal variable, in blocks of 10, with the targets
`1, 1/2, 1/3, …` and at most `1, 8, 27, …` samples.  The number of samples is asymptotically `Φ(1) / (Φ(-1) δ²)`, and the relative error of
the reported probability is at most `1.96 δ` with a probability that converges to `Φ(1.96) - Φ(-1.96)`. -/
example : ∃ m : Marginal, Normal.new 0 (.fin 1) none = .ok m ∧
    (∀ ε : ℝ, 0 < ε → Tendsto (fun i : ℕ => stream.real {ω | ∃ r, MonteCarlo.run (n := 1) ⟨1, 1⟩ (fun _ => m) (plainEv fun x => 1 + x 0)
      ⟨(i + 1) ^ 3, 10, 1, 1 / ((i:ℝ) + 1), 0⟩ none ω 0 ((i + 1) ^ 3) () = some (.ok r) ∧
        |r.st.k * (1 / ((i:ℝ) + 1)) ^ 2 - (1 - StdNormal.cdf (-1)) / StdNormal.cdf (-1)| < ε}) atTop (𝓝 1)) ∧
    Tendsto (fun i : ℕ => stream.real {ω | ∃ r, MonteCarlo.run (n := 1) ⟨1, 1⟩ (fun _ => m) (plainEv fun x => 1 + x 0)
      ⟨(i + 1) ^ 3, 10, 1, 1 / ((i:ℝ) + 1), 0⟩ none ω 0 ((i + 1) ^ 3) () = some (.ok r) ∧
        |r.Pf - StdNormal.cdf (-1)| ≤ 1.96 * (1 / ((i:ℝ) + 1) * StdNormal.cdf (-1))}) atTop
      (𝓝 (StdNormal.cdf 1.96 - StdNormal.cdf (-1.96))) := by
  obtain ⟨m, hm, hux, hA, hp⟩ := half_prob
  have hA' : MeasurableSet {u : Fin 1 → ℝ | (fun x : Fin 1 → ℝ => 1 + x 0) (uToX (n := 1) ⟨1, 1⟩ (fun _ => m) u) < 0} := by
    simp only [hux]; exact hA
  have h := C116_crude (t := ⟨1, 1⟩) (marg := fun _ => m) (plainEv_values fun x : Fin 1 → ℝ => 1 + x 0) hA' 10 (by norm_num) 0 () trivial
    (fun i => 1 / ((i:ℝ) + 1)) (fun i => by positivity) tendsto_one_div_add_atTop_nhds_zero_nat (fun i => (i + 1) ^ 3)
    (fun i => Nat.one_le_pow _ _ (Nat.succ_pos i)) (by
      have : (fun i : ℕ => (((i + 1) ^ 3 : ℕ) : ℝ) * (1 / ((i:ℝ) + 1)) ^ 2) = fun i : ℕ => (i:ℝ) + 1 := by
        funext i; push_cast; field_simp
      rw [this]
      exact tendsto_atTop_add_const_right _ _ tendsto_natCast_atTop_atTop)
    (fun i => (i + 1) ^ 3) (fun _ => le_rfl)
  simp only [hux, hp] at h
  obtain ⟨h1, h2, -⟩ := h (StdNormal.cdf_pos _) (StdNormal.cdf_lt_one _)
  exact ⟨m, hm, h1, h2 1.96 (by norm_num)⟩

end Pystra.Props
