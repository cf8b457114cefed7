import Verif.Lemmas.ImportanceSampling
import Mathlib.Probability.StrongLaw

/-! The strong law of large numbers for the samples of a simulation.  The draws of a simulation of `N` samples are laid
out in blocks; the last block may be incomplete, and its layout depends on `N`. -/

namespace Pystra.MonteCarlo
open Transformation Form Spec MeasureTheory ProbabilityTheory Matrix Filter Topology
open scoped ENNReal NNReal

variable {n : ℕ}

theorem measurable_mcDraws (bs N pos : ℕ) : Measurable (fun ω (j : Fin N) => mcDraw ω n bs N pos j) := by
  unfold mcDraw
  exact measurable_pi_lambda _ fun j => measurable_pi_lambda _ fun r => measurable_pi_apply _

theorem tsum_gt {Ω : Type*} {m : MeasurableSpace Ω} {μ : Measure Ω} [IsProbabilityMeasure μ] {X : Ω → ℝ}
    (hint : Integrable X μ) (h0 : 0 ≤ X) : (∑' j : ℕ, μ {ω | (j:ℝ) < X ω}) < ∞ := by
  let mΩ : MeasureSpace Ω := ⟨μ⟩
  haveI : IsProbabilityMeasure (volume : Measure Ω) := inferInstanceAs (IsProbabilityMeasure μ)
  exact tsum_prob_mem_Ioi_lt_top hint h0

/-- Functions of identically distributed variables with finite mean grow more slowly than their number. -/
theorem div_tendsto_zero {Ω E : Type*} {m : MeasurableSpace Ω} {μ : Measure Ω} [IsProbabilityMeasure μ]
    {mE : MeasurableSpace E} {ν : Measure E} [IsProbabilityMeasure ν] {Z : ℕ → Ω → E} (hZ : ∀ q, Measurable (Z q))
    (hlaw : ∀ q, μ.map (Z q) = ν) {X : E → ℝ} (hX : Measurable X) (hint : Integrable X ν) :
    ∀ᵐ ω ∂μ, Tendsto (fun q : ℕ => |X (Z q ω)| / q) atTop (𝓝 0) := by
  have key : ∀ k : ℕ, ∀ᵐ ω ∂μ, ∀ᶠ q : ℕ in atTop, (k + 1 : ℝ) * |X (Z q ω)| ≤ q := by
    intro k
    have hs := tsum_gt (μ := ν) (X := fun e => (k + 1 : ℝ) * |X e|) (hint.abs.const_mul _) (fun e => by
      simp only [Pi.zero_apply]; positivity)
    have e : ∀ q : ℕ, ν {e | (q:ℝ) < (k + 1 : ℝ) * |X e|} = μ {ω | (q:ℝ) < (k + 1 : ℝ) * |X (Z q ω)|} := by
      intro q
      rw [← hlaw q, Measure.map_apply (hZ q) (measurableSet_lt measurable_const (by fun_prop))]
      rfl
    simp only [e] at hs
    filter_upwards [ae_eventually_notMem hs.ne] with ω hω
    filter_upwards [hω] with q hq
    simpa using hq
  filter_upwards [ae_all_iff.2 key] with ω hω
  rw [Metric.tendsto_atTop]
  intro ε hε
  obtain ⟨k, hk⟩ := exists_nat_gt (1 / ε)
  obtain ⟨q0, h0⟩ := eventually_atTop.1 (hω k)
  refine ⟨max q0 1, fun q hq => ?_⟩
  have hq1 : (0:ℝ) < q := by
    have : 1 ≤ q := le_trans (le_max_right _ _) hq
    exact_mod_cast this
  have h := h0 q (le_trans (le_max_left _ _) hq)
  rw [Real.dist_eq, sub_zero, abs_of_nonneg (by positivity), div_lt_iff₀ hq1]
  rw [div_lt_iff₀ hε] at hk
  have hk' : 1 < ε * (k + 1 : ℝ) := by nlinarith
  nlinarith [abs_nonneg (X (Z q ω))]

/-- Draw `j` of a simulation without incomplete blocks. -/
def blockDraw (ω : ℕ → ℝ) (n bs pos j : ℕ) : Fin n → ℝ :=
  fun r => ω (pos + n * (bs * (j / bs)) + r.val * bs + j % bs)

/-- Draw `i` of an incomplete block of `b` samples after `q` complete ones. -/
def restDraw (ω : ℕ → ℝ) (n bs pos b i q : ℕ) : Fin n → ℝ := fun r => ω (pos + n * (bs * q) + r.val * b + i)

theorem mcDraw_block {bs N : ℕ} (pos : ℕ) {j : ℕ} (h : bs * (j / bs) + bs ≤ N) (ω : ℕ → ℝ) :
    mcDraw ω n bs N pos j = blockDraw ω n bs pos j := by
  unfold mcDraw blockDraw
  rw [min_eq_left (by omega)]

theorem mcDraw_rest {bs : ℕ} (hb : 1 ≤ bs) (pos : ℕ) {q b i : ℕ} (hi : i < b) (hbb : b < bs) (ω : ℕ → ℝ) :
    mcDraw ω n bs (bs * q + b) pos (bs * q + i) = restDraw ω n bs pos b i q := by
  have h1 : (bs * q + i) / bs = q := by
    rw [Nat.mul_add_div (by omega), Nat.div_eq_of_lt (by omega), Nat.add_zero]
  have h2 : (bs * q + i) % bs = i := by
    rw [Nat.mul_add_mod, Nat.mod_eq_of_lt (by omega)]
  unfold mcDraw restDraw
  rw [h1, h2]
  have : min bs (bs * q + b - bs * q) = b := by omega
  rw [this]

theorem measurable_blockDraw (bs pos j : ℕ) : Measurable (fun ω => blockDraw ω n bs pos j) := by
  unfold blockDraw; fun_prop

theorem measurable_restDraw (bs pos b i q : ℕ) : Measurable (fun ω => restDraw ω n bs pos b i q) := by
  unfold restDraw; fun_prop

instance stream_prob : IsProbabilityMeasure stream := by unfold stream; infer_instance

theorem restDraw_law (bs pos : ℕ) {b i : ℕ} (hi : i < b) (q : ℕ) :
    stream.map (fun ω => restDraw ω n bs pos b i q) = stdGauss n := by
  have hinj : Function.Injective (fun r : Fin n => pos + n * (bs * q) + r.val * b + i) := by
    intro r r' h
    simp only at h
    have : r.val * b = r'.val * b := by omega
    exact Fin.ext (Nat.eq_of_mul_eq_mul_right (by omega) this)
  exact stream_map hinj

theorem samples_indep {bs N : ℕ} (hb : 1 ≤ bs) (pos : ℕ) :
    iIndepFun (fun (j : Fin N) ω => mcDraw ω n bs N pos j) stream := by
  have hm : ∀ j : Fin N, Measurable (fun ω => mcDraw ω n bs N pos j) := fun j =>
    (measurable_pi_apply j).comp (measurable_mcDraws (n := n) bs N pos)
  rw [iIndepFun_iff_map_fun_eq_pi_map fun j => (hm j).aemeasurable, samples_law hb pos]
  congr 1
  funext j
  have h2 := (measurePreserving_eval (fun _ : Fin N => stdGauss n) j).map_eq
  rw [← samples_law (n := n) (N := N) hb pos, Measure.map_map (measurable_pi_apply j) (measurable_mcDraws _ _ _)] at h2
  exact h2.symm

theorem sample_law {bs N : ℕ} (hb : 1 ≤ bs) (pos : ℕ) (j : Fin N) :
    stream.map (fun ω => mcDraw ω n bs N pos j) = stdGauss n := by
  have h2 := (measurePreserving_eval (fun _ : Fin N => stdGauss n) j).map_eq
  rw [← samples_law (n := n) (N := N) hb pos, Measure.map_map (measurable_pi_apply j) (measurable_mcDraws _ _ _)] at h2
  exact h2

theorem div_bound {bs i : ℕ} (hb : 1 ≤ bs) {q : ℕ} (h : i < bs * q) : bs * (i / bs) + bs ≤ bs * q := by
  have : i / bs < q := Nat.div_lt_of_lt_mul h
  calc bs * (i / bs) + bs = bs * (i / bs + 1) := by ring
    _ ≤ bs * q := Nat.mul_le_mul_left _ this

theorem blockDraw_indep {bs : ℕ} (hb : 1 ≤ bs) (pos : ℕ) :
    Pairwise (fun i j => IndepFun (fun ω => blockDraw ω n bs pos i) (fun ω => blockDraw ω n bs pos j) stream) := by
  intro i j hij
  have hi : i < bs * (i + j + 1) := by nlinarith
  have hj : j < bs * (i + j + 1) := by nlinarith
  have h := (samples_indep (n := n) (N := bs * (i + j + 1)) hb pos).indepFun (i := ⟨i, hi⟩) (j := ⟨j, hj⟩)
    (by simpa using hij)
  simp only [mcDraw_block pos (div_bound hb hi), mcDraw_block pos (div_bound hb hj)] at h
  exact h

theorem blockDraw_law {bs : ℕ} (hb : 1 ≤ bs) (pos j : ℕ) :
    stream.map (fun ω => blockDraw ω n bs pos j) = stdGauss n := by
  have hj : j < bs * (j + 1) := by nlinarith
  have h := sample_law (n := n) hb pos (⟨j, hj⟩ : Fin (bs * (j + 1)))
  simp only [mcDraw_block pos (div_bound hb hj)] at h
  exact h

theorem block_mean {bs : ℕ} (hb : 1 ≤ bs) (pos : ℕ) {X : (Fin n → ℝ) → ℝ} (hX : Measurable X)
    (hint : Integrable X (stdGauss n)) :
    ∀ᵐ ω ∂stream, Tendsto (fun N : ℕ => (∑ j ∈ Finset.range N, X (blockDraw ω n bs pos j)) / N) atTop
      (𝓝 (∫ z, X z ∂(stdGauss n))) := by
  have hm := fun j => measurable_blockDraw (n := n) bs pos j
  have h := strong_law_ae_real (μ := stream) (fun j ω => X (blockDraw ω n bs pos j))
    (by
      have : Integrable X (stream.map (fun ω => blockDraw ω n bs pos 0)) := by rw [blockDraw_law hb pos]; exact hint
      exact this.comp_measurable (hm 0))
    (fun i j hij => (blockDraw_indep hb pos hij).comp hX hX)
    (fun i => ⟨(hX.comp (hm i)).aemeasurable, (hX.comp (hm 0)).aemeasurable, by
      have e : ∀ j, stream.map (fun ω => X (blockDraw ω n bs pos j)) = (stdGauss n).map X := fun j => by
        rw [← blockDraw_law (n := n) hb pos j, Measure.map_map hX (hm j)]; rfl
      rw [e, e]⟩)
  have e : ∫ ω, X (blockDraw ω n bs pos 0) ∂stream = ∫ z, X z ∂(stdGauss n) := by
    rw [← blockDraw_law (n := n) hb pos 0, integral_map (hm 0).aemeasurable hX.aestronglyMeasurable]
  simp only [e] at h
  exact h

theorem sum_split {bs : ℕ} (hb : 1 ≤ bs) (pos N : ℕ) (X : (Fin n → ℝ) → ℝ) (ω : ℕ → ℝ) :
    ∑ j : Fin N, X (mcDraw ω n bs N pos j) = ∑ j ∈ Finset.range (bs * (N / bs)), X (blockDraw ω n bs pos j) +
      ∑ i ∈ Finset.range (N % bs), X (restDraw ω n bs pos (N % bs) i (N / bs)) := by
  have hN := Nat.div_add_mod N bs
  have hlt : N % bs < bs := Nat.mod_lt _ (by omega)
  rw [Fin.sum_univ_eq_sum_range (fun j => X (mcDraw ω n bs N pos j))]
  conv_lhs => rw [← hN]
  rw [Finset.sum_range_add]
  congr 1
  · refine Finset.sum_congr rfl fun j hj => ?_
    rw [mcDraw_block pos ((div_bound hb (Finset.mem_range.1 hj)).trans (by omega))]
  · refine Finset.sum_congr rfl fun i hi => ?_
    rw [mcDraw_rest hb pos (Finset.mem_range.1 hi) hlt]

/-- The strong law of large numbers for the samples of a simulation. -/
theorem mean_tendsto {bs : ℕ} (hb : 1 ≤ bs) (pos : ℕ) {X : (Fin n → ℝ) → ℝ} (hX : Measurable X)
    (hint : Integrable X (stdGauss n)) :
    ∀ᵐ ω ∂stream, Tendsto (fun N : ℕ => (∑ j : Fin N, X (mcDraw ω n bs N pos j)) / N) atTop
      (𝓝 (∫ z, X z ∂(stdGauss n))) := by
  have hrest : ∀ p : ℕ × ℕ, ∀ᵐ ω ∂stream, p.2 < p.1 →
      Tendsto (fun q : ℕ => |X (restDraw ω n bs pos p.1 p.2 q)| / q) atTop (𝓝 0) := by
    intro p
    by_cases hp : p.2 < p.1
    · filter_upwards [div_tendsto_zero (fun q => measurable_restDraw (n := n) bs pos p.1 p.2 q)
        (fun q => restDraw_law bs pos hp q) hX hint] with ω h _
      exact h
    · exact Eventually.of_forall fun ω h => absurd h hp
  have hdiv : Tendsto (fun N : ℕ => N / bs) atTop atTop := Nat.tendsto_div_const_atTop (by omega)
  have hmul : Tendsto (fun N : ℕ => bs * (N / bs)) atTop atTop :=
    tendsto_atTop_mono (fun N => Nat.le_mul_of_pos_left _ (by omega)) hdiv
  have hratio : Tendsto (fun N : ℕ => ((bs * (N / bs) : ℕ) : ℝ) / N) atTop (𝓝 1) := by
    have h1 : Tendsto (fun N : ℕ => 1 - (bs:ℝ) / N) atTop (𝓝 1) := by
      simpa using tendsto_const_nhds.sub (tendsto_const_div_atTop_nhds_zero_nat (bs:ℝ))
    refine tendsto_of_tendsto_of_tendsto_of_le_of_le' h1 tendsto_const_nhds ?_ ?_
    · filter_upwards [eventually_ge_atTop 1] with N hN
      have hN' : (0:ℝ) < N := by exact_mod_cast hN
      have hd := Nat.div_add_mod N bs
      have hlt : N % bs < bs := Nat.mod_lt _ (by omega)
      have : (N:ℝ) ≤ ((bs * (N / bs) : ℕ) : ℝ) + bs := by exact_mod_cast (by omega)
      rw [sub_le_iff_le_add, ← add_div, le_div_iff₀ hN']
      linarith
    · filter_upwards [eventually_ge_atTop 1] with N hN
      have hN' : (0:ℝ) < N := by exact_mod_cast hN
      rw [div_le_one hN']
      exact_mod_cast Nat.mul_div_le N bs
  filter_upwards [block_mean hb pos hX hint, ae_all_iff.2 hrest] with ω h1 h2
  have hfull : Tendsto (fun N : ℕ => (∑ j ∈ Finset.range (bs * (N / bs)), X (blockDraw ω n bs pos j)) / N) atTop
      (𝓝 (∫ z, X z ∂(stdGauss n))) := by
    have h3 := (h1.comp hmul).mul hratio
    rw [mul_one] at h3
    refine h3.congr' ?_
    filter_upwards [eventually_ge_atTop bs] with N hN
    have hq : 1 ≤ N / bs := Nat.div_pos hN (by omega)
    have hp : (0:ℝ) < ((bs * (N / bs) : ℕ) : ℝ) := by
      exact_mod_cast Nat.mul_pos (by omega) (by omega)
    simp only [Function.comp_apply]
    field_simp
  have hsmall : Tendsto (fun N : ℕ => (∑ i ∈ Finset.range (N % bs), X (restDraw ω n bs pos (N % bs) i (N / bs))) / N) atTop
      (𝓝 0) := by
    have hb2 : Tendsto (fun N : ℕ => ∑ b ∈ Finset.range bs, ∑ i ∈ Finset.range b,
        |X (restDraw ω n bs pos b i (N / bs))| / ((N / bs : ℕ) : ℝ)) atTop (𝓝 0) := by
      have : Tendsto (fun q : ℕ => ∑ b ∈ Finset.range bs, ∑ i ∈ Finset.range b,
          |X (restDraw ω n bs pos b i q)| / (q : ℝ)) atTop (𝓝 (∑ b ∈ Finset.range bs, ∑ i ∈ Finset.range b, (0:ℝ))) :=
        tendsto_finset_sum _ fun b _ => tendsto_finset_sum _ fun i hi => h2 (b, i) (Finset.mem_range.1 hi)
      simp only [Finset.sum_const_zero] at this
      exact this.comp hdiv
    refine squeeze_zero_norm' ?_ hb2
    filter_upwards [eventually_ge_atTop bs] with N hN
    have hq : 1 ≤ N / bs := Nat.div_pos hN (by omega)
    have hqp : (0:ℝ) < ((N / bs : ℕ) : ℝ) := by exact_mod_cast hq
    have hNq : ((N / bs : ℕ) : ℝ) ≤ N := by exact_mod_cast Nat.div_le_self N bs
    have hlt : N % bs < bs := Nat.mod_lt _ (by omega)
    rw [Real.norm_eq_abs, abs_div, Nat.abs_cast]
    calc |∑ i ∈ Finset.range (N % bs), X (restDraw ω n bs pos (N % bs) i (N / bs))| / (N:ℝ)
        ≤ (∑ i ∈ Finset.range (N % bs), |X (restDraw ω n bs pos (N % bs) i (N / bs))|) / ((N / bs : ℕ) : ℝ) := by
          gcongr
          exact Finset.abs_sum_le_sum_abs _ _
      _ = ∑ i ∈ Finset.range (N % bs), |X (restDraw ω n bs pos (N % bs) i (N / bs))| / ((N / bs : ℕ) : ℝ) :=
          Finset.sum_div _ _ _
      _ ≤ _ := Finset.single_le_sum (f := fun b => ∑ i ∈ Finset.range b,
          |X (restDraw ω n bs pos b i (N / bs))| / ((N / bs : ℕ) : ℝ))
          (fun b _ => Finset.sum_nonneg fun i _ => by positivity) (Finset.mem_range.2 hlt)
  have := hfull.add hsmall
  rw [add_zero] at this
  refine this.congr fun N => ?_
  rw [← add_div, ← sum_split hb pos N X ω]

end Pystra.MonteCarlo
