import Verif.Props.ImportanceGain

/-! C123: the sampling standard deviation and the number of variables. -/

namespace Pystra.Props
open MeasureTheory Set Spec Matrix Transformation MonteCarlo Form Filter
open ProbabilityTheory hiding cdf

variable {n : ℕ} {σ : Type}

/-- The factor by which every variable multiplies the second moment of the weights. -/
noncomputable def widthFactor (s : ℝ) : ℝ := s ^ 2 / √(2 * s ^ 2 - 1)

/-- It is 1 for the sampling standard deviation 1, and larger for every other one above `1/√2`. -/
theorem widthFactor_one : widthFactor 1 = 1 := by unfold widthFactor; norm_num

theorem one_lt_widthFactor {s : ℝ} (hs : 0 < s) (h2 : 1 / 2 < s ^ 2) (h1 : s ≠ 1) : 1 < widthFactor s := by
  have hr : 0 < 2 * s ^ 2 - 1 := by linarith
  unfold widthFactor
  rw [one_lt_div (Real.sqrt_pos.2 hr), Real.sqrt_lt' (by positivity)]
  have : s ^ 2 - 1 ≠ 0 := by
    intro h
    have : (s - 1) * (s + 1) = 0 := by linarith
    rcases mul_eq_zero.1 this with h | h
    · exact h1 (by linarith)
    · linarith
  nlinarith [sq_pos_of_ne_zero this]

/-- The product of the weights of two matched sampling densities does not depend on the point. -/
theorem weight_mul_weight {s : ℝ} (hs : 0 < s) (h2 : 1 / 2 < s ^ 2) (c u : Fin n → ℝ) :
    weight (s / √(2 * s ^ 2 - 1)) (fun i => -(c i / (2 * s ^ 2 - 1))) u * weight s c u =
      widthFactor s ^ n * Real.exp ((∑ i, c i ^ 2) / (2 * s ^ 2 - 1)) := by
  have hr : 0 < 2 * s ^ 2 - 1 := by linarith
  have hq : √(2 * s ^ 2 - 1) ^ 2 = 2 * s ^ 2 - 1 := Real.sq_sqrt hr.le
  have hq0 : 0 < √(2 * s ^ 2 - 1) := Real.sqrt_pos.2 hr
  unfold weight widthFactor
  rw [mul_mul_mul_comm, ← mul_pow, ← Real.exp_add]
  congr 1
  · congr 1; ring
  · congr 1
    simp only [dotProduct, Finset.mul_sum, ← Finset.sum_add_distrib, Finset.sum_div]
    refine Finset.sum_congr rfl fun i _ => ?_
    simp only [Pi.sub_apply, Pi.smul_apply, smul_eq_mul, div_pow, hq]
    have hr' : 2 * s ^ 2 - 1 ≠ 0 := hr.ne'
    generalize hw : 2 * s ^ 2 - 1 = w at *
    have hs2 : s ^ 2 = (w + 1) / 2 := by linarith
    rw [hs2]
    have : w + 1 ≠ 0 := by linarith
    field_simp
    ring

/-- The second moment for every sampling standard deviation above `1/√2`. -/
theorem setIntegral_weight {s : ℝ} (hs : 0 < s) (h2 : 1 / 2 < s ^ 2) (c : Fin n → ℝ) {A : Set (Fin n → ℝ)} (hA : MeasurableSet A) :
    ∫ u in A, weight s c u ∂(stdGauss n) = widthFactor s ^ n * Real.exp ((∑ i, c i ^ 2) / (2 * s ^ 2 - 1)) *
      (stdGauss n).real {u | (fun i => s / √(2 * s ^ 2 - 1) * u i - c i / (2 * s ^ 2 - 1)) ∈ A} := by
  have hr : 0 < 2 * s ^ 2 - 1 := by linarith
  have hτ : 0 < s / √(2 * s ^ 2 - 1) := div_pos hs (Real.sqrt_pos.2 hr)
  have hm : Measurable (fun (z : Fin n → ℝ) r => -(c r / (2 * s ^ 2 - 1)) + s / √(2 * s ^ 2 - 1) * z r) := by fun_prop
  have hw := measurable_weight s c
  have hK : 0 ≤ widthFactor s ^ n * Real.exp ((∑ i, c i ^ 2) / (2 * s ^ 2 - 1)) := by unfold widthFactor; positivity
  rw [integral_eq_lintegral_of_nonneg_ae (Filter.Eventually.of_forall fun u => weight_nonneg hs c u)
    hw.aestronglyMeasurable, ← lintegral_indicator hA]
  conv_lhs => rw [stdGauss_eq hτ (fun i => -(c i / (2 * s ^ 2 - 1)))]
  rw [lintegral_withDensity_eq_lintegral_mul₀ (measurable_weight _ _).ennreal_ofReal.aemeasurable
    (hw.ennreal_ofReal.indicator hA).aemeasurable]
  have e : ∀ u : Fin n → ℝ, ((fun u => ENNReal.ofReal (weight (s / √(2 * s ^ 2 - 1)) (fun i => -(c i / (2 * s ^ 2 - 1))) u)) *
      A.indicator fun u => ENNReal.ofReal (weight s c u)) u =
      ENNReal.ofReal (widthFactor s ^ n * Real.exp ((∑ i, c i ^ 2) / (2 * s ^ 2 - 1))) * A.indicator 1 u := by
    intro u
    rw [Pi.mul_apply]
    by_cases h : u ∈ A
    · rw [Set.indicator_of_mem h, Set.indicator_of_mem h, ← ENNReal.ofReal_mul (weight_nonneg hτ _ u), Pi.one_apply,
        mul_one, weight_mul_weight hs h2]
    · rw [Set.indicator_of_notMem h, Set.indicator_of_notMem h]; simp
  simp only [e]
  rw [lintegral_const_mul _ (measurable_one.indicator hA), lintegral_indicator_one hA, Measure.map_apply hm hA,
    ENNReal.toReal_mul, ENNReal.toReal_ofReal hK]
  congr 3
  ext u
  have : (fun r => -(c r / (2 * s ^ 2 - 1)) + s / √(2 * s ^ 2 - 1) * u r) =
      fun i => s / √(2 * s ^ 2 - 1) * u i - c i / (2 * s ^ 2 - 1) := by
    funext r; ring
  simp only [Set.mem_preimage, this, Set.mem_setOf_eq]

/-- Some of the coordinates of a standard normal vector are a standard normal vector. -/
theorem stdGauss_comp {k : ℕ} {ι : Fin n → Fin k} (hι : Function.Injective ι) :
    (stdGauss k).map (fun u i => u (ι i)) = stdGauss n := by
  have h1 := stream_map (ι := Fin k) (e := fun i => i.val) Fin.val_injective
  have h2 := stream_map (ι := Fin n) (e := fun i => (ι i).val) (Fin.val_injective.comp hι)
  unfold stdGauss
  rw [← h1, ← h2, Measure.map_map (by fun_prop) (by fun_prop)]
  rfl

section runs
variable {t : Mats n} {marg : Fin n → Marginal} {ev : Evaluator σ n} {P : σ → Prop} {f : (Fin n → ℝ) → ℝ} {opt : MonteCarlo.Options}

/-- C123: the variance of crude Monte Carlo and of importance sampling for any limit state, centre and sampling standard deviation
`s > 1/√2`: the second moment of a weight has one factor `s²/√(2s² - 1)` for every random variable. -/
theorem C123_variance (hev : Values ev P f) (hA : MeasurableSet {u : Fin n → ℝ | f (uToX t marg u) < 0})
    (hg : opt.randomGenerator = 0) (hb : 1 ≤ opt.blockSize) (hN : 1 ≤ opt.samples) (hs : 0 < opt.stdv)
    (hs2 : 1 / 2 < opt.stdv ^ 2) (hcov : opt.cov ≤ 0) (point : Option (Fin n → ℝ)) (pos fuel : ℕ)
    (hf : opt.samples ≤ fuel) (s : σ) (hP : P s) :
    let c := point.getD fun _ => 0
    let a := 2 * opt.stdv ^ 2 - 1
    let p := (stdGauss n).real {u | f (uToX t marg u) < 0}
    ∃ Pf : (ℕ → ℝ) → ℝ,
      (∀ ω, ∃ r, MonteCarlo.run t marg ev opt point ω pos fuel s = some (.ok r) ∧ r.Pf = Pf ω) ∧
      ∫ ω, Pf ω ∂stream = p ∧
      Var[Pf; stream] = ((opt.stdv ^ 2 / √a) ^ n * Real.exp ((∑ i, c i ^ 2) / a) *
        (stdGauss n).real {u | f (uToX t marg (fun i => opt.stdv / √a * u i - c i / a)) < 0} - p ^ 2) / opt.samples := by
  intro c a p
  obtain ⟨Pf, h1, -, h3, h4⟩ := C75_variance hev hA hg hb hN hs hs2 hcov point pos fuel hf s hP
  refine ⟨Pf, fun ω => ?_, h3, h4.trans ?_⟩
  · obtain ⟨r, q1, -, q2⟩ := h1 ω; exact ⟨r, q1, q2⟩
  · have := setIntegral_weight hs hs2 c hA
    simp only [weight_eq hs] at this
    rw [this]
    rfl

/-- C123, variables the limit state does not use: let a model of `k` variables contain those of a model of `n`, `ι` telling their places,
and let a point of the larger standard space fail exactly when its common coordinates fail in the smaller one; centres agree on the
common coordinates and are 0 on the others.  The estimates have the same mean, and the second moment of a weight of the larger model is
`(s²/√(2s² - 1))^(k - n)` times that of the smaller. -/
theorem C123_unused {τ : Type} {k : ℕ} {t' : Mats k} {marg' : Fin k → Marginal} {ev' : Evaluator τ k} {P' : τ → Prop} {f' : (Fin k → ℝ) → ℝ}
    (hev : Values ev P f) (hev' : Values ev' P' f') (hA : MeasurableSet {u : Fin n → ℝ | f (uToX t marg u) < 0})
    {ι : Fin n → Fin k} (hι : Function.Injective ι)
    (hff : ∀ u : Fin k → ℝ, f' (uToX t' marg' u) < 0 ↔ f (uToX t marg fun i => u (ι i)) < 0)
    {c : Fin n → ℝ} {c' : Fin k → ℝ} (hc : ∀ i, c' (ι i) = c i) (hc0 : ∀ j, (∀ i, ι i ≠ j) → c' j = 0)
    (hg : opt.randomGenerator = 0) (hb : 1 ≤ opt.blockSize) (hN : 1 ≤ opt.samples) (hs : 0 < opt.stdv)
    (hs2 : 1 / 2 < opt.stdv ^ 2) (hcov : opt.cov ≤ 0) (pos fuel : ℕ)
    (hf : opt.samples ≤ fuel) (s : σ) (hP : P s) (s' : τ) (hP' : P' s') :
    ∃ small large : (ℕ → ℝ) → ℝ,
      (∀ ω, ∃ r, MonteCarlo.run t marg ev opt (some c) ω pos fuel s = some (.ok r) ∧ r.Pf = small ω) ∧
      (∀ ω, ∃ r, MonteCarlo.run t' marg' ev' opt (some c') ω pos fuel s' = some (.ok r) ∧ r.Pf = large ω) ∧
      ∫ ω, large ω ∂stream = ∫ ω, small ω ∂stream ∧
      opt.samples * Var[large; stream] + (∫ ω, large ω ∂stream) ^ 2 =
        (opt.stdv ^ 2 / √(2 * opt.stdv ^ 2 - 1)) ^ (k - n) * (opt.samples * Var[small; stream] + (∫ ω, small ω ∂stream) ^ 2) := by
  have hm : Measurable (fun (u : Fin k → ℝ) i => u (ι i)) := by fun_prop
  have hset : ∀ {B : Set (Fin n → ℝ)}, MeasurableSet B → (stdGauss k).real {u | (fun i => u (ι i)) ∈ B} = (stdGauss n).real B := by
    intro B hB
    rw [← stdGauss_comp hι, map_measureReal_apply hm hB]
    rfl
  have hA' : MeasurableSet {u : Fin k → ℝ | f' (uToX t' marg' u) < 0} := by
    simp only [hff]
    exact hm hA
  have hN' : (0:ℝ) < opt.samples := by exact_mod_cast hN
  obtain ⟨S, s1, s2, s3⟩ := C123_variance hev hA hg hb hN hs hs2 hcov (some c) pos fuel hf s hP
  obtain ⟨L, l1, l2, l3⟩ := C123_variance hev' hA' hg hb hN hs hs2 hcov (some c') pos fuel hf s' hP'
  have hmean : ∫ ω, L ω ∂stream = ∫ ω, S ω ∂stream := by
    rw [s2, l2]
    simp only [hff]
    exact hset hA
  have hcc : ∑ j, c' j ^ 2 = ∑ i, c i ^ 2 := by
    classical
    rw [← Finset.sum_subset (Finset.subset_univ (Finset.univ.image ι)), Finset.sum_image fun a _ b _ h => hι h]
    · exact Finset.sum_congr rfl fun i _ => by rw [hc]
    · intro j _ hj
      rw [hc0 j fun i hi => hj (Finset.mem_image.2 ⟨i, Finset.mem_univ i, hi⟩)]
      ring
  refine ⟨S, L, s1, l1, hmean, ?_⟩
  have hB : MeasurableSet {u : Fin n → ℝ | f (uToX t marg (fun i => opt.stdv / √(2 * opt.stdv ^ 2 - 1) * u i -
      c i / (2 * opt.stdv ^ 2 - 1))) < 0} := by
    have : Measurable (fun (u : Fin n → ℝ) i => opt.stdv / √(2 * opt.stdv ^ 2 - 1) * u i - c i / (2 * opt.stdv ^ 2 - 1)) := by fun_prop
    exact this hA
  have hB' := hset hB
  have hnk : n ≤ k := by simpa using Fintype.card_le_of_injective ι hι
  rw [hmean, s3, l3, s2]
  simp only [Option.getD_some, hff, hc, hcc]
  simp only [mem_setOf_eq] at hB'
  have hA1 := hset hA
  simp only [mem_setOf_eq] at hA1
  rw [hB', hA1]
  have hpow : (opt.stdv ^ 2 / √(2 * opt.stdv ^ 2 - 1)) ^ k = (opt.stdv ^ 2 / √(2 * opt.stdv ^ 2 - 1)) ^ (k - n) *
      (opt.stdv ^ 2 / √(2 * opt.stdv ^ 2 - 1)) ^ n := by rw [← pow_add]; congr 1; omega
  rw [hpow]
  field_simp
  ring

/-- C123, affine limit states of index `b`: with centre at `x` times the design point (`x = 0`: crude Monte Carlo, `x = 1`: importance
sampling at the design point) the variance is explicit. -/
theorem C123_affine (hev : Values ev P f) {κ b : ℝ} (hκ : 0 < κ) {al : Fin n → ℝ} (hal : ∑ i, al i ^ 2 = 1)
    (hff : ∀ u, f (uToX t marg u) = κ * (b - ∑ i, al i * u i)) (x : ℝ)
    (hg : opt.randomGenerator = 0) (hb : 1 ≤ opt.blockSize) (hN : 1 ≤ opt.samples) (hs : 0 < opt.stdv)
    (hs2 : 1 / 2 < opt.stdv ^ 2) (hcov : opt.cov ≤ 0) (pos fuel : ℕ)
    (hf : opt.samples ≤ fuel) (s : σ) (hP : P s) :
    ∃ Pf : (ℕ → ℝ) → ℝ,
      (∀ ω, ∃ r, MonteCarlo.run t marg ev opt (some fun i => x * (b * al i)) ω pos fuel s = some (.ok r) ∧ r.Pf = Pf ω) ∧
      Var[Pf; stream] = ((opt.stdv ^ 2 / √(2 * opt.stdv ^ 2 - 1)) ^ n * (Real.exp ((x * b) ^ 2 / (2 * opt.stdv ^ 2 - 1)) *
        StdNormal.cdf (-(b * (2 * opt.stdv ^ 2 - 1 + x) / (opt.stdv * √(2 * opt.stdv ^ 2 - 1))))) - StdNormal.cdf (-b) ^ 2) /
          opt.samples := by
  have ha : 0 < 2 * opt.stdv ^ 2 - 1 := by linarith
  have hset : ∀ {w d : ℝ}, 0 < w → (stdGauss n).real {u : Fin n → ℝ | d + ∑ i, -(w * al i) * u i < 0} = StdNormal.cdf (-(d / w)) := by
    intro w d hw
    have h2 : ∑ i, (-(w * al i)) ^ 2 = w ^ 2 := by simp only [neg_sq, mul_pow, ← Finset.mul_sum, hal, mul_one]
    have h1 := halfspace_lt (n := n) (fun i => -(w * al i)) (by rw [h2]; positivity) d
    rw [h2, Real.sqrt_sq hw.le] at h1
    exact h1
  have hneg : ∀ u, f (uToX t marg u) < 0 ↔ b + ∑ i, -(1 * al i) * u i < 0 := by
    intro u
    rw [hff]
    simp only [neg_mul, one_mul, Finset.sum_neg_distrib]
    constructor
    · intro h
      by_contra h'
      have := mul_nonneg hκ.le (show 0 ≤ b - ∑ i, al i * u i by linarith)
      linarith
    · intro h
      exact mul_neg_of_pos_of_neg hκ (by linarith)
  have hA : MeasurableSet {u : Fin n → ℝ | f (uToX t marg u) < 0} := by
    simp only [hneg]
    exact measurableSet_lt (by fun_prop) measurable_const
  obtain ⟨I, i1, -, i2⟩ := C123_variance hev hA hg hb hN hs hs2 hcov (some fun i => x * (b * al i)) pos fuel hf s hP
  refine ⟨I, i1, i2.trans ?_⟩
  simp only [Option.getD_some]
  have e1 : ∑ i, (x * (b * al i)) ^ 2 = (x * b) ^ 2 := by
    have : ∑ i, (x * (b * al i)) ^ 2 = (x * b) ^ 2 * ∑ i, al i ^ 2 := by
      rw [Finset.mul_sum]; exact Finset.sum_congr rfl fun i _ => by ring
    rw [this, hal, mul_one]
  have e2 : ∀ u : Fin n → ℝ, f (uToX t marg fun i => opt.stdv / √(2 * opt.stdv ^ 2 - 1) * u i -
      x * (b * al i) / (2 * opt.stdv ^ 2 - 1)) < 0 ↔ (b + x * b / (2 * opt.stdv ^ 2 - 1)) +
        ∑ i, -(opt.stdv / √(2 * opt.stdv ^ 2 - 1) * al i) * u i < 0 := by
    intro u
    rw [hneg]
    have : ∑ i, -(1 * al i) * (opt.stdv / √(2 * opt.stdv ^ 2 - 1) * u i - x * (b * al i) / (2 * opt.stdv ^ 2 - 1)) =
        ∑ i, -(opt.stdv / √(2 * opt.stdv ^ 2 - 1) * al i) * u i + x * b / (2 * opt.stdv ^ 2 - 1) * ∑ i, al i ^ 2 := by
      rw [Finset.mul_sum, ← Finset.sum_add_distrib]
      exact Finset.sum_congr rfl fun i _ => by ring
    rw [this, hal]
    constructor <;> intro h <;> linarith
  have e3 : (b + x * b / (2 * opt.stdv ^ 2 - 1)) / (opt.stdv / √(2 * opt.stdv ^ 2 - 1)) =
      b * (2 * opt.stdv ^ 2 - 1 + x) / (opt.stdv * √(2 * opt.stdv ^ 2 - 1)) := by
    have hq : √(2 * opt.stdv ^ 2 - 1) ^ 2 = 2 * opt.stdv ^ 2 - 1 := Real.sq_sqrt ha.le
    have hq0 : 0 < √(2 * opt.stdv ^ 2 - 1) := Real.sqrt_pos.2 ha
    generalize √(2 * opt.stdv ^ 2 - 1) = w at *
    rw [← hq]
    field_simp
  have e4 : (stdGauss n).real {u : Fin n → ℝ | b + ∑ i, -(1 * al i) * u i < 0} = StdNormal.cdf (-b) := by
    rw [hset one_pos, div_one]
  simp only [e1, e2, hneg, e4]
  rw [hset (div_pos hs (Real.sqrt_pos.2 ha)), e3, mul_assoc]

end runs

/-- C123, the number of variables: for a sampling standard deviation above `1/√2` other than 1 and a given index `b`, the number of
variables alone makes the variance as large as one likes; for 1 it plays no role. -/
theorem C123_dimension {s : ℝ} (hs : 0 < s) (hs2 : 1 / 2 < s ^ 2) (hs1 : s ≠ 1) (b x M : ℝ) :
    ∃ n0 : ℕ, ∀ {n : ℕ}, n0 ≤ n → ∀ {σ : Type} {t : Mats n} {marg : Fin n → Marginal} {ev : Evaluator σ n} {P : σ → Prop}
      {f : (Fin n → ℝ) → ℝ}, Values ev P f → ∀ {κ : ℝ}, 0 < κ → ∀ {al : Fin n → ℝ}, ∑ i, al i ^ 2 = 1 →
      (∀ u, f (uToX t marg u) = κ * (b - ∑ i, al i * u i)) → ∀ {N bs : ℕ} {cov : ℝ}, 1 ≤ N → 1 ≤ bs → cov ≤ 0 → ∀ pos st, P st →
      ∃ Pf : (ℕ → ℝ) → ℝ,
        (∀ ω, ∃ r, MonteCarlo.run t marg ev ⟨N, bs, s, cov, 0⟩ (some fun i => x * (b * al i)) ω pos N st = some (.ok r) ∧
          r.Pf = Pf ω) ∧ M / N < Var[Pf; stream] := by
  have hw := one_lt_widthFactor hs hs2 hs1
  obtain ⟨q, hq⟩ : ∃ q, q = Real.exp ((x * b) ^ 2 / (2 * s ^ 2 - 1)) *
    StdNormal.cdf (-(b * (2 * s ^ 2 - 1 + x) / (s * √(2 * s ^ 2 - 1)))) := ⟨_, rfl⟩
  have hq0 : 0 < q := hq ▸ mul_pos (Real.exp_pos _) (StdNormal.cdf_pos _)
  obtain ⟨n0, hn0⟩ := eventually_atTop.1 (((tendsto_pow_atTop_atTop_of_one_lt hw).atTop_mul_const hq0).eventually_gt_atTop
    (M + StdNormal.cdf (-b) ^ 2))
  refine ⟨n0, fun {n} hn σ t marg ev P f hev κ hκ al hal hff N bs cov hN hb hcov pos st hP => ?_⟩
  obtain ⟨Pf, h1, h2⟩ := C123_affine (t := t) (marg := marg) (opt := ⟨N, bs, s, cov, 0⟩) hev hκ hal hff x rfl hb hN hs hs2 hcov pos N le_rfl
    st hP
  refine ⟨Pf, h1, ?_⟩
  have h3 := hn0 n hn
  have hN' : (0:ℝ) < N := by exact_mod_cast hN
  simp only [← hq] at h2
  rw [h2]
  refine div_lt_div_of_pos_right ?_ hN'
  unfold widthFactor at h3
  linarith

/-- A case of `C123_unused`: `3 - x₀` of one standard normal variable, and the same limit state in a model with nine more of them;
sampling standard deviation 2 around the origin (crude Monte Carlo).  The second moment is `(4/√7)^9` (about 41) times as large. -/
example : ∃ (m : Marginal) (small large : (ℕ → ℝ) → ℝ), Normal.new 0 (.fin 1) none = .ok m ∧
    (∀ ω, ∃ q, MonteCarlo.run ⟨1, 1⟩ (fun _ => m) (gradEv (fun x : Fin 1 → ℝ => 3 - x 0) fun _ _ => -1) ⟨100000, 1000, 2, 0, 0⟩
      (some fun _ => 0) ω 0 100000 () = some (.ok q) ∧ q.Pf = small ω) ∧
    (∀ ω, ∃ q, MonteCarlo.run ⟨1, 1⟩ (fun _ => m) (gradEv (fun x : Fin 10 → ℝ => 3 - x 4) fun _ _ => -1) ⟨100000, 1000, 2, 0, 0⟩
      (some fun _ => 0) ω 0 100000 () = some (.ok q) ∧ q.Pf = large ω) ∧
    ∫ ω, large ω ∂stream = ∫ ω, small ω ∂stream ∧
    100000 * Var[large; stream] + (∫ ω, large ω ∂stream) ^ 2 =
      (4 / √7) ^ 9 * (100000 * Var[small; stream] + (∫ ω, small ω ∂stream) ^ 2) := by
  obtain ⟨m, hm, -⟩ := C12_normal 0 (σ := 1) one_pos none
  obtain ⟨S, L, h1, h2, h3, h4⟩ := C123_unused (t := ⟨1, 1⟩) (marg := fun _ => m) (f := fun x : Fin 1 → ℝ => 3 - x 0)
    (ev := gradEv (fun x : Fin 1 → ℝ => 3 - x 0) fun _ _ => -1) (P := fun _ => True) (t' := ⟨1, 1⟩) (marg' := fun _ => m)
    (f' := fun x : Fin 10 → ℝ => 3 - x 4) (ev' := gradEv (fun x : Fin 10 → ℝ => 3 - x 4) fun _ _ => -1) (P' := fun _ => True)
    (fun s xs _ => ⟨s, rfl, trivial⟩) (fun s xs _ => ⟨s, rfl, trivial⟩)
    (by simp only [std_uToX hm]; exact measurableSet_lt (by fun_prop) measurable_const) (ι := fun _ => 4)
    (fun i j _ => Subsingleton.elim i j) (fun u => by rw [std_uToX hm, std_uToX hm]) (c := fun _ => 0) (c' := fun _ => 0)
    (fun _ => rfl) (fun _ _ => rfl)
    (opt := ⟨100000, 1000, 2, 0, 0⟩) rfl (by norm_num) (by norm_num) (by norm_num) (by norm_num) le_rfl 0 100000 le_rfl () trivial ()
    trivial
  refine ⟨m, S, L, hm, h1, h2, h3, ?_⟩
  norm_num at h4 ⊢
  exact h4

/-- A case of `C123_affine`, and of the limit states of `C123_dimension`: the sum of `n ≥ 1` standard normal variables, sampling standard
deviation 2 at the design point. -/
example {n : ℕ} (hn : 0 < n) : ∃ (m : Marginal) (Pf : (ℕ → ℝ) → ℝ), Normal.new 0 (.fin 1) none = .ok m ∧
    (∀ ω, ∃ q, MonteCarlo.run ⟨1, 1⟩ (fun _ => m) (gradEv (fun x : Fin n → ℝ => 3 * √n - ∑ i, x i) fun _ _ => -1)
      ⟨100000, 1000, 2, 0, 0⟩ (some fun _ => 3 / √n) ω 0 100000 () = some (.ok q) ∧ q.Pf = Pf ω) ∧
    Var[Pf; stream] = ((4 / √7) ^ n * (Real.exp (9 / 7) * StdNormal.cdf (-(12 / √7))) - StdNormal.cdf (-3) ^ 2) / 100000 := by
  obtain ⟨m, hm, -⟩ := C12_normal 0 (σ := 1) one_pos none
  have hn' : (0:ℝ) < n := by exact_mod_cast hn
  have hq : 0 < √(n:ℝ) := Real.sqrt_pos.2 hn'
  have hq2 : √(n:ℝ) ^ 2 = n := Real.sq_sqrt hn'.le
  obtain ⟨I, h1, h2⟩ := C123_affine (t := ⟨1, 1⟩) (marg := fun _ => m) (f := fun x : Fin n → ℝ => 3 * √n - ∑ i, x i)
    (ev := gradEv (fun x : Fin n → ℝ => 3 * √n - ∑ i, x i) fun _ _ => -1) (P := fun _ => True) (fun s xs _ => ⟨s, rfl, trivial⟩)
    (κ := √n) (b := 3) hq (al := fun _ => 1 / √n)
    (by rw [Finset.sum_const, Finset.card_univ, Fintype.card_fin, nsmul_eq_mul, div_pow, hq2]; field_simp)
    (fun u => by rw [std_uToX hm, ← Finset.mul_sum]; field_simp) 1
    (opt := ⟨100000, 1000, 2, 0, 0⟩) rfl (by norm_num) (by norm_num) (by norm_num) (by norm_num) le_rfl 0 100000 le_rfl () trivial
  refine ⟨m, I, hm, ?_, ?_⟩
  · have e : (fun _ : Fin n => (1:ℝ) * (3 * (1 / √n))) = fun _ => 3 / √n := by funext i; ring
    rw [e] at h1
    exact h1
  · rw [h2]
    norm_num
    have e : (24:ℝ) / (2 * √7) = 12 / √7 := by field_simp; norm_num
    rw [e]

end Pystra.Props
