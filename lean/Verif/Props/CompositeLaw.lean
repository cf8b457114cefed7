import Verif.Spec.Composite
import Verif.Props.Wrappers
import Verif.Props.OneLaw
import Verif.Props.MonteCarlo
import Verif.Props.StdNormal

/-! Property C93: variables of the composite classes (`Maximum`, `MaxParent`, `ZeroInflated`) have the law they are named after. -/

namespace Pystra.Props
open Real MeasureTheory Set Filter Topology Distribution ProbabilityTheory Spec Transformation Form MonteCarlo Matrix

theorem gauss_cdf_le {c : ℝ} (h0 : 0 ≤ c) (h1 : c ≤ 1) : gaussianReal 0 1 {u | StdNormal.cdf u ≤ c} = ENNReal.ofReal c := by
  have hreal : ∀ a, (gaussianReal 0 1).real (Iic a) = StdNormal.cdf a := fun a => by rw [C11_measure, cdf_eq_real]
  rcases h0.eq_or_lt with rfl | h0
  · have : {u | StdNormal.cdf u ≤ 0} = ∅ := by
      ext u; simpa using StdNormal.cdf_pos u
    rw [this]; simp
  rcases h1.eq_or_lt with rfl | h1
  · have : {u | StdNormal.cdf u ≤ 1} = univ := by
      ext u; simpa using (StdNormal.cdf_lt_one u).le
    rw [this]; simp
  · have : {u | StdNormal.cdf u ≤ c} = Iic (StdNormal.ppf c) := by
      ext u
      rw [mem_setOf_eq, mem_Iic, ← StdNormal.strictMono_cdf.le_iff_le (b := StdNormal.ppf c), StdNormal.cdf_ppf h0 h1]
    rw [this, ← ofReal_measureReal, hreal, StdNormal.cdf_ppf h0 h1]

/-- C93: an object whose `u_to_x` is `ppf(Φ(u))`, with `ppf` the quantile function of a law at all but countably many probabilities,
draws from that law. -/
theorem C93_draws {m : Marginal} {μ : Measure ℝ} [IsProbabilityMeasure μ] {E : Set ℝ} (hE : E.Countable)
    (hu : ∀ u, m.uToX u = m.ppf (StdNormal.cdf u))
    (hq : ∀ t, 0 < t → t < 1 → t ∉ E → ∀ x, t ≤ cdf μ x ↔ m.ppf t ≤ x) : Draws m μ := by
  set Z : Set ℝ := StdNormal.cdf ⁻¹' E with hZdef
  have hZ : Z.Countable := hE.preimage StdNormal.strictMono_cdf.injective
  have hset : ∀ x, {u | m.uToX u ≤ x} \ Z = {u | StdNormal.cdf u ≤ cdf μ x} \ Z := by
    intro x
    ext u
    simp only [mem_diff, mem_setOf_eq]
    refine and_congr_left fun hz => ?_
    rw [hu, hq _ (StdNormal.cdf_pos u) (StdNormal.cdf_lt_one u) hz]
  have hmeas : Measurable m.uToX := by
    refine measurable_of_Iic fun x => ?_
    have e : m.uToX ⁻¹' Iic x = ({u | StdNormal.cdf u ≤ cdf μ x} \ Z) ∪ (m.uToX ⁻¹' Iic x ∩ Z) := by
      rw [← hset x]
      exact (diff_union_inter _ _).symm
    rw [e]
    exact ((measurableSet_le StdNormal.continuous_cdf.measurable measurable_const).diff hZ.measurableSet).union
      (hZ.mono inter_subset_right).measurableSet
  refine ⟨hmeas, ?_⟩
  haveI : IsProbabilityMeasure ((gaussianReal 0 1).map m.uToX) := Measure.isProbabilityMeasure_map hmeas.aemeasurable
  refine Measure.ext_of_Iic _ _ fun x => ?_
  rw [Measure.map_apply hmeas measurableSet_Iic]
  have hnull : gaussianReal 0 1 Z = 0 := by
    haveI : NullSingletonClass (gaussianReal 0 1) := nullSingletonClass_gaussianReal (by simp)
    exact hZ.measure_zero _
  have e1 : gaussianReal 0 1 (m.uToX ⁻¹' Iic x) = gaussianReal 0 1 ((m.uToX ⁻¹' Iic x) \ Z) := (measure_diff_null hnull).symm
  have e2 : gaussianReal 0 1 {u | StdNormal.cdf u ≤ cdf μ x} = gaussianReal 0 1 ({u | StdNormal.cdf u ≤ cdf μ x} \ Z) :=
    (measure_diff_null hnull).symm
  rw [e1, show (m.uToX ⁻¹' Iic x) \ Z = {u | StdNormal.cdf u ≤ cdf μ x} \ Z from hset x, ← e2,
    gauss_cdf_le (cdf_nonneg μ x) (cdf_le_one μ x), cdf_eq_real, ofReal_measureReal]

/-- C93: every object that describes a law draws from it. -/
theorem C93_describes {m : Marginal} {μ : Measure ℝ} [IsProbabilityMeasure μ] (h : Describes m μ) : Draws m μ :=
  C93_draws countable_empty h.uToX fun t h0 h1 _ x => h.ppf t h0 h1 x

/-- C93: an object as in C87 whose `cdf` is monotone with values in `[0, 1]` (also off its support) describes the law of its `pdf`. -/
theorem C93_standard {m : Marginal} {D : Set ℝ} (hF : Faithful m D) (hL : OneLaw m D) (hp : ProperCdf m.cdf) :
    IsProbabilityMeasure (densityLaw (D.indicator m.pdf)) ∧ Describes m (densityLaw (D.indicator m.pdf)) ∧ Continuously m.cdf := by
  have hlaw := C74_marginal hF.round hF.isOpen hF.jac hF.ratio hF.law
  have hmeas : Measurable m.uToX := hF.round.mono_x.monotone.measurable
  have hP : IsProbabilityMeasure (densityLaw (D.indicator m.pdf)) := by
    rw [← hlaw]; exact Measure.isProbabilityMeasure_map hmeas.aemeasurable
  have hq : ∀ t, 0 < t → t < 1 → ∀ x, t ≤ m.cdf x ↔ m.ppf t ≤ x := by
    intro t h0 h1 x
    obtain ⟨hd, hc⟩ := hL.cdf_ppf t h0 h1
    refine ⟨fun h => ?_, fun h => by rw [← hc]; exact hp.mono h⟩
    by_contra hx
    obtain ⟨z, hz, hzl, hzD⟩ : ∃ z, x < z ∧ z < m.ppf t ∧ z ∈ D := by
      have h1 : ∀ᶠ z in 𝓝[<] (m.ppf t), z ∈ D := nhdsWithin_le_nhds (hF.isOpen.mem_nhds hd)
      have h2 : ∀ᶠ z in 𝓝[<] (m.ppf t), z ∈ Ioo x (m.ppf t) := Ioo_mem_nhdsLT (not_le.1 hx)
      obtain ⟨z, hz1, hz2⟩ := (h1.and h2).exists
      exact ⟨z, hz2.1, hz2.2, hz1⟩
    have e1 := hL.cdf_mono hzD hd hzl
    have e2 := hp.mono hz.le
    rw [hc] at e1
    linarith
  have hcdf : ∀ x, m.cdf x = cdf (densityLaw (D.indicator m.pdf)) x := by
    intro x
    rw [cdf_eq_real, measureReal_def, ← hlaw, Measure.map_apply hmeas measurableSet_Iic]
    have : m.uToX ⁻¹' Iic x = {u | StdNormal.cdf u ≤ m.cdf x} := by
      ext u
      rw [mem_preimage, mem_Iic, mem_setOf_eq, hL.uToX, hq _ (StdNormal.cdf_pos u) (StdNormal.cdf_lt_one u)]
    rw [this, gauss_cdf_le (hp.mem x).1 (hp.mem x).2, ENNReal.toReal_ofReal (hp.mem x).1]
  refine ⟨hP, ⟨hcdf, fun t h0 h1 x => by rw [← hcdf]; exact hq t h0 h1 x, hL.uToX⟩, ⟨fun p h0 h1 => ⟨_, (hL.cdf_ppf p h0 h1).2⟩, ?_⟩⟩
  have key : ∀ x, 0 < m.cdf x → m.cdf x < 1 → x = m.ppf (m.cdf x) := by
    intro x h0 h1
    obtain ⟨hd, hc⟩ := hL.cdf_ppf _ h0 h1
    refine le_antisymm (not_lt.1 fun hlt => ?_) ((hq _ h0 h1 x).1 le_rfl)
    obtain ⟨z, hz, hzl, hzD⟩ : ∃ z, m.ppf (m.cdf x) < z ∧ z < x ∧ z ∈ D := by
      have h1 : ∀ᶠ z in 𝓝[>] (m.ppf (m.cdf x)), z ∈ D := nhdsWithin_le_nhds (hF.isOpen.mem_nhds hd)
      have h2 : ∀ᶠ z in 𝓝[>] (m.ppf (m.cdf x)), z ∈ Ioo (m.ppf (m.cdf x)) x := Ioo_mem_nhdsGT hlt
      obtain ⟨z, hz1, hz2⟩ := (h1.and h2).exists
      exact ⟨z, hz2.1, hz2.2, hz1⟩
    have e1 := hL.cdf_mono hd hzD hz
    have e2 := hp.mono hzl.le
    rw [hc] at e1
    linarith
  intro x y h0 h1 he
  rw [key x h0 h1, key y (he ▸ h0) (he ▸ h1), he]

/-- A monotone function found by search. -/
theorem search_quantile {fmin : Minimiser} (hf : Minimises fmin) {F : ℝ → ℝ} (hm : Monotone F) (hc : Continuously F) {t : ℝ} (h0 : 0 < t)
    (h1 : t < 1) (x : ℝ) : t ≤ F x ↔ ppfBySearch fmin F t ≤ x := by
  have e := ppfBySearch_eq hf (hc.attains t h0 h1)
  constructor
  · intro h
    by_contra hx
    have h2 := hm (not_le.1 hx).le
    rw [e] at h2
    have h3 : F x = t := le_antisymm h2 h
    have := hc.injective x (ppfBySearch fmin F t) (h3 ▸ h0) (h3 ▸ h1) (by rw [h3, e])
    exact hx this.ge
  · intro h
    rw [← e]; exact hm h

theorem largest_prob (n : ℕ) (μ : Measure ℝ) [IsProbabilityMeasure μ] : IsProbabilityMeasure (largestOf n μ) ∧
    ∀ x, cdf (largestOf n μ) x = cdf μ x ^ (n + 1) := by
  have hm : Measurable (fun v : Fin (n + 1) → ℝ => Finset.univ.sup' Finset.univ_nonempty v) := by
    have h := Finset.measurable_sup' (s := (Finset.univ : Finset (Fin (n + 1)))) Finset.univ_nonempty
      (f := fun i (v : Fin (n + 1) → ℝ) => v i) (fun i _ => measurable_pi_apply i)
    convert h using 1
    funext v
    rw [Finset.sup'_apply]
  have hP : IsProbabilityMeasure (largestOf n μ) := Measure.isProbabilityMeasure_map hm.aemeasurable
  refine ⟨hP, fun x => ?_⟩
  rw [cdf_eq_real, cdf_eq_real, measureReal_def, largestOf, Measure.map_apply hm measurableSet_Iic]
  have e : (fun v : Fin (n + 1) → ℝ => Finset.univ.sup' Finset.univ_nonempty v) ⁻¹' Iic x = Set.pi univ (fun _ => Iic x) := by
    ext v
    simp [Pi.le_def]
  rw [e, Measure.pi_pi, Finset.prod_const, Finset.card_univ, Fintype.card_fin, ENNReal.toReal_pow, measureReal_def]

/-- Two laws with the same distribution function are the same. -/
theorem law_unique {μ ν : Measure ℝ} [IsProbabilityMeasure μ] [IsProbabilityMeasure ν] (h : ∀ x, cdf μ x = cdf ν x) : μ = ν := by
  refine Measure.ext_of_Iic _ _ fun x => ?_
  have := h x
  rw [cdf_eq_real, cdf_eq_real] at this
  rw [← ofReal_measureReal, ← ofReal_measureReal, this]

/-- An object whose `ppf` is the quantile function of its own `cdf` describes a law. -/
theorem law_exists {m : Marginal} (h01 : ∀ x, 0 ≤ m.cdf x ∧ m.cdf x ≤ 1) (hu : ∀ u, m.uToX u = m.ppf (StdNormal.cdf u))
    (hq : ∀ t, 0 < t → t < 1 → ∀ x, t ≤ m.cdf x ↔ m.ppf t ≤ x) :
    ∃ ν : Measure ℝ, IsProbabilityMeasure ν ∧ Describes m ν := by
  have hset : ∀ x, m.uToX ⁻¹' Iic x = {u | StdNormal.cdf u ≤ m.cdf x} := by
    intro x
    ext u
    rw [mem_preimage, mem_Iic, mem_setOf_eq, hu, hq _ (StdNormal.cdf_pos u) (StdNormal.cdf_lt_one u)]
  have hmeas : Measurable m.uToX := by
    refine measurable_of_Iic fun x => ?_
    rw [hset]
    exact measurableSet_le StdNormal.continuous_cdf.measurable measurable_const
  have hP := Measure.isProbabilityMeasure_map (μ := gaussianReal 0 1) hmeas.aemeasurable
  have hcdf : ∀ x, m.cdf x = cdf ((gaussianReal 0 1).map m.uToX) x := by
    intro x
    rw [cdf_eq_real, measureReal_def, Measure.map_apply hmeas measurableSet_Iic, hset, gauss_cdf_le (h01 x).1 (h01 x).2,
      ENNReal.toReal_ofReal (h01 x).1]
  exact ⟨_, hP, hcdf, fun t h0 h1 x => by rw [← hcdf]; exact hq t h0 h1 x, hu⟩

theorem rpow_continuously {F : ℝ → ℝ} (h01 : ∀ x, 0 ≤ F x ∧ F x ≤ 1) (hc : Continuously F) {a : ℝ} (ha : 0 < a) :
    Continuously (fun x => F x ^ a) := by
  refine ⟨fun p h0 h1 => ?_, fun x y h0 h1 he => ?_⟩
  · obtain ⟨x, hx⟩ := hc.attains (p ^ a⁻¹) (rpow_pos_of_pos h0 _) (rpow_lt_one h0.le h1 (by positivity))
    exact ⟨x, by simp only [hx]; rw [← rpow_mul h0.le, inv_mul_cancel₀ ha.ne', rpow_one]⟩
  · have e : F x = F y := (Real.rpow_left_inj (h01 x).1 (h01 y).1 ha.ne').1 he
    refine hc.injective x y ?_ ?_ e
    · rcases (h01 x).1.eq_or_lt with h | h
      · rw [← h, zero_rpow ha.ne'] at h0; exact absurd h0 (lt_irrefl _)
      · exact h
    · rcases (h01 x).2.eq_or_lt with h | h
      · rw [h, one_rpow] at h1; exact absurd h1 (lt_irrefl _)
      · exact h

theorem describes_bounds {d : Marginal} {μ : Measure ℝ} [IsProbabilityMeasure μ] (h : Describes d μ) :
    (∀ x, 0 ≤ d.cdf x ∧ d.cdf x ≤ 1) ∧ Monotone d.cdf := by
  refine ⟨fun x => ?_, fun x y hxy => ?_⟩
  · rw [h.cdf]; exact ⟨cdf_nonneg _ _, cdf_le_one _ _⟩
  · rw [h.cdf, h.cdf]; exact monotone_cdf μ hxy

/-- C93: `Maximum(parent, N)`.  Its variable has the distribution function `F^N`; for `N = n + 1` it is distributed as the largest of
`n + 1` independent copies of the parent. -/
theorem C93_maximum {fmin : Minimiser} (hf : Minimises fmin) {d : Marginal} {μ : Measure ℝ} [IsProbabilityMeasure μ] (hd : Describes d μ)
    (hc : Continuously d.cdf) {stats : ℝ × ℝ} {N : ℝ} {sp : Option ℝ} {m : Marginal} (hm : Maximum.new fmin stats d N sp = .ok m) :
    ∃ ν : Measure ℝ, IsProbabilityMeasure ν ∧ Draws m ν ∧ Describes m ν ∧ Continuously m.cdf ∧ (∀ x, cdf ν x = cdf μ x ^ N) ∧
      ∀ n : ℕ, N = n + 1 → ν = largestOf n μ := by
  obtain ⟨h01, hmono⟩ := describes_bounds hd
  unfold Maximum.new at hm
  split at hm
  · cases hm
  · next h =>
    injection hm with hm; subst hm
    have hN : 0 < N := by linarith [not_lt.1 h]
    have hc' : Continuously (Maximum.cdf d N) := rpow_continuously h01 hc hN
    have hmono' : Monotone (Maximum.cdf d N) := fun x y hxy => rpow_le_rpow (h01 x).1 (hmono hxy) hN.le
    obtain ⟨ν, hP, hD⟩ := law_exists (m := ⟨stats.1, stats.2, startPoint stats.1 sp, Maximum.pdf d N, Maximum.cdf d N,
      ppfBySearch fmin (Maximum.cdf d N), fun u => ppfBySearch fmin (Maximum.cdf d N) (StdNormal.cdf u),
      fun x => StdNormal.ppf (Maximum.cdf d N x), baseJac (Maximum.pdf d N)⟩)
      (fun x => ⟨rpow_nonneg (h01 x).1 _, rpow_le_one (h01 x).1 (h01 x).2 hN.le⟩) (fun _ => rfl)
      (fun t h0 h1 x => search_quantile hf hmono' hc' h0 h1 x)
    have hν : ∀ x, cdf ν x = cdf μ x ^ N := fun x => by rw [← hD.cdf, ← hd.cdf]; rfl
    refine ⟨ν, hP, C93_describes hD, hD, hc', hν, fun n hn => ?_⟩
    obtain ⟨hP', hl⟩ := largest_prob n μ
    refine law_unique fun x => ?_
    rw [hν, hl, hn, ← rpow_natCast]
    push_cast
    rfl

/-- C93: `MaxParent(max, N)`.  Its variable has the distribution function `F^(1/N)`; for `N = n + 1` the largest of `n + 1` independent
copies of it is distributed as the given maximum. -/
theorem C93_maxParent {fmin : Minimiser} (hf : Minimises fmin) {d : Marginal} {μ : Measure ℝ} [IsProbabilityMeasure μ] (hd : Describes d μ)
    (hc : Continuously d.cdf) {stats : ℝ × ℝ} {N : ℝ} {sp : Option ℝ} {m : Marginal} (hm : MaxParent.new fmin stats d N sp = .ok m) :
    ∃ ν : Measure ℝ, IsProbabilityMeasure ν ∧ Draws m ν ∧ Describes m ν ∧ Continuously m.cdf ∧ (∀ x, cdf ν x = cdf μ x ^ (1 / N)) ∧
      ∀ n : ℕ, N = n + 1 → largestOf n ν = μ := by
  obtain ⟨h01, hmono⟩ := describes_bounds hd
  unfold MaxParent.new at hm
  split at hm
  · cases hm
  · next h =>
    injection hm with hm; subst hm
    have hN : 0 < N := by linarith [not_lt.1 h]
    have hN' : 0 < 1 / N := by positivity
    have hc' : Continuously (MaxParent.cdf d N) := rpow_continuously h01 hc hN'
    have hmono' : Monotone (MaxParent.cdf d N) := fun x y hxy => rpow_le_rpow (h01 x).1 (hmono hxy) hN'.le
    obtain ⟨ν, hP, hD⟩ := law_exists (m := ⟨stats.1, stats.2, startPoint stats.1 sp, MaxParent.pdf d N, MaxParent.cdf d N,
      ppfBySearch fmin (MaxParent.cdf d N), fun u => ppfBySearch fmin (MaxParent.cdf d N) (StdNormal.cdf u),
      fun x => StdNormal.ppf (MaxParent.cdf d N x), baseJac (MaxParent.pdf d N)⟩)
      (fun x => ⟨rpow_nonneg (h01 x).1 _, rpow_le_one (h01 x).1 (h01 x).2 hN'.le⟩) (fun _ => rfl)
      (fun t h0 h1 x => search_quantile hf hmono' hc' h0 h1 x)
    have hν : ∀ x, cdf ν x = cdf μ x ^ (1 / N) := fun x => by rw [← hD.cdf, ← hd.cdf]; rfl
    refine ⟨ν, hP, C93_describes hD, hD, hc', hν, fun n hn => ?_⟩
    obtain ⟨hP', hl⟩ := largest_prob n ν
    refine law_unique fun x => ?_
    rw [hl, hν, ← rpow_natCast, ← rpow_mul (cdf_nonneg μ x), hn]
    push_cast
    rw [one_div_mul_cancel (by positivity), rpow_one]

/-- The quantile function of the mixture. -/
theorem zeroInflated_quantile {d : Marginal} {p : ℝ} (hp0 : 0 ≤ p) (hp1 : p < 1) (hmono : Monotone d.cdf) (h01 : ∀ x, 0 ≤ d.cdf x ∧ d.cdf x ≤ 1)
    (hd : ∀ s, 0 < s → s < 1 → ∀ x, s ≤ d.cdf x ↔ d.ppf s ≤ x) {t : ℝ} (h0 : 0 < t) (h1 : t < 1) (ht : t ≠ (1 - p) * d.cdf 0)
    (ht' : t ≠ (1 - p) * d.cdf 0 + p) (x : ℝ) :
    t ≤ d.cdf x * (1 - p) + (if 0 ≤ x then p else 0) ↔ ZeroInflated.ppf d p t ≤ x := by
  have hq : 0 < 1 - p := by linarith
  unfold ZeroInflated.ppf
  simp only
  have hp00 : 0 ≤ (1 - p) * d.cdf 0 := mul_nonneg hq.le (h01 0).1
  have hneg : x < 0 → d.cdf x * (1 - p) ≤ (1 - p) * d.cdf 0 := fun h => by
    rw [mul_comm]; exact mul_le_mul_of_nonneg_left (hmono h.le) hq.le
  have hpos : 0 ≤ x → (1 - p) * d.cdf 0 ≤ d.cdf x * (1 - p) := fun h => by
    rw [mul_comm]; exact mul_le_mul_of_nonneg_right (hmono h) hq.le
  by_cases c1 : t ≥ (1 - p) * d.cdf 0 + p
  · rw [if_pos c1]
    have c1' : (1 - p) * d.cdf 0 + p < t := lt_of_le_of_ne c1 (Ne.symm ht')
    have hQ := hd ((t - p) / (1 - p)) (div_pos (by linarith) hq) (by rw [div_lt_one hq]; linarith)
    rw [← hQ x, div_le_iff₀ hq]
    by_cases h : 0 ≤ x
    · rw [if_pos h]; constructor <;> intro h <;> linarith
    · rw [if_neg h]
      have := hneg (not_le.1 h)
      constructor <;> intro h <;> linarith
  · rw [if_neg c1]
    by_cases c2 : (1 - p) * d.cdf 0 < t ∧ t < (1 - p) * d.cdf 0 + p
    · rw [if_pos c2]
      by_cases h : 0 ≤ x
      · rw [if_pos h]
        have := hpos h
        exact ⟨fun _ => h, fun _ => by linarith [c2.2]⟩
      · rw [if_neg h]
        have := hneg (not_le.1 h)
        exact ⟨fun h' => by linarith [c2.1], fun h' => absurd h' h⟩
    · rw [if_neg c2]
      have c3 : t < (1 - p) * d.cdf 0 := by
        by_contra hc
        exact c2 ⟨lt_of_le_of_ne (not_lt.1 hc) (Ne.symm ht), not_le.1 c1⟩
      rw [if_pos c3]
      have hle : (1 - p) * d.cdf 0 ≤ 1 - p := by
        have := mul_le_mul_of_nonneg_left (h01 0).2 hq.le; linarith
      have hQ := hd (t / (1 - p)) (div_pos h0 hq) (by rw [div_lt_one hq]; linarith)
      rw [← hQ x, div_le_iff₀ hq]
      by_cases h : 0 ≤ x
      · rw [if_pos h]
        have := hpos h
        constructor <;> intro h <;> linarith
      · rw [if_neg h, add_zero]

/-- C93: `ZeroInflated(dist, p)`.  Its variable is 0 with probability `p` and distributed as `dist` otherwise. -/
theorem C93_zeroInflated {d : Marginal} {μ : Measure ℝ} [IsProbabilityMeasure μ] (hd : Describes d μ) {p : ℝ} {sp : Option ℝ} {m : Marginal}
    (hm : ZeroInflated.new d p sp = .ok m) : IsProbabilityMeasure (zeroInflate μ p) ∧ Draws m (zeroInflate μ p) := by
  obtain ⟨hp0, hp1⟩ := (C18_ctor d p sp).1 ⟨m, hm⟩
  obtain ⟨hP, -, -, -⟩ := C18_law d p sp m hm μ hd.cdf
  obtain ⟨h01, hmono⟩ := describes_bounds hd
  refine ⟨hP, C93_draws (E := {(1 - p) * d.cdf 0, (1 - p) * d.cdf 0 + p}) (by simp) (fun u => ?_) fun t h0 h1 ht x => ?_⟩
  · unfold ZeroInflated.new at hm
    rw [if_neg (not_lt.2 hp0), if_neg (not_le.2 hp1)] at hm
    injection hm with hm; subst hm
    rfl
  · have e : m.ppf = ZeroInflated.ppf d p := by
      unfold ZeroInflated.new at hm
      rw [if_neg (not_lt.2 hp0), if_neg (not_le.2 hp1)] at hm
      injection hm with hm; subst hm
      rfl
    rw [e, ← zeroInflated_quantile hp0 hp1 hmono h01 (fun s h0 h1 x => by rw [hd.cdf]; exact hd.ppf s h0 h1 x) h0 h1
      (fun h => ht (by simp [h])) (fun h => ht (by simp [h]))]
    have hz : cdf (zeroInflate μ p) x = d.cdf x * (1 - p) + (if 0 ≤ x then p else 0) := by
      rw [hd.cdf, cdf_eq_real, cdf_eq_real, zeroInflate, measureReal_def, Measure.add_apply, Measure.smul_apply, Measure.smul_apply,
        Measure.dirac_apply' _ measurableSet_Iic, smul_eq_mul, smul_eq_mul, ENNReal.toReal_add, ENNReal.toReal_mul, ENNReal.toReal_mul,
        ENNReal.toReal_ofReal hp0, ENNReal.toReal_ofReal (by linarith), measureReal_def]
      · by_cases h : 0 ≤ x
        · simp [h]; ring
        · simp [h]; ring
      · exact ENNReal.mul_ne_top ENNReal.ofReal_ne_top (by by_cases h : 0 ≤ x <;> simp [h])
      · exact ENNReal.mul_ne_top ENNReal.ofReal_ne_top (measure_ne_top _ _)
    rw [hz]

end Pystra.Props
