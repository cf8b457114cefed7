import Verif.Spec.SampleLimit
import Verif.Props.OneLaw
import Mathlib.Probability.StrongLaw
import Mathlib.Probability.Independence.InfinitePi

/-! C114: large samples have the moments and the distribution function that the object reports. -/

namespace Pystra.Props
open MeasureTheory ProbabilityTheory Real Set Spec Distribution Filter Topology

/-- The strong law along a uniform stream, from every position on. -/
theorem uni_strong {h : ℝ → ℝ} (hi : Integrable h unif) :
    ∀ᵐ υ ∂uniStream, ∀ pos : ℕ, Tendsto (fun n : ℕ => (∑ k ∈ Finset.range n, h (υ (pos + k))) / n) atTop (𝓝 (∫ p, h p ∂unif)) := by
  obtain ⟨g, hg, hgh⟩ := hi.aestronglyMeasurable
  have hgm : Measurable g := hg.measurable
  have heval : ∀ k, (uniStream.map fun υ : ℕ → ℝ => υ k) = unif := fun k => (measurePreserving_eval_infinitePi (fun _ : ℕ => unif) k).map_eq
  have hgi : Integrable g unif := hi.congr hgh
  have hae : ∀ᵐ υ ∂uniStream, ∀ k : ℕ, h (υ k) = g (υ k) := by
    rw [ae_all_iff]
    intro k
    have : ∀ᵐ p ∂(uniStream.map fun υ : ℕ → ℝ => υ k), h p = g p := by rw [heval k]; exact hgh
    exact ae_of_ae_map (measurable_pi_apply k).aemeasurable this
  have hind : iIndepFun (fun (k : ℕ) (υ : ℕ → ℝ) => g (υ k)) uniStream :=
    iIndepFun_infinitePi (P := fun _ : ℕ => unif) (X := fun _ x => g x) (fun _ => hgm)
  have hpos : ∀ᵐ υ ∂uniStream, ∀ pos : ℕ,
      Tendsto (fun n : ℕ => (∑ k ∈ Finset.range n, g (υ (pos + k))) / n) atTop (𝓝 (∫ p, g p ∂unif)) := by
    rw [ae_all_iff]
    intro pos
    have hlaw : ∀ k, uniStream.map (fun υ : ℕ → ℝ => g (υ k)) = unif.map g := by
      intro k
      rw [← heval k, Measure.map_map hgm (measurable_pi_apply k)]; rfl
    have hint : Integrable (fun υ : ℕ → ℝ => g (υ pos)) uniStream := by
      have := hgi
      rw [← heval pos] at this
      exact this.comp_measurable (measurable_pi_apply pos)
    have hexp : ∫ υ, g (υ pos) ∂uniStream = ∫ p, g p ∂unif := by
      rw [← heval pos, integral_map (measurable_pi_apply pos).aemeasurable]
      rw [heval pos]; exact hg.aestronglyMeasurable
    have := strong_law_ae_real (μ := uniStream) (fun k υ => g (υ (pos + k))) (by simpa using hint)
      (fun i j hij => hind.indepFun (by omega))
      (fun k => ⟨(hgm.comp (measurable_pi_apply _)).aemeasurable, (hgm.comp (measurable_pi_apply _)).aemeasurable, by
        show uniStream.map (fun υ : ℕ → ℝ => g (υ (pos + k))) = uniStream.map (fun υ : ℕ → ℝ => g (υ (pos + 0)))
        rw [hlaw, hlaw]⟩)
    simp only [Nat.add_zero, hexp] at this
    exact this
  filter_upwards [hae, hpos] with υ h1 h2 pos
  simp only [h1]
  rw [integral_congr_ae hgh]
  exact h2 pos

/-- `Φ` of a standard normal number is uniform. -/
theorem map_stdCdf : (gaussianReal 0 1).map StdNormal.cdf = unif := by
  have hm : Measurable StdNormal.cdf := StdNormal.strictMono_cdf.monotone.measurable
  haveI : IsProbabilityMeasure ((gaussianReal 0 1).map StdNormal.cdf) := Measure.isProbabilityMeasure_map hm.aemeasurable
  refine Measure.ext_of_Iic _ _ fun c => ?_
  rw [Measure.map_apply hm measurableSet_Iic]
  rcases le_or_gt c 0 with h0 | h0
  · have e1 : StdNormal.cdf ⁻¹' Iic c = ∅ := by
      ext u; simp only [mem_preimage, mem_Iic, mem_empty_iff_false, iff_false, not_le]
      exact h0.trans_lt (StdNormal.cdf_pos u)
    have e2 : Iic c ∩ Ioo (0:ℝ) 1 = ∅ := by
      ext u; simp only [mem_inter_iff, mem_Iic, mem_Ioo, mem_empty_iff_false, iff_false]
      rintro ⟨a, b, _⟩; linarith
    rw [e1, unif, Measure.restrict_apply measurableSet_Iic, e2, measure_empty, measure_empty]
  rcases le_or_gt 1 c with h1 | h1
  · have e1 : StdNormal.cdf ⁻¹' Iic c = univ := by
      ext u; simp only [mem_preimage, mem_Iic, mem_univ, iff_true]
      exact (StdNormal.cdf_lt_one u).le.trans h1
    have e2 : unif (Iic c) = 1 := by
      rw [unif, Measure.restrict_apply measurableSet_Iic]
      have : Iic c ∩ Ioo (0:ℝ) 1 = Ioo 0 1 := by
        ext u; simp only [mem_inter_iff, mem_Iic, mem_Ioo]
        constructor
        · exact fun h => h.2
        · exact fun h => ⟨h.2.le.trans h1, h⟩
      rw [this, Real.volume_Ioo]; simp
    rw [e1, e2, measure_univ]
  · have e1 : StdNormal.cdf ⁻¹' Iic c = Iic (StdNormal.ppf c) := by
      ext u; simp only [mem_preimage, mem_Iic]
      conv_lhs => rw [← StdNormal.cdf_ppf h0 h1]
      exact StdNormal.strictMono_cdf.le_iff_le
    have e2 := unif_Ioc h0.le h1.le
    have e3 : (gaussianReal 0 1).real (Iic (StdNormal.ppf c)) = c := by
      rw [← cdf_eq_real, ← C11_measure, StdNormal.cdf_ppf h0 h1]
    rw [e1]
    refine Eq.trans ?_ e2.symm
    rw [← ENNReal.ofReal_toReal (measure_ne_top (gaussianReal 0 1) (Iic (StdNormal.ppf c)))]
    exact congrArg ENNReal.ofReal e3

theorem unif_integral_le (c : ℝ) (h0 : 0 ≤ c) : ∫ p, (Iic c).indicator (fun _ => (1:ℝ)) p ∂unif = min c 1 := by
  rw [integral_indicator measurableSet_Iic, setIntegral_const, smul_eq_mul, mul_one, measureReal_def]
  have e : unif (Iic c) = ENNReal.ofReal (min c 1) := by
    rcases le_total c 1 with h | h
    · rw [min_eq_left h]; exact unif_Ioc h0 h
    · rw [min_eq_right h, unif, Measure.restrict_apply measurableSet_Iic]
      have : Iic c ∩ Ioo (0:ℝ) 1 = Ioo 0 1 := by
        ext u; simp only [mem_inter_iff, mem_Iic, mem_Ioo]
        exact ⟨fun h => h.2, fun k => ⟨k.2.le.trans h, k⟩⟩
      rw [this, Real.volume_Ioo]; simp
  rw [e, ENNReal.toReal_ofReal (le_min h0 zero_le_one)]

/-- The share of uniform numbers up to `c` converges to `c`, uniformly in `c`. -/
theorem uni_glivenko : ∀ᵐ υ ∂uniStream, ∀ pos : ℕ, ∀ ε > 0, ∀ᶠ n : ℕ in atTop, ∀ c, 0 ≤ c → c ≤ 1 →
    |(∑ k ∈ Finset.range n, (Iic c).indicator (fun _ => (1:ℝ)) (υ (pos + k))) / n - c| < ε := by
  have hc : ∀ᵐ υ ∂uniStream, ∀ (a b : ℕ), ∀ pos : ℕ, Tendsto (fun n : ℕ =>
      (∑ k ∈ Finset.range n, (Iic ((a:ℝ) / b)).indicator (fun _ => (1:ℝ)) (υ (pos + k))) / n) atTop (𝓝 (min ((a:ℝ) / b) 1)) := by
    rw [ae_all_iff]; intro a
    rw [ae_all_iff]; intro b
    rw [← unif_integral_le _ (by positivity)]
    exact uni_strong ((integrable_const 1).indicator measurableSet_Iic)
  filter_upwards [hc] with υ h pos ε hε
  obtain ⟨N, hN⟩ := exists_nat_one_div_lt (half_pos hε)
  have hev : ∀ᶠ n : ℕ in atTop, ∀ j ∈ Finset.range (N + 3),
      |(∑ k ∈ Finset.range n, (Iic ((j:ℝ) / (N + 1 : ℕ))).indicator (fun _ => (1:ℝ)) (υ (pos + k))) / n - min ((j:ℝ) / (N + 1 : ℕ)) 1| < ε / 2 := by
    rw [eventually_all_finset]
    intro j _
    have := (h j (N + 1) pos)
    rw [Metric.tendsto_nhds] at this
    simpa only [Real.dist_eq] using this (ε / 2) (half_pos hε)
  filter_upwards [hev] with n hn c h0 h1
  have hNp : (0:ℝ) < ((N + 1 : ℕ) : ℝ) := by positivity
  obtain ⟨j, hj⟩ : ∃ j, j = ⌊c * ((N + 1 : ℕ) : ℝ)⌋₊ := ⟨_, rfl⟩
  have hj1 : (j:ℝ) ≤ c * ((N + 1 : ℕ) : ℝ) := by rw [hj]; exact Nat.floor_le (by positivity)
  have hj2 : c * ((N + 1 : ℕ) : ℝ) < j + 1 := by rw [hj]; exact Nat.lt_floor_add_one _
  have hjN : j ≤ N + 1 := by
    have : (j:ℝ) ≤ ((N + 1 : ℕ) : ℝ) := hj1.trans (by nlinarith)
    exact_mod_cast this
  have ha := hn j (Finset.mem_range.2 (by omega))
  have hb := hn (j + 1) (Finset.mem_range.2 (by omega))
  have hlow : (j:ℝ) / ((N + 1 : ℕ) : ℝ) ≤ c := by rw [div_le_iff₀ hNp]; exact hj1
  have hhigh : c ≤ ((j + 1 : ℕ):ℝ) / ((N + 1 : ℕ) : ℝ) := by rw [le_div_iff₀ hNp]; push_cast at hj2 ⊢; exact hj2.le
  have hgap : ((j + 1 : ℕ):ℝ) / ((N + 1 : ℕ) : ℝ) = (j:ℝ) / ((N + 1 : ℕ) : ℝ) + 1 / ((N:ℝ) + 1) := by push_cast; ring
  have mono : ∀ a b : ℝ, a ≤ b → (∑ k ∈ Finset.range n, (Iic a).indicator (fun _ => (1:ℝ)) (υ (pos + k))) / n ≤
      (∑ k ∈ Finset.range n, (Iic b).indicator (fun _ => (1:ℝ)) (υ (pos + k))) / n := by
    intro a b hab
    refine div_le_div_of_nonneg_right (Finset.sum_le_sum fun k _ => ?_) (Nat.cast_nonneg n)
    exact indicator_le_indicator_of_subset (Iic_subset_Iic.2 hab) (fun _ => zero_le_one) _
  have m1 := mono _ _ hlow
  have m2 := mono _ _ hhigh
  rw [abs_lt] at ha hb ⊢
  rw [min_eq_left (hlow.trans h1)] at ha
  have : min (((j + 1 : ℕ):ℝ) / ((N + 1 : ℕ) : ℝ)) 1 ≤ (j:ℝ) / ((N + 1 : ℕ) : ℝ) + 1 / ((N:ℝ) + 1) := hgap ▸ min_le_left _ _
  constructor
  · linarith [ha.1]
  · linarith [hb.2]

/-- The integral of a function of `ppf` over the uniform law is its expectation under the density. -/
theorem ppf_expect {m : Marginal} {D : Set ℝ} (hF : Faithful m D) (hL : OneLaw m D) {h : ℝ → ℝ} (hm : Measurable h)
    (hi : Integrable fun x => h x * D.indicator m.pdf x) :
    Integrable (fun p => h (m.ppf p)) unif ∧ ∫ p, h (m.ppf p) ∂unif = ∫ x, h x * D.indicator m.pdf x := by
  have hmap := C74_marginal hF.round hF.isOpen hF.jac hF.ratio hF.law
  have hmeas : Measurable m.uToX := hF.round.mono_x.monotone.measurable
  have hpdf : AEMeasurable (fun x => ENNReal.ofReal (D.indicator m.pdf x)) := hF.law.int0.aestronglyMeasurable.aemeasurable.ennreal_ofReal
  have hu : AEMeasurable m.ppf unif := aemeasurable_restrict_of_monotoneOn measurableSet_Ioo (by
    intro a ha b hb hab
    by_contra hlt
    have := hL.cdf_mono (hL.cdf_ppf b hb.1 hb.2).1 (hL.cdf_ppf a ha.1 ha.2).1 (not_le.1 hlt)
    rw [(hL.cdf_ppf b hb.1 hb.2).2, (hL.cdf_ppf a ha.1 ha.2).2] at this
    linarith)
  have hlaw : unif.map m.ppf = densityLaw (D.indicator m.pdf) := by
    rw [← hmap, ← map_stdCdf] at *
    rw [AEMeasurable.map_map_of_aemeasurable hu StdNormal.strictMono_cdf.monotone.measurable.aemeasurable]
    congr 1
    funext u
    exact (hL.uToX u).symm
  have e : (fun x => h x * D.indicator m.pdf x) = fun x => (ENNReal.ofReal (D.indicator m.pdf x)).toReal • h x := by
    funext x
    rw [ENNReal.toReal_ofReal (hF.law.nonneg x), smul_eq_mul, mul_comm]
  have hfin : ∀ᵐ x, ENNReal.ofReal (D.indicator m.pdf x) < ⊤ := Eventually.of_forall fun _ => ENNReal.ofReal_lt_top
  constructor
  · have : Integrable h (unif.map m.ppf) := by
      rw [hlaw, densityLaw, integrable_withDensity_iff_integrable_smul₀' hpdf hfin, ← e]
      exact hi
    exact this.comp_aemeasurable hu
  · have : ∫ x, h x ∂(unif.map m.ppf) = ∫ p, h (m.ppf p) ∂unif := integral_map hu hm.aestronglyMeasurable
    rw [← this, hlaw, densityLaw, integral_withDensity_eq_integral_toReal_smul₀ hpdf hfin, ← e]

theorem range_sum (f : ℕ → ℝ) (n : ℕ) : ((List.range n).map f).sum = ∑ k ∈ Finset.range n, f k := by
  induction n with
  | zero => simp
  | succ n ih => rw [List.range_succ, List.map_append, List.sum_append, ih, Finset.sum_range_succ]; simp

theorem listCdf_range (f : ℕ → ℝ) (n : ℕ) (x : ℝ) : listCdf ((List.range n).map f) x =
    (∑ k ∈ Finset.range n, (Iic x).indicator (fun _ => (1:ℝ)) (f k)) / n := by
  classical
  unfold listCdf
  rw [List.length_map, List.length_range]
  congr 1
  induction n with
  | zero => simp
  | succ n ih =>
    rw [List.range_succ, List.map_append, List.countP_append, Finset.sum_range_succ, Nat.cast_add, ih]
    congr 1
    by_cases h : f n ≤ x
    · simp [h]
    · simp [h]

/-- The statistics of the numbers `sample(n)` returns, for a stream on which the averages converge. -/
theorem statistics {m : Marginal} {D : Set ℝ} (hF : Faithful m D) (hL : OneLaw m D) :
    ∀ᵐ υ ∂uniStream, ∀ pos : ℕ,
      Tendsto (fun n => listMean ((List.range n).map fun k => m.ppf (υ (pos + k)))) atTop (𝓝 m.mean) ∧
      Tendsto (fun n => listStd ((List.range n).map fun k => m.ppf (υ (pos + k)))) atTop (𝓝 |m.stdv|) ∧
      ∀ ε > 0, ∀ᶠ n : ℕ in atTop, ∀ x ∈ D, |listCdf ((List.range n).map fun k => m.ppf (υ (pos + k))) x - m.cdf x| < ε := by
  obtain ⟨i1, e1⟩ := ppf_expect hF hL (h := fun x => x) measurable_id hF.law.int1
  obtain ⟨i2, e2⟩ := ppf_expect hF hL (h := fun x => x ^ 2) (by fun_prop) hF.law.int2
  have s1 := uni_strong i1
  have s2 := uni_strong i2
  rw [e1, hF.law.mean] at s1
  have hsq : ∫ x, x ^ 2 * D.indicator m.pdf x = m.stdv ^ 2 + m.mean ^ 2 := by
    have hv := hF.law.var
    have : ∀ x, (x - m.mean) ^ 2 * D.indicator m.pdf x =
        x ^ 2 * D.indicator m.pdf x - 2 * m.mean * (x * D.indicator m.pdf x) + m.mean ^ 2 * D.indicator m.pdf x := fun x => by ring
    simp only [this] at hv
    have ia : Integrable fun x => x ^ 2 * D.indicator m.pdf x - 2 * m.mean * (x * D.indicator m.pdf x) :=
      hF.law.int2.sub (hF.law.int1.const_mul _)
    rw [integral_add ia (hF.law.int0.const_mul _), integral_sub hF.law.int2 (hF.law.int1.const_mul _), integral_const_mul, integral_const_mul, hF.law.mean, hF.law.mass] at hv
    linarith
  rw [e2, hsq] at s2
  have h01 : ∀ᵐ υ ∂uniStream, ∀ k : ℕ, υ k ∈ Ioo (0:ℝ) 1 := by
    rw [ae_all_iff]; intro k
    have heval : (uniStream.map fun υ : ℕ → ℝ => υ k) = unif := (measurePreserving_eval_infinitePi (fun _ : ℕ => unif) k).map_eq
    have : ∀ᵐ p ∂(uniStream.map fun υ : ℕ → ℝ => υ k), p ∈ Ioo (0:ℝ) 1 := by
      rw [heval]; exact ae_restrict_mem measurableSet_Ioo
    exact ae_of_ae_map (measurable_pi_apply k).aemeasurable this
  filter_upwards [s1, s2, h01, uni_glivenko] with υ t1 t2 t3 t4 pos
  have mean_eq : ∀ n, listMean ((List.range n).map fun k => m.ppf (υ (pos + k))) =
      (∑ k ∈ Finset.range n, m.ppf (υ (pos + k))) / n := fun n => by
    unfold listMean; rw [range_sum, List.length_map, List.length_range]
  refine ⟨by simpa only [mean_eq] using t1 pos, ?_, ?_⟩
  · have hvar : ∀ᶠ n : ℕ in atTop, listMean (((List.range n).map fun k => m.ppf (υ (pos + k))).map
        fun x => (x - listMean ((List.range n).map fun k => m.ppf (υ (pos + k)))) ^ 2) =
        (∑ k ∈ Finset.range n, m.ppf (υ (pos + k)) ^ 2) / n - ((∑ k ∈ Finset.range n, m.ppf (υ (pos + k))) / n) ^ 2 := by
      filter_upwards [eventually_gt_atTop 0] with n hn
      have hn' : (n:ℝ) ≠ 0 := by exact_mod_cast hn.ne'
      rw [mean_eq, List.map_map]
      unfold listMean
      rw [range_sum, List.length_map, List.length_range]
      obtain ⟨M, hM⟩ : ∃ M, M = ∑ k ∈ Finset.range n, m.ppf (υ (pos + k)) := ⟨_, rfl⟩
      have hs : ∑ k ∈ Finset.range n, ((fun x => (x - M / n) ^ 2) ∘ fun k => m.ppf (υ (pos + k))) k =
          ∑ k ∈ Finset.range n, m.ppf (υ (pos + k)) ^ 2 - 2 * (M / n) * M + n * (M / n) ^ 2 := by
        have : ∀ k, ((fun x => (x - M / n) ^ 2) ∘ fun k => m.ppf (υ (pos + k))) k =
            m.ppf (υ (pos + k)) ^ 2 - 2 * (M / n) * m.ppf (υ (pos + k)) + (M / n) ^ 2 := fun k => by
          simp only [Function.comp]; ring
        rw [Finset.sum_congr rfl fun k _ => this k, Finset.sum_add_distrib, Finset.sum_sub_distrib, ← Finset.mul_sum, ← hM]
        simp
      rw [← hM, hs]
      field_simp
      ring
    have hlim := (t2 pos).sub ((t1 pos).pow 2)
    have : m.stdv ^ 2 + m.mean ^ 2 - m.mean ^ 2 = m.stdv ^ 2 := by ring
    rw [this] at hlim
    have := ((Real.continuous_sqrt.tendsto _).comp (hlim.congr' (hvar.mono fun _ h => h.symm)))
    rw [Real.sqrt_sq_eq_abs] at this
    exact this
  · intro ε hε
    filter_upwards [t4 pos ε hε] with n hn x hx
    have hc := hL.cdf_mem x hx
    have := hn (m.cdf x) hc.1.le hc.2.le
    rw [listCdf_range]
    refine lt_of_eq_of_lt ?_ this
    congr 3
    refine Finset.sum_congr rfl fun k _ => ?_
    have hp := hL.cdf_ppf _ (t3 (pos + k)).1 (t3 (pos + k)).2
    have : m.ppf (υ (pos + k)) ≤ x ↔ υ (pos + k) ≤ m.cdf x := by
      conv_rhs => rw [← hp.2]
      exact (hL.cdf_mono.le_iff_le hp.1 hx).symm
    by_cases h : υ (pos + k) ≤ m.cdf x
    · rw [indicator_of_mem (mem_Iic.2 h), indicator_of_mem (mem_Iic.2 (this.2 h))]
    · rw [indicator_of_notMem (fun k => h (mem_Iic.1 k)), indicator_of_notMem (fun k => h (this.1 (mem_Iic.1 k)))]

theorem moments_nonneg {f : Frozen} {sp : Option ℝ} {a s c : ℝ} (h : initMoments (some f) none none sp = .ok (a, s, c)) : 0 ≤ s := by
  unfold initMoments at h
  split at h
  · cases h
  · next m s' hu =>
    simp only [Except.ok.injEq, Prod.mk.injEq] at h
    unfold updateMoments at hu
    simp only at hu
    split at hu
    · next t ht =>
      simp only [Except.ok.injEq, Prod.mk.injEq] at hu
      unfold Frozen.std at ht
      split at ht
      · cases ht
        rw [← h.2.1, ← hu.2]; exact Real.sqrt_nonneg _
      · cases ht
    · cases hu

theorem frozen_nonneg {f : Frozen} {sp : Option ℝ} {m : Marginal} (h : ofFrozen f sp = .ok m) : 0 ≤ m.stdv := by
  unfold ofFrozen at h
  split at h
  · cases h
  · next a s c hi => cases h; exact moments_nonneg hi

theorem lognormal_nonneg {l z : ℝ} {sp : Option ℝ} {m : Marginal} (h : Lognormal.ofParams l z sp = .ok m) : 0 ≤ m.stdv := by
  unfold Lognormal.ofParams at h
  dsimp only at h
  split at h
  · cases h
  · next a s c hi => cases h; exact moments_nonneg hi

/-- The standard deviation an accepted constructor call reports is not negative. -/
theorem body_nonneg (S : Solvers) (F : Family) (inp : Bool) (p q : ℝ) (b : Dict String ℝ) (sp : Option ℝ)
    (hr : Accepted S F inp p q b) (m : Marginal) (hm : F.body S p q b inp sp = .ok m) : 0 ≤ m.stdv := by
  cases F <;> simp only [Family.body] at hm
  case normal =>
    have hq : 0 < q := by cases inp <;> exact hr
    simp only [Normal.new, initMoments, updateMoments, Except.ok.injEq] at hm
    subst hm; exact hq.le
  case lognormal =>
    unfold Lognormal.new at hm
    split at hm <;> exact lognormal_nonneg hm
  case shiftedLognormal =>
    unfold ShiftedLognormal.new at hm
    split at hm
    · cases hm
    · dsimp only at hm
      split at hm
      · cases hm
      · next a s c hi => cases hm; exact moments_nonneg hi
  case uniform =>
    unfold Uniform.new at hm
    dsimp only at hm
    split at hm
    · cases hm
    · next a s c hi => cases hm; exact moments_nonneg hi
  case gevMax =>
    unfold GEV.newMax at hm
    split at hm
    · cases hm
    · exact frozen_nonneg hm
  case gevMin => cases inp <;> exact hr.elim
  case composite => cases hm
  all_goals exact frozen_nonneg hm

/-- C114: draw more and more numbers with `sample(n)` from an object of any class with proper arguments, starting at any position of
the generator's stream and with any other objects around.  For almost every stream of independent uniform numbers, the mean of the
sample converges to the `mean` the object reports, its standard deviation to the `stdv` it reports, and its empirical distribution
function to the object's `cdf`, uniformly over the support. -/
theorem C114_sample (S : Solvers) (F : Family) (inp : Bool) (p q : ℝ) (kw b : Dict String ℝ) (sp : Option ℝ) (hb : F.bind kw = .ok b)
    (hr : Accepted S F inp p q b) :
    ∃ (m : Marginal) (D : Set ℝ), F.construct S p q kw inp sp = .ok m ∧ (∀ t, 0 < t → t < 1 → m.ppf t ∈ D) ∧
      ∀ᵐ υ ∂uniStream, ∀ (fmin : ℝ → Minimiser) (w : Mutable.World) (i : ℕ), Mutable.view ⟨fmin, υ⟩ w.objs i = some m →
        ∃ xs : ℕ → List ℝ, (∀ n, (Mutable.sample ⟨fmin, υ⟩ n w i).1 = some (xs n)) ∧
          Tendsto (fun n => listMean (xs n)) atTop (𝓝 m.mean) ∧
          Tendsto (fun n => listStd (xs n)) atTop (𝓝 m.stdv) ∧
          ∀ ε > 0, ∀ᶠ n in atTop, ∀ x ∈ D, |listCdf (xs n) x - m.cdf x| < ε := by
  obtain ⟨m, D, h1, hF, hL, -⟩ := C87_every S F inp p q kw b sp hb hr
  refine ⟨m, D, h1, fun t h0 h1 => (hL.cdf_ppf t h0 h1).1, ?_⟩
  have hs : |m.stdv| = m.stdv := abs_of_nonneg (body_nonneg S F inp p q b sp hr m (by simpa only [Family.construct, hb] using h1))
  filter_upwards [statistics hF hL] with υ h fmin w i hv
  rw [hs] at h
  refine ⟨fun n => (List.range n).map fun k => m.ppf (υ (w.pos + k)), fun n => ?_, h w.pos⟩
  simp only [Mutable.sample, hv, Option.map_some]

/-- C114 for an object with a history: a `Normal` object created with other parameters and moved and rescaled by any program (C72)
is sampled from the law with the mean and the standard deviation now in force. -/
theorem C114_normal (μ σ : ℝ) (hσ : 0 < σ) (sp : Option ℝ) :
    ∀ᵐ υ ∂uniStream, ∀ (fmin : ℝ → Minimiser) (w : Mutable.World) (i : ℕ) (m : Marginal), Normal.new μ (.fin σ) sp = .ok m →
      Mutable.view ⟨fmin, υ⟩ w.objs i = some m →
        ∃ xs : ℕ → List ℝ, (∀ n, (Mutable.sample ⟨fmin, υ⟩ n w i).1 = some (xs n)) ∧
          Tendsto (fun n => listMean (xs n)) atTop (𝓝 μ) ∧
          Tendsto (fun n => listStd (xs n)) atTop (𝓝 σ) ∧
          ∀ ε > 0, ∀ᶠ n in atTop, ∀ x, |listCdf (xs n) x - StdNormal.cdf ((x - μ) / σ)| < ε := by
  obtain ⟨m, D, h1, hF, hL, -⟩ := (whole_normal μ hσ sp).ex
  have hm := h1
  simp only [Normal.new, initMoments, updateMoments, Except.ok.injEq] at hm
  have hcdf : m.cdf = Normal.cdf μ σ := by rw [← hm]
  have hD : ∀ x, x ∈ D := by
    intro x
    have hu := hF.round.mem ((x - μ) / σ)
    have : m.uToX ((x - μ) / σ) = x := by
      rw [← hm]; simp only [Normal.uToX]; field_simp; ring
    rwa [this] at hu
  filter_upwards [statistics hF hL] with υ h fmin w i m' hm' hv
  rw [h1] at hm'
  cases hm'
  obtain ⟨a1, a2, a3⟩ := h w.pos
  have e1 : m.mean = μ := by rw [← hm]
  have e2 : |m.stdv| = σ := by rw [← hm]; exact abs_of_pos hσ
  rw [e1] at a1
  rw [e2] at a2
  refine ⟨fun n => (List.range n).map fun k => m.ppf (υ (w.pos + k)), fun n => ?_, a1, a2, fun ε hε => ?_⟩
  · simp only [Mutable.sample, hv, Option.map_some]
  · filter_upwards [a3 ε hε] with n hn x
    have := hn x (hD x)
    rwa [hcdf] at this

/-- Non-vacuity: a Gumbel object given by its own parameters meets the hypotheses … -/
example (S : Solvers) : ∃ (m : Marginal) (D : Set ℝ), Family.gumbel.construct S 1 2 [] true none = .ok m ∧
    (∀ t, 0 < t → t < 1 → m.ppf t ∈ D) ∧
    ∀ᵐ υ ∂uniStream, ∀ (fmin : ℝ → Minimiser) (w : Mutable.World) (i : ℕ), Mutable.view ⟨fmin, υ⟩ w.objs i = some m →
      ∃ xs : ℕ → List ℝ, (∀ n, (Mutable.sample ⟨fmin, υ⟩ n w i).1 = some (xs n)) ∧
        Tendsto (fun n => listMean (xs n)) atTop (𝓝 m.mean) ∧ Tendsto (fun n => listStd (xs n)) atTop (𝓝 m.stdv) ∧
        ∀ ε > 0, ∀ᶠ n in atTop, ∀ x ∈ D, |listCdf (xs n) x - m.cdf x| < ε :=
  C114_sample S .gumbel true 1 2 [] [] none (by simp [Family.bind, Family.keywords, Family.bindAll]) (by simp [Accepted])

/-- … and a world in which the object of `C114_normal` exists: `Normal(0, 1)` after `set_location(5)` and `set_scale(2)`, next to another
object, with three numbers already drawn. -/
example : ∀ᵐ υ ∂uniStream, ∀ fmin : ℝ → Minimiser,
    ∃ xs : ℕ → List ℝ, (∀ n, (Mutable.sample ⟨fmin, υ⟩ n (Mutable.runAll ⟨fmin, υ⟩ ⟨[], 0⟩ [.new (.normal 0 1) none,
        .new (.zeroInflated 0 0.5) none, .set .loc 1 5, .set .scale 0 2, .sample 0 3]) 0).1 = some (xs n)) ∧
      Tendsto (fun n => listMean (xs n)) atTop (𝓝 5) ∧ Tendsto (fun n => listStd (xs n)) atTop (𝓝 2) := by
  filter_upwards [C114_normal 5 2 (by norm_num) (some 0)] with υ h fmin
  obtain ⟨m, hm, hv⟩ := wrapped_normal ⟨fmin, υ⟩
  obtain ⟨xs, h1, h2, h3, -⟩ := h fmin _ 0 m hm hv
  exact ⟨xs, h1, h2, h3⟩

end Pystra.Props
