import Verif.Lemmas.MonteCarlo
import Mathlib.Probability.Independence.Integration
import Mathlib.Probability.Independence.Basic

namespace Pystra.MonteCarlo
open Transformation Form Spec MeasureTheory ProbabilityTheory Matrix
open scoped ENNReal NNReal

variable {n : ℕ}

theorem normalDensity_pos (c : Fin n → ℝ) {s : ℝ} (hs : 0 < s) (u : Fin n → ℝ) : 0 < normalDensity c s u := by
  apply Finset.prod_pos
  intro i _
  exact gaussianPDFReal_pos _ _ _ (by simpa using (by positivity : s ≠ 0))

/-- The weight of the code is the ratio of the densities. -/
theorem weight_eq {s : ℝ} (hs : 0 < s) (c u : Fin n → ℝ) :
    weight s c u = normalDensity (fun _ => 0) 1 u / normalDensity c s u := by
  unfold weight normalDensity
  rw [← Finset.prod_div_distrib]
  have hn : s ^ n = ∏ _i : Fin n, s := by simp
  have he : -0.5 * (u ⬝ᵥ u) + 0.5 * ((u - c) ⬝ᵥ ((s ^ 2)⁻¹ • (u - c))) =
      ∑ i, (-(u i) ^ 2 / 2 + (u i - c i) ^ 2 / (2 * s ^ 2)) := by
    simp only [dotProduct, Finset.mul_sum, ← Finset.sum_add_distrib]
    apply Finset.sum_congr rfl
    intro i _
    simp only [Pi.sub_apply, Pi.smul_apply, smul_eq_mul]
    field_simp
    ring
  rw [he, Real.exp_sum, hn, ← Finset.prod_mul_distrib]
  apply Finset.prod_congr rfl
  intro i _
  unfold gaussianPDFReal
  have h2 : (Real.toNNReal (s ^ 2) : ℝ) = s ^ 2 := Real.coe_toNNReal _ (by positivity)
  have h1 : (Real.toNNReal ((1:ℝ) ^ 2) : ℝ) = 1 := by simp
  rw [h1, h2, Real.exp_add]
  have e1 : √(2 * Real.pi * s ^ 2) = √(2 * Real.pi) * s := by
    rw [Real.sqrt_mul (by positivity), Real.sqrt_sq hs.le]
  have e2 : Real.exp (-(u i - c i) ^ 2 / (2 * s ^ 2)) = (Real.exp ((u i - c i) ^ 2 / (2 * s ^ 2)))⁻¹ := by
    rw [← Real.exp_neg]; congr 1; ring
  rw [e1, e2]
  have hp : 0 < √(2 * Real.pi) := by positivity
  have e3 : -(u i - 0) ^ 2 / (2 * 1) = -u i ^ 2 / 2 := by ring
  rw [e3, mul_one]
  generalize Real.exp (-u i ^ 2 / 2) = A
  have hB := Real.exp_pos ((u i - c i) ^ 2 / (2 * s ^ 2))
  generalize Real.exp ((u i - c i) ^ 2 / (2 * s ^ 2)) = B at *
  field_simp

/-- Products of densities. -/
theorem pi_withDensity {ν : Fin n → Measure ℝ} [∀ i, IsProbabilityMeasure (ν i)] {ρ : Fin n → ℝ → ℝ≥0∞}
    (hρ : ∀ i, Measurable (ρ i)) [∀ i, SigmaFinite ((ν i).withDensity (ρ i))] :
    Measure.pi (fun i => (ν i).withDensity (ρ i)) = (Measure.pi ν).withDensity (fun u => ∏ i, ρ i (u i)) := by
  refine Measure.pi_eq fun S hS => ?_
  rw [withDensity_apply _ (MeasurableSet.univ_pi hS), ← lintegral_indicator (MeasurableSet.univ_pi hS)]
  have e : ∀ u : Fin n → ℝ, (Set.univ.pi S).indicator (fun u => ∏ i, ρ i (u i)) u =
      ∏ i, (S i).indicator (ρ i) (u i) := by
    intro u
    by_cases h : u ∈ Set.univ.pi S
    · rw [Set.indicator_of_mem h]
      exact Finset.prod_congr rfl fun i _ => (Set.indicator_of_mem (h i (Set.mem_univ i)) _).symm
    · rw [Set.indicator_of_notMem h]
      simp only [Set.mem_pi, Set.mem_univ, true_implies, not_forall] at h
      obtain ⟨i, hi⟩ := h
      exact (Finset.prod_eq_zero (Finset.mem_univ i) (Set.indicator_of_notMem hi _)).symm
  simp only [e]
  have hm : ∀ i, Measurable ((S i).indicator (ρ i)) := fun i => (hρ i).indicator (hS i)
  rw [lintegral_prod_eq_prod_lintegral_of_indepFun Finset.univ (fun i (u : Fin n → ℝ) => (S i).indicator (ρ i) (u i))
    (iIndepFun_pi (fun i => (hm i).aemeasurable)) (fun i => (hm i).comp (measurable_pi_apply i))]
  apply Finset.prod_congr rfl
  intro i _
  rw [withDensity_apply _ (hS i), ← lintegral_indicator (hS i)]
  exact (measurePreserving_eval ν i).lintegral_comp (hm i)

/-- Change of measure. -/
theorem stdGauss_eq {s : ℝ} (hs : 0 < s) (c : Fin n → ℝ) :
    stdGauss n = ((stdGauss n).map (fun z r => c r + s * z r)).withDensity (fun u => ENNReal.ofReal (weight s c u)) := by
  have hv : Real.toNNReal (s ^ 2) ≠ 0 := by simpa using (by positivity : s ≠ 0)
  have hmap : (stdGauss n).map (fun z r => c r + s * z r) =
      Measure.pi (fun i => gaussianReal (c i) (Real.toNNReal (s ^ 2))) := by
    unfold stdGauss
    have h1 : ∀ i, (gaussianReal 0 1).map (fun z => c i + s * z) = gaussianReal (c i) (Real.toNNReal (s ^ 2)) := by
      intro i
      have : (fun z => c i + s * z) = (fun y => c i + y) ∘ (fun z => s * z) := rfl
      rw [this, ← Measure.map_map (by fun_prop) (by fun_prop), gaussianReal_map_const_mul, gaussianReal_map_const_add]
      congr 1
      · simp
      · rw [mul_one]; ext; simp; positivity
    haveI : ∀ i, SigmaFinite ((gaussianReal 0 1).map (fun z => c i + s * z)) := fun i => by rw [h1]; infer_instance
    rw [Measure.pi_map_pi (f := fun i z => c i + s * z) (fun i => by fun_prop)]
    simp only [h1]
  have hd : ∀ i, gaussianReal 0 1 = (gaussianReal (c i) (Real.toNNReal (s ^ 2))).withDensity
      (fun x => ENNReal.ofReal (gaussianPDFReal 0 1 x / gaussianPDFReal (c i) (Real.toNNReal (s ^ 2)) x)) := by
    intro i
    rw [gaussianReal_of_var_ne_zero _ one_ne_zero, gaussianReal_of_var_ne_zero _ hv,
      ← withDensity_mul _ (measurable_gaussianPDF _ _) (by
        apply Measurable.ennreal_ofReal
        exact (measurable_gaussianPDFReal _ _).div (measurable_gaussianPDFReal _ _))]
    congr 1
    funext x
    simp only [Pi.mul_apply, gaussianPDF]
    rw [← ENNReal.ofReal_mul (gaussianPDFReal_nonneg _ _ _)]
    congr 1
    have := gaussianPDFReal_pos (c i) _ x hv
    field_simp
  rw [hmap]
  have hρ : ∀ i, Measurable (fun x => ENNReal.ofReal (gaussianPDFReal 0 1 x /
      gaussianPDFReal (c i) (Real.toNNReal (s ^ 2)) x)) := fun i =>
    Measurable.ennreal_ofReal ((measurable_gaussianPDFReal _ _).div (measurable_gaussianPDFReal _ _))
  have hw : (fun u => ENNReal.ofReal (weight s c u)) = fun u : Fin n → ℝ => ∏ i, ENNReal.ofReal
      (gaussianPDFReal 0 1 (u i) / gaussianPDFReal (c i) (Real.toNNReal (s ^ 2)) (u i)) := by
    funext u
    rw [weight_eq hs, normalDensity, normalDensity, ← Finset.prod_div_distrib, ENNReal.ofReal_prod_of_nonneg]
    · simp
    · intro i _
      exact div_nonneg (gaussianPDFReal_nonneg _ _ _) (gaussianPDFReal_nonneg _ _ _)
  rw [hw]
  haveI : ∀ i, SigmaFinite ((gaussianReal (c i) (Real.toNNReal (s ^ 2))).withDensity
      (fun x => ENNReal.ofReal (gaussianPDFReal 0 1 x / gaussianPDFReal (c i) (Real.toNNReal (s ^ 2)) x))) :=
    fun i => by rw [← hd i]; infer_instance
  rw [← pi_withDensity hρ]
  unfold stdGauss
  congr 1
  funext i
  exact hd i

theorem weight_nonneg {s : ℝ} (hs : 0 < s) (c u : Fin n → ℝ) : 0 ≤ weight s c u := by unfold weight; positivity

theorem measurable_weight (s : ℝ) (c : Fin n → ℝ) : Measurable (weight s c) := by
  unfold weight
  simp only [dotProduct, Pi.sub_apply, Pi.smul_apply]
  fun_prop

/-- The integral of an importance-sampling summand. -/
theorem integral_weighted {s : ℝ} (hs : 0 < s) (c : Fin n → ℝ) {A : Set (Fin n → ℝ)} (hA : MeasurableSet A) :
    Integrable (fun z : Fin n → ℝ => A.indicator (weight s c) (fun r => c r + s * z r)) (stdGauss n) ∧
    ∫ z, A.indicator (weight s c) (fun r => c r + s * z r) ∂(stdGauss n) = (stdGauss n).real A := by
  have hm : Measurable (fun (z : Fin n → ℝ) r => c r + s * z r) := by fun_prop
  have hwA : Measurable (A.indicator (weight s c)) := (measurable_weight s c).indicator hA
  have h0 : ∀ u, 0 ≤ A.indicator (weight s c) u := fun u => Set.indicator_nonneg (fun u _ => weight_nonneg hs c u) u
  have hl : ∫⁻ z, ENNReal.ofReal (A.indicator (weight s c) (fun r => c r + s * z r)) ∂(stdGauss n) = stdGauss n A := by
    have e1 : ∫⁻ z, ENNReal.ofReal (A.indicator (weight s c) (fun r => c r + s * z r)) ∂(stdGauss n) =
        ∫⁻ u, ENNReal.ofReal (A.indicator (weight s c) u) ∂((stdGauss n).map (fun z r => c r + s * z r)) :=
      (lintegral_map (hwA.ennreal_ofReal) hm).symm
    have e2 : (fun u => ENNReal.ofReal (A.indicator (weight s c) u)) = A.indicator (fun u => ENNReal.ofReal (weight s c u)) := by
      funext u
      by_cases h : u ∈ A
      · rw [Set.indicator_of_mem h, Set.indicator_of_mem h]
      · rw [Set.indicator_of_notMem h, Set.indicator_of_notMem h, ENNReal.ofReal_zero]
    rw [e1, e2, lintegral_indicator hA, ← withDensity_apply _ hA, ← stdGauss_eq hs c]
  constructor
  · refine ⟨(hwA.comp hm).aestronglyMeasurable, ?_⟩
    rw [hasFiniteIntegral_iff_ofReal (Filter.Eventually.of_forall fun z => h0 _), hl]
    exact measure_lt_top _ _
  · rw [integral_eq_lintegral_of_nonneg_ae (Filter.Eventually.of_forall fun z => h0 _)
      (hwA.comp hm).aestronglyMeasurable, hl]
    rfl

/-- Reading distinct positions of a stream of independent draws gives independent draws. -/
theorem iid_map (ν : Measure ℝ) [IsProbabilityMeasure ν] {ι : Type} [Fintype ι] {e : ι → ℕ} (he : Function.Injective e) :
    (Measure.infinitePi (fun _ : ℕ => ν)).map (fun ω r => ω (e r)) = Measure.pi (fun _ : ι => ν) := by
  symm
  refine Measure.pi_eq fun S hS => ?_
  have hm : Measurable (fun (ω : ℕ → ℝ) (r : ι) => ω (e r)) := by fun_prop
  rw [Measure.map_apply hm (MeasurableSet.univ_pi hS)]
  classical
  let T : ℕ → Set ℝ := fun k => if h : ∃ r, e r = k then S h.choose else Set.univ
  have hT : ∀ r, T (e r) = S r := by
    intro r
    have h : ∃ r', e r' = e r := ⟨r, rfl⟩
    simp only [T, dif_pos h]
    rw [he h.choose_spec]
  have e1 : (fun (ω : ℕ → ℝ) (r : ι) => ω (e r)) ⁻¹' Set.univ.pi S =
      Set.pi ((Finset.univ.image e : Finset ℕ) : Set ℕ) T := by
    ext ω
    simp only [Set.mem_preimage, Set.mem_pi, Set.mem_univ, true_implies, Finset.coe_image, Finset.coe_univ,
      Set.image_univ, Set.mem_range, forall_exists_index, forall_apply_eq_imp_iff, hT]
  rw [e1, Measure.infinitePi_pi]
  · rw [Finset.prod_image (fun a _ b _ h => he h)]
    simp only [hT]
  · intro k hk
    simp only [Finset.mem_image, Finset.mem_univ, true_and] at hk
    obtain ⟨r, rfl⟩ := hk
    rw [hT]; exact hS r

theorem stream_map {ι : Type} [Fintype ι] {e : ι → ℕ} (he : Function.Injective e) :
    stream.map (fun ω r => ω (e r)) = Measure.pi (fun _ : ι => gaussianReal 0 1) := iid_map _ he

theorem mcIndex_injective {bs N : ℕ} (hb : 1 ≤ bs) (pos : ℕ) : Function.Injective (fun p : Fin N × Fin n =>
    pos + n * (bs * (p.1.val / bs)) + p.2.val * min bs (N - bs * (p.1.val / bs)) + p.1.val % bs) := by
  rintro ⟨j, r⟩ ⟨j', r'⟩ h
  simp only at h
  have hq := Nat.div_add_mod j.val bs
  have hq' := Nat.div_add_mod j'.val bs
  have hc : j.val % bs < bs := Nat.mod_lt _ (by omega)
  have hc' : j'.val % bs < bs := Nat.mod_lt _ (by omega)
  generalize hqe : j.val / bs = q at *
  generalize hce : j.val % bs = c at *
  generalize hqe' : j'.val / bs = q' at *
  generalize hce' : j'.val % bs = c' at *
  have hj := j.isLt
  have hj' := j'.isLt
  have hr := r.isLt
  have hr' := r'.isLt
  -- position inside the block
  have hin : ∀ (r : ℕ) (b c : ℕ), r < n → c < b → b ≤ bs → r * b + c < n * bs := by
    intro r b c hr hc hb
    calc r * b + c < r * b + b := by omega
      _ = (r + 1) * b := by ring
      _ ≤ n * b := Nat.mul_le_mul_right _ hr
      _ ≤ n * bs := Nat.mul_le_mul_left _ hb
  have hin1 := hin r _ c hr (show c < min bs (N - bs * q) by omega) (min_le_left _ _)
  have hin2 := hin r' _ c' hr' (show c' < min bs (N - bs * q') by omega) (min_le_left _ _)
  have hnb : ∀ q, n * (bs * q) = q * (n * bs) := fun q => by ring
  rw [hnb, hnb] at h
  have hqq : q = q' := by
    rcases Nat.lt_trichotomy q q' with hlt | heq | hlt
    · have := Nat.mul_le_mul_right (n * bs) (Nat.succ_le_of_lt hlt)
      rw [Nat.succ_mul] at this; omega
    · exact heq
    · have := Nat.mul_le_mul_right (n * bs) (Nat.succ_le_of_lt hlt)
      rw [Nat.succ_mul] at this; omega
  subst hqq
  have h2 : r.val * min bs (N - bs * q) + c = r'.val * min bs (N - bs * q) + c' := by omega
  have hcb : c < min bs (N - bs * q) := by omega
  have hcb' : c' < min bs (N - bs * q) := by omega
  generalize min bs (N - bs * q) = b at *
  have hrr : r.val = r'.val := by
    have e1 : (r.val * b + c) / b = r.val := by
      rw [Nat.mul_comm, Nat.mul_add_div (by omega), Nat.div_eq_of_lt hcb, Nat.add_zero]
    have e2 : (r'.val * b + c') / b = r'.val := by
      rw [Nat.mul_comm, Nat.mul_add_div (by omega), Nat.div_eq_of_lt hcb', Nat.add_zero]
    rw [← e1, ← e2, h2]
  have hcc : c = c' := by rw [hrr] at h2; omega
  refine Prod.ext (Fin.ext ?_) (Fin.ext hrr)
  simp only
  omega

/-- The `N` samples are independent standard normal vectors. -/
theorem samples_law {bs N : ℕ} (hb : 1 ≤ bs) (pos : ℕ) :
    stream.map (fun ω (j : Fin N) => mcDraw ω n bs N pos j) = Measure.pi (fun _ : Fin N => stdGauss n) := by
  have h1 := stream_map (mcIndex_injective (n := n) (N := N) hb pos)
  have h2 := Measure.infinitePi_map_curry (ι := Fin N) (κ := Fin n) (X := ℝ) (fun _ _ => gaussianReal 0 1)
  simp only [Measure.infinitePi_eq_pi] at h2
  unfold stdGauss
  rw [← h2, ← h1, Measure.map_map (MeasurableEquiv.measurable _) (by fun_prop)]
  rfl

end Pystra.MonteCarlo
