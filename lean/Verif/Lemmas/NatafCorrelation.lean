import Verif.Lemmas.NatafLaw
import Mathlib.MeasureTheory.Function.ContinuousMapDense
import Mathlib.MeasureTheory.Function.LpSpace.ContinuousFunctions

/-! The expectation of `h(Z1) g(Z2)` for standard normal variables `Z1`, `Z2` with correlation `ρ`, as a function of `ρ`. -/

namespace Pystra
open MeasureTheory ProbabilityTheory Spec Matrix Set

variable {n : ℕ}

/-- `E h(Z1) g(Z2)` for standard normal `Z1`, `Z2` with correlation `ρ`. -/
noncomputable def mixed (h g : ℝ → ℝ) (ρ : ℝ) : ℝ :=
  ∫ p : ℝ × ℝ, h p.1 * g (ρ * p.1 + √(1 - ρ ^ 2) * p.2) ∂((gaussianReal 0 1).prod (gaussianReal 0 1))

theorem dot_meas (a : Fin n → ℝ) : Measurable (fun u : Fin n → ℝ => a ⬝ᵥ u) := by
  simp only [dotProduct]; fun_prop

theorem map_dot {a : Fin n → ℝ} (ha : a ⬝ᵥ a = 1) : (stdGauss n).map (fun u => a ⬝ᵥ u) = gaussianReal 0 1 := by
  have e := map_linear_stdGauss a
  have h1 : ∑ k, a k ^ 2 = 1 := by rw [← ha]; exact Finset.sum_congr rfl fun k _ => by ring
  rw [h1, Real.toNNReal_one] at e
  exact e

theorem mixed_eq {h g : ℝ → ℝ} (hh : Measurable h) (hg : Measurable g) {a b : Fin n → ℝ} {ρ : ℝ} (ha : a ⬝ᵥ a = 1) (hb : b ⬝ᵥ b = 1)
    (hab : a ⬝ᵥ b = ρ) : ∫ u, h (a ⬝ᵥ u) * g (b ⬝ᵥ u) ∂(stdGauss n) = mixed h g ρ := by
  have hm : Measurable fun p : ℝ × ℝ => h p.1 * g p.2 := (hh.comp measurable_fst).mul (hg.comp measurable_snd)
  have h1 := integral_map (μ := stdGauss n) (φ := fun u => (a ⬝ᵥ u, b ⬝ᵥ u)) ((dot_meas a).prodMk (dot_meas b)).aemeasurable
    hm.aestronglyMeasurable
  have h2 := integral_map (μ := (gaussianReal 0 1).prod (gaussianReal 0 1)) (φ := fun p : ℝ × ℝ => (p.1, ρ * p.1 + √(1 - ρ ^ 2) * p.2))
    (by fun_prop) hm.aestronglyMeasurable
  rw [map_pair_stdGauss a b ha hb hab, h2] at h1
  exact h1.symm

/-- The vector of the plane with first coordinate `ρ`. -/
noncomputable def arm (ρ : ℝ) : Fin 2 → ℝ := ![ρ, √(1 - ρ ^ 2)]

theorem arm_unit {ρ : ℝ} (h : ρ ∈ Icc (-1 : ℝ) 1) : arm ρ ⬝ᵥ arm ρ = 1 := by
  have : 0 ≤ 1 - ρ ^ 2 := by nlinarith [h.1, h.2]
  simp [arm, dotProduct, Fin.sum_univ_two, Real.mul_self_sqrt this]
  ring

theorem arm_fst (ρ _ρ' : ℝ) : arm 1 ⬝ᵥ arm ρ = ρ := by
  simp [arm, dotProduct, Fin.sum_univ_two]

theorem memLp_dot {h : ℝ → ℝ} (hL : MemLp h 2 (gaussianReal 0 1)) {a : Fin n → ℝ} (ha : a ⬝ᵥ a = 1) :
    MemLp (fun u => h (a ⬝ᵥ u)) 2 (stdGauss n) := by
  rw [← map_dot ha] at hL
  exact hL.comp_of_map (dot_meas a).aemeasurable

/-- Reflection of the plane: the standard normal law is invariant. -/
theorem reflect_inv {d : Fin n → ℝ} (hd : d ⬝ᵥ d ≠ 0) (F : (Fin n → ℝ) → ℝ) (hF : Measurable F) :
    ∫ u, F (fun i => u i - 2 * (d ⬝ᵥ u) / (d ⬝ᵥ d) * d i) ∂(stdGauss n) = ∫ u, F u ∂(stdGauss n) := by
  obtain ⟨A, hA⟩ : ∃ A : Matrix (Fin n) (Fin n) ℝ, A = 1 - (2 / (d ⬝ᵥ d)) • Matrix.vecMulVec d d := ⟨_, rfl⟩
  have hAu : ∀ u, A *ᵥ u = fun i => u i - 2 * (d ⬝ᵥ u) / (d ⬝ᵥ d) * d i := by
    intro u
    rw [hA, Matrix.sub_mulVec, Matrix.one_mulVec, Matrix.smul_mulVec, Matrix.vecMulVec_mulVec]
    funext i
    simp
    ring
  have hAA : A * Aᵀ = 1 * (1 : Matrix (Fin n) (Fin n) ℝ)ᵀ := by
    have ht : Aᵀ = A := by
      rw [hA, Matrix.transpose_sub, Matrix.transpose_one, Matrix.transpose_smul, Matrix.transpose_vecMulVec]
    rw [ht]
    apply Matrix.ext_of_mulVec_single
    intro i
    rw [← Matrix.mulVec_mulVec, hAu, hAu]
    simp only [Matrix.transpose_one, mul_one, Matrix.one_mulVec]
    generalize (Pi.single i 1 : Fin n → ℝ) = v
    have e : d ⬝ᵥ (fun i => v i - 2 * (d ⬝ᵥ v) / (d ⬝ᵥ d) * d i) = -(d ⬝ᵥ v) := by
      have e1 : (fun i => v i - 2 * (d ⬝ᵥ v) / (d ⬝ᵥ d) * d i) = v - (2 * (d ⬝ᵥ v) / (d ⬝ᵥ d)) • d := by
        funext i; simp
      rw [e1, dotProduct_sub, dotProduct_smul, smul_eq_mul, div_mul_cancel₀ _ hd]; ring
    rw [e]
    funext j
    ring
  have hm : Measurable (fun u : Fin n → ℝ => A *ᵥ u) := (Continuous.matrix_mulVec continuous_const continuous_id).measurable
  have h1 := map_mulVec_congr hAA
  have h2 : (stdGauss n).map (fun u => (1 : Matrix (Fin n) (Fin n) ℝ) *ᵥ u) = stdGauss n := by
    simp only [Matrix.one_mulVec]; exact Measure.map_id
  rw [h2] at h1
  have h3 := integral_map (μ := stdGauss n) hm.aemeasurable hF.aestronglyMeasurable
  rw [h1] at h3
  rw [h3]
  simp only [hAu]

/-- The change of the expectation of a product of two increasing functions of standard normal variables when their correlation
grows from `ρ` to `ρ'`, by reflection at the bisector of the two directions `v` and `v'`. -/
theorem mixed_gap {ρ ρ' : ℝ} (hρ : ρ ∈ Icc (-1 : ℝ) 1) (hρ' : ρ' ∈ Icc (-1 : ℝ) 1) (hlt : ρ < ρ') :
    ∃ (e v v' d : Fin 2 → ℝ) (k : ℝ), 0 < d ⬝ᵥ d ∧ 0 < k ∧ 2 * (v ⬝ᵥ d) = -(d ⬝ᵥ d) ∧ 2 * (e ⬝ᵥ d) = k * (d ⬝ᵥ d) ∧
      (∀ u, v ⬝ᵥ u + d ⬝ᵥ u = v' ⬝ᵥ u) ∧
      ∀ {h g : ℝ → ℝ}, Monotone h → Monotone g → MemLp h 2 (gaussianReal 0 1) → MemLp g 2 (gaussianReal 0 1) →
        (∀ u, 0 ≤ (h (e ⬝ᵥ u) - h (e ⬝ᵥ u - k * (d ⬝ᵥ u))) * (g (v' ⬝ᵥ u) - g (v ⬝ᵥ u))) ∧
        Integrable (fun u => (h (e ⬝ᵥ u) - h (e ⬝ᵥ u - k * (d ⬝ᵥ u))) * (g (v' ⬝ᵥ u) - g (v ⬝ᵥ u))) (stdGauss 2) ∧
        2 * (mixed h g ρ' - mixed h g ρ) =
          ∫ u, (h (e ⬝ᵥ u) - h (e ⬝ᵥ u - k * (d ⬝ᵥ u))) * (g (v' ⬝ᵥ u) - g (v ⬝ᵥ u)) ∂(stdGauss 2) := by
  have u1 := arm_unit (show (1 : ℝ) ∈ Icc (-1 : ℝ) 1 by simp)
  have uv := arm_unit hρ
  have uv' := arm_unit hρ'
  have hed : arm 1 ⬝ᵥ (arm ρ' - arm ρ) = ρ' - ρ := by rw [dotProduct_sub, arm_fst _ 0, arm_fst _ 0]
  have hev := arm_fst ρ ρ
  have hev' := arm_fst ρ' ρ
  generalize hE : arm 1 = e at *
  generalize hV : arm ρ = v at *
  generalize hV' : arm ρ' = v' at *
  obtain ⟨d, hd⟩ : ∃ d, d = v' - v := ⟨_, rfl⟩
  rw [← hd] at hed
  have hd0 : d ⬝ᵥ d ≠ 0 := by
    intro h0
    rw [dotProduct_self_eq_zero] at h0
    rw [h0, dotProduct_zero] at hed
    linarith
  have hdp : 0 < d ⬝ᵥ d := lt_of_le_of_ne (by simpa using dotProduct_star_self_nonneg d) (Ne.symm hd0)
  have hvd : 2 * (v ⬝ᵥ d) = -(d ⬝ᵥ d) := by
    rw [hd]; simp only [dotProduct_sub, sub_dotProduct, uv, uv', dotProduct_comm v' v]; ring
  have hvd' : 2 * (v' ⬝ᵥ d) = d ⬝ᵥ d := by
    rw [hd]; simp only [dotProduct_sub, sub_dotProduct, uv, uv', dotProduct_comm v' v]; ring
  have hre : ∀ w u : Fin 2 → ℝ, w ⬝ᵥ (fun i => u i - 2 * (d ⬝ᵥ u) / (d ⬝ᵥ d) * d i) = w ⬝ᵥ u - 2 * (w ⬝ᵥ d) / (d ⬝ᵥ d) * (d ⬝ᵥ u) := by
    intro w u
    have e1 : (fun i => u i - 2 * (d ⬝ᵥ u) / (d ⬝ᵥ d) * d i) = u - (2 * (d ⬝ᵥ u) / (d ⬝ᵥ d)) • d := by funext i; simp
    rw [e1, dotProduct_sub, dotProduct_smul, smul_eq_mul]; ring
  have hsv : ∀ u, v ⬝ᵥ u + d ⬝ᵥ u = v' ⬝ᵥ u := fun u => by rw [hd, sub_dotProduct]; ring
  have rv : ∀ u : Fin 2 → ℝ, v ⬝ᵥ (fun i => u i - 2 * (d ⬝ᵥ u) / (d ⬝ᵥ d) * d i) = v' ⬝ᵥ u := by
    intro u; rw [hre, hvd, neg_div, div_self hd0, ← hsv]; ring
  have rv' : ∀ u : Fin 2 → ℝ, v' ⬝ᵥ (fun i => u i - 2 * (d ⬝ᵥ u) / (d ⬝ᵥ d) * d i) = v ⬝ᵥ u := by
    intro u; rw [hre, hvd', div_self hd0, ← hsv]; ring
  obtain ⟨k, hk⟩ : ∃ k, k = 2 * (ρ' - ρ) / (d ⬝ᵥ d) := ⟨_, rfl⟩
  have hkp : 0 < k := by rw [hk]; exact div_pos (by linarith) hdp
  have ree : ∀ u : Fin 2 → ℝ, e ⬝ᵥ (fun i => u i - 2 * (d ⬝ᵥ u) / (d ⬝ᵥ d) * d i) = e ⬝ᵥ u - k * (d ⬝ᵥ u) := by
    intro u; rw [hre, hed, hk]
  refine ⟨e, v, v', d, k, hdp, hkp, hvd, by rw [hed, hk, div_mul_cancel₀ _ hd0], hsv, ?_⟩
  intro h g hh hg hL gL
  have mh := hh.measurable
  have mg := hg.measurable
  rw [← mixed_eq mh mg u1 uv hev, ← mixed_eq mh mg u1 uv' hev']
  have Lh := memLp_dot hL u1
  have Lv := memLp_dot gL uv
  have Lv' := memLp_dot gL uv'
  have mF : ∀ w : Fin 2 → ℝ, Measurable fun u : Fin 2 → ℝ => h (e ⬝ᵥ u) * g (w ⬝ᵥ u) := fun w =>
    (mh.comp (dot_meas e)).mul (mg.comp (dot_meas w))
  have i1 : Integrable (fun u => h (e ⬝ᵥ u) * g (v ⬝ᵥ u)) (stdGauss 2) := Lh.integrable_mul Lv
  have i2 : Integrable (fun u => h (e ⬝ᵥ u) * g (v' ⬝ᵥ u)) (stdGauss 2) := Lh.integrable_mul Lv'
  have R1 := reflect_inv hd0 _ (mF v)
  have R2 := reflect_inv hd0 _ (mF v')
  simp only [rv, rv', ree] at R1 R2
  have ue : (e - k • d) ⬝ᵥ (e - k • d) = 1 := by
    simp only [dotProduct_sub, sub_dotProduct, dotProduct_smul, smul_dotProduct, smul_eq_mul, u1, dotProduct_comm d e, hed]
    have : k * (d ⬝ᵥ d) = 2 * (ρ' - ρ) := by rw [hk, div_mul_cancel₀ _ hd0]
    rw [this]; ring
  have Le : MemLp (fun u => h (e ⬝ᵥ u - k * (d ⬝ᵥ u))) 2 (stdGauss 2) := by
    have := memLp_dot hL ue
    simpa only [sub_dotProduct, smul_dotProduct, smul_eq_mul] using this
  have i3 : Integrable (fun u => h (e ⬝ᵥ u - k * (d ⬝ᵥ u)) * g (v' ⬝ᵥ u)) (stdGauss 2) := Le.integrable_mul Lv'
  have i4 : Integrable (fun u => h (e ⬝ᵥ u - k * (d ⬝ᵥ u)) * g (v ⬝ᵥ u)) (stdGauss 2) := Le.integrable_mul Lv
  have hnn : ∀ u, 0 ≤ (h (e ⬝ᵥ u) - h (e ⬝ᵥ u - k * (d ⬝ᵥ u))) * (g (v' ⬝ᵥ u) - g (v ⬝ᵥ u)) := by
    intro u
    rcases le_total (d ⬝ᵥ u) 0 with hn | hp
    · refine mul_nonneg_of_nonpos_of_nonpos (sub_nonpos.2 (hh ?_)) (sub_nonpos.2 (hg ?_))
      · nlinarith
      · rw [← hsv]; linarith
    · refine mul_nonneg (sub_nonneg.2 (hh ?_)) (sub_nonneg.2 (hg ?_))
      · nlinarith
      · rw [← hsv]; linarith
  refine ⟨hnn, (Lh.sub Le).integrable_mul (Lv'.sub Lv), ?_⟩
  have split : ∫ u, (h (e ⬝ᵥ u) - h (e ⬝ᵥ u - k * (d ⬝ᵥ u))) * (g (v' ⬝ᵥ u) - g (v ⬝ᵥ u)) ∂(stdGauss 2) =
      (∫ u, h (e ⬝ᵥ u) * g (v' ⬝ᵥ u) ∂(stdGauss 2) - ∫ u, h (e ⬝ᵥ u) * g (v ⬝ᵥ u) ∂(stdGauss 2)) -
      (∫ u, h (e ⬝ᵥ u - k * (d ⬝ᵥ u)) * g (v' ⬝ᵥ u) ∂(stdGauss 2) - ∫ u, h (e ⬝ᵥ u - k * (d ⬝ᵥ u)) * g (v ⬝ᵥ u) ∂(stdGauss 2)) := by
    rw [← integral_sub i2 i1, ← integral_sub i3 i4]
    refine Eq.trans ?_ (integral_sub (i2.sub i1) (i3.sub i4))
    exact integral_congr_ae (Filter.Eventually.of_forall fun u => by simp only [Pi.sub_apply]; ring)
  rw [split, R1, R2]
  ring

/-- The expectation of a product of two strictly increasing functions of standard normal variables strictly increases with
their correlation. -/
theorem mixed_strictMono {h g : ℝ → ℝ} (hh : StrictMono h) (hg : StrictMono g) (hL : MemLp h 2 (gaussianReal 0 1))
    (gL : MemLp g 2 (gaussianReal 0 1)) : StrictMonoOn (mixed h g) (Icc (-1) 1) := by
  intro ρ hρ ρ' hρ' hlt
  obtain ⟨e, v, v', d, k, hdp, hkp, -, -, hsv, hgap⟩ := mixed_gap hρ hρ' hlt
  obtain ⟨hnn, hint, heq⟩ := hgap hh.monotone hg.monotone hL gL
  have key : 0 < ∫ u, (h (e ⬝ᵥ u) - h (e ⬝ᵥ u - k * (d ⬝ᵥ u))) * (g (v' ⬝ᵥ u) - g (v ⬝ᵥ u)) ∂(stdGauss 2) := by
    have hpos : ∀ u, d ⬝ᵥ u ≠ 0 → 0 < (h (e ⬝ᵥ u) - h (e ⬝ᵥ u - k * (d ⬝ᵥ u))) * (g (v' ⬝ᵥ u) - g (v ⬝ᵥ u)) := by
      intro u hu
      rcases lt_or_gt_of_ne hu with hn | hp
      · refine mul_pos_of_neg_of_neg (sub_neg.2 (hh ?_)) (sub_neg.2 (hg ?_))
        · nlinarith
        · rw [← hsv]; linarith
      · refine mul_pos (sub_pos.2 (hh ?_)) (sub_pos.2 (hg ?_))
        · nlinarith
        · rw [← hsv]; linarith
    rw [integral_pos_iff_support_of_nonneg hnn hint]
    · have hz : (stdGauss 2) {u | d ⬝ᵥ u = 0} = 0 := by
        have e1 := map_linear_stdGauss d
        have e2 : (stdGauss 2) {u | d ⬝ᵥ u = 0} = (stdGauss 2).map (fun u => d ⬝ᵥ u) {0} := by
          rw [Measure.map_apply (dot_meas d) (measurableSet_singleton 0)]; rfl
        rw [e2]
        have e3 : (stdGauss 2).map (fun u => d ⬝ᵥ u) = gaussianReal 0 (Real.toNNReal (∑ i, d i ^ 2)) := e1
        rw [e3]
        have hv0 : Real.toNNReal (∑ i, d i ^ 2) ≠ 0 := by
          have : ∑ i, d i ^ 2 = d ⬝ᵥ d := Finset.sum_congr rfl fun i _ => by ring
          rw [this]
          exact (Real.toNNReal_pos.2 hdp).ne'
        haveI := noAtoms_gaussianReal (μ := 0) hv0
        exact measure_singleton 0
      have hsub : {u : Fin 2 → ℝ | d ⬝ᵥ u = 0}ᶜ ⊆ Function.support fun u => (h (e ⬝ᵥ u) - h (e ⬝ᵥ u - k * (d ⬝ᵥ u))) * (g (v' ⬝ᵥ u) - g (v ⬝ᵥ u)) :=
        fun u hu => (hpos u hu).ne'
      refine lt_of_lt_of_le ?_ (measure_mono hsub)
      have hms : MeasurableSet {u : Fin 2 → ℝ | d ⬝ᵥ u = 0} := (dot_meas d) (measurableSet_singleton 0)
      rw [prob_compl_eq_one_sub hms, hz]; simp
  linarith

/-- For increasing functions the expectation does not decrease. -/
theorem mixed_monotone {h g : ℝ → ℝ} (hh : Monotone h) (hg : Monotone g) (hL : MemLp h 2 (gaussianReal 0 1))
    (gL : MemLp g 2 (gaussianReal 0 1)) : MonotoneOn (mixed h g) (Icc (-1) 1) := by
  intro ρ hρ ρ' hρ' hle
  rcases hle.eq_or_lt with rfl | hlt
  · exact le_rfl
  obtain ⟨e, v, v', d, k, -, -, -, -, -, hgap⟩ := mixed_gap hρ hρ' hlt
  obtain ⟨hnn, hint, heq⟩ := hgap hh hg hL gL
  have h0 : 0 ≤ ∫ u, (h (e ⬝ᵥ u) - h (e ⬝ᵥ u - k * (d ⬝ᵥ u))) * (g (v' ⬝ᵥ u) - g (v ⬝ᵥ u)) ∂(stdGauss 2) :=
    integral_nonneg fun u => hnn u
  linarith

theorem stdGauss_open_pos {U : Set (Fin n → ℝ)} (ho : IsOpen U) (hne : U.Nonempty) : 0 < (stdGauss n) U := by
  haveI : (gaussianReal 0 1).IsOpenPosMeasure := (gaussianReal_absolutelyContinuous' 0 one_ne_zero).isOpenPosMeasure
  unfold stdGauss
  exact ho.measure_pos _ hne

/-- The step function at `a`. -/
noncomputable def above (a z : ℝ) : ℝ := if z ≤ a then 0 else 1

theorem above_mono (a : ℝ) : Monotone (above a) := by
  intro x y hxy
  unfold above
  split_ifs with h1 h2 h2
  · exact le_rfl
  · exact zero_le_one
  · exact absurd (hxy.trans h2) h1
  · exact le_rfl

theorem above_memLp (a : ℝ) : MemLp (above a) 2 (gaussianReal 0 1) := by
  refine MemLp.of_bound (above_mono a).measurable.aestronglyMeasurable 1 (Filter.Eventually.of_forall fun z => ?_)
  unfold above
  split_ifs <;> simp

/-- The probability that both variables exceed given levels strictly increases with the correlation. -/
theorem mixed_above (a b : ℝ) : StrictMonoOn (mixed (above a) (above b)) (Icc (-1) 1) := by
  intro ρ hρ ρ' hρ' hlt
  obtain ⟨e, v, v', d, k, hdp, hkp, hvd, hed, hsv, hgap⟩ := mixed_gap hρ hρ' hlt
  obtain ⟨hnn, hint, heq⟩ := hgap (above_mono a) (above_mono b) (above_memLp a) (above_memLp b)
  have key : 0 < ∫ u, (above a (e ⬝ᵥ u) - above a (e ⬝ᵥ u - k * (d ⬝ᵥ u))) * (above b (v' ⬝ᵥ u) - above b (v ⬝ᵥ u)) ∂(stdGauss 2) := by
    rw [integral_pos_iff_support_of_nonneg hnn hint]
    obtain ⟨s, hs⟩ : ∃ s : ℝ, s = 2 * (|a| / k + |b| + 1) := ⟨_, rfl⟩
    have hopen : IsOpen {u : Fin 2 → ℝ | (a < e ⬝ᵥ u ∧ e ⬝ᵥ u - k * (d ⬝ᵥ u) < a) ∧ b < v' ⬝ᵥ u ∧ v ⬝ᵥ u < b} := by
      simp only [dotProduct]
      refine IsOpen.and (IsOpen.and ?_ ?_) (IsOpen.and ?_ ?_)
      · exact isOpen_lt continuous_const (by fun_prop)
      · exact isOpen_lt (by fun_prop) continuous_const
      · exact isOpen_lt continuous_const (by fun_prop)
      · exact isOpen_lt (by fun_prop) continuous_const
    have hne : {u : Fin 2 → ℝ | (a < e ⬝ᵥ u ∧ e ⬝ᵥ u - k * (d ⬝ᵥ u) < a) ∧ b < v' ⬝ᵥ u ∧ v ⬝ᵥ u < b}.Nonempty := by
      refine ⟨(s / (d ⬝ᵥ d)) • d, ?_⟩
      have hdu : d ⬝ᵥ ((s / (d ⬝ᵥ d)) • d) = s := by rw [dotProduct_smul, smul_eq_mul, div_mul_cancel₀ _ hdp.ne']
      have heu : e ⬝ᵥ ((s / (d ⬝ᵥ d)) • d) = k * s / 2 := by
        rw [dotProduct_smul, smul_eq_mul, show e ⬝ᵥ d = k * (d ⬝ᵥ d) / 2 by linarith]; field_simp
      have hvu : v ⬝ᵥ ((s / (d ⬝ᵥ d)) • d) = -s / 2 := by
        rw [dotProduct_smul, smul_eq_mul, show v ⬝ᵥ d = -(d ⬝ᵥ d) / 2 by linarith]; field_simp
      have hks : k * s / 2 = |a| + k * |b| + k := by rw [hs]; field_simp
      have hsb : s / 2 = |a| / k + |b| + 1 := by rw [hs]; ring
      have h0 : 0 ≤ k * |b| := by positivity
      have h1 : 0 ≤ |a| / k := by positivity
      show (a < _ ∧ _ < a) ∧ b < _ ∧ _ < b
      rw [← hsv, hdu, heu, hvu]
      refine ⟨⟨?_, ?_⟩, ?_, ?_⟩
      · linarith [le_abs_self a]
      · linarith [neg_abs_le a]
      · linarith [le_abs_self b]
      · linarith [neg_abs_le b]
    have hopos : 0 < (stdGauss 2) {u : Fin 2 → ℝ | (a < e ⬝ᵥ u ∧ e ⬝ᵥ u - k * (d ⬝ᵥ u) < a) ∧ b < v' ⬝ᵥ u ∧ v ⬝ᵥ u < b} :=
      stdGauss_open_pos hopen hne
    refine lt_of_lt_of_le hopos (measure_mono fun u hu => ?_)
    obtain ⟨⟨h1, h2⟩, h3, h4⟩ := hu
    show _ * _ ≠ (0 : ℝ)
    unfold above
    rw [if_neg (not_le.2 h1), if_pos h2.le, if_neg (not_le.2 h3), if_pos h4.le]
    norm_num
  linarith

theorem abs_integral_mul_le {Ω : Type} [MeasurableSpace Ω] {P : Measure Ω} {f g : Ω → ℝ} (hf : MemLp f 2 P) (hg : MemLp g 2 P) :
    |∫ ω, f ω * g ω ∂P| ≤ √(∫ ω, f ω ^ 2 ∂P) * √(∫ ω, g ω ^ 2 ∂P) := by
  have h2 : ENNReal.ofReal (2 : ℝ) = 2 := by norm_num
  have := integral_mul_norm_le_Lp_mul_Lq (μ := P) (f := f) (g := g) (p := 2) (q := 2) ⟨by norm_num, by norm_num, by norm_num⟩
    (by rw [h2]; exact hf) (by rw [h2]; exact hg)
  simp only [Real.norm_eq_abs] at this
  have e : ∀ k : Ω → ℝ, (∫ ω, |k ω| ^ (2 : ℝ) ∂P) ^ (1 / (2 : ℝ)) = √(∫ ω, k ω ^ 2 ∂P) := by
    intro k
    rw [Real.sqrt_eq_rpow]
    congr 2
    funext ω
    rw [Real.rpow_two, sq_abs]
  rw [e, e] at this
  refine le_trans ?_ this
  refine (abs_integral_le_integral_abs).trans (le_of_eq ?_)
  congr 1
  funext ω
  exact abs_mul _ _

theorem mixed_bound {h g : ℝ → ℝ} (mh : Measurable h) (mg : Measurable g) (hL : MemLp h 2 (gaussianReal 0 1))
    (gL : MemLp g 2 (gaussianReal 0 1)) {ρ : ℝ} (hρ : ρ ∈ Icc (-1 : ℝ) 1) :
    |mixed h g ρ| ≤ √(∫ z, h z ^ 2 ∂(gaussianReal 0 1)) * √(∫ z, g z ^ 2 ∂(gaussianReal 0 1)) := by
  have u1 := arm_unit (show (1 : ℝ) ∈ Icc (-1 : ℝ) 1 by simp)
  have uv := arm_unit hρ
  rw [← mixed_eq mh mg u1 uv (arm_fst ρ ρ)]
  have sq : ∀ {f : ℝ → ℝ}, Measurable f → ∀ {a : Fin 2 → ℝ}, a ⬝ᵥ a = 1 →
      ∫ u, f (a ⬝ᵥ u) ^ 2 ∂(stdGauss 2) = ∫ z, f z ^ 2 ∂(gaussianReal 0 1) := by
    intro f mf a ha
    rw [← map_dot ha, integral_map (dot_meas a).aemeasurable (by fun_prop)]
  have := abs_integral_mul_le (memLp_dot hL u1) (memLp_dot gL uv)
  rwa [sq mh u1, sq mg uv] at this

theorem mixed_integrable {h g : ℝ → ℝ} (mh : Measurable h) (mg : Measurable g) (hL : MemLp h 2 (gaussianReal 0 1))
    (gL : MemLp g 2 (gaussianReal 0 1)) {ρ : ℝ} (hρ : ρ ∈ Icc (-1 : ℝ) 1) :
    Integrable (fun p : ℝ × ℝ => h p.1 * g (ρ * p.1 + √(1 - ρ ^ 2) * p.2)) ((gaussianReal 0 1).prod (gaussianReal 0 1)) := by
  have u1 := arm_unit (show (1 : ℝ) ∈ Icc (-1 : ℝ) 1 by simp)
  have uv := arm_unit hρ
  have hm : Measurable fun p : ℝ × ℝ => h p.1 * g p.2 := (mh.comp measurable_fst).mul (mg.comp measurable_snd)
  have h1 : Integrable (fun u => h (arm 1 ⬝ᵥ u) * g (arm ρ ⬝ᵥ u)) (stdGauss 2) := (memLp_dot hL u1).integrable_mul (memLp_dot gL uv)
  have h2 := (integrable_map_measure (μ := stdGauss 2) (f := fun u => (arm 1 ⬝ᵥ u, arm ρ ⬝ᵥ u)) hm.aestronglyMeasurable
    ((dot_meas (arm 1)).prodMk (dot_meas (arm ρ))).aemeasurable).2 h1
  rw [map_pair_stdGauss _ _ u1 uv (arm_fst ρ ρ), integrable_map_measure hm.aestronglyMeasurable (by fun_prop)] at h2
  exact h2

theorem mixed_sub {h h' g g' : ℝ → ℝ} (mh : Measurable h) (mg : Measurable g) (mh' : Measurable h') (mg' : Measurable g')
    (hL : MemLp h 2 (gaussianReal 0 1)) (gL : MemLp g 2 (gaussianReal 0 1)) (hL' : MemLp h' 2 (gaussianReal 0 1))
    (gL' : MemLp g' 2 (gaussianReal 0 1)) {ρ : ℝ} (hρ : ρ ∈ Icc (-1 : ℝ) 1) :
    mixed h g ρ - mixed h' g' ρ = mixed (h - h') g ρ + mixed h' (g - g') ρ := by
  unfold mixed
  rw [← integral_sub (mixed_integrable mh mg hL gL hρ) (mixed_integrable mh' mg' hL' gL' hρ),
    ← integral_add (mixed_integrable (mh.sub mh') mg (hL.sub hL') gL hρ) (mixed_integrable mh' (mg.sub mg') hL' (gL.sub gL') hρ)]
  exact integral_congr_ae (Filter.Eventually.of_forall fun p => by simp only [Pi.sub_apply]; ring)

theorem approx_bounded {h : ℝ → ℝ} (hL : MemLp h 2 (gaussianReal 0 1)) {ε : ℝ} (hε : 0 < ε) :
    ∃ h' : BoundedContinuousFunction ℝ ℝ, √(∫ z, (h - h') z ^ 2 ∂(gaussianReal 0 1)) ≤ ε ∧ MemLp h' 2 (gaussianReal 0 1) := by
  have h2 : ENNReal.ofReal (2 : ℝ) = 2 := by norm_num
  obtain ⟨h', h1, h3⟩ := MemLp.exists_boundedContinuous_integral_rpow_sub_le (p := 2) (by norm_num) (by rw [h2]; exact hL) (pow_pos hε 2)
  rw [h2] at h3
  refine ⟨h', ?_, h3⟩
  rw [Real.sqrt_le_left hε.le]
  refine le_trans (le_of_eq ?_) h1
  congr 1
  funext z
  rw [Real.rpow_two, Real.norm_eq_abs, sq_abs]; rfl

theorem mixed_continuous_bounded (h g : BoundedContinuousFunction ℝ ℝ) : Continuous (mixed h g) := by
  unfold mixed
  refine continuous_of_dominated (bound := fun _ => ‖h‖ * ‖g‖) (fun ρ => ?_) (fun ρ => ?_) (integrable_const _) ?_
  · exact (Continuous.mul (h.continuous.comp continuous_fst) (g.continuous.comp (by fun_prop))).aestronglyMeasurable
  · refine Filter.Eventually.of_forall fun p => ?_
    rw [norm_mul]
    exact mul_le_mul (h.norm_coe_le_norm _) (g.norm_coe_le_norm _) (norm_nonneg _) (norm_nonneg _)
  · refine Filter.Eventually.of_forall fun p => ?_
    exact continuous_const.mul (g.continuous.comp (by fun_prop))

/-- The expectation depends continuously on the correlation. -/
theorem mixed_continuous {h g : ℝ → ℝ} (mh : Measurable h) (mg : Measurable g) (hL : MemLp h 2 (gaussianReal 0 1))
    (gL : MemLp g 2 (gaussianReal 0 1)) : ContinuousOn (mixed h g) (Icc (-1) 1) := by
  refine continuousOn_of_uniform_approx_of_continuousOn fun U hU => ?_
  obtain ⟨ε, hε, hU⟩ := Metric.mem_uniformity_dist.1 hU
  obtain ⟨G, hG⟩ : ∃ G, G = √(∫ z, g z ^ 2 ∂(gaussianReal 0 1)) := ⟨_, rfl⟩
  have hG0 : 0 ≤ G := by rw [hG]; exact Real.sqrt_nonneg _
  obtain ⟨h', h1, hL'⟩ := approx_bounded hL (show 0 < ε / (3 * (1 + G)) by positivity)
  obtain ⟨H, hH⟩ : ∃ H, H = √(∫ z, h' z ^ 2 ∂(gaussianReal 0 1)) := ⟨_, rfl⟩
  have hH0 : 0 ≤ H := by rw [hH]; exact Real.sqrt_nonneg _
  obtain ⟨g', g1, gL'⟩ := approx_bounded gL (show 0 < ε / (3 * (1 + H)) by positivity)
  refine ⟨mixed h' g', (mixed_continuous_bounded h' g').continuousOn, fun ρ hρ => hU ?_⟩
  have mh' := h'.continuous.measurable
  have mg' := g'.continuous.measurable
  rw [Real.dist_eq, mixed_sub mh mg mh' mg' hL gL hL' gL' hρ]
  have b1 := mixed_bound (mh.sub mh') mg (hL.sub hL') gL hρ
  have b2 := mixed_bound mh' (mg.sub mg') hL' (gL.sub gL') hρ
  rw [← hG] at b1
  rw [← hH] at b2
  have c1 : √(∫ z, (h - h') z ^ 2 ∂(gaussianReal 0 1)) * G ≤ ε / 3 := by
    refine (mul_le_mul_of_nonneg_right h1 hG0).trans ?_
    rw [div_mul_eq_mul_div, div_le_div_iff₀ (by positivity) (by norm_num)]
    nlinarith
  have c2 : H * √(∫ z, (g - g') z ^ 2 ∂(gaussianReal 0 1)) ≤ ε / 3 := by
    refine (mul_le_mul_of_nonneg_left g1 hH0).trans ?_
    rw [mul_div_assoc', div_le_div_iff₀ (by positivity) (by norm_num)]
    nlinarith
  refine lt_of_le_of_lt (abs_add_le _ _) ?_
  linarith [b1.trans c1, b2.trans c2]

theorem mixed_one (h g : ℝ → ℝ) (mh : Measurable h) (mg : Measurable g) : mixed h g 1 = ∫ z, h z * g z ∂(gaussianReal 0 1) := by
  have u1 := arm_unit (show (1 : ℝ) ∈ Icc (-1 : ℝ) 1 by simp)
  rw [← mixed_eq mh mg u1 u1 u1, ← map_dot u1]
  exact (integral_map (dot_meas _).aemeasurable (mh.mul mg).aestronglyMeasurable).symm

theorem mixed_neg_one (h g : ℝ → ℝ) (mh : Measurable h) (mg : Measurable g) : mixed h g (-1) = ∫ z, h z * g (-z) ∂(gaussianReal 0 1) := by
  have u1 := arm_unit (show (1 : ℝ) ∈ Icc (-1 : ℝ) 1 by simp)
  rw [← mixed_eq mh mg u1 (b := -arm 1) (by simpa using u1) (by rw [dotProduct_neg, u1]), ← map_dot u1]
  simp only [neg_dotProduct]
  exact (integral_map (dot_meas (arm 1)).aemeasurable (mh.mul (mg.comp measurable_neg)).aestronglyMeasurable).symm

theorem mixed_zero (h g : ℝ → ℝ) : mixed h g 0 = (∫ z, h z ∂(gaussianReal 0 1)) * ∫ z, g z ∂(gaussianReal 0 1) := by
  unfold mixed
  simp only [zero_mul, zero_add, ne_eq, OfNat.ofNat_ne_zero, not_false_eq_true, zero_pow, sub_zero, Real.sqrt_one, one_mul]
  exact integral_prod_mul h g

end Pystra
