import Verif.Lemmas.NatafCorrelation
import Verif.Lemmas.Cholesky2

/-! Slepian's inequality: the probability that all variables of a normal vector stay below given levels increases with every
correlation. Proved by reflections, one entry at a time. -/

namespace Pystra
open MeasureTheory ProbabilityTheory Spec Matrix Set

variable {n m k : ℕ}

/-- Linear images of standard normal vectors, of possibly different lengths, with the same covariance have the same law. -/
theorem map_mulVec_congr_rect {A : Matrix (Fin m) (Fin n) ℝ} {B : Matrix (Fin m) (Fin k) ℝ} (h : A * Aᵀ = B * Bᵀ) :
    (stdGauss n).map (fun u => A.mulVec u) = (stdGauss k).map (fun u => B.mulVec u) := by
  have hm : ∀ {n : ℕ} (A : Matrix (Fin m) (Fin n) ℝ), Measurable (fun u : Fin n → ℝ => A.mulVec u) := fun A =>
    (Continuous.matrix_mulVec continuous_const continuous_id).measurable
  haveI := Measure.isProbabilityMeasure_map (μ := stdGauss n) (hm A).aemeasurable
  haveI := Measure.isProbabilityMeasure_map (μ := stdGauss k) (hm B).aemeasurable
  apply Measure.ext_of_charFunDual
  funext L
  obtain ⟨w, hw⟩ : ∃ w : Fin m → ℝ, w = fun i => L (Pi.single i 1) := ⟨_, rfl⟩
  have hL : ∀ x : Fin m → ℝ, L x = w ⬝ᵥ x := by
    intro x
    conv_lhs => rw [pi_eq_sum_univ' x]
    rw [map_sum]
    refine Finset.sum_congr rfl fun i _ => ?_
    rw [map_smul, smul_eq_mul, mul_comm, hw]
  have key : ∀ {n : ℕ} (A : Matrix (Fin m) (Fin n) ℝ), charFunDual ((stdGauss n).map (fun u => A.mulVec u)) L =
      Complex.exp (-(((w ⬝ᵥ (A * Aᵀ).mulVec w) / 2 : ℝ) : ℂ)) := by
    intro n A
    rw [charFunDual_apply, integral_map (hm A).aemeasurable (by fun_prop)]
    have e : ∀ u : Fin n → ℝ, Complex.exp ((L (A.mulVec u) : ℂ) * Complex.I) =
        Complex.exp (((∑ i, (vecMul w A) i * u i : ℝ) : ℂ) * Complex.I) := by
      intro u
      rw [hL, dotProduct_mulVec]
      rfl
    simp only [e]
    rw [charFun_linear]
    have : ∑ i, (vecMul w A) i ^ 2 = w ⬝ᵥ (A * Aᵀ).mulVec w := by
      rw [← mulVec_mulVec, dotProduct_mulVec, mulVec_transpose]
      exact Finset.sum_congr rfl fun i _ => by ring
    rw [this]
  rw [key, key, h]

/-- The probability that the normal variables `A u` stay below the levels `b`. -/
noncomputable def orth (A : Matrix (Fin m) (Fin n) ℝ) (b : Fin m → ℝ) : ℝ := (stdGauss n).real {u | ∀ l, A l ⬝ᵥ u ≤ b l}

theorem orth_meas (A : Matrix (Fin m) (Fin n) ℝ) (b : Fin m → ℝ) : MeasurableSet {u : Fin n → ℝ | ∀ l, A l ⬝ᵥ u ≤ b l} := by
  rw [setOf_forall]
  exact MeasurableSet.iInter fun l => measurableSet_le (dot_meas _) measurable_const

theorem orth_congr {A : Matrix (Fin m) (Fin n) ℝ} {B : Matrix (Fin m) (Fin k) ℝ} (h : A * Aᵀ = B * Bᵀ) (b : Fin m → ℝ) :
    orth A b = orth B b := by
  have hs : MeasurableSet {z : Fin m → ℝ | ∀ l, z l ≤ b l} := by
    rw [setOf_forall]
    exact MeasurableSet.iInter fun l => measurableSet_le (measurable_pi_apply l) measurable_const
  have key : ∀ {n : ℕ} (A : Matrix (Fin m) (Fin n) ℝ), orth A b = ((stdGauss n).map fun u => A *ᵥ u).real {z | ∀ l, z l ≤ b l} := by
    intro n A
    have hm : Measurable fun u : Fin n → ℝ => A *ᵥ u := (Continuous.matrix_mulVec continuous_const continuous_id).measurable
    rw [map_measureReal_apply hm hs]
    rfl
  rw [key, key, map_mulVec_congr_rect h]

/-- The step from `1` down to `0` at `b`. -/
noncomputable def below (b z : ℝ) : ℝ := if z ≤ b then 1 else 0

theorem below_anti (b : ℝ) : Antitone (below b) := by
  intro x y hxy
  unfold below
  split_ifs with h1 h2 h2
  · exact le_rfl
  · exact absurd (hxy.trans h1) h2
  · exact zero_le_one
  · exact le_rfl

theorem below_mem (b z : ℝ) : 0 ≤ below b z ∧ below b z ≤ 1 := by
  unfold below; split_ifs <;> norm_num

/-- Reflection: turning row `j` towards row `i`, at fixed products with the other rows, increases the probability. -/
theorem orth_turn {A A' : Matrix (Fin m) (Fin n) ℝ} {i j : Fin m} (hij : i ≠ j) (hrow : ∀ l, l ≠ j → A' l = A l)
    (hlen : A' j ⬝ᵥ A' j = A j ⬝ᵥ A j) (hoth : ∀ l, l ≠ i → l ≠ j → A l ⬝ᵥ A' j = A l ⬝ᵥ A j) (hlt : A i ⬝ᵥ A j < A i ⬝ᵥ A' j)
    (hsol : ∀ c : Fin m → ℝ, ∃ w, ∀ l, A l ⬝ᵥ w = c l) (b : Fin m → ℝ) : orth A b < orth A' b := by
  obtain ⟨v, hv⟩ : ∃ v, v = A j := ⟨_, rfl⟩
  obtain ⟨v', hv'⟩ : ∃ v', v' = A' j := ⟨_, rfl⟩
  obtain ⟨e, he⟩ : ∃ e, e = A i := ⟨_, rfl⟩
  rw [← hv, ← hv', ← he] at hlt
  rw [← hv, ← hv'] at hlen hoth
  obtain ⟨d, hd⟩ : ∃ d, d = v' - v := ⟨_, rfl⟩
  have hed : 0 < e ⬝ᵥ d := by rw [hd, dotProduct_sub]; linarith
  have hd0 : d ⬝ᵥ d ≠ 0 := by
    intro h0
    rw [dotProduct_self_eq_zero] at h0
    rw [h0, dotProduct_zero] at hed
    exact lt_irrefl _ hed
  have hdp : 0 < d ⬝ᵥ d := lt_of_le_of_ne (by simpa using dotProduct_star_self_nonneg d) (Ne.symm hd0)
  have hvd : 2 * (v ⬝ᵥ d) = -(d ⬝ᵥ d) := by
    rw [hd]; simp only [dotProduct_sub, sub_dotProduct, hlen, dotProduct_comm v' v]; ring
  have hvd' : 2 * (v' ⬝ᵥ d) = d ⬝ᵥ d := by
    rw [hd]; simp only [dotProduct_sub, sub_dotProduct, hlen, dotProduct_comm v' v]; ring
  have hre : ∀ w u : Fin n → ℝ, w ⬝ᵥ (fun i => u i - 2 * (d ⬝ᵥ u) / (d ⬝ᵥ d) * d i) = w ⬝ᵥ u - 2 * (w ⬝ᵥ d) / (d ⬝ᵥ d) * (d ⬝ᵥ u) := by
    intro w u
    have e1 : (fun i => u i - 2 * (d ⬝ᵥ u) / (d ⬝ᵥ d) * d i) = u - (2 * (d ⬝ᵥ u) / (d ⬝ᵥ d)) • d := by funext i; simp
    rw [e1, dotProduct_sub, dotProduct_smul, smul_eq_mul]; ring
  have hsv : ∀ u, v ⬝ᵥ u + d ⬝ᵥ u = v' ⬝ᵥ u := fun u => by rw [hd, sub_dotProduct]; ring
  have rv : ∀ u : Fin n → ℝ, v ⬝ᵥ (fun i => u i - 2 * (d ⬝ᵥ u) / (d ⬝ᵥ d) * d i) = v' ⬝ᵥ u := by
    intro u; rw [hre, hvd, neg_div, div_self hd0, ← hsv]; ring
  have rv' : ∀ u : Fin n → ℝ, v' ⬝ᵥ (fun i => u i - 2 * (d ⬝ᵥ u) / (d ⬝ᵥ d) * d i) = v ⬝ᵥ u := by
    intro u; rw [hre, hvd', div_self hd0, ← hsv]; ring
  obtain ⟨r, hr⟩ : ∃ r, r = 2 * (e ⬝ᵥ d) / (d ⬝ᵥ d) := ⟨_, rfl⟩
  have hrp : 0 < r := by rw [hr]; exact div_pos (by linarith) hdp
  have ree : ∀ u : Fin n → ℝ, e ⬝ᵥ (fun i => u i - 2 * (d ⬝ᵥ u) / (d ⬝ᵥ d) * d i) = e ⬝ᵥ u - r * (d ⬝ᵥ u) := by
    intro u; rw [hre, hr]
  have hod : ∀ l, l ≠ i → l ≠ j → A l ⬝ᵥ d = 0 := fun l h1 h2 => by rw [hd, dotProduct_sub, hoth l h1 h2, sub_self]
  -- the other rows
  obtain ⟨P, hP⟩ : ∃ P : Set (Fin n → ℝ), P = {u | ∀ l, l ≠ i → l ≠ j → A l ⬝ᵥ u ≤ b l} := ⟨_, rfl⟩
  have hPm : MeasurableSet P := by
    rw [hP]
    simp only [setOf_forall]
    exact MeasurableSet.iInter fun l => MeasurableSet.iInter fun _ => MeasurableSet.iInter fun _ =>
      measurableSet_le (dot_meas _) measurable_const
  obtain ⟨W, hW⟩ : ∃ W : (Fin n → ℝ) → ℝ, W = P.indicator fun _ => 1 := ⟨_, rfl⟩
  have mW : Measurable W := by rw [hW]; exact measurable_const.indicator hPm
  have W01 : ∀ u, 0 ≤ W u ∧ W u ≤ 1 := by
    intro u
    rw [hW]
    by_cases hu : u ∈ P
    · rw [indicator_of_mem hu]; norm_num
    · rw [indicator_of_notMem hu]; norm_num
  have rW : ∀ u, W (fun i => u i - 2 * (d ⬝ᵥ u) / (d ⬝ᵥ d) * d i) = W u := by
    intro u
    have : ((fun i => u i - 2 * (d ⬝ᵥ u) / (d ⬝ᵥ d) * d i) ∈ P) ↔ u ∈ P := by
      rw [hP]
      simp only [mem_setOf_eq]
      refine forall_congr' fun l => imp_congr_right fun h1 => imp_congr_right fun h2 => ?_
      rw [hre, hod l h1 h2]; simp
    rw [hW]
    by_cases hu : u ∈ P
    · rw [indicator_of_mem hu, indicator_of_mem (this.2 hu)]
    · rw [indicator_of_notMem hu, indicator_of_notMem (fun h => hu (this.1 h))]
  have mb : ∀ (c : ℝ) (w : Fin n → ℝ), Measurable fun u : Fin n → ℝ => below c (w ⬝ᵥ u) := fun c w =>
    (below_anti c).measurable.comp (dot_meas w)
  have prob : ∀ {B : Matrix (Fin m) (Fin n) ℝ}, (∀ l, l ≠ j → B l = A l) →
      orth B b = ∫ u, W u * (below (b i) (e ⬝ᵥ u) * below (b j) (B j ⬝ᵥ u)) ∂(stdGauss n) := by
    intro B hB
    unfold orth
    rw [← integral_indicator_one (orth_meas B b)]
    refine integral_congr_ae (Filter.Eventually.of_forall fun u => ?_)
    have hiff : (∀ l, B l ⬝ᵥ u ≤ b l) ↔ u ∈ P ∧ e ⬝ᵥ u ≤ b i ∧ B j ⬝ᵥ u ≤ b j := by
      rw [hP]
      constructor
      · intro h
        refine ⟨fun l _ h2 => by rw [← hB l h2]; exact h l, ?_, h j⟩
        rw [he, ← hB i hij]; exact h i
      · rintro ⟨h1, h2, h3⟩ l
        by_cases hl : l = j
        · rw [hl]; exact h3
        by_cases hl' : l = i
        · rw [hl', hB i hij, ← he]; exact h2
        · rw [hB l hl]; exact h1 l hl' hl
    simp only [indicator, mem_setOf_eq, Pi.one_apply, hW, below]
    by_cases h1 : u ∈ P
    · by_cases h2 : e ⬝ᵥ u ≤ b i
      · by_cases h3 : B j ⬝ᵥ u ≤ b j
        · rw [if_pos (hiff.2 ⟨h1, h2, h3⟩)]; simp [h1, h2, h3]
        · rw [if_neg (fun h => h3 (hiff.1 h).2.2)]; simp [h3]
      · rw [if_neg (fun h => h2 (hiff.1 h).2.1)]; simp [h2]
    · rw [if_neg (fun h => h1 (hiff.1 h).1)]; simp [h1]
  have p1 := prob (B := A) fun _ _ => rfl
  have p2 := prob (B := A') hrow
  rw [← hv] at p1
  rw [← hv'] at p2
  have mF : ∀ w x : Fin n → ℝ, Measurable fun u : Fin n → ℝ => W u * (below (b i) (w ⬝ᵥ u) * below (b j) (x ⬝ᵥ u)) := fun w x =>
    mW.mul ((mb _ w).mul (mb _ x))
  have iF : ∀ w x : Fin n → ℝ, Integrable (fun u : Fin n → ℝ => W u * (below (b i) (w ⬝ᵥ u) * below (b j) (x ⬝ᵥ u))) (stdGauss n) := by
    intro w x
    refine Integrable.of_bound (mF w x).aestronglyMeasurable 1 (Filter.Eventually.of_forall fun u => ?_)
    obtain ⟨a1, a2⟩ := W01 u
    obtain ⟨a3, a4⟩ := below_mem (b i) (w ⬝ᵥ u)
    obtain ⟨a5, a6⟩ := below_mem (b j) (x ⬝ᵥ u)
    rw [Real.norm_eq_abs, abs_of_nonneg (mul_nonneg a1 (mul_nonneg a3 a5))]
    exact mul_le_one₀ a2 (mul_nonneg a3 a5) (mul_le_one₀ a4 a5 a6)
  have R1 := reflect_inv hd0 _ (mF e v)
  have R2 := reflect_inv hd0 _ (mF e v')
  simp only [rv, rv', ree, rW] at R1 R2
  have hes : ∀ u : Fin n → ℝ, e ⬝ᵥ u - r * (d ⬝ᵥ u) = (e - r • d) ⬝ᵥ u := fun u => by
    rw [sub_dotProduct, smul_dotProduct, smul_eq_mul]
  simp only [hes] at R1 R2
  have i1 := iF e v
  have i2 := iF e v'
  have i3 := iF (e - r • d) v'
  have i4 := iF (e - r • d) v
  have split : ∫ u, W u * ((below (b i) (e ⬝ᵥ u) - below (b i) ((e - r • d) ⬝ᵥ u)) * (below (b j) (v' ⬝ᵥ u) - below (b j) (v ⬝ᵥ u))) ∂(stdGauss n) =
      2 * (orth A' b - orth A b) := by
    have : ∫ u, W u * ((below (b i) (e ⬝ᵥ u) - below (b i) ((e - r • d) ⬝ᵥ u)) * (below (b j) (v' ⬝ᵥ u) - below (b j) (v ⬝ᵥ u))) ∂(stdGauss n) =
      (∫ u, W u * (below (b i) (e ⬝ᵥ u) * below (b j) (v' ⬝ᵥ u)) ∂(stdGauss n) - ∫ u, W u * (below (b i) (e ⬝ᵥ u) * below (b j) (v ⬝ᵥ u)) ∂(stdGauss n)) -
      (∫ u, W u * (below (b i) ((e - r • d) ⬝ᵥ u) * below (b j) (v' ⬝ᵥ u)) ∂(stdGauss n) -
        ∫ u, W u * (below (b i) ((e - r • d) ⬝ᵥ u) * below (b j) (v ⬝ᵥ u)) ∂(stdGauss n)) := by
      rw [← integral_sub i2 i1, ← integral_sub i3 i4]
      refine Eq.trans ?_ (integral_sub (i2.sub i1) (i3.sub i4))
      exact integral_congr_ae (Filter.Eventually.of_forall fun u => by simp only [Pi.sub_apply]; ring)
    rw [this, R1, R2, p1, p2]
    ring
  have hnn : ∀ u, 0 ≤ W u * ((below (b i) (e ⬝ᵥ u) - below (b i) ((e - r • d) ⬝ᵥ u)) * (below (b j) (v' ⬝ᵥ u) - below (b j) (v ⬝ᵥ u))) := by
    intro u
    refine mul_nonneg (W01 u).1 ?_
    rw [← hes, ← hsv]
    rcases le_total (d ⬝ᵥ u) 0 with hn | hp
    · refine mul_nonneg (sub_nonneg.2 (below_anti _ ?_)) (sub_nonneg.2 (below_anti _ ?_))
      · nlinarith
      · linarith
    · refine mul_nonneg_of_nonpos_of_nonpos (sub_nonpos.2 (below_anti _ ?_)) (sub_nonpos.2 (below_anti _ ?_))
      · nlinarith
      · linarith
  have hint : Integrable (fun u => W u * ((below (b i) (e ⬝ᵥ u) - below (b i) ((e - r • d) ⬝ᵥ u)) * (below (b j) (v' ⬝ᵥ u) - below (b j) (v ⬝ᵥ u))))
      (stdGauss n) := by
    refine ((i2.sub i1).sub (i3.sub i4)).congr (Filter.Eventually.of_forall fun u => ?_)
    simp only [Pi.sub_apply]; ring
  have key : 0 < ∫ u, W u * ((below (b i) (e ⬝ᵥ u) - below (b i) ((e - r • d) ⬝ᵥ u)) * (below (b j) (v' ⬝ᵥ u) - below (b j) (v ⬝ᵥ u))) ∂(stdGauss n) := by
    rw [integral_pos_iff_support_of_nonneg hnn hint]
    obtain ⟨U, hU⟩ : ∃ U : Set (Fin n → ℝ), U = {u | (∀ l, l ≠ i → l ≠ j → A l ⬝ᵥ u < b l) ∧ (b i < e ⬝ᵥ u ∧ (e - r • d) ⬝ᵥ u < b i) ∧
      b j < v' ⬝ᵥ u ∧ v ⬝ᵥ u < b j} := ⟨_, rfl⟩
    have cd : ∀ w : Fin n → ℝ, Continuous fun u : Fin n → ℝ => w ⬝ᵥ u := fun w => by simp only [dotProduct]; fun_prop
    have hopen : IsOpen U := by
      rw [hU]
      refine IsOpen.and ?_ (IsOpen.and (IsOpen.and ?_ ?_) (IsOpen.and ?_ ?_))
      · simp only [setOf_forall]
        exact isOpen_iInter_of_finite fun l => isOpen_iInter_of_finite fun _ => isOpen_iInter_of_finite fun _ =>
          isOpen_lt (cd _) continuous_const
      · exact isOpen_lt continuous_const (cd _)
      · exact isOpen_lt (cd _) continuous_const
      · exact isOpen_lt continuous_const (cd _)
      · exact isOpen_lt (cd _) continuous_const
    have hne : U.Nonempty := by
      obtain ⟨w, hw⟩ := hsol fun l => if l = i ∨ l = j then 0 else b l - 1
      have wi : e ⬝ᵥ w = 0 := by rw [he, hw]; simp
      have wj : v ⬝ᵥ w = 0 := by rw [hv, hw]; simp
      obtain ⟨c, hc⟩ : ∃ c, c = d ⬝ᵥ w := ⟨_, rfl⟩
      obtain ⟨s, hs⟩ : ∃ s : ℝ, s = 2 * (|b i| / r + |b j| + |c| + 1) := ⟨_, rfl⟩
      have hdu : d ⬝ᵥ (w + (s / (d ⬝ᵥ d)) • d) = c + s := by
        rw [dotProduct_add, dotProduct_smul, smul_eq_mul, div_mul_cancel₀ _ hd0, hc]
      have heu : e ⬝ᵥ (w + (s / (d ⬝ᵥ d)) • d) = r * s / 2 := by
        have : r * (d ⬝ᵥ d) = 2 * (e ⬝ᵥ d) := by rw [hr, div_mul_cancel₀ _ hd0]
        rw [dotProduct_add, wi, dotProduct_smul, smul_eq_mul, show e ⬝ᵥ d = r * (d ⬝ᵥ d) / 2 by linarith]; field_simp; ring
      have hvu : v ⬝ᵥ (w + (s / (d ⬝ᵥ d)) • d) = -s / 2 := by
        rw [dotProduct_add, wj, dotProduct_smul, smul_eq_mul, show v ⬝ᵥ d = -(d ⬝ᵥ d) / 2 by linarith]; field_simp; ring
      have hks : r * s / 2 = |b i| + r * |b j| + r * |c| + r := by rw [hs]; field_simp
      have hsb : s / 2 = |b i| / r + |b j| + |c| + 1 := by rw [hs]; ring
      have h0 : 0 ≤ r * |b j| := by positivity
      have h1 : 0 ≤ |b i| / r := by positivity
      have h2 : 0 ≤ r * |c| := by positivity
      have h3 : r * -|c| ≤ r * c := mul_le_mul_of_nonneg_left (neg_abs_le c) hrp.le
      have h4 := neg_abs_le c
      have h5 := abs_nonneg c
      have h6 := abs_nonneg (b j)
      refine ⟨w + (s / (d ⬝ᵥ d)) • d, ?_⟩
      rw [hU]
      refine ⟨fun l l1 l2 => ?_, ⟨?_, ?_⟩, ?_, ?_⟩
      · rw [dotProduct_add, dotProduct_smul, hod l l1 l2, hw]
        simp [l1, l2]
      · rw [heu]; linarith [le_abs_self (b i)]
      · rw [← hes, hdu, heu]; linarith [neg_abs_le (b i)]
      · rw [← hsv, hdu, hvu]; linarith [le_abs_self (b j)]
      · rw [hvu]; linarith [neg_abs_le (b j)]
    refine lt_of_lt_of_le (stdGauss_open_pos hopen hne) (measure_mono fun u hu => ?_)
    rw [hU] at hu
    obtain ⟨h0, ⟨h1, h2⟩, h3, h4⟩ := hu
    have hWu : W u = 1 := by
      rw [hW, indicator_of_mem]
      rw [hP]
      exact fun l l1 l2 => (h0 l l1 l2).le
    show _ * (_ * _) ≠ (0 : ℝ)
    unfold below
    rw [hWu, if_neg (not_le.2 h1), if_pos h2.le, if_neg (not_le.2 h3), if_pos h4.le]
    norm_num
  linarith

/-- A row with prescribed products with the other rows. -/
theorem exists_row {A : Matrix (Fin n) (Fin n) ℝ} {R' : Matrix (Fin n) (Fin n) ℝ} (hR : (A * Aᵀ).PosDef) (hR' : R'.PosDef) {j : Fin n}
    (hsame : ∀ k l, k ≠ j → l ≠ j → R' k l = (A * Aᵀ) k l) :
    ∃ a : Fin n → ℝ, a ⬝ᵥ a = R' j j ∧ ∀ l, l ≠ j → A l ⬝ᵥ a = R' l j := by
  have hu : IsUnit A.det := by
    have := hR.det_pos
    rw [det_mul, det_transpose] at this
    exact isUnit_iff_ne_zero.2 fun h => by rw [h] at this; simp at this
  have hAi : A * A⁻¹ = 1 := mul_nonsing_inv A hu
  have hiA : A⁻¹ * A = 1 := nonsing_inv_mul A hu
  have hsym : ∀ k l, R' k l = R' l k := by
    intro k l
    have := hR'.1
    unfold IsHermitian at this
    rw [conjTranspose_eq_transpose_of_trivial] at this
    exact congrFun (congrFun this l) k
  obtain ⟨ej, hej⟩ : ∃ ej : Fin n → ℝ, ej = fun l => if l = j then 1 else 0 := ⟨_, rfl⟩
  obtain ⟨r, hr⟩ : ∃ r : Fin n → ℝ, r = fun l => if l = j then 0 else R' l j := ⟨_, rfl⟩
  obtain ⟨nn, hnn⟩ : ∃ nn, nn = A⁻¹ *ᵥ ej := ⟨_, rfl⟩
  have hAn : A *ᵥ nn = ej := by rw [hnn, mulVec_mulVec, hAi, one_mulVec]
  have hn0 : nn ⬝ᵥ nn ≠ 0 := by
    intro h0
    rw [dotProduct_self_eq_zero] at h0
    rw [h0, mulVec_zero] at hAn
    have := congrFun hAn j
    simp [hej] at this
  have hnp : 0 < nn ⬝ᵥ nn := lt_of_le_of_ne (by simpa using dotProduct_star_self_nonneg nn) (Ne.symm hn0)
  obtain ⟨y0, hy0⟩ : ∃ y0, y0 = A⁻¹ *ᵥ r := ⟨_, rfl⟩
  have hAy0 : A *ᵥ y0 = r := by rw [hy0, mulVec_mulVec, hAi, one_mulVec]
  obtain ⟨y, hy⟩ : ∃ y, y = y0 - ((y0 ⬝ᵥ nn) / (nn ⬝ᵥ nn)) • nn := ⟨_, rfl⟩
  have hyn : y ⬝ᵥ nn = 0 := by
    rw [hy, sub_dotProduct, smul_dotProduct, smul_eq_mul, div_mul_cancel₀ _ hn0, sub_self]
  have hAy : ∀ l, l ≠ j → (A *ᵥ y) l = R' l j := by
    intro l hl
    rw [hy, mulVec_sub, mulVec_smul, hAn, hAy0, hr, hej]
    simp [hl]
  obtain ⟨c, hc⟩ : ∃ c, c = (A⁻¹)ᵀ *ᵥ y := ⟨_, rfl⟩
  have hyc : Aᵀ *ᵥ c = y := by
    rw [hc, mulVec_mulVec, ← transpose_mul, hiA, transpose_one, one_mulVec]
  have hcj : c j = 0 := by
    have : c ⬝ᵥ ej = y ⬝ᵥ nn := by
      rw [hc, hnn, mulVec_transpose, dotProduct_mulVec]
    rw [hyn, hej] at this
    simpa [dotProduct] using this
  have hcy : c ⬝ᵥ (A *ᵥ y) = y ⬝ᵥ y := by
    rw [dotProduct_mulVec, ← mulVec_transpose, hyc]
  have hcR : c ⬝ᵥ (R' *ᵥ c) = y ⬝ᵥ y := by
    have e1 : c ⬝ᵥ ((A * Aᵀ) *ᵥ c) = y ⬝ᵥ y := by
      rw [← mulVec_mulVec, hyc, hcy]
    rw [← e1]
    simp only [dotProduct, mulVec]
    refine Finset.sum_congr rfl fun k _ => ?_
    by_cases hk : k = j
    · rw [hk, hcj, zero_mul, zero_mul]
    congr 1
    refine Finset.sum_congr rfl fun l _ => ?_
    by_cases hl : l = j
    · rw [hl, hcj, mul_zero, mul_zero]
    · rw [hsame k l hk hl]
  have hRe : ∀ k, (R' *ᵥ ej) k = R' k j := by
    intro k
    simp [mulVec, dotProduct, hej]
  have hcRe : c ⬝ᵥ (R' *ᵥ ej) = y ⬝ᵥ y := by
    rw [← hcy]
    simp only [dotProduct]
    refine Finset.sum_congr rfl fun k _ => ?_
    by_cases hk : k = j
    · rw [hk, hcj, zero_mul, zero_mul]
    · rw [hRe, hAy k hk]
  have heRe : ej ⬝ᵥ (R' *ᵥ ej) = R' j j := by
    rw [← hRe j]
    generalize R' *ᵥ ej = q
    rw [hej]
    simp [dotProduct]
  have heRc : ej ⬝ᵥ (R' *ᵥ c) = y ⬝ᵥ y := by
    have hst : R'ᵀ = R' := by ext k l; exact hsym l k
    rw [dotProduct_mulVec, ← mulVec_transpose, hst, dotProduct_comm, hcRe]
  have hpos : y ⬝ᵥ y < R' j j := by
    have hx : ej - c ≠ 0 := by
      intro h0
      have := congrFun h0 j
      simp [hej, hcj] at this
    have := (posDef_iff_dotProduct_mulVec.1 hR').2 hx
    simp only [star_trivial, mulVec_sub, sub_dotProduct, dotProduct_sub, hcR, hcRe, heRe, heRc] at this
    linarith
  obtain ⟨s, hs⟩ : ∃ s : ℝ, s ^ 2 * (nn ⬝ᵥ nn) = R' j j - y ⬝ᵥ y := by
    refine ⟨√((R' j j - y ⬝ᵥ y) / (nn ⬝ᵥ nn)), ?_⟩
    rw [Real.sq_sqrt (div_nonneg (by linarith) hnp.le), div_mul_cancel₀ _ hn0]
  refine ⟨y + s • nn, ?_, fun l hl => ?_⟩
  · simp only [dotProduct_add, add_dotProduct, dotProduct_smul, smul_dotProduct, smul_eq_mul, hyn, dotProduct_comm nn y]
    linarith
  · have e1 : A l ⬝ᵥ y = R' l j := hAy l hl
    have e2 : A l ⬝ᵥ nn = 0 := by
      have h1 : A l ⬝ᵥ nn = ej l := congrFun hAn l
      rw [h1, hej]
      simp [hl]
    rw [dotProduct_add, dotProduct_smul, e1, e2, smul_zero, add_zero]

/-- The probability as a function of the covariance matrix. -/
noncomputable def orthant (R : Matrix (Fin n) (Fin n) ℝ) (b : Fin n → ℝ) : ℝ :=
  ⨆ A : {A : Matrix (Fin n) (Fin n) ℝ // A * Aᵀ = R}, orth A.1 b

theorem orthant_eq (A : Matrix (Fin m) (Fin n) ℝ) {R : Matrix (Fin m) (Fin m) ℝ} (hA : A * Aᵀ = R) (hR : R.PosDef) (b : Fin m → ℝ) :
    orth A b = orthant R b := by
  obtain ⟨M, hM⟩ := CholeskySens.exists_cholesky hR
  unfold orthant
  have hM' : M * Mᵀ = R := hM.fact
  haveI : Nonempty {A : Matrix (Fin m) (Fin m) ℝ // A * Aᵀ = R} := ⟨⟨M, hM'⟩⟩
  have : ∀ B : {A : Matrix (Fin m) (Fin m) ℝ // A * Aᵀ = R}, orth B.1 b = orth A b := fun B => orth_congr (by rw [B.2, hA]) b
  simp only [this, ciSup_const]

/-- Raising one correlation. -/
theorem orthant_entry {R R' : Matrix (Fin n) (Fin n) ℝ} (hR : R.PosDef) (hR' : R'.PosDef) {i j : Fin n} (hij : i ≠ j)
    (hsame : ∀ k l, ¬ (k = i ∧ l = j) → ¬ (k = j ∧ l = i) → R' k l = R k l) (hlt : R i j < R' i j) (b : Fin n → ℝ) :
    orthant R b < orthant R' b := by
  obtain ⟨A, hA⟩ := CholeskySens.exists_cholesky hR
  have hAR : A * Aᵀ = R := hA.fact
  have hdot : ∀ (A : Matrix (Fin n) (Fin n) ℝ) k l, (A * Aᵀ) k l = A k ⬝ᵥ A l := by
    intro A k l
    simp [mul_apply, dotProduct]
  obtain ⟨a, ha1, ha2⟩ := exists_row (A := A) (R' := R') (by rw [hAR]; exact hR) hR' (j := j) (by
    intro k l hk hl
    rw [hAR]
    exact hsame k l (fun h => hl h.2) (fun h => hk h.1))
  obtain ⟨A', hA'⟩ : ∃ A' : Matrix (Fin n) (Fin n) ℝ, A' = fun l => if l = j then a else A l := ⟨_, rfl⟩
  have rj : A' j = a := by rw [hA']; simp
  have rl : ∀ l, l ≠ j → A' l = A l := fun l hl => by rw [hA']; simp [hl]
  have hsym : ∀ k l, R' k l = R' l k := by
    intro k l
    have := hR'.1
    unfold IsHermitian at this
    rw [conjTranspose_eq_transpose_of_trivial] at this
    exact congrFun (congrFun this l) k
  have hA'R : A' * A'ᵀ = R' := by
    ext k l
    rw [hdot]
    by_cases hk : k = j
    · rw [hk, rj]
      by_cases hl : l = j
      · rw [hl, rj, ha1]
      · rw [rl l hl, dotProduct_comm, ha2 l hl, hsym]
    · rw [rl k hk]
      by_cases hl : l = j
      · rw [hl, rj, ha2 k hk]
      · rw [rl l hl, ← hdot, hAR, hsame k l (fun h => hl h.2) (fun h => hk h.1)]
  rw [← orthant_eq A hAR hR, ← orthant_eq A' hA'R hR']
  have eR : ∀ k l, A k ⬝ᵥ A l = R k l := fun k l => by rw [← hdot, hAR]
  refine orth_turn hij rl ?_ (fun l h1 h2 => ?_) ?_ (fun c => ?_) b
  · rw [rj, ha1, eR, hsame j j (fun h => hij h.1.symm) (fun h => hij h.2.symm)]
  · rw [rj, ha2 l h2, eR, hsame l j (fun h => h1 h.1) (fun h => h2 h.1)]
  · rw [rj, ha2 i hij, eR]; exact hlt
  · have hu : IsUnit A.det := by
      have := hR.det_pos
      rw [← hAR, det_mul, det_transpose] at this
      exact isUnit_iff_ne_zero.2 fun h => by rw [h] at this; simp at this
    refine ⟨A⁻¹ *ᵥ c, fun l => ?_⟩
    have : A *ᵥ (A⁻¹ *ᵥ c) = c := by rw [mulVec_mulVec, mul_nonsing_inv A hu, one_mulVec]
    exact congrFun this l

theorem posDef_lower {R : Matrix (Fin n) (Fin n) ℝ} (hR : R.PosDef) : ∃ c : ℝ, 0 < c ∧ ∀ x : Fin n → ℝ, c * (x ⬝ᵥ x) ≤ x ⬝ᵥ (R *ᵥ x) := by
  obtain ⟨A, hA⟩ := CholeskySens.exists_cholesky hR
  have hAR : A * Aᵀ = R := hA.fact
  have hu : IsUnit A.det := by
    have := hR.det_pos
    rw [← hAR, det_mul, det_transpose] at this
    exact isUnit_iff_ne_zero.2 fun h => by rw [h] at this; simp at this
  obtain ⟨C, hC⟩ : ∃ C : ℝ, C = ∑ i, ∑ k, ((A⁻¹)ᵀ i k) ^ 2 := ⟨_, rfl⟩
  have hC0 : 0 ≤ C := by rw [hC]; positivity
  refine ⟨1 / (C + 1), by positivity, fun x => ?_⟩
  obtain ⟨y, hy⟩ : ∃ y, y = Aᵀ *ᵥ x := ⟨_, rfl⟩
  have hx : x = (A⁻¹)ᵀ *ᵥ y := by
    rw [hy, mulVec_mulVec, ← transpose_mul, mul_nonsing_inv A hu, transpose_one, one_mulVec]
  have hq : x ⬝ᵥ (R *ᵥ x) = y ⬝ᵥ y := by
    rw [← hAR, ← mulVec_mulVec, ← hy, dotProduct_mulVec, ← mulVec_transpose, ← hy]
  have hle : x ⬝ᵥ x ≤ C * (y ⬝ᵥ y) := by
    have e1 : ∀ i, x i * x i ≤ (∑ k, ((A⁻¹)ᵀ i k) ^ 2) * (y ⬝ᵥ y) := by
      intro i
      have := Finset.sum_mul_sq_le_sq_mul_sq Finset.univ (fun k => (A⁻¹)ᵀ i k) y
      have e2 : x i = ∑ k, (A⁻¹)ᵀ i k * y k := congrFun hx i
      have e3 : y ⬝ᵥ y = ∑ k, y k ^ 2 := Finset.sum_congr rfl fun k _ => by ring
      rw [e2, e3, ← sq]
      exact this
    rw [hC, Finset.sum_mul]
    exact Finset.sum_le_sum fun i _ => e1 i
  have hyy : 0 ≤ y ⬝ᵥ y := by simpa using dotProduct_star_self_nonneg y
  rw [hq, one_div, inv_mul_le_iff₀ (by linarith)]
  nlinarith

/-- Slepian's inequality, strict. -/
theorem orthant_mono {R R' : Matrix (Fin n) (Fin n) ℝ} (hR : R.PosDef) (hR' : R'.PosDef) (hdiag : ∀ i, R i i = R' i i)
    (hle : ∀ i j, R i j ≤ R' i j) (b : Fin n → ℝ) :
    orthant R b ≤ orthant R' b ∧ ((∃ i j, R i j < R' i j) → orthant R b < orthant R' b) := by
  have sym : ∀ {R : Matrix (Fin n) (Fin n) ℝ}, R.PosDef → ∀ k l, R k l = R l k := by
    intro R hR k l
    have := hR.1
    unfold IsHermitian at this
    rw [conjTranspose_eq_transpose_of_trivial] at this
    exact congrFun (congrFun this l) k
  obtain ⟨D, hD⟩ : ∃ D : Matrix (Fin n) (Fin n) ℝ, D = R' - R := ⟨_, rfl⟩
  have D0 : ∀ k l, 0 ≤ D k l := fun k l => by rw [hD]; exact sub_nonneg.2 (hle k l)
  have Dd : ∀ k, D k k = 0 := fun k => by rw [hD]; exact sub_eq_zero.2 (hdiag k).symm
  have Ds : ∀ k l, D k l = D l k := fun k l => by rw [hD]; simp only [Matrix.sub_apply]; rw [sym hR k l, sym hR' k l]
  obtain ⟨c1, hc1, H1⟩ := posDef_lower hR
  obtain ⟨c2, hc2, H2⟩ := posDef_lower hR'
  obtain ⟨c, hc, hcl1, hcl2⟩ : ∃ c, 0 < c ∧ c ≤ c1 ∧ c ≤ c2 := ⟨min c1 c2, lt_min hc1 hc2, min_le_left _ _, min_le_right _ _⟩
  obtain ⟨K, hK⟩ : ∃ K, K = ∑ k, ∑ l, D k l := ⟨_, rfl⟩
  have K0 : 0 ≤ K := by rw [hK]; exact Finset.sum_nonneg fun k _ => Finset.sum_nonneg fun l _ => D0 k l
  obtain ⟨N, hN⟩ := exists_nat_gt (K / c)
  have hNp : (0 : ℝ) < N := lt_of_le_of_lt (div_nonneg K0 hc.le) hN
  obtain ⟨ε, hε⟩ : ∃ ε : ℝ, ε = 1 / N := ⟨_, rfl⟩
  have hεp : 0 < ε := by rw [hε]; positivity
  have hεK : ε * K < c := by
    rw [div_lt_iff₀ hc] at hN
    rw [hε, one_div, inv_mul_lt_iff₀ hNp]; exact hN
  obtain ⟨M, hM⟩ : ∃ M : ℝ → Finset (Fin n × Fin n) → Matrix (Fin n) (Fin n) ℝ,
      M = fun s T k l => R k l + s * D k l + (if (k, l) ∈ T ∨ (l, k) ∈ T then ε * D k l else 0) := ⟨_, rfl⟩
  have hpd : ∀ s T, 0 ≤ s → s ≤ 1 → (M s T).PosDef := by
    intro s T h0 h1
    rw [posDef_iff_dotProduct_mulVec]
    constructor
    · ext k l
      rw [conjTranspose_apply, star_trivial, hM]
      simp only
      rw [sym hR l k, Ds l k]
      congr 1
      simp only [or_comm]
    · intro x hx
      have hxx : 0 < x ⬝ᵥ x := lt_of_le_of_ne (by simpa using dotProduct_star_self_nonneg x)
        (Ne.symm (fun h => hx (dotProduct_self_eq_zero.1 h)))
      obtain ⟨E, hE⟩ : ∃ E : Matrix (Fin n) (Fin n) ℝ, E = fun k l => if (k, l) ∈ T ∨ (l, k) ∈ T then ε * D k l else 0 := ⟨_, rfl⟩
      have hME : M s T = (1 - s) • R + s • R' + E := by
        ext k l
        have hEk : E k l = if (k, l) ∈ T ∨ (l, k) ∈ T then ε * D k l else 0 := by rw [hE]
        have hMk : M s T k l = R k l + s * D k l + E k l := by rw [hM, hEk]
        have hDk : D k l = R' k l - R k l := by rw [hD]; rfl
        rw [hMk, hDk, Matrix.add_apply, Matrix.add_apply, Matrix.smul_apply, Matrix.smul_apply, smul_eq_mul, smul_eq_mul]
        ring
      have hpert : -(ε * K * (x ⬝ᵥ x)) ≤ x ⬝ᵥ (E *ᵥ x) := by
        have e1 : x ⬝ᵥ (E *ᵥ x) = ∑ k, ∑ l, E k l * (x k * x l) := by
          simp only [dotProduct, mulVec]
          refine Finset.sum_congr rfl fun k _ => ?_
          rw [Finset.mul_sum]
          exact Finset.sum_congr rfl fun l _ => by ring
        rw [e1, hK, Finset.mul_sum, Finset.sum_mul, ← Finset.sum_neg_distrib]
        refine Finset.sum_le_sum fun k _ => ?_
        rw [Finset.mul_sum, Finset.sum_mul, ← Finset.sum_neg_distrib]
        refine Finset.sum_le_sum fun l _ => ?_
        have hsq : ∀ k, x k ^ 2 ≤ x ⬝ᵥ x := by
          intro k
          have e3 : x ⬝ᵥ x = ∑ k, x k ^ 2 := Finset.sum_congr rfl fun k _ => by ring
          rw [e3]
          exact Finset.single_le_sum (f := fun k => x k ^ 2) (fun i _ => sq_nonneg _) (Finset.mem_univ k)
        have hkl : -(x ⬝ᵥ x) ≤ x k * x l := by nlinarith [hsq k, hsq l, sq_nonneg (x k + x l)]
        have hE0 : 0 ≤ E k l ∧ E k l ≤ ε * D k l := by
          rw [hE]
          simp only
          have := mul_nonneg hεp.le (D0 k l)
          split_ifs
          · exact ⟨this, le_rfl⟩
          · exact ⟨le_rfl, this⟩
        have a1 := mul_le_mul_of_nonneg_left hkl hE0.1
        have a2 := mul_le_mul_of_nonneg_right hE0.2 hxx.le
        linarith
      have hq : star x ⬝ᵥ ((M s T) *ᵥ x) = (1 - s) * (x ⬝ᵥ (R *ᵥ x)) + s * (x ⬝ᵥ (R' *ᵥ x)) + x ⬝ᵥ (E *ᵥ x) := by
        rw [hME, star_trivial, add_mulVec, add_mulVec, smul_mulVec, smul_mulVec, dotProduct_add, dotProduct_add, dotProduct_smul,
          dotProduct_smul, smul_eq_mul, smul_eq_mul]
      rw [hq]
      have b1 : c * (x ⬝ᵥ x) ≤ x ⬝ᵥ (R *ᵥ x) := (mul_le_mul_of_nonneg_right hcl1 hxx.le).trans (H1 x)
      have b2 : c * (x ⬝ᵥ x) ≤ x ⬝ᵥ (R' *ᵥ x) := (mul_le_mul_of_nonneg_right hcl2 hxx.le).trans (H2 x)
      have b3 := mul_le_mul_of_nonneg_left b1 (sub_nonneg.2 h1)
      have b4 := mul_le_mul_of_nonneg_left b2 h0
      have b5 := mul_lt_mul_of_pos_right hεK hxx
      linarith
  have step : ∀ s, 0 ≤ s → s ≤ 1 → ∀ T : Finset (Fin n × Fin n), (∀ p ∈ T, p.1 < p.2) →
      orthant (M s ∅) b ≤ orthant (M s T) b ∧ ((∃ p ∈ T, 0 < D p.1 p.2) → orthant (M s ∅) b < orthant (M s T) b) := by
    intro s h0 h1 T
    induction T using Finset.induction_on with
    | empty => exact fun _ => ⟨le_rfl, fun ⟨p, hp, _⟩ => absurd hp (Finset.notMem_empty p)⟩
    | insert p T hp ih =>
      intro hT
      obtain ⟨i1, i2⟩ := ih fun q hq => hT q (Finset.mem_insert_of_mem hq)
      obtain ⟨i, j⟩ := p
      have hij : i < j := hT (i, j) (Finset.mem_insert_self _ _)
      have hji : (j, i) ∉ T := fun h => lt_asymm hij (hT (j, i) (Finset.mem_insert_of_mem h))
      have hsame : ∀ k l, ¬ (k = i ∧ l = j) → ¬ (k = j ∧ l = i) → M s (insert (i, j) T) k l = M s T k l := by
        intro k l n1 n2
        rw [hM]
        simp only [Finset.mem_insert, Prod.mk.injEq]
        have n2' : ¬ (l = i ∧ k = j) := fun h => n2 ⟨h.2, h.1⟩
        simp only [n1, n2', false_or]
      have hval : M s (insert (i, j) T) i j = M s T i j + ε * D i j := by
        rw [hM]
        simp [hp, hji]
      rcases (D0 i j).eq_or_lt with hz | hpos
      · have : M s (insert (i, j) T) = M s T := by
          ext k l
          by_cases n1 : k = i ∧ l = j
          · rw [n1.1, n1.2, hval, ← hz]; ring
          by_cases n2 : k = j ∧ l = i
          · rw [n2.1, n2.2, sym (hpd s _ h0 h1) j i, sym (hpd s _ h0 h1) j i, hval, ← hz]; ring
          · exact hsame k l n1 n2
        rw [this]
        refine ⟨i1, fun ⟨q, hq, hqp⟩ => i2 ?_⟩
        rcases Finset.mem_insert.1 hq with rfl | hq
        · exact absurd hz hqp.ne
        · exact ⟨q, hq, hqp⟩
      · have hlt := orthant_entry (hpd s T h0 h1) (hpd s (insert (i, j) T) h0 h1) hij.ne hsame
          (by rw [hval]; linarith [mul_pos hεp hpos]) b
        exact ⟨i1.trans hlt.le, fun _ => i1.trans_lt hlt⟩
  obtain ⟨T, hT⟩ : ∃ T : Finset (Fin n × Fin n), T = Finset.univ.filter fun p => p.1 < p.2 := ⟨_, rfl⟩
  have full : ∀ s, M s T = M (s + ε) ∅ := by
    intro s
    ext k l
    rw [hM, hT]
    simp only [Finset.mem_filter, Finset.mem_univ, true_and, Finset.notMem_empty, or_self, if_false]
    rcases lt_trichotomy k l with h | h | h
    · rw [if_pos (Or.inl h)]; ring
    · rw [h, Dd]; simp
    · rw [if_pos (Or.inr h)]; ring
  have one : ∀ s, 0 ≤ s → s ≤ 1 → orthant (M s ∅) b ≤ orthant (M (s + ε) ∅) b ∧
      ((∃ i j, R i j < R' i j) → orthant (M s ∅) b < orthant (M (s + ε) ∅) b) := by
    intro s h0 h1
    obtain ⟨a1, a2⟩ := step s h0 h1 T (fun p hp => by rw [hT] at hp; exact (Finset.mem_filter.1 hp).2)
    rw [full] at a1 a2
    refine ⟨a1, fun ⟨i, j, hlt⟩ => a2 ?_⟩
    have hDij : 0 < D i j := by rw [hD]; exact sub_pos.2 hlt
    rcases lt_trichotomy i j with h | h | h
    · exact ⟨(i, j), by rw [hT]; simp [h], hDij⟩
    · rw [h, Dd] at hDij; exact absurd hDij (lt_irrefl _)
    · exact ⟨(j, i), by rw [hT]; simp [h], by rw [Ds]; exact hDij⟩
  have many : ∀ q : ℕ, q ≤ N → orthant (M 0 ∅) b ≤ orthant (M (q * ε) ∅) b := by
    intro q
    induction q with
    | zero => intro _; simp
    | succ q ih =>
      intro hq
      refine (ih (by omega)).trans ?_
      have hqN : (q : ℝ) * ε ≤ 1 := by
        rw [hε, mul_one_div, div_le_one hNp]; exact_mod_cast (by omega : q ≤ N)
      have := (one (q * ε) (by positivity) hqN).1
      rw [show ((q : ℝ) * ε + ε) = ((q + 1 : ℕ) : ℝ) * ε by push_cast; ring] at this
      exact this
  have hN1 : 1 ≤ N := by
    have : (0 : ℝ) < N := hNp
    exact_mod_cast this
  obtain ⟨q, rfl⟩ : ∃ q, N = q + 1 := ⟨N - 1, by omega⟩
  have hqN : (q : ℝ) * ε ≤ 1 := by
    rw [hε, mul_one_div, div_le_one hNp]; exact_mod_cast (by omega : q ≤ q + 1)
  have last := one (q * ε) (by positivity) hqN
  have e0 : M 0 ∅ = R := by
    ext k l; rw [hM]; simp
  have e1 : M (q * ε + ε) ∅ = R' := by
    have : (q : ℝ) * ε + ε = 1 := by
      rw [hε]
      have h : ((q + 1 : ℕ) : ℝ) ≠ 0 := hNp.ne'
      field_simp
      push_cast
      ring
    ext k l; rw [this, hM, hD]; simp
  have hq := many q (by omega)
  rw [e0] at hq
  rw [e1] at last
  exact ⟨hq.trans last.1, fun h => hq.trans_lt (last.2 h)⟩

theorem plane_null {a : Fin n → ℝ} (ha : a ⬝ᵥ a ≠ 0) (c : ℝ) : ∀ᵐ u ∂(stdGauss n), a ⬝ᵥ u ≠ c := by
  have h2 : (stdGauss n) {u | a ⬝ᵥ u = c} = 0 := by
    have e2 : (stdGauss n) {u | a ⬝ᵥ u = c} = (stdGauss n).map (fun u => a ⬝ᵥ u) {c} := by
      rw [Measure.map_apply (dot_meas _) (measurableSet_singleton _)]; rfl
    have e3 : (stdGauss n).map (fun u => a ⬝ᵥ u) = gaussianReal 0 (Real.toNNReal (∑ i, a i ^ 2)) := map_linear_stdGauss a
    rw [e2, e3]
    have hv0 : Real.toNNReal (∑ i, a i ^ 2) ≠ 0 := by
      have : ∑ i, a i ^ 2 = a ⬝ᵥ a := Finset.sum_congr rfl fun i _ => by ring
      rw [this]
      exact (Real.toNNReal_pos.2 (lt_of_le_of_ne (by simpa using dotProduct_star_self_nonneg a) (Ne.symm ha))).ne'
    haveI := noAtoms_gaussianReal (μ := 0) hv0
    exact measure_singleton c
  rw [ae_iff]
  simpa using h2

theorem orth_tendsto {F : ℕ → Matrix (Fin m) (Fin n) ℝ} {A : Matrix (Fin m) (Fin n) ℝ}
    (hF : ∀ l (u : Fin n → ℝ), Filter.Tendsto (fun q => F q l ⬝ᵥ u) Filter.atTop (nhds (A l ⬝ᵥ u))) (hA : ∀ l, A l ⬝ᵥ A l ≠ 0) (b : Fin m → ℝ) :
    Filter.Tendsto (fun q => orth (F q) b) Filter.atTop (nhds (orth A b)) := by
  have e : ∀ B : Matrix (Fin m) (Fin n) ℝ, orth B b = ∫ u, {u : Fin n → ℝ | ∀ l, B l ⬝ᵥ u ≤ b l}.indicator 1 u ∂(stdGauss n) := fun B =>
    (integral_indicator_one (orth_meas B b)).symm
  simp only [e]
  refine tendsto_integral_of_dominated_convergence (fun _ => (1 : ℝ)) (fun q => ?_) (integrable_const _) (fun q => ?_) ?_
  · exact (measurable_one.indicator (orth_meas _ b)).aestronglyMeasurable
  · refine Filter.Eventually.of_forall fun u => ?_
    rw [indicator_apply]
    split_ifs <;> simp
  · filter_upwards [ae_all_iff.2 fun l => plane_null (hA l) (b l)] with u hu
    by_cases hin : ∀ l, A l ⬝ᵥ u ≤ b l
    · have ev : ∀ᶠ q in Filter.atTop, ∀ l, F q l ⬝ᵥ u ≤ b l := by
        rw [Filter.eventually_all]
        intro l
        exact ((hF l u).eventually (eventually_lt_nhds (lt_of_le_of_ne (hin l) (hu l)))).mono fun q hq => hq.le
      refine Filter.Tendsto.congr' (f₁ := fun _ => (1 : ℝ)) ?_ ?_
      · filter_upwards [ev] with q hq
        rw [indicator_of_mem (show u ∈ {u | ∀ l, F q l ⬝ᵥ u ≤ b l} from hq)]; rfl
      · rw [indicator_of_mem (show u ∈ {u | ∀ l, A l ⬝ᵥ u ≤ b l} from hin)]; exact tendsto_const_nhds
    · have hl := hin
      push Not at hl
      obtain ⟨l, hl⟩ := hl
      refine Filter.Tendsto.congr' (f₁ := fun _ => (0 : ℝ)) ?_ ?_
      · filter_upwards [(hF l u).eventually (eventually_gt_nhds hl)] with q hq
        rw [indicator_of_notMem]
        exact fun h => not_lt.2 (h l) hq
      · rw [indicator_of_notMem (show u ∉ {u | ∀ l, A l ⬝ᵥ u ≤ b l} from hin)]; exact tendsto_const_nhds

/-- The rows with a little independent noise. -/
noncomputable def pad (ε : ℝ) (A : Matrix (Fin m) (Fin n) ℝ) : Matrix (Fin m) (Fin (n + m)) ℝ :=
  of fun l => Fin.append (√(1 - ε ^ 2) • A l) (ε • fun q => if q = l then 1 else 0)

theorem pad_dot (ε : ℝ) (A : Matrix (Fin m) (Fin n) ℝ) (l : Fin m) (u : Fin (n + m) → ℝ) :
    pad ε A l ⬝ᵥ u = √(1 - ε ^ 2) * (A l ⬝ᵥ fun i => u (Fin.castAdd m i)) + ε * u (Fin.natAdd n l) := by
  simp only [pad, of_apply, dotProduct, Fin.sum_univ_add, Fin.append_left, Fin.append_right, Pi.smul_apply, smul_eq_mul, mul_ite, mul_one,
    mul_zero, ite_mul, zero_mul, Finset.sum_ite_eq', Finset.mem_univ, if_true, Finset.mul_sum]
  congr 1
  · exact Finset.sum_congr rfl fun i _ => by ring

theorem pad_gram {ε : ℝ} (h : ε ^ 2 ≤ 1) (A : Matrix (Fin m) (Fin n) ℝ) :
    pad ε A * (pad ε A)ᵀ = (1 - ε ^ 2) • (A * Aᵀ) + (ε ^ 2) • (1 : Matrix (Fin m) (Fin m) ℝ) := by
  ext l l'
  have e1 : (pad ε A * (pad ε A)ᵀ) l l' = pad ε A l ⬝ᵥ pad ε A l' := rfl
  have e2 : (A * Aᵀ) l l' = A l ⬝ᵥ A l' := rfl
  have e3 : (fun i => pad ε A l' (Fin.castAdd m i)) = √(1 - ε ^ 2) • A l' := by
    funext i; simp [pad]
  have e4 : pad ε A l' (Fin.natAdd n l) = if l = l' then ε else 0 := by
    simp [pad]
  rw [e1, pad_dot, e3, e4, dotProduct_smul, smul_eq_mul, Matrix.add_apply, Matrix.smul_apply, Matrix.smul_apply, e2, ← mul_assoc,
    Real.mul_self_sqrt (by linarith), smul_eq_mul, smul_eq_mul, one_apply]
  split_ifs <;> ring

/-- Slepian's inequality for directions that may be linearly dependent. -/
theorem orth_mono {A : Matrix (Fin m) (Fin n) ℝ} {B : Matrix (Fin m) (Fin k) ℝ} (hA : ∀ l, A l ⬝ᵥ A l = 1) (hB : ∀ l, B l ⬝ᵥ B l = 1)
    (hle : ∀ i j, A i ⬝ᵥ A j ≤ B i ⬝ᵥ B j) (b : Fin m → ℝ) : orth A b ≤ orth B b := by
  have pd : ∀ {n : ℕ} (A : Matrix (Fin m) (Fin n) ℝ) {ε : ℝ}, 0 < ε → ε ^ 2 ≤ 1 → (pad ε A * (pad ε A)ᵀ).PosDef := by
    intro n A ε h0 h1
    rw [pad_gram h1]
    refine PosDef.posSemidef_add ?_ ((PosDef.one).smul (pow_pos h0 2))
    have := posSemidef_self_mul_conjTranspose A
    rw [conjTranspose_eq_transpose_of_trivial] at this
    exact this.smul (by linarith)
  obtain ⟨ε, hε⟩ : ∃ ε : ℕ → ℝ, ε = fun q : ℕ => 1 / ((q : ℝ) + 1) := ⟨_, rfl⟩
  have ε0 : ∀ q, 0 < ε q := fun q => by rw [hε]; positivity
  have ε1 : ∀ q, ε q ^ 2 ≤ 1 := by
    intro q
    have : ε q ≤ 1 := by
      rw [hε]
      simp only
      rw [div_le_one (by positivity)]
      linarith [(Nat.cast_nonneg q : (0 : ℝ) ≤ q)]
    nlinarith [ε0 q]
  have εt : Filter.Tendsto ε Filter.atTop (nhds 0) := by rw [hε]; exact tendsto_one_div_add_atTop_nhds_zero_nat
  have lim : ∀ {n : ℕ} {A : Matrix (Fin m) (Fin n) ℝ}, (∀ l, A l ⬝ᵥ A l = 1) →
      Filter.Tendsto (fun q => orth (pad (ε q) A) b) Filter.atTop (nhds (orth A b)) := by
    intro n A hA
    have h0 : orth (pad 0 A) b = orth A b := orth_congr (by rw [pad_gram (by norm_num)]; simp) b
    rw [← h0]
    refine orth_tendsto (fun l u => ?_) (fun l => ?_) b
    · simp only [pad_dot]
      have c : Continuous fun ε : ℝ => √(1 - ε ^ 2) * (A l ⬝ᵥ fun i => u (Fin.castAdd m i)) + ε * u (Fin.natAdd n l) := by fun_prop
      exact (c.tendsto 0).comp εt
    · have e1 : pad 0 A l ⬝ᵥ pad 0 A l = (pad 0 A * (pad 0 A)ᵀ) l l := rfl
      have e2 : (A * Aᵀ) l l = A l ⬝ᵥ A l := rfl
      rw [e1, pad_gram (by norm_num)]
      simp [e2, hA]
  refine le_of_tendsto_of_tendsto' (lim hA) (lim hB) fun q => ?_
  rw [orthant_eq _ rfl (pd A (ε0 q) (ε1 q)), orthant_eq _ rfl (pd B (ε0 q) (ε1 q))]
  have ent : ∀ {n : ℕ} (A : Matrix (Fin m) (Fin n) ℝ) i j, (pad (ε q) A * (pad (ε q) A)ᵀ) i j =
      (1 - ε q ^ 2) * (A i ⬝ᵥ A j) + ε q ^ 2 * (1 : Matrix (Fin m) (Fin m) ℝ) i j := by
    intro n A i j
    rw [pad_gram (ε1 q)]
    rfl
  refine (orthant_mono (pd A (ε0 q) (ε1 q)) (pd B (ε0 q) (ε1 q)) (fun i => ?_) (fun i j => ?_) b).1
  · rw [ent, ent, hA, hB]
  · rw [ent, ent]
    have := mul_le_mul_of_nonneg_left (hle i j) (sub_nonneg.2 (ε1 q))
    linarith

end Pystra
