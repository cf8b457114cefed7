import Verif.Spec.NatafCorrelation
import Verif.Lemmas.NatafCorrelation
import Verif.Props.NatafLaw
import Verif.Props.FormLognormal

/-! C119: the correlation that the physical variables really have. -/

namespace Pystra.Props
open MeasureTheory ProbabilityTheory Spec Matrix Set Transformation

variable {n k : ℕ}

theorem uToX_memLp {m : Marginal} {S : Set ℝ} (h : Faithful m S) : MemLp m.uToX 2 (gaussianReal 0 1) := by
  have mm := h.round.mono_x.monotone.measurable
  have hl := h.law
  have h2 : Integrable (fun x : ℝ => x ^ 2) (densityLaw (S.indicator m.pdf)) := by
    rw [integrable_densityLaw hl.int0.aestronglyMeasurable.aemeasurable hl.nonneg]
    exact hl.int2
  rw [← C74_marginal h.round h.isOpen h.jac h.ratio hl, integrable_map_measure (by fun_prop) mm.aemeasurable] at h2
  exact (memLp_two_iff_integrable_sq mm.aestronglyMeasurable).2 h2

/-- The deviation of a variable from its mean, as a function of the standard normal variable. -/
noncomputable def dev (m : Marginal) (z : ℝ) : ℝ := m.uToX z - ∫ z, m.uToX z ∂(gaussianReal 0 1)

/-- Its root mean square. -/
noncomputable def rms (m : Marginal) : ℝ := √(∫ z, dev m z ^ 2 ∂(gaussianReal 0 1))

section
variable {m mi mj : Marginal} {S Si Sj : Set ℝ}

theorem dev_mono (h : Faithful m S) : StrictMono (dev m) := fun _ _ hz => sub_lt_sub_right (h.round.mono_x hz) _

theorem dev_memLp (h : Faithful m S) : MemLp (dev m) 2 (gaussianReal 0 1) := (uToX_memLp h).sub (memLp_const _)

theorem dev_mean (h : Faithful m S) : ∫ z, dev m z ∂(gaussianReal 0 1) = 0 := by
  unfold dev
  rw [integral_sub ((uToX_memLp h).integrable (by norm_num)) (integrable_const _)]
  simp

theorem rms_pos (h : Faithful m S) : 0 < rms m := by
  have h1 := mixed_strictMono (dev_mono h) (dev_mono h) (dev_memLp h) (dev_memLp h) (show (0 : ℝ) ∈ Icc (-1 : ℝ) 1 by simp)
    (show (1 : ℝ) ∈ Icc (-1 : ℝ) 1 by simp) one_pos
  have mm := (dev_mono h).monotone.measurable
  rw [mixed_zero, dev_mean h, mixed_one _ _ mm mm, zero_mul] at h1
  unfold rms
  refine Real.sqrt_pos.2 ?_
  simpa only [sq] using h1

/-- The correlation coefficient as a function of the correlation of the standard normal variables. -/
theorem pearson_dot (hi : Faithful mi Si) (hj : Faithful mj Sj) {a b : Fin n → ℝ} {ρ : ℝ} (ha : a ⬝ᵥ a = 1) (hb : b ⬝ᵥ b = 1)
    (hab : a ⬝ᵥ b = ρ) :
    pearson (stdGauss n) (fun u => mi.uToX (a ⬝ᵥ u)) (fun u => mj.uToX (b ⬝ᵥ u)) = mixed (dev mi) (dev mj) ρ / (rms mi * rms mj) := by
  have e1 : ∀ {m : Marginal} {S : Set ℝ}, Faithful m S → ∀ {a : Fin n → ℝ}, a ⬝ᵥ a = 1 →
      ∫ u, m.uToX (a ⬝ᵥ u) ∂(stdGauss n) = ∫ z, m.uToX z ∂(gaussianReal 0 1) := by
    intro m S h a ha
    rw [← map_dot ha, integral_map (dot_meas a).aemeasurable h.round.mono_x.monotone.measurable.aestronglyMeasurable]
  have e2 : ∀ {m : Marginal} {S : Set ℝ}, Faithful m S → ∀ {a : Fin n → ℝ}, a ⬝ᵥ a = 1 →
      ∫ u, dev m (a ⬝ᵥ u) ^ 2 ∂(stdGauss n) = ∫ z, dev m z ^ 2 ∂(gaussianReal 0 1) := by
    intro m S h a ha
    rw [← map_dot ha, integral_map (dot_meas a).aemeasurable ((dev_mono h).monotone.measurable.pow_const 2).aestronglyMeasurable]
  unfold pearson
  rw [e1 hi ha, e1 hj hb, ← mixed_eq (dev_mono hi).monotone.measurable (dev_mono hj).monotone.measurable ha hb hab]
  change _ / (√(∫ u, dev mi (a ⬝ᵥ u) ^ 2 ∂(stdGauss n)) * √(∫ u, dev mj (b ⬝ᵥ u) ^ 2 ∂(stdGauss n))) = _
  rw [e2 hi ha, e2 hj hb]
  rfl

theorem highest_eq (hi : Faithful mi Si) (hj : Faithful mj Sj) : highest mi mj = mixed (dev mi) (dev mj) 1 / (rms mi * rms mj) := by
  rw [mixed_one _ _ (dev_mono hi).monotone.measurable (dev_mono hj).monotone.measurable]
  rfl

theorem lowest_eq (hi : Faithful mi Si) (hj : Faithful mj Sj) : lowest mi mj = mixed (dev mi) (dev mj) (-1) / (rms mi * rms mj) := by
  rw [mixed_neg_one _ _ (dev_mono hi).monotone.measurable (dev_mono hj).monotone.measurable]
  have hsym : ∀ f : ℝ → ℝ, Measurable f → ∫ z, f (-z) ∂(gaussianReal 0 1) = ∫ z, f z ∂(gaussianReal 0 1) := by
    intro f hf
    have h := integral_map (μ := gaussianReal 0 1) measurable_neg.aemeasurable hf.aestronglyMeasurable
    have h2 := gaussianReal_map_neg (μ := 0) (v := 1)
    rw [neg_zero] at h2
    have h3 : (gaussianReal 0 1).map Neg.neg = gaussianReal 0 1 := h2
    rw [h3] at h
    exact h.symm
  unfold lowest pearson
  rw [hsym mj.uToX hj.round.mono_x.monotone.measurable]
  have e := hsym (fun z => dev mj z ^ 2) ((dev_mono hj).monotone.measurable.pow_const 2)
  simp only [dev] at e
  rw [e]
  rfl

end

variable {la la' : LinAlg} {ty ty' : TransformType} {Ro : Matrix (Fin n) (Fin n) ℝ} {Ro' : Matrix (Fin k) (Fin k) ℝ}
  {t : Mats n} {t' : Mats k} {marg : Fin n → Marginal} {marg' : Fin k → Marginal} {S : Fin n → Set ℝ} {S' : Fin k → Set ℝ}

theorem pearson_setting (h : NatafSetting la ty Ro t marg S) (i j : Fin n) :
    pearson (stdGauss n) (fun u => uToX t marg u i) (fun u => uToX t marg u j) =
      mixed (dev (marg i)) (dev (marg j)) (Ro i j) / (rms (marg i) * rms (marg j)) :=
  pearson_dot (h.marg i) (h.marg j) (by rw [h.row, h.diag]) (by rw [h.row, h.diag]) (h.row i j)

theorem offdiag_mem (h : NatafSetting la ty Ro t marg S) {i j : Fin n} (hij : i ≠ j) : Ro i j ∈ Icc (-1 : ℝ) 1 := by
  have := abs_lt.1 (abs_offdiag_lt h.posDef h.diag hij)
  exact ⟨this.1.le, this.2.le⟩

/-- C119: between the same two distributions, in whatever models, the correlation coefficient of the physical variables is a
strictly increasing function of the entry of the matrix the transformation is built from. In particular at most one value of
the entry gives the coefficient asked for. -/
theorem C119_monotone (h : NatafSetting la ty Ro t marg S) (h' : NatafSetting la' ty' Ro' t' marg' S') {i j : Fin n} {i' j' : Fin k}
    (hij : i ≠ j) (hij' : i' ≠ j') (hi : marg i = marg' i') (hj : marg j = marg' j') :
    (pearson (stdGauss n) (fun u => uToX t marg u i) (fun u => uToX t marg u j) <
      pearson (stdGauss k) (fun u => uToX t' marg' u i') (fun u => uToX t' marg' u j') ↔ Ro i j < Ro' i' j') ∧
    (pearson (stdGauss n) (fun u => uToX t marg u i) (fun u => uToX t marg u j) =
      pearson (stdGauss k) (fun u => uToX t' marg' u i') (fun u => uToX t' marg' u j') ↔ Ro i j = Ro' i' j') := by
  have hm := mixed_strictMono (dev_mono (h.marg i)) (dev_mono (h.marg j)) (dev_memLp (h.marg i)) (dev_memLp (h.marg j))
  have hp : 0 < rms (marg i) * rms (marg j) := mul_pos (rms_pos (h.marg i)) (rms_pos (h.marg j))
  rw [pearson_setting h, pearson_setting h', ← hi, ← hj, div_lt_div_iff_of_pos_right hp, div_left_inj' hp.ne']
  exact ⟨hm.lt_iff_lt (offdiag_mem h hij) (offdiag_mem h' hij'), hm.injOn.eq_iff (offdiag_mem h hij) (offdiag_mem h' hij')⟩

/-- C119: the correlation coefficient of the physical variables has the sign of the entry; it is zero just when the entry is. -/
theorem C119_sign (h : NatafSetting la ty Ro t marg S) {i j : Fin n} (hij : i ≠ j) :
    let r := pearson (stdGauss n) (fun u => uToX t marg u i) (fun u => uToX t marg u j)
    (0 < r ↔ 0 < Ro i j) ∧ (r = 0 ↔ Ro i j = 0) ∧ (r < 0 ↔ Ro i j < 0) := by
  intro r
  have hm := mixed_strictMono (dev_mono (h.marg i)) (dev_mono (h.marg j)) (dev_memLp (h.marg i)) (dev_memLp (h.marg j))
  have hp : 0 < rms (marg i) * rms (marg j) := mul_pos (rms_pos (h.marg i)) (rms_pos (h.marg j))
  have h0 : mixed (dev (marg i)) (dev (marg j)) 0 = 0 := by rw [mixed_zero, dev_mean (h.marg i), zero_mul]
  have hz : (0 : ℝ) ∈ Icc (-1 : ℝ) 1 := by simp
  have hr : r = mixed (dev (marg i)) (dev (marg j)) (Ro i j) / (rms (marg i) * rms (marg j)) := pearson_setting h i j
  have e1 := hm.lt_iff_lt hz (offdiag_mem h hij)
  have e2 := hm.injOn.eq_iff (offdiag_mem h hij) hz
  have e3 := hm.lt_iff_lt (offdiag_mem h hij) hz
  rw [h0] at e1 e2 e3
  rw [hr]
  refine ⟨?_, ?_, ?_⟩
  · rw [← e1, lt_div_iff₀ hp, zero_mul]
  · rw [← e2, div_eq_zero_iff]; simp [hp.ne']
  · rw [← e3, div_lt_iff₀ hp, zero_mul]

/-- C119: whatever matrix the code arrives at, the correlation coefficient of two variables lies strictly between those of the
extreme dependences of their two distributions. -/
theorem C119_range (h : NatafSetting la ty Ro t marg S) {i j : Fin n} (hij : i ≠ j) :
    lowest (marg i) (marg j) < pearson (stdGauss n) (fun u => uToX t marg u i) (fun u => uToX t marg u j) ∧
    pearson (stdGauss n) (fun u => uToX t marg u i) (fun u => uToX t marg u j) < highest (marg i) (marg j) := by
  have hm := mixed_strictMono (dev_mono (h.marg i)) (dev_mono (h.marg j)) (dev_memLp (h.marg i)) (dev_memLp (h.marg j))
  have hp : 0 < rms (marg i) * rms (marg j) := mul_pos (rms_pos (h.marg i)) (rms_pos (h.marg j))
  have hl := abs_lt.1 (abs_offdiag_lt h.posDef h.diag hij)
  rw [pearson_setting h, lowest_eq (h.marg i) (h.marg j), highest_eq (h.marg i) (h.marg j), div_lt_div_iff_of_pos_right hp,
    div_lt_div_iff_of_pos_right hp]
  exact ⟨hm (by simp) (offdiag_mem h hij) hl.1, hm (offdiag_mem h hij) (by simp) hl.2⟩

/-- A model of two variables, for every entry in `(-1, 1)`. -/
theorem two_setting {mi mj : Marginal} {Si Sj : Set ℝ} {la : LinAlg} (hla : LinAlgOK la) (ty : TransformType) (hi : Faithful mi Si)
    (hj : Faithful mj Sj) {ρ : ℝ} (hρ : |ρ| < 1) : ∃ t, NatafSetting la ty !![1, ρ; ρ, 1] t ![mi, mj] ![Si, Sj] := by
  have hpd : (!![1, ρ; ρ, 1] : Matrix (Fin 2) (Fin 2) ℝ).PosDef := by
    rw [posDef_iff_dotProduct_mulVec]
    refine ⟨by ext i j; fin_cases i <;> fin_cases j <;> simp, fun {x} hx => ?_⟩
    have h1 : ρ ^ 2 < 1 := by rw [sq_lt_one_iff_abs_lt_one]; exact hρ
    have hx' : 0 < x 0 ^ 2 + x 1 ^ 2 := by
      by_contra hc
      apply hx
      have h0 := sq_nonneg (x 0); have h1 := sq_nonneg (x 1)
      funext i
      fin_cases i <;> simp <;> nlinarith
    simp [dotProduct, mulVec, Fin.sum_univ_two]
    by_cases h : x 1 = 0
    · rw [h] at hx' ⊢; nlinarith
    · have : 0 < x 1 ^ 2 := by positivity
      nlinarith [sq_nonneg (x 0 + ρ * x 1), mul_pos this (by linarith : 0 < 1 - ρ ^ 2)]
  obtain ⟨t, ht, -⟩ := C22_posdef hla ty hpd
  refine ⟨t, hla, hpd, fun i => by fin_cases i <;> simp, ht, fun i => ?_⟩
  fin_cases i
  · exact hi
  · exact hj

/-- C119: conversely every coefficient strictly between the extremes is the coefficient for exactly one entry in `(-1, 1)`:
every model of the two distributions with that entry has it, and no model with another entry has it. -/
theorem C119_solvable {mi mj : Marginal} {Si Sj : Set ℝ} (hi : Faithful mi Si) (hj : Faithful mj Sj) {r : ℝ} (h1 : lowest mi mj < r)
    (h2 : r < highest mi mj) :
    ∃ ρ0 : ℝ, |ρ0| < 1 ∧
      (∀ la, LinAlgOK la → ∀ ty, ∃ t, NatafSetting la ty !![1, ρ0; ρ0, 1] t ![mi, mj] ![Si, Sj]) ∧
      ∀ {n : ℕ} {la : LinAlg} {ty : TransformType} {Ro : Matrix (Fin n) (Fin n) ℝ} {t : Mats n} {marg : Fin n → Marginal}
        {S : Fin n → Set ℝ}, NatafSetting la ty Ro t marg S → ∀ {i j : Fin n}, i ≠ j → marg i = mi → marg j = mj →
        (pearson (stdGauss n) (fun u => uToX t marg u i) (fun u => uToX t marg u j) = r ↔ Ro i j = ρ0) := by
  have hm := mixed_strictMono (dev_mono hi) (dev_mono hj) (dev_memLp hi) (dev_memLp hj)
  have hc := mixed_continuous (dev_mono hi).monotone.measurable (dev_mono hj).monotone.measurable (dev_memLp hi) (dev_memLp hj)
  have hp : 0 < rms mi * rms mj := mul_pos (rms_pos hi) (rms_pos hj)
  rw [lowest_eq hi hj, div_lt_iff₀ hp] at h1
  rw [highest_eq hi hj, lt_div_iff₀ hp] at h2
  obtain ⟨ρ0, hρ, he⟩ := intermediate_value_Ioo (show (-1 : ℝ) ≤ 1 by norm_num) hc ⟨h1, h2⟩
  refine ⟨ρ0, abs_lt.2 hρ, fun la hla ty => two_setting hla ty hi hj (abs_lt.2 hρ), ?_⟩
  intro n la ty Ro t marg S h i j hij hmi hmj
  rw [pearson_setting h, hmi, hmj, div_eq_iff hp.ne', ← he]
  exact hm.injOn.eq_iff (offdiag_mem h hij) ⟨hρ.1.le, hρ.2.le⟩

/-- The probability that both variables exceed given values. -/
theorem exceed_eq (h : NatafSetting la ty Ro t marg S) (i j : Fin n) {x y : ℝ} (hx : x ∈ S i) (hy : y ∈ S j) :
    (stdGauss n).real {u | x < uToX t marg u i ∧ y < uToX t marg u j} =
      mixed (above ((marg i).xToU x)) (above ((marg j).xToU y)) (Ro i j) := by
  have conv : ∀ {m : Marginal} {S : Set ℝ}, RoundTrip m S → ∀ {x : ℝ}, x ∈ S → ∀ z, x < m.uToX z ↔ m.xToU x < z := by
    intro m S hr x hx z
    have e := hr.right x hx
    conv_lhs => rw [← e]
    exact hr.mono_x.lt_iff_lt
  have hset : {u | x < uToX t marg u i ∧ y < uToX t marg u j} =
      {u | (marg i).xToU x < t.invT i ⬝ᵥ u ∧ (marg j).xToU y < t.invT j ⬝ᵥ u} := by
    ext u
    exact and_congr (conv (h.marg i).round hx _) (conv (h.marg j).round hy _)
  have hms : MeasurableSet {u | (marg i).xToU x < t.invT i ⬝ᵥ u ∧ (marg j).xToU y < t.invT j ⬝ᵥ u} :=
    (measurableSet_lt measurable_const (dot_meas _)).inter (measurableSet_lt measurable_const (dot_meas _))
  rw [hset, ← mixed_eq (above_mono _).measurable (above_mono _).measurable (by rw [h.row, h.diag]) (by rw [h.row, h.diag])
    (h.row i j), ← integral_indicator_one hms]
  refine integral_congr_ae (Filter.Eventually.of_forall fun u => ?_)
  by_cases h1 : (marg i).xToU x < t.invT i ⬝ᵥ u
  · by_cases h2 : (marg j).xToU y < t.invT j ⬝ᵥ u
    · simp [above, h1, h2, not_le.2 h1, not_le.2 h2]
    · simp [above, h1, h2, not_lt.1 h2]
  · simp [above, h1, not_lt.1 h1]

/-- C119: not only the coefficient: the probability that both variables exceed given values (of their supports) strictly
increases with the entry, and so does the probability that neither does; the probability that at least one does decreases. -/
theorem C119_joint (h : NatafSetting la ty Ro t marg S) (h' : NatafSetting la' ty' Ro' t' marg' S') {i j : Fin n} {i' j' : Fin k}
    (hij : i ≠ j) (hij' : i' ≠ j') (hi : marg i = marg' i') (hj : marg j = marg' j') {x y : ℝ} (hx : x ∈ S i) (hy : y ∈ S j)
    (hx' : x ∈ S' i') (hy' : y ∈ S' j') (hlt : Ro i j < Ro' i' j') :
    (stdGauss n).real {u | x < uToX t marg u i ∧ y < uToX t marg u j} <
      (stdGauss k).real {u | x < uToX t' marg' u i' ∧ y < uToX t' marg' u j'} ∧
    (stdGauss n).real {u | uToX t marg u i ≤ x ∧ uToX t marg u j ≤ y} <
      (stdGauss k).real {u | uToX t' marg' u i' ≤ x ∧ uToX t' marg' u j' ≤ y} ∧
    (stdGauss k).real {u | x < uToX t' marg' u i' ∨ y < uToX t' marg' u j'} <
      (stdGauss n).real {u | x < uToX t marg u i ∨ y < uToX t marg u j} := by
  have first : (stdGauss n).real {u | x < uToX t marg u i ∧ y < uToX t marg u j} <
      (stdGauss k).real {u | x < uToX t' marg' u i' ∧ y < uToX t' marg' u j'} := by
    rw [exceed_eq h i j hx hy, exceed_eq h' i' j' hx' hy', ← hi, ← hj]
    exact mixed_above _ _ (offdiag_mem h hij) (offdiag_mem h' hij') hlt
  have ms : ∀ {n : ℕ} {la : LinAlg} {ty : TransformType} {Ro : Matrix (Fin n) (Fin n) ℝ} {t : Mats n} {marg : Fin n → Marginal}
      {S : Fin n → Set ℝ}, NatafSetting la ty Ro t marg S → ∀ (i : Fin n) (x : ℝ), MeasurableSet {u | x < uToX t marg u i} := by
    intro n la ty Ro t marg S h i x
    exact measurableSet_lt measurable_const
      ((measurable_pi_apply i).comp (measurable_uToX fun i => (h.marg i).round.mono_x.monotone.measurable))
  have union : ∀ {n : ℕ} {la : LinAlg} {ty : TransformType} {Ro : Matrix (Fin n) (Fin n) ℝ} {t : Mats n} {marg : Fin n → Marginal}
      {S : Fin n → Set ℝ}, NatafSetting la ty Ro t marg S → ∀ (i j : Fin n) (x y : ℝ),
      (stdGauss n).real {u | x < uToX t marg u i ∨ y < uToX t marg u j} = (stdGauss n).real {u | x < uToX t marg u i} +
        (stdGauss n).real {u | y < uToX t marg u j} - (stdGauss n).real {u | x < uToX t marg u i ∧ y < uToX t marg u j} := by
    intro n la ty Ro t marg S h i j x y
    have := measureReal_union_add_inter (μ := stdGauss n) (s := {u | x < uToX t marg u i}) (ms h j y)
    have e1 : {u | x < uToX t marg u i ∨ y < uToX t marg u j} = {u | x < uToX t marg u i} ∪ {u | y < uToX t marg u j} := rfl
    have e2 : {u | x < uToX t marg u i ∧ y < uToX t marg u j} = {u | x < uToX t marg u i} ∩ {u | y < uToX t marg u j} := rfl
    rw [e1, e2]; linarith
  have single : ∀ {n : ℕ} {la : LinAlg} {ty : TransformType} {Ro : Matrix (Fin n) (Fin n) ℝ} {t : Mats n} {marg : Fin n → Marginal}
      {S : Fin n → Set ℝ}, NatafSetting la ty Ro t marg S → ∀ (i : Fin n) (x : ℝ),
      (stdGauss n).real {u | x < uToX t marg u i} = (gaussianReal 0 1).real {z | x < (marg i).uToX z} := by
    intro n la ty Ro t marg S h i x
    rw [← map_dot (show t.invT i ⬝ᵥ t.invT i = 1 by rw [h.row, h.diag]), map_measureReal_apply (dot_meas _)
      (measurableSet_lt measurable_const (h.marg i).round.mono_x.monotone.measurable)]
    rfl
  have third : (stdGauss k).real {u | x < uToX t' marg' u i' ∨ y < uToX t' marg' u j'} <
      (stdGauss n).real {u | x < uToX t marg u i ∨ y < uToX t marg u j} := by
    rw [union h, union h', single h i, single h j, single h' i', single h' j', ← hi, ← hj]
    linarith
  refine ⟨first, ?_, third⟩
  have compl : ∀ {n : ℕ} {la : LinAlg} {ty : TransformType} {Ro : Matrix (Fin n) (Fin n) ℝ} {t : Mats n} {marg : Fin n → Marginal}
      {S : Fin n → Set ℝ}, NatafSetting la ty Ro t marg S → ∀ (i j : Fin n) (x y : ℝ),
      (stdGauss n).real {u | uToX t marg u i ≤ x ∧ uToX t marg u j ≤ y} =
        1 - (stdGauss n).real {u | x < uToX t marg u i ∨ y < uToX t marg u j} := by
    intro n la ty Ro t marg S h i j x y
    have e : {u | uToX t marg u i ≤ x ∧ uToX t marg u j ≤ y} = {u | x < uToX t marg u i ∨ y < uToX t marg u j}ᶜ := by
      ext u; simp [not_or]
    have hm : MeasurableSet {u | x < uToX t marg u i ∨ y < uToX t marg u j} := (ms h i x).union (ms h j y)
    rw [e, probReal_compl_eq_one_sub hm]
  rw [compl h, compl h']
  linarith

end Pystra.Props
