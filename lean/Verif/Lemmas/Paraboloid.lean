import Verif.Lemmas.Mills
import Mathlib.LinearAlgebra.Matrix.DotProduct

/-! The failure probability of a paraboloid of standard normal variables. -/

namespace Pystra
open Filter Topology MeasureTheory
open ProbabilityTheory hiding cdf
open Sorm Matrix Spec StdNormal

variable {n m : ℕ}

/-- The standard normal law is invariant under rotations. -/
theorem rotate_law (Q : Matrix (Fin n) (Fin n) ℝ) (hQ : Q * Qᵀ = 1) : (stdGauss n).map (fun u => Q.mulVec u) = stdGauss n := by
  have hm : Measurable (fun u : Fin n → ℝ => Q.mulVec u) := by
    unfold Matrix.mulVec dotProduct
    fun_prop
  haveI := Measure.isProbabilityMeasure_map (μ := stdGauss n) hm.aemeasurable
  apply Measure.ext_of_charFunDual
  funext L
  set w : Fin n → ℝ := fun i => L (Pi.single i 1) with hw
  have hL : ∀ x : Fin n → ℝ, L x = ∑ i, w i * x i := by
    intro x
    conv_lhs => rw [pi_eq_sum_univ' x]
    rw [map_sum]
    refine Finset.sum_congr rfl fun i _ => ?_
    rw [map_smul, smul_eq_mul, mul_comm, hw]
  have hlin : ∀ (w : Fin n → ℝ), ∫ u, Complex.exp (((∑ i, w i * u i : ℝ) : ℂ) * Complex.I) ∂(stdGauss n) =
      Complex.exp (-(((∑ i, w i ^ 2) / 2 : ℝ) : ℂ)) := by
    intro w
    have h1 := map_linear_stdGauss w
    have hmw : Measurable (fun u : Fin n → ℝ => ∑ i, w i * u i) := by fun_prop
    have h2 : charFun ((stdGauss n).map (fun u => ∑ i, w i * u i)) 1 =
        ∫ u, Complex.exp (((∑ i, w i * u i : ℝ) : ℂ) * Complex.I) ∂(stdGauss n) := by
      rw [charFun_apply_real, integral_map hmw.aemeasurable (by fun_prop)]
      simp
    rw [← h2, h1, charFun_gaussianReal]
    rw [Real.coe_toNNReal _ (Finset.sum_nonneg fun i _ => sq_nonneg _)]
    congr 1
    push_cast
    ring
  rw [charFunDual_apply, charFunDual_apply, integral_map hm.aemeasurable (by fun_prop)]
  have e1 : ∀ u : Fin n → ℝ, L (Q.mulVec u) = ∑ i, (w ᵥ* Q) i * u i := by
    intro u
    rw [hL]
    exact dotProduct_mulVec w Q u
  have e2 : ∑ i, (w ᵥ* Q) i ^ 2 = ∑ i, w i ^ 2 := by
    have h : (w ᵥ* Q) ⬝ᵥ (w ᵥ* Q) = w ⬝ᵥ w := by
      conv_lhs => rw [← dotProduct_mulVec]
      rw [← mulVec_transpose, mulVec_mulVec, hQ, one_mulVec]
    simp only [dotProduct] at h
    simpa only [sq] using h
  simp only [e1, hL]
  rw [hlin, hlin, e2]

/-- The failure probability of a paraboloid is the mean of the normal tail at the height of its boundary. -/
theorem paraboloid_mean (β : ℝ) (κ : Fin m → ℝ) {Q : Matrix (Fin (m + 1)) (Fin (m + 1)) ℝ} (hQ : Q * Qᵀ = 1) :
    Integrable (fun z : Fin (m + 1) → ℝ => cdf (-(β + 1 / 2 * ∑ i : Fin m, κ i * z i.castSucc ^ 2))) (stdGauss (m + 1)) ∧
    ∫ z, cdf (-(β + 1 / 2 * ∑ i : Fin m, κ i * z i.castSucc ^ 2)) ∂(stdGauss (m + 1)) =
      (stdGauss (m + 1)).real
        {u | β - Q.mulVec u (Fin.last m) + 1 / 2 * ∑ i : Fin m, κ i * Q.mulVec u i.castSucc ^ 2 ≤ 0} := by
  have hG : Measurable (fun v : Fin (m + 1) → ℝ => β - v (Fin.last m) + 1 / 2 * ∑ i : Fin m, κ i * v i.castSucc ^ 2) := by
    fun_prop
  have hQm : Measurable (fun u : Fin (m + 1) → ℝ => Q.mulVec u) := by
    unfold Matrix.mulVec dotProduct
    fun_prop
  set al : Fin (m + 1) → ℝ := Pi.single (Fin.last m) 1 with hal
  have h1 : al ⬝ᵥ al = 1 := by rw [hal]; simp
  have hc : ∀ i : Fin m, al i.castSucc = 0 := fun i => by
    rw [hal, Pi.single_eq_of_ne (Fin.castSucc_lt_last i).ne]
  have hl : al (Fin.last m) = 1 := by rw [hal, Pi.single_eq_same]
  have h := line_fubini al h1 hG (C := fun v => β + 1 / 2 * ∑ i : Fin m, κ i * v i.castSucc ^ 2) (by
    intro v hv c
    have hv0 : v (Fin.last m) = 0 := by rw [hal] at hv; simpa using hv
    simp only [hc, hl, hv0, mul_zero, add_zero, mul_one, zero_add]
    constructor <;> intro h <;> linarith)
  have hp : ∀ (u : Fin (m + 1) → ℝ) (i : Fin m), LineSampling.project al u i.castSucc = u i.castSucc := by
    intro u i
    unfold LineSampling.project
    rw [hc]; ring
  simp only [hp] at h
  refine ⟨h.1, h.2.trans ?_⟩
  conv_lhs => rw [← rotate_law Q hQ]
  have hS : MeasurableSet {u : Fin (m + 1) → ℝ | β - u (Fin.last m) + 1 / 2 * ∑ i : Fin m, κ i * u i.castSucc ^ 2 ≤ 0} :=
    hG measurableSet_Iic
  rw [measureReal_def, Measure.map_apply hQm hS]
  rfl

/-- Gaussian integrals of exponentials of the first squares. -/
theorem exp_first_squares {a : Fin m → ℝ} (ha : ∀ i, 0 < 1 + a i) :
    Integrable (fun z : Fin (m + 1) → ℝ => Real.exp (-(1 / 2 * ∑ i : Fin m, a i * z i.castSucc ^ 2))) (stdGauss (m + 1)) ∧
    ∫ z : Fin (m + 1) → ℝ, Real.exp (-(1 / 2 * ∑ i : Fin m, a i * z i.castSucc ^ 2)) ∂(stdGauss (m + 1)) =
      ∏ i, 1 / √(1 + a i) := by
  have h := stdGauss_exp_sq (n := m + 1) (a := Fin.snoc a 0) (fun i => by
    refine Fin.lastCases ?_ (fun j => ?_) i
    · simp
    · simpa using ha j)
  simp only [Fin.sum_univ_castSucc, Fin.prod_univ_castSucc, Fin.snoc_castSucc, Fin.snoc_last, zero_mul, add_zero, Real.sqrt_one,
    div_one, mul_one] at h
  exact h

/-- The modified formula of Breitung is an upper bound. -/
theorem paraboloid_le (β : ℝ) (κ : Fin m → ℝ) {Q : Matrix (Fin (m + 1)) (Fin (m + 1)) ℝ} (hQ : Q * Qᵀ = 1)
    (hk : ∀ i, 0 < 1 + psi β * κ i) :
    (stdGauss (m + 1)).real
        {u | β - Q.mulVec u (Fin.last m) + 1 / 2 * ∑ i : Fin m, κ i * Q.mulVec u i.castSucc ^ 2 ≤ 0} ≤
      cdf (-β) * ∏ i, 1 / √(1 + psi β * κ i) := by
  obtain ⟨hi, he⟩ := paraboloid_mean β κ hQ
  obtain ⟨gi, ge⟩ := exp_first_squares (a := fun i => psi β * κ i) hk
  rw [← he, ← ge, ← integral_const_mul]
  refine integral_mono hi (gi.const_mul _) fun z => ?_
  refine (cdf_neg_le β _).trans (le_of_eq ?_)
  congr 2
  rw [add_sub_cancel_left, neg_mul]
  congr 1
  rw [Finset.mul_sum, Finset.mul_sum, Finset.mul_sum]
  exact Finset.sum_congr rfl fun i _ => by ring

/-- If the failure set contains the half space, its probability is at least that of the half space. -/
theorem le_paraboloid (β : ℝ) (κ : Fin m → ℝ) {Q : Matrix (Fin (m + 1)) (Fin (m + 1)) ℝ} (hQ : Q * Qᵀ = 1) (hk : ∀ i, κ i ≤ 0) :
    cdf (-β) ≤ (stdGauss (m + 1)).real
        {u | β - Q.mulVec u (Fin.last m) + 1 / 2 * ∑ i : Fin m, κ i * Q.mulVec u i.castSucc ^ 2 ≤ 0} := by
  obtain ⟨hi, he⟩ := paraboloid_mean β κ hQ
  rw [← he]
  have : cdf (-β) = ∫ _ : Fin (m + 1) → ℝ, cdf (-β) ∂(stdGauss (m + 1)) := by
    rw [integral_const, measureReal_def, show (stdGauss (m + 1)) Set.univ = 1 from by unfold stdGauss; exact measure_univ]
    simp
  rw [this]
  haveI : IsProbabilityMeasure (stdGauss (m + 1)) := by unfold stdGauss; infer_instance
  refine integral_mono (integrable_const _) hi fun z => ?_
  refine StdNormal.strictMono_cdf.monotone ?_
  have : ∑ i : Fin m, κ i * z i.castSucc ^ 2 ≤ 0 :=
    Finset.sum_nonpos fun i _ => mul_nonpos_of_nonpos_of_nonneg (hk i) (sq_nonneg _)
  linarith

/-- Breitung's limit: curvatures `kᵢ / β`, `β → ∞`. -/
theorem paraboloid_limit (k : Fin m → ℝ) (hk : ∀ i, -1 < k i) :
    Tendsto (fun β : ℝ => (∫ z : Fin (m + 1) → ℝ, cdf (-(β + 1 / 2 * ∑ i : Fin m, k i / β * z i.castSucc ^ 2))
      ∂(stdGauss (m + 1))) / cdf (-β)) atTop (𝓝 (∏ i, 1 / √(1 + k i))) := by
  obtain ⟨ρ, hρk, hρ1⟩ : ∃ ρ : ℝ, (∀ i, -1 < ρ * k i) ∧ 1 < ρ := by
    have h1 : ∀ᶠ ρ : ℝ in 𝓝 1, ∀ i, -1 < ρ * k i := by
      rw [eventually_all]
      intro i
      have : Tendsto (fun ρ : ℝ => ρ * k i) (𝓝 1) (𝓝 (1 * k i)) := (tendsto_id).mul_const _
      rw [one_mul] at this
      exact this.eventually_const_lt (hk i)
    have h2 : ∀ᶠ ρ : ℝ in 𝓝[>] 1, (∀ i, -1 < ρ * k i) ∧ 1 < ρ :=
      (h1.filter_mono nhdsWithin_le_nhds).and self_mem_nhdsWithin
    exact h2.exists
  set a : (Fin (m + 1) → ℝ) → ℝ := fun z => 1 / 2 * ∑ i : Fin m, k i * z i.castSucc ^ 2 with ha
  have hheight : ∀ (β : ℝ) (z : Fin (m + 1) → ℝ), 1 / 2 * ∑ i : Fin m, k i / β * z i.castSucc ^ 2 = a z / β := by
    intro β z
    simp only [ha]
    rw [Finset.mul_sum, Finset.mul_sum, Finset.sum_div]
    exact Finset.sum_congr rfl fun i _ => by ring
  simp only [hheight, ← integral_div]
  have hlim := (exp_first_squares (a := k) (fun i => by linarith [hk i])).2
  rw [← hlim]
  set b : (Fin (m + 1) → ℝ) → ℝ := fun z => Real.exp (-(1 / 2 * ∑ i : Fin m, min 0 (ρ * k i) * z i.castSucc ^ 2)) with hb
  refine tendsto_integral_filter_of_dominated_convergence b ?_ ?_ ?_ ?_
  · refine Eventually.of_forall fun β => Measurable.aestronglyMeasurable ?_
    refine Measurable.div_const ?_ _
    exact StdNormal.strictMono_cdf.monotone.measurable.comp (by fun_prop)
  · filter_upwards [eventually_gt_atTop 0, psi_div_tendsto.eventually_lt_const hρ1] with β hβ hr
    refine Eventually.of_forall fun z => ?_
    rw [Real.norm_eq_abs, abs_of_pos (div_pos (cdf_pos _) (cdf_pos _)), div_le_iff₀ (cdf_pos _), mul_comm]
    refine (cdf_neg_le β _).trans ?_
    refine mul_le_mul_of_nonneg_left (Real.exp_le_exp.2 ?_) (cdf_pos _).le
    have e : -psi β * (β + a z / β - β) = -(1 / 2 * ∑ i : Fin m, psi β / β * k i * z i.castSucc ^ 2) := by
      simp only [ha]
      rw [add_sub_cancel_left, neg_mul, mul_div_assoc', mul_div_right_comm, ← mul_assoc, mul_comm _ (1 / 2 : ℝ), mul_assoc,
        Finset.mul_sum]
      congr 2
      exact Finset.sum_congr rfl fun i _ => by ring
    rw [e]
    refine neg_le_neg (mul_le_mul_of_nonneg_left (Finset.sum_le_sum fun i _ => ?_) (by norm_num))
    refine mul_le_mul_of_nonneg_right ?_ (sq_nonneg _)
    have hpos : 0 < psi β / β := div_pos (psi_pos' _) hβ
    rcases le_or_gt 0 (k i) with h | h
    · exact (min_le_left _ _).trans (mul_nonneg hpos.le h)
    · exact (min_le_right _ _).trans (mul_le_mul_of_nonpos_right hr.le h.le)
  · refine (exp_first_squares (a := fun i => min 0 (ρ * k i)) fun i => ?_).1
    have : -1 < min 0 (ρ * k i) := lt_min (by norm_num) (hρk i)
    linarith
  · refine Eventually.of_forall fun z => ?_
    have hup : Tendsto (fun β : ℝ => Real.exp (-(psi β / β * a z))) atTop (𝓝 (Real.exp (-(1 * a z)))) :=
      (Real.continuous_exp.tendsto _).comp ((psi_div_tendsto.mul_const _).neg)
    have hy : Tendsto (fun β : ℝ => β + a z / β) atTop atTop := by
      have h0 : Tendsto (fun β : ℝ => a z / β) atTop (𝓝 0) := tendsto_const_nhds.div_atTop tendsto_id
      exact tendsto_id.atTop_add h0
    have hyr : Tendsto (fun β : ℝ => (β + a z / β) / β) atTop (𝓝 1) := by
      have h0 : Tendsto (fun β : ℝ => a z / β / β) atTop (𝓝 0) :=
        (tendsto_const_nhds.div_atTop tendsto_id).div_atTop tendsto_id
      have h1 : Tendsto (fun β : ℝ => 1 + a z / β / β) atTop (𝓝 (1 + 0)) := tendsto_const_nhds.add h0
      rw [add_zero] at h1
      refine h1.congr' ?_
      filter_upwards [eventually_gt_atTop 0] with β hβ
      field_simp
    have hlo0 : Tendsto (fun β : ℝ => psi (β + a z / β) / β) atTop (𝓝 (1 * 1)) := by
      refine ((psi_div_tendsto.comp hy).mul hyr).congr' ?_
      filter_upwards [hy.eventually_gt_atTop 0, eventually_gt_atTop 0] with β h1 h2
      simp only [Function.comp_apply]
      exact div_mul_div_cancel₀ h1.ne'
    have hlo : Tendsto (fun β : ℝ => Real.exp (-(psi (β + a z / β) / β * a z))) atTop (𝓝 (Real.exp (-(1 * 1 * a z)))) :=
      (Real.continuous_exp.tendsto _).comp ((hlo0.mul_const _).neg)
    simp only [one_mul] at hup hlo
    refine tendsto_of_tendsto_of_tendsto_of_le_of_le hlo hup (fun β => ?_) (fun β => ?_)
    · show _ ≤ cdf (-(β + a z / β)) / cdf (-β)
      rw [le_div_iff₀ (cdf_pos _), mul_comm]
      have h := le_cdf_neg β (β + a z / β)
      rw [add_sub_cancel_left] at h
      have e : ∀ p : ℝ, -(p / β * a z) = -p * (a z / β) := fun p => by ring
      rw [e]
      exact h
    · show cdf (-(β + a z / β)) / cdf (-β) ≤ _
      rw [div_le_iff₀ (cdf_pos _), mul_comm]
      have h := cdf_neg_le β (β + a z / β)
      rw [add_sub_cancel_left] at h
      have e : ∀ p : ℝ, -(p / β * a z) = -p * (a z / β) := fun p => by ring
      rw [e]
      exact h

end Pystra
