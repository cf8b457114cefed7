import Verif.Props.Convergence
import Mathlib.Probability.CentralLimitTheorem
import Mathlib.MeasureTheory.Measure.Portmanteau
import Mathlib.Probability.Independence.InfinitePi

/-! The limit law of an estimated mean divided by its estimated error. -/

namespace Pystra.Props
open MeasureTheory ProbabilityTheory Spec MonteCarlo Filter Topology

theorem prefix_law (ρ : Measure ℝ) [IsProbabilityMeasure ρ] (N : ℕ) :
    (Measure.infinitePi fun _ : ℕ => ρ).map (fun ω (j : Fin N) => ω j) = Measure.pi fun _ : Fin N => ρ := iid_map ρ Fin.val_injective

theorem measurable_cvOfMean (N : ℕ) {Ω : Type*} [MeasurableSpace Ω] {S Q : Ω → ℝ} (hS : Measurable S) (hQ : Measurable Q) :
    Measurable fun ω => cvOfMean N (S ω) (Q ω) := by
  classical
  unfold cvOfMean
  dsimp only
  refine Measurable.ite (measurableSet_lt measurable_const hS) ?_ measurable_const
  refine Measurable.ite ?_ measurable_const (by fun_prop)
  exact measurableSet_eq_fun (by fun_prop) measurable_const

/-- The mean of `N` independent numbers with the law `ρ`, centred at the expectation `μ` and measured in units of its estimated error, is
asymptotically standard normal. -/
theorem student_limit {ρ : Measure ℝ} [IsProbabilityMeasure ρ] (h2 : MemLp (fun x : ℝ => x) 2 ρ) (hm : 0 < ∫ x, x ∂ρ)
    (hv : 0 < ∫ x, x ^ 2 ∂ρ - (∫ x, x ∂ρ) ^ 2) (z : ℝ) (E : Set ℝ) (hE : E = Set.Iic 0 ∨ E = Set.Iio 0) :
    Tendsto (fun N : ℕ => (Measure.pi fun _ : Fin N => ρ).real {y | (∑ j, y j) / N - (∫ x, x ∂ρ) -
      z * (cvOfMean N (∑ j, y j) (∑ j, y j ^ 2) * ((∑ j, y j) / N)) ∈ E}) atTop (𝓝 (StdNormal.cdf z)) := by
  obtain ⟨m, hmdef⟩ : ∃ m, m = ∫ x, x ∂ρ := ⟨_, rfl⟩
  obtain ⟨V, hVdef⟩ : ∃ V, V = ∫ x, x ^ 2 ∂ρ - m ^ 2 := ⟨_, rfl⟩
  rw [← hmdef] at hm hv ⊢
  rw [← hVdef] at hv
  let P : Measure (ℕ → ℝ) := Measure.infinitePi fun _ : ℕ => ρ
  have hind : iIndepFun (fun (k : ℕ) (ω : ℕ → ℝ) => ω k) P :=
    iIndepFun_infinitePi (P := fun _ : ℕ => ρ) (X := fun _ x => x) (fun _ => measurable_id)
  have hlaw : ∀ k, P.map (fun ω : ℕ → ℝ => ω k) = ρ := fun k => (measurePreserving_eval_infinitePi (fun _ : ℕ => ρ) k).map_eq
  have hid : ∀ k, IdentDistrib (fun ω : ℕ → ℝ => ω k) (fun ω => ω 0) P P := fun k =>
    ⟨(measurable_pi_apply k).aemeasurable, (measurable_pi_apply 0).aemeasurable, by rw [hlaw, hlaw]⟩
  have hmem : MemLp (fun ω : ℕ → ℝ => ω 0) 2 P := by
    rw [← hlaw 0] at h2
    exact h2.comp_of_map (measurable_pi_apply 0).aemeasurable
  have hmean : ∫ ω, ω 0 ∂P = m := by
    rw [hmdef, ← hlaw 0, integral_map (measurable_pi_apply 0).aemeasurable (by fun_prop)]
  have hsq : ∫ ω, ω 0 ^ 2 ∂P = V + m ^ 2 := by
    rw [hVdef, sub_add_cancel, ← hlaw 0, integral_map (measurable_pi_apply 0).aemeasurable (by fun_prop)]
  have hvar : Var[fun ω : ℕ → ℝ => ω 0; P] = V := by
    rw [variance_eq_sub hmem, hmean]
    have : ∫ ω, ((fun ω : ℕ → ℝ => ω 0) ^ 2) ω ∂P = V + m ^ 2 := hsq
    rw [this]; ring
  have hsum := strong_law_ae_real (μ := P) (fun k ω => ω k) (hmem.integrable (by norm_num)) (fun i j hij => hind.indepFun hij) hid
  have hsums := strong_law_ae_real (μ := P) (fun k ω => ω k ^ 2) hmem.integrable_sq
    (fun i j hij => (hind.indepFun hij).comp (measurable_id.pow_const 2) (measurable_id.pow_const 2)) (fun k => (hid k).pow (n := 2))
  -- the estimated error
  let D : ℕ → (ℕ → ℝ) → ℝ := fun N ω => √N * (cvOfMean N (∑ j ∈ Finset.range N, ω j) (∑ j ∈ Finset.range N, ω j ^ 2) *
    ((∑ j ∈ Finset.range N, ω j) / N))
  have hDm : ∀ N, Measurable (D N) := by
    intro N
    have a : Measurable fun ω : ℕ → ℝ => ∑ j ∈ Finset.range N, ω j := by fun_prop
    have b : Measurable fun ω : ℕ → ℝ => ∑ j ∈ Finset.range N, ω j ^ 2 := by fun_prop
    exact ((measurable_cvOfMean N a b).mul (a.div_const _)).const_mul _
  have hD : ∀ᵐ ω ∂P, Tendsto (fun N => D N ω) atTop (𝓝 √V) := by
    filter_upwards [hsum, hsums] with ω a b
    rw [hmean] at a
    rw [hsq] at b
    have := (cv_tendsto hm (show 0 < V + m ^ 2 - m ^ 2 by linarith) a b).mul a
    rw [add_sub_cancel_right, div_mul_cancel₀ _ hm.ne'] at this
    refine this.congr fun N => ?_
    simp only [D]; ring
  have hDmeas : TendstoInMeasure P (fun N ω => -z * D N ω) atTop fun _ => -z * √V :=
    tendstoInMeasure_of_tendsto_ae (fun N => ((hDm N).const_mul _).aestronglyMeasurable)
      (hD.mono fun ω h => h.const_mul _)
  -- the central limit theorem
  have hclt := tendstoInDistribution_inv_sqrt_mul_sum_sub (P := P) (P' := gaussianReal 0 V.toNNReal) (Y := id) (X := fun k ω => ω k)
    (by rw [hvar]; exact HasLaw.id) hmem hind hid
  have hboth := hclt.add_of_tendstoInMeasure_const hDmeas fun N => ((hDm N).const_mul _).aemeasurable
  have hlim := hboth.tendsto
  have hG : (gaussianReal 0 V.toNNReal).map (fun x => id x + -z * √V) = gaussianReal (-z * √V) V.toNNReal := by
    have := gaussianReal_map_add_const (μ := 0) (v := V.toNNReal) (-z * √V)
    rw [zero_add] at this
    exact this
  have hstd : gaussianReal (-z * √V) V.toNNReal = (gaussianReal 0 1).map fun x => √V * x + -z * √V := by
    have h1 : (gaussianReal 0 1).map (fun x => √V * x) = gaussianReal 0 V.toNNReal := by
      have := gaussianReal_map_const_mul (μ := 0) (v := 1) (√V)
      rw [mul_zero, mul_one] at this
      refine this.trans ?_
      congr 1
      ext; simp [Real.sq_sqrt hv.le, hv.le]
    have h3 := gaussianReal_map_add_const (μ := 0) (v := V.toNNReal) (-z * √V)
    rw [← h1, Measure.map_map (by fun_prop) (by fun_prop), zero_add] at h3
    rw [← h3]; rfl
  have hval : ∀ F : Set ℝ, F = Set.Iic 0 ∨ F = Set.Iio 0 → (gaussianReal (-z * √V) V.toNNReal).real F = StdNormal.cdf z := by
    have hpos := Real.sqrt_pos.2 hv
    have hIic : (gaussianReal (-z * √V) V.toNNReal).real (Set.Iic 0) = StdNormal.cdf z := by
      rw [hstd, map_measureReal_apply (by fun_prop) measurableSet_Iic, C11_measure, cdf_eq_real]
      congr 1
      ext x
      simp only [Set.mem_preimage, Set.mem_Iic]
      constructor
      · intro h; by_contra hn; nlinarith [not_le.1 hn]
      · intro h; nlinarith
    have hno : NullSingletonClass (gaussianReal (-z * √V) V.toNNReal) := noAtoms_gaussianReal (by simp [hv])
    rintro F (rfl | rfl)
    · exact hIic
    · rw [← hIic]; exact measureReal_congr Iio_ae_eq_Iic
  have hfr : (gaussianReal (-z * √V) V.toNNReal) (frontier E) = 0 := by
    have hno : NullSingletonClass (gaussianReal (-z * √V) V.toNNReal) := noAtoms_gaussianReal (by simp [hv])
    have : frontier E = {0} := by
      rcases hE with rfl | rfl
      · exact frontier_Iic
      · exact frontier_Iio
    rw [this]; exact measure_singleton _
  have hport := ProbabilityMeasure.tendsto_measure_of_null_frontier_of_tendsto' hlim (E := E) (by
    show ((gaussianReal 0 V.toNNReal).map fun x => id x + -z * √V) (frontier E) = 0
    rw [hG]; exact hfr)
  have hport' : Tendsto (fun N : ℕ => (P.map ((fun ω : ℕ → ℝ => (√(N:ℝ))⁻¹ * (∑ k ∈ Finset.range N, ω k - N * ∫ x, x 0 ∂P)) +
      fun ω => -z * D N ω)) E) atTop (𝓝 (((gaussianReal 0 V.toNNReal).map fun x => id x + -z * √V) E)) := hport
  have hreal := (ENNReal.tendsto_toReal (by rw [hG]; exact measure_ne_top _ _)).comp hport'
  have hEm : MeasurableSet E := by
    rcases hE with rfl | rfl
    · exact measurableSet_Iic
    · exact measurableSet_Iio
  have hend : (((gaussianReal 0 V.toNNReal).map fun x => id x + -z * √V) E).toReal = StdNormal.cdf z := by
    rw [hG]; exact hval E hE
  rw [← hend]
  refine hreal.congr' ?_
  filter_upwards [eventually_ge_atTop 1] with N hN
  have hN0 : (0:ℝ) < N := by exact_mod_cast hN
  have hsN := Real.sqrt_pos.2 hN0
  show ((P.map _) E).toReal = _
  rw [← prefix_law ρ N]
  have hset : MeasurableSet {y : Fin N → ℝ | (∑ j, y j) / N - m - z * (cvOfMean N (∑ j, y j) (∑ j, y j ^ 2) * ((∑ j, y j) / N)) ∈ E} := by
    have a : Measurable fun y : Fin N → ℝ => ∑ j, y j := by fun_prop
    have b : Measurable fun y : Fin N → ℝ => ∑ j, y j ^ 2 := by fun_prop
    exact (((a.div_const _).sub_const _).sub (((measurable_cvOfMean N a b).mul (a.div_const _)).const_mul _)) hEm
  rw [map_measureReal_apply (by fun_prop) hset, measureReal_def]
  rw [Measure.map_apply_of_aemeasurable (hboth.forall_aemeasurable N) hEm]
  congr 2
  ext ω
  simp only [Set.mem_preimage, Set.mem_setOf_eq, Pi.add_apply, hmean]
  rw [Fin.sum_univ_eq_sum_range (fun j => ω j), Fin.sum_univ_eq_sum_range (fun j => ω j ^ 2)]
  have key : (√(N:ℝ))⁻¹ * (∑ k ∈ Finset.range N, ω k - N * m) + -z * D N ω = √N * ((∑ j ∈ Finset.range N, ω j) / N - m -
      z * (cvOfMean N (∑ j ∈ Finset.range N, ω j) (∑ j ∈ Finset.range N, ω j ^ 2) * ((∑ j ∈ Finset.range N, ω j) / N))) := by
    have e : (√(N:ℝ))⁻¹ * (∑ k ∈ Finset.range N, ω k - N * m) = √N * ((∑ j ∈ Finset.range N, ω j) / N - m) := by
      have h : (N:ℝ) = √N * √N := (Real.mul_self_sqrt hN0.le).symm
      rw [inv_mul_eq_div, div_eq_iff hsN.ne']
      have : √(N:ℝ) * ((∑ j ∈ Finset.range N, ω j) / N - m) * √N = (√N * √N) * ((∑ j ∈ Finset.range N, ω j) / N - m) := by ring
      rw [this, ← h, mul_sub, mul_div_cancel₀ _ hN0.ne']
    rw [e]; simp only [D]; ring
  rw [key]
  rcases hE with rfl | rfl
  · simp only [Set.mem_Iic]
    exact ⟨fun h => by by_contra hn; nlinarith [mul_pos hsN (not_le.1 hn)], fun h => mul_nonpos_of_nonneg_of_nonpos hsN.le h⟩
  · simp only [Set.mem_Iio]
    exact ⟨fun h => by by_contra hn; nlinarith [mul_nonneg hsN.le (not_lt.1 hn)], fun h => mul_neg_of_pos_of_neg hsN h⟩

end Pystra.Props
