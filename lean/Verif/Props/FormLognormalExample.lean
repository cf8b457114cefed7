import Verif.Props.FormLognormal
import Verif.Props.OrderExample
import Verif.Props.OrderModel

/-! Example for C118: two lognormal factors with mean 2 and standard deviation 1, any positive definite correlation of their logarithms,
`g = x·y - c` with the constant `c = 3`; finite differences and the step size of the user. -/

namespace Pystra.Props
open Matrix Spec Transformation Form MeasureTheory Set StochModel LimitState

/-- `lambda x, y, c: x*y - c`, vectorised. -/
noncomputable def powerG : Kwargs → GRet := vectorise fun a => (a "x").getD 0 * (a "y").getD 0 - (a "c").getD 0

theorem powerG_point : ∀ x : Fin 2 → ℝ, (fun d : Dict String ℝ => (d.get? "x").getD 0 * (d.get? "y").getD 0 - (d.get? "c").getD 0)
    (pointArgs sampleModel x) = 1 * ∏ i ∈ (Finset.univ : Finset (Fin 2)), x i - 3 * ∏ i ∈ (∅ : Finset (Fin 2)), x i := by
  intro x
  simp [pointArgs, getVariables, getConstants, sample_vars.1, sample_vars.2.1, Dict.keys, Dict.get?, Fin.prod_univ_two]

/-- For all large iteration limits the run ends before the limit, and the hypotheses of the theorems hold. -/
example {la : LinAlg} (hla : LinAlgOK la) {R : Matrix (Fin 2) (Fin 2) ℝ} (hR : R.PosDef) : ∃ (t : Mats 2) (marg : Fin 2 → Marginal) (N : ℕ),
    Transformation.compute la .cholesky R = .ok t ∧ ∀ iMax, N < iMax → ∃ r ev',
      runFrom t marg (lsEvaluator powerG ⟨"ffd", 1, 1000, 1000⟩ fun i => (marg i).stdv) ⟨iMax, 0.001, 0.001, 1, 1⟩ iMax ⟨sampleModel, []⟩ =
        some (.done r ev') ∧ r.i ≠ iMax ∧
      |r.beta - logIndex 1 (factorsOf Finset.univ) 3 (factorsOf ∅) (fun _ => 2) (fun _ => 1) R| ≤
        0.001 + 0.0007 / productDev (fun i => factorsOf Finset.univ i - factorsOf ∅ i) (fun _ : Fin 2 => 2) (fun _ => 1) R := by
  obtain ⟨t, ht, -⟩ := C22_posdef hla .cholesky hR
  obtain ⟨m, hm, -, -, hsp, -⟩ := (good_lognormal (μ := 2) (σ := 1) (by norm_num) (by norm_num) none).ex
  have hm' : ∀ i : Fin 2, Lognormal.new ((fun _ => 2 : Fin 2 → ℝ) i) ((fun _ => 1 : Fin 2 → ℝ) i) false ((fun _ => none) i) = .ok ((fun _ => m) i) :=
    fun _ => hm
  obtain ⟨lo, hlo⟩ : ∃ lo : LSOptions, lo = ⟨"ffd", 1, 1000, 1000⟩ := ⟨_, rfl⟩
  obtain ⟨hex, hf, hq⟩ := factors_exact (sp := fun _ => none) (marg := fun _ => m) (pointwise_of_byName (vectorise_byName fun a => (a "x").getD 0 * (a "y").getD 0 - (a "c").getD 0)) lo (by rw [hlo]; norm_num)
    (by rw [hlo]; norm_num) (by rw [hlo]; norm_num) (by rw [hlo]; decide) (by rw [hlo]; decide) (fun _ => by norm_num) (fun _ => by norm_num) hm'
    sampleModel sample_reachable (by rw [sample_vars.2.2.1]) (by rw [sample_vars.2.2.2]; simp) powerG_point
  have hne : (Finset.univ : Finset (Fin 2)) ≠ ∅ := by decide
  have h0 : factorsOf (∅ : Finset (Fin 2)) = 0 := by funext i; simp [factorsOf]
  obtain ⟨us, hz, -, hconv⟩ := C118_global hla hR ht (fun _ => by norm_num) (fun _ => by norm_num) hm' (by norm_num : (0 : ℝ) < 1)
    (by norm_num : (0 : ℝ) < 3) (factorsOf_ne hne) (Or.inr h0) (fun x _ => hq x) (fun x _ => hf x) hex
  obtain ⟨ρ, C, hρ, hρ1, hC, hcf⟩ := hconv fun _ => 2
  obtain ⟨D, hD⟩ : ∃ D, D = len (fun i => xToU t (fun _ => m) (fun _ => 2) i - us i) := ⟨_, rfl⟩
  have hD0 : 0 ≤ D := hD ▸ Real.sqrt_nonneg _
  obtain ⟨k, hk⟩ := exists_pow_lt_of_lt_one (show (0 : ℝ) < 0.001 / (C * (D + 1)) by positivity) hρ1
  have hkD : C * (ρ ^ k * D + 0) < 0.001 := by
    rw [lt_div_iff₀ (by positivity)] at hk
    have : C * (ρ ^ k * D) ≤ ρ ^ k * (C * (D + 1)) := by
      have : 0 ≤ ρ ^ k * C := by positivity
      nlinarith
    linarith
  have hrt := (lognormal_fields (by norm_num) (by norm_num) hm).2.2.1
  have hstart : (fun _ : Fin 2 => { m with startpoint := (2 : ℝ) }) = fun _ => m := by
    funext i; rw [Option.getD_none] at hsp; rw [← hsp]
  have hx0 : uToX t (fun _ => m) (xToU t (fun _ => m) fun _ => 2) = fun _ => 2 :=
    (C21_round_trip ht (fun _ => m) (fun _ => Ioi 0) fun _ => hrt).2.2 _ fun _ => by norm_num
  refine ⟨t, fun _ => m, k + 1, ht, fun iMax hiM => ?_⟩
  obtain ⟨opt, hopt⟩ : ∃ opt : Form.Options, opt = ⟨iMax, 0.001, 0.001, 1, 1⟩ := ⟨_, rfl⟩
  have hms : minStep opt = 1 := by rw [hopt]; simp [minStep]
  obtain ⟨r, ev', hrun, hri, -, -, hN⟩ := hcf opt (Or.inl (by rw [hopt]; norm_num)) (by rw [hopt]; dsimp only; omega) iMax (by rw [hopt])
    ⟨sampleModel, []⟩ ⟨0, rfl⟩
  rw [hstart] at hrun
  have hpv : ∀ x : Fin 2 → ℝ, product 1 (factorsOf Finset.univ) x - product 3 (factorsOf ∅) x = x 0 * x 1 - 3 := fun x => by
    rw [product_factors, product_factors]; simp [Fin.prod_univ_two]
  simp only [hx0, hq, hpv, hms, ← hD] at hN
  have hle : r.i ≤ k + 1 := by
    refine hN (by norm_num) (k + 1) (by omega) ?_ ?_
    · rw [hopt]
      norm_num
      norm_num at hkD
      exact hkD
    · rw [hopt]
      norm_num
      norm_num at hkD
      exact hkD
  have hi : r.i ≠ opt.iMax := by rw [hopt]; dsimp only; omega
  refine ⟨r, ev', by rw [← hlo, ← hopt]; exact hrun, by rw [hopt] at hi; exact hi, ?_⟩
  obtain ⟨-, -, -, -, -, -, -, -, hc⟩ := C29_identities hrun
  have hG1 := (hc hi).1
  have hGo : r.Go = 1 := by
    rw [run_Go hex ⟨0, rfl⟩ hrun]
    have e : startingPoint t (fun _ : Fin 2 => m) = xToU t (fun _ => m) fun _ => 2 := by
      unfold startingPoint xToU; simp only [hsp, Option.getD_none]
    rw [e, hx0]
    beta_reduce
    rw [hq, hpv]; norm_num
  obtain ⟨-, hG, -⟩ := result_exact ht (fun _ => hrt) (fun _ => isOpen_Ioi) (fun _ => (lognormal_fields (by norm_num) (by norm_num) hm).2.2.2)
    (fun x _ => hf x) hex (by
      rintro s xs s' Gs ⟨k, hk⟩ hv
      exact ⟨_, by rw [values_calls hv, hk, addCall_addCall]⟩) ⟨0, rfl⟩ hrun
  beta_reduce at hG
  obtain ⟨hxu, -⟩ := C29_identities hrun
  rw [← hxu, hq, hpv] at hG
  rw [hGo, hG, abs_one, hopt] at hG1
  norm_num [abs_lt] at hG1
  obtain ⟨p, hp⟩ : ∃ p, p = r.point.x 0 * r.point.x 1 := ⟨_, rfl⟩
  rw [← hp] at hG1
  have hprod : (1 : ℝ) * ∏ i ∈ (Finset.univ : Finset (Fin 2)), r.point.x i = p := by simp [Fin.prod_univ_two, hp]
  have key := (C118_ffd hla hR ht (fun _ => by norm_num) (fun _ => by norm_num) hm' (by norm_num : (0 : ℝ) < 1)
    (by norm_num : (0 : ℝ) < 3) hne
    (pointwise_of_byName (vectorise_byName fun a => (a "x").getD 0 * (a "y").getD 0 - (a "c").getD 0)) lo (by rw [hlo]; norm_num)
    (by rw [hlo]; norm_num) (by rw [hlo]; norm_num) (by rw [hlo]; decide) (by rw [hlo]; decide) ⟨sampleModel, []⟩ sample_reachable
    (by rw [sample_vars.2.2.1]) (by rw [sample_vars.2.2.2]; simp) powerG_point hrun hi (by rw [hopt]; norm_num)
    (by rw [hGo, hprod, abs_one, hopt]; norm_num; linarith [hG1.1])).1
  refine key.trans ?_
  have hz0 : productDev (factorsOf (∅ : Finset (Fin 2))) (fun _ => (2 : ℝ)) (fun _ => 1) R = 0 := by rw [h0]; simp [productDev]
  rw [hprod, hGo, abs_one, hopt, hz0]
  dsimp only
  refine add_le_add le_rfl (div_le_div_of_nonneg_right ?_ (Real.sqrt_nonneg _))
  have hp2 : (2 : ℝ) < p := by linarith [hG1.1]
  have : (0.001 : ℝ) * 1 / p ≤ 0.00035 := by
    rw [div_le_iff₀ (by linarith)]; norm_num; linarith [hG1.1]
  linarith

/-- The hypotheses of `C118_converges`: resistance `X₀` against the product of two effects, `g = x₀ - 2 x₁ x₂`. -/
example {la : LinAlg} (hla : LinAlgOK la) {R : Matrix (Fin 3) (Fin 3) ℝ} (hR : R.PosDef) : ∃ (t : Mats 3) (marg : Fin 3 → Marginal)
    (us : Fin 3 → ℝ) (δ ρ C : ℝ), Transformation.compute la .svd R = .ok t ∧ 0 < δ ∧ ρ < 1 ∧
    ∀ x0 : Fin 3 → ℝ, len (fun i => xToU t marg x0 i - us i) ≤ δ →
      ConvergesFrom t marg (⟨fun _ x => ((), .ok (x 0 - 2 * (x 1 * x 2), ![1, -(2 * x 2), -(2 * x 1)], x)), fun _ _ => ((), .ok [])⟩ :
        Evaluator Unit 3) (fun _ => True) (fun x => x 0 - 2 * (x 1 * x 2)) us
        (logIndex 1 ![1, 0, 0] 2 ![0, 1, 1] ![10, 1, 2] (fun _ => 1) R) x0 ρ C 0 := by
  obtain ⟨t, ht, -⟩ := C22_posdef hla .svd hR
  have hμ : ∀ i : Fin 3, 0 < (![10, 1, 2] : Fin 3 → ℝ) i := by intro i; fin_cases i <;> norm_num
  have hm : ∀ i : Fin 3, ∃ m, Lognormal.new ((![10, 1, 2] : Fin 3 → ℝ) i) 1 false none = .ok m := fun i => by
    obtain ⟨m, h, -⟩ := (good_lognormal (hμ i) one_pos none).ex
    exact ⟨m, h⟩
  choose marg hmarg using hm
  obtain ⟨us, δ, ρ, C, -, -, h1, -, h2, -, h3⟩ := C118_converges hla hR ht (μ := ![10, 1, 2]) (sd := fun _ => 1) (sp := fun _ => none) hμ
    (fun _ => one_pos) hmarg (cR := 1) (cS := 2) one_pos two_pos (a := ![1, 0, 0]) (b := ![0, 1, 1])
    (fun h => by simpa using congrFun h 0) (f := fun x => x 0 - 2 * (x 1 * x 2))
    (fun x hx => by simp [product, Fin.prod_univ_three]) (grad := fun x => ![1, -(2 * x 2), -(2 * x 1)])
    (fun x _ => by
      have h0 := (ContinuousLinearMap.proj (R := ℝ) (φ := fun _ : Fin 3 => ℝ) 0).hasFDerivAt (x := x)
      have h1 := (ContinuousLinearMap.proj (R := ℝ) (φ := fun _ : Fin 3 => ℝ) 1).hasFDerivAt (x := x)
      have h2 := (ContinuousLinearMap.proj (R := ℝ) (φ := fun _ : Fin 3 => ℝ) 2).hasFDerivAt (x := x)
      have h := h0.sub ((h1.mul h2).const_mul 2)
      refine h.congr_fderiv ?_
      ext v
      simp [gradMap, Fin.sum_univ_three]
      ring)
    (ev := (⟨fun _ x => ((), .ok (x 0 - 2 * (x 1 * x 2), ![1, -(2 * x 2), -(2 * x 1)], x)), fun _ _ => ((), .ok [])⟩ : Evaluator Unit 3))
    (P := fun _ => True) (fun _ _ x => ⟨(), x, rfl, trivial⟩)
  exact ⟨t, marg, us, δ, ρ, C, ht, h1, h2, h3⟩

end Pystra.Props
