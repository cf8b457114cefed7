import Verif.Props.Sensitivity
import Verif.Props.FormLinear
import Mathlib.Analysis.Calculus.Deriv.Inv
import Mathlib.Analysis.SpecialFunctions.Sqrt

/-! C50: independent variables, and normal variables with an affine limit state. -/

namespace Pystra.Props
open Spec Sensitivity Transformation Matrix Filter Topology CholeskySens Form

variable {n : ℕ}

theorem cholesky_one {L : Matrix (Fin n) (Fin n) ℝ} (h : IsCholesky 1 L) : L = 1 :=
  cholesky_unique h ⟨fun i j hij => one_apply_ne hij.ne, fun i => by simp, by simp⟩

/-- The transformation of uncorrelated variables. -/
theorem compute_one {la : LinAlg} (hla : LinAlgOK la) : Transformation.compute la .cholesky (1 : Matrix (Fin n) (Fin n) ℝ) = .ok ⟨1, 1⟩ := by
  obtain ⟨L, hL, hc⟩ := hla.chol (1 : Matrix (Fin n) (Fin n) ℝ) PosDef.one
  rw [cholesky_one hc] at hL
  simp only [Transformation.compute, computeCholesky, hL]
  rw [npInv_of_unit (by simp)]
  simp

/-- The derivative of the factor vanishes with the derivative of the matrix. -/
theorem cholesky_deriv_zero : (choleskyWithDerivative (1 : Matrix (Fin n) (Fin n) ℝ) 0).2 = 0 := by
  have h1 := cholesky_one (C26_factor (R0 := (1 : Matrix (Fin n) (Fin n) ℝ)) (dR0 := 0) PosDef.one (by simp [IsSymm]))
  obtain ⟨h2, h3⟩ := C27_equation (R0 := (1 : Matrix (Fin n) (Fin n) ℝ)) (dR0 := 0) PosDef.one (by simp [IsSymm])
  rw [h1, transpose_one, Matrix.mul_one, Matrix.one_mul] at h3
  ext i j
  have e := congrFun (congrFun h3 i) j
  rw [Matrix.add_apply, transpose_apply] at e
  simp only [Matrix.zero_apply] at e ⊢
  rcases lt_trichotomy i j with h | h | h
  · exact h2 i j h
  · rw [h] at e ⊢; linarith
  · have := h2 j i h; linarith

/-- **C50 (independent variables).**  For uncorrelated variables of any type, the closed-form sensitivity to a parameter of variable `k`
involves that variable alone: `α_k · (∂F/∂θ)(x_k) / φ(u_k)` at the design point; where `φ(u_k)` does not exceed `1e-300` the code
reports exactly 0. -/
theorem C50_independent (dist : Fin n → Dist) (k : Fin n) (param : String) {dF : ℝ → ℝ} {dm : ℝ × ℝ}
    (hF : (dist k).dFParam param = .ok dF) (hm : (dist k).dmoments param = .ok dm) (alpha u : Fin n → ℝ) :
    (1e-300 < StdNormal.pdf (u k) → marginalOne dist 1 1 ⟨1, 1⟩ alpha u k param =
      .ok (alpha k * (dF ((dist k).marg.uToX (u k)) / StdNormal.pdf (u k)))) ∧
    (StdNormal.pdf (u k) ≤ 1e-300 → marginalOne dist 1 1 ⟨1, 1⟩ alpha u k param = .ok 0) := by
  obtain ⟨dR0, h1, h2⟩ := dR0Loop_eq dist 1 1 k param hF (dmu := dm.1) (dsig := dm.2) hm (Sensitivity.pairs n)
    (fun p hp => Sensitivity.mem_pairs.1 hp) 0
  have h0 : dR0 = 0 := by
    have hsk : ∀ a b : Fin n, b < a → Skip (1 : Matrix (Fin n) (Fin n) ℝ) 1 k a b := fun a b h => Or.inr (by
      rw [one_apply_ne h.ne']; norm_num)
    ext a b
    rw [h2, if_neg (fun h => h.2 (hsk _ _ (Sensitivity.mem_pairs.1 h.1))), if_neg (fun h => h.2 (hsk _ _ (Sensitivity.mem_pairs.1 h.1)))]
  have key : ∀ y : ℝ, alpha ⬝ᵥ (1 : Matrix (Fin n) (Fin n) ℝ) *ᵥ (fun i => if i = k then y else 0) = alpha k * y := by
    intro y
    rw [one_mulVec]
    simp [dotProduct]
  subst h0
  constructor
  · intro hp
    unfold marginalOne
    simp only [hF, h1, cholesky_deriv_zero, one_mulVec, dinvL0, gt_iff_lt, if_pos hp]
    congr 1
    have := key (dF ((dist k).marg.uToX (u k)) / StdNormal.pdf (u k))
    rw [one_mulVec] at this
    simp only [uToX, one_mulVec, this]
    simp
  · intro hp
    unfold marginalOne
    simp only [hF, h1, cholesky_deriv_zero, one_mulVec, dinvL0, gt_iff_lt, if_neg (not_lt.2 hp)]
    simp

/-- A normal variable as a distribution object. -/
noncomputable def normalDist (m : Marginal) : Dist := ⟨Normal.cls, m, []⟩

theorem normalDist_sens {μ s : ℝ} {sp : Option ℝ} {m : Marginal} (h : Normal.new μ (.fin s) sp = .ok m) :
    ((normalDist m).dFParam "mean" = .ok (fun x => -StdNormal.pdf ((x - μ) / s) / s) ∧ (normalDist m).dmoments "mean" = .ok (1, 0)) ∧
    ((normalDist m).dFParam "std" = .ok (fun x => -StdNormal.pdf ((x - μ) / s) * ((x - μ) / s) / s) ∧
      (normalDist m).dmoments "std" = .ok (0, 1)) ∧ Dict.keys (normalDist m).sensitivityParams = ["mean", "std"] := by
  obtain ⟨-, -, -, h4, h5, -⟩ := normal_ok h
  refine ⟨⟨?_, ?_⟩, ⟨?_, ?_⟩, ?_⟩ <;>
    simp [normalDist, Dist.dFParam, Dist.dFDtheta, Normal.cls, Dist.dmoments, Normal.dFdTheta, Dict.get?, h4, h5, Dist.sensitivityParams,
      Dict.keys]

/-- **C50 (independent normal variables).**  `∂β/∂μ_k = -α_k/σ_k` and `∂β/∂σ_k = -α_k u_k/σ_k`, for every direction and point. -/
theorem C50_normal {μ sd : Fin n → ℝ} {sp : Fin n → Option ℝ} (hsd : ∀ i, 0 < sd i) {marg : Fin n → Marginal}
    (hm : ∀ i, Normal.new (μ i) (.fin (sd i)) (sp i) = .ok (marg i)) (alpha u : Fin n → ℝ) (k : Fin n)
    (hp : 1e-300 < StdNormal.pdf (u k)) :
    marginalOne (fun i => normalDist (marg i)) 1 1 ⟨1, 1⟩ alpha u k "mean" = .ok (-alpha k / sd k) ∧
    marginalOne (fun i => normalDist (marg i)) 1 1 ⟨1, 1⟩ alpha u k "std" = .ok (-alpha k * u k / sd k) := by
  obtain ⟨⟨a1, a2⟩, ⟨b1, b2⟩, -⟩ := normalDist_sens (hm k)
  obtain ⟨h1, -⟩ := normal_ok (hm k)
  have hz : (Normal.uToX (μ k) (sd k) (u k) - μ k) / sd k = u k := by
    unfold Normal.uToX
    field_simp [(hsd k).ne']
    ring
  have hp0 : StdNormal.pdf (u k) ≠ 0 := (StdNormal.pdf_pos _).ne'
  have hs0 := (hsd k).ne'
  constructor
  · rw [(C50_independent (fun i => normalDist (marg i)) k "mean" a1 a2 alpha u).1 hp]
    congr 1
    simp only [normalDist, h1, hz]
    field_simp
  · rw [(C50_independent (fun i => normalDist (marg i)) k "std" b1 b2 alpha u).1 hp]
    congr 1
    simp only [normalDist, h1, hz]
    field_simp

/-- **C50 (the whole report).**  The closed-form analysis of independent normal variables reports exactly those two numbers for every
variable, in the order of the variables. -/
theorem C50_report {μ sd : Fin n → ℝ} {sp : Fin n → Option ℝ} (hsd : ∀ i, 0 < sd i) {marg : Fin n → Marginal}
    (hm : ∀ i, Normal.new (μ i) (.fin (sd i)) (sp i) = .ok (marg i)) (names : Fin n → String) (alpha u : Fin n → ℝ)
    (hp : ∀ k, 1e-300 < StdNormal.pdf (u k)) :
    ∃ r, cfSens (fun i => normalDist (marg i)) names 1 1 ⟨1, 1⟩ alpha u = .ok r ∧
      r.marginal = List.ofFn (fun k => (names k, [("mean", -alpha k / sd k), ("std", -alpha k * u k / sd k)])) := by
  have hv : ∀ k, marginalVar (fun i => normalDist (marg i)) 1 1 ⟨1, 1⟩ alpha u k
      (Dict.keys (normalDist (marg k)).sensitivityParams) = .ok [("mean", -alpha k / sd k), ("std", -alpha k * u k / sd k)] := by
    intro k
    rw [(normalDist_sens (hm k)).2.2]
    obtain ⟨e1, e2⟩ := C50_normal hsd hm alpha u k (hp k)
    simp only [marginalVar, e1, e2]
  have ha : ∀ ks : List (Fin n), marginalAll (fun i => normalDist (marg i)) 1 1 ⟨1, 1⟩ alpha u names ks =
      .ok (ks.map fun k => (names k, [("mean", -alpha k / sd k), ("std", -alpha k * u k / sd k)])) := by
    intro ks
    induction ks with
    | nil => rfl
    | cons k ks ih =>
      unfold marginalAll
      simp only [hv, ih, List.map_cons]
  obtain ⟨C, hC, -⟩ := corrLoop_eq (fun i => normalDist (marg i)) 1 1 ⟨1, 1⟩ alpha u (Sensitivity.pairs n)
    (fun p hp => Sensitivity.mem_pairs.1 hp) 0
  refine ⟨⟨(List.finRange n).map fun k => (names k, [("mean", -alpha k / sd k), ("std", -alpha k * u k / sd k)]), C⟩, ?_, ?_⟩
  · unfold cfSens
    rw [ha, hC]
  · exact (List.ofFn_eq_map ..).symm

set_option exponentiation.threshold 1000 in
/-- The standard normal density does not fall below the threshold of the code for indices up to 37. -/
theorem pdf_not_tiny {z : ℝ} (h : |z| ≤ 37) : 1e-300 < StdNormal.pdf z := by
  have h1 : z ^ 2 ≤ 37 ^ 2 := by
    rw [← sq_abs]
    exact pow_le_pow_left₀ (abs_nonneg z) h 2
  have h2 : Real.exp (-(685 : ℝ)) ≤ Real.exp (-0.5 * z ^ 2) := Real.exp_le_exp.2 (by linarith)
  have h3 : Real.exp 685 < 1e298 := by
    have e : Real.exp 685 = Real.exp 1 ^ 685 := by rw [← Real.exp_nat_mul]; norm_num
    rw [e]
    calc Real.exp 1 ^ 685 < (2.72 : ℝ) ^ 685 := pow_lt_pow_left₀ (Real.exp_one_lt_d9.trans (by norm_num)) (Real.exp_pos 1).le (by norm_num)
      _ < 1e298 := by norm_num
  have h4 : √(2 * Real.pi) < 10 := by
    rw [Real.sqrt_lt' (by norm_num)]
    linarith [Real.pi_lt_four]
  have h5 : Real.exp (-685) = (Real.exp 685)⁻¹ := Real.exp_neg _
  have h6 : (1e298 : ℝ)⁻¹ < Real.exp (-0.5 * z ^ 2) := by
    refine lt_of_lt_of_le ?_ h2
    rw [h5]
    exact inv_strictAnti₀ (Real.exp_pos _) h3
  unfold StdNormal.pdf
  rw [lt_div_iff₀ (by positivity)]
  refine lt_trans ?_ h6
  calc (1e-300 : ℝ) * √(2 * Real.pi) < 1e-300 * 10 := by
        exact mul_lt_mul_of_pos_left h4 (by norm_num)
    _ < (1e298 : ℝ)⁻¹ := by norm_num

/-- The reliability index of an affine function of independent normal variables. -/
noncomputable def affineBeta (a0 : ℝ) (a μ sd : Fin n → ℝ) : ℝ := (a0 + ∑ i, a i * μ i) / √(∑ i, (a i * sd i) ^ 2)

theorem affine_mean (a0 : ℝ) (a μ sd : Fin n → ℝ) (k : Fin n) :
    HasDerivAt (fun s => affineBeta a0 a (Function.update μ k s) sd) (a k / √(∑ i, (a i * sd i) ^ 2)) (μ k) := by
  unfold affineBeta
  have e : ∀ s, a0 + ∑ i, a i * Function.update μ k s i = a k * (s - μ k) + (a0 + ∑ i, a i * μ i) := by
    intro s
    have : ∀ i, a i * Function.update μ k s i = a i * μ i + if i = k then a k * (s - μ k) else 0 := by
      intro i
      by_cases h : i = k
      · subst h; simp; ring
      · simp [h]
    simp only [this, Finset.sum_add_distrib]
    simp
    ring
  simp only [e]
  have h1 : HasDerivAt (fun s : ℝ => a k * (s - μ k) + (a0 + ∑ i, a i * μ i)) (a k) (μ k) := by
    have := (((hasDerivAt_id (μ k)).sub_const (μ k)).const_mul (a k)).add_const (a0 + ∑ i, a i * μ i)
    simpa using this
  exact h1.div_const _

theorem affine_std (a0 : ℝ) (a μ sd : Fin n → ℝ) (k : Fin n) (h0 : 0 < ∑ i, (a i * sd i) ^ 2) :
    HasDerivAt (fun s => affineBeta a0 a μ (Function.update sd k s))
      (-(affineBeta a0 a μ sd) * (a k ^ 2 * sd k) / (∑ i, (a i * sd i) ^ 2)) (sd k) := by
  unfold affineBeta
  have e : ∀ s, ∑ i, (a i * Function.update sd k s i) ^ 2 = a k ^ 2 * (s ^ 2 - sd k ^ 2) + ∑ i, (a i * sd i) ^ 2 := by
    intro s
    have : ∀ i, (a i * Function.update sd k s i) ^ 2 = (a i * sd i) ^ 2 + if i = k then a k ^ 2 * (s ^ 2 - sd k ^ 2) else 0 := by
      intro i
      by_cases h : i = k
      · subst h; simp; ring
      · simp [h]
    simp only [this, Finset.sum_add_distrib]
    simp
    ring
  simp only [e]
  set V := ∑ i, (a i * sd i) ^ 2 with hV
  have h1 : HasDerivAt (fun s : ℝ => a k ^ 2 * (s ^ 2 - sd k ^ 2) + V) (a k ^ 2 * (2 * sd k)) (sd k) := by
    have := (((hasDerivAt_pow 2 (sd k)).sub_const (sd k ^ 2)).const_mul (a k ^ 2)).add_const V
    simpa using this
  have hv : a k ^ 2 * (sd k ^ 2 - sd k ^ 2) + V = V := by ring
  have h2 := h1.sqrt (by rw [hv]; exact h0.ne')
  have hs : √V ≠ 0 := (Real.sqrt_pos.2 h0).ne'
  have h3 := (hasDerivAt_const (sd k) (a0 + ∑ i, a i * μ i)).div h2 (by rw [hv]; exact hs)
  refine h3.congr_deriv ?_
  rw [hv]
  have hq : √V ^ 2 = V := Real.sq_sqrt h0.le
  rw [hq]
  field_simp
  ring

/-- **C50 (affine limit states).**  Independent normal variables, an affine limit state, default transformation: FORM followed by the
closed-form sensitivity analysis of its result reports for every variable the derivatives of the reliability index that FORM finds with
respect to the mean and to the standard deviation of that variable. -/
theorem C50_affine {σ : Type} {la : LinAlg} (hla : LinAlgOK la) {μ sd : Fin n → ℝ} {sp : Fin n → Option ℝ} (hsd : ∀ i, 0 < sd i)
    {marg : Fin n → Marginal} (hm : ∀ i, Normal.new (μ i) (.fin (sd i)) (sp i) = .ok (marg i)) (a0 : ℝ) (a : Fin n → ℝ) (ha : a ≠ 0)
    {ev : Evaluator σ n} {P : σ → Prop} (hev : Exact ev P (fun x => a0 + ∑ i, a i * x i) (fun _ => a))
    (opt : Form.Options) (hst : opt.stepSize = 1) (he1 : 0 < opt.e1) (he1' : opt.e1 ≤ 1) (he2 : 0 < opt.e2)
    (hi : 2 ≤ opt.iMax) (s : σ) (hs : P s) (fuel : ℕ) (hf : opt.iMax ≤ fuel) (names : Fin n → String)
    (hb : |affineBeta a0 a μ sd| ≤ 37) :
    ∃ t r s' c, Transformation.compute la .cholesky 1 = .ok t ∧ runFrom t marg ev opt fuel s = some (.done r s') ∧
      r.beta = affineBeta a0 a μ sd ∧
      cfSens (fun i => normalDist (marg i)) names 1 1 t r.alpha r.point.u = .ok c ∧
      ∃ dmean dstd : Fin n → ℝ, c.marginal = List.ofFn (fun k => (names k, [("mean", dmean k), ("std", dstd k)])) ∧
        (∀ k, HasDerivAt (fun v => affineBeta a0 a (Function.update μ k v) sd) (dmean k) (μ k)) ∧
        (∀ k, HasDerivAt (fun v => affineBeta a0 a μ (Function.update sd k v)) (dstd k) (sd k)) := by
  obtain ⟨r, s', h1, h2, -, h4, -, -, h7⟩ := C30_exact hla (PosDef.one) (compute_one hla) hsd hm a0 a ha hev opt hst he1 he1' he2 hi s hs
    fuel hf
  have hV : ∑ i, ∑ j, a i * sd i * (1 : Matrix (Fin n) (Fin n) ℝ) i j * (a j * sd j) = ∑ i, (a i * sd i) ^ 2 := by
    refine Finset.sum_congr rfl fun i _ => ?_
    rw [Finset.sum_eq_single i]
    · simp; ring
    · intro j _ hj; rw [one_apply_ne hj.symm]; ring
    · simp
  have hpos : 0 < ∑ i, (a i * sd i) ^ 2 := by
    obtain ⟨i, hi⟩ := Function.ne_iff.1 ha
    refine Finset.sum_pos' (fun i _ => sq_nonneg _) ⟨i, Finset.mem_univ _, ?_⟩
    exact sq_pos_of_ne_zero (mul_ne_zero hi (hsd i).ne')
  rw [hV] at h2
  have hnorm : norm2 (fun i => a i * sd i) = √(∑ i, (a i * sd i) ^ 2) := rfl
  have hal : ∀ k, r.alpha k = -(a k * sd k) / √(∑ i, (a i * sd i) ^ 2) := by
    intro k
    rw [h7, vecMul_one]
    simp only [alpha, hnorm, div_eq_mul_inv]
  have hroot : 0 < √(∑ i, (a i * sd i) ^ 2) := Real.sqrt_pos.2 hpos
  have hsq : √(∑ i, (a i * sd i) ^ 2) ^ 2 = ∑ i, (a i * sd i) ^ 2 := Real.sq_sqrt hpos.le
  have hle : ∀ k, |r.alpha k| ≤ 1 := by
    intro k
    rw [hal, abs_div, abs_neg, abs_of_pos hroot, div_le_one hroot]
    exact Real.abs_le_sqrt (Finset.single_le_sum (f := fun i => (a i * sd i) ^ 2) (fun i _ => sq_nonneg _) (Finset.mem_univ k))
  have hu : ∀ k, |r.point.u k| ≤ |affineBeta a0 a μ sd| := by
    intro k
    rw [h4, h2]
    simp only [Pi.smul_apply, smul_eq_mul, abs_mul]
    exact mul_le_of_le_one_right (abs_nonneg _) (hle k)
  obtain ⟨c, hc, hc2⟩ := C50_report hsd hm names r.alpha r.point.u (fun k => pdf_not_tiny ((hu k).trans hb))
  refine ⟨⟨1, 1⟩, r, s', c, compute_one hla, h1, h2, hc, _, _, hc2, fun k => ?_, fun k => ?_⟩
  · refine (affine_mean a0 a μ sd k).congr_deriv ?_
    rw [hal]
    have := (hsd k).ne'
    field_simp
  · refine (affine_std a0 a μ sd k hpos).congr_deriv ?_
    have h5 : r.point.u k = affineBeta a0 a μ sd * r.alpha k := by rw [h4, h2]; rfl
    rw [h5, hal]
    have := (hsd k).ne'
    generalize √(∑ i, (a i * sd i) ^ 2) = w at hroot hsq ⊢
    rw [← hsq]
    field_simp

/-- The hypotheses of `C50_affine` are met: `g = 7 - x₁ - 2x₂` with means 1, 2 and standard deviations 3, 2 (`β = 2/5`): the sensitivities
to the standard deviations are `-6/125` and `-16/125`, and those to the means `-1/5` and `-2/5`. -/
example {la : LinAlg} (hla : LinAlgOK la) (fuel : ℕ) (hf : 100 ≤ fuel) : ∃ t marg r c,
    Transformation.compute la .cholesky 1 = .ok t ∧
    runFrom t marg (⟨fun _ x => ((), .ok (7 + ∑ i, ![-1, -2] i * x i, ![-1, -2], x)), fun _ _ => ((), .ok [])⟩ :
      Evaluator Unit 2) ⟨100, 0.001, 0.001, 1, 1⟩ fuel () = some (.done r ()) ∧ r.beta = 2 / 5 ∧
    cfSens (fun i => normalDist (marg i)) ![ "x1", "x2" ] 1 1 t r.alpha r.point.u = .ok c ∧
    c.marginal = [("x1", [("mean", -1 / 5), ("std", -6 / 125)]), ("x2", [("mean", -2 / 5), ("std", -16 / 125)])] := by
  have hm : ∀ i : Fin 2, ∃ m, Normal.new (![1, 2] i) (.fin (![3, 2] i : ℝ)) none = .ok m := fun i => ⟨_, rfl⟩
  choose marg hmarg using hm
  have hV : ∑ i : Fin 2, ((![-1, -2] : Fin 2 → ℝ) i * (![3, 2] : Fin 2 → ℝ) i) ^ 2 = 5 ^ 2 := by
    simp [Fin.sum_univ_two]; norm_num
  have hr : √(∑ i : Fin 2, ((![-1, -2] : Fin 2 → ℝ) i * (![3, 2] : Fin 2 → ℝ) i) ^ 2) = 5 := by
    rw [hV]; exact Real.sqrt_sq (by norm_num)
  have hbeta : affineBeta 7 ![-1, -2] ![1, 2] ![3, 2] = 2 / 5 := by
    unfold affineBeta
    rw [hr]
    simp [Fin.sum_univ_two]; norm_num
  obtain ⟨t, r, s', c, h1, h2, h3, h4, dm, ds, h5, h6, h7⟩ := C50_affine hla (μ := ![1, 2]) (sd := ![3, 2]) (sp := fun _ => none)
    (by intro i; fin_cases i <;> simp) hmarg 7 ![-1, -2] (by intro h; simpa using congrFun h 0)
    (ev := (⟨fun _ x => ((), .ok (7 + ∑ i, ![-1, -2] i * x i, ![-1, -2], x)), fun _ _ => ((), .ok [])⟩ :
      Evaluator Unit 2)) (P := fun _ => True) (fun _ _ x => ⟨(), x, rfl, trivial⟩)
    ⟨100, 0.001, 0.001, 1, 1⟩ rfl (by norm_num) (by norm_num) (by norm_num) (by norm_num) () trivial fuel hf ![ "x1", "x2" ]
    (by rw [hbeta]; norm_num [abs_of_pos])
  have em : ∀ k, dm k = (![-1, -2] : Fin 2 → ℝ) k / 5 := by
    intro k
    have := (h6 k).unique (affine_mean 7 ![-1, -2] ![1, 2] ![3, 2] k)
    rwa [hr] at this
  have es : ∀ k, ds k = -(2 / 5) * ((![-1, -2] : Fin 2 → ℝ) k ^ 2 * (![3, 2] : Fin 2 → ℝ) k) / 5 ^ 2 := by
    intro k
    have := (h7 k).unique (affine_std 7 ![-1, -2] ![1, 2] ![3, 2] k (by rw [hV]; norm_num))
    rwa [hbeta, hV] at this
  refine ⟨t, marg, r, c, h1, h2, by rw [h3, hbeta], h4, ?_⟩
  rw [h5]
  simp only [em, es, List.ofFn_succ, List.ofFn_zero]
  simp
  norm_num

end Pystra.Props
