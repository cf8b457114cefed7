import Verif.Props.FormAccuracy
import Verif.Props.FormLocal
import Verif.Props.FormMargin
import Verif.Props.SormShift
import Verif.Props.GenericDesign
import Verif.Spec.LogMargin

/-! C118: FORM for limit states that compare two products of powers of lognormal variables. -/

namespace Pystra.Props
open Matrix Spec Transformation Form MeasureTheory Set

variable {σ : Type} {n : ℕ}

/-- The attributes of a lognormal variable. -/
theorem lognormal_fields {μ s : ℝ} (hμ : 0 < μ) (hs : 0 < s) {sp : Option ℝ} {m : Marginal} (h : Lognormal.new μ s false sp = .ok m) :
    0 < logDev μ s ∧ m.uToX = (fun u => Real.exp (u * logDev μ s + logMean μ s)) ∧ RoundTrip m (Ioi 0) ∧ JacobianCorrect m (Ioi 0) := by
  obtain ⟨m', h', -, -, -, h1, h2, -⟩ := (good_lognormal hμ hs sp).ex
  rw [h] at h'; injection h' with h'; subst h'
  obtain ⟨hz, -⟩ := lognormal_params_spec hμ hs
  refine ⟨hz, ?_, h1, h2⟩
  unfold Lognormal.new Lognormal.ofParams at h
  simp only [Bool.false_eq_true, if_false] at h
  split at h
  · cases h
  · injection h with h
    rw [← h]
    funext u
    simp only [Lognormal.uToX, Lognormal.params, logMean, logDev]
    norm_num
    ring

/-- The geometry: `w` is the gradient of `exp (A0 + A·u) - exp (B0 + B·u)` at `u`. -/
theorem loglinear_index {A B u w : Fin n → ℝ} {R S A0 B0 e2 : ℝ} (hR : R = Real.exp (A0 + ∑ i, A i * u i))
    (hS : S = Real.exp (B0 + ∑ i, B i * u i)) (hw : ∀ i, w i = R * A i - S * B i) (hw0 : w ≠ 0)
    (hm : 0 < len (fun i => A i - B i)) {β : ℝ} (hβ : β * len w = -∑ i, w i * u i) (he2 : 0 ≤ e2) (hu : ∑ i, u i ^ 2 - β ^ 2 < e2 ^ 2) :
    |β - (A0 - B0) / len (fun i => A i - B i)| ≤
      e2 + (|Real.log (S / R)| + 2 * |β| * |(R - S) / R| * len B) / len (fun i => A i - B i) := by
  have hRp : 0 < R := by rw [hR]; exact Real.exp_pos _
  have hSp : 0 < S := by rw [hS]; exact Real.exp_pos _
  obtain ⟨ε, hε⟩ : ∃ ε, ε = (R - S) / R := ⟨_, rfl⟩
  obtain ⟨m, hmd⟩ : ∃ m : Fin n → ℝ, m = fun i => A i - B i := ⟨_, rfl⟩
  obtain ⟨q, hq⟩ : ∃ q : Fin n → ℝ, q = fun i => m i + ε * B i := ⟨_, rfl⟩
  rw [← hmd] at hm ⊢
  have hwq : w = fun i => R * q i := by
    funext i
    rw [hw, hq, hmd, hε]
    field_simp
    ring
  have hq0 : q ≠ 0 := by
    rintro h0
    apply hw0
    rw [hwq, h0]
    funext i; simp
  have hqp := len_pos hq0
  have hlw : len w = R * len q := by rw [hwq, len_smul, abs_of_pos hRp]
  have hβq : β * len q = -∑ i, q i * u i := by
    have e : ∑ i, w i * u i = R * ∑ i, q i * u i := by
      rw [hwq, Finset.mul_sum]
      exact Finset.sum_congr rfl fun i _ => by ring
    rw [hlw, e] at hβ
    have : R * (β * len q) = R * (-∑ i, q i * u i) := by linarith
    exact mul_left_cancel₀ hRp.ne' this
  have hlog : Real.log (S / R) = -((A0 - B0) + ∑ i, m i * u i) := by
    rw [Real.log_div hSp.ne' hRp.ne', hR, hS, Real.log_exp, Real.log_exp, hmd]
    simp only [sub_mul, Finset.sum_sub_distrib]
    ring
  -- the part of `u` across the direction
  obtain ⟨v, hv⟩ : ∃ v : Fin n → ℝ, v = fun i => u i + β / len q * q i := ⟨_, rfl⟩
  have hqq : ∑ i, q i ^ 2 = len q ^ 2 := (len_sq q).symm
  have hvs : len v ^ 2 = ∑ i, u i ^ 2 - β ^ 2 := by
    rw [len_sq, hv]
    have e : ∀ i, (u i + β / len q * q i) ^ 2 = u i ^ 2 + 2 * (β / len q) * (q i * u i) + (β / len q) ^ 2 * q i ^ 2 := fun i => by ring
    rw [Finset.sum_congr rfl fun i _ => e i, Finset.sum_add_distrib, Finset.sum_add_distrib, ← Finset.mul_sum, ← Finset.mul_sum, hqq]
    have : ∑ i, q i * u i = -(β * len q) := by linarith
    rw [this]
    field_simp
    ring
  have hvl : len v ≤ e2 := by
    have : len v ^ 2 ≤ e2 ^ 2 := by rw [hvs]; exact hu.le
    exact (abs_le_of_sq_le_sq' this he2).2
  have hmv := dot_le_len m v
  have hmvs : ∑ i, m i * v i = ∑ i, m i * u i + β / len q * ∑ i, m i * q i := by
    rw [hv, Finset.mul_sum, ← Finset.sum_add_distrib]
    exact Finset.sum_congr rfl fun i _ => by ring
  -- the direction
  have hmq := dot_le_len m q
  have hBq := dot_le_len B q
  have hmB : ∑ i, m i * q i = len q ^ 2 - ε * ∑ i, B i * q i := by
    rw [← hqq, Finset.mul_sum, ← Finset.sum_sub_distrib]
    refine Finset.sum_congr rfl fun i _ => ?_
    rw [hq]; ring
  have htri : len m ≤ len q + |ε| * len B := by
    have h1 : len m ^ 2 = ∑ i, m i * q i - ε * ∑ i, B i * m i := by
      rw [len_sq, Finset.mul_sum, ← Finset.sum_sub_distrib]
      refine Finset.sum_congr rfl fun i _ => ?_
      rw [hq]; ring
    have h2 := (abs_le.1 hmq).2
    have h3 : |ε * ∑ i, B i * m i| ≤ |ε| * (len B * len m) := by
      rw [abs_mul]; exact mul_le_mul_of_nonneg_left (dot_le_len B m) (abs_nonneg _)
    have h4 := (abs_le.1 h3).1
    have : len m * len m ≤ (len q + |ε| * len B) * len m := by nlinarith
    exact le_of_mul_le_mul_right this hm
  obtain ⟨k, hk⟩ : ∃ k, k = (∑ i, m i * q i) / len q := ⟨_, rfl⟩
  have hk1 : k ≤ len m := by
    rw [hk, div_le_iff₀ hqp]; exact (abs_le.1 hmq).2
  have hk2 : len m - 2 * (|ε| * len B) ≤ k := by
    have h3 : |ε * ∑ i, B i * q i| ≤ |ε| * (len B * len q) := by
      rw [abs_mul]; exact mul_le_mul_of_nonneg_left hBq (abs_nonneg _)
    have h4 := (abs_le.1 h3).2
    rw [hk, le_div_iff₀ hqp, hmB]
    have : (len m - 2 * (|ε| * len B)) * len q ≤ (len q - |ε| * len B) * len q :=
      mul_le_mul_of_nonneg_right (by linarith) hqp.le
    nlinarith
  have hkey : β * len m - (A0 - B0) = -∑ i, m i * v i * -1 + Real.log (S / R) + β * (len m - k) := by
    have e1 : β / len q * ∑ i, m i * q i = β * k := by rw [hk]; ring
    have e2 : ∑ i, m i * v i * -1 = -∑ i, m i * v i := by
      rw [← Finset.sum_neg_distrib]; exact Finset.sum_congr rfl fun i _ => by ring
    rw [e2, hlog, hmvs, e1]
    ring
  have hb : |β * (len m - k)| ≤ |β| * (2 * (|ε| * len B)) := by
    rw [abs_mul]
    refine mul_le_mul_of_nonneg_left ?_ (abs_nonneg _)
    rw [abs_of_nonneg (by linarith)]
    linarith
  have e2' : ∑ i, m i * v i * -1 = -∑ i, m i * v i := by
    rw [← Finset.sum_neg_distrib]; exact Finset.sum_congr rfl fun i _ => by ring
  have hfin : |β * len m - (A0 - B0)| ≤ len m * e2 + (|Real.log (S / R)| + |β| * (2 * (|ε| * len B))) := by
    rw [hkey, e2', neg_neg, add_assoc]
    refine (abs_add_le _ _).trans (add_le_add (hmv.trans (mul_le_mul_of_nonneg_left hvl hm.le)) ?_)
    exact (abs_add_le _ _).trans (add_le_add le_rfl hb)
  rw [← hε]
  have e : β - (A0 - B0) / len m = (β * len m - (A0 - B0)) / len m := by field_simp
  rw [e, abs_div, abs_of_pos hm, div_le_iff₀ hm]
  refine hfin.trans (le_of_eq ?_)
  field_simp

/-- A variance through the factor of the correlation matrix. -/
theorem factor_len {F R : Matrix (Fin n) (Fin n) ℝ} (hF : F * Fᵀ = R) (c : Fin n → ℝ) :
    len (vecMul c F) = √(∑ i, ∑ j, c i * R i j * c j) := by
  unfold len
  congr 1
  have h1 : ∑ i, vecMul c F i ^ 2 = vecMul c F ⬝ᵥ vecMul c F := by
    simp only [dotProduct]; exact Finset.sum_congr rfl fun i _ => by ring
  have h2 : vecMul c F ⬝ᵥ vecMul c F = c ⬝ᵥ R *ᵥ c := by
    rw [← hF, ← mulVec_mulVec, ← vecMul_transpose, ← vecMul_transpose, transpose_transpose, dotProduct_comm,
      ← dotProduct_mulVec, ← vecMul_transpose]
  rw [h1, h2]
  simp only [dotProduct, mulVec, Finset.mul_sum]
  exact Finset.sum_congr rfl fun i _ => Finset.sum_congr rfl fun j _ => by ring

/-- The value a finished run compares with is the limit state at the starting point. -/
theorem run_Go {t : Mats n} {marg : Fin n → Marginal} {f : (Fin n → ℝ) → ℝ} {grad : (Fin n → ℝ) → Fin n → ℝ} {ev : Evaluator σ n}
    {P : σ → Prop} {opt : Form.Options} (hex : Exact ev P f grad) {fuel : ℕ} {s s' : σ} {r : Result n} (hs : P s)
    (h : runFrom t marg ev opt fuel s = some (.done r s')) : r.Go = f (uToX t marg (startingPoint t marg)) := by
  have hlin : ∀ s1 p, linearise t marg ev (startingPoint t marg) s = (s1, .ok p) → p.G = f (uToX t marg (startingPoint t marg)) := by
    intro s1 p hl
    unfold linearise at hl
    dsimp only at hl
    split at hl
    · cases hl
    · obtain ⟨s3, xa, he, -⟩ := hex _ hs (uToX t marg (startingPoint t marg))
      rw [he] at hl
      injection hl with hl1 hl2
      injection hl2 with hl2
      subst hl2
      rfl
  obtain ⟨i, Go, u, s2, hr, hit, -⟩ := loop_reaches fuel .start h
  obtain ⟨hl2, hi', hgo, -⟩ := iteration_done hit
  by_cases h1 : i = 1
  · subst h1
    cases hr with
    | start =>
      rw [hgo, if_pos rfl]
      exact hlin _ _ hl2
    | next hr _ => have := reaches_one_le hr; omega
  · obtain ⟨s1, p0, hl0, e0⟩ := reaches_Go hr h1
    rw [hgo, if_neg h1, e0]
    exact hlin _ _ hl0

section products
variable {μ sd : Fin n → ℝ} {sp : Fin n → Option ℝ} {marg : Fin n → Marginal}

/-- A product of powers of lognormal variables in standard normal space. -/
theorem product_std (hμ : ∀ i, 0 < μ i) (hsd : ∀ i, 0 < sd i) (hm : ∀ i, Lognormal.new (μ i) (sd i) false (sp i) = .ok (marg i)) (t : Mats n)
    {c : ℝ} (hc : 0 < c) (a u : Fin n → ℝ) :
    product c a (uToX t marg u) = Real.exp ((Real.log c + ∑ i, a i * logMean (μ i) (sd i)) +
      ∑ i, vecMul (fun i => a i * logDev (μ i) (sd i)) t.invT i * u i) := by
  have hx : ∀ i, uToX t marg u i = Real.exp ((t.invT *ᵥ u) i * logDev (μ i) (sd i) + logMean (μ i) (sd i)) := by
    intro i
    change (marg i).uToX _ = _
    rw [(lognormal_fields (hμ i) (hsd i) (hm i)).2.1]
  unfold product
  have e : ∀ i, uToX t marg u i ^ a i = Real.exp (a i * ((t.invT *ᵥ u) i * logDev (μ i) (sd i) + logMean (μ i) (sd i))) := by
    intro i
    rw [hx, ← Real.exp_mul, mul_comm]
  rw [Finset.prod_congr rfl fun i _ => e i, ← Real.exp_sum, add_assoc, Real.exp_add, Real.exp_log hc]
  congr 2
  have h2 : ∑ i, vecMul (fun i => a i * logDev (μ i) (sd i)) t.invT i * u i =
      ∑ i, (a i * logDev (μ i) (sd i)) * (t.invT *ᵥ u) i := by
    change vecMul (fun i => a i * logDev (μ i) (sd i)) t.invT ⬝ᵥ u = (fun i => a i * logDev (μ i) (sd i)) ⬝ᵥ (t.invT *ᵥ u)
    rw [dotProduct_mulVec]
  rw [h2, ← Finset.sum_add_distrib]
  exact Finset.sum_congr rfl fun i _ => by ring

/-- The slopes of the margin of two products in standard normal space. -/
theorem products_deriv (A B : Fin n → ℝ) (A0 B0 : ℝ) (u : Fin n → ℝ) :
    HasFDerivAt (fun u : Fin n → ℝ => Real.exp (A0 + ∑ i, A i * u i) - Real.exp (B0 + ∑ i, B i * u i))
      (gradMap fun i => Real.exp (A0 + ∑ i, A i * u i) * A i - Real.exp (B0 + ∑ i, B i * u i) * B i) u := by
  have h : ∀ (c0 : ℝ) (c : Fin n → ℝ), HasFDerivAt (fun u : Fin n → ℝ => Real.exp (c0 + ∑ i, c i * u i))
      (Real.exp (c0 + ∑ i, c i * u i) • gradMap c) u := by
    intro c0 c
    have h1 : HasFDerivAt (fun u : Fin n → ℝ => c0 + ∑ i, c i * u i) (gradMap c) u := by
      have := (gradMap c).hasFDerivAt (x := u)
      refine (this.const_add c0).congr_of_eventuallyEq ?_
      exact Filter.Eventually.of_forall fun v => by simp [gradMap_apply]
    exact h1.exp
  refine ((h A0 A).sub (h B0 B)).congr_fderiv ?_
  ext v
  simp only [ContinuousLinearMap.sub_apply, ContinuousLinearMap.smul_apply, gradMap_apply, smul_eq_mul, Finset.mul_sum,
    ← Finset.sum_sub_distrib]
  exact Finset.sum_congr rfl fun i _ => by ring

theorem logIndex_eq {R : Matrix (Fin n) (Fin n) ℝ} {F : Matrix (Fin n) (Fin n) ℝ} (hF : F * Fᵀ = R) (cR cS : ℝ) (a b : Fin n → ℝ) :
    logIndex cR a cS b μ sd R = ((Real.log cR + ∑ i, a i * logMean (μ i) (sd i)) - (Real.log cS + ∑ i, b i * logMean (μ i) (sd i))) /
      len (fun i => vecMul (fun i => a i * logDev (μ i) (sd i)) F i - vecMul (fun i => b i * logDev (μ i) (sd i)) F i) := by
  have e : (fun i => vecMul (fun i => a i * logDev (μ i) (sd i)) F i - vecMul (fun i => b i * logDev (μ i) (sd i)) F i) =
      vecMul (fun i => (a i - b i) * logDev (μ i) (sd i)) F := by
    rw [show (fun i => (a i - b i) * logDev (μ i) (sd i)) = (fun i => a i * logDev (μ i) (sd i)) - fun i => b i * logDev (μ i) (sd i) by
      funext i; simp; ring, sub_vecMul]
    rfl
  rw [e, factor_len hF]
  unfold logIndex productDev
  congr 1
  simp only [sub_mul, Finset.sum_sub_distrib]
  ring

/-- C118: the probability that one product of powers of lognormal variables does not exceed another one is `Φ(-index)`, for any positive
definite correlation of the logarithms. -/
theorem C118_probability {la : LinAlg} (hla : LinAlgOK la) {ty : TransformType} {R : Matrix (Fin n) (Fin n) ℝ} (hR : R.PosDef) {t : Mats n}
    (ht : Transformation.compute la ty R = .ok t) (hμ : ∀ i, 0 < μ i) (hsd : ∀ i, 0 < sd i)
    (hm : ∀ i, Lognormal.new (μ i) (sd i) false (sp i) = .ok (marg i)) {cR cS : ℝ} (hcR : 0 < cR) (hcS : 0 < cS) {a b : Fin n → ℝ}
    (hab : a ≠ b) :
    0 < productDev (fun i => a i - b i) μ sd R ∧
    (stdGauss n).real {u | product cR a (uToX t marg u) - product cS b (uToX t marg u) ≤ 0} =
      StdNormal.cdf (-logIndex cR a cS b μ sd R) := by
  obtain ⟨t', ht', hF, -⟩ := C22_posdef hla ty hR
  rw [ht] at ht'; cases ht'
  obtain ⟨i, hi⟩ := Function.ne_iff.1 hab
  have hne : (fun i => (a i - b i) * logDev (μ i) (sd i)) ≠ 0 := by
    intro h
    have := congrFun h i
    simp only [Pi.zero_apply, mul_eq_zero, sub_eq_zero] at this
    rcases this with h | h
    · exact hi h
    · exact (lognormal_fields (hμ i) (hsd i) (hm i)).1.ne' h
  have hpos : 0 < productDev (fun i => a i - b i) μ sd R := by
    unfold productDev
    refine Real.sqrt_pos.2 ?_
    have h := hR.dotProduct_mulVec_pos hne
    simp only [dotProduct, mulVec, Finset.mul_sum, star_trivial] at h
    refine lt_of_lt_of_eq h (Finset.sum_congr rfl fun i _ => Finset.sum_congr rfl fun j _ => by ring)
  refine ⟨hpos, ?_⟩
  have hset : {u : Fin n → ℝ | product cR a (uToX t marg u) - product cS b (uToX t marg u) ≤ 0} =
      {u | (((Real.log cR + ∑ i, a i * logMean (μ i) (sd i)) - (Real.log cS + ∑ i, b i * logMean (μ i) (sd i)))) +
        ∑ i, (vecMul (fun i => a i * logDev (μ i) (sd i)) t.invT i - vecMul (fun i => b i * logDev (μ i) (sd i)) t.invT i) * u i ≤ 0} := by
    ext u
    simp only [mem_setOf_eq]
    rw [product_std hμ hsd hm t hcR, product_std hμ hsd hm t hcS, sub_nonpos, Real.exp_le_exp]
    simp only [sub_mul, Finset.sum_sub_distrib]
    constructor <;> intro h <;> linarith
  have hlen : len (fun i => vecMul (fun i => a i * logDev (μ i) (sd i)) t.invT i - vecMul (fun i => b i * logDev (μ i) (sd i)) t.invT i) =
      productDev (fun i => a i - b i) μ sd R := by
    have e : (fun i => vecMul (fun i => a i * logDev (μ i) (sd i)) t.invT i - vecMul (fun i => b i * logDev (μ i) (sd i)) t.invT i) =
        vecMul (fun i => (a i - b i) * logDev (μ i) (sd i)) t.invT := by
      rw [show (fun i => (a i - b i) * logDev (μ i) (sd i)) = (fun i => a i * logDev (μ i) (sd i)) - fun i => b i * logDev (μ i) (sd i) by
        funext i; simp; ring, sub_vecMul]
      rfl
    rw [e, factor_len hF]
    rfl
  rw [hset, halfspace_prob _ (by rw [← len_sq, hlen]; positivity), logIndex_eq hF]
  rfl

/-- C118: FORM of such a limit state.  A run that ended before the last allowed iteration reports the exact index up to the tolerances:
with `ϱ = e1·|G₀|` (`G₀` is the value at the starting point) divided by the value of the first product at the reported design point, `ϱ ≤ 1/2`, the error of the index is at most
`e2 + 2ϱ(1 + |β|·dS)/dM`, where `dS` and `dM` are the standard deviations of the logarithms of the second product and of the quotient;
the error of the reported probability is at most that divided by `√(2π)`. -/
theorem C118_accuracy {la : LinAlg} (hla : LinAlgOK la) {ty : TransformType} {R : Matrix (Fin n) (Fin n) ℝ} (hR : R.PosDef) {t : Mats n}
    (ht : Transformation.compute la ty R = .ok t) (hμ : ∀ i, 0 < μ i) (hsd : ∀ i, 0 < sd i)
    (hm : ∀ i, Lognormal.new (μ i) (sd i) false (sp i) = .ok (marg i)) {cR cS : ℝ} (hcR : 0 < cR) (hcS : 0 < cS) {a b : Fin n → ℝ}
    (hab : a ≠ b) {f : (Fin n → ℝ) → ℝ} (hq : ∀ x, (∀ i, 0 < x i) → f x = product cR a x - product cS b x)
    {grad : (Fin n → ℝ) → Fin n → ℝ} (hf : ∀ x, (∀ i, 0 < x i) → HasFDerivAt f (gradMap (grad x)) x)
    {ev : Evaluator σ n} {P : σ → Prop} {opt : Form.Options} (hex : Exact ev P f grad)
    (hv : ∀ s xs s' Gs, P s → ev.values s xs = (s', .ok Gs) → P s') {fuel : ℕ} {s s' : σ} {r : Result n} (hs : P s)
    (h : runFrom t marg ev opt fuel s = some (.done r s')) (hi : r.i ≠ opt.iMax) (he2 : 0 ≤ opt.e2)
    (hsmall : opt.e1 * |r.Go| ≤ product cR a r.point.x / 2) :
    let ϱ := opt.e1 * |r.Go| / product cR a r.point.x
    let err := opt.e2 + 2 * ϱ * (1 + |r.beta| * productDev b μ sd R) / productDev (fun i => a i - b i) μ sd R
    |r.beta - logIndex cR a cS b μ sd R| ≤ err ∧
    |r.Pf - (stdGauss n).real {u | f (uToX t marg u) ≤ 0}| ≤ err / √(2 * Real.pi) ∧
    ((∀ i, 0 < (marg i).startpoint) → r.Go = f fun i => (marg i).startpoint) := by
  intro ϱ err
  obtain ⟨hdev, hprob⟩ := C118_probability hla hR ht hμ hsd hm hcR hcS hab
  obtain ⟨t', ht', hF, hTi, -⟩ := C22_posdef hla ty hR
  rw [ht] at ht'; cases ht'
  have hfld := fun i => lognormal_fields (hμ i) (hsd i) (hm i)
  have hpos : ∀ u i, 0 < uToX t marg u i := fun u i => (hfld i).2.2.1.mem _
  obtain ⟨hd, hG, hg, -⟩ := result_exact ht (fun i => (hfld i).2.2.1) (fun _ => isOpen_Ioi) (fun i => (hfld i).2.2.2) (fun x hx => hf x hx)
    hex hv hs h
  obtain ⟨hx, -, -, -, -, hPf, -, -, hc⟩ := C29_identities h
  obtain ⟨hc1, -, hc2⟩ := hc hi
  obtain ⟨A, hA⟩ : ∃ A : Fin n → ℝ, A = vecMul (fun i => a i * logDev (μ i) (sd i)) t.invT := ⟨_, rfl⟩
  obtain ⟨B, hB⟩ : ∃ B : Fin n → ℝ, B = vecMul (fun i => b i * logDev (μ i) (sd i)) t.invT := ⟨_, rfl⟩
  obtain ⟨A0, hA0⟩ : ∃ A0, A0 = Real.log cR + ∑ i, a i * logMean (μ i) (sd i) := ⟨_, rfl⟩
  obtain ⟨B0, hB0⟩ : ∃ B0, B0 = Real.log cS + ∑ i, b i * logMean (μ i) (sd i) := ⟨_, rfl⟩
  have hpa : ∀ u, product cR a (uToX t marg u) = Real.exp (A0 + ∑ i, A i * u i) := fun u => by
    rw [product_std hμ hsd hm t hcR, hA0, hA]
  have hpb : ∀ u, product cS b (uToX t marg u) = Real.exp (B0 + ∑ i, B i * u i) := fun u => by
    rw [product_std hμ hsd hm t hcS, hB0, hB]
  have hfu : (fun u => f (uToX t marg u)) = fun u => Real.exp (A0 + ∑ i, A i * u i) - Real.exp (B0 + ∑ i, B i * u i) := by
    funext u
    rw [hq _ (hpos u), hpa, hpb]
  rw [hfu] at hd
  have hgr : ∀ i, r.point.gradient i = Real.exp (A0 + ∑ i, A i * r.point.u i) * A i - Real.exp (B0 + ∑ i, B i * r.point.u i) * B i := by
    have e := (products_deriv A B A0 B0 r.point.u).unique hd
    intro i
    have := congrArg (fun l => l (Pi.single i 1)) e
    simpa [gradMap_apply, Pi.single_apply] using this.symm
  obtain ⟨x, hxR⟩ : ∃ x, x = Real.exp (A0 + ∑ i, A i * r.point.u i) := ⟨_, rfl⟩
  obtain ⟨y, hyS⟩ : ∃ y, y = Real.exp (B0 + ∑ i, B i * r.point.u i) := ⟨_, rfl⟩
  have hx0 : 0 < x := hxR ▸ Real.exp_pos _
  have hy0 : 0 < y := hyS ▸ Real.exp_pos _
  have hxp : product cR a r.point.x = x := by rw [hx, hpa, hxR]
  have hGv : r.point.G = x - y := by rw [hG, hxR, hyS]; exact congrFun hfu r.point.u
  have hidx : logIndex cR a cS b μ sd R = (A0 - B0) / len (fun i => A i - B i) := by rw [logIndex_eq hF, hA0, hB0, hA, hB]
  have hlm : len (fun i => A i - B i) = productDev (fun i => a i - b i) μ sd R := by
    have e : (fun i => A i - B i) = vecMul (fun i => (a i - b i) * logDev (μ i) (sd i)) t.invT := by
      rw [show (fun i => (a i - b i) * logDev (μ i) (sd i)) = (fun i => a i * logDev (μ i) (sd i)) - fun i => b i * logDev (μ i) (sd i) by
        funext i; simp; ring, sub_vecMul, hA, hB]
      rfl
    rw [e, factor_len hF]
    rfl
  have hlB : len B = productDev b μ sd R := by rw [hB, factor_len hF]; rfl
  have key := loglinear_index hxR hyS (w := r.point.gradient) (fun i => by rw [hgr, hxR, hyS]) hg (by rw [hlm]; exact hdev)
    (beta_mul_len hg h) he2 hc2
  rw [← hidx, hlm, hlB] at key
  have hϱ : ϱ = opt.e1 * |r.Go| / x := by rw [← hxp]
  have hϱ1 : ϱ ≤ 1 / 2 := by
    rw [hϱ, div_le_iff₀ hx0, ← hxp]; linarith
  have hε : |(x - y) / x| ≤ ϱ := by
    rw [hϱ, abs_div, abs_of_pos hx0, ← hGv]
    exact div_le_div_of_nonneg_right hc1.le hx0.le
  have hlog : |Real.log (y / x)| ≤ 2 * ϱ := by
    have hyx : y / x = 1 - (x - y) / x := by field_simp; ring
    have hb := abs_le.1 hε
    have hpos : 0 < y / x := div_pos hy0 hx0
    have h1 := Real.log_le_sub_one_of_pos hpos
    have h2 := Real.one_sub_inv_le_log_of_pos hpos
    have hge : 1 / 2 ≤ y / x := by rw [hyx]; linarith
    have hinv : (y / x)⁻¹ ≤ 2 := by
      rw [inv_le_comm₀ hpos (by norm_num)]; linarith
    have h3 : 1 - (y / x)⁻¹ = (y / x)⁻¹ * (y / x - 1) := by field_simp
    have hϱ0 : 0 ≤ ϱ := (abs_nonneg _).trans hε
    rw [abs_le]
    constructor
    · rw [h3] at h2
      have hpi : 0 ≤ (y / x)⁻¹ := (inv_pos.2 hpos).le
      have : -ϱ ≤ y / x - 1 := by rw [hyx]; linarith
      have h4 : (y / x)⁻¹ * (-ϱ) ≤ (y / x)⁻¹ * (y / x - 1) := mul_le_mul_of_nonneg_left this hpi
      have h5 : -(2 * ϱ) ≤ (y / x)⁻¹ * (-ϱ) := by nlinarith
      linarith
    · rw [hyx] at h1
      rw [hyx]
      linarith
  have hdB : 0 ≤ productDev b μ sd R := Real.sqrt_nonneg _
  have hmain : |r.beta - logIndex cR a cS b μ sd R| ≤ err := by
    refine key.trans ?_
    change _ ≤ opt.e2 + _
    refine add_le_add le_rfl (div_le_div_of_nonneg_right ?_ hdev.le)
    have h1 : 2 * |r.beta| * |(x - y) / x| * productDev b μ sd R ≤ 2 * |r.beta| * ϱ * productDev b μ sd R :=
      mul_le_mul_of_nonneg_right (mul_le_mul_of_nonneg_left hε (by positivity)) hdB
    linarith
  refine ⟨hmain, ?_, fun hsp => ?_⟩
  swap
  · rw [run_Go hex hs h]
    congr 1
    exact (C21_round_trip ht marg _ fun i => (hfld i).2.2.1).2.2 _ hsp
  have hset : {u | f (uToX t marg u) ≤ 0} = {u | product cR a (uToX t marg u) - product cS b (uToX t marg u) ≤ 0} := by
    ext u
    rw [mem_setOf_eq, hq _ (hpos u), mem_setOf_eq]
  rw [hset, hprob, hPf]
  refine (stdCdf_lipschitz _ _).trans (div_le_div_of_nonneg_right ?_ (Real.sqrt_nonneg _))
  rw [show -r.beta - -logIndex cR a cS b μ sd R = -(r.beta - logIndex cR a cS b μ sd R) by ring, abs_neg]
  exact hmain

/-- The slopes of the slopes. -/
theorem products_hessian (A B : Fin n → ℝ) (A0 B0 : ℝ) (u : Fin n → ℝ) :
    HasFDerivAt (fun u : Fin n → ℝ => fun i => Real.exp (A0 + ∑ i, A i * u i) * A i - Real.exp (B0 + ∑ i, B i * u i) * B i)
      (ContinuousLinearMap.pi fun i => (Real.exp (A0 + ∑ i, A i * u i) * A i) • gradMap A -
        (Real.exp (B0 + ∑ i, B i * u i) * B i) • gradMap B) u := by
  have h : ∀ (c0 : ℝ) (c : Fin n → ℝ), HasFDerivAt (fun u : Fin n → ℝ => Real.exp (c0 + ∑ i, c i * u i))
      (Real.exp (c0 + ∑ i, c i * u i) • gradMap c) u := by
    intro c0 c
    have h1 : HasFDerivAt (fun u : Fin n → ℝ => c0 + ∑ i, c i * u i) (gradMap c) u := by
      have := (gradMap c).hasFDerivAt (x := u)
      refine (this.const_add c0).congr_of_eventuallyEq ?_
      exact Filter.Eventually.of_forall fun v => by simp [gradMap_apply]
    exact h1.exp
  refine hasFDerivAt_pi.2 fun i => ?_
  refine (((h A0 A).mul_const (A i)).sub ((h B0 B).mul_const (B i))).congr_fderiv ?_
  ext v
  simp only [ContinuousLinearMap.sub_apply, ContinuousLinearMap.smul_apply, smul_eq_mul]
  ring

/-- C118: FORM converges for every such limit state, whatever the index: there is a point at the distance of the exact index from the
origin such that a run started close enough to it, with the default step rule or any fixed step in `(0, 1]`, converges to the exact index. -/
theorem C118_converges {la : LinAlg} (hla : LinAlgOK la) {ty : TransformType} {R : Matrix (Fin n) (Fin n) ℝ} (hR : R.PosDef) {t : Mats n}
    (ht : Transformation.compute la ty R = .ok t) (hμ : ∀ i, 0 < μ i) (hsd : ∀ i, 0 < sd i)
    (hm : ∀ i, Lognormal.new (μ i) (sd i) false (sp i) = .ok (marg i)) {cR cS : ℝ} (hcR : 0 < cR) (hcS : 0 < cS) {a b : Fin n → ℝ}
    (hab : a ≠ b) {f : (Fin n → ℝ) → ℝ} (hq : ∀ x, (∀ i, 0 < x i) → f x = product cR a x - product cS b x)
    {grad : (Fin n → ℝ) → Fin n → ℝ} (hf : ∀ x, (∀ i, 0 < x i) → HasFDerivAt f (gradMap (grad x)) x)
    {ev : Evaluator σ n} {P : σ → Prop} (hex : Exact ev P f grad) :
    ∃ (us : Fin n → ℝ) (δ ρ C : ℝ), f (uToX t marg us) = 0 ∧ len us = |logIndex cR a cS b μ sd R| ∧ 0 < δ ∧ 0 < ρ ∧ ρ < 1 ∧ 0 < C ∧
    ∀ x0 : Fin n → ℝ, len (fun i => xToU t marg x0 i - us i) ≤ δ →
      ConvergesFrom t marg ev P f us (logIndex cR a cS b μ sd R) x0 ρ C 0 := by
  obtain ⟨hdev, -⟩ := C118_probability hla hR ht hμ hsd hm hcR hcS hab
  obtain ⟨t', ht', hF, -⟩ := C22_posdef hla ty hR
  rw [ht] at ht'; cases ht'
  have hfld := fun i => lognormal_fields (hμ i) (hsd i) (hm i)
  have hpos : ∀ u i, 0 < uToX t marg u i := fun u i => (hfld i).2.2.1.mem _
  obtain ⟨A, hA⟩ : ∃ A : Fin n → ℝ, A = vecMul (fun i => a i * logDev (μ i) (sd i)) t.invT := ⟨_, rfl⟩
  obtain ⟨B, hB⟩ : ∃ B : Fin n → ℝ, B = vecMul (fun i => b i * logDev (μ i) (sd i)) t.invT := ⟨_, rfl⟩
  obtain ⟨A0, hA0⟩ : ∃ A0, A0 = Real.log cR + ∑ i, a i * logMean (μ i) (sd i) := ⟨_, rfl⟩
  obtain ⟨B0, hB0⟩ : ∃ B0, B0 = Real.log cS + ∑ i, b i * logMean (μ i) (sd i) := ⟨_, rfl⟩
  have hpa : ∀ u, product cR a (uToX t marg u) = Real.exp (A0 + ∑ i, A i * u i) := fun u => by
    rw [product_std hμ hsd hm t hcR, hA0, hA]
  have hpb : ∀ u, product cS b (uToX t marg u) = Real.exp (B0 + ∑ i, B i * u i) := fun u => by
    rw [product_std hμ hsd hm t hcS, hB0, hB]
  have hfu : (fun u => f (uToX t marg u)) = fun u => Real.exp (A0 + ∑ i, A i * u i) - Real.exp (B0 + ∑ i, B i * u i) := by
    funext u
    rw [hq _ (hpos u), hpa, hpb]
  have hidx : logIndex cR a cS b μ sd R = (A0 - B0) / len (fun i => A i - B i) := by rw [logIndex_eq hF, hA0, hB0, hA, hB]
  have hlm : len (fun i => A i - B i) = productDev (fun i => a i - b i) μ sd R := by
    have e : (fun i => A i - B i) = vecMul (fun i => (a i - b i) * logDev (μ i) (sd i)) t.invT := by
      rw [show (fun i => (a i - b i) * logDev (μ i) (sd i)) = (fun i => a i * logDev (μ i) (sd i)) - fun i => b i * logDev (μ i) (sd i) by
        funext i; simp; ring, sub_vecMul, hA, hB]
      rfl
    rw [e, factor_len hF]
    rfl
  rw [← hlm] at hdev
  rw [hidx]
  obtain ⟨l, hl⟩ : ∃ l, l = len (fun i => A i - B i) := ⟨_, rfl⟩
  rw [← hl] at hdev ⊢
  obtain ⟨us, hus⟩ : ∃ us : Fin n → ℝ, us = fun i => -((A0 - B0) / l) / l * (A i - B i) := ⟨_, rfl⟩
  have hsq : ∑ i, (A i - B i) ^ 2 = l ^ 2 := by rw [hl, len_sq]
  have hmu : ∑ i, A i * us i - ∑ i, B i * us i = -(A0 - B0) := by
    rw [← Finset.sum_sub_distrib]
    have e : ∀ i, A i * us i - B i * us i = -((A0 - B0) / l) / l * (A i - B i) ^ 2 := fun i => by rw [hus]; ring
    rw [Finset.sum_congr rfl fun i _ => e i, ← Finset.mul_sum, hsq]
    field_simp
  have hRS : Real.exp (B0 + ∑ i, B i * us i) = Real.exp (A0 + ∑ i, A i * us i) := by
    congr 1; linarith
  obtain ⟨x, hx⟩ : ∃ x, x = Real.exp (A0 + ∑ i, A i * us i) := ⟨_, rfl⟩
  have hx0 : 0 < x := hx ▸ Real.exp_pos _
  obtain ⟨Gr, hGrd⟩ : ∃ Gr : (Fin n → ℝ) → Fin n → ℝ, Gr = fun u i => Real.exp (A0 + ∑ i, A i * u i) * A i -
      Real.exp (B0 + ∑ i, B i * u i) * B i := ⟨_, rfl⟩
  have hGr' : Gr us = fun i => x * (A i - B i) := by
    funext i; rw [hGrd]; beta_reduce; rw [hRS, ← hx]; ring
  have h0 : f (uToX t marg us) = 0 := by
    have := congrFun hfu us
    beta_reduce at this
    rw [this, hRS, sub_self]
  have hlG : len (fun i => x * (A i - B i)) = x * l := by rw [len_smul, abs_of_pos hx0, hl]
  obtain ⟨δ, ρ, C, hδ, hρ, hρ1, hC, hconv⟩ := C103_local (β := (A0 - B0) / l) (κ := 0) (us := us) ht (fun i => (hfld i).2.2.1)
    (fun _ => isOpen_Ioi) (fun i => (hfld i).2.2.2) (fun i => by rw [(hfld i).2.1]; fun_prop) (fun x hx => hf x hx) hex
    (Gr := Gr) (fun u => by rw [hfu, hGrd]; exact products_deriv A B A0 B0 u) (by rw [hGrd]; exact products_hessian A B A0 B0 us) h0
    (by
      rw [hGr']
      intro h
      have := hlG
      rw [h] at this
      have h1 : len (0 : Fin n → ℝ) = 0 := by simp [len]
      rw [h1] at this
      exact (mul_pos hx0 hdev).ne this)
    (by
      intro i
      rw [hGr', hlG]
      beta_reduce
      rw [hus]
      field_simp)
    (by
      intro h hh
      rw [hGr'] at hh ⊢
      have e0 : ∑ i, (A i - B i) * h i = 0 := by
        have : x * ∑ i, (A i - B i) * h i = 0 := by
          rw [Finset.mul_sum, ← hh]
          exact Finset.sum_congr rfl fun i _ => by ring
        exact (mul_eq_zero.1 this).resolve_left hx0.ne'
      have e1 : ∑ i, B i * h i = ∑ i, A i * h i := by
        simp only [sub_mul, Finset.sum_sub_distrib] at e0
        linarith
      have e2 : ∀ i, (ContinuousLinearMap.pi (R := ℝ) (φ := fun _ : Fin n => ℝ) fun i => (Real.exp (A0 + ∑ i, A i * us i) * A i) • gradMap A -
          (Real.exp (B0 + ∑ i, B i * us i) * B i) • gradMap B) h i = (∑ j, A j * h j) * (x * (A i - B i)) := by
        intro i
        simp only [ContinuousLinearMap.coe_pi', ContinuousLinearMap.sub_apply, ContinuousLinearMap.smul_apply, gradMap_apply, smul_eq_mul]
        rw [e1, hRS, ← hx]
        ring
      have hs2 : ∑ j, (x * (A j - B j)) ^ 2 = (x * l) ^ 2 := by
        rw [← hlG, len_sq]
      have hs3 : ∑ j, x * (A j - B j) * ((∑ j, A j * h j) * (x * (A j - B j))) = (∑ j, A j * h j) * (x * l) ^ 2 := by
        rw [← hs2, Finset.mul_sum]
        exact Finset.sum_congr rfl fun i _ => by ring
      simp only [e2, hs2, hs3]
      have hz : (fun i => (∑ j, A j * h j) * (x * (A i - B i)) - (∑ j, A j * h j) * (x * l) ^ 2 / (x * l) ^ 2 * (x * (A i - B i))) =
          fun _ => 0 := by
        funext i
        have : (x * l) ^ 2 ≠ 0 := pow_ne_zero _ (mul_pos hx0 hdev).ne'
        rw [mul_div_assoc, div_self this]
        ring
      rw [hz]
      simp [len])
    le_rfl (by norm_num)
  refine ⟨us, δ, ρ, C, h0, ?_, hδ, hρ, hρ1, hC, hconv⟩
  rw [hus, len_smul, ← hl, abs_div, abs_neg, abs_of_pos hdev]
  field_simp

/-- C118: if one of the two products is a constant (all its exponents are zero), the run converges to the exact index from every starting
point. -/
theorem C118_global {la : LinAlg} (hla : LinAlgOK la) {ty : TransformType} {R : Matrix (Fin n) (Fin n) ℝ} (hR : R.PosDef) {t : Mats n}
    (ht : Transformation.compute la ty R = .ok t) (hμ : ∀ i, 0 < μ i) (hsd : ∀ i, 0 < sd i)
    (hm : ∀ i, Lognormal.new (μ i) (sd i) false (sp i) = .ok (marg i)) {cR cS : ℝ} (hcR : 0 < cR) (hcS : 0 < cS) {a b : Fin n → ℝ}
    (hab : a ≠ b) (hconst : a = 0 ∨ b = 0) {f : (Fin n → ℝ) → ℝ} (hq : ∀ x, (∀ i, 0 < x i) → f x = product cR a x - product cS b x)
    {grad : (Fin n → ℝ) → Fin n → ℝ} (hf : ∀ x, (∀ i, 0 < x i) → HasFDerivAt f (gradMap (grad x)) x)
    {ev : Evaluator σ n} {P : σ → Prop} (hex : Exact ev P f grad) :
    ∃ us : Fin n → ℝ, f (uToX t marg us) = 0 ∧ len us = |logIndex cR a cS b μ sd R| ∧
    ∀ x0 : Fin n → ℝ, ∃ ρ C : ℝ, 0 < ρ ∧ ρ < 1 ∧ 0 < C ∧ ConvergesFrom t marg ev P f us (logIndex cR a cS b μ sd R) x0 ρ C 0 := by
  obtain ⟨hdev, -⟩ := C118_probability hla hR ht hμ hsd hm hcR hcS hab
  obtain ⟨t', ht', hF, -⟩ := C22_posdef hla ty hR
  rw [ht] at ht'; cases ht'
  have hfld := fun i => lognormal_fields (hμ i) (hsd i) (hm i)
  have hpos : ∀ u i, 0 < uToX t marg u i := fun u i => (hfld i).2.2.1.mem _
  obtain ⟨A, hA⟩ : ∃ A : Fin n → ℝ, A = vecMul (fun i => a i * logDev (μ i) (sd i)) t.invT := ⟨_, rfl⟩
  obtain ⟨B, hB⟩ : ∃ B : Fin n → ℝ, B = vecMul (fun i => b i * logDev (μ i) (sd i)) t.invT := ⟨_, rfl⟩
  obtain ⟨A0, hA0⟩ : ∃ A0, A0 = Real.log cR + ∑ i, a i * logMean (μ i) (sd i) := ⟨_, rfl⟩
  obtain ⟨B0, hB0⟩ : ∃ B0, B0 = Real.log cS + ∑ i, b i * logMean (μ i) (sd i) := ⟨_, rfl⟩
  have hpa : ∀ u, product cR a (uToX t marg u) = Real.exp (A0 + ∑ i, A i * u i) := fun u => by
    rw [product_std hμ hsd hm t hcR, hA0, hA]
  have hpb : ∀ u, product cS b (uToX t marg u) = Real.exp (B0 + ∑ i, B i * u i) := fun u => by
    rw [product_std hμ hsd hm t hcS, hB0, hB]
  have hfu : ∀ u, f (uToX t marg u) = Real.exp (A0 + ∑ i, A i * u i) - Real.exp (B0 + ∑ i, B i * u i) := fun u => by
    rw [hq _ (hpos u), hpa, hpb]
  obtain ⟨w, hw⟩ : ∃ w : Fin n → ℝ, w = fun i => A i - B i := ⟨_, rfl⟩
  have hidx : logIndex cR a cS b μ sd R = (A0 - B0) / len w := by rw [logIndex_eq hF, hA0, hB0, hw, hA, hB]
  have hlm : len w = productDev (fun i => a i - b i) μ sd R := by
    have e : w = vecMul (fun i => (a i - b i) * logDev (μ i) (sd i)) t.invT := by
      rw [show (fun i => (a i - b i) * logDev (μ i) (sd i)) = (fun i => a i * logDev (μ i) (sd i)) - fun i => b i * logDev (μ i) (sd i) by
        funext i; simp; ring, sub_vecMul, hw, hA, hB]
      rfl
    rw [e, factor_len hF]
    rfl
  have hw0 : w ≠ 0 := by
    rintro h
    rw [h] at hlm
    rw [← hlm] at hdev
    simp [len] at hdev
  have hwpos := len_pos hw0
  have hwu : ∀ u : Fin n → ℝ, ∑ i, w i * u i = ∑ i, A i * u i - ∑ i, B i * u i := fun u => by
    rw [hw]; simp only [sub_mul, Finset.sum_sub_distrib]
  -- the limit state is a function of the logarithmic margin
  have hex' : ∃ φ φ' : ℝ → ℝ, φ 0 = 0 ∧ (∀ y, HasDerivAt φ (φ' y) y) ∧ (∀ y, 0 < φ' y) ∧ (Monotone φ' ∨ Antitone φ') ∧
      ∀ u, f (uToX t marg u) = φ ((A0 - B0) + ∑ i, w i * u i) := by
    rcases hconst with h | h
    · have hA' : A = 0 := by rw [hA, h]; funext i; simp [vecMul, dotProduct]
      refine ⟨fun y => Real.exp A0 * (1 - Real.exp (-y)), fun y => Real.exp A0 * Real.exp (-y), by simp, fun y => ?_, fun y => by positivity,
        Or.inr fun x y hxy => ?_, fun u => ?_⟩
      · have h1 : HasDerivAt (fun y : ℝ => Real.exp (-y)) (-Real.exp (-y)) y := by simpa using (hasDerivAt_neg y).exp
        simpa using (h1.const_sub 1).const_mul (Real.exp A0)
      · exact mul_le_mul_of_nonneg_left (Real.exp_le_exp.2 (neg_le_neg hxy)) (Real.exp_pos _).le
      · rw [hfu, hwu, hA']
        simp only [Pi.zero_apply, zero_mul, Finset.sum_const_zero, add_zero, zero_sub]
        rw [mul_sub, mul_one, ← Real.exp_add]
        congr 2; ring
    · have hB' : B = 0 := by rw [hB, h]; funext i; simp [vecMul, dotProduct]
      refine ⟨fun y => Real.exp B0 * (Real.exp y - 1), fun y => Real.exp B0 * Real.exp y, by simp, fun y => ?_, fun y => by positivity,
        Or.inl fun x y hxy => ?_, fun u => ?_⟩
      · simpa using ((Real.hasDerivAt_exp y).sub_const 1).const_mul (Real.exp B0)
      · exact mul_le_mul_of_nonneg_left (Real.exp_le_exp.2 hxy) (Real.exp_pos _).le
      · rw [hfu, hwu, hB']
        simp only [Pi.zero_apply, zero_mul, Finset.sum_const_zero, add_zero, sub_zero]
        rw [mul_sub, mul_one, ← Real.exp_add]
        congr 2; ring
  obtain ⟨φ, φ', k0, k1, k2, k3, k4⟩ := hex'
  have key := (C104_margin ht (fun i => (hfld i).2.2.1) (fun _ => isOpen_Ioi) (fun i => (hfld i).2.2.2)
    (fun i => by rw [(hfld i).2.1]; fun_prop) (fun x hx => hf x hx) hex k0 k1 k2 k3 hw0 k4).1
  rw [← hidx] at key
  refine ⟨_, ?_, ?_, key⟩
  · rw [k4]
    convert k0 using 2
    have e : ∀ i, w i * (-logIndex cR a cS b μ sd R * w i / len w) = -logIndex cR a cS b μ sd R / len w * w i ^ 2 := fun i => by ring
    rw [Finset.sum_congr rfl fun i _ => e i, ← Finset.mul_sum, ← len_sq, hidx]
    field_simp
    ring
  · rw [show (fun i => -logIndex cR a cS b μ sd R * w i / len w) = fun i => (-logIndex cR a cS b μ sd R / len w) * w i by funext i; ring,
      len_smul, abs_div, abs_neg, abs_of_pos hwpos]
    field_simp

/-- The exponents of a product of some of the variables. -/
noncomputable def factorsOf (p : Finset (Fin n)) : Fin n → ℝ := fun i => if i ∈ p then 1 else 0

theorem product_factors (c : ℝ) (p : Finset (Fin n)) (x : Fin n → ℝ) : product c (factorsOf p) x = c * ∏ i ∈ p, x i := by
  unfold product factorsOf
  rw [← Finset.prod_filter_mul_prod_filter_not Finset.univ (· ∈ p)]
  rw [Finset.prod_congr rfl (g := fun i => x i) fun i hi => by rw [if_pos (Finset.mem_filter.1 hi).2, Real.rpow_one]]
  rw [Finset.prod_congr rfl (s₁ := Finset.univ.filter (· ∉ p)) (g := fun i => 1) fun i hi => by rw [if_neg (Finset.mem_filter.1 hi).2, Real.rpow_zero]]
  simp

/-- The slopes of a product of some of the variables. -/
noncomputable def factorSlope (c : ℝ) (p : Finset (Fin n)) (x : Fin n → ℝ) (j : Fin n) : ℝ := if j ∈ p then c * ∏ i ∈ p.erase j, x i else 0

theorem factor_step (c : ℝ) (p : Finset (Fin n)) (x : Fin n → ℝ) (j : Fin n) (h : ℝ) :
    c * ∏ i ∈ p, Function.update x j (x j + h) i = c * ∏ i ∈ p, x i + h * factorSlope c p x j := by
  unfold factorSlope
  by_cases hj : j ∈ p
  · rw [if_pos hj, ← Finset.mul_prod_erase p _ hj, ← Finset.mul_prod_erase p _ hj, Function.update_self]
    rw [Finset.prod_congr rfl (s₁ := p.erase j) (g := fun i => x i) fun i hi => by rw [Function.update_of_ne (Finset.ne_of_mem_erase hi)]]
    ring
  · rw [if_neg hj, mul_zero, add_zero]
    congr 1
    refine Finset.prod_congr rfl fun i hi => ?_
    rw [Function.update_of_ne]
    rintro rfl
    exact hj hi

theorem factor_deriv (c : ℝ) (p : Finset (Fin n)) (x : Fin n → ℝ) :
    HasFDerivAt (fun x : Fin n → ℝ => c * ∏ i ∈ p, x i) (gradMap (factorSlope c p x)) x := by
  have h := (HasFDerivAt.finset_prod (𝕜 := ℝ) (u := p) (g := fun i (x : Fin n → ℝ) => x i) (x := x)
    (g' := fun i => ContinuousLinearMap.proj i) (fun i _ => hasFDerivAt_apply (𝕜 := ℝ) (F' := fun _ : Fin n => ℝ) i x)).const_mul c
  refine h.congr_fderiv ?_
  ext v
  simp only [gradMap_apply, factorSlope, ContinuousLinearMap.smul_apply, ContinuousLinearMap.sum_apply, ContinuousLinearMap.proj_apply,
    smul_eq_mul, ite_mul, zero_mul, Finset.sum_ite_mem, Finset.univ_inter, Finset.mul_sum, mul_assoc]

/-- The evaluations of the code for such a function. -/
theorem factors_exact {D : Type} {cR cS : ℝ} {p q : Finset (Fin n)} {expr : Kwargs → GRet} {g : Dict String ℝ → ℝ} (hp : Pointwise expr g)
    (lo : LSOptions) (hbs : 1 ≤ lo.blockSize) (hpara : lo.ffdpara ≠ 0) (hmp : lo.multiProc ≠ 0) (hd1 : lo.diffMode ≠ "no")
    (hd2 : lo.diffMode ≠ "ddm") (hμ : ∀ i, 0 < μ i) (hsd : ∀ i, 0 < sd i) (hm : ∀ i, Lognormal.new (μ i) (sd i) false (sp i) = .ok (marg i))
    (m : StochModel D ℝ) (hmod : Reachable m) (hn : m.nMarg ≤ n) (hne : m.getNames ≠ [])
    (hg : ∀ x : Fin n → ℝ, g (pointArgs m x) = cR * ∏ i ∈ p, x i - cS * ∏ i ∈ q, x i) :
    Exact (lsEvaluator expr lo (fun i => (marg i).stdv)) (fun ev : Ev D => ∃ k, ev.model = m.addCallFunction k)
      (fun x => g (pointArgs m x)) (fun x j => factorSlope cR p x j - factorSlope cS q x j) ∧
    (∀ x, HasFDerivAt (fun x : Fin n → ℝ => g (pointArgs m x)) (gradMap fun j => factorSlope cR p x j - factorSlope cS q x j) x) ∧
    (∀ x : Fin n → ℝ, g (pointArgs m x) = product cR (factorsOf p) x - product cS (factorsOf q) x) := by
  have hs : ∀ j, (marg j).stdv ≠ 0 := fun j => by
    obtain ⟨m', h', -, h2, -⟩ := (good_lognormal (hμ j) (hsd j) (sp j)).ex
    rw [hm j] at h'; injection h' with h'; rw [h', h2]; exact (hsd j).ne'
  have hf : (fun x : Fin n → ℝ => g (pointArgs m x)) = fun x => cR * ∏ i ∈ p, x i - cS * ∏ i ∈ q, x i := funext hg
  refine ⟨ffd_exact_separate hp lo hbs hpara hmp hd1 hd2 (fun i => (marg i).stdv) hs m hmod hn hne
    (slope := fun x j => factorSlope cR p x j - factorSlope cS q x j) (by
      intro x j h
      rw [hf]
      beta_reduce
      rw [factor_step, factor_step]
      ring), fun x => ?_, fun x => by rw [hg, product_factors, product_factors]⟩
  rw [hf]
  refine ((factor_deriv cR p x).sub (factor_deriv cS q x)).congr_fderiv ?_
  ext v
  simp only [ContinuousLinearMap.sub_apply, gradMap_apply, ← Finset.sum_sub_distrib, sub_mul]

theorem factorsOf_ne {p q : Finset (Fin n)} (hpq : p ≠ q) : factorsOf p ≠ factorsOf q := by
  intro he
  apply hpq
  ext i
  have := congrFun he i
  unfold factorsOf at this
  by_cases h1 : i ∈ p <;> by_cases h2 : i ∈ q <;> simp_all

/-- C118 for the finite differences of the code: the user's function is `cR·Π_{i ∈ p} xᵢ - cS·Π_{i ∈ q} xᵢ`, a product of some lognormal
variables compared with a product of others; the gradients are the finite differences of the code, whatever `ffdpara`. -/
theorem C118_ffd {D : Type} {la : LinAlg} (hla : LinAlgOK la) {ty : TransformType} {R : Matrix (Fin n) (Fin n) ℝ} (hR : R.PosDef) {t : Mats n}
    (ht : Transformation.compute la ty R = .ok t) (hμ : ∀ i, 0 < μ i) (hsd : ∀ i, 0 < sd i)
    (hm : ∀ i, Lognormal.new (μ i) (sd i) false (sp i) = .ok (marg i)) {cR cS : ℝ} (hcR : 0 < cR) (hcS : 0 < cS) {p q : Finset (Fin n)}
    (hpq : p ≠ q) {expr : Kwargs → GRet} {g : Dict String ℝ → ℝ} (hp : Pointwise expr g) (lo : LSOptions) (hbs : 1 ≤ lo.blockSize)
    (hpara : lo.ffdpara ≠ 0) (hmp : lo.multiProc ≠ 0) (hd1 : lo.diffMode ≠ "no") (hd2 : lo.diffMode ≠ "ddm") (ev : Ev D)
    (hmod : Reachable ev.model) (hn : ev.model.nMarg ≤ n) (hne : ev.model.getNames ≠ [])
    (hg : ∀ x : Fin n → ℝ, g (pointArgs ev.model x) = cR * ∏ i ∈ p, x i - cS * ∏ i ∈ q, x i)
    {opt : Form.Options} {fuel : ℕ} {ev' : Ev D} {r : Result n}
    (h : runFrom t marg (lsEvaluator expr lo (fun i => (marg i).stdv)) opt fuel ev = some (.done r ev')) (hi : r.i ≠ opt.iMax)
    (he2 : 0 ≤ opt.e2) (hsmall : opt.e1 * |r.Go| ≤ cR * (∏ i ∈ p, r.point.x i) / 2) :
    let index := logIndex cR (factorsOf p) cS (factorsOf q) μ sd R
    let ϱ := opt.e1 * |r.Go| / (cR * ∏ i ∈ p, r.point.x i)
    let err := opt.e2 + 2 * ϱ * (1 + |r.beta| * productDev (factorsOf q) μ sd R) / productDev (fun i => factorsOf p i - factorsOf q i) μ sd R
    |r.beta - index| ≤ err ∧
    |r.Pf - (stdGauss n).real {u | g (pointArgs ev.model (uToX t marg u)) ≤ 0}| ≤ err / √(2 * Real.pi) ∧
    ((∀ i, 0 < (marg i).startpoint) → r.Go = cR * ∏ i ∈ p, (marg i).startpoint - cS * ∏ i ∈ q, (marg i).startpoint) := by
  obtain ⟨hex, hf, hq⟩ := factors_exact hp lo hbs hpara hmp hd1 hd2 hμ hsd hm ev.model hmod hn hne hg
  rw [← product_factors cR p] at hsmall
  have key := C118_accuracy hla hR ht hμ hsd hm hcR hcS (factorsOf_ne hpq) (fun x _ => hq x) (fun x _ => hf x) hex
    (by
      rintro s xs s' Gs ⟨k, hk⟩ hv
      exact ⟨_, by rw [values_calls hv, hk, addCall_addCall]⟩) ⟨0, rfl⟩ h hi he2 hsmall
  simp only [product_factors] at key
  refine ⟨key.1, key.2.1, fun hsp => ?_⟩
  rw [key.2.2 hsp, hg]

end products

end Pystra.Props
