import Verif.Props.FormCycle
import Verif.Props.FormDistanceExample

/-! C103: the local theorem for paraboloids of any curvatures, and concrete cases. -/

namespace Pystra.Props
open Matrix Spec Transformation Form Set

variable {σ : Type} {m : ℕ}

/-- C103: paraboloids, without a condition on the ratios of the curvatures: if `|β| |κᵢ| < 1` for all of them then FORM
converges from every starting point close enough to the design point. -/
theorem C103_paraboloid {la : LinAlg} {ty : TransformType} {Ro : Matrix (Fin (m + 1)) (Fin (m + 1)) ℝ} {t : Mats (m + 1)}
    (ht : Transformation.compute la ty Ro = .ok t) {marg : Fin (m + 1) → Marginal} {S : Fin (m + 1) → Set ℝ}
    (hmarg : ∀ i, RoundTrip (marg i) (S i)) (hS : ∀ i, IsOpen (S i)) (hj : ∀ i, JacobianCorrect (marg i) (S i))
    (hdiff : ∀ i, Differentiable ℝ (marg i).uToX)
    {f : (Fin (m + 1) → ℝ) → ℝ} {grad : (Fin (m + 1) → ℝ) → Fin (m + 1) → ℝ}
    (hf : ∀ x, (∀ i, x i ∈ S i) → HasFDerivAt f (gradMap (grad x)) x)
    {ev : Evaluator σ (m + 1)} {P : σ → Prop} (hex : Exact ev P f grad)
    {Q : Matrix (Fin (m + 1)) (Fin (m + 1)) ℝ} (hQ : Q * Qᵀ = 1) {κ : Fin m → ℝ} {c β K : ℝ} (hc : 0 < c)
    (hq : ∀ u, f (uToX t marg u) = c * (β - Q.mulVec u (Fin.last m) + 1 / 2 * ∑ i : Fin m, κ i * Q.mulVec u i.castSucc ^ 2))
    (hK : ∀ i, |κ i| ≤ K) (hK0 : 0 ≤ K) (hβ : |β| * K < 1) :
    ∃ δ ρ C : ℝ, 0 < δ ∧ 0 < ρ ∧ ρ < 1 ∧ 0 < C ∧
    ∀ (x0 : Fin (m + 1) → ℝ), len (fun i => xToU t marg x0 i - β * Q (Fin.last m) i) ≤ δ →
      ConvergesFrom t marg ev P f (fun i => β * Q (Fin.last m) i) β x0 ρ C 0 := by
  have hQ' : Qᵀ * Q = 1 := mul_eq_one_comm.1 hQ
  have hQt : (Qᵀ)ᵀ * Qᵀ = 1 := by rw [transpose_transpose]; exact hQ
  have hfun : (fun u => f (uToX t marg u)) = fun u => parVal κ c β (Q *ᵥ u) := funext hq
  obtain ⟨us, hus⟩ : ∃ us : Fin (m + 1) → ℝ, us = fun i => β * Q (Fin.last m) i := ⟨_, rfl⟩
  have hQus : Q *ᵥ us = Pi.single (Fin.last m) β := by
    have : us = Qᵀ *ᵥ Pi.single (Fin.last m) β := by
      rw [hus]; funext j; simp; ring
    rw [this, mulVec_mulVec, hQ, one_mulVec]
  obtain ⟨D, hD⟩ : ∃ D : Matrix (Fin (m + 1)) (Fin (m + 1)) ℝ, D = diagonal (Fin.snoc κ 0 : Fin (m + 1) → ℝ) := ⟨_, rfl⟩
  have hGr : ∀ u, Qᵀ *ᵥ parGrad κ c (Q *ᵥ u) = Qᵀ *ᵥ Pi.single (Fin.last m) (-c) + linMap (c • (Qᵀ * D * Q)) u := by
    intro u
    have e2 : parGrad κ c (Q *ᵥ u) = Pi.single (Fin.last m) (-c) + c • D.mulVec (Q *ᵥ u) := by
      funext i
      rw [hD]
      refine Fin.lastCases ?_ (fun i => ?_) i
      · simp [parGrad, mulVec_diagonal, -mulVec_mulVec]
      · simp [parGrad, mulVec_diagonal, -mulVec_mulVec, (Fin.castSucc_lt_last i).ne]
    rw [e2, mulVec_add, mulVec_smul, linMap_apply, smul_mulVec, ← mulVec_mulVec, ← mulVec_mulVec]
  have hGus : Qᵀ *ᵥ parGrad κ c (Q *ᵥ us) = (-c) • Q (Fin.last m) := by
    have : parGrad κ c (Q *ᵥ us) = Pi.single (Fin.last m) (-c) := by
      rw [hQus]
      funext i
      refine Fin.lastCases ?_ (fun i => ?_) i
      · simp [parGrad]
      · simp [parGrad, (Fin.castSucc_lt_last i).ne]
    rw [this]
    funext j; simp; ring
  have hna : norm2 (Q (Fin.last m)) = 1 := by
    have h := dot_self (Q (Fin.last m))
    have h1 := congrFun (congrFun hQ (Fin.last m)) (Fin.last m)
    rw [mul_apply, one_apply_eq] at h1
    have h2 : Q (Fin.last m) ⬝ᵥ Q (Fin.last m) = 1 := h1
    rw [h2] at h
    nlinarith [norm2_nonneg (Q (Fin.last m))]
  have hnG : norm2 (Qᵀ *ᵥ parGrad κ c (Q *ᵥ us)) = c := by
    rw [hGus, norm2_smul, hna, abs_neg, abs_of_pos hc, mul_one]
  rw [← hus]
  have hcoe : ∀ x0, len (fun i => xToU t marg x0 i - β * Q (Fin.last m) i) = len (fun i => xToU t marg x0 i - us i) := by
    intro x0; rw [hus]
  simp only [hcoe]
  refine C103_local ht hmarg hS hj hdiff hf hex (Gr := fun u => Qᵀ *ᵥ parGrad κ c (Q *ᵥ u)) (H := linMap (c • (Qᵀ * D * Q)))
    (κ := K) ?_ ?_ ?_ ?_ ?_ ?_ hK0 hβ
  · intro u
    rw [hfun]
    exact par_hasFDerivAt κ c β u
  · have e : (fun u => Qᵀ *ᵥ parGrad κ c (Q *ᵥ u)) = fun u => Qᵀ *ᵥ Pi.single (Fin.last m) (-c) + linMap (c • (Qᵀ * D * Q)) u := funext hGr
    rw [e]
    exact (linMap (c • (Qᵀ * D * Q))).hasFDerivAt.const_add _
  · rw [hq, hQus]
    have : ∀ i : Fin m, (Pi.single (Fin.last m) β : Fin (m + 1) → ℝ) i.castSucc = 0 := fun i => by simp [(Fin.castSucc_lt_last i).ne]
    simp [this]
  · intro h
    rw [h, norm2_zero] at hnG
    linarith
  · intro i
    have e : len (Qᵀ *ᵥ parGrad κ c (Q *ᵥ us)) = c := hnG
    rw [e, hGus, hus, Pi.smul_apply, smul_eq_mul]
    field_simp
  · intro h _
    have e : len (Qᵀ *ᵥ parGrad κ c (Q *ᵥ us)) = c := hnG
    rw [e]
    obtain ⟨g, hg⟩ : ∃ g, g = Qᵀ *ᵥ parGrad κ c (Q *ᵥ us) := ⟨_, rfl⟩
    rw [← hg]
    have e2 : (fun i => (linMap (c • (Qᵀ * D * Q))) h i - (∑ j, g j * (linMap (c • (Qᵀ * D * Q))) h j) / (∑ j, g j ^ 2) * g i) =
        tang g (linMap (c • (Qᵀ * D * Q)) h) := by
      funext i
      simp only [tang, Pi.sub_apply, Pi.smul_apply, smul_eq_mul, dotProduct, sq]
    rw [e2]
    refine (norm2_tang_le _ _).trans ?_
    rw [linMap_apply, smul_mulVec, norm2_smul, abs_of_pos hc, ← mulVec_mulVec, ← mulVec_mulVec, rot_norm hQt]
    have h1 : norm2 (D *ᵥ (Q *ᵥ h)) ≤ K * norm2 (Q *ᵥ h) := by
      apply le_of_sq_le_sq _ (mul_nonneg hK0 (norm2_nonneg _))
      rw [mul_pow, norm2_sq, norm2_sq, Finset.mul_sum]
      refine Finset.sum_le_sum fun i _ => ?_
      rw [hD, mulVec_diagonal, mul_pow]
      refine mul_le_mul_of_nonneg_right ?_ (sq_nonneg _)
      refine Fin.lastCases ?_ (fun i => ?_) i
      · simp [sq_nonneg]
      · rw [Fin.snoc_castSucc, ← sq_abs]
        exact pow_le_pow_left₀ (abs_nonneg _) (hK i) 2
    rw [rot_norm hQ'] at h1
    have h2 := mul_le_mul_of_nonneg_left h1 hc.le
    have h3 : len h = norm2 h := rfl
    rw [h3]
    calc c * norm2 (D *ᵥ Q *ᵥ h) ≤ c * (K * norm2 h) := h2
      _ = K * c * norm2 h := by ring

/-- Independent standard normal variables and a paraboloid: what the theorems of C103 assume. -/
theorem hlrf_setting {la : LinAlg} (hla : LinAlgOK la) (ty : TransformType) (Q : Matrix (Fin (m + 1)) (Fin (m + 1)) ℝ) (κ : Fin m → ℝ) (c β : ℝ) :
    ∃ (t : Mats (m + 1)) (marg : Fin (m + 1) → Marginal) (f : (Fin (m + 1) → ℝ) → ℝ) (grad : (Fin (m + 1) → ℝ) → Fin (m + 1) → ℝ),
      (∀ i, Normal.new 0 (.fin 1) none = .ok (marg i)) ∧
      Transformation.compute la ty (1 : Matrix (Fin (m + 1)) (Fin (m + 1)) ℝ) = .ok t ∧
      (∀ i, RoundTrip (marg i) univ) ∧ (∀ i, JacobianCorrect (marg i) univ) ∧ (∀ i, Differentiable ℝ (marg i).uToX) ∧
      (∀ x, (∀ i : Fin (m + 1), x i ∈ (univ : Set ℝ)) → HasFDerivAt f (gradMap (grad x)) x) ∧
      (∀ u, f (uToX t marg u) = c * (β - Q.mulVec u (Fin.last m) + 1 / 2 * ∑ i : Fin m, κ i * Q.mulVec u i.castSucc ^ 2)) := by
  obtain ⟨t, ht, -, hT, -⟩ := C22_posdef hla ty (Ro := (1 : Matrix (Fin (m + 1)) (Fin (m + 1)) ℝ)) PosDef.one
  obtain ⟨mg, hmg, -, -, -, h1, h2, -⟩ := (good_normal 0 one_pos none).ex
  refine ⟨t, fun _ => mg, fun x => parVal κ c β (Q *ᵥ (t.T *ᵥ x)),
    fun x => vecMul (Qᵀ *ᵥ parGrad κ c (Q *ᵥ (t.T *ᵥ x))) t.T, fun _ => hmg, ht, fun _ => h1, fun _ => h2, fun _ => ?_, ?_, ?_⟩
  · rw [(normal_ok hmg).1]
    unfold Normal.uToX
    fun_prop
  · intro x _
    have h := (par_hasFDerivAt (Q := Q) κ c β (t.T *ᵥ x)).comp x (linMap t.T).hasFDerivAt
    refine h.congr_fderiv ?_
    ext v
    simp only [ContinuousLinearMap.comp_apply, gradMap_apply, linMap_apply]
    change (Qᵀ *ᵥ parGrad κ c (Q *ᵥ (t.T *ᵥ x))) ⬝ᵥ t.T.mulVec v = vecMul _ t.T ⬝ᵥ v
    rw [dotProduct_mulVec]
  · intro u
    have hx : uToX t (fun _ => mg) u = t.invT.mulVec u := by
      funext i
      simp [uToX, (normal_ok hmg).1, Normal.uToX]
    have e : t.T *ᵥ (t.invT *ᵥ u) = u := by rw [mulVec_mulVec, hT, one_mulVec]
    rw [hx]
    dsimp only
    rw [e]
    rfl

theorem gradEv_values {n : ℕ} (f : (Fin n → ℝ) → ℝ) (grad : (Fin n → ℝ) → Fin n → ℝ) : Values (gradEv f grad) (fun _ => True) f :=
  fun s _ xs => ⟨s, rfl, trivial⟩

/-- An instance of `C103_global`: three standard normal variables, curvatures 1/4 and 0, distance 2; FORM converges from every starting
point, with `step_size = 1` halving the bound on the distance to the design point every three passes (the rate is 3/4). -/
example {la : LinAlg} (hla : LinAlgOK la) : ∃ (t : Mats 3) (marg : Fin 3 → Marginal) (f : (Fin 3 → ℝ) → ℝ)
    (grad : (Fin 3 → ℝ) → Fin 3 → ℝ), (∀ u, f (uToX t marg u) = 2 - u 2 + 1 / 8 * u 0 ^ 2) ∧
    ∀ x0, ∃ C > 0, ConvergesFrom t marg (gradEv f grad) (fun _ => True) f ![0, 0, 2] 2 x0 (3 / 4) C 0 := by
  obtain ⟨t, marg, f, grad, -, ht, h1, h2, h3, h4, h5⟩ := hlrf_setting hla .cholesky (1 : Matrix (Fin (2 + 1)) (Fin (2 + 1)) ℝ)
    ![1 / 4, 0] 1 2
  refine ⟨t, marg, f, grad, fun u => ?_, fun x0 => ?_⟩
  · rw [h5]
    simp [Fin.sum_univ_two, Fin.last]
    ring
  · have h := C103_global ht h1 (fun _ => isOpen_univ) h2 h3 h4 (gradEv_exact f grad) (Q := 1) (by simp) (κ := ![1 / 4, 0]) (c := 1) (β := 2)
      (K := 1 / 4) (ϱ := 1) one_pos h5 (by intro i; fin_cases i <;> norm_num) (by norm_num) (by norm_num) (by norm_num) (by norm_num)
      (by intro i j; fin_cases i <;> fin_cases j <;> norm_num) x0
    have e1 : (1 + max ((1 : ℝ) / 2) (|2| * (1 / 4))) / 2 = 3 / 4 := by norm_num
    have e2 : (fun i => 2 * (1 : Matrix (Fin (2 + 1)) (Fin (2 + 1)) ℝ) (Fin.last 2) i) = ![0, 0, 2] := by
      funext i
      fin_cases i <;> simp [Fin.last, one_apply]
    rw [e1, e2] at h
    exact h

/-- An instance of `C103_cycle`: curvature 5/4, distance 2 (`βκ = 5/2 > 1`, `y = 1`): from `(4/5, 4/5)` the search alternates between
that point and `(-4/5, 4/5)`; FORM with the default step rule reports the reliability index 0 after any number of passes. -/
example {la : LinAlg} (hla : LinAlgOK la) : ∃ (t : Mats 2) (marg : Fin 2 → Marginal) (f : (Fin 2 → ℝ) → ℝ)
    (grad : (Fin 2 → ℝ) → Fin 2 → ℝ), (∀ u, f (uToX t marg u) = 2 - u 1 + 5 / 8 * u 0 ^ 2) ∧
    ∃ x0 : Fin 2 → ℝ, ∀ N, 1 ≤ N → ∃ r s', runFrom t (fun i => { marg i with startpoint := x0 i }) (gradEv f grad)
      ⟨N, 0.001, 0.001, 0, 1⟩ N () = some (.done r s') ∧ r.i = N ∧ r.point.G = 8 / 5 ∧ r.beta = 0 := by
  obtain ⟨t, marg, f, grad, -, ht, h1, h2, h3, h4, h5⟩ := hlrf_setting hla .cholesky (1 : Matrix (Fin (1 + 1)) (Fin (1 + 1)) ℝ)
    ![5 / 4] 1 2
  refine ⟨t, marg, f, grad, fun u => ?_, ?_⟩
  · rw [h5]
    simp [Fin.last]
    ring
  · obtain ⟨x0, -, hx⟩ := C103_cycle ht h1 (fun _ => isOpen_univ) h2 h3 h4 (gradEv_exact f grad) (gradEv_values f grad) (Q := 1) (by simp)
      (κ := ![5 / 4]) (c := 1) (β := 2) one_pos h5 (i0 := 0) (by norm_num) (by norm_num)
    refine ⟨x0, fun N hN => ?_⟩
    obtain ⟨r, s', hr, hi, -, hG, hb, -⟩ := hx ⟨N, 0.001, 0.001, 0, 1⟩ (Or.inr ⟨rfl, rfl⟩) (by norm_num) hN N le_rfl () trivial
    refine ⟨r, s', hr, hi, ?_, ?_⟩
    · rw [hG]; norm_num
    · rw [hb]; norm_num

end Pystra.Props
