import Verif.Props.SensNormal

/-! C51 for affine limit states in correlated normal variables, and what the SVD transformation does to the correlation sensitivities. -/

namespace Pystra.Props
open Spec Matrix Transformation Form Sensitivity CholeskySens

variable {n : ℕ}

/-- `vᵀ R v`. -/
noncomputable def varOf (R : Matrix (Fin n) (Fin n) ℝ) (v : Fin n → ℝ) : ℝ := ∑ i, ∑ j, v i * R i j * v j

/-- The reliability index of an affine function of correlated normal variables. -/
noncomputable def corrBeta (a0 : ℝ) (a μ sd : Fin n → ℝ) (R : Matrix (Fin n) (Fin n) ℝ) : ℝ :=
  (a0 + ∑ i, a i * μ i) / √(varOf R (fun i => a i * sd i))

open Classical in
/-- The computed derivative of the modified correlation with respect to the correlation: the inverse of the quadrature derivative. -/
noncomputable def kappa (dist : Fin n → Dist) (R Ro : Matrix (Fin n) (Fin n) ℝ) (i j : Fin n) : ℝ :=
  if |Integration.drhoDrho0 (Ro i j) (dist i).marg (dist j).marg (gridOf (R i j) (dist i).marg (dist j).marg)| > 1e-300 then
    1 / Integration.drhoDrho0 (Ro i j) (dist i).marg (dist j).marg (gridOf (R i j) (dist i).marg (dist j).marg) else 0

theorem setSym_apply (A : Matrix (Fin n) (Fin n) ℝ) {i j : Fin n} (v : ℝ) (p q : Fin n) :
    setSym A i j v p q = if p = j ∧ q = i then v else if p = i ∧ q = j then v else A p q := by
  simp only [setSym, setEntry]

theorem setSym_symm (i j : Fin n) (v : ℝ) : (setSym (0 : Matrix (Fin n) (Fin n) ℝ) i j v).IsSymm := by
  ext p q
  rw [transpose_apply, setSym_apply, setSym_apply]
  by_cases h1 : q = j ∧ p = i
  · rw [if_pos h1]
    by_cases h2 : p = j ∧ q = i
    · rw [if_pos h2]
    · rw [if_neg h2, if_pos ⟨h1.2, h1.1⟩]
  · rw [if_neg h1]
    by_cases h2 : q = i ∧ p = j
    · rw [if_pos h2, if_pos ⟨h2.2, h2.1⟩]
    · rw [if_neg h2, if_neg (fun h => h2 ⟨h.2, h.1⟩), if_neg (fun h => h1 ⟨h.2, h.1⟩)]
      rfl

theorem setSym_quad {i j : Fin n} (hij : j < i) (c : ℝ) (v : Fin n → ℝ) :
    v ⬝ᵥ (setSym (0 : Matrix (Fin n) (Fin n) ℝ) i j c).mulVec v = 2 * c * v i * v j := by
  have hm : ∀ p, (setSym (0 : Matrix (Fin n) (Fin n) ℝ) i j c).mulVec v p = if p = i then c * v j else if p = j then c * v i else 0 := by
    intro p
    simp only [mulVec, dotProduct, setSym_apply]
    by_cases h1 : p = i
    · subst h1
      rw [Finset.sum_eq_single j]
      · simp
      · intro q _ hq; simp [hq, hij.ne']
      · simp
    · by_cases h2 : p = j
      · subst h2
        rw [Finset.sum_eq_single i]
        · simp [h1]
        · intro q _ hq; simp [hq, h1]
        · simp
      · simp [h1, h2]
  simp only [dotProduct, hm]
  have e : ∀ p, v p * (if p = i then c * v j else if p = j then c * v i else 0) =
      (if p = i then c * v i * v j else 0) + (if p = j then c * v i * v j else 0) := by
    intro p
    by_cases h1 : p = i
    · subst h1; simp [hij.ne']; ring
    · by_cases h2 : p = j
      · subst h2; simp [h1]; ring
      · simp [h1, h2]
  simp only [e, Finset.sum_add_distrib, Finset.sum_ite_eq', Finset.mem_univ, if_true]
  ring

/-- The reported number for a result whose direction is that of `Lᵀv`, for any factor `L` of the modified correlation matrix. -/
theorem corr_general (dist : Fin n → Dist) (Ro : Matrix (Fin n) (Fin n) ℝ) {t : Mats n} (hu : IsUnit t.invT.det) (g : Integration.Grid)
    (i j : Fin n) (v : Fin n → ℝ) (s b : ℝ) {D : Matrix (Fin n) (Fin n) ℝ} {k : ℝ}
    (hk : k = if |Integration.drhoDrho0 (Ro i j) (dist i).marg (dist j).marg g| > 1e-300 then
      1 / Integration.drhoDrho0 (Ro i j) (dist i).marg (dist j).marg g else 0)
    (hD : D = (choleskyWithDerivative Ro (setSym 0 i j k)).2) :
    corrOne dist Ro t (s • vecMul v t.invT) (b • s • vecMul v t.invT) g i j = -(b * s ^ 2) * (v ⬝ᵥ (D * t.invTᵀ).mulVec v) := by
  unfold corrOne
  simp only [← hk, ← hD]
  have e1 : (dinvL0 t.invT D).mulVec (t.invT.mulVec (b • s • vecMul v t.invT)) = -(b * s) • t.invT⁻¹.mulVec ((D * t.invTᵀ).mulVec v) := by
    unfold dinvL0
    rw [mulVec_mulVec, Matrix.mul_assoc, nonsing_inv_mul _ hu, Matrix.mul_one, mulVec_smul, mulVec_smul, neg_mul, neg_mulVec,
      ← mulVec_transpose, mulVec_mulVec, mulVec_mulVec, Matrix.mul_assoc, smul_neg, smul_neg, neg_smul, smul_smul]
  have e2 : ∀ x : Fin n → ℝ, vecMul v t.invT ⬝ᵥ t.invT⁻¹.mulVec x = v ⬝ᵥ x := by
    intro x
    rw [dotProduct_mulVec, vecMul_vecMul, mul_nonsing_inv _ hu, vecMul_one]
  rw [e1, dotProduct_smul, smul_dotProduct, e2]
  simp only [smul_eq_mul]
  ring

theorem varOf_eq (R : Matrix (Fin n) (Fin n) ℝ) (v : Fin n → ℝ) : varOf R v = v ⬝ᵥ R.mulVec v := by
  simp only [varOf, dotProduct, mulVec, Finset.mul_sum, mul_assoc]

/-- How `vᵀ R v` moves with one correlation. -/
theorem varOf_setSym {R : Matrix (Fin n) (Fin n) ℝ} (hR : R.IsSymm) {i j : Fin n} (hij : j < i) (v : Fin n → ℝ) (ρ : ℝ) :
    varOf (setSym R i j ρ) v = varOf R v + 2 * (ρ - R i j) * v i * v j := by
  have e : setSym R i j ρ = R + setSym 0 i j (ρ - R i j) := by
    ext p q
    rw [Matrix.add_apply, setSym_apply, setSym_apply]
    split_ifs with h1 h2
    · obtain ⟨rfl, rfl⟩ := h1
      rw [hR.apply]; ring
    · obtain ⟨rfl, rfl⟩ := h2
      ring
    · simp
  rw [varOf_eq, varOf_eq, e, add_mulVec, dotProduct_add, setSym_quad hij]

/-- The derivative of the reliability index with respect to one correlation. -/
theorem corrBeta_deriv (a0 : ℝ) (a μ sd : Fin n → ℝ) {R : Matrix (Fin n) (Fin n) ℝ} (hR : R.IsSymm) {i j : Fin n} (hij : j < i)
    (hq : 0 < varOf R (fun i => a i * sd i)) :
    HasDerivAt (fun ρ => corrBeta a0 a μ sd (setSym R i j ρ))
      (-(corrBeta a0 a μ sd R) * (a i * sd i) * (a j * sd j) / varOf R (fun i => a i * sd i)) (R i j) := by
  unfold corrBeta
  simp only [varOf_setSym hR hij]
  set V := varOf R (fun i => a i * sd i)
  set b := a0 + ∑ i, a i * μ i
  have h1 : HasDerivAt (fun ρ : ℝ => V + 2 * (ρ - R i j) * (a i * sd i) * (a j * sd j)) (2 * (a i * sd i) * (a j * sd j)) (R i j) := by
    have := (((((hasDerivAt_id (R i j)).sub_const (R i j)).const_mul 2).mul_const (a i * sd i)).mul_const (a j * sd j)).const_add V
    simpa using this
  have hv : V + 2 * (R i j - R i j) * (a i * sd i) * (a j * sd j) = V := by ring
  have h2 := h1.sqrt (by rw [hv]; exact hq.ne')
  have hs : √V ≠ 0 := (Real.sqrt_pos.2 hq).ne'
  have h3 := (hasDerivAt_const (R i j) b).div h2 (by rw [hv]; exact hs)
  refine h3.congr_deriv ?_
  rw [hv, Real.sq_sqrt hq.le]
  field_simp
  ring

/-- A positive definite matrix gives a positive `vᵀ R v`. -/
theorem varOf_pos {R : Matrix (Fin n) (Fin n) ℝ} (hR : R.PosDef) {v : Fin n → ℝ} (hv : v ≠ 0) : 0 < varOf R v := by
  have := hR.dotProduct_mulVec_pos hv
  rw [varOf_eq]
  simpa using this

/-- The length of `Lᵀ v`. -/
theorem norm2_varOf {R L : Matrix (Fin n) (Fin n) ℝ} (h : L * Lᵀ = R) (v : Fin n → ℝ) : norm2 (vecMul v L) ^ 2 = varOf R v := by
  rw [norm2_sq, varOf_eq, ← h, ← mulVec_mulVec, dotProduct_mulVec, mulVec_transpose]
  simp only [dotProduct, pow_two]

/-- The closed-form analysis of normal variables never raises. -/
theorem normals_ok {μ sd : Fin n → ℝ} {sp : Fin n → Option ℝ} {marg : Fin n → Marginal}
    (hm : ∀ i, Normal.new (μ i) (.fin (sd i)) (sp i) = .ok (marg i)) (names : Fin n → String) (R Ro : Matrix (Fin n) (Fin n) ℝ) (t : Mats n)
    (al u : Fin n → ℝ) : ∃ c, cfSens (fun i => normalDist (marg i)) names R Ro t al u = .ok c := by
  have h1 : ∀ k param, (∃ dF dmu dsig, (normalDist (marg k)).dFParam param = .ok dF ∧ (normalDist (marg k)).dmoments param = .ok (dmu, dsig)) →
      ∃ v, marginalOne (fun i => normalDist (marg i)) R Ro t al u k param = .ok v := by
    rintro k param ⟨dF, dmu, dsig, e1, e2⟩
    obtain ⟨A, hA, -⟩ := dR0Loop_eq (fun i => normalDist (marg i)) R Ro k param e1 e2 (Sensitivity.pairs n)
      (fun p hp => Sensitivity.mem_pairs.1 hp) 0
    unfold marginalOne
    simp only [e1, hA]
    exact ⟨_, rfl⟩
  have h2 : ∀ k, ∃ v, marginalVar (fun i => normalDist (marg i)) R Ro t al u k (Dict.keys (normalDist (marg k)).sensitivityParams) = .ok v := by
    intro k
    obtain ⟨⟨a1, a2⟩, ⟨b1, b2⟩, e⟩ := normalDist_sens (hm k)
    obtain ⟨v, hv⟩ := h1 k "mean" ⟨_, _, _, a1, a2⟩
    obtain ⟨w, hw⟩ := h1 k "std" ⟨_, _, _, b1, b2⟩
    rw [e]
    simp only [marginalVar, hv, hw]
    exact ⟨_, rfl⟩
  have h3 : ∀ ks, ∃ v, marginalAll (fun i => normalDist (marg i)) R Ro t al u names ks = .ok v := by
    intro ks
    induction ks with
    | nil => exact ⟨_, rfl⟩
    | cons k ks ih =>
      obtain ⟨v, hv⟩ := h2 k
      obtain ⟨w, hw⟩ := ih
      unfold marginalAll
      simp only [hv, hw]
      exact ⟨_, rfl⟩
  obtain ⟨m, hm⟩ := h3 (List.finRange n)
  obtain ⟨C, hC, -⟩ := corrLoop_eq (fun i => normalDist (marg i)) R Ro t al u (Sensitivity.pairs n)
    (fun p hp => Sensitivity.mem_pairs.1 hp) 0
  unfold cfSens
  rw [hm]
  simp only [hC]
  exact ⟨_, rfl⟩

/-- The reported entry for a FORM result of an affine limit state, in terms of the factor in use. -/
theorem corr_affine (dist : Fin n → Dist) {R Ro : Matrix (Fin n) (Fin n) ℝ} {t : Mats n} (hu : IsUnit t.invT.det)
    (hfac : t.invT * t.invTᵀ = Ro) (v : Fin n → ℝ) (b : ℝ) (i j : Fin n) :
    corrOne dist Ro t (alpha (vecMul v t.invT)) (b • alpha (vecMul v t.invT)) (gridOf (R i j) (dist i).marg (dist j).marg) i j =
      -b / varOf Ro v * (v ⬝ᵥ ((choleskyWithDerivative Ro (setSym 0 i j (kappa dist R Ro i j))).2 * t.invTᵀ).mulVec v) := by
  rw [alpha_eq, corr_general dist Ro hu _ i j v _ b (k := kappa dist R Ro i j) rfl rfl, ← norm2_varOf hfac v]
  rw [neg_sq, inv_pow]
  ring

/-- **C51 (affine limit states, correlated normal variables).**  With the Cholesky transformation, FORM followed by the closed-form
sensitivity analysis of its result reports for every pair the derivative of the reliability index with respect to that entry of the
modified correlation matrix, times the computed derivative of this entry with respect to the correlation the user gave. -/
theorem C51_affine {σ : Type} {la : LinAlg} (hla : LinAlgOK la) {R Ro : Matrix (Fin n) (Fin n) ℝ} (hR : Ro.PosDef)
    {μ sd : Fin n → ℝ} {sp : Fin n → Option ℝ} (hsd : ∀ i, 0 < sd i) {marg : Fin n → Marginal}
    (hm : ∀ i, Normal.new (μ i) (.fin (sd i)) (sp i) = .ok (marg i)) (a0 : ℝ) (a : Fin n → ℝ) (ha : a ≠ 0)
    {ev : Evaluator σ n} {P : σ → Prop} (hev : Exact ev P (fun x => a0 + ∑ i, a i * x i) (fun _ => a))
    (opt : Form.Options) (hst : opt.stepSize = 1) (he1 : 0 < opt.e1) (he1' : opt.e1 ≤ 1) (he2 : 0 < opt.e2)
    (hi : 2 ≤ opt.iMax) (s : σ) (hs : P s) (fuel : ℕ) (hf : opt.iMax ≤ fuel) (names : Fin n → String) :
    ∃ t r s' c, Transformation.compute la .cholesky Ro = .ok t ∧ runFrom t marg ev opt fuel s = some (.done r s') ∧
      r.beta = corrBeta a0 a μ sd Ro ∧
      cfSens (fun i => normalDist (marg i)) names R Ro t r.alpha r.point.u = .ok c ∧
      ∀ i j, j < i → ∃ d, HasDerivAt (fun ρ => corrBeta a0 a μ sd (setSym Ro i j ρ)) d (Ro i j) ∧
        c.correlation i j = kappa (fun i => normalDist (marg i)) R Ro i j * d := by
  obtain ⟨t, ht, hfac, h1, h2⟩ := C22_posdef hla .cholesky hR
  obtain ⟨r, s', hr, hb, -, hu, -, -, hal⟩ := C30_exact hla hR ht hsd hm a0 a ha hev opt hst he1 he1' he2 hi s hs fuel hf
  obtain ⟨c, hc⟩ := normals_ok hm names R Ro t r.alpha r.point.u
  refine ⟨t, r, s', c, ht, hr, hb, hc, fun i j hij => ⟨_, corrBeta_deriv a0 a μ sd ?_ hij (varOf_pos hR ?_), ?_⟩⟩
  · have := hR.1
    unfold IsHermitian at this
    rwa [conjTranspose_eq_transpose_of_trivial] at this
  · intro h0
    apply ha
    funext k
    have := congrFun h0 k
    simpa [(hsd k).ne'] using this
  · obtain ⟨-, -, h3⟩ := C51_shape _ _ _ _ _ _ _ _ hc
    rw [h3 i j hij, hu, hb]
    have hL : IsCholesky Ro t.invT := by
      obtain ⟨L, hL, hc⟩ := hla.chol Ro hR
      simp only [compute, computeCholesky, hL] at ht
      split at ht
      · cases ht
      · injection ht with ht
        rw [← ht]; exact hc
    have hdet : IsUnit t.invT.det := (Matrix.isUnit_iff_isUnit_det _).1 (IsUnit.of_mul_eq_one _ h2)
    have hal' : r.alpha = alpha (vecMul (fun i => a i * sd i) t.invT) := hal
    rw [hal', corr_affine (R := R) _ hdet hfac]
    set K := setSym (0 : Matrix (Fin n) (Fin n) ℝ) i j (kappa (fun i => normalDist (marg i)) R Ro i j) with hK
    have hKs : K.IsSymm := setSym_symm _ _ _
    have e1 := cholesky_unique hL (C26_factor hR hKs)
    obtain ⟨-, e2⟩ := C27_equation hR hKs
    rw [← e1] at e2
    set D := (choleskyWithDerivative Ro K).2
    set v := fun i => a i * sd i with hv
    have e3 : v ⬝ᵥ (D * t.invTᵀ).mulVec v + v ⬝ᵥ (D * t.invTᵀ).mulVec v = 2 * kappa (fun i => normalDist (marg i)) R Ro i j * v i * v j := by
      rw [← setSym_quad hij, ← hK, ← e2, add_mulVec, dotProduct_add]
      congr 1
      rw [dotProduct_mulVec, ← mulVec_transpose, transpose_mul, transpose_transpose, dotProduct_comm]
    have e4 : v ⬝ᵥ (D * t.invTᵀ).mulVec v = kappa (fun i => normalDist (marg i)) R Ro i j * v i * v j := by linarith
    rw [e4]
    change -(corrBeta a0 a μ sd Ro) / _ * _ = _
    simp only [hv]
    ring

/-- The correlation matrix of two variables. -/
def corrTwo (ρ : ℝ) : Matrix (Fin 2) (Fin 2) ℝ := !![1, ρ; ρ, 1]

theorem corrTwo_posDef {ρ : ℝ} (h : ρ ^ 2 < 1) : (corrTwo ρ).PosDef := by
  refine PosDef.of_dotProduct_mulVec_pos ?_ fun x hx => ?_
  · ext i j
    fin_cases i <;> fin_cases j <;> simp [corrTwo]
  · have e : star x ⬝ᵥ (corrTwo ρ).mulVec x = (x 0 + ρ * x 1) ^ 2 + (1 - ρ ^ 2) * x 1 ^ 2 := by
      simp [corrTwo, dotProduct, mulVec, Fin.sum_univ_two]; ring
    rw [e]
    by_cases h1 : x 1 = 0
    · have h0 : x 0 ≠ 0 := by
        intro h0; apply hx; funext i; fin_cases i <;> assumption
      rw [h1]
      have := sq_pos_of_ne_zero h0
      nlinarith
    · have := sq_pos_of_ne_zero h1
      have h2 : 0 < 1 - ρ ^ 2 := by linarith
      positivity

/-- The derivative of the Cholesky factor of two variables. -/
theorem corrTwo_deriv {ρ : ℝ} (h : ρ ^ 2 < 1) (k : ℝ) :
    (choleskyWithDerivative (corrTwo ρ) (setSym 0 1 0 k)).2 = !![0, 0; k, -(k * ρ / √(1 - ρ ^ 2))] := by
  have hc : 0 < √(1 - ρ ^ 2) := Real.sqrt_pos.2 (by linarith)
  have hq : √(1 - ρ ^ 2) * √(1 - ρ ^ 2) = 1 - ρ ^ 2 := Real.mul_self_sqrt (by linarith)
  have := recovers (M := !![1, 0; ρ, √(1 - ρ ^ 2)]) (N := !![0, 0; k, -(k * ρ / √(1 - ρ ^ 2))])
    (by intro i j hij; fin_cases i <;> fin_cases j <;> simp_all) (by intro i j hij; fin_cases i <;> fin_cases j <;> simp_all)
    (by intro i; fin_cases i <;> simp [hc] <;> linarith)
  have e1 : (!![1, 0; ρ, √(1 - ρ ^ 2)] : Matrix (Fin 2) (Fin 2) ℝ) * (!![1, 0; ρ, √(1 - ρ ^ 2)])ᵀ = corrTwo ρ := by
    ext i j
    fin_cases i <;> fin_cases j <;> simp [corrTwo, Matrix.mul_apply, Fin.sum_univ_two]
    rw [hq]; ring
  have e2 : (!![0, 0; k, -(k * ρ / √(1 - ρ ^ 2))] : Matrix (Fin 2) (Fin 2) ℝ) * (!![1, 0; ρ, √(1 - ρ ^ 2)])ᵀ +
      !![1, 0; ρ, √(1 - ρ ^ 2)] * (!![0, 0; k, -(k * ρ / √(1 - ρ ^ 2))])ᵀ = setSym 0 1 0 k := by
    ext i j
    rw [setSym_apply]
    fin_cases i <;> fin_cases j <;> simp [vecMul, dotProduct, Fin.sum_univ_two]
    field_simp
    ring
  rw [e1, e2] at this
  rw [this]

/-- A factor that comes from the singular value decomposition is not a rotation of the kind the formula would need. -/
theorem svd_row {la : LinAlg} (hla : LinAlgOK la) {ρ : ℝ} (h0 : ρ ≠ 0) (h1 : ρ ^ 2 < 1) (h2 : ρ ^ 2 ≠ 1 / 4) {t : Mats 2}
    (ht : Transformation.compute la .svd (corrTwo ρ) = .ok t) : t.invT 1 0 - ρ / √(1 - ρ ^ 2) * t.invT 1 1 ≠ 0 := by
  have hsymm : (corrTwo ρ).IsSymm := by ext i j; fin_cases i <;> fin_cases j <;> simp [corrTwo]
  obtain ⟨t', ht', hfac, -, -⟩ := C22_posdef hla .svd (corrTwo_posDef h1)
  rw [ht] at ht'; injection ht' with ht'; subst ht'
  obtain ⟨U, D, V, hs, hU, hV, hD, hf⟩ := hla.svd (corrTwo ρ) hsymm
  have hU' : Uᵀ * U = 1 := mul_eq_one_comm.1 hU
  have hinv : t.invT = U * diagonal (fun i => √(D i)) := by
    simp only [compute, computeSVD, hs] at ht
    split at ht
    · cases ht
    · injection ht with ht
      rw [← ht]
  have horth : t.invT 0 0 * t.invT 0 1 + t.invT 1 0 * t.invT 1 1 = 0 := by
    have e : (t.invTᵀ * t.invT) 0 1 = 0 := by
      rw [hinv, transpose_mul, diagonal_transpose, Matrix.mul_assoc, ← Matrix.mul_assoc Uᵀ, hU', Matrix.one_mul, diagonal_mul_diagonal]
      simp
    simpa [Matrix.mul_apply, Fin.sum_univ_two] using e
  have f00 : t.invT 0 0 * t.invT 0 0 + t.invT 0 1 * t.invT 0 1 = 1 := by
    have := congrFun (congrFun hfac 0) 0
    simpa [Matrix.mul_apply, Fin.sum_univ_two, corrTwo] using this
  have f11 : t.invT 1 0 * t.invT 1 0 + t.invT 1 1 * t.invT 1 1 = 1 := by
    have := congrFun (congrFun hfac 1) 1
    simpa [Matrix.mul_apply, Fin.sum_univ_two, corrTwo] using this
  have f01 : t.invT 0 0 * t.invT 1 0 + t.invT 0 1 * t.invT 1 1 = ρ := by
    have := congrFun (congrFun hfac 0) 1
    simpa [Matrix.mul_apply, Fin.sum_univ_two, corrTwo] using this
  have hc : 0 < √(1 - ρ ^ 2) := Real.sqrt_pos.2 (by linarith)
  have hq : √(1 - ρ ^ 2) * √(1 - ρ ^ 2) = 1 - ρ ^ 2 := Real.mul_self_sqrt (by linarith)
  generalize √(1 - ρ ^ 2) = c at hc hq
  generalize t.invT 0 0 = x at *
  generalize t.invT 0 1 = y at *
  generalize t.invT 1 0 = p at *
  generalize t.invT 1 1 = q at *
  intro he
  have hp : p = ρ / c * q := by linarith
  have hc2 : c ^ 2 = 1 - ρ ^ 2 := by rw [pow_two]; exact hq
  -- `q = s c`, `p = s ρ` with `s² = 1`
  obtain ⟨s, hs1⟩ : ∃ s, q = s * c := ⟨q / c, by field_simp⟩
  have hps : p = s * ρ := by rw [hp, hs1]; field_simp
  have hss : s ^ 2 = 1 := by
    rw [hs1, hps] at f11
    have : s ^ 2 * (ρ ^ 2 + c ^ 2) = 1 := by linarith
    rw [hc2] at this
    linarith
  rw [hs1, hps] at f01 horth
  -- with `X = s x`, `Y = s y`
  have g1 : (s * x) * ρ + (s * y) * c = ρ := by linarith
  have g2 : (s * x) ^ 2 + (s * y) ^ 2 = 1 := by
    have : (s * x) ^ 2 + (s * y) ^ 2 = s ^ 2 * (x * x + y * y) := by ring
    rw [this, hss, f00]; ring
  have g3 : (s * x) * (s * y) + ρ * c = 0 := by
    have : (s * x) * (s * y) + ρ * c = s ^ 2 * (x * y) + ρ * c := by ring
    rw [this, hss]
    have h : s * ρ * (s * c) = s ^ 2 * (ρ * c) := by ring
    rw [h, hss] at horth
    linarith
  generalize s * x = X at g1 g2 g3
  generalize s * y = Y at g1 g2 g3
  have hY : Y * (Y - 2 * ρ * c) = 0 := by
    have hYc : Y * c = ρ * (1 - X) := by linarith
    have hX2 : (ρ * X) ^ 2 = (ρ - Y * c) ^ 2 := by rw [show ρ * X = ρ - Y * c by linarith]
    have : ρ ^ 2 * (1 - Y ^ 2) = ρ ^ 2 - 2 * ρ * (Y * c) + Y ^ 2 * c ^ 2 := by
      have : ρ ^ 2 * (1 - Y ^ 2) = (ρ * X) ^ 2 := by rw [show 1 - Y ^ 2 = X ^ 2 by linarith]; ring
      rw [this, hX2]; ring
    rw [hc2] at this
    nlinarith
  rcases mul_eq_zero.1 hY with hY0 | hY0
  · rw [hY0] at g3
    have : ρ * c = 0 := by linarith
    rcases mul_eq_zero.1 this with h | h
    · exact h0 h
    · exact hc.ne' h
  · have hY' : Y = 2 * ρ * c := by linarith
    rw [hY'] at g1 g3
    have hX : X = 1 - 2 * (c * c) := by
      have : ρ * (X - (1 - 2 * (c * c))) = 0 := by linarith
      rcases mul_eq_zero.1 this with h | h
      · exact absurd h h0
      · linarith
    have : ρ * c * (2 * X + 1) = 0 := by linarith
    rcases mul_eq_zero.1 this with h | h
    · rcases mul_eq_zero.1 h with h | h
      · exact h0 h
      · exact hc.ne' h
    · rw [hX, hq] at h
      exact h2 (by linarith)

/-- **C51 (finding): the formula is wrong for the singular value decomposition.**  Two correlated normal variables, a limit state that uses
only the second one: its reliability index does not depend on the correlation at all.  With `transform = "svd"` FORM finds the right
index, but the closed-form analysis of its result reports the computed `dρ₀/dρ` times a number that is not zero (whatever the
decomposition returned by the linear algebra library); with Cholesky it reports zero. -/
theorem C51_svd {σ : Type} {la : LinAlg} (hla : LinAlgOK la) {ρ : ℝ} (h0 : ρ ≠ 0) (h1 : ρ ^ 2 < 1) (h2 : ρ ^ 2 ≠ 1 / 4)
    (R : Matrix (Fin 2) (Fin 2) ℝ) {μ sd : Fin 2 → ℝ} {sp : Fin 2 → Option ℝ} (hsd : ∀ i, 0 < sd i) {marg : Fin 2 → Marginal}
    (hm : ∀ i, Normal.new (μ i) (.fin (sd i)) (sp i) = .ok (marg i)) (a0 a1 : ℝ) (ha : a1 ≠ 0) (hb : a0 + a1 * μ 1 ≠ 0)
    {ev : Evaluator σ 2} {P : σ → Prop} (hev : Exact ev P (fun x => a0 + ∑ i, ![0, a1] i * x i) (fun _ => ![0, a1]))
    (opt : Form.Options) (hst : opt.stepSize = 1) (he1 : 0 < opt.e1) (he1' : opt.e1 ≤ 1) (he2 : 0 < opt.e2)
    (hi : 2 ≤ opt.iMax) (s : σ) (hs : P s) (fuel : ℕ) (hf : opt.iMax ≤ fuel) (names : Fin 2 → String) :
    (∀ ρ', corrBeta a0 ![0, a1] μ sd (setSym (corrTwo ρ) 1 0 ρ') = (a0 + a1 * μ 1) / (|a1| * sd 1)) ∧
    (∃ t r s' c, Transformation.compute la .svd (corrTwo ρ) = .ok t ∧ runFrom t marg ev opt fuel s = some (.done r s') ∧
      r.beta = (a0 + a1 * μ 1) / (|a1| * sd 1) ∧
      cfSens (fun i => normalDist (marg i)) names R (corrTwo ρ) t r.alpha r.point.u = .ok c ∧
      ∃ e, e ≠ 0 ∧ c.correlation 1 0 = kappa (fun i => normalDist (marg i)) R (corrTwo ρ) 1 0 * e) ∧
    ∃ t r s' c, Transformation.compute la .cholesky (corrTwo ρ) = .ok t ∧ runFrom t marg ev opt fuel s = some (.done r s') ∧
      r.beta = (a0 + a1 * μ 1) / (|a1| * sd 1) ∧
      cfSens (fun i => normalDist (marg i)) names R (corrTwo ρ) t r.alpha r.point.u = .ok c ∧ c.correlation 1 0 = 0 := by
  have hR := corrTwo_posDef h1
  have ha' : (![0, a1] : Fin 2 → ℝ) ≠ 0 := fun h => ha (by simpa using congrFun h 1)
  have hsymm : (corrTwo ρ).IsSymm := by ext i j; fin_cases i <;> fin_cases j <;> simp [corrTwo]
  have hquad : varOf (corrTwo ρ) (fun i => (![0, a1] : Fin 2 → ℝ) i * sd i) = (|a1| * sd 1) ^ 2 := by
    simp only [varOf, Fin.sum_univ_two, corrTwo]
    simp only [Matrix.cons_val_zero, Matrix.cons_val_one, Matrix.of_apply, Matrix.cons_val']
    rw [mul_pow, sq_abs]; simp; ring
  have hpos : 0 < |a1| * sd 1 := mul_pos (abs_pos.2 ha) (hsd 1)
  have hall : ∀ ρ', corrBeta a0 ![0, a1] μ sd (setSym (corrTwo ρ) 1 0 ρ') = (a0 + a1 * μ 1) / (|a1| * sd 1) := by
    intro ρ'
    unfold corrBeta
    rw [varOf_setSym hsymm (by decide), hquad]
    simp [Fin.sum_univ_two, Real.sqrt_sq hpos.le]
  have hbase : corrBeta a0 ![0, a1] μ sd (corrTwo ρ) = (a0 + a1 * μ 1) / (|a1| * sd 1) := by
    unfold corrBeta
    rw [hquad]
    simp [Fin.sum_univ_two, Real.sqrt_sq hpos.le]
  refine ⟨hall, ?_, ?_⟩
  · obtain ⟨t, ht, hfac, k1, k2⟩ := C22_posdef hla .svd hR
    obtain ⟨r, s', hr, hb', -, hu, -, -, hal⟩ := C30_exact hla hR ht hsd hm a0 ![0, a1] ha' hev opt hst he1 he1' he2 hi s hs fuel hf
    obtain ⟨c, hc⟩ := normals_ok hm names R (corrTwo ρ) t r.alpha r.point.u
    have hb2 : r.beta = (a0 + a1 * μ 1) / (|a1| * sd 1) := hb'.trans hbase
    refine ⟨t, r, s', c, ht, hr, hb2, hc,
      -((a0 + a1 * μ 1) / (|a1| * sd 1)) / (|a1| * sd 1) ^ 2 * (a1 * sd 1) ^ 2 * (t.invT 1 0 - ρ / √(1 - ρ ^ 2) * t.invT 1 1), ?_, ?_⟩
    · refine mul_ne_zero (mul_ne_zero (div_ne_zero (neg_ne_zero.2 (div_ne_zero hb hpos.ne')) (pow_ne_zero _ hpos.ne'))
        (pow_ne_zero _ (mul_ne_zero ha (hsd 1).ne'))) (svd_row hla h0 h1 h2 ht)
    · obtain ⟨-, -, h3⟩ := C51_shape _ _ _ _ _ _ _ _ hc
      have hdet : IsUnit t.invT.det := (Matrix.isUnit_iff_isUnit_det _).1 (IsUnit.of_mul_eq_one _ k2)
      rw [h3 1 0 (by decide), hu, hb2, hal, corr_affine (R := R) _ hdet hfac, hquad, corrTwo_deriv h1]
      generalize kappa (fun i => normalDist (marg i)) R (corrTwo ρ) 1 0 = k
      simp only [dotProduct, mulVec, Fin.sum_univ_two, Matrix.mul_apply, transpose_apply]
      simp
      ring
  · obtain ⟨t, r, s', c, q1, q2, q3, q4, q5⟩ := C51_affine hla (R := R) hR hsd hm a0 ![0, a1] ha' hev opt hst he1 he1' he2 hi s hs fuel hf
      names
    refine ⟨t, r, s', c, q1, q2, q3.trans hbase, q4, ?_⟩
    obtain ⟨d, hd, hd'⟩ := q5 1 0 (by decide)
    have : d = 0 := by
      have hfun : (fun ρ' => corrBeta a0 ![0, a1] μ sd (setSym (corrTwo ρ) 1 0 ρ')) = fun _ => (a0 + a1 * μ 1) / (|a1| * sd 1) :=
        funext hall
      rw [hfun] at hd
      exact hd.unique (hasDerivAt_const _ _)
    rw [hd', this, mul_zero]

/-- The hypotheses of `C51_affine` and `C51_svd` are met: correlation `3/5`, `g = 5 - x₂` with means 1, 2 and standard deviations 2, 3. -/
example {la : LinAlg} (hla : LinAlgOK la) (fuel : ℕ) (hf : 100 ≤ fuel) : ∃ t marg r c e,
    Transformation.compute la .svd (corrTwo (3 / 5)) = .ok t ∧
    runFrom t marg (⟨fun _ x => ((), .ok (5 + ∑ i, ![0, -1] i * x i, ![0, -1], x)), fun _ _ => ((), .ok [])⟩ :
      Evaluator Unit 2) ⟨100, 0.001, 0.001, 1, 1⟩ fuel () = some (.done r ()) ∧ r.beta = 1 ∧
    cfSens (fun i => normalDist (marg i)) ![ "x1", "x2" ] (corrTwo (3 / 5)) (corrTwo (3 / 5)) t r.alpha r.point.u = .ok c ∧
    e ≠ 0 ∧ c.correlation 1 0 = kappa (fun i => normalDist (marg i)) (corrTwo (3 / 5)) (corrTwo (3 / 5)) 1 0 * e := by
  have hm : ∀ i : Fin 2, ∃ m, Normal.new (![1, 2] i) (.fin (![2, 3] i : ℝ)) none = .ok m := fun i => ⟨_, rfl⟩
  choose marg hmarg using hm
  obtain ⟨-, ⟨t, r, s', c, q1, q2, q3, q4, e, q5, q6⟩, -⟩ := C51_svd hla (ρ := 3 / 5) (by norm_num) (by norm_num) (by norm_num)
    (corrTwo (3 / 5)) (μ := ![1, 2]) (sd := ![2, 3]) (sp := fun _ => none) (by intro i; fin_cases i <;> simp) hmarg 5 (-1) (by norm_num)
    (by norm_num)
    (ev := (⟨fun _ x => ((), .ok (5 + ∑ i, ![0, -1] i * x i, ![0, -1], x)), fun _ _ => ((), .ok [])⟩ :
      Evaluator Unit 2)) (P := fun _ => True) (fun _ _ x => ⟨(), x, rfl, trivial⟩)
    ⟨100, 0.001, 0.001, 1, 1⟩ rfl (by norm_num) (by norm_num) (by norm_num) (by norm_num) () trivial fuel hf ![ "x1", "x2" ]
  refine ⟨t, marg, r, c, e, q1, q2, ?_, q4, q5, q6⟩
  rw [q3]
  norm_num

end Pystra.Props
