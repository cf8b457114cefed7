import Verif.Lemmas.Transformation
import Verif.Props.Marginal

/-! C21–C24: the isoprobabilistic (Nataf) transformation. -/

namespace Pystra.Props
open Matrix Spec Transformation MeasureTheory

variable {n : ℕ}

/-- C22: for every positive definite `Ro`, of any size, both factorisations succeed, `inv_T inv_Tᵀ = Ro`, and `T` is
the inverse of `inv_T`. -/
theorem C22_posdef {la : LinAlg} (hla : LinAlgOK la) (ty : TransformType) {Ro : Matrix (Fin n) (Fin n) ℝ}
    (hR : Ro.PosDef) :
    ∃ m, compute la ty Ro = .ok m ∧ m.invT * m.invTᵀ = Ro ∧ m.T * m.invT = 1 ∧ m.invT * m.T = 1 := by
  have hsymm : Ro.IsSymm := by
    have := hR.1
    unfold IsHermitian at this
    rwa [conjTranspose_eq_transpose_of_trivial] at this
  cases ty with
  | cholesky =>
    obtain ⟨L, hL, hc⟩ := hla.chol Ro hR
    have hu := CholeskySens.isUnit_det_of_diag hc.lower hc.diag
    have e : compute la .cholesky Ro = .ok ⟨L⁻¹, L⟩ := by
      simp only [compute, computeCholesky, hL, npInv_of_unit hu]
    exact ⟨_, e, hc.fact, compute_inverse e⟩
  | svd =>
    obtain ⟨U, D, V, hs, hU, hV, hD, hf⟩ := hla.svd Ro hsymm
    have hsq := svd_sq hsymm hU hV hf
    have hS : U * diagonal D * Uᵀ = Ro := psd_sq_unique (svd_psd hD) hR.posSemidef hsq
    have hu : IsUnit (U * diagonal (fun i => √(D i))).det := by
      have : IsUnit ((U * diagonal (fun i => √(D i))) * (U * diagonal (fun i => √(D i)))ᵀ).det := by
        rw [svd_factor hD, hS]; exact (isUnit_iff_isUnit_det _).1 hR.isUnit
      rw [det_mul, det_transpose] at this
      exact isUnit_of_mul_isUnit_left this
    have e : compute la .svd Ro = .ok ⟨(U * diagonal (fun i => √(D i)))⁻¹, U * diagonal (fun i => √(D i))⟩ := by
      simp only [compute, computeSVD, hs, npInv_of_unit hu]
    exact ⟨_, e, by rw [svd_factor hD, hS], compute_inverse e⟩

/-- C22: consequently, if `u` has mean zero and identity covariance (under any law) then `z = inv_T u` has mean zero
and covariance `Ro`. -/
theorem C22_covariance {la : LinAlg} (hla : LinAlgOK la) (ty : TransformType) {Ro : Matrix (Fin n) (Fin n) ℝ}
    (hR : Ro.PosDef) {m : Mats n} (hm : compute la ty Ro = .ok m) {Ω : Type} [MeasurableSpace Ω] (P : Measure Ω)
    (u : Ω → Fin n → ℝ) (h1 : ∀ i, Integrable (fun ω => u ω i) P) (h2 : ∀ i j, Integrable (fun ω => u ω i * u ω j) P)
    (mean : ∀ i, ∫ ω, u ω i ∂P = 0) (cov : ∀ i j, ∫ ω, u ω i * u ω j ∂P = if i = j then 1 else 0) :
    (∀ i, ∫ ω, (m.invT.mulVec (u ω)) i ∂P = 0) ∧
    ∀ i j, ∫ ω, (m.invT.mulVec (u ω)) i * (m.invT.mulVec (u ω)) j ∂P = Ro i j := by
  obtain ⟨m', hm', hfac, -⟩ := C22_posdef hla ty hR
  rw [hm] at hm'
  injection hm' with hm'
  subst hm'
  constructor
  · intro i
    simp only [mulVec, dotProduct]
    rw [integral_finsetSum _ (fun k _ => (h1 k).const_mul _)]
    simp [integral_const_mul, mean]
  · intro i j
    simp only [mulVec, dotProduct, Finset.sum_mul_sum]
    have e : ∀ k l ω, m.invT i k * u ω k * (m.invT j l * u ω l) = (m.invT i k * m.invT j l) * (u ω k * u ω l) :=
      fun k l ω => by ring
    simp only [e]
    rw [integral_finsetSum _ (fun k _ => integrable_finsetSum _ (fun l _ => (h2 k l).const_mul _))]
    have : ∀ k, ∫ ω, ∑ l, m.invT i k * m.invT j l * (u ω k * u ω l) ∂P = m.invT i k * m.invT j k := by
      intro k
      rw [integral_finsetSum _ (fun l _ => (h2 k l).const_mul _)]
      simp [integral_const_mul, cov]
    simp only [this]
    rw [← hfac]
    simp [mul_apply]

/-- C22: Cholesky rejects every symmetric matrix that is not positive definite, and a singular matrix is rejected by
both factorisations (`LinAlgError`). -/
theorem C22_rejects {la : LinAlg} (hla : LinAlgOK la) {Ro : Matrix (Fin n) (Fin n) ℝ} (hs : Ro.IsSymm) :
    (¬ Ro.PosDef → compute la .cholesky Ro = .error .linAlgError) ∧
    (Ro.det = 0 → ∀ ty, compute la ty Ro = .error .linAlgError) := by
  have hc : ¬ Ro.PosDef → compute la .cholesky Ro = .error .linAlgError := by
    intro h
    obtain ⟨e, he⟩ := hla.chol_err Ro hs h
    simp only [compute, computeCholesky, he]
  refine ⟨hc, fun h0 ty => ?_⟩
  have hnp : ¬ Ro.PosDef := fun h => by
    have := h.det_pos
    rw [h0] at this
    exact lt_irrefl _ this
  cases ty with
  | cholesky => exact hc hnp
  | svd =>
    obtain ⟨U, D, V, hsv, hU, hV, hD, hf⟩ := hla.svd Ro hs
    have hu : ¬ IsUnit (U * diagonal (fun i => √(D i))).det := by
      intro hu
      have h2 : IsUnit (U * diagonal D * Uᵀ).det := by
        rw [← svd_factor hD, det_mul, det_transpose]; exact hu.mul hu
      rw [det_ne_zero_of_sq (svd_sq hs hU hV hf), h0] at h2
      exact not_isUnit_zero h2
    simp only [compute, computeSVD, hsv, npInv_singular hu]

/-- C22: the SVD branch silently accepts every symmetric invertible matrix that is not positive definite, and then
realises a matrix other than `Ro`: the positive definite `S` with `S² = Ro²`. -/
theorem C22_svd_indefinite {la : LinAlg} (hla : LinAlgOK la) {Ro : Matrix (Fin n) (Fin n) ℝ} (hs : Ro.IsSymm)
    (h0 : Ro.det ≠ 0) (hn : ¬ Ro.PosDef) :
    ∃ m, compute la .svd Ro = .ok m ∧ (m.invT * m.invTᵀ).PosDef ∧ m.invT * m.invTᵀ ≠ Ro ∧
      (m.invT * m.invTᵀ) * (m.invT * m.invTᵀ) = Ro * Ro := by
  obtain ⟨U, D, V, hsv, hU, hV, hD, hf⟩ := hla.svd Ro hs
  have hsq := svd_sq hs hU hV hf
  have hdet : IsUnit (U * diagonal D * Uᵀ).det := (det_ne_zero_of_sq hsq).2 (isUnit_iff_ne_zero.2 h0)
  have hu : IsUnit (U * diagonal (fun i => √(D i))).det := by
    rw [← svd_factor hD, det_mul, det_transpose] at hdet
    exact isUnit_of_mul_isUnit_left hdet
  have hpd := posDef_of_psd_det (svd_psd (U := U) hD) hdet
  refine ⟨⟨(U * diagonal (fun i => √(D i)))⁻¹, U * diagonal (fun i => √(D i))⟩, ?_, ?_, ?_, ?_⟩
  · simp only [compute, computeSVD, hsv, npInv_of_unit hu]
  · simp only [svd_factor hD]; exact hpd
  · simp only [svd_factor hD]; intro e; rw [e] at hpd; exact hn hpd
  · simp only [svd_factor hD]; exact hsq

/-- The hypotheses of `C22_svd_indefinite` are met by a symmetric matrix with unit diagonal and entries in `[-1, 1]`. -/
example : ∃ Ro : Matrix (Fin 3) (Fin 3) ℝ, Ro.IsSymm ∧ (∀ i, Ro i i = 1) ∧ (∀ i j, |Ro i j| ≤ 1) ∧ Ro.det ≠ 0 ∧
    ¬ Ro.PosDef := by
  have e : ∀ i j, (fun i j : Fin 3 => if i = j then (1:ℝ) else -9/10) i j = if i = j then 1 else -9/10 := fun _ _ => rfl
  refine ⟨Matrix.of fun i j => if i = j then 1 else -9/10, ?_, ?_, ?_, ?_, ?_⟩
  · ext i j; simp [eq_comm]
  · intro i; simp
  · intro i j
    by_cases h : i = j
    · simp [h]
    · simp only [of_apply, if_neg h]; norm_num [abs_le]
  · rw [det_fin_three]; simp; norm_num
  · intro h
    have := h.det_pos
    rw [det_fin_three] at this
    simp at this
    norm_num at this

/-- C21: with the matrices of a successful `compute` (for either type) the two maps are inverse to each other, `u_to_x`
landing in the supports. -/
theorem C21_round_trip {la : LinAlg} {ty : TransformType} {Ro : Matrix (Fin n) (Fin n) ℝ} {m : Mats n}
    (hm : compute la ty Ro = .ok m) (marg : Fin n → Marginal) (S : Fin n → Set ℝ)
    (hmarg : ∀ i, RoundTrip (marg i) (S i)) :
    (∀ u i, uToX m marg u i ∈ S i) ∧ (∀ u, xToU m marg (uToX m marg u) = u) ∧
    ∀ x, (∀ i, x i ∈ S i) → uToX m marg (xToU m marg x) = x := by
  obtain ⟨h1, h2⟩ := compute_inverse hm
  refine ⟨fun u i => (hmarg i).mem _, fun u => ?_, fun x hx => ?_⟩
  · unfold xToU uToX
    simp only [(hmarg _).left]
    rw [show (fun i => (m.invT.mulVec u) i) = m.invT.mulVec u from rfl, mulVec_mulVec, h1, one_mulVec]
  · unfold xToU uToX
    simp only
    rw [mulVec_mulVec, h2, one_mulVec]
    funext i
    exact (hmarg i).right _ (hx i)

/-- C21: in particular for every positive definite correlation matrix, for Cholesky and SVD alike. -/
theorem C21_posdef {la : LinAlg} (hla : LinAlgOK la) (ty : TransformType) {Ro : Matrix (Fin n) (Fin n) ℝ}
    (hR : Ro.PosDef) (marg : Fin n → Marginal) (S : Fin n → Set ℝ) (hmarg : ∀ i, RoundTrip (marg i) (S i)) :
    ∃ m, compute la ty Ro = .ok m ∧ (∀ u i, uToX m marg u i ∈ S i) ∧ (∀ u, xToU m marg (uToX m marg u) = u) ∧
      ∀ x, (∀ i, x i ∈ S i) → uToX m marg (xToU m marg x) = x := by
  obtain ⟨m, hm, -⟩ := C22_posdef hla ty hR
  exact ⟨m, hm, C21_round_trip hm marg S hmarg⟩

/-- The linear map with matrix `A`. -/
noncomputable def linMap (A : Matrix (Fin n) (Fin n) ℝ) : (Fin n → ℝ) →L[ℝ] (Fin n → ℝ) :=
  LinearMap.toContinuousLinearMap A.mulVecLin

theorem linMap_apply (A : Matrix (Fin n) (Fin n) ℝ) (v : Fin n → ℝ) : linMap A v = A.mulVec v := rfl

/-- The linear functional `v ↦ Σ g i * v i` of a gradient. -/
noncomputable def gradMap (g : Fin n → ℝ) : (Fin n → ℝ) →L[ℝ] ℝ :=
  LinearMap.toContinuousLinearMap (∑ i, g i • LinearMap.proj i)

theorem gradMap_apply (g v : Fin n → ℝ) : gradMap g v = ∑ i, g i * v i := by
  simp [gradMap]

theorem hasFDerivAt_diag (f : Fin n → ℝ → ℝ) (d x : Fin n → ℝ) (h : ∀ i, HasDerivAt (f i) (d i) (x i)) :
    HasFDerivAt (fun y : Fin n → ℝ => fun i => f i (y i)) (linMap (diagonal d)) x := by
  rw [hasFDerivAt_pi']
  intro i
  have := (h i).hasFDerivAt.comp x (ContinuousLinearMap.proj (R := ℝ) (φ := fun _ : Fin n => ℝ) i).hasFDerivAt
  refine this.congr_fderiv ?_
  ext v
  simp [linMap_apply, mulVec_diagonal, mul_comm]

/-- C23: `jacobian(x_to_u(x), x)` is the Fréchet derivative of `x_to_u` at every point of the support. -/
theorem C23_jacobian {la : LinAlg} {ty : TransformType} {Ro : Matrix (Fin n) (Fin n) ℝ} {m : Mats n}
    (hm : compute la ty Ro = .ok m) (marg : Fin n → Marginal) (S : Fin n → Set ℝ)
    (hj : ∀ i, JacobianCorrect (marg i) (S i)) (x : Fin n → ℝ) (hx : ∀ i, x i ∈ S i) :
    HasFDerivAt (xToU m marg) (linMap (jacobian m marg (xToU m marg x) x)) x := by
  obtain ⟨-, h2⟩ := compute_inverse hm
  have hd := hasFDerivAt_diag (fun i => (marg i).xToU) (fun i => (marg i).jac ((marg i).xToU (x i)) (x i)) x
    (fun i => hj i (x i) (hx i))
  have := (linMap m.T).hasFDerivAt.comp x hd
  refine this.congr_fderiv ?_
  ext v i
  simp only [ContinuousLinearMap.comp_apply, linMap_apply, jacobian, xToU]
  rw [mulVec_mulVec, mulVec_mulVec, h2, one_mulVec]

/-- C23: at the point `x = u_to_x(u)` the inverse Jacobian exists exactly when no marginal derivative vanishes, it is
the Fréchet derivative of `u_to_x`, and it maps the gradient of any differentiable function of `x` to its gradient
with respect to `u`. -/
theorem C23_chain_rule {la : LinAlg} {ty : TransformType} {Ro : Matrix (Fin n) (Fin n) ℝ} {m : Mats n}
    (hm : compute la ty Ro = .ok m) (marg : Fin n → Marginal) (S : Fin n → Set ℝ)
    (hmarg : ∀ i, RoundTrip (marg i) (S i)) (hS : ∀ i, IsOpen (S i)) (hj : ∀ i, JacobianCorrect (marg i) (S i))
    (u : Fin n → ℝ) :
    ((∃ Ji, npInv (jacobian m marg u (uToX m marg u)) = .ok Ji) ↔
      ∀ i, (marg i).jac ((m.invT.mulVec u) i) (uToX m marg u i) ≠ 0) ∧
    ∀ Ji, npInv (jacobian m marg u (uToX m marg u)) = .ok Ji →
      HasFDerivAt (uToX m marg) (linMap Ji) u ∧
      ∀ (g : (Fin n → ℝ) → ℝ) (grad : Fin n → ℝ), HasFDerivAt g (gradMap grad) (uToX m marg u) →
        HasFDerivAt (fun v => g (uToX m marg v)) (gradMap (vecMul grad Ji)) u := by
  obtain ⟨h1, h2⟩ := compute_inverse hm
  set d : Fin n → ℝ := fun i => (marg i).jac ((m.invT.mulVec u) i) (uToX m marg u i) with hdd
  have hJ : jacobian m marg u (uToX m marg u) = m.T * diagonal d := rfl
  have hTu : IsUnit m.T.det := by
    have : m.T.det * m.invT.det = 1 := by rw [← det_mul, h1, det_one]
    exact IsUnit.of_mul_eq_one _ this
  have hiff : IsUnit (m.T * diagonal d).det ↔ ∀ i, d i ≠ 0 := by
    rw [det_mul, det_diagonal, IsUnit.mul_iff, isUnit_iff_ne_zero (a := ∏ i, d i), Finset.prod_ne_zero_iff]
    exact ⟨fun h i => h.2 i (Finset.mem_univ i), fun h => ⟨hTu, fun i _ => h i⟩⟩
  refine ⟨?_, fun Ji hJi => ?_⟩
  · rw [hJ, ← hiff]
    constructor
    · rintro ⟨Ji, h⟩
      by_contra hc
      rw [npInv_singular hc] at h
      cases h
    · intro h; exact ⟨_, npInv_of_unit h⟩
  · have hne : ∀ i, d i ≠ 0 := by
      rw [← hiff, ← hJ]
      by_contra hc
      rw [npInv_singular hc] at hJi
      cases hJi
    have hJieq : Ji = diagonal (fun i => (d i)⁻¹) * m.invT := by
      have a := (npInv_ok hJi).1
      have b : (m.T * diagonal d) * (diagonal (fun i => (d i)⁻¹) * m.invT) = 1 := by
        rw [Matrix.mul_assoc, ← Matrix.mul_assoc (diagonal d), diagonal_mul_diagonal]
        have : (fun i => d i * (d i)⁻¹) = fun _ => (1:ℝ) := by
          funext i; exact mul_inv_cancel₀ (hne i)
        rw [this, diagonal_one, Matrix.one_mul, h1]
      calc Ji = Ji * ((m.T * diagonal d) * (diagonal (fun i => (d i)⁻¹) * m.invT)) := by rw [b, Matrix.mul_one]
        _ = _ := by rw [← Matrix.mul_assoc, ← hJ, a, Matrix.one_mul]
    have hder : HasFDerivAt (uToX m marg) (linMap Ji) u := by
      have hd := hasFDerivAt_diag (fun i => (marg i).uToX) (fun i => (d i)⁻¹) (m.invT.mulVec u)
        (fun i => uToX_hasDerivAt (hmarg i) (hS i) (hj i) _ (hne i))
      have hl : HasFDerivAt (fun v => m.invT.mulVec v) (linMap m.invT) u := (linMap m.invT).hasFDerivAt
      have := HasFDerivAt.comp u hd hl
      refine this.congr_fderiv ?_
      ext v i
      simp only [ContinuousLinearMap.comp_apply, linMap_apply]
      rw [hJieq, mulVec_mulVec]
    refine ⟨hder, fun g grad hg => ?_⟩
    have := HasFDerivAt.comp u hg hder
    refine this.congr_fderiv ?_
    ext v
    simp only [ContinuousLinearMap.comp_apply, linMap_apply, gradMap_apply]
    change grad ⬝ᵥ (Ji.mulVec v) = (vecMul grad Ji) ⬝ᵥ v
    rw [dotProduct_mulVec]

/-- The hypotheses of C21 and C23 are met by a lognormal and a normal variable with correlation one half. -/
example : ∃ (la : LinAlg) (m : Mats 2) (marg : Fin 2 → Marginal) (S : Fin 2 → Set ℝ),
    compute la .svd !![1, 1/2; 1/2, 1] = .ok m ∧ (∀ i, RoundTrip (marg i) (S i)) ∧ (∀ i, IsOpen (S i)) ∧
    ∀ i, JacobianCorrect (marg i) (S i) := by
  obtain ⟨la, hla⟩ := linAlgOK_exists
  have hpd : (!![1, (1/2 : ℝ); 1/2, 1] : Matrix (Fin 2) (Fin 2) ℝ).PosDef := by
    rw [posDef_iff_dotProduct_mulVec]
    refine ⟨by ext i j; fin_cases i <;> fin_cases j <;> simp, fun {x} hx => ?_⟩
    have hx' : x 0 ≠ 0 ∨ x 1 ≠ 0 := by
      by_contra h
      push Not at h
      apply hx; funext i; fin_cases i
      · exact h.1
      · exact h.2
    simp [dotProduct, mulVec, Fin.sum_univ_two]
    rcases hx' with h | h
    · nlinarith [sq_nonneg (x 0 + 2 * x 1), sq_nonneg (2 * x 0 + x 1), sq_pos_of_ne_zero h]
    · nlinarith [sq_nonneg (x 0 + 2 * x 1), sq_nonneg (2 * x 0 + x 1), sq_pos_of_ne_zero h]
  obtain ⟨m, hm, -⟩ := C22_posdef hla .svd hpd
  obtain ⟨m0, h0, hr0⟩ := C12_lognormal (μ := 1) (σ := 1) one_pos one_pos none
  obtain ⟨m0', h0', hj0⟩ := C13_lognormal (μ := 1) (σ := 1) one_pos one_pos none
  obtain ⟨m1, h1, hr1⟩ := C12_normal 0 (σ := 1) one_pos none
  obtain ⟨m1', h1', hj1⟩ := C13_normal 0 (σ := 1) one_pos none
  obtain rfl : m0 = m0' := by rw [h0] at h0'; injection h0'
  obtain rfl : m1 = m1' := by rw [h1] at h1'; injection h1'
  refine ⟨la, m, ![m0, m1], ![Set.Ioi 0, Set.univ], hm, ?_, ?_, ?_⟩
  · intro i; fin_cases i
    · exact hr0
    · exact hr1
  · intro i; fin_cases i
    · exact isOpen_Ioi
    · exact isOpen_univ
  · intro i; fin_cases i
    · exact hj0
    · exact hj1

/-- The value most recently passed to `setTransform` (or the default `None`). -/
def lastOption (ops : List Analysis.Op) : Option String :=
  (ops.filterMap fun | .setTransform s => some s | .newAnalysis => none).getLast?.join

/-- C24: `None` and `"cholesky"` give Cholesky, `"svd"` the SVD, everything else a `ValueError`. -/
theorem C24_types :
    Transformation.new none = .ok .cholesky ∧ Transformation.new (some "cholesky") = .ok .cholesky ∧
    Transformation.new (some "svd") = .ok .svd ∧
    ∀ s, s ≠ "cholesky" → s ≠ "svd" → Transformation.new (some s) = .error .valueError := by
  refine ⟨rfl, rfl, rfl, fun s h1 h2 => ?_⟩
  unfold Transformation.new
  simp only
  rw [if_neg h1, if_neg h2]

theorem run_append (w : Analysis.World) (a b : List Analysis.Op) :
    Analysis.run w (a ++ b) = Analysis.run (Analysis.run w a) b := by
  induction a generalizing w with
  | nil => rfl
  | cons op a ih => exact ih _

/-- C24: nothing a user does later changes the transformation of an analysis object that already exists. -/
theorem C24_frozen (w : Analysis.World) (ops : List Analysis.Op) :
    w.analyses <+: (Analysis.run w ops).analyses := by
  induction ops generalizing w with
  | nil => exact List.prefix_rfl
  | cons op ops ih =>
    refine List.IsPrefix.trans ?_ (ih _)
    cases op with
    | setTransform s => exact List.prefix_rfl
    | newAnalysis =>
      unfold Analysis.step
      cases Transformation.new w.option with
      | error e => exact List.prefix_rfl
      | ok t => exact List.prefix_append _ _

theorem run_option (ops : List Analysis.Op) (w : Analysis.World) :
    (Analysis.run w ops).option =
      ((ops.filterMap fun | .setTransform s => some s | .newAnalysis => none).getLast?).getD w.option := by
  induction ops using List.reverseRecOn generalizing w with
  | nil => rfl
  | append_singleton ops op ih =>
    rw [run_append, List.filterMap_append]
    cases op with
    | setTransform s => simp [Analysis.run, Analysis.step]
    | newAnalysis =>
      have : (Analysis.run (Analysis.run w ops) [.newAnalysis]).option = (Analysis.run w ops).option := by
        simp only [Analysis.run, Analysis.step]
        cases Transformation.new (Analysis.run w ops).option <;> rfl
      rw [this, ih]
      simp

/-- C24: after any history, creating an analysis uses the most recently set option: it raises `ValueError` and creates
nothing if that is an unknown string, and otherwise adds one object of that type. -/
theorem C24_creation (ops : List Analysis.Op) :
    let w := Analysis.run Analysis.init ops
    (∀ t, Transformation.new (lastOption ops) = .ok t →
      Analysis.step w .newAnalysis = ({ w with analyses := w.analyses ++ [t] }, .ok ())) ∧
    (∀ s, lastOption ops = some s → s ≠ "cholesky" → s ≠ "svd" →
      Analysis.step w .newAnalysis = (w, .error .valueError)) := by
  intro w
  have ho : w.option = lastOption ops := by
    show (Analysis.run Analysis.init ops).option = _
    rw [run_option]
    unfold lastOption
    generalize (List.filterMap _ ops).getLast? = o
    cases o <;> rfl
  constructor
  · intro t ht
    rw [← ho] at ht
    simp only [Analysis.step, ht]
  · intro s hs h1 h2
    rw [hs] at ho
    have : Transformation.new w.option = .error .valueError := by
      rw [ho]; exact C24_types.2.2.2 s h1 h2
    simp only [Analysis.step, this]

/-- A history with a valid and an invalid option. -/
example : Analysis.run Analysis.init
    [.newAnalysis, .setTransform (some "svd"), .newAnalysis, .setTransform (some "lu"), .newAnalysis] =
    ⟨some "lu", [.cholesky, .svd]⟩ := rfl

end Pystra.Props
