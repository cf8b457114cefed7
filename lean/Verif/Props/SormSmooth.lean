import Verif.Props.SormParaboloidExample
import Mathlib.Analysis.Calculus.FDeriv.Symmetric
import Mathlib.Topology.Order.IntermediateValue

/-! C108: curve-fitting SORM of limit states that are not quadratic: the Hessian by differences of gradients, and its eigenvalues. -/

namespace Pystra.Props
open Matrix Spec Transformation Form Sorm Polynomial Filter Topology

variable {σ : Type} {n m : ℕ}

/-- The values of `evaluateLSF` for exact gradients: the value and the gradient in standard normal space. -/
theorem gives_exact {la : LinAlg} {ty : TransformType} {Ro : Matrix (Fin n) (Fin n) ℝ} {t : Mats n}
    (ht : Transformation.compute la ty Ro = .ok t) (marg : Fin n → Marginal) (S : Fin n → Set ℝ)
    (hmarg : ∀ i, RoundTrip (marg i) (S i)) (hS : ∀ i, IsOpen (S i)) (hj : ∀ i, JacobianCorrect (marg i) (S i))
    (hne : ∀ i z, (marg i).jac z ((marg i).uToX z) ≠ 0) {ev : Evaluator σ n} {P : σ → Prop} {f : (Fin n → ℝ) → ℝ}
    {grad : (Fin n → ℝ) → Fin n → ℝ} (hf : ∀ u, HasFDerivAt f (gradMap (grad (uToX t marg u))) (uToX t marg u))
    (hev : ∀ s, P s → ∀ u, ∃ s', ev.withGrad s (uToX t marg u) =
      (s', .ok (f (uToX t marg u), grad (uToX t marg u), uToX t marg u)) ∧ P s')
    {G : (Fin n → ℝ) → Fin n → ℝ} (hG : ∀ u, HasFDerivAt (fun u => f (uToX t marg u)) (gradMap (G u)) u) :
    Gives t marg ev P (fun u => f (uToX t marg u)) G := by
  intro s hs u
  obtain ⟨s', he, hP⟩ := hev s hs u
  obtain ⟨hex, hch⟩ := C23_chain_rule ht marg S hmarg hS hj u
  obtain ⟨Ji, hJi⟩ := hex.2 (fun i => hne i _)
  obtain ⟨-, hgr⟩ := hch Ji hJi
  have h1 := hgr f _ (hf u)
  refine ⟨s', ?_, hP⟩
  unfold evaluateLSF
  rw [he]
  simp only [(C21_round_trip ht marg S hmarg).2.1 u, hJi, gradMap_inj (h1.unique (hG u))]

/-- The error of a forward difference. -/
theorem difference_error {φ φ' : ℝ → ℝ} {h L : ℝ} (hh : 0 < h) (hd : ∀ x, HasDerivAt φ (φ' x) x)
    (hL : ∀ x, 0 ≤ x → x ≤ h → |φ' x - φ' 0| ≤ L * x) : |(φ h - φ 0) / h - φ' 0| ≤ L * h / 2 := by
  have key := image_norm_le_of_norm_deriv_right_le_deriv_boundary (a := 0) (b := h) (E := ℝ)
    (f := fun x => φ x - φ 0 - φ' 0 * x) (f' := fun x => φ' x - φ' 0) (B := fun x => L * x ^ 2 / 2) (B' := fun x => L * x)
    (fun x _ => ((((hd x).sub_const (φ 0)).sub ((hasDerivAt_id x).const_mul (φ' 0))).continuousAt).continuousWithinAt)
    (fun x _ => by
      have := (((hd x).sub_const (φ 0)).sub ((hasDerivAt_id x).const_mul (φ' 0)))
      simp only [mul_one] at this
      exact this.hasDerivWithinAt)
    (by simp)
    (fun x => by
      have := (((hasDerivAt_id x).pow 2).const_mul L).div_const 2
      refine this.congr_deriv ?_
      simp
      ring)
    (fun x hx => by
      rw [Real.norm_eq_abs]
      exact hL x hx.1 hx.2.le)
    (Set.right_mem_Icc.2 hh.le)
  rw [Real.norm_eq_abs] at key
  have e : (φ h - φ 0) / h - φ' 0 = (φ h - φ 0 - φ' 0 * h) / h := by field_simp
  rw [e, abs_div, abs_of_pos hh, div_le_iff₀ hh]
  refine key.trans (le_of_eq ?_)
  ring

theorem update_line (u : Fin n → ℝ) (j : Fin n) (x : ℝ) : Function.update u j (u j + x) = u + x • Pi.single j 1 := by
  funext k
  by_cases hk : k = j
  · subst hk; simp
  · simp [hk]

theorem gradMap_single (a : Fin n → ℝ) (j : Fin n) : gradMap a (Pi.single j 1) = a j := by
  rw [gradMap_apply]
  exact dotProduct_single_one a j

theorem line_deriv {g : (Fin n → ℝ) → ℝ} {a : (Fin n → ℝ) → Fin n → ℝ} (hg : ∀ u, HasFDerivAt g (gradMap (a u)) u)
    (u : Fin n → ℝ) (j : Fin n) (x : ℝ) :
    HasDerivAt (fun x : ℝ => g (Function.update u j (u j + x))) (a (Function.update u j (u j + x)) j) x := by
  obtain ⟨ej, hej⟩ : ∃ ej : Fin n → ℝ, ej = Pi.single j 1 := ⟨_, rfl⟩
  have e : ∀ x : ℝ, Function.update u j (u j + x) = u + x • ej := fun x => by rw [update_line, hej]
  simp only [e]
  have h1 : HasDerivAt (fun x : ℝ => u + x • ej) ej x := by
    have := ((hasDerivAt_id x).smul_const ej).const_add u
    simpa using this
  have h2 := (hg (u + x • ej)).comp_hasDerivAt x h1
  refine h2.congr_deriv ?_
  rw [hej, gradMap_single]

theorem hessian_symm {q : (Fin n → ℝ) → ℝ} {G : (Fin n → ℝ) → Fin n → ℝ} (hG : ∀ u, HasFDerivAt q (gradMap (G u)) u)
    {H : Matrix (Fin n) (Fin n) ℝ} {u : Fin n → ℝ} (hH : ∀ i, HasFDerivAt (fun v => G v i) (gradMap (H i)) u) : H.IsSymm := by
  have h2 : HasFDerivAt (fun v => gradMap (G v))
      (∑ i, (gradMap (H i)).smulRight (ContinuousLinearMap.proj (R := ℝ) (φ := fun _ : Fin n => ℝ) i)) u := by
    have e : (fun v => gradMap (G v)) =
        fun v => ∑ i, G v i • (ContinuousLinearMap.proj (R := ℝ) (φ := fun _ : Fin n => ℝ) i) := by
      funext v
      ext w
      rw [gradMap_apply, ContinuousLinearMap.sum_apply]
      rfl
    rw [e]
    exact HasFDerivAt.fun_sum fun i _ => (hH i).smul_const (F := (Fin n → ℝ) →L[ℝ] ℝ) _
  have h3 := second_derivative_symmetric_of_eventually_of_real (Eventually.of_forall hG) h2
  have key : ∀ i j : Fin n, ∀ ei ej : Fin n → ℝ, ei = Pi.single i 1 → ej = Pi.single j 1 →
      (∑ i, (gradMap (H i)).smulRight (ContinuousLinearMap.proj (R := ℝ) (φ := fun _ : Fin n => ℝ) i)) ei ej = H j i := by
    intro i j ei ej hi hj
    have e : ∀ k, gradMap (H k) ei = H k i := by
      intro k
      rw [hi, gradMap_single]
    rw [ContinuousLinearMap.sum_apply, ContinuousLinearMap.sum_apply]
    simp only [ContinuousLinearMap.smulRight_apply, ContinuousLinearMap.smul_apply, ContinuousLinearMap.proj_apply, e, smul_eq_mul]
    rw [hj]
    simp [Pi.single_apply]
  ext i j
  rw [transpose_apply, ← key i j _ _ rfl rfl, h3, key j i _ _ rfl rfl]

/-! ### The rotated and reduced matrix -/

/-- Two orthogonal matrices with the same last row, and any matrix. -/
theorem block_any {R Q : Matrix (Fin (m + 1)) (Fin (m + 1)) ℝ} (hR : R * Rᵀ = 1) (hR' : Rᵀ * R = 1) (hQ : Q * Qᵀ = 1)
    (hQ' : Qᵀ * Q = 1) (h : R (Fin.last m) = Q (Fin.last m)) :
    ∃ S : Matrix (Fin m) (Fin m) ℝ, Sᵀ * S = 1 ∧ ∀ H : Matrix (Fin (m + 1)) (Fin (m + 1)) ℝ,
      (R * H * Rᵀ).submatrix Fin.castSucc Fin.castSucc = S * ((Q * H * Qᵀ).submatrix Fin.castSucc Fin.castSucc * Sᵀ) := by
  obtain ⟨W, hW⟩ : ∃ W, W = R * Qᵀ := ⟨_, rfl⟩
  have hlast : ∀ i, i ≠ Fin.last m → W i (Fin.last m) = 0 := by
    intro i hi
    rw [hW, mul_apply]
    have : ∑ k, R i k * Qᵀ k (Fin.last m) = (R * Rᵀ) i (Fin.last m) := by
      rw [mul_apply]
      refine Finset.sum_congr rfl fun k _ => ?_
      rw [transpose_apply, transpose_apply, h]
    rw [this, hR, one_apply_ne hi]
  have hlast' : ∀ j, j ≠ Fin.last m → W (Fin.last m) j = 0 := by
    intro j hj
    rw [hW, mul_apply]
    have : ∑ k, R (Fin.last m) k * Qᵀ k j = (Q * Qᵀ) (Fin.last m) j := by
      rw [mul_apply, h]
    rw [this, hQ, one_apply_ne hj.symm]
  have hWW : Wᵀ * W = 1 := by
    rw [hW, transpose_mul, transpose_transpose]
    calc Q * Rᵀ * (R * Qᵀ) = Q * (Rᵀ * R) * Qᵀ := by simp only [Matrix.mul_assoc]
      _ = 1 := by rw [hR', Matrix.mul_one, hQ]
  refine ⟨W.submatrix Fin.castSucc Fin.castSucc, ?_, fun H => ?_⟩
  · ext i j
    have := congrFun (congrFun hWW i.castSucc) j.castSucc
    rw [mul_apply, Fin.sum_univ_castSucc] at this
    rw [transpose_apply, hlast' _ (Fin.castSucc_lt_last i).ne, zero_mul, add_zero] at this
    rw [mul_apply]
    simp only [transpose_apply, submatrix_apply] at this ⊢
    rw [this]
    simp [one_apply]
  · have e : R * H * Rᵀ = W * ((Q * H * Qᵀ) * Wᵀ) := by
      rw [hW, transpose_mul, transpose_transpose]
      calc R * H * Rᵀ = R * (Qᵀ * Q) * H * (Qᵀ * Q) * Rᵀ := by rw [hQ', Matrix.mul_one, Matrix.mul_one]
        _ = _ := by simp only [Matrix.mul_assoc]
    rw [e]
    generalize Q * H * Qᵀ = K
    ext i j
    rw [submatrix_apply, mul_apply, Fin.sum_univ_castSucc, hlast _ (Fin.castSucc_lt_last i).ne, zero_mul, add_zero, mul_apply]
    refine Finset.sum_congr rfl fun k _ => ?_
    rw [mul_apply, Fin.sum_univ_castSucc, transpose_apply (M := W) (i := Fin.last m), hlast _ (Fin.castSucc_lt_last j).ne, mul_zero,
      add_zero, mul_apply]
    rfl

theorem sum_sq_mulVec {S : Matrix (Fin m) (Fin m) ℝ} (hS : Sᵀ * S = 1) (v : Fin m → ℝ) : S.mulVec v ⬝ᵥ S.mulVec v = v ⬝ᵥ v := by
  rw [dotProduct_mulVec, ← mulVec_transpose, mulVec_mulVec, hS, one_mulVec]

/-- A matrix with small entries. -/
theorem small_mulVec {E : Matrix (Fin n) (Fin n) ℝ} {ε : ℝ} (hε : 0 ≤ ε) (hE : ∀ i j, |E i j| ≤ ε) (v : Fin n → ℝ) :
    E.mulVec v ⬝ᵥ E.mulVec v ≤ (n * ε) ^ 2 * (v ⬝ᵥ v) := by
  have h1 : ∀ i, E.mulVec v i * E.mulVec v i ≤ n * ε ^ 2 * (v ⬝ᵥ v) := by
    intro i
    have h2 : (E.mulVec v i) ^ 2 ≤ (∑ j, E i j ^ 2) * ∑ j, v j ^ 2 := Finset.sum_mul_sq_le_sq_mul_sq Finset.univ (E i) v
    have h3 : ∑ j, E i j ^ 2 ≤ n * ε ^ 2 := by
      calc ∑ j, E i j ^ 2 ≤ ∑ _j : Fin n, ε ^ 2 := Finset.sum_le_sum fun j _ => by
            rw [← sq_abs]; exact pow_le_pow_left₀ (abs_nonneg _) (hE i j) 2
        _ = n * ε ^ 2 := by simp
    have h4 : ∑ j, v j ^ 2 = v ⬝ᵥ v := Finset.sum_congr rfl fun j _ => by ring
    rw [h4] at h2
    have h5 : 0 ≤ v ⬝ᵥ v := by rw [← h4]; positivity
    rw [← sq]
    exact h2.trans (mul_le_mul_of_nonneg_right h3 h5)
  calc E.mulVec v ⬝ᵥ E.mulVec v = ∑ i, E.mulVec v i * E.mulVec v i := rfl
    _ ≤ ∑ _i : Fin n, n * ε ^ 2 * (v ⬝ᵥ v) := Finset.sum_le_sum fun i _ => h1 i
    _ = (n * ε) ^ 2 * (v ⬝ᵥ v) := by simp; ring

/-- An eigenvalue of a perturbed diagonal matrix (in another orthonormal basis) is near a diagonal entry. -/
theorem bauer_fike {S M : Matrix (Fin m) (Fin m) ℝ} (hS : Sᵀ * S = 1) (κ : Fin m → ℝ) {δ : ℝ} (hδ : 0 ≤ δ)
    (hM : ∀ v, (M - S * (diagonal κ * Sᵀ)).mulVec v ⬝ᵥ (M - S * (diagonal κ * Sᵀ)).mulVec v ≤ δ ^ 2 * (v ⬝ᵥ v))
    {l : ℝ} (hl : M.charpoly.IsRoot l) : ∃ i, |l - κ i| ≤ δ := by
  by_contra hcon
  push Not at hcon
  have hdet : (scalar (Fin m) l - M).det = 0 := by rw [← eval_charpoly]; exact hl
  obtain ⟨v, hv, hv0⟩ := exists_mulVec_eq_zero_iff.2 hdet
  have hMv : M.mulVec v = l • v := by
    rw [sub_mulVec, sub_eq_zero] at hv0
    rw [← hv0, scalar_apply, ← smul_one_eq_diagonal, smul_mulVec, one_mulVec]
  obtain ⟨w, hw⟩ : ∃ w, w = Sᵀ.mulVec v := ⟨_, rfl⟩
  have hSS : S * Sᵀ = 1 := mul_eq_one_comm.1 hS
  have hvw : v = S.mulVec w := by rw [hw, mulVec_mulVec, hSS, one_mulVec]
  have e1 : (M - S * (diagonal κ * Sᵀ)).mulVec v = S.mulVec (fun i => (l - κ i) * w i) := by
    rw [sub_mulVec, hMv, ← mulVec_mulVec, ← mulVec_mulVec, ← hw, hvw, ← mulVec_smul, ← mulVec_sub]
    congr 1
    funext i
    simp only [Pi.sub_apply, Pi.smul_apply, smul_eq_mul, mulVec_diagonal]
    ring
  have h1 := hM v
  rw [e1, sum_sq_mulVec hS, hvw, sum_sq_mulVec hS] at h1
  have hw0 : ∃ i, w i ≠ 0 := by
    by_contra h0
    push Not at h0
    apply hv
    rw [hvw, show w = 0 from funext h0, mulVec_zero]
  obtain ⟨i0, hi0⟩ := hw0
  have h2 : δ ^ 2 * (w ⬝ᵥ w) < (fun i => (l - κ i) * w i) ⬝ᵥ (fun i => (l - κ i) * w i) := by
    unfold dotProduct
    rw [Finset.mul_sum]
    have hsq : ∀ i, δ ^ 2 < (l - κ i) ^ 2 := fun i => by
      rw [← sq_abs (l - κ i)]; exact pow_lt_pow_left₀ (hcon i) hδ two_ne_zero
    refine Finset.sum_lt_sum (fun i _ => ?_) ⟨i0, Finset.mem_univ _, ?_⟩
    · have := mul_le_mul_of_nonneg_right (hsq i).le (mul_self_nonneg (w i))
      linarith
    · have := mul_lt_mul_of_pos_right (hsq i0) (mul_self_pos.2 hi0)
      linarith
  linarith

/-- The reduced matrix of a small matrix. -/
theorem small_block {R : Matrix (Fin (m + 1)) (Fin (m + 1)) ℝ} (hR : R * Rᵀ = 1) (hR' : Rᵀ * R = 1)
    {E : Matrix (Fin (m + 1)) (Fin (m + 1)) ℝ} {ε : ℝ} (hε : 0 ≤ ε) (hE : ∀ i j, |E i j| ≤ ε) (v : Fin m → ℝ) :
    ((R * E * Rᵀ).submatrix Fin.castSucc Fin.castSucc).mulVec v ⬝ᵥ ((R * E * Rᵀ).submatrix Fin.castSucc Fin.castSucc).mulVec v ≤
      (((m + 1 : ℕ) : ℝ) * ε) ^ 2 * (v ⬝ᵥ v) := by
  obtain ⟨w, hw⟩ : ∃ w : Fin (m + 1) → ℝ, w = Fin.snoc (α := fun _ => ℝ) v 0 := ⟨_, rfl⟩
  have h1 : ∀ i : Fin m, ((R * E * Rᵀ).submatrix Fin.castSucc Fin.castSucc).mulVec v i = (R * E * Rᵀ).mulVec w i.castSucc := by
    intro i
    simp only [mulVec, dotProduct, submatrix_apply]
    rw [Fin.sum_univ_castSucc, hw]
    simp
  have h2 : w ⬝ᵥ w = v ⬝ᵥ v := by
    simp only [dotProduct]
    rw [Fin.sum_univ_castSucc, hw]
    simp
  have h3 : (R * E * Rᵀ).mulVec w = R.mulVec (E.mulVec (Rᵀ.mulVec w)) := by
    rw [mulVec_mulVec, mulVec_mulVec, Matrix.mul_assoc]
  have h4 := small_mulVec hε hE (Rᵀ.mulVec w)
  rw [sum_sq_mulVec (S := Rᵀ) (by rw [transpose_transpose]; exact hR), h2] at h4
  refine le_trans ?_ h4
  rw [← sum_sq_mulVec hR' (E.mulVec (Rᵀ.mulVec w)), ← h3]
  simp only [dotProduct]
  rw [Fin.sum_univ_castSucc (fun i => (R * E * Rᵀ).mulVec w i * (R * E * Rᵀ).mulVec w i)]
  simp only [h1]
  have := mul_self_nonneg ((R * E * Rᵀ).mulVec w (Fin.last m))
  linarith

/-! ### Eigenvalues of matrices near a symmetric one with distinct eigenvalues -/

/-- The eigenvalue routine on matrices all of whose eigenvalues are real: it returns them, with their multiplicities, in any order. -/
def EigReal (eig : Matrix (Fin m) (Fin m) ℝ → List ℝ) : Prop :=
  ∀ M : Matrix (Fin m) (Fin m) ℝ, M.charpoly.Splits → M.charpoly = ((eig M).map (fun l => X - C l)).prod

theorem eigReal_exists (m : ℕ) : ∃ eig : Matrix (Fin m) (Fin m) ℝ → List ℝ, EigReal eig := by
  refine ⟨fun M => M.charpoly.roots.toList, fun M hM => ?_⟩
  have h := hM.eq_prod_roots
  rw [M.charpoly_monic.leadingCoeff, C_1, one_mul] at h
  conv_lhs => rw [h]
  conv_lhs => rw [← Multiset.coe_toList M.charpoly.roots]
  rw [Multiset.map_coe, Multiset.prod_coe]

theorem gap {κ : Fin m → ℝ} (hκ : Function.Injective κ) {δ : ℝ} (hδ : 0 < δ) :
    ∃ d, 0 < d ∧ d ≤ δ ∧ ∀ i j, i ≠ j → 2 * d < |κ i - κ j| := by
  have h1 : ∀ᶠ d in 𝓝[>] (0:ℝ), ∀ i j, i ≠ j → 2 * d < |κ i - κ j| := by
    rw [eventually_all]
    intro i
    rw [eventually_all]
    intro j
    by_cases hij : i = j
    · exact Eventually.of_forall fun d h => absurd hij h
    · have hpos : 0 < |κ i - κ j| := abs_pos.2 (sub_ne_zero.2 fun h => hij (hκ h))
      have : ∀ᶠ d in 𝓝[>] (0:ℝ), d < |κ i - κ j| / 2 := eventually_nhdsWithin_of_eventually_nhds (eventually_lt_nhds (by positivity))
      filter_upwards [this] with d hd _
      linarith
  have h2 : ∀ᶠ d in 𝓝[>] (0:ℝ), d < δ := eventually_nhdsWithin_of_eventually_nhds (eventually_lt_nhds hδ)
  obtain ⟨d, ⟨ha, hb⟩, hc⟩ := ((h1.and h2).and self_mem_nhdsWithin).exists
  exact ⟨d, hc, hb.le, ha⟩

theorem roots_near {W : Matrix (Fin m) (Fin m) ℝ} (hW : Wᵀ * W = 1) {κ : Fin m → ℝ} (hκ : StrictMono κ)
    {M : ℝ → Matrix (Fin m) (Fin m) ℝ} (hM : Tendsto M atTop (𝓝 (W * (diagonal κ * Wᵀ)))) {δ : ℝ} (hδ : 0 < δ) :
    ∀ᶠ p in atTop, ∃ ρ : Fin m → ℝ, StrictMono ρ ∧ (∀ i, |ρ i - κ i| ≤ δ) ∧ (M p).charpoly.roots = (List.ofFn ρ : Multiset ℝ) ∧
      (M p).charpoly.Splits := by
  obtain ⟨d, hd, hdδ, hgap⟩ := gap hκ.injective hδ
  have hlim : ∀ x, Tendsto (fun p => (M p).charpoly.eval x) atTop (𝓝 (∏ j, (x - κ j))) := by
    intro x
    have e : ∏ j, (x - κ j) = (W * (diagonal κ * Wᵀ)).charpoly.eval x := by
      rw [charpoly_mul_comm, Matrix.mul_assoc, hW, Matrix.mul_one, charpoly_diagonal, eval_prod]
      simp
    rw [e]
    simp only [eval_charpoly]
    exact ((continuous_const.sub continuous_id).matrix_det.tendsto _).comp hM
  have hsign : ∀ i, ∏ j, ((κ i - d) - κ j) * ((κ i + d) - κ j) < 0 := by
    intro i
    rw [← Finset.mul_prod_erase _ _ (Finset.mem_univ i)]
    refine mul_neg_of_neg_of_pos ?_ (Finset.prod_pos fun j hj => ?_)
    · nlinarith
    · have := hgap i j (Finset.ne_of_mem_erase hj).symm
      have h2 : d ^ 2 < (κ i - κ j) ^ 2 := by
        rw [← sq_abs (κ i - κ j)]
        exact pow_lt_pow_left₀ (by linarith) hd.le two_ne_zero
      nlinarith
  have hev : ∀ᶠ p in atTop, ∀ i, (M p).charpoly.eval (κ i - d) * (M p).charpoly.eval (κ i + d) < 0 := by
    rw [eventually_all]
    intro i
    have := (hlim (κ i - d)).mul (hlim (κ i + d))
    rw [← Finset.prod_mul_distrib] at this
    exact this.eventually_lt_const (hsign i)
  filter_upwards [hev] with p hp
  have hroot : ∀ i, ∃ r, r ∈ Set.Icc (κ i - d) (κ i + d) ∧ (M p).charpoly.eval r = 0 := by
    intro i
    have hc : ContinuousOn (fun x => (M p).charpoly.eval x) (Set.Icc (κ i - d) (κ i + d)) := (Polynomial.continuous _).continuousOn
    have hle : κ i - d ≤ κ i + d := by linarith
    rcases mul_neg_iff.1 (hp i) with ⟨h1, h2⟩ | ⟨h1, h2⟩
    · obtain ⟨r, hr, hr0⟩ := intermediate_value_Icc' hle hc ⟨h2.le, h1.le⟩
      exact ⟨r, hr, hr0⟩
    · obtain ⟨r, hr, hr0⟩ := intermediate_value_Icc hle hc ⟨h1.le, h2.le⟩
      exact ⟨r, hr, hr0⟩
  choose ρ hρ hρ0 using hroot
  have hmono : StrictMono ρ := by
    intro i j hij
    have h1 := hgap j i hij.ne'
    rw [abs_of_pos (sub_pos.2 (hκ hij))] at h1
    have := (hρ i).2
    have := (hρ j).1
    linarith
  have hne : (M p).charpoly ≠ 0 := (M p).charpoly_monic.ne_zero
  have hdeg : (M p).charpoly.natDegree = m := by rw [charpoly_natDegree_eq_dim, Fintype.card_fin]
  have hle : ((List.ofFn ρ : List ℝ) : Multiset ℝ) ≤ (M p).charpoly.roots := by
    rw [Multiset.le_iff_subset (by rw [Multiset.coe_nodup]; exact List.nodup_ofFn.2 hmono.injective)]
    intro r hr
    rw [Multiset.mem_coe, List.mem_ofFn] at hr
    obtain ⟨i, rfl⟩ := hr
    exact (mem_roots hne).2 (hρ0 i)
  have hroots : (M p).charpoly.roots = (List.ofFn ρ : Multiset ℝ) := by
    refine (Multiset.eq_of_le_of_card_le hle ?_).symm
    refine (card_roots' _).trans ?_
    rw [hdeg, Multiset.coe_card, List.length_ofFn]
  refine ⟨ρ, hmono, fun i => ?_, hroots, ?_⟩
  · rw [abs_le]
    constructor <;> linarith [(hρ i).1, (hρ i).2]
  · rw [splits_iff_card_roots, hroots, hdeg, Multiset.coe_card, List.length_ofFn]

theorem sort_near {eig : Matrix (Fin m) (Fin m) ℝ → List ℝ} (heig : EigReal eig) {M : Matrix (Fin m) (Fin m) ℝ} {ρ : Fin m → ℝ}
    (hρ : StrictMono ρ) (hr : M.charpoly.roots = (List.ofFn ρ : Multiset ℝ)) (hs : M.charpoly.Splits) :
    Sorm.sort (eig M) = List.ofFn ρ := by
  have h1 := heig M hs
  have h2 : (((eig M).map (fun l => X - C l)).prod : ℝ[X]).roots = ((eig M : List ℝ) : Multiset ℝ) := by
    rw [← roots_multiset_prod_X_sub_C ((eig M : List ℝ) : Multiset ℝ)]
    congr 1
  rw [← h1, hr] at h2
  rw [← sort_eq_of_perm (Multiset.coe_eq_coe.1 h2)]
  unfold Sorm.sort
  classical
  refine List.Perm.eq_of_pairwise' (List.pairwise_insertionSort (· ≤ ·) _) ?_ (List.perm_insertionSort _ _)
  rw [List.pairwise_ofFn]
  exact fun i j hij => (hρ hij).le

/-- A run of curve fitting when the Hessian and the rotation are there. -/
theorem runCurvefit_ok (eig : Matrix (Fin m) (Fin m) ℝ → List ℝ) {t : Mats (m + 1)} {marg : Fin (m + 1) → Marginal}
    {ev : Evaluator σ (m + 1)} {form : Result (m + 1)} {para : ℝ} {s s' : σ} {M R : Matrix (Fin (m + 1)) (Fin (m + 1)) ℝ}
    (hM : computeHessian t marg ev form para s = (s', .ok M)) (hR : orthonormalMatrix form.alpha = .ok R) :
    runCurvefit eig t marg ev form para false s = (s', .ok ⟨form.beta,
      Sorm.sort (eig (((norm2 form.point.gradient)⁻¹ • (R * M * Rᵀ)).submatrix Fin.castSucc Fin.castSucc)), none,
      pfBreitung form.beta (Sorm.sort (eig (((norm2 form.point.gradient)⁻¹ • (R * M * Rᵀ)).submatrix Fin.castSucc Fin.castSucc))),
      pfBreitungM form.beta (Sorm.sort (eig (((norm2 form.point.gradient)⁻¹ • (R * M * Rᵀ)).submatrix Fin.castSucc Fin.castSucc)))⟩) := by
  rw [runCurvefit_eq]
  simp only [hM, hR, finish, Bool.false_eq_true, if_false]

/-! ### The theorems -/

section
variable {la : LinAlg} {ty : TransformType} {Ro : Matrix (Fin (m + 1)) (Fin (m + 1)) ℝ} {t : Mats (m + 1)}
    (ht : Transformation.compute la ty Ro = .ok t) (marg : Fin (m + 1) → Marginal) (S : Fin (m + 1) → Set ℝ)
    (hmarg : ∀ i, RoundTrip (marg i) (S i)) (hS : ∀ i, IsOpen (S i)) (hj : ∀ i, JacobianCorrect (marg i) (S i))
    (hne : ∀ i z, (marg i).jac z ((marg i).uToX z) ≠ 0) {ev : Evaluator σ (m + 1)} {P : σ → Prop} {f : (Fin (m + 1) → ℝ) → ℝ}
    {grad : (Fin (m + 1) → ℝ) → Fin (m + 1) → ℝ}
    (hf : ∀ u, HasFDerivAt f (gradMap (grad (uToX t marg u))) (uToX t marg u))
    (hev : ∀ s, P s → ∀ u, ∃ s', ev.withGrad s (uToX t marg u) =
      (s', .ok (f (uToX t marg u), grad (uToX t marg u), uToX t marg u)) ∧ P s')
    {G : (Fin (m + 1) → ℝ) → Fin (m + 1) → ℝ} (hG : ∀ u, HasFDerivAt (fun u => f (uToX t marg u)) (gradMap (G u)) u)
include ht hmarg hS hj hne hf hev hG

/-- **C108** (the Hessian).  Let `G` be the gradient of the limit state in standard normal space and `H` the matrix of its second
derivatives, with `|H i j|` changing by at most `L` times the distance from the design point.  Then the matrix that `computeHessian` returns differs from
`H` at the design point by at most `L h / 2` in every entry, `h = 1/ffdpara`. -/
theorem C108_hessian {H : (Fin (m + 1) → ℝ) → Matrix (Fin (m + 1)) (Fin (m + 1)) ℝ}
    (hH : ∀ u i, HasFDerivAt (fun v => G v i) (gradMap (H u i)) u) (form : Result (m + 1)) {para L : ℝ} (hp : 0 < para)
    (hL : ∀ u, len (u - form.point.u) ≤ 1 / para → ∀ i j, |H u i j - H form.point.u i j| ≤ L * len (u - form.point.u))
    (s : σ) (hs : P s) : ∃ s' M, computeHessian t marg ev form para s = (s', .ok M) ∧ P s' ∧ (H form.point.u).IsSymm ∧
      ∀ i j, |M i j - H form.point.u i j| ≤ L * (1 / para) / 2 := by
  obtain ⟨s', h1, h2⟩ := hessian_of_gives (gives_exact ht marg S hmarg hS hj hne hf hev hG) form hp.ne' s hs
  refine ⟨s', _, h1, h2, hessian_symm hG (hH _), fun i j => ?_⟩
  have h0 : Function.update form.point.u j (form.point.u j + 0) = form.point.u := by simp
  have hlen : ∀ x : ℝ, 0 ≤ x → len (Function.update form.point.u j (form.point.u j + x) - form.point.u) = x := by
    intro x hx
    rw [update_line, add_sub_cancel_left]
    unfold len
    rw [Finset.sum_eq_single j (fun k _ hk => by simp [hk]) (fun h => absurd (Finset.mem_univ j) h)]
    simp [Real.sqrt_sq hx]
  have key := difference_error (one_div_pos.2 hp) (φ := fun x => G (Function.update form.point.u j (form.point.u j + x)) i)
    (φ' := fun x => H (Function.update form.point.u j (form.point.u j + x)) i j) (L := L)
    (line_deriv (g := fun v => G v i) (a := fun u => H u i) (fun u => hH u i) form.point.u j)
    (fun x hx hx' => by
      have := hL (Function.update form.point.u j (form.point.u j + x)) (by rw [hlen x hx]; exact hx') i j
      rw [hlen x hx] at this
      simp only [h0]
      exact this)
  simp only [h0] at key
  exact key

/-- **C108** (accuracy of the curvatures).  In the setting of `C108_hessian`, let FORM have found the unit normal `alpha`, and let `κᵢ` be the
principal curvatures there: the second derivatives in the directions of an orthonormal basis of the tangent plane in which they are
diagonal, divided by the norm of the gradient.  Then every curvature reported by SORM differs from one of them by at
most `n L h / (2 ‖∇‖)`, `n` the number of variables. -/
theorem C108_curvatures {eig : Matrix (Fin m) (Fin m) ℝ → List ℝ} (heig : ∀ M, ∀ l ∈ eig M, M.charpoly.IsRoot l)
    {H : (Fin (m + 1) → ℝ) → Matrix (Fin (m + 1)) (Fin (m + 1)) ℝ}
    (hH : ∀ u i, HasFDerivAt (fun v => G v i) (gradMap (H u i)) u) (form : Result (m + 1)) {para L : ℝ} (hp : 0 < para) (hL0 : 0 ≤ L)
    (hL : ∀ u, len (u - form.point.u) ≤ 1 / para → ∀ i j, |H u i j - H form.point.u i j| ≤ L * len (u - form.point.u))
    {Q : Matrix (Fin (m + 1)) (Fin (m + 1)) ℝ} (hQ : Q * Qᵀ = 1) (hal : form.alpha = Q (Fin.last m)) (κ : Fin m → ℝ)
    (hκ : (Q * H form.point.u * Qᵀ).submatrix Fin.castSucc Fin.castSucc = norm2 form.point.gradient • diagonal κ)
    (hgr : 0 < norm2 form.point.gradient) (hm : m ≠ 0) (hlast : 1e-8 < |form.alpha (Fin.last m)|) (s : σ) (hs : P s) :
    ∃ s' r, runCurvefit eig t marg ev form para false s = (s', .ok r) ∧ P s' ∧
      ∀ k ∈ r.kappa, ∃ i, |k - κ i| ≤ (m + 1) * L * (1 / para) / (2 * norm2 form.point.gradient) := by
  obtain ⟨s', M, hM, hP, -, hMH⟩ := C108_hessian ht marg S hmarg hS hj hne hf hev hG hH form hp hL s hs
  have hQ' : Qᵀ * Q = 1 := mul_eq_one_comm.1 hQ
  have ha : form.alpha ⬝ᵥ form.alpha = 1 := by
    have := congrFun (congrFun hQ (Fin.last m)) (Fin.last m)
    rw [mul_apply, one_apply_eq] at this
    rw [hal]; exact this
  obtain ⟨R, hRot⟩ := (C47_defined form.alpha ha).2.1 hm hlast
  obtain ⟨hR, hR', hRl, -⟩ := C47_rotation ha hRot
  obtain ⟨W, hW, hblock⟩ := block_any hR hR' hQ hQ' (hRl.trans hal)
  refine ⟨s', _, runCurvefit_ok eig hM hRot, hP, ?_⟩
  intro k hk
  have hk' : k ∈ eig (((norm2 form.point.gradient)⁻¹ • (R * M * Rᵀ)).submatrix Fin.castSucc Fin.castSucc) := by
    classical
    exact (List.perm_insertionSort (· ≤ ·) _).mem_iff.1 hk
  obtain ⟨c, hc⟩ : ∃ c, c = norm2 form.point.gradient := ⟨_, rfl⟩
  rw [← hc] at hκ hgr hk' ⊢
  have hA : W * (diagonal κ * Wᵀ) = (c⁻¹ • (R * H form.point.u * Rᵀ)).submatrix Fin.castSucc Fin.castSucc := by
    have e : (c⁻¹ • (R * H form.point.u * Rᵀ)).submatrix Fin.castSucc Fin.castSucc =
        c⁻¹ • (R * H form.point.u * Rᵀ).submatrix Fin.castSucc Fin.castSucc := rfl
    rw [e, hblock, hκ, Matrix.smul_mul, Matrix.mul_smul, smul_smul, inv_mul_cancel₀ hgr.ne', one_smul]
  have hε : 0 ≤ L * (1 / para) / 2 := by positivity
  refine bauer_fike hW κ (δ := (m + 1) * L * (1 / para) / (2 * c)) (by positivity) (fun v => ?_) (heig _ _ hk')
  have e : (c⁻¹ • (R * M * Rᵀ)).submatrix Fin.castSucc Fin.castSucc - W * (diagonal κ * Wᵀ) =
      c⁻¹ • (R * (M - H form.point.u) * Rᵀ).submatrix Fin.castSucc Fin.castSucc := by
    rw [hA, Matrix.mul_sub, Matrix.sub_mul]
    ext i j
    simp only [Matrix.sub_apply, submatrix_apply, Matrix.smul_apply, smul_eq_mul]
    ring
  rw [e, smul_mulVec, smul_dotProduct, dotProduct_smul, smul_eq_mul, smul_eq_mul]
  have h1 := small_block hR hR' hε (E := M - H form.point.u) (fun i j => hMH i j) v
  have h2 := mul_le_mul_of_nonneg_left h1 (mul_self_nonneg c⁻¹)
  refine le_trans (le_of_eq ?_) (h2.trans (le_of_eq ?_))
  · ring
  · push_cast
    field_simp

/-- **C108** (limit).  The limit state need only be twice differentiable at the design point.  If the principal curvatures there are
distinct, then for every accuracy and every sufficiently large `ffdpara` SORM reports as many curvatures, in increasing order, each as
close to the true one as required; and the probabilities by Breitung's and by the modified formula are as close as required to those with the
true curvatures, whenever the latter are defined. -/
theorem C108_limit {eig : Matrix (Fin m) (Fin m) ℝ → List ℝ} (heig : EigReal eig) (form : Result (m + 1))
    {H : Matrix (Fin (m + 1)) (Fin (m + 1)) ℝ} (hH : ∀ i, HasFDerivAt (fun v => G v i) (gradMap (H i)) form.point.u)
    {Q : Matrix (Fin (m + 1)) (Fin (m + 1)) ℝ} (hQ : Q * Qᵀ = 1) (hal : form.alpha = Q (Fin.last m)) {κ : Fin m → ℝ} (hmono : StrictMono κ)
    (hκ : (Q * H * Qᵀ).submatrix Fin.castSucc Fin.castSucc = norm2 form.point.gradient • diagonal κ)
    (hgr : 0 < norm2 form.point.gradient) (hm : m ≠ 0) (hlast : 1e-8 < |form.alpha (Fin.last m)|) {δ : ℝ} (hδ : 0 < δ) :
    ∃ B, 0 < B ∧ ∀ para, B ≤ para → ∀ s, P s → ∃ s' r, ∃ ρ : Fin m → ℝ,
      runCurvefit eig t marg ev form para false s = (s', .ok r) ∧ P s' ∧ r.betaHL = form.beta ∧
      r.kappa = List.ofFn ρ ∧ (∀ i, |ρ i - κ i| ≤ δ) ∧
      (0 < form.beta → (∀ i, -1 / form.beta < κ i) → ∃ p, r.breitung.pf = .fin p ∧
        |p - StdNormal.cdf (-form.beta) * ∏ i, 1 / √(1 + form.beta * κ i)| ≤ δ) ∧
      ((∀ i, -1 / (StdNormal.pdf form.beta / StdNormal.cdf (-form.beta)) < κ i) → ∃ p, r.breitungM.pf = .fin p ∧
        |p - StdNormal.cdf (-form.beta) * ∏ i, 1 / √(1 + StdNormal.pdf form.beta / StdNormal.cdf (-form.beta) * κ i)| ≤ δ) := by
  have hQ' : Qᵀ * Q = 1 := mul_eq_one_comm.1 hQ
  have ha : form.alpha ⬝ᵥ form.alpha = 1 := by
    have := congrFun (congrFun hQ (Fin.last m)) (Fin.last m)
    rw [mul_apply, one_apply_eq] at this
    rw [hal]; exact this
  obtain ⟨R, hRot⟩ := (C47_defined form.alpha ha).2.1 hm hlast
  obtain ⟨hR, hR', hRl, -⟩ := C47_rotation ha hRot
  obtain ⟨W, hW, hblock⟩ := block_any hR hR' hQ hQ' (hRl.trans hal)
  obtain ⟨c, hc⟩ : ∃ c, c = norm2 form.point.gradient := ⟨_, rfl⟩
  have hpos : 0 < c := by rw [hc]; exact hgr
  have hA : W * (diagonal κ * Wᵀ) = (c⁻¹ • (R * H * Rᵀ)).submatrix Fin.castSucc Fin.castSucc := by
    have e : (c⁻¹ • (R * H * Rᵀ)).submatrix Fin.castSucc Fin.castSucc =
        c⁻¹ • (R * H * Rᵀ).submatrix Fin.castSucc Fin.castSucc := rfl
    rw [e, hblock, hκ, ← hc, Matrix.smul_mul, Matrix.mul_smul, smul_smul, inv_mul_cancel₀ hpos.ne', one_smul]
  have hgives := gives_exact ht marg S hmarg hS hj hne hf hev hG
  obtain ⟨N, hN⟩ : ∃ N : ℝ → Matrix (Fin (m + 1)) (Fin (m + 1)) ℝ, N = fun para i j =>
      (G (Function.update form.point.u j (form.point.u j + 1 / para)) i - G form.point.u i) / (1 / para) := ⟨_, rfl⟩
  have hNlim : Tendsto N atTop (𝓝 H) := by
    refine tendsto_pi_nhds.2 fun i => tendsto_pi_nhds.2 fun j => ?_
    have h1 : HasDerivAt (fun x : ℝ => G (Function.update form.point.u j (form.point.u j + x)) i) (H i j) 0 := by
      obtain ⟨ej, hej⟩ : ∃ ej : Fin (m + 1) → ℝ, ej = Pi.single j 1 := ⟨_, rfl⟩
      have e : ∀ x : ℝ, Function.update form.point.u j (form.point.u j + x) = form.point.u + x • ej := fun x => by rw [update_line, hej]
      simp only [e]
      have h1 : HasDerivAt (fun x : ℝ => form.point.u + x • ej) ej 0 := by
        have := ((hasDerivAt_id (0:ℝ)).smul_const ej).const_add form.point.u
        simpa using this
      have h2 := HasFDerivAt.comp_hasDerivAt (l := fun v => G v i) (l' := gradMap (H i)) (0:ℝ) (by simpa using hH i) h1
      refine h2.congr_deriv ?_
      rw [hej, gradMap_single]
    have h2 := h1.tendsto_slope_zero_right.comp tendsto_inv_atTop_nhdsGT_zero
    refine h2.congr fun para => ?_
    rw [hN]
    simp [div_eq_inv_mul]
  have hMlim : Tendsto (fun para => (c⁻¹ • (R * N para * Rᵀ)).submatrix Fin.castSucc Fin.castSucc) atTop (𝓝 (W * (diagonal κ * Wᵀ))) := by
    rw [hA]
    have hcont : Continuous fun K : Matrix (Fin (m + 1)) (Fin (m + 1)) ℝ =>
        (c⁻¹ • (R * K * Rᵀ)).submatrix (Fin.castSucc (n := m)) (Fin.castSucc (n := m)) := by
      fun_prop
    exact (hcont.tendsto _).comp hNlim
  have hF : ∀ b : ℝ, (∀ i, 0 < 1 + b * κ i) → ∃ d > 0, ∀ ρ : Fin m → ℝ, (∀ i, |ρ i - κ i| ≤ d) → (∀ i, 0 < 1 + b * ρ i) ∧
      |StdNormal.cdf (-form.beta) * ∏ i, 1 / √(1 + b * ρ i) - StdNormal.cdf (-form.beta) * ∏ i, 1 / √(1 + b * κ i)| ≤ δ := by
    intro b hb
    have hc1 : ContinuousAt (fun ρ : Fin m → ℝ => StdNormal.cdf (-form.beta) * ∏ i, 1 / √(1 + b * ρ i)) κ := by
      refine continuousAt_const.mul (tendsto_finset_prod _ fun i _ => ?_)
      refine ContinuousAt.div continuousAt_const ?_ (Real.sqrt_pos.2 (hb i)).ne'
      exact (Real.continuous_sqrt.comp (by fun_prop : Continuous fun ρ : Fin m → ℝ => 1 + b * ρ i)).continuousAt
    have hc2 : ∀ᶠ ρ in 𝓝 κ, ∀ i, 0 < 1 + b * ρ i := by
      rw [eventually_all]
      intro i
      exact (((by fun_prop : Continuous fun ρ : Fin m → ℝ => 1 + b * ρ i).tendsto κ).eventually_const_lt (hb i))
    have hc3 : ∀ᶠ ρ in 𝓝 κ, |StdNormal.cdf (-form.beta) * ∏ i, 1 / √(1 + b * ρ i) -
        StdNormal.cdf (-form.beta) * ∏ i, 1 / √(1 + b * κ i)| < δ := Metric.tendsto_nhds.1 hc1 δ hδ
    obtain ⟨d, hd, hball⟩ := Metric.eventually_nhds_iff.1 (hc2.and hc3)
    refine ⟨d / 2, by positivity, fun ρ hρ => ?_⟩
    have := hball (y := ρ) (lt_of_le_of_lt ((dist_pi_le_iff (by positivity)).2 fun i => hρ i) (by linarith : d / 2 < d))
    exact ⟨this.1, this.2.le⟩
  have hF' : ∀ b : ℝ, ∃ d > 0, (∀ i, 0 < 1 + b * κ i) → ∀ ρ : Fin m → ℝ, (∀ i, |ρ i - κ i| ≤ d) → (∀ i, 0 < 1 + b * ρ i) ∧
      |StdNormal.cdf (-form.beta) * ∏ i, 1 / √(1 + b * ρ i) - StdNormal.cdf (-form.beta) * ∏ i, 1 / √(1 + b * κ i)| ≤ δ := by
    intro b
    by_cases hb : ∀ i, 0 < 1 + b * κ i
    · obtain ⟨d, hd, h⟩ := hF b hb
      exact ⟨d, hd, fun _ => h⟩
    · exact ⟨1, one_pos, fun h => absurd h hb⟩
  obtain ⟨d1, hd1, h1⟩ := hF' form.beta
  obtain ⟨d2, hd2, h2⟩ := hF' (psi form.beta)
  obtain ⟨B, hB⟩ := eventually_atTop.1 (roots_near hW hmono hMlim (δ := min δ (min d1 d2)) (by positivity))
  refine ⟨max B 1, lt_of_lt_of_le one_pos (le_max_right _ _), fun para hpara s hs => ?_⟩
  have hp0 : para ≠ 0 := (lt_of_lt_of_le one_pos ((le_max_right _ _).trans hpara)).ne'
  obtain ⟨ρ, hρm, hρ, hroots, hsplit⟩ := hB para ((le_max_left _ _).trans hpara)
  obtain ⟨s', hM, hP⟩ := hessian_of_gives hgives form hp0 s hs
  have hsort := sort_near heig hρm hroots hsplit
  have hrun := runCurvefit_ok eig hM hRot
  have e : (fun i j => (G (Function.update form.point.u j (form.point.u j + 1 / para)) i - G form.point.u i) / (1 / para)) = N para := by
    rw [hN]
  rw [e, ← hc, hsort] at hrun
  have hsρ : Sorm.sort (List.ofFn ρ) = List.ofFn ρ := by
    unfold Sorm.sort
    classical
    refine List.Perm.eq_of_pairwise' (List.pairwise_insertionSort (· ≤ ·) _) ?_ (List.perm_insertionSort _ _)
    rw [List.pairwise_ofFn]
    exact fun i j hij => (hρm hij).le
  refine ⟨s', _, ρ, hrun, hP, rfl, rfl, fun i => (hρ i).trans (min_le_left _ _), ?_, ?_⟩
  · intro hb hk
    have hb' : ∀ i, 0 < 1 + form.beta * κ i := fun i => by
      have := hk i
      rw [div_lt_iff₀ hb] at this
      linarith
    obtain ⟨g1, g2⟩ := h1 hb' ρ fun i => (hρ i).trans ((min_le_right _ _).trans (min_le_left _ _))
    have hv : ∀ k ∈ Sorm.sort (List.ofFn ρ), -1 / form.beta < k := mem_sort (p := fun k => -1 / form.beta < k) fun i => by
      rw [div_lt_iff₀ hb]
      have := g1 i
      linarith
    refine ⟨_, ?_, g2⟩
    change (pfBreitung form.beta (List.ofFn ρ)).pf = _
    rw [← hsρ, ((C46_curve form.beta _).1 hb hv).1, breitungPf_sort]
  · intro hk
    have hpsi := Pystra.psi_pos' form.beta
    have hb' : ∀ i, 0 < 1 + psi form.beta * κ i := fun i => by
      have := hk i
      change -1 / psi form.beta < κ i at this
      rw [div_lt_iff₀ hpsi] at this
      linarith
    obtain ⟨g1, g2⟩ := h2 hb' ρ fun i => (hρ i).trans ((min_le_right _ _).trans (min_le_right _ _))
    have hv : ∀ k ∈ Sorm.sort (List.ofFn ρ), -1 / (StdNormal.pdf form.beta / StdNormal.cdf (-form.beta)) < k :=
      mem_sort (p := fun k => -1 / (StdNormal.pdf form.beta / StdNormal.cdf (-form.beta)) < k) fun i => by
      change -1 / psi form.beta < ρ i
      rw [div_lt_iff₀ hpsi]
      have := g1 i
      linarith
    refine ⟨_, ?_, g2⟩
    change (pfBreitungM form.beta (List.ofFn ρ)).pf = _
    rw [← hsρ, ((C46_curve form.beta _).2 hv).1, breitungPf_sort]
    rfl

end

end Pystra.Props
