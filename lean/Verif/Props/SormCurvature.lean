import Verif.Props.SormHessian
import Verif.Props.SormFormula
import Mathlib.LinearAlgebra.Matrix.Charpoly.Basic
import Mathlib.Algebra.Polynomial.Roots
import Mathlib.Analysis.Matrix.Spectrum

/-! C48: curve-fitted SORM of a paraboloid, from the limit state to the failure probability. -/

namespace Pystra.Props
open Matrix Spec Transformation Form Sorm Polynomial

variable {σ : Type} {m : ℕ}

/-- The contract of `np.linalg.eig` on symmetric matrices: it returns the eigenvalues with multiplicity, in some order. -/
def EigOK (eig : Matrix (Fin m) (Fin m) ℝ → List ℝ) : Prop :=
  ∀ M : Matrix (Fin m) (Fin m) ℝ, M.IsSymm → M.charpoly = ((eig M).map (fun l => X - C l)).prod

theorem eigOK_exists (m : ℕ) : ∃ eig : Matrix (Fin m) (Fin m) ℝ → List ℝ, EigOK eig := by
  classical
  have h : ∀ M : Matrix (Fin m) (Fin m) ℝ, ∃ l : List ℝ, M.IsSymm → M.charpoly = (l.map (fun l => X - C l)).prod := by
    intro M
    by_cases hM : M.IsSymm
    · have hH : M.IsHermitian := by
        unfold IsHermitian; rw [conjTranspose_eq_transpose_of_trivial]; exact hM
      refine ⟨List.ofFn (fun i => hH.eigenvalues i), fun _ => ?_⟩
      rw [hH.charpoly_eq, List.map_ofFn, List.prod_ofFn]
      rfl
    · exact ⟨[], fun h => absurd h hM⟩
  choose eig h using h
  exact ⟨eig, fun M hM => h M hM⟩

theorem sort_eq_of_perm {l l' : List ℝ} (h : l.Perm l') : Sorm.sort l = Sorm.sort l' := by
  classical
  unfold Sorm.sort
  refine List.Perm.eq_of_pairwise' (List.pairwise_insertionSort (· ≤ ·) l) (List.pairwise_insertionSort (· ≤ ·) l') ?_
  exact ((List.perm_insertionSort _ l).trans h).trans (List.perm_insertionSort _ l').symm

/-- Two orthogonal matrices with the same last row. -/
theorem block {R Q : Matrix (Fin (m + 1)) (Fin (m + 1)) ℝ} (hR : R * Rᵀ = 1) (hR' : Rᵀ * R = 1) (hQ : Q * Qᵀ = 1)
    (hQ' : Qᵀ * Q = 1) (h : R (Fin.last m) = Q (Fin.last m)) (κ : Fin m → ℝ) :
    ∃ S : Matrix (Fin m) (Fin m) ℝ, Sᵀ * S = 1 ∧
      (R * (Qᵀ * diagonal (Fin.snoc κ 0 : Fin (m + 1) → ℝ) * Q) * Rᵀ).submatrix Fin.castSucc Fin.castSucc =
        S * (diagonal κ * Sᵀ) := by
  set W := R * Qᵀ with hW
  have hlast : ∀ i, i ≠ Fin.last m → W i (Fin.last m) = 0 := by
    intro i hi
    rw [hW, mul_apply]
    have : ∑ k, R i k * Qᵀ k (Fin.last m) = (R * Rᵀ) i (Fin.last m) := by
      rw [mul_apply]
      refine Finset.sum_congr rfl fun k _ => ?_
      rw [transpose_apply, transpose_apply, h]
    rw [this, hR, one_apply_ne hi]
  have hlast' : ∀ j, j ≠ Fin.last m → W (Fin.last m) j = 0 := by
    intro j hj
    rw [hW, mul_apply]
    have : ∑ k, R (Fin.last m) k * Qᵀ k j = (Q * Qᵀ) (Fin.last m) j := by
      rw [mul_apply, h]
    rw [this, hQ, one_apply_ne hj.symm]
  have hWW : Wᵀ * W = 1 := by
    rw [hW, transpose_mul, transpose_transpose]
    calc Q * Rᵀ * (R * Qᵀ) = Q * (Rᵀ * R) * Qᵀ := by simp only [Matrix.mul_assoc]
      _ = 1 := by rw [hR', Matrix.mul_one, hQ]
  refine ⟨W.submatrix Fin.castSucc Fin.castSucc, ?_, ?_⟩
  · ext i j
    have := congrFun (congrFun hWW i.castSucc) j.castSucc
    rw [mul_apply, Fin.sum_univ_castSucc] at this
    rw [transpose_apply, hlast' _ (Fin.castSucc_lt_last i).ne, zero_mul, add_zero] at this
    rw [mul_apply]
    simp only [transpose_apply, submatrix_apply] at this ⊢
    rw [this]
    simp [one_apply]
  · have e : R * (Qᵀ * diagonal (Fin.snoc κ 0 : Fin (m + 1) → ℝ) * Q) * Rᵀ =
        W * diagonal (Fin.snoc κ 0 : Fin (m + 1) → ℝ) * Wᵀ := by
      rw [hW, transpose_mul, transpose_transpose]
      simp only [Matrix.mul_assoc]
    rw [e]
    ext i j
    rw [submatrix_apply, mul_apply, Fin.sum_univ_castSucc]
    rw [transpose_apply (M := W) (i := Fin.last m), hlast _ (Fin.castSucc_lt_last j).ne, mul_zero, add_zero, mul_apply]
    refine Finset.sum_congr rfl fun k _ => ?_
    rw [mul_diagonal, diagonal_mul, Fin.snoc_castSucc]
    simp only [transpose_apply, submatrix_apply]
    ring

/-- The curvatures found from the Hessian of a paraboloid. -/
theorem curvatures {eig : Matrix (Fin m) (Fin m) ℝ → List ℝ} (he : EigOK eig)
    {R Q : Matrix (Fin (m + 1)) (Fin (m + 1)) ℝ} (hR : R * Rᵀ = 1) (hR' : Rᵀ * R = 1) (hQ : Q * Qᵀ = 1)
    (hQ' : Qᵀ * Q = 1) (h : R (Fin.last m) = Q (Fin.last m)) (κ : Fin m → ℝ) {c : ℝ} (hc : c ≠ 0) :
    Sorm.sort (eig ((c⁻¹ • (R * (c • (Qᵀ * diagonal (Fin.snoc κ 0 : Fin (m + 1) → ℝ) * Q)) * Rᵀ)).submatrix Fin.castSucc
      Fin.castSucc)) = Sorm.sort (List.ofFn κ) := by
  obtain ⟨S, hS, hA⟩ := block hR hR' hQ hQ' h κ
  have hA' : (c⁻¹ • (R * (c • (Qᵀ * diagonal (Fin.snoc κ 0 : Fin (m + 1) → ℝ) * Q)) * Rᵀ)).submatrix Fin.castSucc
      Fin.castSucc = S * (diagonal κ * Sᵀ) := by
    rw [← hA, Matrix.mul_smul, Matrix.smul_mul, smul_smul, inv_mul_cancel₀ hc, one_smul]
  rw [hA']
  apply sort_eq_of_perm
  have hsym : (S * (diagonal κ * Sᵀ)).IsSymm := by
    unfold IsSymm
    rw [transpose_mul, transpose_mul, transpose_transpose, diagonal_transpose, Matrix.mul_assoc]
  have hch := he _ hsym
  rw [charpoly_mul_comm, Matrix.mul_assoc, hS, Matrix.mul_one, charpoly_diagonal] at hch
  have h1 : (∏ i, (X - C (κ i)) : ℝ[X]).roots = ((List.ofFn κ : List ℝ) : Multiset ℝ) := by
    rw [← roots_multiset_prod_X_sub_C ((List.ofFn κ : List ℝ) : Multiset ℝ)]
    congr 1
    rw [Multiset.map_coe, Multiset.prod_coe, List.map_ofFn, List.prod_ofFn]
    rfl
  have h2 : (((eig (S * (diagonal κ * Sᵀ))).map (fun l => X - C l)).prod : ℝ[X]).roots =
      ((eig (S * (diagonal κ * Sᵀ)) : List ℝ) : Multiset ℝ) := by
    rw [← roots_multiset_prod_X_sub_C ((eig (S * (diagonal κ * Sᵀ)) : List ℝ) : Multiset ℝ)]
    congr 1
  rw [hch, h2] at h1
  exact Multiset.coe_eq_coe.1 h1

/-- A paraboloid in coordinates rotated by `Q`, as a quadratic of `u`. -/
theorem paraboloid_quad (Q : Matrix (Fin (m + 1)) (Fin (m + 1)) ℝ) (κ : Fin m → ℝ) (c β : ℝ) (u : Fin (m + 1) → ℝ) :
    c * (β - Q.mulVec u (Fin.last m) + 1 / 2 * ∑ i : Fin m, κ i * Q.mulVec u i.castSucc ^ 2) =
      quad (c * β) (fun j => -c * Q (Fin.last m) j) (c • (Qᵀ * diagonal (Fin.snoc κ 0 : Fin (m + 1) → ℝ) * Q)) u := by
  unfold quad
  rw [smul_mulVec, dotProduct_smul, ← mulVec_mulVec, ← mulVec_mulVec, dotProduct_mulVec u, vecMul_transpose]
  have h1 : Q.mulVec u ⬝ᵥ (diagonal (Fin.snoc κ 0 : Fin (m + 1) → ℝ)).mulVec (Q.mulVec u) =
      ∑ i : Fin m, κ i * Q.mulVec u i.castSucc ^ 2 := by
    rw [dotProduct, Fin.sum_univ_castSucc]
    simp only [mulVec_diagonal, Fin.snoc_castSucc, Fin.snoc_last, zero_mul, mul_zero, add_zero]
    exact Finset.sum_congr rfl fun i _ => by ring
  have h2 : (fun j => -c * Q (Fin.last m) j) ⬝ᵥ u = -c * Q.mulVec u (Fin.last m) := by
    simp only [mulVec, dotProduct, Finset.mul_sum]
    exact Finset.sum_congr rfl fun i _ => by ring
  rw [h1, h2, smul_eq_mul]
  ring

/-- The result of curve-fitted SORM of a paraboloid. -/
theorem curvefit_paraboloid {eig : Matrix (Fin m) (Fin m) ℝ → List ℝ} (heig : EigOK eig)
    {la : LinAlg} {ty : TransformType} {Ro : Matrix (Fin (m + 1)) (Fin (m + 1)) ℝ} {t : Mats (m + 1)}
    (ht : Transformation.compute la ty Ro = .ok t) (marg : Fin (m + 1) → Marginal) (S : Fin (m + 1) → Set ℝ)
    (hmarg : ∀ i, RoundTrip (marg i) (S i)) (hS : ∀ i, IsOpen (S i)) (hj : ∀ i, JacobianCorrect (marg i) (S i))
    (hne : ∀ i z, (marg i).jac z ((marg i).uToX z) ≠ 0) {ev : Evaluator σ (m + 1)} {P : σ → Prop} {f : (Fin (m + 1) → ℝ) → ℝ}
    {grad : (Fin (m + 1) → ℝ) → Fin (m + 1) → ℝ}
    (hf : ∀ u, HasFDerivAt f (gradMap (grad (uToX t marg u))) (uToX t marg u))
    (hev : ∀ s, P s → ∀ u, ∃ s', ev.withGrad s (uToX t marg u) =
      (s', .ok (f (uToX t marg u), grad (uToX t marg u), uToX t marg u)) ∧ P s')
    {Q : Matrix (Fin (m + 1)) (Fin (m + 1)) ℝ} (hQ : Q * Qᵀ = 1) (κ : Fin m → ℝ) {c β : ℝ} (hc : 0 < c)
    (hq : ∀ u, f (uToX t marg u) =
      c * (β - Q.mulVec u (Fin.last m) + 1 / 2 * ∑ i : Fin m, κ i * Q.mulVec u i.castSucc ^ 2))
    {form : Result (m + 1)} (hal : form.alpha = Q (Fin.last m)) (hbeta : form.beta = β)
    (hgr : norm2 form.point.gradient = c) (hm : m ≠ 0) (hlast : 1e-8 < |form.alpha (Fin.last m)|)
    {para : ℝ} (hp : para ≠ 0) (s : σ) (hs : P s) :
    ∃ s', runCurvefit eig t marg ev form para false s = (s', .ok ⟨β, Sorm.sort (List.ofFn κ), none,
      pfBreitung β (Sorm.sort (List.ofFn κ)), pfBreitungM β (Sorm.sort (List.ofFn κ))⟩) ∧ P s' := by
  have hQ' : Qᵀ * Q = 1 := mul_eq_one_comm.1 hQ
  have hK : (c • (Qᵀ * diagonal (Fin.snoc κ 0 : Fin (m + 1) → ℝ) * Q)).IsSymm := by
    unfold IsSymm
    rw [transpose_smul, transpose_mul, transpose_mul, transpose_transpose, diagonal_transpose, Matrix.mul_assoc]
  obtain ⟨s', hH, hP⟩ := C48_exact ht marg S hmarg hS hj hne hf hev (c * β) (fun j => -c * Q (Fin.last m) j) hK
    (fun u => by rw [hq, paraboloid_quad]) form hp s hs
  have ha : form.alpha ⬝ᵥ form.alpha = 1 := by
    have := congrFun (congrFun hQ (Fin.last m)) (Fin.last m)
    rw [mul_apply, one_apply_eq] at this
    rw [hal]; exact this
  obtain ⟨R, hRot⟩ := (C47_defined form.alpha ha).2.1 hm hlast
  obtain ⟨hR, hR', hRl, -⟩ := C47_rotation ha hRot
  have hcurv := curvatures heig hR hR' hQ hQ' (hRl.trans hal) κ hc.ne'
  refine ⟨s', ?_, hP⟩
  rw [runCurvefit_eq]
  simp only [hH, hRot, hgr, hcurv, finish, hbeta, Bool.false_eq_true, if_false]

/-- C48, end to end.  The limit state is a paraboloid of the standard normal variables,
`c (β - v_n + ½ Σ κᵢ vᵢ²)` in coordinates `v = Q u` (`Q` orthogonal), any marginals, any dependence, exact gradients; FORM found the apex
direction (`alpha` is the last row of `Q`, the gradient has norm `c`), and the rotation is defined.  Then the curvatures that SORM
reports are exactly the `κᵢ`, sorted, for every `ffdpara`; and if they are admissible (`κᵢ > -1/β`, `β > 0`) the reported
failure probability is Breitung's `Φ(-β) Π 1/√(1+βκᵢ)`. -/
theorem C48_curvatures {eig : Matrix (Fin m) (Fin m) ℝ → List ℝ} (heig : EigOK eig)
    {la : LinAlg} {ty : TransformType} {Ro : Matrix (Fin (m + 1)) (Fin (m + 1)) ℝ} {t : Mats (m + 1)}
    (ht : Transformation.compute la ty Ro = .ok t) (marg : Fin (m + 1) → Marginal) (S : Fin (m + 1) → Set ℝ)
    (hmarg : ∀ i, RoundTrip (marg i) (S i)) (hS : ∀ i, IsOpen (S i)) (hj : ∀ i, JacobianCorrect (marg i) (S i))
    (hne : ∀ i z, (marg i).jac z ((marg i).uToX z) ≠ 0) {ev : Evaluator σ (m + 1)} {P : σ → Prop} {f : (Fin (m + 1) → ℝ) → ℝ}
    {grad : (Fin (m + 1) → ℝ) → Fin (m + 1) → ℝ}
    (hf : ∀ u, HasFDerivAt f (gradMap (grad (uToX t marg u))) (uToX t marg u))
    (hev : ∀ s, P s → ∀ u, ∃ s', ev.withGrad s (uToX t marg u) =
      (s', .ok (f (uToX t marg u), grad (uToX t marg u), uToX t marg u)) ∧ P s')
    {Q : Matrix (Fin (m + 1)) (Fin (m + 1)) ℝ} (hQ : Q * Qᵀ = 1) (κ : Fin m → ℝ) {c β : ℝ} (hc : 0 < c)
    (hq : ∀ u, f (uToX t marg u) =
      c * (β - Q.mulVec u (Fin.last m) + 1 / 2 * ∑ i : Fin m, κ i * Q.mulVec u i.castSucc ^ 2))
    {form : Result (m + 1)} (hal : form.alpha = Q (Fin.last m)) (hbeta : form.beta = β)
    (hgr : norm2 form.point.gradient = c) (hm : m ≠ 0) (hlast : 1e-8 < |form.alpha (Fin.last m)|)
    {para : ℝ} (hp : para ≠ 0) (s : σ) (hs : P s) :
    ∃ s' r, runCurvefit eig t marg ev form para false s = (s', .ok r) ∧ P s' ∧ r.betaHL = β ∧
      r.kappa.Perm (List.ofFn κ) ∧ r.kappa.Pairwise (· ≤ ·) ∧
      (0 < β → (∀ i, -1 / β < κ i) → r.breitung.pf = .fin (StdNormal.cdf (-β) * ∏ i, 1 / √(1 + β * κ i))) := by
  obtain ⟨s', hrun, hP⟩ := curvefit_paraboloid heig ht marg S hmarg hS hj hne hf hev hQ κ hc hq hal hbeta hgr hm hlast hp s hs
  refine ⟨s', _, hrun, hP, rfl, ?_, ?_, ?_⟩
  · classical
    exact List.perm_insertionSort _ _
  · classical
    exact List.pairwise_insertionSort _ _
  · intro hb hk
    have hperm : (Sorm.sort (List.ofFn κ)).Perm (List.ofFn κ) := by
      classical
      exact List.perm_insertionSort _ _
    have hk' : ∀ k ∈ Sorm.sort (List.ofFn κ), -1 / β < k := by
      intro k hmem
      rw [hperm.mem_iff, List.mem_ofFn] at hmem
      obtain ⟨i, rfl⟩ := hmem
      exact hk i
    rw [((C46_curve β _).1 hb hk').1]
    unfold breitungPf
    rw [(hperm.map _).prod_eq, List.map_ofFn, List.prod_ofFn]
    rfl

end Pystra.Props
