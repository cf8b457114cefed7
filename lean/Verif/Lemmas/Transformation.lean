import Verif.Spec.Transformation
import Verif.Lemmas.Cholesky2
import Mathlib.Analysis.Matrix.Order
import Mathlib.Analysis.Matrix.Spectrum
import Mathlib.Analysis.Calculus.Deriv.Inverse
import Mathlib.Topology.Order.MonotoneContinuity
import Mathlib.Analysis.Calculus.FDeriv.Pi
import Mathlib.Analysis.Calculus.FDeriv.Comp
import Mathlib.Analysis.Calculus.FDeriv.Linear
import Mathlib.Topology.Algebra.Module.FiniteDimension
import Mathlib.Algebra.Order.Star.Real

/-! Linear algebra and calculus for the isoprobabilistic transformation. -/

namespace Pystra
open Matrix Spec
open scoped MatrixOrder Matrix.Norms.L2Operator ComplexOrder Topology

variable {n : ℕ}

/-- The positive semidefinite square root is unique. -/
theorem psd_sq_unique {A B : Matrix (Fin n) (Fin n) ℝ} (hA : A.PosSemidef) (hB : B.PosSemidef)
    (h : A * A = B * B) : A = B := by
  rw [← CFC.sqrt_unique (a := A * A) (b := A) rfl (Matrix.nonneg_iff_posSemidef.2 hA),
   ← CFC.sqrt_unique (a := B * B) (b := B) rfl (Matrix.nonneg_iff_posSemidef.2 hB), h]

theorem npInv_ok {A B : Matrix (Fin n) (Fin n) ℝ} (h : npInv A = .ok B) : B * A = 1 ∧ A * B = 1 := by
  unfold npInv at h
  split at h
  · next hu =>
    injection h with h
    subst h
    exact ⟨nonsing_inv_mul _ hu, mul_nonsing_inv _ hu⟩
  · cases h

theorem npInv_of_unit {A : Matrix (Fin n) (Fin n) ℝ} (h : IsUnit A.det) : npInv A = .ok A⁻¹ := by
  unfold npInv; rw [if_pos h]

theorem npInv_singular {A : Matrix (Fin n) (Fin n) ℝ} (h : ¬ IsUnit A.det) : npInv A = .error .linAlgError := by
  unfold npInv; rw [if_neg h]

/-- What `compute` leaves behind: `T` and `inv_T` are inverse to each other. -/
theorem compute_inverse {la : LinAlg} {ty : TransformType} {Ro : Matrix (Fin n) (Fin n) ℝ} {m : Transformation.Mats n}
    (h : Transformation.compute la ty Ro = .ok m) : m.T * m.invT = 1 ∧ m.invT * m.T = 1 := by
  cases ty with
  | cholesky =>
    unfold Transformation.compute Transformation.computeCholesky at h
    simp only at h
    split at h
    · cases h
    · split at h
      · cases h
      · next hi =>
        injection h with h; subst h
        exact npInv_ok hi
  | svd =>
    unfold Transformation.compute Transformation.computeSVD at h
    simp only at h
    split at h
    · cases h
    · split at h
      · cases h
      · next hi =>
        injection h with h; subst h
        exact npInv_ok hi

/-- The matrix realised by the singular value factor. -/
theorem svd_sq {R U V : Matrix (Fin n) (Fin n) ℝ} {D : Fin n → ℝ} (hR : R.IsSymm) (hU : U * Uᵀ = 1)
    (hV : V * Vᵀ = 1) (h : U * diagonal D * V = R) :
    (U * diagonal D * Uᵀ) * (U * diagonal D * Uᵀ) = R * R := by
  have hU' : Uᵀ * U = 1 := mul_eq_one_comm.1 hU
  have e : R * R = R * Rᵀ := by rw [hR.eq]
  rw [e, ← h, transpose_mul, transpose_mul, diagonal_transpose]
  simp only [Matrix.mul_assoc]
  congr 1
  rw [← Matrix.mul_assoc Uᵀ U, hU', Matrix.one_mul, ← Matrix.mul_assoc V Vᵀ, hV, Matrix.one_mul]

theorem svd_factor {U : Matrix (Fin n) (Fin n) ℝ} {D : Fin n → ℝ} (hD : ∀ i, 0 ≤ D i) :
    (U * diagonal (fun i => √(D i))) * (U * diagonal (fun i => √(D i)))ᵀ = U * diagonal D * Uᵀ := by
  rw [transpose_mul, diagonal_transpose, Matrix.mul_assoc, ← Matrix.mul_assoc (diagonal _) (diagonal _),
    diagonal_mul_diagonal, ← Matrix.mul_assoc]
  congr 3
  funext i
  exact Real.mul_self_sqrt (hD i)

theorem svd_psd {U : Matrix (Fin n) (Fin n) ℝ} {D : Fin n → ℝ} (hD : ∀ i, 0 ≤ D i) :
    (U * diagonal D * Uᵀ).PosSemidef := by
  have := (PosSemidef.diagonal (n := Fin n) (d := D) hD).mul_mul_conjTranspose_same U
  rwa [conjTranspose_eq_transpose_of_trivial] at this

theorem det_ne_zero_of_sq {R S : Matrix (Fin n) (Fin n) ℝ} (h : S * S = R * R) : IsUnit S.det ↔ IsUnit R.det := by
  have := congrArg det h
  rw [det_mul, det_mul] at this
  rw [isUnit_iff_ne_zero, isUnit_iff_ne_zero]
  constructor
  · intro a b; rw [b] at this; apply a; simpa using this
  · intro a b; rw [b] at this; apply a; simpa using this.symm

theorem posDef_of_psd_det {R : Matrix (Fin n) (Fin n) ℝ} (h : R.PosSemidef) (hd : IsUnit R.det) : R.PosDef := by
  rw [h.posDef_iff_isUnit, isUnit_iff_isUnit_det]; exact hd

theorem uToX_continuousAt {m : Marginal} {S : Set ℝ} (h : RoundTrip m S) (hS : IsOpen S) (z : ℝ) :
    ContinuousAt m.uToX z := by
  apply StrictMonoOn.continuousAt_of_image_mem_nhds (s := Set.univ) (h.mono_x.strictMonoOn _) Filter.univ_mem
  have : m.uToX '' Set.univ = S := by
    ext y
    constructor
    · rintro ⟨u, _, rfl⟩; exact h.mem u
    · intro hy; exact ⟨m.xToU y, trivial, h.right y hy⟩
  rw [this]
  exact hS.mem_nhds (h.mem z)

theorem uToX_hasDerivAt {m : Marginal} {S : Set ℝ} (h : RoundTrip m S) (hS : IsOpen S) (hj : JacobianCorrect m S)
    (z : ℝ) (h0 : m.jac z (m.uToX z) ≠ 0) : HasDerivAt m.uToX (m.jac z (m.uToX z))⁻¹ z := by
  have := hj (m.uToX z) (h.mem z)
  rw [h.left] at this
  exact this.of_local_left_inverse (uToX_continuousAt h hS z) h0 (Filter.Eventually.of_forall h.left)

/-- numpy's contract can be met. -/
theorem svd_exists (R : Matrix (Fin n) (Fin n) ℝ) (hR : R.IsSymm) : ∃ (U : Matrix (Fin n) (Fin n) ℝ) (D : Fin n → ℝ)
    (V : Matrix (Fin n) (Fin n) ℝ), U * Uᵀ = 1 ∧ V * Vᵀ = 1 ∧ (∀ i, 0 ≤ D i) ∧ U * diagonal D * V = R := by
  have hH : R.IsHermitian := by
    unfold IsHermitian; rw [conjTranspose_eq_transpose_of_trivial]; exact hR.eq
  set W : Matrix (Fin n) (Fin n) ℝ := hH.eigenvectorUnitary.1 with hW
  have hWW : W * Wᵀ = 1 := by
    have := (Matrix.mem_unitaryGroup_iff (A := W)).1 hH.eigenvectorUnitary.2
    rwa [star_eq_conjTranspose, conjTranspose_eq_transpose_of_trivial] at this
  have hs := hH.spectral_theorem
  rw [Unitary.conjStarAlgAut_apply, ← hW, star_eq_conjTranspose,
    conjTranspose_eq_transpose_of_trivial] at hs
  set ev := hH.eigenvalues
  let sg : Fin n → ℝ := fun i => if 0 ≤ ev i then 1 else -1
  refine ⟨W, fun i => |ev i|, diagonal sg * Wᵀ, hWW, ?_, fun i => abs_nonneg _, ?_⟩
  · rw [transpose_mul, transpose_transpose, diagonal_transpose, Matrix.mul_assoc, ← Matrix.mul_assoc Wᵀ W,
      mul_eq_one_comm.1 hWW, Matrix.one_mul, diagonal_mul_diagonal, ← diagonal_one]
    congr 1
    funext i
    by_cases h : 0 ≤ ev i <;> simp [sg, h]
  · rw [← Matrix.mul_assoc, Matrix.mul_assoc W, diagonal_mul_diagonal]
    conv_rhs => rw [hs]
    congr 3
    funext i
    by_cases h : 0 ≤ ev i
    · simp [sg, h, abs_of_nonneg h]
    · simp [sg, h, abs_of_neg (not_le.1 h)]

open Classical in
/-- There are factorisation routines meeting the contract. -/
theorem linAlgOK_exists : ∃ la : LinAlg, LinAlgOK la := by
  refine ⟨⟨fun {n} R => if h : R.PosDef then .ok (CholeskySens.exists_cholesky h).choose else .error .linAlgError,
    fun {n} R => if h : R.IsSymm then .ok ((svd_exists R h).choose, (svd_exists R h).choose_spec.choose,
      (svd_exists R h).choose_spec.choose_spec.choose) else .error .linAlgError⟩, ?_, ?_, ?_⟩
  · intro n R h
    exact ⟨_, dif_pos h, (CholeskySens.exists_cholesky h).choose_spec⟩
  · intro n R _ h
    exact ⟨_, dif_neg h⟩
  · intro n R h
    exact ⟨_, _, _, dif_pos h, (svd_exists R h).choose_spec.choose_spec.choose_spec⟩

end Pystra
