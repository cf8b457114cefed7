import Verif.Lemmas.Cholesky2
import Verif.Lemmas.MatrixDeriv
import Mathlib.Algebra.Order.Star.Real

/-! C26, C27: the Cholesky factor and its derivative. -/

namespace Pystra.Props
open Matrix Spec CholeskySens

variable {n : ℕ}

/-- The factor is unique. -/
theorem cholesky_unique {R L L' : Matrix (Fin n) (Fin n) ℝ} (h : IsCholesky R L) (h' : IsCholesky R L') : L = L' := by
  have a := recovers (N := 0) h.lower (fun _ _ _ => rfl) h.diag
  have b := recovers (N := 0) h'.lower (fun _ _ _ => rfl) h'.diag
  rw [h.fact] at a
  rw [h'.fact] at b
  simp only [Matrix.zero_mul, Matrix.transpose_zero, Matrix.mul_zero, add_zero] at a b
  rw [a] at b
  exact (Prod.mk.inj b).1

/-- C26: for every positive definite `R0` of any size and any symmetric `dR0` the first result is the Cholesky factor
(lower triangular, positive diagonal, `L0 L0ᵀ = R0`). -/
theorem C26_factor {R0 dR0 : Matrix (Fin n) (Fin n) ℝ} (hR : R0.PosDef) (hD : dR0.IsSymm) :
    IsCholesky R0 (choleskyWithDerivative R0 dR0).1 := by
  obtain ⟨M, hM⟩ := exists_cholesky hR
  obtain ⟨N, hN, hND⟩ := exists_deriv hM.lower hM.diag hD
  have := recovers hM.lower hN hM.diag
  rw [hM.fact, hND] at this
  rw [this]; exact hM

/-- C26: the factor does not depend on the derivative argument, symmetric or not. -/
theorem C26_independent (R0 dR0 dR0' : Matrix (Fin n) (Fin n) ℝ) :
    (choleskyWithDerivative R0 dR0).1 = (choleskyWithDerivative R0 dR0').1 := by
  unfold choleskyWithDerivative
  simp only [foldl_A]

/-- C27: the second result is lower triangular and solves `dL0 L0ᵀ + L0 dL0ᵀ = dR0`. -/
theorem C27_equation {R0 dR0 : Matrix (Fin n) (Fin n) ℝ} (hR : R0.PosDef) (hD : dR0.IsSymm) :
    LowerTri (choleskyWithDerivative R0 dR0).2 ∧
    (choleskyWithDerivative R0 dR0).2 * ((choleskyWithDerivative R0 dR0).1)ᵀ +
      (choleskyWithDerivative R0 dR0).1 * ((choleskyWithDerivative R0 dR0).2)ᵀ = dR0 := by
  obtain ⟨M, hM⟩ := exists_cholesky hR
  obtain ⟨N, hN, hND⟩ := exists_deriv hM.lower hM.diag hD
  have := recovers hM.lower hN hM.diag
  rw [hM.fact, hND] at this
  rw [this]; exact ⟨hN, hND⟩

/-- C27: along any path `R(s)` with velocity `dR0` at `t`, where `R(t)` is positive definite, the factor is
differentiable with the returned derivative. -/
theorem C27_path {R : ℝ → Matrix (Fin n) (Fin n) ℝ} {dR0 : Matrix (Fin n) (Fin n) ℝ} {t : ℝ} (hR : (R t).PosDef)
    (hD : dR0.IsSymm) (h : ∀ i j, HasDerivAt (fun s => R s i j) (dR0 i j) t) (i j : Fin n) :
    HasDerivAt (fun s => (choleskyWithDerivative (R s) dR0).1 i j) ((choleskyWithDerivative (R t) dR0).2 i j) t := by
  obtain ⟨M, hM⟩ := exists_cholesky hR
  obtain ⟨N, hN, hND⟩ := exists_deriv hM.lower hM.diag hD
  have hrec := recovers hM.lower hN hM.diag
  rw [hM.fact, hND] at hrec
  rw [hrec]
  have e : (fun s => (choleskyWithDerivative (R s) dR0).1 i j) =
      fun s => if j ≤ i then ((List.finRange n).foldl stageA (R s)) i j else 0 := by
    funext s; unfold choleskyWithDerivative; simp only [foldl_A, tril]
  rw [e]
  by_cases hji : j ≤ i
  · simp only [if_pos hji]
    exact (fold_hasDerivAt hM.lower hN hM.diag hM.fact.symm hND.symm h i j).resolve_right (not_lt.2 hji)
  · simp only [if_neg hji]
    rw [hN i j (not_le.1 hji)]
    exact hasDerivAt_const t 0

/-- C27: `dinvL0_dtheta` is the derivative of the inverse of any differentiable invertible path of factors. -/
theorem C27_inverse {L : ℝ → Matrix (Fin n) (Fin n) ℝ} {dL : Matrix (Fin n) (Fin n) ℝ} {t : ℝ}
    (hu : IsUnit (L t).det) (h : ∀ i j, HasDerivAt (fun s => L s i j) (dL i j) t) (i j : Fin n) :
    HasDerivAt (fun s => (L s)⁻¹ i j) (dinvL0 (L t) dL i j) t :=
  hasDerivAt_matInv h hu i j

/-- C27: the two functions together, as the sensitivity analysis uses them. -/
theorem C27_combined {R : ℝ → Matrix (Fin n) (Fin n) ℝ} {dR0 : Matrix (Fin n) (Fin n) ℝ} {t : ℝ} (hR : (R t).PosDef)
    (hD : dR0.IsSymm) (h : ∀ i j, HasDerivAt (fun s => R s i j) (dR0 i j) t) (i j : Fin n) :
    HasDerivAt (fun s => ((choleskyWithDerivative (R s) dR0).1)⁻¹ i j)
      (dinvL0 (choleskyWithDerivative (R t) dR0).1 (choleskyWithDerivative (R t) dR0).2 i j) t :=
  C27_inverse (L := fun s => (choleskyWithDerivative (R s) dR0).1)
    (isUnit_det_of_diag (C26_factor hR hD).lower (C26_factor hR hD).diag) (C27_path hR hD h) i j

/-- The hypotheses are met by a non-diagonal matrix. -/
example : (!![1, (1/2 : ℝ); 1/2, 1] : Matrix (Fin 2) (Fin 2) ℝ).PosDef := by
  have e : (!![1, (1/2 : ℝ); 1/2, 1] : Matrix (Fin 2) (Fin 2) ℝ) = !![1, 0; 1/2, √3/2] * (!![1, 0; 1/2, √3/2])ᴴ := by
    have : √3 * √3 = 3 := Real.mul_self_sqrt (by norm_num)
    ext i j
    fin_cases i <;> fin_cases j <;> simp [Matrix.mul_apply, Fin.sum_univ_two] <;> nlinarith
  rw [e]
  apply Matrix.PosDef.mul_conjTranspose_self
  apply Matrix.vecMul_injective_of_isUnit
  rw [Matrix.isUnit_iff_isUnit_det, Matrix.det_fin_two_of]
  have : (0:ℝ) < √3 := by positivity
  simp

end Pystra.Props
