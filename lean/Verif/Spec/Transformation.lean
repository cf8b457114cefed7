import Verif.Model.Transformation
import Verif.Spec.Cholesky
import Verif.Spec.Marginal

/-! The contract of numpy's factorisations, as documented by numpy, and related vocabulary. -/

namespace Pystra.Spec
open Matrix

/-- `np.linalg.cholesky` returns the Cholesky factor of a positive definite matrix and raises on a symmetric matrix
that is not positive definite; `np.linalg.svd` of a symmetric matrix returns `U`, `D`, `V` with `U` and `V`
orthogonal, `D` nonnegative and `U diag(D) V` the matrix. -/
structure LinAlgOK (la : LinAlg) : Prop where
  /-- the factor -/
  chol : ∀ {n : ℕ} (R : Matrix (Fin n) (Fin n) ℝ), R.PosDef → ∃ L, la.cholesky R = .ok L ∧ IsCholesky R L
  /-- or an exception -/
  chol_err : ∀ {n : ℕ} (R : Matrix (Fin n) (Fin n) ℝ), R.IsSymm → ¬ R.PosDef → ∃ e, la.cholesky R = .error e
  /-- singular value decomposition -/
  svd : ∀ {n : ℕ} (R : Matrix (Fin n) (Fin n) ℝ), R.IsSymm → ∃ U D V, la.svd R = .ok (U, D, V) ∧
    U * Uᵀ = 1 ∧ V * Vᵀ = 1 ∧ (∀ i, 0 ≤ D i) ∧ U * diagonal D * V = R

end Pystra.Spec
