import Mathlib.LinearAlgebra.Matrix.PosDef

/-! Specification of triangular factors. -/

namespace Pystra.Spec

variable {n : ℕ}

/-- Lower triangular. -/
def LowerTri (M : Matrix (Fin n) (Fin n) ℝ) : Prop := ∀ i j, i < j → M i j = 0

/-- `L` is the Cholesky factor of `R`: lower triangular, positive diagonal, `L Lᵀ = R`. -/
structure IsCholesky (R L : Matrix (Fin n) (Fin n) ℝ) : Prop where
  /-- lower triangular -/
  lower : LowerTri L
  /-- positive diagonal -/
  diag : ∀ i, 0 < L i i
  /-- `L Lᵀ = R` -/
  fact : L * L.transpose = R

end Pystra.Spec
