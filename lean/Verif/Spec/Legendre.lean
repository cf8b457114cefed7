import Mathlib.Algebra.Polynomial.Derivative
import Mathlib.Data.Real.Basic

/-! The Legendre polynomials, by Rodrigues' formula. -/

namespace Pystra.Spec
open Polynomial

/-- `P_n = (1 / (2ⁿ n!)) dⁿ/dxⁿ (x² - 1)ⁿ`. -/
noncomputable def legendre (n : ℕ) : ℝ[X] :=
  C (1 / (2 ^ n * (n.factorial : ℝ))) * derivative^[n] ((X ^ 2 - 1) ^ n)

end Pystra.Spec
