import Verif.Model.Basic
import Mathlib.Analysis.SpecialFunctions.Sqrt
import Mathlib.LinearAlgebra.Matrix.NonsingularInverse

/-!
Model of src/pystra/cholesky_sensitivity.py and of `np.linalg.inv`.
-/

namespace Pystra
open Real

variable {n : ℕ}

/-- `A[i, j] = v`. -/
def setEntry (A : Matrix (Fin n) (Fin n) ℝ) (i j : Fin n) (v : ℝ) : Matrix (Fin n) (Fin n) ℝ :=
  fun i' j' => if i' = i ∧ j' = j then v else A i' j'

/-- `range(a, n)`. -/
def rangeFrom (n a : ℕ) : List (Fin n) := (List.finRange n).filter (fun i => decide (a ≤ i.val))

namespace CholeskySens

/-- The two arrays `A`, `dA` that the loops modify in place (cholesky_sensitivity.py 44–45). -/
structure St (n : ℕ) where
  /-- `A` -/
  A : Matrix (Fin n) (Fin n) ℝ
  /-- `dA` -/
  dA : Matrix (Fin n) (Fin n) ℝ

/-- Lines 48–50: the pivot. -/
noncomputable def pivot (k : Fin n) (s : St n) : St n :=
  let s := { s with dA := setEntry s.dA k k (s.dA k k / (2 * √(s.A k k))) }
  { s with A := setEntry s.A k k (√(s.A k k)) }

/-- Body of the loop of lines 53–55: column `k`, row `i`. -/
noncomputable def column (k i : Fin n) (s : St n) : St n :=
  let s := { s with dA := setEntry s.dA i k ((s.dA i k * s.A k k - s.A i k * s.dA k k) / s.A k k ^ 2) }
  { s with A := setEntry s.A i k (s.A i k / s.A k k) }

/-- Body of the double loop of lines 58–61. -/
def trailing (k j i : Fin n) (s : St n) : St n :=
  let s := { s with dA := setEntry s.dA i j (s.dA i j - s.dA i k * s.A j k - s.A i k * s.dA j k) }
  { s with A := setEntry s.A i j (s.A i j - s.A i k * s.A j k) }

/-- One pass of the outer loop (lines 47–61). -/
noncomputable def step (s : St n) (k : Fin n) : St n :=
  let s := pivot k s
  let s := (rangeFrom n (k.val + 1)).foldl (fun s i => column k i s) s
  (rangeFrom n (k.val + 1)).foldl (fun s (j : Fin n) => (rangeFrom n j.val).foldl (fun s i => trailing k j i s) s) s

/-- `np.tril`. -/
def tril (A : Matrix (Fin n) (Fin n) ℝ) : Matrix (Fin n) (Fin n) ℝ := fun i j => if j ≤ i then A i j else 0

/-- `cholesky_with_derivative(R0, dR0)` (cholesky_sensitivity.py 12–67); the arrays are copies, so the arguments
are not changed. -/
noncomputable def choleskyWithDerivative (R0 dR0 : Matrix (Fin n) (Fin n) ℝ) :
    Matrix (Fin n) (Fin n) ℝ × Matrix (Fin n) (Fin n) ℝ :=
  let s := (List.finRange n).foldl step ⟨R0, dR0⟩
  (tril s.A, tril s.dA)

/-- `dinvL0_dtheta(L0, dL0)` (cholesky_sensitivity.py 70–92), for an invertible `L0` (`np.linalg.inv` raises
otherwise). -/
noncomputable def dinvL0 (L0 dL0 : Matrix (Fin n) (Fin n) ℝ) : Matrix (Fin n) (Fin n) ℝ :=
  -L0⁻¹ * dL0 * L0⁻¹

end CholeskySens
end Pystra
