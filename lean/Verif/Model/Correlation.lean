import Verif.Model.Integration
import Verif.Model.Stochastic

/-!
Model of `computeModifiedCorrelationMatrix` / `setModifiedCorrelationMatrix` (src/pystra/correlation.py).
-/

namespace Pystra.Correlation

open Classical in
/-- Number of quadrature points (correlation.py 103–114; sensitivity.py 370–384 `_select_nIP`). -/
noncomputable def selectNIP (rho : ℝ) : ℕ :=
  if |rho| > 0.9995 then 1024
  else if |rho| > 0.998 then 512
  else if |rho| > 0.992 then 256
  else if |rho| > 0.97 then 128
  else if |rho| > 0.9 then 64
  else 32

/-- `scipy.optimize.fmin(f, x0)`: objective and start value to the point returned. -/
abbrev Fmin := (ℝ → ℝ) → ℝ → ℝ

/-- `absoluteIntegralValue(rho0, rho, …)` (correlation.py 141–167). -/
noncomputable def absoluteIntegralValue (rho : ℝ) (margi margj : Marginal) (g : Integration.Grid) (rho0 : ℝ) : ℝ :=
  |rho - Integration.rhoIntegral rho0 margi margj g|

open Classical in
/-- The number stored in `Ro[i][j]` for one pair (correlation.py 93–132). -/
noncomputable def pairRho0 (fmin : Fmin) (rho : ℝ) (margi margj : Marginal) : Except PyErr ℝ :=
  match Integration.ziAndXi margi margj 6 (selectNIP rho) with
  | .error e => .error e
  | .ok g => if rho ≠ 0 then .ok (fmin (absoluteIntegralValue rho margi margj g) rho) else .ok 0

/-- One assignment of the double loop. -/
noncomputable def loopBody (fmin : Fmin) (marg : ℕ → Marginal) {n : ℕ} (R Ro : Matrix (Fin n) (Fin n) ℝ) (i j : ℕ) :
    Except PyErr (Matrix (Fin n) (Fin n) ℝ) :=
  if h : i < n ∧ j < n then
    match pairRho0 fmin (R ⟨i, h.1⟩ ⟨j, h.2⟩) (marg i) (marg j) with
    | .error e => .error e
    | .ok rho0 => .ok (fun a b => if a = ⟨i, h.1⟩ ∧ b = ⟨j, h.2⟩ then rho0 else Ro a b)
  else .error .indexError

/-- The pairs visited: `for i in range(nvr): for j in range(i)`. -/
def pairs (nvr : ℕ) : List (ℕ × ℕ) := (List.range nvr).flatMap (fun i => (List.range i).map (fun j => (i, j)))

/-- `Ro + np.transpose(np.tril(Ro, -1))` (correlation.py 134). -/
def symmetrise {n : ℕ} (Ro : Matrix (Fin n) (Fin n) ℝ) : Matrix (Fin n) (Fin n) ℝ :=
  fun a b => Ro a b + (if a < b then Ro b a else 0)

/-- The loops on a square array. -/
noncomputable def computeSquare (fmin : Fmin) (nvr : ℕ) (marg : ℕ → Marginal) {n : ℕ} (R : Matrix (Fin n) (Fin n) ℝ) :
    Except PyErr (Matrix (Fin n) (Fin n) ℝ) :=
  match (pairs nvr).foldlM (fun Ro p => loopBody fmin marg R Ro p.1 p.2) (1 : Matrix (Fin n) (Fin n) ℝ) with
  | .error e => .error e
  | .ok Ro => .ok (symmetrise Ro)

/-- `computeModifiedCorrelationMatrix(stochastic_model)` (correlation.py 65–139).  `R is None` (no variables) is the
`ValueError` of unpacking `np.shape(None)`.  A non-square array is reported as the `ValueError` of the final sum
(simplification: an `IndexError` of the loops would come first, and numpy broadcasts a single row). -/
noncomputable def compute (fmin : Fmin) (default : Marginal) (m : StochModel Marginal ℝ) : Except PyErr NDArray2 :=
  match m.getCorrelation with
  | none => .error .valueError
  | some R =>
    if h : R.ncol = R.nrow then
      match computeSquare fmin m.marg.length (fun i => (m.marg.map DistObj.body).getD i default) (n := R.nrow)
          (fun a b => R.val a (Fin.cast h.symm b)) with
      | .error e => .error e
      | .ok Ro => .ok ⟨R.nrow, R.nrow, Ro⟩
    else .error .valueError

/-- `setModifiedCorrelationMatrix` (correlation.py 171–184): nothing is stored when the computation raises. -/
noncomputable def setModified (fmin : Fmin) (default : Marginal) (m : StochModel Marginal ℝ) :
    StochModel Marginal ℝ × Except PyErr Unit :=
  match compute fmin default m with
  | .error e => (m, .error e)
  | .ok Ro => (m.setModifiedCorrelation Ro, .ok ())

end Pystra.Correlation
