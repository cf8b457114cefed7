import Verif.Model.Distribution
import Verif.Model.Cholesky

/-!
Model of src/pystra/transformation.py and of the part of src/pystra/analysis.py that creates and computes the
transformation.  `np.linalg.cholesky` and `np.linalg.svd` are parameters (their contract is in
`Verif/Spec/Transformation.lean`); `np.linalg.inv` is the matrix inverse, raising on a singular matrix.
-/

namespace Pystra
open Real

/-- numpy's factorisations. -/
structure LinAlg where
  /-- `np.linalg.cholesky(A)` -/
  cholesky : {n : ℕ} → Matrix (Fin n) (Fin n) ℝ → Except PyErr (Matrix (Fin n) (Fin n) ℝ)
  /-- `np.linalg.svd(A)` -/
  svd : {n : ℕ} → Matrix (Fin n) (Fin n) ℝ →
    Except PyErr (Matrix (Fin n) (Fin n) ℝ × (Fin n → ℝ) × Matrix (Fin n) (Fin n) ℝ)

open Classical in
/-- `np.linalg.inv(A)`. -/
noncomputable def npInv {n : ℕ} (A : Matrix (Fin n) (Fin n) ℝ) : Except PyErr (Matrix (Fin n) (Fin n) ℝ) :=
  if IsUnit A.det then .ok A⁻¹ else .error .linAlgError

/-- The two transform types (transformation.py 36). -/
inductive TransformType where
  | cholesky
  | svd
deriving DecidableEq, Repr

namespace Transformation

/-- `Transformation(transform_type)` (transformation.py 32–47). -/
def new (transformType : Option String) : Except PyErr TransformType :=
  match transformType with
  | none => .ok .cholesky
  | some s => if s = "cholesky" then .ok .cholesky else if s = "svd" then .ok .svd else .error .valueError

/-- The matrices `self.T` and `self.inv_T`. -/
structure Mats (n : ℕ) where
  /-- `self.T` -/
  T : Matrix (Fin n) (Fin n) ℝ
  /-- `self.inv_T` -/
  invT : Matrix (Fin n) (Fin n) ℝ

variable {n : ℕ}

/-- `_computeCholesky` (transformation.py 118–142). -/
noncomputable def computeCholesky (la : LinAlg) (Ro : Matrix (Fin n) (Fin n) ℝ) : Except PyErr (Mats n) :=
  match la.cholesky Ro with
  | .error _ => .error .linAlgError
  | .ok L =>
    match npInv L with
    | .error e => .error e
    | .ok Li => .ok { T := Li, invT := L }

/-- `_computeSVD` (transformation.py 144–168). -/
noncomputable def computeSVD (la : LinAlg) (Ro : Matrix (Fin n) (Fin n) ℝ) : Except PyErr (Mats n) :=
  match la.svd Ro with
  | .error _ => .error .linAlgError
  | .ok (U, D, _V) =>
    let R := U * Matrix.diagonal (fun i => √(D i))
    match npInv R with
    | .error e => .error e
    | .ok Ri => .ok { T := Ri, invT := R }

/-- `compute(Ro)` (transformation.py 107–116). -/
noncomputable def compute (la : LinAlg) (ty : TransformType) (Ro : Matrix (Fin n) (Fin n) ℝ) : Except PyErr (Mats n) :=
  match ty with
  | .cholesky => computeCholesky la Ro
  | .svd => computeSVD la Ro

/-- `x_to_u(x, marg)` (transformation.py 49–65). -/
noncomputable def xToU (t : Mats n) (marg : Fin n → Marginal) (x : Fin n → ℝ) : Fin n → ℝ :=
  t.T.mulVec (fun i => (marg i).xToU (x i))

/-- `u_to_x(u, marg)` (transformation.py 67–81). -/
noncomputable def uToX (t : Mats n) (marg : Fin n → Marginal) (u : Fin n → ℝ) : Fin n → ℝ :=
  let z := t.invT.mulVec u
  fun i => (marg i).uToX (z i)

/-- `jacobian(u, x, marg)` (transformation.py 83–105). -/
noncomputable def jacobian (t : Mats n) (marg : Fin n → Marginal) (u x : Fin n → ℝ) : Matrix (Fin n) (Fin n) ℝ :=
  let z := t.invT.mulVec u
  t.T * Matrix.diagonal (fun i => (marg i).jac (z i) (x i))

end Transformation

namespace Analysis

/-- One `AnalysisOptions` object and the analysis objects created with it: what matters for the choice of the
transformation (analysis.py 49–71, 253 `transform_type`). -/
structure World where
  /-- `options.transform_type` -/
  option : Option String
  /-- the `transform` attribute of the analysis objects, in order of creation -/
  analyses : List TransformType

/-- What a user does. -/
inductive Op where
  | setTransform (s : Option String)
  | newAnalysis

/-- One action: `setTransform` (analysis.py 335–336) changes the option only; creating an analysis
(analysis.py 49–71) builds the transformation from the current option, or raises. -/
def step (w : World) : Op → World × Except PyErr Unit
  | .setTransform s => ({ w with option := s }, .ok ())
  | .newAnalysis =>
    match Transformation.new w.option with
    | .error e => (w, .error e)
    | .ok t => ({ w with analyses := w.analyses ++ [t] }, .ok ())

/-- `AnalysisOptions()` and no analysis yet. -/
def init : World := ⟨none, []⟩

/-- A history. -/
def run (w : World) : List Op → World
  | [] => w
  | op :: ops => run (step w op).1 ops

end Analysis
end Pystra
