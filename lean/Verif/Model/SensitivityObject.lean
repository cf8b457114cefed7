import Verif.Model.Sensitivity
import Verif.Model.Session

/-!
Model of a `SensitivityAnalysis` *object* (src/pystra/sensitivity.py 30–136, 193–306): the constructor, `run`, `run_form` and the table
made by `summary`.  The post-processing and the finite differences themselves are in Verif/Model/Sensitivity.lean.
-/

namespace Pystra.SensObj
open Transformation Sensitivity

/-- What FORM reads from an `AnalysisOptions` object (analysis.py 111–244; form.py; model.py `LimitState`). -/
structure Options where
  /-- `transform_type` -/
  ty : TransformType
  /-- options of the limit-state evaluation -/
  ls : LSOptions
  /-- options of FORM -/
  form : Form.Options

/-- `AnalysisOptions()` (analysis.py 111–244; transformation.py 30–41: `None` means Cholesky). -/
noncomputable def Options.defaults : Options := ⟨.cholesky, ⟨"ffd", 1, 1000, 1000⟩, ⟨100, 0.001, 0.001, 0, 1⟩⟩

/-- The libraries: `scipy.optimize.fmin`, `np.linalg`; the value of marginals out of range (never read) and a bound on the number of
passes of FORM's loop. -/
structure Lib where
  /-- `fmin` -/
  fmin : Correlation.Fmin
  /-- never read -/
  default : Marginal
  /-- `np.linalg` -/
  la : LinAlg
  /-- bound on passes -/
  fuel : ℕ

/-- The attributes of the object; the stochastic model is object `0` of the heap. -/
structure Obj where
  /-- `self.limitstate` -/
  limitstate : Kwargs → GRet
  /-- `self.options` -/
  options : Options

/-- `SensitivityAnalysis(limit_state, stochastic_model, analysis_options)` (sensitivity.py 57–65). -/
noncomputable def Obj.new (limitstate : Kwargs → GRet) (options : Option Options) : Obj :=
  ⟨limitstate, options.getD Options.defaults⟩

/-- The values that occur in a result: numbers, the correlation array, dictionaries. -/
inductive Val where
  /-- a number -/
  | num (x : ℝ)
  /-- a two-dimensional array -/
  | array (A : NDArray2)
  /-- a dictionary -/
  | dict (d : List (String × Val))

/-- A dictionary of numbers. -/
def Val.ofDict (d : Dict String ℝ) : Val := .dict (d.map fun p => (p.1, .num p.2))

/-- A dictionary of dictionaries of numbers: the result of the finite differences (sensitivity.py 188). -/
def Val.ofFd (d : Dict String (Dict String ℝ)) : Val := .dict (d.map fun p => (p.1, .ofDict p.2))

/-- `{"marginal": marginal_sens, "correlation": corr_sens}` (sensitivity.py 306). -/
def Val.ofCf {n : ℕ} (r : CfResult n) : Val :=
  .dict [("marginal", .ofFd r.marginal), ("correlation", .array ⟨n, n, r.correlation⟩)]

/-- FORM as `_numerical_sens` runs it (sensitivity.py 159–162, 180–186): without the analysis options of the object. -/
noncomputable def formDefault (lib : Lib) (limitstate : Kwargs → GRet) : FormOracle :=
  formOracle lib.fmin lib.default lib.la Options.defaults.ty limitstate Options.defaults.ls Options.defaults.form lib.fuel

/-- `self.model.getModifiedCorrelation()` / `getCorrelation()` as a matrix of the size of the model (0 outside: numpy would raise). -/
noncomputable def matrixOf (n : ℕ) (A : Option NDArray2) : Matrix (Fin n) (Fin n) ℝ := fun i j =>
  match A with
  | none => 0
  | some A => if h : i.val < A.nrow ∧ j.val < A.ncol then A.val ⟨i.val, h.1⟩ ⟨j.val, h.2⟩ else 0

/-- A distribution that is never read. -/
noncomputable def noDist (lib : Lib) : Dist := ⟨Normal.cls, lib.default, []⟩

/-- `marg` (sensitivity.py 220). -/
noncomputable def distN (lib : Lib) (n : ℕ) (m : StochModel Dist ℝ) : Fin n → Dist :=
  fun i => (m.marg.map DistObj.body).getD i.val (noDist lib)

/-- `names` (sensitivity.py 230–231). -/
def namesN (n : ℕ) (m : StochModel Dist ℝ) : Fin n → String := fun i => (Dict.keys m.vars).getD i.val ""

/-- What FORM leaves on the model object. -/
def afterForm (m : StochModel Dist ℝ) (ev : Ev Marginal) : StochModel Dist ℝ :=
  { m with callFunction := ev.model.callFunction, Ro := ev.model.Ro }

/-- The set-up of the FORM run of `_cf_sens`. -/
noncomputable def Obj.setup (o : Obj) (lib : Lib) : Session.Setup :=
  { fmin := lib.fmin, default := lib.default, la := lib.la, eig := fun _ _ => [], ty := o.options.ty, expr := o.limitstate
    lsopt := o.options.ls, fuel := lib.fuel }

/-- `_cf_sens()` (sensitivity.py 193–306) on a model with `n` marginals: one FORM run with the object's options, then the
post-processing with that run's transformation.  A NaN run is reported as `ValueError` (simplification). -/
noncomputable def cfSensModel (lib : Lib) (o : Obj) (n : ℕ) (m : StochModel Dist ℝ) : StochModel Dist ℝ × Except PyErr (CfResult n) :=
  match Session.initRun (o.setup lib) n ⟨toMarg m, []⟩ with
  | (ev, .error e) => (afterForm m ev, .error e)
  | (ev, .ok t) =>
    match Form.runFrom t (Session.margN n lib.default ev.model) (Session.evaluator (o.setup lib) n ev.model) o.options.form lib.fuel ev with
    | some (.done r ev) =>
      let m' := afterForm m ev
      (m', cfSens (distN lib n m') (namesN n m') (matrixOf n m'.getCorrelation) (matrixOf n m'.Ro) t r.alpha r.point.u)
    | some (.raised e ev) => (afterForm m ev, .error e)
    | some (.nan ev) => (afterForm m ev, .error .valueError)
    | _ => (m, .error .diverges)

/-- `run(numerical, delta)` (sensitivity.py 67–100); the numbers below `fresh` are in use on the heap. -/
noncomputable def run (lib : Lib) (o : Obj) (numerical : Bool) (delta : ℝ) (fresh : ℕ) (H : Heap) : Heap × Except PyErr Val :=
  if numerical then
    match numericalSens (formDefault lib o.limitstate) delta fresh H with
    | (H, .error e) => (H, .error e)
    | (H, .ok r) => (H, .ok (.ofFd r))
  else
    match cfSensModel lib o (H 0).marg.length (H 0) with
    | (m, .error e) => (Function.update H 0 m, .error e)
    | (m, .ok r) => (Function.update H 0 m, .ok (.ofCf r))

/-- `run_form(numerical, delta)` (sensitivity.py 102–104). -/
noncomputable def runForm (lib : Lib) (o : Obj) (numerical : Bool) (delta : ℝ) (fresh : ℕ) (H : Heap) : Heap × Except PyErr Val :=
  run lib o numerical delta fresh H

/-- A row of the table: `"Variable"`, `"Parameter"`, `"∂β/∂θ"`. -/
structure Row where
  /-- `"Variable"` -/
  var : String
  /-- `"Parameter"` -/
  parameter : String
  /-- `"∂β/∂θ"` -/
  value : Val

/-- `params.items()` inside the loop of `summary` (sensitivity.py 127–134): a number or an array has no `items`. -/
def rowsOf (name : String) : Val → Except PyErr (List Row)
  | .dict d => .ok (d.map fun p => ⟨name, p.1, p.2⟩)
  | _ => .error .attributeError

/-- The loop of `summary` (sensitivity.py 126–134). -/
def tableOf : List (String × Val) → Except PyErr (List Row)
  | [] => .ok []
  | (name, v) :: rest =>
    match rowsOf name v with
    | .error e => .error e
    | .ok rows =>
      match tableOf rest with
      | .error e => .error e
      | .ok r => .ok (rows ++ r)

/-- `summary(result)` (sensitivity.py 106–136): the rows of the data frame. -/
def summary : Val → Except PyErr (List Row)
  | .dict d =>
    match (Dict.get? d "marginal").getD (.dict d) with
    | .dict marginal => tableOf marginal
    | _ => .error .attributeError
  | _ => .error .attributeError

end Pystra.SensObj
