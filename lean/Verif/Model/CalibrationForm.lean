import Verif.Model.Calibration
import Verif.Model.Session
import Verif.Model.GenericCalib

/-! The FORM analysis that the calibration runs (src/pystra/loadcomb.py 287–308), as modelled in `Session`. -/

namespace Pystra.Session
open Transformation

/-- `form = Form(sm, ls[, options]); form.run(); return form` (loadcomb.py 305–308) on the model of a case, with the new limit-state object
of line 287; what the calibration reads of the object (form.py 328–355, calibration.py 349–352).  A run that ends in NaN or is still
running is not followed further: it is reported as an exception (a simplification). -/
noncomputable def formObject (c : Setup) (o : Form.Options) (m : StochModel Marginal ℝ) : Except PyErr (FormObj Marginal) :=
  match initRun c m.marg.length ⟨m, []⟩ with
  | (_, .error e) => .error e
  | (_, .ok t) =>
    match formRun c m.marg.length o ⟨m, []⟩ with
    | some (ev, .inl r) => .ok
        ⟨ev.model, r.beta, List.ofFn r.alpha, List.ofFn r.point.u,
          fun u => List.ofFn (uToX t (margN m.marg.length c.default m) (fun i => u.getD i 0))⟩
    | some (_, .inr (.raised e)) => .error e
    | _ => .error .exception

end Pystra.Session

namespace Pystra.GenericCalib

/-- A function of named numbers called with arrays, as `LimitState` calls `GenericCalibration.lsf` (calibration.py 1318–1349,
model.py 360–382): numpy evaluates the formula entry by entry.  The wrong names raise before anything is computed (see `formBeta`). -/
def arrayFn (lsf : LoadComb.Args → Except PyErr ℝ) (kw : Kwargs) : GRet :=
  .val (.arr ((List.range ((kw.head?.map fun e => e.2.length).getD 0)).map fun i =>
    match lsf (fun k => (Dict.get? kw k).map fun row => row.getD i 0) with
    | .ok v => v
    | .error _ => 0))

/-- The end of `analyse_design`: `form = Form(stochastic_model, limit_state); form.run(); return form.getBeta()`
(calibration.py 1434–1439).  Arguments with the wrong names are a `TypeError` at the first call of the function; it is reported here
before the analysis starts (a simplification: the transformation is computed before that call). -/
noncomputable def formBeta (c : Session.Setup) (o : Form.Options) (m : StochModel Marginal ℝ) (lsf : LoadComb.Args → Except PyErr ℝ) :
    Except PyErr ℝ :=
  match lsf (fun k => if k ∈ m.getNames then some 0 else none) with
  | .error e => .error e
  | .ok _ =>
    match Session.formObject { c with expr := arrayFn lsf } o m with
    | .error e => .error e
    | .ok f => .ok f.beta

end Pystra.GenericCalib
