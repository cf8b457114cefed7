import Verif.Model.Calibration

/-!
Model of a `Calibration` object through its life (src/pystra/calibration.py 13–991): the attributes that `run` writes, the calls a user
makes, and what is left behind when a call raises.
-/

namespace Pystra

/-- The attributes of a `Calibration` object: those of the constructor (calibration.py 95–115) and those that `run` sets
(calibration.py 467–476, 488–492); `none` is "no such attribute yet".  `df_phi`, `df_gamma`, `df_psi` are always assigned together, by
one tuple assignment. -/
structure CalibState (D : Type) where
  /-- the attributes of the constructor -/
  cfg : Calib D
  /-- `self.dfXstarcal` -/
  xstar : Option Frame
  /-- `self.df_phi`, `self.df_gamma`, `self.df_psi` -/
  factors : Option Calib.Factors

/-- The calls and assignments of a user. -/
inductive CalibCall where
  /-- `run(est_method, set_max)` -/
  | run (est : Option String) (setMax : Bool)
  /-- `get_design_param_factor(min_phi, max_psi)` -/
  | designParams (minPhi maxPsi : Bool)
  /-- `calc_beta_design_param(design_z)` -/
  | betas (z : ℝ)
  /-- `calc_lsf_eval_df(df, ret_abs)` -/
  | lsfTable (df : Frame) (retAbs : Bool)
  /-- `print_detailed_output()` -/
  | report
  /-- `calib.beta_t = b` -/
  | setTarget (b : ℝ)
  /-- `calib.calib_method = m` -/
  | setCalibMethod (m : String)
  /-- `calib.est_method = m` -/
  | setEstMethod (m : String)

/-- What a call gives the user. -/
inductive CalibOut where
  /-- it returns `None` -/
  | nothing
  /-- it raises -/
  | raised (e : PyErr)
  /-- an array -/
  | values (l : List ℝ)
  /-- a table -/
  | table (f : Frame)
  /-- the four printed tables -/
  | printed (xstar : Frame) (factors : Calib.Factors)

namespace Calib

variable {D : Type}

/-- One cell of `calc_lsf_eval_df` (calibration.py 212–216): `eval_lsf_kwargs(**{"z": 1.0, col: xx})`; for a column called `"z"` the later entry of
the dictionary wins. -/
def lsfCell (C : Calib D) (col : String) (x : ℝ) : Except PyErr ℝ :=
  C.eval (fun k => if k = col then some x else if k = "z" then some 1 else none)

/-- The list of a column (calibration.py 213–215).  A NaN cell is reported as `ValueError` (a simplification as in `rowArgs`). -/
def lsfColumn (C : Calib D) (df : Frame) (col : String) : List String → Except PyErr (List ℝ)
  | [] => .ok []
  | r :: t =>
    match df.get r col with
    | none => .error .valueError
    | some x =>
      match C.lsfCell col x with
      | .error e => .error e
      | .ok v =>
        match lsfColumn C df col t with
        | .error e => .error e
        | .ok l => .ok (v :: l)

/-- The loop over the columns of `calc_lsf_eval_df` (calibration.py 211–217), on the copy `df_lsf` whose columns are replaced one by one. -/
noncomputable def lsfLoop (C : Calib D) (df : Frame) (retAbs : Bool) : List String → Frame → Except PyErr Frame
  | [], acc => .ok acc
  | col :: t, acc =>
    match lsfColumn C acc col df.index with
    | .error e => .error e
    | .ok l =>
      lsfLoop C df retAbs t
        { acc with cell := fun r c => if c = col then (l[df.index.idxOf r]?).map (fun x => if retAbs then |x| else x) else acc.cell r c }

/-- `calc_lsf_eval_df(df, ret_abs)` (calibration.py 188–218). -/
noncomputable def lsfTable (C : Calib D) (df : Frame) (retAbs : Bool) : Except PyErr Frame := lsfLoop C df retAbs df.columns df

end Calib

namespace CalibState

variable {D : Type}

/-- `Calibration(…)`: none of the results exists. -/
def fresh (C : Calib D) : CalibState D := ⟨C, none, none⟩

/-- `run(est_method, set_max)` (calibration.py 451–476) with `_run_calibration` (calibration.py 478–492): the design points are stored as soon as
they are known, the factors only if the estimation returns; an unknown estimation method does nothing. -/
noncomputable def run (fsolve : Calib.Fsolve) (fuel : ℕ) (est : Option String) (setMax : Bool) (s : CalibState D) :
    Option (CalibState D × CalibOut) :=
  match s.cfg.runCalibration fsolve fuel with
  | none => none
  | some (.error e) => some (s, .raised e)
  | some (.ok x) =>
    let s := { s with xstar := some x }
    let em := est.getD s.cfg.estMethod
    if em = "coeff" then
      match Calib.estimate s.cfg Calib.calcPgCoeff x setMax with
      | .error e => some (s, .raised e)
      | .ok F => some ({ s with factors := some F }, .nothing)
    else if em = "matrix" then
      match Calib.estimate s.cfg Calib.calcPgMatrix x setMax with
      | .error e => some (s, .raised e)
      | .ok F => some ({ s with factors := some F }, .nothing)
    else some (s, .nothing)

/-- The answer of a query as an output. -/
def answer {A : Type} (f : A → CalibOut) : Except PyErr A → CalibOut
  | .error e => .raised e
  | .ok a => f a

/-- One call. `get_design_param_factor` (calibration.py 953–967) and `print_detailed_output` (calibration.py 969–991) read the attributes of the last runs, which may not
exist (`AttributeError`). -/
noncomputable def exec (fsolve : Calib.Fsolve) (fuel : ℕ) (s : CalibState D) : CalibCall → Option (CalibState D × CalibOut)
  | .run est setMax => run fsolve fuel est setMax s
  | .designParams minPhi maxPsi =>
    match s.factors with
    | none => some (s, .raised .attributeError)
    | some F => some (s, answer .values (s.cfg.getDesignParamFactor F minPhi maxPsi))
  | .betas z => some (s, answer .values (s.cfg.betasAt z s.cfg.labelCombCases))
  | .lsfTable df retAbs => some (s, answer .table (s.cfg.lsfTable df retAbs))
  | .report =>
    match s.xstar with
    | none => some (s, .raised .attributeError)
    | some x =>
      match s.factors with
      | none => some (s, .raised .attributeError)
      | some F => some (s, .printed x F)
  | .setTarget b => some ({ s with cfg := { s.cfg with betaT := b } }, .nothing)
  | .setCalibMethod m => some ({ s with cfg := { s.cfg with calibMethod := m } }, .nothing)
  | .setEstMethod m => some ({ s with cfg := { s.cfg with estMethod := m } }, .nothing)

/-- A sequence of calls; the exceptions are caught by the user. -/
noncomputable def session (fsolve : Calib.Fsolve) (fuel : ℕ) : CalibState D → List CalibCall → Option (CalibState D × List CalibOut)
  | s, [] => some (s, [])
  | s, c :: t =>
    match exec fsolve fuel s c with
    | none => none
    | some (s, o) =>
      match session fsolve fuel s t with
      | none => none
      | some (s, os) => some (s, o :: os)

end CalibState
end Pystra
