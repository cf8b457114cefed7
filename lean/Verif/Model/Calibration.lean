import Verif.Model.LoadComb
import Mathlib.LinearAlgebra.Matrix.NonsingularInverse
import Mathlib.Data.Matrix.Mul

/-!
Model of `class Calibration` (src/pystra/calibration.py 13–991).

Tables are `Frame`s; a cell is a real number or `none`.  A division by zero gives `none` (pandas: an infinity or NaN).  Printing is not
modelled.
-/

namespace Pystra

/-- A FORM object after `run()`, as the calibration uses it. -/
structure FormObj (D : Type) where
  /-- `form.model` -/
  model : StochModel D ℝ
  /-- `getBeta()` -/
  beta : ℝ
  /-- `getAlpha()` -/
  alpha : List ℝ
  /-- `getDesignPoint()` -/
  u : List ℝ
  /-- `form.transform.u_to_x(·, form.model.getMarginalDistributions())` -/
  uToX : List ℝ → List ℝ

/-- `getDesignPoint(uspace=False)` (form.py 346–355). -/
def FormObj.designX {D : Type} (f : FormObj D) : List ℝ := f.uToX f.u

namespace Frame

/-- Division of cells. -/
noncomputable def cdiv : Option ℝ → Option ℝ → Option ℝ
  | some a, some b => if b = 0 then none else some (a / b)
  | _, _ => none

/-- Multiplication of cells. -/
noncomputable def cmul : Option ℝ → Option ℝ → Option ℝ
  | some a, some b => some (a * b)
  | _, _ => none

/-- The union of two lists of labels. -/
def unionLabels (a b : List String) : List String := a ++ b.filter (fun x => x ∉ a)

/-- `f / g`: labels are aligned, a cell missing on one side gives NaN.  (pandas sorts the union; the order of columns is not observable
here, because columns are then selected by name.) -/
noncomputable def div (f g : Frame) : Frame :=
  ⟨unionLabels f.index g.index, unionLabels f.columns g.columns, fun r c => cdiv (f.get r c) (g.get r c)⟩

/-- `f * g`. -/
noncomputable def mul (f g : Frame) : Frame :=
  ⟨unionLabels f.index g.index, unionLabels f.columns g.columns, fun r c => cmul (f.get r c) (g.get r c)⟩

/-- `f[cols]`: a missing column is a `KeyError`. -/
def select (f : Frame) (cols : List String) : Except PyErr Frame :=
  if ∀ c ∈ cols, c ∈ f.columns then .ok ⟨f.index, cols, f.get⟩ else .error .keyError

/-- `pd.concat((f, g), axis=1)` for two tables with the same index. -/
def concat (f g : Frame) : Frame :=
  ⟨f.index, f.columns ++ g.columns, fun r c => if c ∈ f.columns then f.get r c else g.get r c⟩

/-- The numbers in a column. -/
def colValues (f : Frame) (c : String) : List ℝ := f.index.filterMap (fun r => f.get r c)

/-- Largest number of a list. -/
noncomputable def listMax : List ℝ → Option ℝ
  | [] => none
  | a :: t => match listMax t with
    | none => some a
    | some m => some (max a m)

/-- Smallest number of a list. -/
noncomputable def listMin : List ℝ → Option ℝ
  | [] => none
  | a :: t => match listMin t with
    | none => some a
    | some m => some (min a m)

/-- `f.clip(f.max(), axis=1)`: NaN cells stay NaN. -/
noncomputable def clipToMax (f : Frame) : Frame :=
  { f with cell := fun r c => match f.get r c, listMax (f.colValues c) with
      | some x, some m => some (max x m)
      | x, _ => x }

/-- `f.clip(upper=f.min(), axis=1)`. -/
noncomputable def clipToMin (f : Frame) : Frame :=
  { f with cell := fun r c => match f.get r c, listMin (f.colValues c) with
      | some x, some m => some (min x m)
      | x, _ => x }

/-- `for i in range(min(f.shape)): f.iloc[i, i] = v`. -/
def setDiag (f : Frame) (v : ℝ) : Frame :=
  { f with cell := fun r c => if r ∈ f.index ∧ c ∈ f.columns ∧ f.index.idxOf r = f.columns.idxOf c then some v else f.cell r c }

end Frame

/-- The attributes of a `Calibration` object (calibration.py 95–115). -/
structure Calib (D : Type) where
  /-- `self.lc_obj` -/
  lc : LoadComb D
  /-- the limit-state function `self.lc_obj.lsf` -/
  lsf : LoadComb.Args → Except PyErr ℝ
  /-- `Form(sm, ls[, options]).run()` on a model -/
  form : StochModel D ℝ → Except PyErr (FormObj D)
  /-- `self.beta_t` -/
  betaT : ℝ
  /-- `self.calib_method` -/
  calibMethod : String
  /-- `self.est_method` -/
  estMethod : String
  /-- `self.df_nom` -/
  dfNom : Frame
  /-- `self.cvar` -/
  cvar : String

namespace Calib

variable {D : Type}

/-- `Calibration(loadcombobj, target_beta, dict_nom_vals, calib_var, calib_method, est_method)` (calibration.py 57–115): every case
has the same nominal values. -/
def new (lc : LoadComb D) (lsf : LoadComb.Args → Except PyErr ℝ) (form : StochModel D ℝ → Except PyErr (FormObj D))
    (targetBeta : ℝ) (nom : Dict String ℝ) (calibVar calibMethod estMethod : String) : Calib D :=
  { lc := lc, lsf := lsf, form := form, betaT := targetBeta, calibMethod := calibMethod, estMethod := estMethod
    dfNom := ⟨lc.labelCombCases, nom.keys, fun _ c => nom.get? c⟩, cvar := calibVar }

/-- `self.label_R` -/
def labelR (C : Calib D) : List String := C.lc.labelResist
/-- `self.label_other` -/
def labelOther (C : Calib D) : List String := C.lc.labelOther
/-- `self.label_comb_vrs` -/
def labelCombVrs (C : Calib D) : List String := C.lc.labelCombVrs
/-- `self.label_comb_cases` -/
def labelCombCases (C : Calib D) : List String := C.lc.labelCombCases
/-- `self.label_S` (calibration.py 114) -/
def labelS (C : Calib D) : List String := C.labelOther ++ C.labelCombVrs

/-- `self.lc_obj.eval_lsf_kwargs(**args)`. -/
def eval (C : Calib D) (args : LoadComb.Args) : Except PyErr ℝ := C.lc.evalLsfKwargs C.lsf 0 none args

/-- `df.loc[[row], labels].to_dict("records")[0]`: a missing label is a `KeyError`.  NaN cells are not modelled further: they are
reported as `ValueError` here (a simplification; Python goes on with NaN). -/
def rowArgs (f : Frame) (row : String) (labels : List String) : Except PyErr LoadComb.Args :=
  if row ∉ f.index ∨ ∃ c ∈ labels, c ∉ f.columns then .error .keyError
  else if ∃ c ∈ labels, f.get row c = none then .error .valueError
  else .ok (fun k => if k ∈ labels then f.get row k else none)

/-- `calc_design_param_Xst(dfXst)` (calibration.py 375–398) on row `row` of a table.  Dividing a Python float by zero raises. -/
noncomputable def calcDesignParam (C : Calib D) (f : Frame) (row : String) : Except PyErr ℝ :=
  match rowArgs f row (C.labelOther ++ C.labelCombVrs) with
  | .error e => .error e
  | .ok s =>
  match C.eval s with
  | .error e => .error e
  | .ok sumLoad =>
  match rowArgs f row C.labelR with
  | .error e => .error e
  | .ok r =>
  match C.eval r with
  | .error e => .error e
  | .ok sumResist => if sumResist = 0 then .error .zeroDivision else .ok |sumLoad / sumResist|

/-- `rel_func(lcn=case, **{cvar: Constant(cvar, z)})` (calibration.py 280–284, 332–337). -/
noncomputable def relFunc (C : Calib D) (case : String) (z : ℝ) : Except PyErr (FormObj D) :=
  C.lc.runCase C.form (some case) [(C.cvar, .constant C.cvar z)]

/-- `_get_df_Xstar_labels(form)` (calibration.py 428–449): the names that are not constants, in the order of the names. -/
def xstarLabels (f : FormObj D) : List String := f.model.getNames.filter (fun n => n ∉ f.model.getConstants.keys)

/-- `pd.DataFrame(data=[x], columns=columns)`: one row (labelled `"0"` here); a length mismatch is a `ValueError`. -/
def oneRow (columns : List String) (x : List ℝ) : Except PyErr Frame :=
  if columns.length = x.length then .ok ⟨["0"], columns, fun _ c => x[columns.idxOf c]?⟩ else .error .valueError

/-- The result of a calibration: the design parameter as a Python float or as an array of length one. -/
inductive ZVal where
  | scalar (z : ℝ)
  | arr (z : ℝ)

/-- The number. -/
def ZVal.val : ZVal → ℝ
  | .scalar z => z
  | .arr z => z

/-- Whether it is a Python float. -/
def ZVal.isScalar : ZVal → Bool
  | .scalar _ => true
  | .arr _ => false

/-- `np.isclose(a, b, atol=atol)` with the default `rtol=1e-5`. -/
def IsClose (a b atol : ℝ) : Prop := |a - b| ≤ atol + 1e-5 * |b|

open Classical in
/-- The `while` loop of `_calibration_alpha` (calibration.py 347–373); `fuel` bounds the number of rounds, `none` means that the loop is
still running.  Returned with the result: the number of rounds. -/
noncomputable def alphaLoop (C : Calib D) (case : String) (columns : List String) (atol : ℝ) (maxIter : ℕ) :
    ℕ → ℕ → ZVal → FormObj D → Option (Except PyErr (ZVal × FormObj D × ℕ))
  | fuel, nIter, z, f =>
    if IsClose f.beta C.betaT atol then some (.ok (z, f, nIter))
    else
      match fuel with
      | 0 => none
      | fuel + 1 =>
        let uCal := f.alpha.map (fun a => a * C.betaT)
        let xCal := f.uToX uCal
        match oneRow columns xCal with
        | .error e => some (.error e)
        | .ok df =>
          match C.calcDesignParam df "0" with
          | .error e => some (.error e)
          | .ok z =>
            match C.relFunc case z with
            | .error e => some (.error e)
            | .ok f =>
              if nIter + 1 = maxIter then some (.ok (.arr z, f, nIter + 1))
              else alphaLoop C case columns atol maxIter fuel (nIter + 1) (.arr z) f

/-- `_calibration_alpha(rel_func, z0, target_beta, abstol, max_iter, lcn=case)` (calibration.py 288–373).  `target_beta` is not used:
the loop reads `self.beta_t`. -/
noncomputable def calibrationAlpha (C : Calib D) (case : String) (z0 : ℝ) (_targetBeta : ℝ) (abstol : ℝ) (maxIter : ℕ) (fuel : ℕ) :
    Option (Except PyErr (ZVal × FormObj D × ℕ)) :=
  match C.relFunc case z0 with
  | .error e => some (.error e)
  | .ok form0 => C.alphaLoop case (xstarLabels form0) abstol maxIter fuel 0 (.scalar z0) form0

/-- What `scipy.optimize.fsolve` does with an objective function and a start value: evaluate it where it likes, and either pass on an
exception or return a number (whether it solved the equation or not: only a warning is printed). -/
abbrev Fsolve := (ℝ → Except PyErr ℝ) → ℝ → Except PyErr ℝ

/-- `_calibration_optimize(rel_func, z0, target_beta, lcn=case)` (calibration.py 219–286). -/
noncomputable def calibrationOptimize (fsolve : Fsolve) (C : Calib D) (case : String) (z0 : ℝ) (targetBeta : ℝ) :
    Except PyErr (ZVal × FormObj D) :=
  match fsolve (fun z => match C.relFunc case z with
    | .error e => .error e
    | .ok f => .ok (targetBeta - f.beta)) z0 with
  | .error e => .error e
  | .ok z =>
    match C.relFunc case z with
    | .error e => .error e
    | .ok f => .ok (.arr z, f)

/-- The body of the loop of `_calibrate_design_param` (calibration.py 572–587): `abstol=1e-4`, `max_iter=100`; another method leaves
`zcal` unbound. -/
noncomputable def calibrateCase (fsolve : Fsolve) (C : Calib D) (startz : ℝ) (fuel : ℕ) (case : String) :
    Option (Except PyErr (ZVal × FormObj D)) :=
  if C.calibMethod = "optimize" then some (calibrationOptimize fsolve C case startz C.betaT)
  else if C.calibMethod = "alpha" then
    match C.calibrationAlpha case startz C.betaT 1e-4 100 fuel with
    | none => none
    | some (.error e) => some (.error e)
    | some (.ok (z, f, _)) => some (.ok (z, f))
  else some (.error .nameError)

/-- The loop over the cases (calibration.py 572–589). -/
noncomputable def calibrateLoop (fsolve : Fsolve) (C : Calib D) (startz : ℝ) (fuel : ℕ) : List String →
    Option (Except PyErr (List (ZVal × FormObj D)))
  | [] => some (.ok [])
  | case :: t =>
    match calibrateCase fsolve C startz fuel case with
    | none => none
    | some (.error e) => some (.error e)
    | some (.ok r) =>
      match calibrateLoop fsolve C startz fuel t with
      | none => none
      | some (.error e) => some (.error e)
      | some (.ok rs) => some (.ok (r :: rs))

/-- `np.concatenate(list_z_cal)`: needs at least one array and no zero-dimensional ones. -/
def concatZ : List ZVal → Except PyErr (List ℝ)
  | [] => .error .valueError
  | l => if l.any ZVal.isScalar then .error .valueError else .ok (l.map ZVal.val)

/-- `_calibrate_design_param()` (calibration.py 550–592). -/
noncomputable def calibrateDesignParam (fsolve : Fsolve) (C : Calib D) (fuel : ℕ) : Option (Except PyErr (List ℝ × List (FormObj D))) :=
  match C.lc.constant with
  | none => some (.error .typeError)
  | some consts =>
  match consts.get? C.cvar with
  | none => some (.error .keyError)
  | some c =>
  match calibrateLoop fsolve C c.val fuel C.labelCombCases with
  | none => none
  | some (.error e) => some (.error e)
  | some (.ok rs) =>
    match concatZ (rs.map Prod.fst) with
    | .error e => some (.error e)
    | .ok zs => some (.ok (zs, rs.map Prod.snd))

/-- `_get_df_Xstar(list_form_obj, idx=cases)` followed by `dfXstarcal["z"] = arr_zcal` (calibration.py 400–426, 488–492): one row per
case, the columns of the first form, and a column literally named `"z"`. -/
def dfXstar (cases : List String) (zs : List ℝ) (forms : List (FormObj D)) : Except PyErr Frame :=
  match forms with
  | [] => .error .indexError
  | f0 :: _ =>
    let cols := xstarLabels f0
    if forms.any (fun f => f.designX.length ≠ cols.length) ∨ forms.length ≠ cases.length ∨ zs.length ≠ cases.length then
      .error .valueError
    else
      .ok ⟨cases, if "z" ∈ cols then cols else cols ++ ["z"], fun r c =>
        if c = "z" then zs[cases.idxOf r]?
        else
          match forms[cases.idxOf r]? with
          | none => none
          | some f => f.designX[cols.idxOf c]?⟩

/-- `_run_calibration()` (calibration.py 478–492): the table `self.dfXstarcal`. -/
noncomputable def runCalibration (fsolve : Fsolve) (C : Calib D) (fuel : ℕ) : Option (Except PyErr Frame) :=
  match calibrateDesignParam fsolve C fuel with
  | none => none
  | some (.error e) => some (.error e)
  | some (.ok (zs, forms)) => some (dfXstar C.labelCombCases zs forms)

/-- The loop of `calc_Xst_nom` (calibration.py 679–683): the leading variables' ratios of each case are copied to all other cases,
case after case, reading what earlier cases have written. -/
def copyLeading (cases : List String) : Dict String (List String) → Frame → Except PyErr Frame
  | [], f => .ok f
  | (comb, vrs) :: t, f =>
    if comb ∉ f.index ∨ ∃ v ∈ vrs, v ∉ f.columns then .error .keyError
    else copyLeading cases t
      { f with cell := fun r c => if r ∈ cases ∧ r ≠ comb ∧ c ∈ vrs then f.get comb c else f.cell r c }

/-- `calc_Xst_nom(dfXstar)` (calibration.py 657–685). -/
noncomputable def calcXstNom (C : Calib D) (x : Frame) : Except PyErr Frame :=
  match copyLeading C.labelCombCases C.lc.combCases (x.div C.dfNom) with
  | .error e => .error e
  | .ok f => f.select x.columns

/-- `calc_phi` and `calc_gamma` (calibration.py 687–736) and the concatenation of the load factors (calibration.py 643, 765). -/
noncomputable def calcPhiGamma (C : Calib D) (x : Frame) : Except PyErr (Frame × Frame) :=
  match C.calcXstNom x with
  | .error e => .error e
  | .ok q =>
  match q.select C.labelR with
  | .error e => .error e
  | .ok phi =>
  match q.select C.labelOther with
  | .error e => .error e
  | .ok gs =>
  match q.select C.labelCombVrs with
  | .error e => .error e
  | .ok gc => .ok (phi, gs.concat gc)

/-- `calc_pg_coeff(dfXst)` (calibration.py 616–655). -/
noncomputable def calcPgCoeff (C : Calib D) (x : Frame) : Except PyErr (Frame × Frame × Frame) :=
  match C.calcPhiGamma x with
  | .error e => .error e
  | .ok (phi, gamma) =>
    match ((x.div gamma).div C.dfNom).select C.labelS with
    | .error e => .error e
    | .ok psi => .ok (phi, gamma, psi)

/-- `get_psi_max(dfpsi)` (calibration.py 522–548). -/
noncomputable def getPsiMax (C : Calib D) (psi : Frame) : Except PyErr Frame :=
  match psi.select C.labelCombVrs with
  | .error e => .error e
  | .ok f =>
    let f := f.setDiag 0
    let f := f.clipToMax
    let f := f.setDiag 1
    if C.labelOther = [] then .ok f
    else
      match psi.select C.labelOther with
      | .error e => .error e
      | .ok o => .ok (f.concat o)

/-- `get_phi_min(dfphi)` (calibration.py 710–713). -/
noncomputable def getPhiMin (phi : Frame) : Frame := phi.clipToMin

/-- `calc_phiRz_egS_vect(dfXstar)` (calibration.py 791–822): one evaluation per row, with the other combination variables left out. -/
noncomputable def phiRzVect (C : Calib D) (x : Frame) : List String → Except PyErr (List ℝ)
  | [] => .ok []
  | comb :: t =>
    match C.lc.combCases.get? comb with
    | none => .error .keyError
    | some sLabel =>
      let labels := (C.labelR ++ C.labelCombVrs ++ C.labelOther ++ [C.cvar]).filter (fun v => ¬ (v ∈ C.labelCombVrs ∧ v ∉ sLabel))
      match rowArgs x comb labels with
      | .error e => .error e
      | .ok a =>
      match C.eval a with
      | .error e => .error e
      | .ok v =>
        match phiRzVect C x t with
        | .error e => .error e
        | .ok r => .ok (v :: r)

/-- The column values of `calc_epgS_mat` (calibration.py 844–866): minus the difference that the leading variables of each case make,
with the factored static loads. -/
noncomputable def epgSCols (C : Calib D) (gn : Frame) : List String → Except PyErr (List ℝ)
  | [] => .ok []
  | comb :: t =>
    match C.lc.combCases.get? comb with
    | none => .error .keyError
    | some sLabel =>
      match rowArgs gn comb (C.labelOther ++ sLabel) with
      | .error e => .error e
      | .ok a =>
      match rowArgs gn comb C.labelOther with
      | .error e => .error e
      | .ok b =>
      match C.eval a with
      | .error e => .error e
      | .ok va =>
      match C.eval b with
      | .error e => .error e
      | .ok vb =>
        match epgSCols C gn t with
        | .error e => .error e
        | .ok r => .ok (-1 * (va - vb) :: r)

open Classical in
/-- `np.linalg.solve(A, b)` for the matrix whose column `j` is filled with `cols[j]` and whose diagonal is zero
(calibration.py 844–867, 773). -/
noncomputable def solveZeroDiag (n : ℕ) (cols b : Fin n → ℝ) : Except PyErr (Fin n → ℝ) :=
  let A : Matrix (Fin n) (Fin n) ℝ := fun i j => if i = j then 0 else cols j
  if A.det = 0 then .error .linAlgError else .ok (A⁻¹.mulVec b)

/-- `calc_pg_matrix(dfXst)` (calibration.py 738–789, 869–900).  With more cases than combination variables the assignment of a column
is an `IndexError`; with fewer the matrix is not square (`LinAlgError`). -/
noncomputable def calcPgMatrix (C : Calib D) (x : Frame) : Except PyErr (Frame × Frame × Frame) :=
  match C.calcPhiGamma x with
  | .error e => .error e
  | .ok (phi, gamma) =>
  match phiRzVect C x x.index with
  | .error e => .error e
  | .ok rhs =>
  let gn := (phi.concat gamma).mul C.dfNom
  match epgSCols C gn gn.index with
  | .error e => .error e
  | .ok cols =>
    if cols.length > C.labelCombVrs.length then .error .indexError
    else if cols.length < C.labelCombVrs.length then .error .linAlgError
    else
      match solveZeroDiag C.labelCombVrs.length (fun j => cols.getD j 0) (fun j => rhs.getD j 0) with
      | .error e => .error e
      | .ok psi =>
        .ok (phi, gamma, ⟨gamma.index, gamma.columns, fun r c =>
          if gamma.columns.idxOf c < C.labelOther.length then some 1
          else if gamma.columns.idxOf c - C.labelOther.length = gamma.index.idxOf r then some 1
          else if h : gamma.columns.idxOf c - C.labelOther.length < C.labelCombVrs.length then some (psi ⟨_, h⟩)
          else none⟩)

/-- The factors of a calibration. -/
structure Factors where
  /-- `self.df_phi` -/
  phi : Frame
  /-- `self.df_gamma` -/
  gamma : Frame
  /-- `self.df_psi` -/
  psi : Frame

/-- `_estimate_factors_coeff` / `_estimate_factors_matrix` (calibration.py 494–520, 594–614). -/
noncomputable def estimate (C : Calib D) (method : Calib D → Frame → Except PyErr (Frame × Frame × Frame)) (x : Frame) (setMax : Bool) :
    Except PyErr Factors :=
  match method C x with
  | .error e => .error e
  | .ok (phi, gamma, psi) =>
    if setMax then
      match C.getPsiMax psi with
      | .error e => .error e
      | .ok psi => .ok ⟨getPhiMin phi, gamma, psi⟩
    else .ok ⟨phi, gamma, psi⟩

/-- `run(est_method, set_max)` (calibration.py 451–476): the table of design points and the factors; an unknown estimation method is
ignored (no factors are stored). -/
noncomputable def run (fsolve : Fsolve) (C : Calib D) (estMethod : Option String) (setMax : Bool) (fuel : ℕ) :
    Option (Except PyErr (Frame × Option Factors)) :=
  let em := estMethod.getD C.estMethod
  match C.runCalibration fsolve fuel with
  | none => none
  | some (.error e) => some (.error e)
  | some (.ok x) =>
    if em = "coeff" then
      match estimate C calcPgCoeff x setMax with
      | .error e => some (.error e)
      | .ok r => some (.ok (x, some r))
    else if em = "matrix" then
      match estimate C calcPgMatrix x setMax with
      | .error e => some (.error e)
      | .ok r => some (.ok (x, some r))
    else some (.ok (x, none))

/-- `calc_beta_design_param(design_z)` (calibration.py 904–931). -/
noncomputable def betasAt (C : Calib D) (z : ℝ) : List String → Except PyErr (List ℝ)
  | [] => .ok []
  | case :: t =>
    match C.relFunc case z with
    | .error e => .error e
    | .ok f =>
      match betasAt C z t with
      | .error e => .error e
      | .ok r => .ok (f.beta :: r)

/-- `calc_df_pgRS(min_phi, max_psi)` (calibration.py 933–951): nominal values times factors, the load factors being the largest over
the cases. -/
noncomputable def calcDfPgRS (C : Calib D) (F : Factors) (minPhi maxPsi : Bool) : Except PyErr Frame :=
  let phi := if minPhi then getPhiMin F.phi else F.phi
  match (if maxPsi then C.getPsiMax F.psi else .ok F.psi) with
  | .error e => .error e
  | .ok psi =>
    if ∃ c ∈ C.labelS ++ C.labelR, c ∉ C.dfNom.columns then .error .keyError
    else .ok ⟨C.dfNom.index, C.dfNom.columns, fun r c =>
      if c ∈ C.labelR then Frame.cmul (C.dfNom.get r c) (phi.get r c)
      else if c ∈ C.labelS then Frame.cmul (Frame.cmul (C.dfNom.get r c) (Frame.listMax (F.gamma.colValues c))) (psi.get r c)
      else C.dfNom.cell r c⟩

/-- `get_design_param_factor(min_phi, max_psi)` (calibration.py 953–967). -/
noncomputable def designParams (C : Calib D) (f : Frame) : List String → Except PyErr (List ℝ)
  | [] => .ok []
  | case :: t =>
    match C.calcDesignParam f case with
    | .error e => .error e
    | .ok z =>
      match designParams C f t with
      | .error e => .error e
      | .ok r => .ok (z :: r)

/-- `get_design_param_factor`. -/
noncomputable def getDesignParamFactor (C : Calib D) (F : Factors) (minPhi maxPsi : Bool) : Except PyErr (List ℝ) :=
  match C.calcDfPgRS F minPhi maxPsi with
  | .error e => .error e
  | .ok f => C.designParams f C.labelCombCases

end Calib
end Pystra
