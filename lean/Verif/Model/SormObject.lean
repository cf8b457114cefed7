import Verif.Model.FormObject

/-!
Model of a `Sorm` *object* (src/pystra/sorm.py): its attributes, the `Form` object it holds, and every method, over any number
of calls of `run`.  The number of random variables is `m + 1` throughout.
-/

namespace Pystra.SormObj
open Transformation Form Matrix Sorm

variable {m : ℕ}

/-- The attributes (sorm.py 68–97, analysis.py 66–71).  `none` stands for the initial `0` of `betaHL` and `kappa` and for
`None`. -/
structure Obj (m : ℕ) where
  /-- `self.results_valid` -/
  resultsValid : Bool
  /-- `self.transform.T`, `self.transform.inv_T` -/
  transform : Option (Mats (m + 1))
  /-- `self.form` -/
  form : FormObj.Obj (m + 1)
  /-- `self.betaHL` -/
  betaHL : Option ℝ
  /-- `self.kappa` -/
  kappa : Option (List ℝ)
  /-- `self.kappa_pf`: the two rows -/
  kappaPf : Option (List ℝ × List ℝ)
  /-- `self.fit_type` -/
  fitType : Option String
  /-- `pf2_breitung`, `betag_breitung` -/
  breitung : Breitung
  /-- `pf2_breitung_m`, `betag_breitung_m` -/
  breitungM : Breitung

/-- A new object holding `form` (sorm.py 73–97). -/
noncomputable def fresh (form : FormObj.Obj (m + 1)) : Obj m :=
  ⟨false, none, form, none, none, none, none, ⟨.fin 0, .fin 0, false⟩, ⟨.fin 0, .fin 0, false⟩⟩

/-- `Sorm(model, limit_state, options)` (sorm.py 68–97): FORM is run on a new `Form` object.  `none` when that run does not end
or meets a zero gradient. -/
noncomputable def new (c : Session.Setup) (fopt : Form.Options) (ev : Ev Marginal) : Option (Ev Marginal × Except PyErr (Obj m)) :=
  match FormObj.run c fopt FormObj.fresh ev with
  | some (form, ev, .finished) => some (ev, .ok (fresh form))
  | some (_, ev, .raised e) => some (ev, .error e)
  | _ => none

/-- What `showResults` prints. -/
structure Shown where
  /-- whether the heading says " (Point-Fitting)" -/
  pointFitting : Bool
  /-- generalised reliability index -/
  betag : Fl
  /-- probability of failure -/
  pf : Fl
  /-- the curvatures: pairs `kappa-`, `kappa+`, or single ones -/
  curvatures : (List ℝ × List ℝ) ⊕ List ℝ

/-- `showResults` (sorm.py 380–404): the integer `0` can be neither indexed nor enumerated. -/
def showResults (o : Obj m) : Except PyErr Shown :=
  if !o.resultsValid then .error .valueError
  else if !o.breitung.isArray then .error .typeError
  else if o.fitType = some "pf" ∧ o.kappaPf.isSome then
    .ok ⟨true, o.breitung.betag, o.breitung.pf, .inl (o.kappaPf.getD ([], []))⟩
  else
    match o.kappa with
    | none => .error .typeError
    | some ks => .ok ⟨decide (o.fitType = some "pf"), o.breitung.betag, o.breitung.pf, .inr ks⟩

/-- `if self.options.getPrintOutput(): self.showResults()` (sorm.py 143–144, 202–203). -/
def printed (print : Bool) (o : Obj m) : Except PyErr Unit :=
  if print then (match showResults o with | .error e => .error e | .ok _ => .ok ()) else .ok ()

/-- What both fits store (sorm.py 138–142, 194–200). -/
def store (o : Obj m) (betaHL : ℝ) (kappa : List ℝ) (kappaPf : Option (List ℝ × List ℝ)) (b bM : Breitung) : Obj m :=
  { o with betaHL := some betaHL, kappa := some kappa, kappaPf := kappaPf, breitung := b, breitungM := bM }

/-- `run_curvefit` (sorm.py 130–144).  The design point is the FORM object's, mapped by the *FORM object's* transformation.
`alpha` is assigned after `transform`, `u` and `gradient`, so these are there when it is.  A FORM object without `beta` makes
`pf_breitung` fail after `kappa` is stored. -/
noncomputable def runCurvefit (c : Session.Setup) (t : Mats (m + 1)) (ffdpara : ℝ) (print : Bool) (o : Obj m) (ev : Ev Marginal) :
    Obj m × Ev Marginal × Except PyErr Unit :=
  match o.form.alpha with
  | none => (o, ev, .error (if ffdpara = 0 then .zeroDivision else .attributeError))
  | some al =>
    let marg := Session.margN (m + 1) c.default ev.model
    let u := o.form.u.getD 0
    match fitCurvatures (c.eig m) t marg (Session.evaluator c (m + 1) ev.model) (uToX (o.form.transform.getD t) marg u) u al
        (o.form.gradient.getD 0) ffdpara ev with
    | (ev, .error e) => (o, ev, .error e)
    | (ev, .ok kappa) =>
      match o.form.beta with
      | none => ({ o with betaHL := none, kappa := some kappa }, ev, .error .typeError)
      | some beta =>
        let o := store o beta kappa o.kappaPf (pfBreitung beta kappa) (pfBreitungM beta kappa)
        (o, ev, printed print o)

/-- `run_pointfit` (sorm.py 146–203). -/
noncomputable def runPointfit (c : Session.Setup) (t : Mats (m + 1)) (print : Bool) (o : Obj m) (ev : Ev Marginal) :
    Obj m × Ev Marginal × Except PyErr Unit :=
  match o.form.beta with
  | none => (o, ev, .error .typeError)
  | some beta =>
    match o.form.alpha with
    | none => (o, ev, .error .attributeError)
    | some al =>
      match fitPoints t (Session.margN (m + 1) c.default ev.model) (Session.evaluator c (m + 1) ev.model) al beta ev with
      | (ev, .error e) => (o, ev, .error e)
      | (ev, .ok l) =>
        let km := l.map Prod.fst
        let kp := l.map Prod.snd
        let o := store o beta (sort (l.map (fun p => 0.5 * (p.1 + p.2)))) (some (km, kp)) (pfBreitungPf beta km kp)
          (pfBreitungMPf beta km kp)
        (o, ev, printed print o)

/-- `run(fit_type)` (sorm.py 99–128). -/
noncomputable def run (c : Session.Setup) (ffdpara : ℝ) (print : Bool) (fitType : String) (o : Obj m) (ev : Ev Marginal) :
    Obj m × Ev Marginal × Except PyErr Unit :=
  let o := { o with resultsValid := true }
  match Session.initRun c (m + 1) ev with
  | (ev, .error e) => (o, ev, .error e)
  | (ev, .ok t) =>
    let o := { o with transform := some t, fitType := some fitType }
    if fitType = "cf" then runCurvefit c t ffdpara print o ev
    else if fitType = "pf" then runPointfit c t print o ev
    else (o, ev, .error .valueError)

/-- What `showDetailedOutput` prints. -/
structure Detailed where
  /-- whether the heading says " (Point-Fitting)" -/
  pointFitting : Bool
  /-- `Pf FORM` -/
  pfForm : ℝ
  /-- `Pf SORM Breitung` -/
  pf : Fl
  /-- `Pf SORM Breitung HR` -/
  pfM : Fl
  /-- `Beta_HL` -/
  betaHL : ℝ
  /-- `Beta_G Breitung` -/
  betag : Fl
  /-- `Beta_G Breitung HR` -/
  betagM : Fl
  /-- `Model Evaluations` -/
  calls : ℕ
  /-- the curvatures -/
  curvatures : (List ℝ × List ℝ) ⊕ List ℝ
  /-- the lines `Variable U_star X_star alpha` -/
  rows : List (String × ℝ × ℝ × ℝ)
  /-- the lines of the constants -/
  consts : List (String × ℝ)

/-- `showDetailedOutput` (sorm.py 406–466): the table's data come from the FORM object, `Beta_HL` too. -/
noncomputable def showDetailedOutput (md : StochModel Marginal ℝ) (o : Obj m) : Except PyErr Detailed :=
  if !o.resultsValid then .error .valueError
  else
    match FormObj.getDesignPointX (md.getMarginalDistributions.map DistObj.body) o.form with
    | .error e => .error e
    | .ok x =>
      match FormObj.getAlpha o.form with
      | .error e => .error e
      | .ok al =>
        match FormObj.getBeta o.form with
        | .error e => .error e
        | .ok beta =>
          match o.form.Pf with
          | none => .error .typeError
          | some pf =>
            if !o.breitung.isArray || !o.breitungM.isArray then .error .typeError
            else
              match showResults o with
              | .error e => .error e
              | .ok sh =>
                match FormObj.tableRows (o.form.u.getD 0) x al md.getVariables.keys 0 with
                | .error e => .error e
                | .ok rows =>
                  .ok ⟨sh.pointFitting, pf, o.breitung.pf, o.breitungM.pf, beta, o.breitung.betag, o.breitungM.betag,
                    md.getCallFunction, sh.curvatures, rows, md.getConstants⟩

/-- What happens to a `Sorm` object, its `Form` object and the model. -/
inductive Event where
  /-- `run(fit_type)` -/
  | run (c : Session.Setup) (ffdpara : ℝ) (print : Bool) (fitType : String)
  /-- `sorm.form.run()` -/
  | form (c : Session.Setup) (fopt : Form.Options)
  /-- anything else that changes the model, which keeps its random variables -/
  | world (f : Ev Marginal → Ev Marginal)

/-- A history of one object; an exception does not end it.  `none` when a FORM run does not end or meets a zero gradient. -/
noncomputable def history : List Event → Obj m → Ev Marginal → Option (Obj m × Ev Marginal)
  | [], o, ev => some (o, ev)
  | .world f :: h, o, ev => history h o (f ev)
  | .form c fopt :: h, o, ev =>
    match FormObj.run c fopt o.form ev with
    | some (form, ev, .finished) => history h { o with form := form } ev
    | some (form, ev, .raised _) => history h { o with form := form } ev
    | _ => none
  | .run c ffdpara print fitType :: h, o, ev =>
    let r := run c ffdpara print fitType o ev
    history h r.1 r.2.1

end Pystra.SormObj
