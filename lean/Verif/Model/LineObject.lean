import Verif.Model.FormObject

/-!
Model of a `LineSampling` *object* (src/pystra/ls.py): its attributes, the `Form` object it holds or creates, and its methods,
over any number of calls of `run`.  `ω` is the stream of normal draws of the process and `pos` the position in it.  The number of
random variables is `n` throughout (`self.nrv` is fixed at construction), there is at least one sample, and limit-state
evaluations return (block size at least one).
-/

namespace Pystra.LineObj
open Transformation Form LineSampling

variable {n : ℕ}

/-- The attributes (ls.py 60–80, analysis.py 66–71); `none` is Python's `None`. -/
structure Obj (n : ℕ) where
  /-- `self.results_valid` -/
  resultsValid : Bool
  /-- `self.transform.T`, `self.transform.inv_T` -/
  transform : Option (Mats n)
  /-- `self.form` -/
  form : Option (FormObj.Obj n)
  /-- `self.alpha` -/
  alpha : Option (Fin n → ℝ)
  /-- `self.Pf` -/
  Pf : Option ℝ
  /-- `self.beta` -/
  beta : Option EReal
  /-- `self.cov` -/
  cov : Option EReal
  /-- `self.n_samples` -/
  nSamples : Option ℕ
  /-- `self._pf_contributions` -/
  contribs : Option (List ℝ)

/-- `LineSampling(..., form=form)` (ls.py 60–80). -/
def fresh (form : Option (FormObj.Obj n)) : Obj n := ⟨false, none, form, none, none, none, none, none, none⟩

/-- The settings of a run: those shared by all analyses, FORM's, `options.samples`, `options.print_output`. -/
structure Settings where
  /-- numerical routines, transformation, limit state -/
  c : Session.Setup
  /-- FORM's options -/
  fopt : Form.Options
  /-- `options.samples` -/
  N : ℕ
  /-- `options.print_output` -/
  print : Bool

/-- `if self.form is None: ...` (ls.py 90–97): a new `Form` object is run, and kept if its run returns.  `none` when that run
does not end or meets a zero gradient. -/
noncomputable def obtainForm (st : Settings) (o : Obj n) (ev : Ev Marginal) : Option (Obj n × Ev Marginal × Except PyErr (FormObj.Obj n)) :=
  match o.form with
  | some F => some (o, ev, .ok F)
  | none =>
    match FormObj.run st.c st.fopt FormObj.fresh ev with
    | some (F, ev, .finished) => some ({ o with form := some F }, ev, .ok F)
    | some (_, ev, .raised e) => some (o, ev, .error e)
    | _ => none

/-- What is printed. -/
structure Shown where
  /-- reliability index -/
  beta : EReal
  /-- failure probability -/
  Pf : ℝ
  /-- coefficient of variation -/
  cov : EReal
  /-- number of lines -/
  nSamples : Option ℕ

/-- `showResults` (ls.py 221–236): `None` cannot be formatted as a number. -/
def showResults (o : Obj n) : Except PyErr Shown :=
  if !o.resultsValid then .error .valueError
  else
    match o.beta with
    | none => .error .typeError
    | some b =>
      match o.Pf with
      | none => .error .typeError
      | some p =>
        match o.cov with
        | none => .error .typeError
        | some c => .ok ⟨b, p, c, o.nSamples⟩

/-- `if self.options.getPrintOutput(): self.showResults()` (ls.py 140–141). -/
def printed (print : Bool) (o : Obj n) : Except PyErr Unit :=
  if print then (match showResults o with | .error e => .error e | .ok _ => .ok ()) else .ok ()

/-- `run` from the FORM object on (ls.py 99–141). -/
noncomputable def sampleRun (st : Settings) (ω : ℕ → ℝ) (t : Mats n) (marg : Fin n → Marginal) (F : FormObj.Obj n) (o : Obj n)
    (ev : Ev Marginal) (pos : ℕ) : Obj n × Ev Marginal × ℕ × Except PyErr Unit :=
  match FormObj.getAlpha F with
  | .error e => (o, ev, pos, .error e)
  | .ok al =>
    match FormObj.getBeta F with
    | .error e => (o, ev, pos, .error e)
    | .ok betaForm =>
      let o := { o with alpha := some al }
      let r := sample t marg (Session.evaluator st.c n ev.model) al betaForm st.N ω pos ev
      let o := { o with contribs := some r.2.contribs }
      let o := { o with Pf := some r.2.Pf, nSamples := some r.2.nSamples }
      let o := { o with beta := some r.2.beta, cov := some r.2.cov }
      (o, r.1, pos + n * st.N, printed st.print o)

/-- `run()` (ls.py 82–141).  `none` when the FORM run does not end or meets a zero gradient. -/
noncomputable def run (st : Settings) (ω : ℕ → ℝ) (o : Obj n) (ev : Ev Marginal) (pos : ℕ) :
    Option (Obj n × Ev Marginal × ℕ × Except PyErr Unit) :=
  let o := { o with resultsValid := true }
  match Session.initRun st.c n ev with
  | (ev, .error e) => some (o, ev, pos, .error e)
  | (ev, .ok t) =>
    let o := { o with transform := some t }
    let marg := Session.margN n st.c.default ev.model
    match obtainForm st o ev with
    | none => none
    | some (o, ev, .error e) => some (o, ev, pos, .error e)
    | some (o, ev, .ok F) => some (sampleRun st ω t marg F o ev pos)

/-- `getBeta` (ls.py 213–215). -/
def getBeta (o : Obj n) : Option EReal := o.beta

/-- `getFailure` (ls.py 217–219). -/
def getFailure (o : Obj n) : Option ℝ := o.Pf

/-- What happens to a `LineSampling` object, the `Form` object it holds, and the model. -/
inductive Event where
  /-- `run()` -/
  | run (st : Settings)
  /-- `ls.form.run()`, when there is a `Form` object -/
  | form (c : Session.Setup) (fopt : Form.Options)
  /-- anything else that changes the model (which keeps its random variables) or draws normal numbers -/
  | world (f : Ev Marginal → Ev Marginal) (draws : ℕ)

/-- `ls.form.run()`; there is nothing to run when `form` is `None`. -/
noncomputable def runForm (c : Session.Setup) (fopt : Form.Options) (form : Option (FormObj.Obj n)) (ev : Ev Marginal) :
    Option (Option (FormObj.Obj n) × Ev Marginal) :=
  match form with
  | none => some (none, ev)
  | some F =>
    match FormObj.run c fopt F ev with
    | some (F, ev, .finished) => some (some F, ev)
    | some (F, ev, .raised _) => some (some F, ev)
    | _ => none

/-- A history of one object; an exception does not end it.  `none` when a FORM run does not end or meets a zero gradient. -/
noncomputable def history (ω : ℕ → ℝ) : List Event → Obj n → Ev Marginal → ℕ → Option (Obj n × Ev Marginal × ℕ)
  | [], o, ev, pos => some (o, ev, pos)
  | .world f k :: h, o, ev, pos => history ω h o (f ev) (pos + k)
  | .form c fopt :: h, o, ev, pos =>
    match runForm c fopt o.form ev with
    | none => none
    | some (F, ev) => history ω h { o with form := F } ev pos
  | .run st :: h, o, ev, pos =>
    match run st ω o ev pos with
    | none => none
    | some (o, ev, pos, _) => history ω h o ev pos

end Pystra.LineObj
