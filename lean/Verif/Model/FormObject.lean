import Verif.Model.Session

/-!
Model of a `Form` *object* (src/pystra/form.py): its attributes, as every method reads and writes them, over any number of
calls of `run`, completed or not.  `Form.run` (Verif/Model/Form.lean) is the same code seen as a function of its inputs.

The number of random variables is `n` at every run.  `self.x` and `self.gamma`, which no getter returns and no method reads
before writing, are left out.  A run that meets a zero gradient continues with NaN in the code; it is not followed here.
-/

namespace Pystra.FormObj
open Transformation Form Matrix

variable {σ : Type} {n : ℕ}

/-- The attributes (form.py 39–58, analysis.py 66–71); `none` is Python's `None`. -/
structure Obj (n : ℕ) where
  /-- `self.results_valid` -/
  resultsValid : Bool
  /-- `self.transform.T`, `self.transform.inv_T` -/
  transform : Option (Mats n)
  /-- `self.i` -/
  i : Option ℕ
  /-- `self.u` -/
  u : Option (Fin n → ℝ)
  /-- `self.J` -/
  J : Option (Matrix (Fin n) (Fin n) ℝ)
  /-- `self.G` -/
  G : Option ℝ
  /-- `self.Go` -/
  Go : Option ℝ
  /-- `self.gradient` -/
  gradient : Option (Fin n → ℝ)
  /-- `self.alpha` -/
  alpha : Option (Fin n → ℝ)
  /-- `self.d` -/
  d : Option (Fin n → ℝ)
  /-- `self.step` -/
  step : Option ℝ
  /-- `self.beta` -/
  beta : Option ℝ
  /-- `self.Pf` -/
  Pf : Option ℝ

/-- `Form(...)` (form.py 39–58). -/
def fresh : Obj n := ⟨false, none, none, none, none, none, none, none, none, none, none, none, none⟩

/-- How a piece of a run ends. -/
inductive Ending where
  /-- the loop goes on -/
  | again
  /-- the run is complete -/
  | finished
  /-- an exception -/
  | raised (e : PyErr)
  /-- a zero gradient -/
  | nan

/-- `if i == 1: self.Go = self.G` (form.py 93–97). -/
def setScale (i : ℕ) (G : ℝ) (o : Obj n) : Obj n := if i = 1 then { o with Go := some G } else o

open Classical in
/-- One pass of the loop, and the end of the run after the last one (form.py 79–143). -/
noncomputable def pass (t : Mats n) (marg : Fin n → Marginal) (ev : Evaluator σ n) (opt : Options) (i : ℕ) (o : Obj n) (s : σ) :
    Obj n × σ × Ending :=
  let u := o.u.getD 0
  let x := uToX t marg u                                        -- computeTransformation
  match npInv (jacobian t marg u x) with                        -- computeJacobian
  | .error e => (o, s, .raised e)
  | .ok J =>
    let o := { o with J := some J }
    match ev.withGrad s x with                                  -- computeLimitState
    | (s, .error e) => (o, s, .raised e)
    | (s, .ok (G, grad, _)) =>
      let gradient := vecMul grad J
      let o := { o with G := some G, gradient := some gradient }
      let o := setScale i G o
      if gradient = 0 then (o, s, .nan)
      else
        let al := Form.alpha gradient                           -- computeAlpha
        let o := { o with alpha := some al }
        if (cond1 opt G (o.Go.getD 0) && cond2 opt u al) || decide (i = opt.iMax) then
          let o := { o with i := some i }
          let beta := al ⬝ᵥ u
          let o := { o with beta := some beta }                 -- computeBeta (form.py 264–266)
          ({ o with Pf := some (StdNormal.cdf (-beta)) }, s, .finished)   -- computeFailureProbability (form.py 268–270)
        else
          let d := direction G gradient al u                    -- computeSearchDirection
          let o := { o with d := some d }
          match Form.getStepSize t marg ev opt G gradient u d s with      -- getStepSize
          | (s, .error e) => (o, s, .raised e)
          | (s, .ok step) => ({ o with step := some step, u := some (fun k => u k + step * d k) }, s, .again)

/-- The loop with counter `i` (form.py 79–133), at most `fuel` passes; `none` if it is still running. -/
noncomputable def loop (t : Mats n) (marg : Fin n → Marginal) (ev : Evaluator σ n) (opt : Options) :
    ℕ → ℕ → Obj n → σ → Option (Obj n × σ × Ending)
  | 0, _, _, _ => none
  | fuel + 1, i, o, s =>
    match pass t marg ev opt i o s with
    | (o, s, .again) => loop t marg ev opt fuel (i + 1) o s
    | r => some r

/-- `run()` (form.py 60–143): `results_valid` is set first, then `init_run` (which may raise), the starting point, the loop.
Printing is not modelled here. -/
noncomputable def run (c : Session.Setup) (opt : Options) (o : Obj n) (ev : Ev Marginal) :
    Option (Obj n × Ev Marginal × Ending) :=
  let o := { o with resultsValid := true }
  match Session.initRun c n ev with
  | (ev, .error e) => some (o, ev, .raised e)
  | (ev, .ok t) =>
    let marg := Session.margN n c.default ev.model
    let o := { o with transform := some t }
    let o := { o with u := some (startingPoint t marg) }        -- computeStartingPoint
    loop t marg (Session.evaluator c n ev.model) opt c.fuel 1 o ev

/-- `getBeta` (form.py 330–336): `None` cannot be indexed. -/
def getBeta (o : Obj n) : Except PyErr ℝ :=
  match o.beta with
  | none => .error .typeError
  | some b => .ok b

/-- `getFailure` (form.py 338–344). -/
def getFailure (o : Obj n) : Option ℝ := o.Pf

/-- `getDesignPoint()` (form.py 346–355). -/
def getDesignPoint (o : Obj n) : Option (Fin n → ℝ) := o.u

/-- `getDesignPoint(uspace=False)` (form.py 346–355) for the marginals the model has now; a marginal more than at the run is
an `IndexError`. -/
noncomputable def getDesignPointX (marg : List Marginal) (o : Obj n) : Except PyErr (List ℝ) :=
  match o.transform with
  | none => .error .typeError
  | some t =>
    match o.u with
    | none => .error .typeError
    | some u =>
      if marg.length ≤ n then
        .ok (List.zipWith (fun (m : Marginal) z => m.uToX z) marg (List.ofFn (t.invT.mulVec u)))
      else .error .indexError

/-- `getAlpha()` (form.py 357–368). -/
def getAlpha (o : Obj n) : Except PyErr (Fin n → ℝ) :=
  match o.alpha with
  | none => .error .typeError
  | some a => .ok a

/-- What `showResults` prints: iterations, `beta`, `Pf`, number of calls. -/
structure Summary where
  /-- number of iterations -/
  i : Option ℕ
  /-- reliability index -/
  beta : ℝ
  /-- failure probability -/
  Pf : ℝ
  /-- number of calls to the limit-state function -/
  calls : ℕ

/-- `showResults` (form.py 272–291; `getNoFunctionCalls`, form.py 370–378). -/
def showResults {D V : Type} (m : StochModel D V) (o : Obj n) : Except PyErr Summary :=
  if !o.resultsValid then .error .valueError
  else
    match o.beta with
    | none => .error .typeError
    | some b =>
      match o.Pf with
      | none => .error .typeError
      | some p => .ok ⟨o.i, b, p, m.getCallFunction⟩

/-- What `showDetailedOutput` prints. -/
structure Detailed where
  /-- `Pf` -/
  Pf : ℝ
  /-- `BetaHL` -/
  beta : ℝ
  /-- `Model Evaluations` -/
  calls : ℕ
  /-- the lines `Variable U_star X_star alpha` -/
  rows : List (String × ℝ × ℝ × ℝ)
  /-- the lines of the constants -/
  consts : List (String × ℝ)

/-- The loop `for i, name in enumerate(names)` over the table's lines (form.py 319–324), from index `i`. -/
def tableRows (u : Fin n → ℝ) (x : List ℝ) (al : Fin n → ℝ) : List String → ℕ → Except PyErr (List (String × ℝ × ℝ × ℝ))
  | [], _ => .ok []
  | name :: names, i =>
    if h : i < n then
      match x[i]? with
      | none => .error .indexError
      | some xi =>
        match tableRows u x al names (i + 1) with
        | .error e => .error e
        | .ok rows => .ok ((name, u ⟨i, h⟩, xi, al ⟨i, h⟩) :: rows)
    else .error .indexError

/-- `showDetailedOutput` (form.py 293–328).  (What is printed before an exception is not recorded.) -/
noncomputable def showDetailedOutput (m : StochModel Marginal ℝ) (o : Obj n) : Except PyErr Detailed :=
  if !o.resultsValid then .error .valueError
  else
    match getDesignPointX (m.getMarginalDistributions.map DistObj.body) o with
    | .error e => .error e
    | .ok x =>
      match getAlpha o with
      | .error e => .error e
      | .ok al =>
        match showResults m o with
        | .error e => .error e
        | .ok sum =>
          match tableRows (o.u.getD 0) x al m.getVariables.keys 0 with
          | .error e => .error e
          | .ok rows => .ok ⟨sum.Pf, sum.beta, sum.calls, rows, m.getConstants⟩

/-- What happens to a `Form` object and its model: a run with the settings of that moment, or anything that changes the model
(which keeps its `n` random variables) in between. -/
inductive Event where
  /-- `run()` -/
  | run (c : Session.Setup) (opt : Form.Options)
  /-- anything else that changes the model -/
  | world (f : Ev Marginal → Ev Marginal)

/-- A history of one object; an exception does not end it.  `none` when a run does not end or meets a zero gradient. -/
noncomputable def history : List Event → Obj n → Ev Marginal → Option (Obj n × Ev Marginal)
  | [], o, ev => some (o, ev)
  | .world f :: h, o, ev => history h o (f ev)
  | .run c opt :: h, o, ev =>
    match run c opt o ev with
    | some (o, ev, .finished) => history h o ev
    | some (o, ev, .raised _) => history h o ev
    | _ => none

end Pystra.FormObj
