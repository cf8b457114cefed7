import Verif.Model.MonteCarlo
import Verif.Model.Subset
import Verif.Model.LineSampling
import Verif.Model.Sorm

/-!
A session: one stochastic model object with at least one random variable, analysed any number of times.  Every analysis
object shares that model (analysis.py 49–54 stores a reference); an analysis reads it, stores the modified correlation
matrix on it (`init_run`) and counts its limit-state evaluations on it.

The draws of an analysis are the stream given with it.  Printing is not modelled, except for the option that importance
sampling changes.
-/

namespace Pystra

/-- A simulation state without the evaluator's state. -/
def MonteCarlo.State.forget {σ : Type} {n : ℕ} (st : MonteCarlo.State σ n) : MonteCarlo.State Unit n :=
  ⟨st.k, st.pos, st.sumQ, st.sumQ2, st.qBar, st.covQBar, st.uAll, st.xAll, st.allG, st.betaAll, ()⟩

/-- A simulation result without the evaluator's state. -/
def MonteCarlo.Result.forget {σ : Type} {n : ℕ} (r : MonteCarlo.Result σ n) : MonteCarlo.Result Unit n :=
  ⟨r.st.forget, r.Pf, r.beta⟩

/-- A subset-simulation result without the evaluator's state. -/
def Subset.Result.forget {σ : Type} {n : ℕ} (r : Subset.Result σ n) : Subset.Result Unit n :=
  ⟨r.thresholds, r.probs, r.nLevels, r.Pf, r.beta, r.cov, r.samples, ()⟩

namespace Session
open Transformation Form

/-- What stays the same during a session: the library's numerical routines, the options of the transformation and of the
limit-state evaluation, the limit-state function. -/
structure Setup where
  /-- `scipy.optimize.fmin` -/
  fmin : Correlation.Fmin
  /-- value of out-of-range marginals (never read) -/
  default : Marginal
  /-- `np.linalg` -/
  la : LinAlg
  /-- `np.linalg.eig` -/
  eig : (k : ℕ) → Matrix (Fin k) (Fin k) ℝ → List ℝ
  /-- `options.transform_type` -/
  ty : TransformType
  /-- the limit-state expression -/
  expr : Kwargs → GRet
  /-- the options of the limit-state evaluation -/
  lsopt : LSOptions
  /-- bound on the number of passes of the outer loops; an analysis that needs more is reported as still running -/
  fuel : ℕ

/-- `model.getMarginalDistributions()` for a model with `n` marginals. -/
def margN (n : ℕ) (d : Marginal) (m : StochModel Marginal ℝ) : Fin n → Marginal :=
  fun i => (m.marg.map DistObj.body).getD i.val d

/-- `AnalysisObject.init_run` (analysis.py 74–99) on a model with `n` marginals: the modified correlation matrix is computed
and stored, then the transformation.  (A correlation matrix of another size is reported as `ValueError`.) -/
noncomputable def initRun (c : Setup) (n : ℕ) (ev : Ev Marginal) : Ev Marginal × Except PyErr (Mats n) :=
  match Correlation.setModified c.fmin c.default ev.model with
  | (_, .error e) => (ev, .error e)
  | (m, .ok ()) =>
    match m.Ro with
    | none => (ev, .error .valueError)
    | some Ro =>
      if h : Ro.nrow = n ∧ Ro.ncol = n then
        ({ ev with model := m }, Transformation.compute c.la c.ty
          (fun a b => Ro.val (Fin.cast h.1.symm a) (Fin.cast h.2.symm b)))
      else ({ ev with model := m }, .error .valueError)

/-- The limit-state evaluation of an analysis: `evaluate_lsf` with the marginals' standard deviations. -/
noncomputable def evaluator (c : Setup) (n : ℕ) (m : StochModel Marginal ℝ) : Evaluator (Ev Marginal) n :=
  lsEvaluator c.expr c.lsopt (fun i => (margN n c.default m i).stdv)

/-- The result of an analysis, as kept on its object. -/
inductive Out (n : ℕ) where
  /-- an exception -/
  | raised (e : PyErr)
  /-- FORM met a zero gradient: everything is NaN from there on -/
  | nan
  /-- FORM -/
  | form (r : Form.Result n)
  /-- crude Monte Carlo or importance sampling -/
  | simulation (r : MonteCarlo.Result Unit n)
  /-- distribution analysis: `all_X`, `all_G` -/
  | distribution (allX : List (Fin n → ℝ)) (allG : List ℝ)
  /-- subset simulation -/
  | subset (r : Subset.Result Unit n)
  /-- line sampling -/
  | line (r : LineSampling.Result)
  /-- SORM -/
  | sorm (r : Sorm.SResult)

/-- An analysis of the shared model: its own options and the draws it reads. -/
inductive Job (n : ℕ) where
  /-- `Form(...).run()` -/
  | form (opt : Form.Options)
  /-- `CrudeMonteCarlo(..., point).run()` -/
  | crude (opt : MonteCarlo.Options) (point : Option (Fin n → ℝ)) (ω : ℕ → ℝ)
  /-- `ImportanceSampling(...).run()` -/
  | importance (fopt : Form.Options) (opt : MonteCarlo.Options) (ω : ℕ → ℝ)
  /-- `DistributionAnalysis(...).run()` -/
  | distribution (opt : MonteCarlo.Options) (ω : ℕ → ℝ)
  /-- `SubsetSimulation(...).run()` -/
  | subset (opt : Subset.Options) (ω υ : ℕ → ℝ)
  /-- `LineSampling(...).run()` -/
  | line (fopt : Form.Options) (N : ℕ) (ω : ℕ → ℝ)
  /-- `Sorm(...).run(fit_type)` -/
  | sorm (fopt : Form.Options) (ffdpara : ℝ) (fitType : String)

/-- `init_run`, then the body of an analysis. -/
noncomputable def withInit {β : Type} (c : Setup) (n : ℕ) (ev : Ev Marginal) (fail : Ev Marginal → PyErr → Option β)
    (body : Mats n → Ev Marginal → Option β) : Option β :=
  match initRun c n ev with
  | (ev, .error e) => fail ev e
  | (ev, .ok t) => body t ev

/-- `Form(...).run()` (form.py 60–140): the result, or why there is none. -/
noncomputable def formRun (c : Setup) (n : ℕ) (opt : Form.Options) (ev : Ev Marginal) :
    Option (Ev Marginal × (Form.Result n ⊕ Out n)) :=
  withInit c n ev (fun ev e => some (ev, .inr (.raised e))) fun t ev =>
    match Form.runFrom t (margN n c.default ev.model) (evaluator c n ev.model) opt c.fuel ev with
    | some (.done r ev) => some (ev, .inl r)
    | some (.raised e ev) => some (ev, .inr (.raised e))
    | some (.nan ev) => some (ev, .inr .nan)
    | _ => none

/-- How the outcome of a simulation is reported. -/
def simOut {n : ℕ} (o : Option (Except (PyErr × Ev Marginal) (MonteCarlo.Result (Ev Marginal) n))) :
    Option (Ev Marginal × Out n) :=
  match o with
  | none => none
  | some (.error (e, ev)) => some (ev, .raised e)
  | some (.ok r) => some (r.st.s, .simulation r.forget)

/-- `ImportanceSampling(...)` (mc.py 431–441): FORM is run, and its design point in standard space becomes the centre. -/
noncomputable def importanceNew (c : Setup) (n : ℕ) (fopt : Form.Options) (ev : Ev Marginal) :
    Option (Ev Marginal × ((Fin n → ℝ) ⊕ Out n)) :=
  match formRun c n fopt ev with
  | none => none
  | some (ev, .inr o) => some (ev, .inr o)
  | some (ev, .inl r) => some (ev, .inl r.point.u)

/-- `ImportanceSampling.run()` (mc.py 443–455) on an object whose earlier runs left `old`: `init_run` here and again in
`CrudeMonteCarlo.run`.  The first component is `options.print_output` afterwards: it is switched off for the simulation and
switched back only if nothing raised after that. -/
noncomputable def importanceRun (c : Setup) (n : ℕ) (old : MonteCarlo.Records n) (opt : MonteCarlo.Options)
    (point : Fin n → ℝ) (ω : ℕ → ℝ) (print : Bool) (ev : Ev Marginal) : Option (Bool × Ev Marginal × Out n) :=
  match initRun c n ev with
  | (ev, .error e) => some (print, ev, .raised e)
  | (ev, .ok _) =>
    match initRun c n ev with
    | (ev, .error e) => some (false, ev, .raised e)
    | (ev, .ok t) =>
      match simOut (MonteCarlo.runOn old t (margN n c.default ev.model) (evaluator c n ev.model) opt (some point) ω 0 c.fuel
          ev) with
      | none => none
      | some (ev, .raised e) => some (false, ev, .raised e)
      | some (ev, o) => some (print, ev, o)

/-- An analysis of a model with `m + 1` random variables: constructor and `run` on a fresh analysis object; `none` when it is
still running.  (An analysis that fails in its FORM run with NaN is not followed further.) -/
noncomputable def runJob (c : Setup) {m : ℕ} (job : Job (m + 1)) (ev : Ev Marginal) :
    Option (Ev Marginal × Out (m + 1)) :=
  match job with
  | .form opt =>
    match formRun c (m + 1) opt ev with
    | none => none
    | some (ev, .inl r) => some (ev, .form r)
    | some (ev, .inr o) => some (ev, o)
  | .crude opt point ω =>
    withInit c (m + 1) ev (fun ev e => some (ev, .raised e)) fun t ev =>
      simOut (MonteCarlo.run t (margN (m + 1) c.default ev.model) (evaluator c (m + 1) ev.model) opt point ω 0 c.fuel ev)
  | .importance fopt opt ω =>      -- mc.py 431–455
    match importanceNew c (m + 1) fopt ev with
    | none => none
    | some (ev, .inr o) => some (ev, o)
    | some (ev, .inl u) => (importanceRun c (m + 1) .fresh opt u ω false ev).map Prod.snd
  | .distribution opt ω =>
    withInit c (m + 1) ev (fun ev e => some (ev, .raised e)) fun t ev =>
      match MonteCarlo.dLoop t (margN (m + 1) c.default ev.model) (evaluator c (m + 1) ev.model) opt ω c.fuel
          ⟨0, 0, [], [], ev⟩ with
      | none => none
      | some (.error (e, ev)) => some (ev, .raised e)
      | some (.ok st) => some (st.s, .distribution st.allX st.allG)
  | .subset opt ω υ =>
    withInit c (m + 1) ev (fun ev e => some (ev, .raised e)) fun t ev =>
      match Subset.run t (margN (m + 1) c.default ev.model) (evaluator c (m + 1) ev.model) opt ω υ c.fuel ev with
      | none => none
      | some (.error (e, ev)) => some (ev, .raised e)
      | some (.ok r) => some (r.s, .subset r.forget)
  | .line fopt N ω =>              -- ls.py 82–141: `init_run`, then FORM (which calls `init_run` on its own object)
    withInit c (m + 1) ev (fun ev e => some (ev, .raised e)) fun t ev =>
      match formRun c (m + 1) fopt ev with
      | none => none
      | some (ev, .inr o) => some (ev, o)
      | some (ev, .inl r) =>
        let res := LineSampling.sample t (margN (m + 1) c.default ev.model) (evaluator c (m + 1) ev.model) r.alpha r.beta N ω 0
          ev
        some (res.1, .line res.2)
  | .sorm fopt ffdpara fitType =>  -- sorm.py 68–128: FORM in the constructor, `init_run` in `run`
    match formRun c (m + 1) fopt ev with
    | none => none
    | some (ev, .inr o) => some (ev, o)
    | some (ev, .inl r) =>
      withInit c (m + 1) ev (fun ev e => some (ev, .raised e)) fun t ev =>
        match Sorm.run (c.eig m) t (margN (m + 1) c.default ev.model) (evaluator c (m + 1) ev.model) r ffdpara false fitType
            ev with
        | (ev, .error e) => some (ev, .raised e)
        | (ev, .ok r) => some (ev, .sorm r)

/-- Several analyses one after the other on the same model object; an exception does not end the session (the user catches
it).  `none` when one of them is still running. -/
noncomputable def session (c : Setup) {m : ℕ} : List (Job (m + 1)) → Ev Marginal → Option (Ev Marginal × List (Out (m + 1)))
  | [], ev => some (ev, [])
  | job :: jobs, ev =>
    match runJob c job ev with
    | none => none
    | some (ev, o) =>
      match session c jobs ev with
      | none => none
      | some (ev, os) => some (ev, o :: os)

end Session
end Pystra
