import Verif.Model.Session

/-!
Model of `class AnalysisOptions` (src/pystra/analysis.py 103–336): an object with attributes, getters and setters; what each analysis
class reads from it; and options objects shared between analyses (analysis.py 48–71).

An attribute may be given any value.  Not modelled: assigning to the name of a method (which would shadow it), and arithmetic with
values of a type the code does not expect.
-/

namespace Pystra.Opts
open Transformation Form

/-- A Python value. -/
inductive PyVal where
  /-- `None` -/
  | none
  /-- `True`, `False` -/
  | bool (b : Bool)
  /-- an integer -/
  | int (z : ℤ)
  /-- a float -/
  | float (r : ℝ)
  /-- a string -/
  | str (s : String)

/-- An options object: its attributes (`__dict__`). -/
abbrev Obj := Dict String PyVal

/-- `AnalysisOptions()` (analysis.py 111–244). -/
noncomputable def new : Obj :=
  [("transf_type", .int 3), ("Ro_method", .int 1), ("flag_sens", .bool true), ("print_output", .bool false), ("multi_proc", .int 1),
   ("block_size", .int 1000), ("i_max", .int 100), ("e1", .float 0.001), ("e2", .float 0.001), ("step_size", .int 0),
   ("Recorded_u", .bool true), ("Recorded_x", .bool true), ("diff_mode", .str "ffd"), ("ffdpara", .int 1000),
   ("ffdpara_thetag", .int 1000), ("samples", .int 100000), ("random_generator", .int 0), ("sim_point", .str "origin"),
   ("stdv_sim", .int 1), ("target_cov", .float 0.05), ("bins", .none), ("transform_type", .none)]

/-- `options.name`. -/
def attr (o : Obj) (name : String) : Except PyErr PyVal :=
  match o.get? name with
  | some v => .ok v
  | none => .error .attributeError

/-- `del options.name`. -/
def delete (o : Obj) (name : String) : Except PyErr Obj :=
  match o.get? name with
  | some _ => .ok (o.filter (fun p : String × PyVal => p.1 ≠ name))
  | none => .error .attributeError

/-- The getters (analysis.py 247–296), by name: `options.getX()`. -/
def callGetter (o : Obj) : String → Except PyErr PyVal
  | "getPrintOutput" => attr o "print_output"
  | "getFlagSens" => attr o "flag_sens"
  | "getMultiProc" => attr o "multi_proc"
  | "getBlockSize" => attr o "block_size"
  | "getImax" => attr o "i_max"
  | "getE1" => attr o "e1"
  | "getE2" => attr o "e2"
  | "getStepSize" => attr o "step_size"
  | "getDiffMode" => attr o "diff_mode"
  | "getffdpara" => attr o "ffdpara"
  | "getSamples" => attr o "samples"
  | "getRandomGenerator" => attr o "random_generator"
  | "getSimulationPoint" => attr o "sim_point"
  | "getSimulationStdv" => attr o "stdv_sim"
  | "getSimulationCov" => attr o "target_cov"
  | "getTransform" => attr o "transform_type"
  | _ => .error .attributeError

/-- The setters (analysis.py 299–336), by name: `options.setX(v)`. -/
def callSetter (o : Obj) (method : String) (v : PyVal) : Except PyErr Obj :=
  match method with
  | "setPrintOutput" => .ok (o.set "print_output" v)
  | "setMultiProc" => .ok (o.set "multi_proc" v)
  | "setBlockSize" => .ok (o.set "block_size" v)
  | "setImax" => .ok (o.set "i_max" v)
  | "setE1" => .ok (o.set "e1" v)
  | "setE2" => .ok (o.set "e2" v)
  | "setStepSize" => .ok (o.set "step_size" v)
  | "setDiffMode" => .ok (o.set "diff_mode" v)
  | "setffdpara" => .ok (o.set "ffdpara" v)
  | "setBins" => .ok (o.set "bins" v)
  | "setSamples" => .ok (o.set "samples" v)
  | "setTransform" => .ok (o.set "transform_type" v)
  | _ => .error .attributeError

/-- What may be done to an options object. -/
inductive Action where
  /-- `options.name = v` -/
  | assign (name : String) (v : PyVal)
  /-- `options.method(v)` -/
  | call (method : String) (v : PyVal)
  /-- `del options.name` -/
  | del (name : String)

/-- One action; one that raises leaves the object as it is. -/
def act (o : Obj) : Action → Obj
  | .assign name v => o.set name v
  | .call m v => match callSetter o m v with | .ok o' => o' | .error _ => o
  | .del name => match delete o name with | .ok o' => o' | .error _ => o

/-- A history of one options object. -/
def history (o : Obj) (h : List Action) : Obj := h.foldl act o

/-! ### What the analyses read -/

/-- The value as a natural number (`True` and `False` are 1 and 0). -/
def asNat : PyVal → Option ℕ
  | .int z => if 0 ≤ z then some z.toNat else none
  | .bool b => some (if b then 1 else 0)
  | _ => none

/-- The value as a real number. -/
noncomputable def asReal : PyVal → Option ℝ
  | .int z => some z
  | .float r => some r
  | .bool b => some (if b then 1 else 0)
  | _ => none

/-- The value as a differentiation mode: it is only compared with `"no"` and `"ddm"` (model.py 243–257), which a value that is not
a string never equals. -/
def asMode : PyVal → String
  | .str s => s
  | _ => ""

/-- The value as a transformation type: `None`, or compared with the two names (transformation.py 32–47). -/
def asTransform : PyVal → Option String
  | .none => none
  | .str s => some s
  | _ => some ""

/-- A value read by a getter, converted. -/
def readAs {α : Type} (conv : PyVal → Option α) (r : Except PyErr PyVal) : Option α :=
  match r with
  | .ok v => conv v
  | .error _ => none

/-- What `Form` reads (form.py 108–110, 192–200, 232–234). -/
noncomputable def readForm (o : Obj) : Option Form.Options := do
  let iMax ← readAs asNat (callGetter o "getImax")
  let e1 ← readAs asReal (callGetter o "getE1")
  let e2 ← readAs asReal (callGetter o "getE2")
  let stepSize ← readAs asReal (callGetter o "getStepSize")
  let multiProc ← readAs asNat (callGetter o "getMultiProc")
  pure ⟨iMax, e1, e2, stepSize, multiProc⟩

/-- What the evaluation of the limit state reads (model.py 244–248, 265, 286–288). -/
noncomputable def readLsf (o : Obj) : Option LSOptions := do
  let diffMode ← readAs (fun v => some (asMode v)) (callGetter o "getDiffMode")
  let multiProc ← readAs asNat (callGetter o "getMultiProc")
  let blockSize ← readAs asNat (callGetter o "getBlockSize")
  let ffdpara ← readAs asReal (callGetter o "getffdpara")
  pure ⟨diffMode, multiProc, blockSize, ffdpara⟩

/-- What the Monte Carlo classes read (mc.py 85–89, 272–274, 331, 346–347). -/
noncomputable def readMc (o : Obj) : Option MonteCarlo.Options := do
  let samples ← readAs asNat (callGetter o "getSamples")
  let blockSize ← readAs asNat (callGetter o "getBlockSize")
  let stdv ← readAs asReal (callGetter o "getSimulationStdv")
  let cov ← readAs asReal (callGetter o "getSimulationCov")
  let randomGenerator ← readAs asNat (callGetter o "getRandomGenerator")
  pure ⟨samples, blockSize, stdv, cov, randomGenerator⟩

/-- `Transformation(transform_type=self.options.getTransform())` (analysis.py 68–69). -/
def readTransform (o : Obj) : Except PyErr TransformType :=
  match callGetter o "getTransform" with
  | .ok v => Transformation.new (asTransform v)
  | .error e => .error e

/-- The numbers that a run of an analysis reads from its options object. -/
structure Settings where
  /-- FORM -/
  form : Form.Options
  /-- limit state -/
  lsf : LSOptions
  /-- simulation -/
  mc : MonteCarlo.Options

/-- All of them; `none` when one of them has a type the code does not expect, or has been deleted. -/
noncomputable def settings (o : Obj) : Option Settings := do
  let f ← readForm o
  let l ← readLsf o
  let m ← readMc o
  pure ⟨f, l, m⟩

/-- The analysis classes, with the constructor arguments that are not options. -/
inductive Cls (n : ℕ) where
  /-- `Form` -/
  | form
  /-- `CrudeMonteCarlo(..., point)` -/
  | crude (point : Option (Fin n → ℝ))
  /-- `ImportanceSampling` -/
  | importance
  /-- `DistributionAnalysis` -/
  | distribution
  /-- `SubsetSimulation(..., p0, sigma)` (the two parameters of ss.py 66–90) -/
  | subset (p0 sigma : ℝ)
  /-- `LineSampling` -/
  | line
  /-- `Sorm`, with the `fit_type` of `run` -/
  | sorm (fitType : String)

/-- The analysis as a job of a session: which of the settings it is given.  Sorm reads the attribute `ffdpara` (sorm.py 478). -/
def job {n : ℕ} (s : Settings) (ω υ : ℕ → ℝ) : Cls n → Session.Job n
  | .form => .form s.form
  | .crude point => .crude s.mc point ω
  | .importance => .importance s.form s.mc ω
  | .distribution => .distribution s.mc ω
  | .subset p0 sigma => .subset ⟨s.mc.samples, s.mc.blockSize, p0, sigma⟩ ω υ     -- ss.py 98, 192
  | .line => .line s.form s.mc.samples ω                                           -- ls.py 94, 104
  | .sorm fit => .sorm s.form s.lsf.ffdpara fit                                    -- sorm.py 84, 478

/-- Constructor and `run` of an analysis with the given options: the outcome of the run.  `env` gives the limit state and the numerical
routines; its transformation and limit-state options are replaced by those of the object. -/
noncomputable def analyse (env : Session.Setup) {m : ℕ} (ty : TransformType) (s : Settings) (ω υ : ℕ → ℝ) (cls : Cls (m + 1))
    (ev : Ev Marginal) : Option (Ev Marginal × Session.Out (m + 1)) :=
  Session.runJob { env with ty := ty, lsopt := s.lsf } (job s ω υ cls) ev

/-! ### Shared options -/

/-- An analysis object: the number of its options object and its transformation (analysis.py 61–69). -/
structure Analysis where
  /-- `self.options`, a reference -/
  opts : ℕ
  /-- `self.transform.transform_type` -/
  ty : TransformType

/-- The options objects and the analysis objects, each in the order of creation. -/
structure World where
  /-- options objects -/
  objs : List Obj
  /-- analysis objects -/
  analyses : List Analysis

/-- What a user does. -/
inductive Event where
  /-- `AnalysisOptions()` -/
  | newOptions
  /-- an action on the options object with that number -/
  | on (i : ℕ) (a : Action)
  /-- an analysis with the options object of that number, or with none given -/
  | newAnalysis (opts : Option ℕ)

/-- One event (analysis.py 48–71): an analysis without options makes its own; one whose `transform_type` is not known raises and is not
created. -/
noncomputable def step (w : World) : Event → World
  | .newOptions => { w with objs := w.objs ++ [new] }
  | .on i a => { w with objs := w.objs.modify i (fun o => act o a) }
  | .newAnalysis none =>
    match readTransform new with
    | .ok ty => ⟨w.objs ++ [new], w.analyses ++ [⟨w.objs.length, ty⟩]⟩
    | .error _ => w
  | .newAnalysis (some i) =>
    match w.objs[i]? with
    | none => w
    | some o =>
      match readTransform o with
      | .ok ty => { w with analyses := w.analyses ++ [⟨i, ty⟩] }
      | .error _ => w

/-- A history. -/
noncomputable def runWorld (w : World) (h : List Event) : World := h.foldl step w

/-- What the next run of an analysis reads. -/
noncomputable def settingsOf (w : World) (a : Analysis) : Option Settings := (w.objs[a.opts]?).bind settings

end Pystra.Opts
