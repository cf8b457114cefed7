import Verif.Model.Options

/-!
What an options object and the analyses are documented to do, for C84: a table, and the value last given to an option.
-/

namespace Pystra.Spec
open Opts

/-- One line of the documentation of `AnalysisOptions`. -/
structure OptionRow where
  /-- name of the attribute -/
  name : String
  /-- value of a fresh object -/
  default : PyVal
  /-- its getter, if there is one -/
  getter : Option String
  /-- its setter, if there is one -/
  setter : Option String

/-- The documented options. -/
noncomputable def optionTable : List OptionRow :=
  [⟨"transf_type", .int 3, none, none⟩,
   ⟨"Ro_method", .int 1, none, none⟩,
   ⟨"flag_sens", .bool true, some "getFlagSens", none⟩,
   ⟨"print_output", .bool false, some "getPrintOutput", some "setPrintOutput"⟩,
   ⟨"multi_proc", .int 1, some "getMultiProc", some "setMultiProc"⟩,
   ⟨"block_size", .int 1000, some "getBlockSize", some "setBlockSize"⟩,
   ⟨"i_max", .int 100, some "getImax", some "setImax"⟩,
   ⟨"e1", .float 0.001, some "getE1", some "setE1"⟩,
   ⟨"e2", .float 0.001, some "getE2", some "setE2"⟩,
   ⟨"step_size", .int 0, some "getStepSize", some "setStepSize"⟩,
   ⟨"Recorded_u", .bool true, none, none⟩,
   ⟨"Recorded_x", .bool true, none, none⟩,
   ⟨"diff_mode", .str "ffd", some "getDiffMode", some "setDiffMode"⟩,
   ⟨"ffdpara", .int 1000, some "getffdpara", some "setffdpara"⟩,
   ⟨"ffdpara_thetag", .int 1000, none, none⟩,
   ⟨"samples", .int 100000, some "getSamples", some "setSamples"⟩,
   ⟨"random_generator", .int 0, some "getRandomGenerator", none⟩,
   ⟨"sim_point", .str "origin", some "getSimulationPoint", none⟩,
   ⟨"stdv_sim", .int 1, some "getSimulationStdv", none⟩,
   ⟨"target_cov", .float 0.05, some "getSimulationCov", none⟩,
   ⟨"bins", .none, none, some "setBins"⟩,
   ⟨"transform_type", .none, some "getTransform", some "setTransform"⟩]

/-- What an action does to the option `name`: `none` nothing, `some none` it is deleted, `some (some v)` it becomes `v`. -/
noncomputable def effect (name : String) : Action → Option (Option PyVal)
  | .assign a v => if a = name then some (some v) else none
  | .del a => if a = name then some none else none
  | .call m v => if (name, some m) ∈ optionTable.map (fun r => (r.name, r.setter)) then some (some v) else none

/-- The value of the option `name` after a history: what the last action on it did, or `before` if there was none.  `none`: there is
no such attribute. -/
noncomputable def lastValue (before : Option PyVal) (name : String) (h : List Action) : Option PyVal :=
  ((h.reverse.findSome? (effect name))).getD before

/-- The number a Python value is: an integer or float is itself, `True` is 1 and `False` is 0. -/
inductive IsNumber : PyVal → ℝ → Prop
  | int (z : ℤ) : IsNumber (.int z) z
  | float (r : ℝ) : IsNumber (.float r) r
  | yes : IsNumber (.bool true) 1
  | no : IsNumber (.bool false) 0

/-- The count a Python value is: a nonnegative integer, or a truth value. -/
inductive IsCount : PyVal → ℕ → Prop
  | int (k : ℕ) : IsCount (.int k) k
  | yes : IsCount (.bool true) 1
  | no : IsCount (.bool false) 0

/-- The differentiation mode a Python value selects: the string itself; a value that is not a string is neither of the two names the
code compares with. -/
def Selects (v : PyVal) (mode : String) : Prop :=
  (∀ t, v = .str t → mode = t) ∧ ((∀ t, v ≠ .str t) → mode ≠ "no" ∧ mode ≠ "ddm")

/-- The options an analysis class is documented to use, other than `transform_type` and `print_output`. -/
def used {n : ℕ} : Cls n → List String
  | .form => ["i_max", "e1", "e2", "step_size", "multi_proc", "block_size", "diff_mode", "ffdpara"]
  | .sorm _ => ["i_max", "e1", "e2", "step_size", "multi_proc", "block_size", "diff_mode", "ffdpara"]
  | .crude _ => ["samples", "block_size", "stdv_sim", "target_cov", "random_generator", "multi_proc"]
  | .distribution => ["samples", "block_size", "stdv_sim", "random_generator", "multi_proc"]
  | .subset _ _ => ["samples", "block_size", "multi_proc"]
  | .importance => ["i_max", "e1", "e2", "step_size", "multi_proc", "block_size", "diff_mode", "ffdpara",
      "samples", "stdv_sim", "target_cov", "random_generator"]
  | .line => ["i_max", "e1", "e2", "step_size", "multi_proc", "block_size", "diff_mode", "ffdpara", "samples"]

/-- The actions of a history of the whole session that are on the options object `i`. -/
def actionsOn (i : ℕ) (h : List Event) : List Action :=
  h.filterMap (fun e => match e with | .on j a => if j = i then some a else none | _ => none)

end Pystra.Spec
