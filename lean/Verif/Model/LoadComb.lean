import Verif.Model.Stochastic

/-!
Model of `class LoadCombination` (src/pystra/loadcomb.py).

Distribution objects are shared, never changed, so they are values here.  A user's limit-state function with named parameters sees its
arguments by name; the order in which Python builds `kwargs` is not observable and not modelled.
-/

namespace Pystra

/-- A pandas `DataFrame` of numbers with unique labels: a cell is found by its labels; `none` is NaN. -/
structure Frame where
  /-- `df.index` -/
  index : List String
  /-- `df.columns` -/
  columns : List String
  /-- the cells; only those whose labels are listed exist -/
  cell : String → String → Option ℝ

namespace Frame

/-- The cell with the given labels, `none` when a label does not exist. -/
def get (f : Frame) (r c : String) : Option ℝ := if r ∈ f.index ∧ c ∈ f.columns then f.cell r c else none

/-- `df.reindex(columns=cols, index=rows)`: a label that does not exist gives NaN. -/
def reindex (f : Frame) (rows cols : List String) : Frame := ⟨rows, cols, f.get⟩

/-- `df.values` as an array of numbers, when no cell is NaN. -/
def values? (f : Frame) : Option NDArray2 :=
  if ∀ r ∈ f.index, ∀ c ∈ f.columns, (f.get r c).isSome then
    some ⟨f.index.length, f.columns.length, fun i j => (f.get f.index[i] f.columns[j]).getD 0⟩
  else none

end Frame

/-- `{xx.name: xx for xx in l}` (loadcomb.py 93, 97, 110). -/
def byName {A : Type} (name : A → String) (l : List A) : Dict String A := l.foldl (fun d x => d.set (name x) x) []

/-- `d.update(e)`. -/
def Dict.updateAll {V : Type} (d e : Dict String V) : Dict String V := e.foldl (fun d p => d.set p.1 p.2) d

/-- A `Constant` object (distributions/distribution.py 71–97). -/
structure ConstObj where
  /-- its name -/
  name : String
  /-- `getValue()` -/
  val : ℝ

/-- A combination variable's entry of `dict_dist_comb`: what is stored under `"max"` and `"pit"`, if anything. -/
structure MaxPit (D : Type) where
  /-- `["max"]` -/
  max : Option (DistObj D)
  /-- `["pit"]` -/
  pit : Option (DistObj D)

/-- The attributes of a `LoadCombination` object (loadcomb.py 83–126); `D` is what distributions consist of. -/
structure LoadComb (D : Type) where
  /-- `self.distributions_max` -/
  distMax : Dict String (DistObj D)
  /-- `self.distributions_pit` -/
  distPit : Dict String (DistObj D)
  /-- `self.distributions_other` -/
  distOther : Option (Dict String (DistObj D))
  /-- `self.distributions_resistance` -/
  distResist : Dict String (DistObj D)
  /-- `self.dict_comb_cases` -/
  combCases : Dict String (List String)
  /-- `self.num_comb`, `get_num_comb()` (loadcomb.py 190–200) -/
  numComb : ℕ
  /-- `self.dict_dist_comb`, `get_dict_dist_comb()` (loadcomb.py 202–212) -/
  dictDistComb : Dict String (Dict String (DistObj D))
  /-- `self.df_corr` -/
  dfCorr : Option Frame
  /-- `self.constant` -/
  constant : Option (Dict String ConstObj)
  /-- `self.label_comb_cases` -/
  labelCombCases : List String
  /-- `self.label_comb_vrs` -/
  labelCombVrs : List String
  /-- `self.label_resist` -/
  labelResist : List String
  /-- `self.label_other` -/
  labelOther : List String
  /-- `self.label_const` -/
  labelConst : Option (List String)
  /-- `self.label_all` -/
  labelAll : List String

namespace LoadComb

variable {D : Type}

/-- `{xx: dict_dist_comb[xx][which] for xx in dict_dist_comb}` (loadcomb.py 84–89). -/
def pick (which : MaxPit D → Option (DistObj D)) : Dict String (MaxPit D) → Except PyErr (Dict String (DistObj D))
  | [] => .ok []
  | (k, e) :: t =>
    match which e with
    | none => .error .keyError
    | some d =>
      match pick which t with
      | .error e => .error e
      | .ok r => .ok ((k, d) :: r)

/-- The inner loop over the combination variables (loadcomb.py 233–237). -/
def combLoop (loadc : List String) (distPit : Dict String (DistObj D)) : Dict String (DistObj D) → Dict String (DistObj D) →
    Except PyErr (Dict String (DistObj D))
  | [], acc => .ok acc
  | (key, value) :: t, acc =>
    if key ∈ loadc then combLoop loadc distPit t (acc.set key value)
    else
      match distPit.get? key with
      | none => .error .keyError
      | some d => combLoop loadc distPit t (acc.set key d)

/-- The resistances and static variables of a case (loadcomb.py 228–232). -/
def baseDists (resist : Dict String (DistObj D)) (other : Option (Dict String (DistObj D))) : Dict String (DistObj D) :=
  match other with
  | none => Dict.updateAll [] resist
  | some o => Dict.updateAll (Dict.updateAll [] resist) o

/-- The body of the loop over the cases (loadcomb.py 226–238). -/
def caseDists (resist : Dict String (DistObj D)) (other : Option (Dict String (DistObj D))) (distMax distPit : Dict String (DistObj D))
    (loadc : List String) : Except PyErr (Dict String (DistObj D)) :=
  combLoop loadc distPit distMax (baseDists resist other)

/-- `_create_dict_dist_comb` (loadcomb.py 214–239). -/
def createDictDistComb (resist : Dict String (DistObj D)) (other : Option (Dict String (DistObj D)))
    (distMax distPit : Dict String (DistObj D)) : Dict String (List String) → Dict String (Dict String (DistObj D)) →
    Except PyErr (Dict String (Dict String (DistObj D)))
  | [], acc => .ok acc
  | (name, loadc) :: t, acc =>
    match caseDists resist other distMax distPit loadc with
    | .error e => .error e
    | .ok d => createDictDistComb resist other distMax distPit t (acc.set name d)

/-- `LoadCombination(lsf, dict_dist_comb, list_dist_resist, list_dist_other, corr, list_const, opt, dict_comb_cases)`
(loadcomb.py 40–128) with `_check_input` (loadcomb.py 130–151) and `_set_num_comb` (loadcomb.py 172–188).  `None` cases are iterated
over in line 100: a `TypeError`, so that the default of lines 183–184 is never used. -/
def new (dictDistComb : Dict String (MaxPit D)) (listResist : List (DistObj D)) (listOther : Option (List (DistObj D)))
    (corr : Option Frame) (listConst : Option (List ConstObj)) (cases : Option (Dict String (List String))) :
    Except PyErr (LoadComb D) :=
  match pick MaxPit.max dictDistComb with
  | .error e => .error e
  | .ok distMax =>
  match pick MaxPit.pit dictDistComb with
  | .error e => .error e
  | .ok distPit =>
  let other := listOther.map (byName DistObj.name)
  let resist := byName DistObj.name listResist
  match cases with
  | none => .error .typeError
  | some cases =>
  if distMax.length ≠ distPit.length then .error .exception
  else
  match createDictDistComb resist other distMax distPit cases [] with
  | .error e => .error e
  | .ok dd =>
    let labelResist := resist.keys
    let labelOther := (other.map Dict.keys).getD []
    let labelComb := dictDistComb.keys
    let constant := listConst.map (byName ConstObj.name)
    let labelAll := labelResist ++ labelOther ++ labelComb
    .ok { distMax := distMax, distPit := distPit, distOther := other, distResist := resist, combCases := cases
          numComb := cases.length, dictDistComb := dd, dfCorr := corr, constant := constant
          labelCombCases := cases.keys, labelCombVrs := labelComb, labelResist := labelResist, labelOther := labelOther
          labelConst := constant.map Dict.keys
          labelAll := match constant with
            | none => labelAll
            | some c => labelAll ++ c.keys }

/-- `get_label(label_type)` (loadcomb.py 153–170). -/
def getLabel (lc : LoadComb D) (labelType : String) : Except PyErr (Option (List String)) :=
  if labelType = "resist" then .ok (some lc.labelResist)
  else if labelType = "other" then .ok (some lc.labelOther)
  else if labelType = "comb_vrs" then .ok (some lc.labelCombVrs)
  else if labelType = "comb_cases" then .ok (some lc.labelCombCases)
  else if labelType = "const" then .ok lc.labelConst
  else if labelType = "all" then .ok (some lc.labelAll)
  else .error .keyError

/-- `sm.addVariable(o)` for each object in turn; the first exception ends the call. -/
noncomputable def addAll (m : StochModel D ℝ) : List (PyObj D ℝ) → Except PyErr (StochModel D ℝ)
  | [] => .ok m
  | o :: t =>
    match m.addVariable o with
    | (_, .error e) => .error e
    | (m, .ok ()) => addAll m t

/-- `kwargs[key] if key in kwargs else value`, for each entry of a dictionary (loadcomb.py 290–301). -/
def withOverrides {A : Type} (obj : A → PyObj D ℝ) (kwargs : Dict String (PyObj D ℝ)) (d : Dict String A) : List (PyObj D ℝ) :=
  d.map (fun p =>
    match kwargs.get? p.1 with
    | some o => o
    | none => obj p.2)

/-- The stochastic model of `run_reliability_case(lcn, **kwargs)` (loadcomb.py 287–304) with
`_get_corr_for_stochastic_model` (loadcomb.py 241–264).  When a label of the model has no row or column
in the correlation table the correlation matrix contains NaN and the factorisation in FORM raises `LinAlgError`: that is reported
here already (a simplification). -/
noncomputable def caseModel (lc : LoadComb D) (lcn : Option String) (kwargs : Dict String (PyObj D ℝ)) : Except PyErr (StochModel D ℝ) :=
  match (match lcn with
    | some l => .ok l
    | none => (match lc.labelCombCases with
      | [] => .error .indexError
      | l :: _ => .ok l) : Except PyErr String) with
  | .error e => .error e
  | .ok l =>
  match addAll StochModel.init (withOverrides (fun c : ConstObj => .constant c.name c.val) kwargs (lc.constant.getD [])) with
  | .error e => .error e
  | .ok m =>
  match lc.dictDistComb.get? l with
  | none => .error .keyError
  | some dd =>
  match addAll m (withOverrides PyObj.distribution kwargs dd) with
  | .error e => .error e
  | .ok m =>
  match lc.dfCorr with
  | none => .ok m
  | some f =>
    match (f.reindex m.getVariables.keys m.getVariables.keys).values? with
    | none => .error .linAlgError
    | some R => .ok (m.setCorrelation R)

/-- `run_reliability_case(lcn, **kwargs)` (loadcomb.py 266–308); `form` is `Form(sm, ls[, options]).run()` on the model. -/
noncomputable def runCase {F : Type} (form : StochModel D ℝ → Except PyErr F) (lc : LoadComb D) (lcn : Option String)
    (kwargs : Dict String (PyObj D ℝ)) : Except PyErr F :=
  match lc.caseModel lcn kwargs with
  | .error e => .error e
  | .ok m => form m

/-- The keyword arguments of a call of the limit-state function. -/
abbrev Args := String → Option ℝ

/-- `kwargs.update({xx: v for xx in set_miss})` (loadcomb.py 339). -/
def fill (kwargs : Args) (miss : List String) (v : ℝ) : Args := fun k => if k ∈ miss then some v else kwargs k

/-- The loop over the constants (loadcomb.py 340–344). -/
def constLoop (setConst : Option ℝ) : Dict String ConstObj → Args → Args
  | [], kw => kw
  | (key, c) :: t, kw =>
    if kw key = none ∧ setConst = none then constLoop setConst t (fun k => if k = key then some c.val else kw k)
    else if kw key = none then constLoop setConst t (fun k => if k = key then setConst else kw k)
    else constLoop setConst t kw

/-- `eval_lsf_kwargs(set_value, set_const, **kwargs)` (loadcomb.py 310–346).  Without constants, line 340 iterates over `None.items()`:
an `AttributeError`. -/
def evalLsfKwargs (lsf : Args → Except PyErr ℝ) (lc : LoadComb D) (setValue : ℝ) (setConst : Option ℝ) (kwargs : Args) :
    Except PyErr ℝ :=
  let setMiss := match lc.constant with
    | some c => lc.labelAll.filter (fun k => (kwargs k).isNone ∧ k ∉ c.keys)
    | none => lc.labelAll.filter (fun k => (kwargs k).isNone)
  let kw := fill kwargs setMiss setValue
  match lc.constant with
  | none => .error .attributeError
  | some c => lsf (constLoop setConst c kw)

end LoadComb
end Pystra
