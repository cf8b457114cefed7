import Verif.Model.LoadComb

/-!
Model of `class GenericModel` and `class GenericCalibration` (src/pystra/calibration.py 994–1637).

A `GenericModel` is a mutable object which the calibration keeps a reference to: models live in a heap and are known by a number.  The
FORM analysis is a function of the stochastic model and of the limit-state function (called with named arguments).  Drawing is not
modelled; `plot` returns the data that are drawn.
-/

namespace Pystra

/-- The attributes of a `GenericModel` (calibration.py 999–1021); `none` is Python's `None`. -/
structure GenericModel (D : Type) where
  /-- `self.phi` -/
  phi : Option ℝ
  /-- `self.gamma_g` -/
  gammaG : Option ℝ
  /-- `self.gamma_p` -/
  gammaP : Option ℝ
  /-- `self.gamma_q` -/
  gammaQ : Option ℝ
  /-- `self.wR` -/
  wR : Option (DistObj D)
  /-- `self.wS` -/
  wS : Option (DistObj D)
  /-- `self.R` -/
  R : Option (DistObj D)
  /-- `self.G` -/
  G : Option (DistObj D)
  /-- `self.P` -/
  P : Option (DistObj D)
  /-- `self.Q` -/
  Q : Option (DistObj D)
  /-- `self.Rk` -/
  Rk : Option ℝ
  /-- `self.Gk` -/
  Gk : Option ℝ
  /-- `self.Pk` -/
  Pk : Option ℝ
  /-- `self.Qk` -/
  Qk : Option ℝ

namespace GenericModel

variable {D : Type}

/-- `GenericModel()` (calibration.py 999–1021). -/
def init : GenericModel D := ⟨none, none, none, none, none, none, none, none, none, none, none, none, none, none⟩

/-- `set_factors` (calibration.py 1023–1046). -/
def setFactors (m : GenericModel D) (phi gammaG gammaP gammaQ : ℝ) : GenericModel D :=
  { m with phi := some phi, gammaG := some gammaG, gammaP := some gammaP, gammaQ := some gammaQ }

/-- `set_distributions` (calibration.py 1048–1077). -/
def setDistributions (m : GenericModel D) (wR wS R G P Q : DistObj D) : GenericModel D :=
  { m with wR := some wR, wS := some wS, R := some R, G := some G, P := some P, Q := some Q }

/-- `set_nominals` (calibration.py 1079–1102). -/
def setNominals (m : GenericModel D) (Rk Gk Pk Qk : ℝ) : GenericModel D :=
  { m with Rk := some Rk, Gk := some Gk, Pk := some Pk, Qk := some Qk }

/-- `set_model_errors` (calibration.py 1104–1122). -/
def setModelErrors (m : GenericModel D) (wR wS : DistObj D) : GenericModel D := { m with wR := some wR, wS := some wS }

/-- `set_resistance_params` (calibration.py 1124–1145). -/
def setResistanceParams (m : GenericModel D) (R : DistObj D) (Rk phi : ℝ) : GenericModel D :=
  { m with R := some R, Rk := some Rk, phi := some phi }

/-- `set_dead_params` (calibration.py 1147–1168). -/
def setDeadParams (m : GenericModel D) (G : DistObj D) (Gk gammaG : ℝ) : GenericModel D :=
  { m with G := some G, Gk := some Gk, gammaG := some gammaG }

/-- `set_permanent_params` (calibration.py 1170–1191). -/
def setPermanentParams (m : GenericModel D) (P : DistObj D) (Pk gammaP : ℝ) : GenericModel D :=
  { m with P := some P, Pk := some Pk, gammaP := some gammaP }

/-- `set_live_params` (calibration.py 1193–1214). -/
def setLiveParams (m : GenericModel D) (Q : DistObj D) (Qk gammaQ : ℝ) : GenericModel D :=
  { m with Q := some Q, Qk := some Qk, gammaQ := some gammaQ }

end GenericModel

/-- An entry of `self.prob_models` (calibration.py 1315). -/
structure ProbModel where
  /-- `"model"`: a reference -/
  model : ℕ
  /-- `"betas"`: rows are dead load ratios, columns live load ratios -/
  betas : Option (List (List ℝ))
  /-- `"color"` -/
  color : String
  /-- `"label"` -/
  label : String

/-- The attributes of a `GenericCalibration` (calibration.py 1291–1294). -/
structure GenericCalib where
  /-- `self.aq_points` -/
  aqPoints : List ℝ
  /-- `self.ag_points` -/
  agPoints : List ℝ
  /-- `self.prob_models` -/
  probModels : List ProbModel
  /-- `self.is_analysed` -/
  isAnalysed : Bool

namespace GenericCalib

variable {D : Type}

/-- `GenericCalibration(aq_points, ag_points)` (calibration.py 1275–1294). -/
def new (aq ag : List ℝ) : GenericCalib := ⟨aq, ag, [], false⟩

/-- `add_model(model, color, label)` (calibration.py 1296–1316). -/
def addModel (g : GenericCalib) (model : ℕ) (color label : String) : GenericCalib :=
  let g := { g with isAnalysed := false }
  { g with probModels := g.probModels ++ [⟨model, none, color, label⟩] }

/-- `lsf(z, aq, ag, wR, R, wS, G, P, Q)` (calibration.py 1318–1349). -/
def lsf (z aq ag wR R wS G P Q : ℝ) : ℝ := z * wR * R - wS * ((1 - aq) * (ag * G + (1 - ag) * P) + aq * Q)

open Classical in
/-- A call of `lsf` with named arguments: exactly the nine names must be given, otherwise `TypeError`. -/
noncomputable def lsfKw (a : LoadComb.Args) : Except PyErr ℝ :=
  if ∃ k, a k ≠ none ∧ k ∉ (["z", "aq", "ag", "wR", "R", "wS", "G", "P", "Q"] : List String) then .error .typeError
  else
    match a "z", a "aq", a "ag", a "wR", a "R", a "wS", a "G", a "P", a "Q" with
    | some z, some aq, some ag, some wR, some R, some wS, some G, some P, some Q => .ok (lsf z aq ag wR R wS G P Q)
    | _, _, _, _, _, _, _, _, _ => .error .typeError

/-- `design(aq, ag, phi, gamma_g, gamma_p, gamma_q, Rk, Gk, Pk, Qk)` (calibration.py 1351–1387) on Python floats. -/
noncomputable def design (aq ag phi gammaG gammaP gammaQ Rk Gk Pk Qk : ℝ) : Except PyErr ℝ :=
  if phi * Rk = 0 then .error .zeroDivision
  else .ok ((1 / (phi * Rk)) * ((1 - aq) * (ag * gammaG * Gk + (1 - ag) * gammaP * Pk) + aq * gammaQ * Qk))

/-- `design` on the attributes of a model: `None` times a number is a `TypeError`; `1 / (phi * Rk)` is evaluated first. -/
noncomputable def designOf (aq ag : ℝ) (m : GenericModel D) : Except PyErr ℝ :=
  match m.phi, m.Rk with
  | some phi, some Rk =>
    if phi * Rk = 0 then .error .zeroDivision
    else
      match m.gammaG, m.Gk, m.gammaP, m.Pk, m.gammaQ, m.Qk with
      | some gg, some Gk, some gp, some Pk, some gq, some Qk => design aq ag phi gg gp gq Rk Gk Pk Qk
      | _, _, _, _, _, _ => .error .typeError
  | _, _ => .error .typeError

/-- An attribute as an argument of `addVariable`; `None` is neither a distribution nor a constant. -/
def toObj : Option (DistObj D) → PyObj D ℝ
  | some d => .distribution d
  | none => .other

/-- `analyse_design(z, aq, ag, wR, R, wS, G, P, Q)` (calibration.py 1389–1439); `form` is `Form(model, LimitState(lsf)).run()` followed
by `getBeta()`. -/
noncomputable def analyseDesign (form : StochModel D ℝ → (LoadComb.Args → Except PyErr ℝ) → Except PyErr ℝ) (z aq ag : ℝ)
    (wR R wS G P Q : Option (DistObj D)) : Except PyErr ℝ :=
  match LoadComb.addAll StochModel.init [toObj wR, toObj R, toObj wS, toObj G, toObj P, toObj Q,
    .constant "z" z, .constant "aq" aq, .constant "ag" ag] with
  | .error e => .error e
  | .ok sm => form sm lsfKw

/-- The body of the loops of `get_reliabilities` (calibration.py 1463–1480). -/
noncomputable def cell (form : StochModel D ℝ → (LoadComb.Args → Except PyErr ℝ) → Except PyErr ℝ) (m : GenericModel D) (ag aq : ℝ) :
    Except PyErr ℝ :=
  match designOf aq ag m with
  | .error e => .error e
  | .ok z => analyseDesign form z aq ag m.wR m.R m.wS m.G m.P m.Q

/-- `[f(x) for x in l]`: the first exception ends it. -/
def mapE {A B : Type} (f : A → Except PyErr B) : List A → Except PyErr (List B)
  | [] => .ok []
  | a :: t =>
    match f a with
    | .error e => .error e
    | .ok b =>
      match mapE f t with
      | .error e => .error e
      | .ok r => .ok (b :: r)

/-- `get_reliabilities(Aq, Ag, model)` (calibration.py 1441–1481): the array that is filled row by row. -/
noncomputable def getReliabilities (form : StochModel D ℝ → (LoadComb.Args → Except PyErr ℝ) → Except PyErr ℝ) (aqs ags : List ℝ)
    (m : GenericModel D) : Except PyErr (List (List ℝ)) :=
  mapE (fun ag => mapE (fun aq => cell form m ag aq) aqs) ags

/-- The loop of `analyse` (calibration.py 1500–1503): entries analysed before an exception keep their new results. -/
noncomputable def analyseLoop (form : StochModel D ℝ → (LoadComb.Args → Except PyErr ℝ) → Except PyErr ℝ) (heap : ℕ → GenericModel D)
    (aqs ags : List ℝ) : List ProbModel → List ProbModel × Except PyErr Unit
  | [] => ([], .ok ())
  | p :: t =>
    match getReliabilities form aqs ags (heap p.model) with
    | .error e => (p :: t, .error e)
    | .ok b =>
      let r := analyseLoop form heap aqs ags t
      ({ p with betas := some b } :: r.1, r.2)

/-- `analyse()` (calibration.py 1483–1505). -/
noncomputable def analyse (form : StochModel D ℝ → (LoadComb.Args → Except PyErr ℝ) → Except PyErr ℝ) (heap : ℕ → GenericModel D)
    (g : GenericCalib) : GenericCalib × Except PyErr Unit :=
  if g.probModels = [] then (g, .error .valueError)
  else
    let r := analyseLoop form heap g.aqPoints g.agPoints g.probModels
    match r.2 with
    | .error e => ({ g with probModels := r.1 }, .error e)
    | .ok () => ({ g with probModels := r.1, isAnalysed := true }, .ok ())

/-- `plot()` (calibration.py 1607–1637): the entries that are drawn. -/
def plot (g : GenericCalib) : Except PyErr (List ProbModel) :=
  if g.isAnalysed then .ok g.probModels else .error .valueError

/-- What a user can do with the calibration and the models. -/
inductive Op (D : Type) where
  /-- `add_model` -/
  | addModel (model : ℕ) (color label : String)
  /-- `analyse` (an exception is caught by the user) -/
  | analyse
  /-- `plot` -/
  | plot
  /-- a setter call on a model -/
  | mutate (model : ℕ) (f : GenericModel D → GenericModel D)

/-- The models and the calibration. -/
structure State (D : Type) where
  /-- the models -/
  heap : ℕ → GenericModel D
  /-- the calibration -/
  calib : GenericCalib

/-- One operation. -/
noncomputable def step (form : StochModel D ℝ → (LoadComb.Args → Except PyErr ℝ) → Except PyErr ℝ) (s : State D) : Op D → State D
  | .addModel i c l => { s with calib := s.calib.addModel i c l }
  | .analyse => { s with calib := (s.calib.analyse form s.heap).1 }
  | .plot => s
  | .mutate i f => { s with heap := fun k => if k = i then f (s.heap i) else s.heap k }

/-- A history. -/
noncomputable def runOps (form : StochModel D ℝ → (LoadComb.Args → Except PyErr ℝ) → Except PyErr ℝ) (s : State D) (ops : List (Op D)) :
    State D :=
  ops.foldl (step form) s

end GenericCalib
end Pystra
