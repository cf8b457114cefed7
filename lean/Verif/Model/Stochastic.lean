import Verif.Model.Basic

/-!
Model of `class StochasticModel` (src/pystra/model.py 9–154).
A method is a function returning the new object state *and* the outcome, so that "mutate first, raise later"
would be visible.
-/

namespace Pystra

/-- A `Distribution` object: its `getName()` and everything else (`body`)
(src/pystra/distributions/distribution.py 183–184). -/
structure DistObj (D : Type) where
  /-- the variable's name -/
  name : String
  /-- the rest of the object -/
  body : D

/-- Anything a caller may hand to `addVariable`. `Constant` is
src/pystra/distributions/distribution.py `class Constant`. -/
inductive PyObj (D V : Type) where
  | distribution (d : DistObj D)
  | constant (name : String) (value : V)
  | other

/-- `StochasticModel.__init__` fields (model.py 18–29). -/
structure StochModel (D V : Type) where
  /-- `self.variables`, an `OrderedDict` -/
  vars : Dict String (DistObj D)
  /-- `self._names` -/
  names : List String
  /-- `self._marg` -/
  marg : List (DistObj D)
  /-- `self._correlation` -/
  correlation : Option NDArray2
  /-- `self._Ro` -/
  Ro : Option NDArray2
  /-- `self._call_function` -/
  callFunction : ℕ
  /-- `self._consts` -/
  consts : Dict String V

namespace StochModel

variable {D V : Type}

/-- `StochasticModel()` (model.py 18–29). -/
def init : StochModel D V :=
  { vars := [], names := [], marg := [], correlation := none, Ro := none,
    callFunction := 0, consts := [] }

/-- `addVariable` (model.py 31–64): type check, duplicate check, then the three updates for a
`Distribution` or the single one for a `Constant`. -/
noncomputable def addVariable (s : StochModel D V) (obj : PyObj D V) :
    StochModel D V × Except PyErr Unit :=
  match obj with
  | .other => (s, .error .exception)
  | .distribution d =>
      if d.name ∈ s.names then (s, .error .exception)
      else
        let s := { s with names := s.names ++ [d.name] }
        let s := { s with marg := s.marg ++ [d] }
        let s := { s with vars := s.vars.set d.name d }
        let s := { s with correlation := some (NDArray2.eye s.marg.length) }
        (s, .ok ())
  | .constant n v =>
      if n ∈ s.names then (s, .error .exception)
      else
        let s := { s with names := s.names ++ [n] }
        let s := { s with consts := s.consts.set n v }
        (s, .ok ())

/-- `setCorrelation` (model.py 138–139). -/
def setCorrelation (s : StochModel D V) (m : NDArray2) : StochModel D V :=
  { s with correlation := some m }

/-- `setModifiedCorrelation` (model.py 144–145). -/
def setModifiedCorrelation (s : StochModel D V) (m : NDArray2) : StochModel D V :=
  { s with Ro := some m }

/-- `addCallFunction` (model.py 150–151). -/
def addCallFunction (s : StochModel D V) (add : ℕ) : StochModel D V :=
  { s with callFunction := s.callFunction + add }

/-- `getCallFunction` (model.py 153–154). -/
def getCallFunction (s : StochModel D V) : ℕ := s.callFunction

/-- `getNames` / `names` (model.py 74–77, 126–127). -/
def getNames (s : StochModel D V) : List String := s.names

/-- `getVariables` (model.py 120–121). -/
def getVariables (s : StochModel D V) : Dict String (DistObj D) := s.vars

/-- `getVariable(name)` (model.py 123–124); a missing key is a `KeyError`. -/
def getVariable (s : StochModel D V) (name : String) : Except PyErr (DistObj D) :=
  match s.vars.get? name with
  | some d => .ok d
  | none => .error .keyError

/-- `getConstants` / `constants` (model.py 68–71, 117–118). -/
def getConstants (s : StochModel D V) : Dict String V := s.consts

/-- `getMarginalDistributions` (model.py 132–133). -/
def getMarginalDistributions (s : StochModel D V) : List (DistObj D) := s.marg

/-- `getLenMarginalDistributions` / `n_marg` (model.py 79–82, 129–130). -/
def nMarg (s : StochModel D V) : ℕ := s.marg.length

/-- `getCorrelation` / `correlation` (model.py 89–92, 141–142). -/
def getCorrelation (s : StochModel D V) : Option NDArray2 := s.correlation

/-- The calls a user or an analysis makes on a model (`setMarginalDistributions` and direct assignment of
attributes bypass the registry and are not part of a history). -/
inductive Op (D V : Type) where
  | add (obj : PyObj D V)
  | setCorr (m : NDArray2)
  | setRo (m : NDArray2)
  | calls (n : ℕ)

/-- One call; the outcome is what the caller sees. -/
noncomputable def step (s : StochModel D V) : Op D V → StochModel D V × Except PyErr Unit
  | .add o => s.addVariable o
  | .setCorr m => (s.setCorrelation m, .ok ())
  | .setRo m => (s.setModifiedCorrelation m, .ok ())
  | .calls n => (s.addCallFunction n, .ok ())

/-- A history: every call is made, whether or not earlier ones raised. -/
noncomputable def run (s : StochModel D V) : List (Op D V) → StochModel D V
  | [] => s
  | op :: ops => (s.step op).1.run ops

end StochModel
end Pystra
