import Verif.Model.LoadComb
import Verif.Spec.Stochastic

/-! What a load case consists of. -/

namespace Pystra.Spec

variable {D : Type}

/-- Constants and then variables, each with its label. -/
def labelled (consts : Dict String ConstObj) (vars : Dict String (DistObj D)) : Dict String (PyObj D ℝ) :=
  List.map (fun p : String × ConstObj => (p.1, PyObj.constant p.2.name p.2.val)) consts ++
    List.map (fun p : String × DistObj D => (p.1, PyObj.distribution p.2)) vars

/-- The objects of a load case as the user thinks of them: the constants, then the case's variables, each under its label; a keyword
argument replaces the object with that label and nothing else. -/
def caseObjects (consts : Dict String ConstObj) (vars : Dict String (DistObj D)) (overrides : Dict String (PyObj D ℝ)) :
    List (PyObj D ℝ) :=
  (labelled consts vars).map (fun p => (overrides.get? p.1).getD p.2)

/-- Every object carries its label as its name. -/
def SelfNamed (l : Dict String (PyObj D ℝ)) : Prop := ∀ p ∈ l, objName p.2 = some p.1

/-- The arguments with which the limit-state function is evaluated: given values first, constants at their own value (or at the common
value `setConst`), and every other label at `setValue`. -/
def defaultArgs (labels : List String) (consts : Dict String ConstObj) (setValue : ℝ) (setConst : Option ℝ) (given : String → Option ℝ)
    (k : String) : Option ℝ :=
  match given k with
  | some v => some v
  | none =>
    match consts.get? k with
    | some c => some (setConst.getD c.val)
    | none => if k ∈ labels then some setValue else none

end Pystra.Spec
