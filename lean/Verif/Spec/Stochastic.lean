import Verif.Model.Stochastic

/-!
Specification of the registry: which objects a history registers, computed from the history alone, without
reference to the model's state.
-/

namespace Pystra.Spec

variable {D V : Type}

open StochModel (Op)

/-- The name an object would be registered under; `none` for foreign objects. -/
def objName : PyObj D V → Option String
  | .distribution d => some d.name
  | .constant n _ => some n
  | .other => none

/-- The objects offered by a history, in order. -/
def offered : List (Op D V) → List (PyObj D V)
  | [] => []
  | .add o :: t => o :: offered t
  | _ :: t => offered t

/-- Scan offered objects, keeping those that carry a name not seen before. -/
def keepFirst (seen : List String) : List (PyObj D V) → List (PyObj D V)
  | [] => []
  | o :: t =>
    match objName o with
    | none => keepFirst seen t
    | some n => if n ∈ seen then keepFirst seen t else o :: keepFirst (n :: seen) t

/-- The registered objects: the first offer of each name. -/
def registered (h : List (Op D V)) : List (PyObj D V) := keepFirst [] (offered h)

/-- The random variables among the objects. -/
def dists : List (PyObj D V) → List (DistObj D)
  | [] => []
  | .distribution d :: t => d :: dists t
  | _ :: t => dists t

/-- The constants among the objects. -/
def constants : List (PyObj D V) → List (String × V)
  | [] => []
  | .constant n v :: t => (n, v) :: constants t
  | _ :: t => constants t

/-- Evaluations counted by a history. -/
def totalCalls : List (Op D V) → ℕ
  | [] => 0
  | .calls n :: t => n + totalCalls t
  | _ :: t => totalCalls t

end Pystra.Spec
