import Verif.Model.SensitivityObject

/-! Specification of the table of sensitivities. -/

namespace Pystra.Spec
open SensObj

/-- The rows a user expects for a result `{variable: {parameter: value}}`: one per entry, in order. -/
def expectedRows (d : Dict String (Dict String ℝ)) : List Row :=
  d.flatMap fun e => e.2.map fun p => ⟨e.1, p.1, .num p.2⟩

/-- Every variable of the model with each of its parameters, in order. -/
noncomputable def entriesOf (m : StochModel Dist ℝ) : List (String × String) :=
  m.marg.flatMap fun d => (Dict.keys d.body.sensitivityParams).map fun p => (d.name, p)

end Pystra.Spec
