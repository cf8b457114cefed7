import Verif.Model.Calibration

/-! Vocabulary for the calibration properties. -/

namespace Pystra.Spec

variable {D : Type}

/-- The case that determines the load factor of variable `c`: the first one in which `c` is leading; the case `r` itself for a variable
that is never leading. -/
def leadCase (cases : Dict String (List String)) (r c : String) : String :=
  match cases.find? (fun p => c ∈ p.2) with
  | some p => p.1
  | none => r

/-- A table of design points: one row per load case, and a column for every variable of the limit-state function. -/
structure DesignTable (C : Calib D) (x : Frame) : Prop where
  /-- rows -/
  rows : x.index = C.labelCombCases
  /-- the cases of the load combination are the rows -/
  cases : C.lc.combCases.keys = C.labelCombCases
  /-- the nominal values have the same rows -/
  nom : C.dfNom.index = C.labelCombCases
  /-- resistances -/
  resist : ∀ c ∈ C.labelR, c ∈ x.columns
  /-- static loads -/
  other : ∀ c ∈ C.labelOther, c ∈ x.columns
  /-- combination variables -/
  comb : ∀ c ∈ C.labelCombVrs, c ∈ x.columns
  /-- leading variables are variables of the table -/
  leading : ∀ p ∈ C.lc.combCases, ∀ v ∈ p.2, v ∈ x.columns

end Pystra.Spec
