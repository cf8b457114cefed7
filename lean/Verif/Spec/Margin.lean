import Verif.Model.Distribution

/-! Specification vocabulary for C104: safety margins that are linear in normal variables and in logarithms of lognormal variables. -/

namespace Pystra.Spec

/-- `m` is a `Normal(mean, stdv)` variable (`log = false`) or a `Lognormal(mean, stdv)` variable (`log = true`). -/
def NormalOrLogOf (log : Bool) (mean stdv : ℝ) (sp : Option ℝ) (m : Marginal) : Prop :=
  if log then 0 < mean ∧ Lognormal.new mean stdv false sp = .ok m else Normal.new mean (.fin stdv) sp = .ok m

/-- The variable itself or its logarithm, which is normal in both cases. -/
noncomputable def scoreOf (log : Bool) (x : ℝ) : ℝ := if log then Real.log x else x

/-- Mean of that normal variable. -/
noncomputable def scoreMean (log : Bool) (mean stdv : ℝ) : ℝ :=
  if log then Real.log mean - Real.log (1 + (stdv / mean) ^ 2) / 2 else mean

/-- Standard deviation of that normal variable. -/
noncomputable def scoreStd (log : Bool) (mean stdv : ℝ) : ℝ := if log then √(Real.log (1 + (stdv / mean) ^ 2)) else stdv

end Pystra.Spec
