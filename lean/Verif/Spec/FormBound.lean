import Verif.Model.Distribution

/-! Specification vocabulary for C96. -/

namespace Pystra.Spec

/-- The variable is `Normal(mean, stdv)` (`false`) or `Lognormal(mean, stdv)` (`true`). -/
inductive NormalOrLog : Bool → Marginal → Prop where
  | normal {m : Marginal} (μ s : ℝ) (sp : Option ℝ) : 0 < s → Normal.new μ (.fin s) sp = .ok m → NormalOrLog false m
  | lognormal {m : Marginal} (μ s : ℝ) (sp : Option ℝ) : 0 < μ → 0 < s → Lognormal.new μ s false sp = .ok m → NormalOrLog true m

end Pystra.Spec
