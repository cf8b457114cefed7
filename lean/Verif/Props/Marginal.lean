import Verif.Lemmas.Families

/-! Properties C12–C15: marginal transformations, Jacobians, moments and constructors. -/

namespace Pystra.Props
open Real MeasureTheory Set Distribution

/-- C12 for `Normal(mean, stdv)`, `stdv > 0`. -/
theorem C12_normal (μ : ℝ) {σ : ℝ} (hσ : 0 < σ) (sp : Option ℝ) :
    ∃ m, Normal.new μ (.fin σ) sp = .ok m ∧ Spec.RoundTrip m univ := by
  obtain ⟨m, h, _, _, _, r, _⟩ := (good_normal μ hσ sp).ex
  exact ⟨m, h, r⟩

/-- C13 for `Normal(mean, stdv)`, `stdv > 0`. -/
theorem C13_normal (μ : ℝ) {σ : ℝ} (hσ : 0 < σ) (sp : Option ℝ) :
    ∃ m, Normal.new μ (.fin σ) sp = .ok m ∧ Spec.JacobianCorrect m univ := by
  obtain ⟨m, h, _, _, _, _, r, _⟩ := (good_normal μ hσ sp).ex
  exact ⟨m, h, r⟩

/-- C14 for `Normal(mean, stdv)`, `stdv > 0`. -/
theorem C14_normal (μ : ℝ) {σ : ℝ} (hσ : 0 < σ) (sp : Option ℝ) :
    ∃ m, Normal.new μ (.fin σ) sp = .ok m ∧ m.mean = μ ∧ m.stdv = σ ∧ m.startpoint = sp.getD μ ∧
      Spec.Law ((univ : Set ℝ).indicator m.pdf) μ σ := by
  obtain ⟨m, h, h1, h2, h3, _, _, r⟩ := (good_normal μ hσ sp).ex
  exact ⟨m, h, h1, h2, h3, r⟩

/-- C12 for `Lognormal(mean, stdv)`. -/
theorem C12_lognormal {μ σ : ℝ} (hμ : 0 < μ) (hσ : 0 < σ) (sp : Option ℝ) :
    ∃ m, Lognormal.new μ σ false sp = .ok m ∧ Spec.RoundTrip m (Ioi 0) := by
  obtain ⟨m, h, _, _, _, r, _⟩ := (good_lognormal hμ hσ sp).ex
  exact ⟨m, h, r⟩

/-- C13 for `Lognormal(mean, stdv)`. -/
theorem C13_lognormal {μ σ : ℝ} (hμ : 0 < μ) (hσ : 0 < σ) (sp : Option ℝ) :
    ∃ m, Lognormal.new μ σ false sp = .ok m ∧ Spec.JacobianCorrect m (Ioi 0) := by
  obtain ⟨m, h, _, _, _, _, r, _⟩ := (good_lognormal hμ hσ sp).ex
  exact ⟨m, h, r⟩

/-- C14 for `Lognormal(mean, stdv)`. -/
theorem C14_lognormal {μ σ : ℝ} (hμ : 0 < μ) (hσ : 0 < σ) (sp : Option ℝ) :
    ∃ m, Lognormal.new μ σ false sp = .ok m ∧ m.mean = μ ∧ m.stdv = σ ∧ m.startpoint = sp.getD μ ∧
      Spec.Law ((Ioi 0).indicator m.pdf) μ σ := by
  obtain ⟨m, h, h1, h2, h3, _, _, r⟩ := (good_lognormal hμ hσ sp).ex
  exact ⟨m, h, h1, h2, h3, r⟩

/-- C12 for `Lognormal(lamb, zeta, input_type)`. -/
theorem C12_lognormal_params (lamb : ℝ) {zeta : ℝ} (hz : 0 < zeta) (sp : Option ℝ) :
    ∃ m, Lognormal.new lamb zeta true sp = .ok m ∧ Spec.RoundTrip m (Ioi 0) := by
  obtain ⟨m, h, _, _, _, r, _⟩ := (good_lognormal_params lamb hz sp).ex
  exact ⟨m, h, r⟩

/-- C13 for `Lognormal(lamb, zeta, input_type)`. -/
theorem C13_lognormal_params (lamb : ℝ) {zeta : ℝ} (hz : 0 < zeta) (sp : Option ℝ) :
    ∃ m, Lognormal.new lamb zeta true sp = .ok m ∧ Spec.JacobianCorrect m (Ioi 0) := by
  obtain ⟨m, h, _, _, _, _, r, _⟩ := (good_lognormal_params lamb hz sp).ex
  exact ⟨m, h, r⟩

/-- C14 for `Lognormal(lamb, zeta, input_type)`. -/
theorem C14_lognormal_params (lamb : ℝ) {zeta : ℝ} (hz : 0 < zeta) (sp : Option ℝ) :
    ∃ m, Lognormal.new lamb zeta true sp = .ok m ∧ m.mean = (lnMean lamb zeta) ∧ m.stdv = (lnStd lamb zeta) ∧ m.startpoint = sp.getD (lnMean lamb zeta) ∧
      Spec.Law ((Ioi 0).indicator m.pdf) (lnMean lamb zeta) (lnStd lamb zeta) := by
  obtain ⟨m, h, h1, h2, h3, _, _, r⟩ := (good_lognormal_params lamb hz sp).ex
  exact ⟨m, h, h1, h2, h3, r⟩

/-- C12 for `ShiftedLognormal(mean, stdv, lower)`. -/
theorem C12_shiftedLognormal {μ σ lower : ℝ} (hμ : lower < μ) (hσ : 0 < σ) (sp : Option ℝ) :
    ∃ m, ShiftedLognormal.new μ σ lower false sp = .ok m ∧ Spec.RoundTrip m (Ioi lower) := by
  obtain ⟨m, h, _, _, _, r, _⟩ := (good_shiftedLognormal hμ hσ sp).ex
  exact ⟨m, h, r⟩

/-- C13 for `ShiftedLognormal(mean, stdv, lower)`. -/
theorem C13_shiftedLognormal {μ σ lower : ℝ} (hμ : lower < μ) (hσ : 0 < σ) (sp : Option ℝ) :
    ∃ m, ShiftedLognormal.new μ σ lower false sp = .ok m ∧ Spec.JacobianCorrect m (Ioi lower) := by
  obtain ⟨m, h, _, _, _, _, r, _⟩ := (good_shiftedLognormal hμ hσ sp).ex
  exact ⟨m, h, r⟩

/-- C14 for `ShiftedLognormal(mean, stdv, lower)`. -/
theorem C14_shiftedLognormal {μ σ lower : ℝ} (hμ : lower < μ) (hσ : 0 < σ) (sp : Option ℝ) :
    ∃ m, ShiftedLognormal.new μ σ lower false sp = .ok m ∧ m.mean = μ ∧ m.stdv = σ ∧ m.startpoint = sp.getD μ ∧
      Spec.Law ((Ioi lower).indicator m.pdf) μ σ := by
  obtain ⟨m, h, h1, h2, h3, _, _, r⟩ := (good_shiftedLognormal hμ hσ sp).ex
  exact ⟨m, h, h1, h2, h3, r⟩

/-- C12 for `Uniform(mean, stdv)`. -/
theorem C12_uniform (μ : ℝ) {σ : ℝ} (hσ : 0 < σ) (sp : Option ℝ) :
    ∃ m, Uniform.new μ σ false sp = .ok m ∧ Spec.RoundTrip m (Ioo (μ - √3 * σ) (μ + √3 * σ)) := by
  obtain ⟨m, h, _, _, _, r, _⟩ := (good_uniform μ hσ sp).ex
  exact ⟨m, h, r⟩

/-- C13 for `Uniform(mean, stdv)`. -/
theorem C13_uniform (μ : ℝ) {σ : ℝ} (hσ : 0 < σ) (sp : Option ℝ) :
    ∃ m, Uniform.new μ σ false sp = .ok m ∧ Spec.JacobianCorrect m (Ioo (μ - √3 * σ) (μ + √3 * σ)) := by
  obtain ⟨m, h, _, _, _, _, r, _⟩ := (good_uniform μ hσ sp).ex
  exact ⟨m, h, r⟩

/-- C14 for `Uniform(mean, stdv)`. -/
theorem C14_uniform (μ : ℝ) {σ : ℝ} (hσ : 0 < σ) (sp : Option ℝ) :
    ∃ m, Uniform.new μ σ false sp = .ok m ∧ m.mean = μ ∧ m.stdv = σ ∧ m.startpoint = sp.getD μ ∧
      Spec.Law ((Ioo (μ - √3 * σ) (μ + √3 * σ)).indicator m.pdf) μ σ := by
  obtain ⟨m, h, h1, h2, h3, _, _, r⟩ := (good_uniform μ hσ sp).ex
  exact ⟨m, h, h1, h2, h3, r⟩

/-- C12 for `Uniform(a, b, input_type)`. -/
theorem C12_uniform_params {a b : ℝ} (hab : a < b) (sp : Option ℝ) :
    ∃ m, Uniform.new a b true sp = .ok m ∧ Spec.RoundTrip m (Ioo a b) := by
  obtain ⟨m, h, _, _, _, r, _⟩ := (good_uniform_params hab sp).ex
  exact ⟨m, h, r⟩

/-- C13 for `Uniform(a, b, input_type)`. -/
theorem C13_uniform_params {a b : ℝ} (hab : a < b) (sp : Option ℝ) :
    ∃ m, Uniform.new a b true sp = .ok m ∧ Spec.JacobianCorrect m (Ioo a b) := by
  obtain ⟨m, h, _, _, _, _, r, _⟩ := (good_uniform_params hab sp).ex
  exact ⟨m, h, r⟩

/-- C14 for `Uniform(a, b, input_type)`. -/
theorem C14_uniform_params {a b : ℝ} (hab : a < b) (sp : Option ℝ) :
    ∃ m, Uniform.new a b true sp = .ok m ∧ m.mean = ((a + b) / 2) ∧ m.stdv = ((b - a) / √12) ∧ m.startpoint = sp.getD ((a + b) / 2) ∧
      Spec.Law ((Ioo a b).indicator m.pdf) ((a + b) / 2) ((b - a) / √12) := by
  obtain ⟨m, h, h1, h2, h3, _, _, r⟩ := (good_uniform_params hab sp).ex
  exact ⟨m, h, h1, h2, h3, r⟩

/-- C12 for `Gamma(mean, stdv)`. -/
theorem C12_gamma {μ σ : ℝ} (hμ : 0 < μ) (hσ : 0 < σ) (sp : Option ℝ) :
    ∃ m, GammaDist.new μ σ false sp = .ok m ∧ Spec.RoundTrip m (Ioi 0) := by
  obtain ⟨m, h, _, _, _, r, _⟩ := (good_gamma hμ hσ sp).ex
  exact ⟨m, h, r⟩

/-- C13 for `Gamma(mean, stdv)`. -/
theorem C13_gamma {μ σ : ℝ} (hμ : 0 < μ) (hσ : 0 < σ) (sp : Option ℝ) :
    ∃ m, GammaDist.new μ σ false sp = .ok m ∧ Spec.JacobianCorrect m (Ioi 0) := by
  obtain ⟨m, h, _, _, _, _, r, _⟩ := (good_gamma hμ hσ sp).ex
  exact ⟨m, h, r⟩

/-- C14 for `Gamma(mean, stdv)`. -/
theorem C14_gamma {μ σ : ℝ} (hμ : 0 < μ) (hσ : 0 < σ) (sp : Option ℝ) :
    ∃ m, GammaDist.new μ σ false sp = .ok m ∧ m.mean = μ ∧ m.stdv = σ ∧ m.startpoint = sp.getD μ ∧
      Spec.Law ((Ioi 0).indicator m.pdf) μ σ := by
  obtain ⟨m, h, h1, h2, h3, _, _, r⟩ := (good_gamma hμ hσ sp).ex
  exact ⟨m, h, h1, h2, h3, r⟩

/-- C12 for `Gamma(lambda, k, input_type)`. -/
theorem C12_gamma_params {beta alpha : ℝ} (hb : 0 < beta) (ha : 0 < alpha) (sp : Option ℝ) :
    ∃ m, GammaDist.new beta alpha true sp = .ok m ∧ Spec.RoundTrip m (Ioi 0) := by
  obtain ⟨m, h, _, _, _, r, _⟩ := (good_gamma_params hb ha sp).ex
  exact ⟨m, h, r⟩

/-- C13 for `Gamma(lambda, k, input_type)`. -/
theorem C13_gamma_params {beta alpha : ℝ} (hb : 0 < beta) (ha : 0 < alpha) (sp : Option ℝ) :
    ∃ m, GammaDist.new beta alpha true sp = .ok m ∧ Spec.JacobianCorrect m (Ioi 0) := by
  obtain ⟨m, h, _, _, _, _, r, _⟩ := (good_gamma_params hb ha sp).ex
  exact ⟨m, h, r⟩

/-- C14 for `Gamma(lambda, k, input_type)`. -/
theorem C14_gamma_params {beta alpha : ℝ} (hb : 0 < beta) (ha : 0 < alpha) (sp : Option ℝ) :
    ∃ m, GammaDist.new beta alpha true sp = .ok m ∧ m.mean = (alpha / beta) ∧ m.stdv = (√alpha / beta) ∧ m.startpoint = sp.getD (alpha / beta) ∧
      Spec.Law ((Ioi 0).indicator m.pdf) (alpha / beta) (√alpha / beta) := by
  obtain ⟨m, h, h1, h2, h3, _, _, r⟩ := (good_gamma_params hb ha sp).ex
  exact ⟨m, h, h1, h2, h3, r⟩

/-- C12 for `ShiftedExponential(mean, stdv)`. -/
theorem C12_shiftedExponential (μ : ℝ) {σ : ℝ} (hσ : 0 < σ) (sp : Option ℝ) :
    ∃ m, ShiftedExponential.new μ σ false sp = .ok m ∧ Spec.RoundTrip m (Ioi (μ - σ)) := by
  obtain ⟨m, h, _, _, _, r, _⟩ := (good_shiftedExponential μ hσ sp).ex
  exact ⟨m, h, r⟩

/-- C13 for `ShiftedExponential(mean, stdv)`. -/
theorem C13_shiftedExponential (μ : ℝ) {σ : ℝ} (hσ : 0 < σ) (sp : Option ℝ) :
    ∃ m, ShiftedExponential.new μ σ false sp = .ok m ∧ Spec.JacobianCorrect m (Ioi (μ - σ)) := by
  obtain ⟨m, h, _, _, _, _, r, _⟩ := (good_shiftedExponential μ hσ sp).ex
  exact ⟨m, h, r⟩

/-- C14 for `ShiftedExponential(mean, stdv)`. -/
theorem C14_shiftedExponential (μ : ℝ) {σ : ℝ} (hσ : 0 < σ) (sp : Option ℝ) :
    ∃ m, ShiftedExponential.new μ σ false sp = .ok m ∧ m.mean = μ ∧ m.stdv = σ ∧ m.startpoint = sp.getD μ ∧
      Spec.Law ((Ioi (μ - σ)).indicator m.pdf) μ σ := by
  obtain ⟨m, h, h1, h2, h3, _, _, r⟩ := (good_shiftedExponential μ hσ sp).ex
  exact ⟨m, h, h1, h2, h3, r⟩

/-- C12 for `ShiftedRayleigh(mean, stdv)`. -/
theorem C12_shiftedRayleigh (μ : ℝ) {σ : ℝ} (hσ : 0 < σ) (sp : Option ℝ) :
    ∃ m, ShiftedRayleigh.new μ σ false sp = .ok m ∧ Spec.RoundTrip m (Ioi (μ - σ * √(π / (4 - π)))) := by
  obtain ⟨m, h, _, _, _, r, _⟩ := (good_shiftedRayleigh μ hσ sp).ex
  exact ⟨m, h, r⟩

/-- C13 for `ShiftedRayleigh(mean, stdv)`. -/
theorem C13_shiftedRayleigh (μ : ℝ) {σ : ℝ} (hσ : 0 < σ) (sp : Option ℝ) :
    ∃ m, ShiftedRayleigh.new μ σ false sp = .ok m ∧ Spec.JacobianCorrect m (Ioi (μ - σ * √(π / (4 - π)))) := by
  obtain ⟨m, h, _, _, _, _, r, _⟩ := (good_shiftedRayleigh μ hσ sp).ex
  exact ⟨m, h, r⟩

/-- C14 for `ShiftedRayleigh(mean, stdv)`. -/
theorem C14_shiftedRayleigh (μ : ℝ) {σ : ℝ} (hσ : 0 < σ) (sp : Option ℝ) :
    ∃ m, ShiftedRayleigh.new μ σ false sp = .ok m ∧ m.mean = μ ∧ m.stdv = σ ∧ m.startpoint = sp.getD μ ∧
      Spec.Law ((Ioi (μ - σ * √(π / (4 - π)))).indicator m.pdf) μ σ := by
  obtain ⟨m, h, h1, h2, h3, _, _, r⟩ := (good_shiftedRayleigh μ hσ sp).ex
  exact ⟨m, h, h1, h2, h3, r⟩

/-- C12 for `Gumbel(mean, stdv)` and `TypeIlargestValue`; the mean is off by the truncation of Euler's constant in the source. -/
theorem C12_gumbel (μ : ℝ) {σ : ℝ} (hσ : 0 < σ) (sp : Option ℝ) :
    ∃ m, Gumbel.new μ σ false sp = .ok m ∧ Spec.RoundTrip m univ := by
  obtain ⟨m, h, _, _, _, r, _⟩ := (good_gumbel μ hσ sp).ex
  exact ⟨m, h, r⟩

/-- C13 for `Gumbel(mean, stdv)` and `TypeIlargestValue`; the mean is off by the truncation of Euler's constant in the source. -/
theorem C13_gumbel (μ : ℝ) {σ : ℝ} (hσ : 0 < σ) (sp : Option ℝ) :
    ∃ m, Gumbel.new μ σ false sp = .ok m ∧ Spec.JacobianCorrect m univ := by
  obtain ⟨m, h, _, _, _, _, r, _⟩ := (good_gumbel μ hσ sp).ex
  exact ⟨m, h, r⟩

/-- C14 for `Gumbel(mean, stdv)` and `TypeIlargestValue`; the mean is off by the truncation of Euler's constant in the source. -/
theorem C14_gumbel (μ : ℝ) {σ : ℝ} (hσ : 0 < σ) (sp : Option ℝ) :
    ∃ m, Gumbel.new μ σ false sp = .ok m ∧ m.mean = (μ + (eulerMascheroniConstant - 0.5772156649) * (σ * √6 / π)) ∧ m.stdv = σ ∧ m.startpoint = sp.getD (μ + (eulerMascheroniConstant - 0.5772156649) * (σ * √6 / π)) ∧
      Spec.Law ((univ : Set ℝ).indicator m.pdf) (μ + (eulerMascheroniConstant - 0.5772156649) * (σ * √6 / π)) σ := by
  obtain ⟨m, h, h1, h2, h3, _, _, r⟩ := (good_gumbel μ hσ sp).ex
  exact ⟨m, h, h1, h2, h3, r⟩

/-- C12 for `Gumbel(mu, beta, input_type)`. -/
theorem C12_gumbel_params (mu : ℝ) {scale : ℝ} (hs : 0 < scale) (sp : Option ℝ) :
    ∃ m, Gumbel.new mu scale true sp = .ok m ∧ Spec.RoundTrip m univ := by
  obtain ⟨m, h, _, _, _, r, _⟩ := (good_gumbel_params mu hs sp).ex
  exact ⟨m, h, r⟩

/-- C13 for `Gumbel(mu, beta, input_type)`. -/
theorem C13_gumbel_params (mu : ℝ) {scale : ℝ} (hs : 0 < scale) (sp : Option ℝ) :
    ∃ m, Gumbel.new mu scale true sp = .ok m ∧ Spec.JacobianCorrect m univ := by
  obtain ⟨m, h, _, _, _, _, r, _⟩ := (good_gumbel_params mu hs sp).ex
  exact ⟨m, h, r⟩

/-- C14 for `Gumbel(mu, beta, input_type)`. -/
theorem C14_gumbel_params (mu : ℝ) {scale : ℝ} (hs : 0 < scale) (sp : Option ℝ) :
    ∃ m, Gumbel.new mu scale true sp = .ok m ∧ m.mean = (mu + scale * eulerMascheroniConstant) ∧ m.stdv = (scale * π / √6) ∧ m.startpoint = sp.getD (mu + scale * eulerMascheroniConstant) ∧
      Spec.Law ((univ : Set ℝ).indicator m.pdf) (mu + scale * eulerMascheroniConstant) (scale * π / √6) := by
  obtain ⟨m, h, h1, h2, h3, _, _, r⟩ := (good_gumbel_params mu hs sp).ex
  exact ⟨m, h, h1, h2, h3, r⟩

/-- C12 for `TypeIsmallestValue(mean, stdv)`; same truncation. -/
theorem C12_typeIsmallest (μ : ℝ) {σ : ℝ} (hσ : 0 < σ) (sp : Option ℝ) :
    ∃ m, TypeIsmallest.new μ σ false sp = .ok m ∧ Spec.RoundTrip m univ := by
  obtain ⟨m, h, _, _, _, r, _⟩ := (good_typeIsmallest μ hσ sp).ex
  exact ⟨m, h, r⟩

/-- C13 for `TypeIsmallestValue(mean, stdv)`; same truncation. -/
theorem C13_typeIsmallest (μ : ℝ) {σ : ℝ} (hσ : 0 < σ) (sp : Option ℝ) :
    ∃ m, TypeIsmallest.new μ σ false sp = .ok m ∧ Spec.JacobianCorrect m univ := by
  obtain ⟨m, h, _, _, _, _, r, _⟩ := (good_typeIsmallest μ hσ sp).ex
  exact ⟨m, h, r⟩

/-- C14 for `TypeIsmallestValue(mean, stdv)`; same truncation. -/
theorem C14_typeIsmallest (μ : ℝ) {σ : ℝ} (hσ : 0 < σ) (sp : Option ℝ) :
    ∃ m, TypeIsmallest.new μ σ false sp = .ok m ∧ m.mean = (μ - (eulerMascheroniConstant - 0.5772156649) * (σ * √6 / π)) ∧ m.stdv = σ ∧ m.startpoint = sp.getD (μ - (eulerMascheroniConstant - 0.5772156649) * (σ * √6 / π)) ∧
      Spec.Law ((univ : Set ℝ).indicator m.pdf) (μ - (eulerMascheroniConstant - 0.5772156649) * (σ * √6 / π)) σ := by
  obtain ⟨m, h, h1, h2, h3, _, _, r⟩ := (good_typeIsmallest μ hσ sp).ex
  exact ⟨m, h, h1, h2, h3, r⟩

/-- C12 for `ChiSquare(mean, stdv)`: the moments are the requested ones only if `stdv² = 2·mean`; other requests are accepted (a message is printed). -/
theorem C12_chiSquare {μ σ : ℝ} (hμ : 0 < μ) (hσ : 0 < σ) (sp : Option ℝ) :
    ∃ m, ChiSquare.new μ σ false sp = .ok m ∧ Spec.RoundTrip m (Ioi 0) := by
  obtain ⟨m, h, _, _, _, r, _⟩ := (good_chiSquare hμ hσ sp).ex
  exact ⟨m, h, r⟩

/-- C13 for `ChiSquare(mean, stdv)`: the moments are the requested ones only if `stdv² = 2·mean`; other requests are accepted (a message is printed). -/
theorem C13_chiSquare {μ σ : ℝ} (hμ : 0 < μ) (hσ : 0 < σ) (sp : Option ℝ) :
    ∃ m, ChiSquare.new μ σ false sp = .ok m ∧ Spec.JacobianCorrect m (Ioi 0) := by
  obtain ⟨m, h, _, _, _, _, r, _⟩ := (good_chiSquare hμ hσ sp).ex
  exact ⟨m, h, r⟩

/-- C14 for `ChiSquare(mean, stdv)`: the moments are the requested ones only if `stdv² = 2·mean`; other requests are accepted (a message is printed). -/
theorem C14_chiSquare {μ σ : ℝ} (hμ : 0 < μ) (hσ : 0 < σ) (sp : Option ℝ) :
    ∃ m, ChiSquare.new μ σ false sp = .ok m ∧ m.mean = (2 * μ ^ 2 / σ ^ 2) ∧ m.stdv = (2 * μ / σ) ∧ m.startpoint = sp.getD (2 * μ ^ 2 / σ ^ 2) ∧
      Spec.Law ((Ioi 0).indicator m.pdf) (2 * μ ^ 2 / σ ^ 2) (2 * μ / σ) := by
  obtain ⟨m, h, h1, h2, h3, _, _, r⟩ := (good_chiSquare hμ hσ sp).ex
  exact ⟨m, h, h1, h2, h3, r⟩

/-- C12 for `Weibull(mean, stdv, epsilon)` for any shape `k` the equation solver returns: the mean is exact and the standard deviation is off by a multiple of the solver's residual. -/
theorem C12_weibull {μ σ eps k : ℝ} (hk : 0 < k) (hμ : eps < μ) (sp : Option ℝ) :
    ∃ m, Weibull.new k μ σ eps false sp = .ok m ∧ Spec.RoundTrip m (Ioi eps) := by
  obtain ⟨m, h, _, _, _, r, _⟩ := (good_weibull hk hμ sp).ex
  exact ⟨m, h, r⟩

/-- C13 for `Weibull(mean, stdv, epsilon)` for any shape `k` the equation solver returns: the mean is exact and the standard deviation is off by a multiple of the solver's residual. -/
theorem C13_weibull {μ σ eps k : ℝ} (hk : 0 < k) (hμ : eps < μ) (sp : Option ℝ) :
    ∃ m, Weibull.new k μ σ eps false sp = .ok m ∧ Spec.JacobianCorrect m (Ioi eps) := by
  obtain ⟨m, h, _, _, _, _, r, _⟩ := (good_weibull hk hμ sp).ex
  exact ⟨m, h, r⟩

/-- C14 for `Weibull(mean, stdv, epsilon)` for any shape `k` the equation solver returns: the mean is exact and the standard deviation is off by a multiple of the solver's residual. -/
theorem C14_weibull {μ σ eps k : ℝ} (hk : 0 < k) (hμ : eps < μ) (sp : Option ℝ) :
    ∃ m, Weibull.new k μ σ eps false sp = .ok m ∧ m.mean = μ ∧ m.stdv = (σ + (μ - eps) / Gamma (1 + 1 / k) * Weibull.parameter k (μ - eps) σ) ∧ m.startpoint = sp.getD μ ∧
      Spec.Law ((Ioi eps).indicator m.pdf) μ (σ + (μ - eps) / Gamma (1 + 1 / k) * Weibull.parameter k (μ - eps) σ) := by
  obtain ⟨m, h, h1, h2, h3, _, _, r⟩ := (good_weibull hk hμ sp).ex
  exact ⟨m, h, h1, h2, h3, r⟩

/-- C12 for `TypeIIlargestValue(mean, stdv)` for any shape `k > 2` the equation solver returns. -/
theorem C12_typeIIlargest {μ σ k : ℝ} (hk : 2 < k) (hμ : 0 < μ) (sp : Option ℝ) :
    ∃ m, TypeIIlargest.new k μ σ false sp = .ok m ∧ Spec.RoundTrip m (Ioi 0) := by
  obtain ⟨m, h, _, _, _, r, _⟩ := (good_typeIIlargest hk hμ sp).ex
  exact ⟨m, h, r⟩

/-- C13 for `TypeIIlargestValue(mean, stdv)` for any shape `k > 2` the equation solver returns. -/
theorem C13_typeIIlargest {μ σ k : ℝ} (hk : 2 < k) (hμ : 0 < μ) (sp : Option ℝ) :
    ∃ m, TypeIIlargest.new k μ σ false sp = .ok m ∧ Spec.JacobianCorrect m (Ioi 0) := by
  obtain ⟨m, h, _, _, _, _, r, _⟩ := (good_typeIIlargest hk hμ sp).ex
  exact ⟨m, h, r⟩

/-- C14 for `TypeIIlargestValue(mean, stdv)` for any shape `k > 2` the equation solver returns. -/
theorem C14_typeIIlargest {μ σ k : ℝ} (hk : 2 < k) (hμ : 0 < μ) (sp : Option ℝ) :
    ∃ m, TypeIIlargest.new k μ σ false sp = .ok m ∧ m.mean = μ ∧ m.stdv = (σ + μ / Gamma (1 - 1 / k) * TypeIIlargest.parameter k μ σ) ∧ m.startpoint = sp.getD μ ∧
      Spec.Law ((Ioi 0).indicator m.pdf) μ (σ + μ / Gamma (1 - 1 / k) * TypeIIlargest.parameter k μ σ) := by
  obtain ⟨m, h, h1, h2, h3, _, _, r⟩ := (good_typeIIlargest hk hμ sp).ex
  exact ⟨m, h, h1, h2, h3, r⟩

/-- C12, C13, C14 for `Beta(mean, stdv, a, b)` and any shape `q > 0` the minimiser returns: the mean is exact,
the standard deviation is off by exactly the minimised objective. -/
theorem C14_beta {μ σ a b q : ℝ} (hq : 0 < q) (ha : a < μ) (hb : μ < b) (sp : Option ℝ) :
    ∃ m, BetaDist.new q μ σ a b false sp = .ok m ∧ m.mean = μ ∧ |m.stdv - σ| = BetaDist.parameter q a b μ σ ∧
      Spec.Law ((Ioo a b).indicator m.pdf) μ m.stdv ∧ Spec.RoundTrip m (Ioo a b) ∧
      Spec.JacobianCorrect m (Ioo a b) := by
  obtain ⟨s, g, hs⟩ := good_beta (σ := σ) hq ha hb sp
  obtain ⟨m, h, h1, h2, _, r, j, l⟩ := g.ex
  exact ⟨m, h, h1, by rw [h2]; exact hs, by rw [h2]; exact l, r, j⟩

/-- C12 in general: whatever frozen law with a strictly increasing cdf inverted by its ppf on `S` is wrapped
(`ScipyDist` and every class without overrides), a constructed object has the round-trip property. -/
theorem C12_general (f : Frozen) (S : Set ℝ) (sp : Option ℝ) (m : Marginal) (h : ScipyDist.new f sp = .ok m)
    (h01 : ∀ x ∈ S, 0 < f.cdf x ∧ f.cdf x < 1) (hmono : StrictMonoOn f.cdf S)
    (hinv : ∀ p, 0 < p → p < 1 → f.ppf p ∈ S ∧ f.cdf (f.ppf p) = p) : Spec.RoundTrip m S := by
  unfold ScipyDist.new ofFrozen at h
  split at h
  · cases h
  · injection h with h; subst h
    have hmem : ∀ u, f.ppf (StdNormal.cdf u) ∈ S := fun u => (hinv _ (StdNormal.cdf_pos u) (StdNormal.cdf_lt_one u)).1
    have hleft : ∀ u, StdNormal.ppf (f.cdf (f.ppf (StdNormal.cdf u))) = u := fun u => by
      rw [(hinv _ (StdNormal.cdf_pos u) (StdNormal.cdf_lt_one u)).2, StdNormal.ppf_cdf]
    have hm2 : StrictMonoOn (fun x => StdNormal.ppf (f.cdf x)) S := fun x hx y hy hxy =>
      StdNormal.strictMonoOn_ppf (h01 x hx) (h01 y hy) (hmono hx hy hxy)
    refine ⟨hmem, hleft, ?_, ?_, hm2⟩
    · intro x hx
      obtain ⟨h0, h1⟩ := h01 x hx
      show f.ppf (StdNormal.cdf (StdNormal.ppf (f.cdf x))) = x
      rw [StdNormal.cdf_ppf h0 h1]
      exact hmono.injOn (hinv _ h0 h1).1 hx (hinv _ h0 h1).2
    · intro u v huv
      by_contra hc
      rcases (not_lt.1 hc).eq_or_lt with e | e
      · have := congrArg (fun x => StdNormal.ppf (f.cdf x)) e
        simp only [hleft] at this
        exact huv.ne this.symm
      · have := hm2 (hmem v) (hmem u) e
        simp only [hleft] at this
        exact absurd huv this.not_gt

/-- C13 in general: wherever the pdf is the derivative of the cdf, `jacobian` is the derivative of `x_to_u`. -/
theorem C13_general (f : Frozen) (sp : Option ℝ) (m : Marginal) (h : ScipyDist.new f sp = .ok m) (x : ℝ)
    (h0 : 0 < f.cdf x) (h1 : f.cdf x < 1) (hd : HasDerivAt f.cdf (f.pdf x) x) :
    HasDerivAt m.xToU (m.jac (m.xToU x) x) x ∧ m.jac (m.xToU x) x = f.pdf x / StdNormal.pdf (m.xToU x) := by
  unfold ScipyDist.new ofFrozen at h
  split at h
  · cases h
  · injection h with h; subst h
    refine ⟨?_, rfl⟩
    refine ((StdNormal.hasDerivAt_ppf h0 h1).comp x hd).congr_deriv ?_
    simp only [baseJac]; rw [div_eq_inv_mul]

/-- C13: the Jacobian of `Normal` is `1/stdv` everywhere and that of `Lognormal` is `1/(zeta·x)`. -/
theorem C13_closed_forms :
    (∀ μ σ : ℝ, ∀ sp m, Normal.new μ (.fin σ) sp = .ok m → ∀ u x, m.jac u x = 1 / σ) ∧
    (∀ lamb zeta : ℝ, 0 < zeta → ∀ sp m, Lognormal.new lamb zeta true sp = .ok m →
      ∀ x, 0 < x → m.jac (m.xToU x) x = 1 / (zeta * x)) := by
  constructor
  · intro μ σ sp m h u x
    injection h with h; subst h; rfl
  · intro lamb zeta hz sp m h x hx
    obtain ⟨m', h', _, _, _, _, j, _⟩ := (good_lognormal_params lamb hz sp).ex
    rw [h] at h'; injection h' with h'; subst h'
    have h1 := j x hx
    have hx' : m.xToU = fun x => (log x - lamb) / zeta := by
      unfold Lognormal.new Lognormal.ofParams at h
      simp only [if_true] at h
      split at h
      · cases h
      · injection h with h; subst h; rfl
    have h2 : HasDerivAt m.xToU (x⁻¹ / zeta) x := by
      rw [hx']
      exact ((hasDerivAt_log hx.ne').sub_const lamb).div_const zeta
    rw [h1.unique h2]; field_simp

/-- C15: without a frozen distribution, construction succeeds exactly when both moments are given and the
standard deviation is finite; the attributes are then the arguments and the default start point is the mean. -/
theorem C15_moments (mean : Option ℝ) (stdv : Option Num) (sp : Option ℝ) :
    (∀ m s, mean = some m → stdv = some (.fin s) → initMoments none mean stdv sp = .ok (m, s, sp.getD m)) ∧
    ((mean = none ∨ stdv = none ∨ stdv = some .nonfinite) → initMoments none mean stdv sp = .error .exception) := by
  constructor
  · rintro m s rfl rfl
    simp [initMoments, updateMoments, startPoint_eq]
  · rintro (h | h | h) <;> subst h
    · cases stdv <;> rfl
    · cases mean <;> rfl
    · cases mean <;> rfl

/-- C15: with a frozen distribution the moments are those of the law, and an infinite variance raises. -/
theorem C15_frozen (f : Frozen) (mean : Option ℝ) (stdv : Option Num) (sp : Option ℝ) :
    (Integrable (fun x => x ^ 2 * f.pdf x) → initMoments (some f) mean stdv sp =
      .ok (∫ x, x * f.pdf x, √(∫ x, (x - ∫ y, y * f.pdf y) ^ 2 * f.pdf x), sp.getD (∫ x, x * f.pdf x))) ∧
    (¬Integrable (fun x => x ^ 2 * f.pdf x) → initMoments (some f) mean stdv sp = .error .exception) := by
  constructor
  · intro h
    simp only [initMoments, updateMoments, Frozen.std, if_pos h, startPoint_eq]
    rfl
  · intro h
    simp only [initMoments, updateMoments, Frozen.std, if_neg h]

/-- C15 (finding): a negative standard deviation is accepted; `x_to_u` is then decreasing, and the density is
negative. -/
theorem C15_negative_stdv_accepted (μ : ℝ) {σ : ℝ} (hσ : σ < 0) (sp : Option ℝ) :
    ∃ m, Normal.new μ (.fin σ) sp = .ok m ∧ m.stdv < 0 ∧ StrictAnti m.xToU ∧ ∀ x, m.pdf x < 0 := by
  refine ⟨_, rfl, hσ, ?_, ?_⟩
  · intro x y hxy
    simp only [Normal.xToU]
    exact div_lt_div_of_neg_of_lt hσ (by linarith)
  · intro x
    exact div_neg_of_pos_of_neg (StdNormal.pdf_pos _) hσ

/-- Non-vacuity: a concrete log-normal variable. -/
example : ∃ m, Lognormal.new 10 2 false none = .ok m ∧ m.mean = 10 ∧ m.stdv = 2 ∧ m.xToU (m.uToX 3) = 3 := by
  obtain ⟨m, h, h1, h2, _, r, _⟩ := (good_lognormal (μ := 10) (σ := 2) (by norm_num) (by norm_num) none).ex
  exact ⟨m, h, h1, h2, r.left 3⟩

end Pystra.Props
