import Verif.Model.DistClasses
import Verif.Spec.NatafLaw

/-! C87: the methods of one distribution object describe one law. -/

namespace Pystra.Spec
open Set

/-- The constructor arguments of each class for which it makes a proper law with a standard deviation: first the call with mean and
standard deviation, then the call with the class's own parameters.  Unlike `Reproducible` this asks nothing of the numerical solvers but
a result in the admissible range.  `GEVmin` (see C20) and the composite classes are left out. -/
def Accepted (S : Solvers) (F : Family) (inputType : Bool) (p q : ℝ) (kw : Dict String ℝ) : Prop :=
  match F, inputType with
  | .normal, _ => 0 < q
  | .lognormal, false => 0 < p ∧ 0 < q
  | .lognormal, true => 0 < q
  | .shiftedLognormal, false => Family.arg kw "lower" < p ∧ 0 < q
  | .uniform, false => 0 < q
  | .uniform, true => p < q
  | .gamma, _ => 0 < p ∧ 0 < q
  | .shiftedExponential, false => 0 < q
  | .shiftedExponential, true => 0 < p
  | .shiftedRayleigh, false => 0 < q
  | .shiftedRayleigh, true => 0 < p
  | .gumbel, _ => 0 < q
  | .typeIlargest, _ => 0 < q
  | .typeIsmallest, _ => 0 < q
  | .chiSquare, false => 0 < p ∧ 0 < q
  | .chiSquare, true => 0 < p
  | .weibull, false | .typeIIIsmallest, false =>
    Family.arg kw "epsilon" < p ∧ 0 < S.weibull (p - Family.arg kw "epsilon") q
  | .weibull, true | .typeIIIsmallest, true => Family.arg kw "epsilon" < p ∧ 0 < q
  | .typeIIlargest, false => 0 < p ∧ 2 < S.typeII p q
  | .typeIIlargest, true => 0 < p ∧ 2 < q
  | .beta, false =>
    Family.arg kw "a" < p ∧ p < Family.arg kw "b" ∧ 0 < S.beta (Family.arg kw "a") (Family.arg kw "b") p q
  | .beta, true => 0 < p ∧ 0 < q ∧ Family.arg kw "a" < Family.arg kw "b"
  | .gevMax, _ => 0 < q ∧ Family.arg kw "shape" < 1 / 2 ∧ (Family.arg kw "shape" = 0 ∨ 1e-8 < |Family.arg kw "shape"|)
  | _, _ => False

/-- `cdf`, `ppf`, `pdf`, `u_to_x` and `x_to_u` belong to one continuous law with support `D`. -/
structure OneLaw (m : Marginal) (D : Set ℝ) : Prop where
  /-- `cdf` is a probability, strictly between 0 and 1 on the support -/
  cdf_mem : ∀ x ∈ D, 0 < m.cdf x ∧ m.cdf x < 1
  /-- `cdf` increases -/
  cdf_mono : StrictMonoOn m.cdf D
  /-- `ppf` inverts `cdf` -/
  cdf_ppf : ∀ p, 0 < p → p < 1 → m.ppf p ∈ D ∧ m.cdf (m.ppf p) = p
  /-- `cdf` inverts `ppf` -/
  ppf_cdf : ∀ x ∈ D, m.ppf (m.cdf x) = x
  /-- `pdf` is the derivative of `cdf` -/
  deriv : ∀ x ∈ D, HasDerivAt m.cdf (m.pdf x) x
  /-- `x_to_u` is `Φ⁻¹(cdf(x))` -/
  xToU : ∀ x ∈ D, m.xToU x = StdNormal.ppf (m.cdf x)
  /-- `u_to_x` is `ppf(Φ(u))` -/
  uToX : ∀ u, m.uToX u = m.ppf (StdNormal.cdf u)

end Pystra.Spec
