import Verif.Model.Scipy
import Mathlib.NumberTheory.Harmonic.EulerMascheroni

/-!
Model of the distribution classes (src/pystra/distributions/*.py).
Line numbers refer to the file named in each comment.
-/

namespace Pystra
open Real

/-- What the analyses use of a `Distribution` object: its attributes and the methods `pdf`, `cdf`, `ppf`,
`u_to_x`, `x_to_u`, `jacobian` (scalar versions; the diagonal matrix returned by `jacobian` is the number on
its diagonal). -/
structure Marginal where
  /-- `self.mean` -/
  mean : ℝ
  /-- `self.stdv` -/
  stdv : ℝ
  /-- `self.startpoint` -/
  startpoint : ℝ
  /-- `pdf(x)` -/
  pdf : ℝ → ℝ
  /-- `cdf(x)` -/
  cdf : ℝ → ℝ
  /-- `ppf(p)` -/
  ppf : ℝ → ℝ
  /-- `u_to_x(u)` -/
  uToX : ℝ → ℝ
  /-- `x_to_u(x)` -/
  xToU : ℝ → ℝ
  /-- `jacobian(u, x)` -/
  jac : ℝ → ℝ → ℝ

namespace Distribution

/-- `_update_moments` (distribution.py 170–181): a frozen object wins; otherwise both moments are needed; a
non-finite standard deviation raises.  (The sign of the standard deviation is not checked by the code.) -/
noncomputable def updateMoments (distObj : Option Frozen) (mean : Option ℝ) (stdv : Option Num) :
    Except PyErr (ℝ × ℝ) :=
  match distObj, mean, stdv with
  | some f, _, _ =>
    match f.std with
    | .fin s => .ok (f.mean, s)
    | .nonfinite => .error .exception
  | none, some m, some (.fin s) => .ok (m, s)
  | none, some _, some .nonfinite => .error .exception
  | none, _, _ => .error .exception

/-- `setStartPoint` (distribution.py 195–199). -/
def startPoint (mean : ℝ) (startpoint : Option ℝ) : ℝ :=
  match startpoint with
  | none => mean
  | some s => s

/-- The base class constructor's attribute part (distribution.py 144–164): moments, then start point. -/
noncomputable def initMoments (distObj : Option Frozen) (mean : Option ℝ) (stdv : Option Num)
    (startpoint : Option ℝ) : Except PyErr (ℝ × ℝ × ℝ) :=
  match updateMoments distObj mean stdv with
  | .error e => .error e
  | .ok (m, s) => .ok (m, s, startPoint m startpoint)

/-- `jacobian(u, x)` of the base class (distribution.py 284–307): `pdf(x) / phi(u)`. -/
noncomputable def baseJac (pdf : ℝ → ℝ) (u x : ℝ) : ℝ := pdf x / StdNormal.pdf u

/-- An object that inherits every method from the base class and delegates to a frozen distribution:
`pdf`, `cdf`, `ppf` (distribution.py 204–247), `u_to_x` (distribution.py 249–264), `x_to_u` (distribution.py 266–282), `jacobian`. -/
noncomputable def ofFrozen (f : Frozen) (startpoint : Option ℝ) : Except PyErr Marginal :=
  match initMoments (some f) none none startpoint with
  | .error e => .error e
  | .ok (m, s, sp) => .ok
    { mean := m, stdv := s, startpoint := sp
      pdf := f.pdf, cdf := f.cdf, ppf := f.ppf
      uToX := fun u => f.ppf (StdNormal.cdf u)
      xToU := fun x => StdNormal.ppf (f.cdf x)
      jac := baseJac f.pdf }

end Distribution

open Distribution

/-- `ScipyDist(name, dist_obj)` (scipydist.py 17–35). -/
noncomputable def ScipyDist.new (f : Frozen) (startpoint : Option ℝ) : Except PyErr Marginal :=
  ofFrozen f startpoint

namespace Normal

/-- `Normal.pdf` (normal.py 35–41). -/
noncomputable def pdf (mean stdv x : ℝ) : ℝ := StdNormal.pdf ((x - mean) / stdv) / stdv
/-- `Normal.cdf` (normal.py 43–49). -/
noncomputable def cdf (mean stdv x : ℝ) : ℝ := StdNormal.cdf ((x - mean) / stdv)
/-- `Normal.ppf` (normal.py 51–57). -/
noncomputable def ppf (mean stdv p : ℝ) : ℝ := stdv * StdNormal.ppf p + mean
/-- `Normal.u_to_x` (normal.py 67–72). -/
def uToX (mean stdv u : ℝ) : ℝ := u * stdv + mean
/-- `Normal.x_to_u` (normal.py 74–79). -/
noncomputable def xToU (mean stdv x : ℝ) : ℝ := (x - mean) / stdv
/-- `Normal.jacobian` (normal.py 81–88). -/
noncomputable def jac (stdv : ℝ) (_u _x : ℝ) : ℝ := 1 / stdv
/-- `Normal.dF_dtheta` (normal.py 90–104): the entries `"mean"` and `"std"`. -/
noncomputable def dFdTheta (mean stdv x : ℝ) : ℝ × ℝ :=
  let z := (x - mean) / stdv
  let phi := StdNormal.pdf z
  (-phi / stdv, -phi * z / stdv)

/-- `Normal(name, mean, stdv)` (normal.py 23–35). -/
noncomputable def new (mean : ℝ) (stdv : Num) (startpoint : Option ℝ) : Except PyErr Marginal :=
  match initMoments none (some mean) (some stdv) startpoint with
  | .error e => .error e
  | .ok (m, s, sp) => .ok
    { mean := m, stdv := s, startpoint := sp, pdf := pdf m s, cdf := cdf m s, ppf := ppf m s
      uToX := uToX m s, xToU := xToU m s, jac := jac s }

end Normal

namespace Lognormal

/-- `_update_params` (lognormal.py 48–51): `(lamb, zeta)`. -/
noncomputable def params (mean stdv : ℝ) : ℝ × ℝ :=
  let cov := stdv / mean
  let zeta := √(log (1 + cov ^ 2))
  let lamb := log mean - 0.5 * zeta ^ 2
  (lamb, zeta)

/-- `Lognormal.pdf` (lognormal.py 55–62). -/
noncomputable def pdf (lamb zeta x : ℝ) : ℝ :=
  exp (-0.5 * ((log x - lamb) / zeta) ^ 2) / (√(2 * π) * zeta * x)
open Classical in
/-- `Lognormal.cdf` (lognormal.py 64–70).  At 0 numpy's `log` is `-inf` and the value is 0; below 0 the program returns NaN, for which the
model has 0. -/
noncomputable def cdf (lamb zeta x : ℝ) : ℝ := if 0 < x then 0.5 + erf (((log x - lamb) / zeta) / √2) / 2 else 0
/-- `Lognormal.u_to_x` (lognormal.py 72–77). -/
noncomputable def uToX (lamb zeta u : ℝ) : ℝ := exp (u * zeta + lamb)
/-- `Lognormal.x_to_u` (lognormal.py 79–85). -/
noncomputable def xToU (lamb zeta x : ℝ) : ℝ := (log x - lamb) / zeta
/-- `Lognormal.dF_dtheta` (lognormal.py 87–126) from the attributes `mean`, `stdv`, `lamb`, `zeta`. -/
noncomputable def dFdTheta (mean stdv lamb zeta x : ℝ) : ℝ × ℝ :=
  let cov := stdv / mean
  let cov2 := cov ^ 2
  let z := (log x - lamb) / zeta
  let phi := StdNormal.pdf z
  let dzeta_dmu := -cov2 / (mean * zeta * (1 + cov2))
  let dzeta_dsig := cov / (mean * zeta * (1 + cov2))
  let dlamb_dmu := 1 / mean - zeta * dzeta_dmu
  let dlamb_dsig := -zeta * dzeta_dsig
  let coeff := phi / zeta
  (coeff * (-dlamb_dmu - z * dzeta_dmu), coeff * (-dlamb_dsig - z * dzeta_dsig))

/-- The object with given parameters (lognormal.py 25–46): moments come from `scipy.stats.lognorm`; `ppf` is
inherited and uses the frozen object, the other methods are the overrides. -/
noncomputable def ofParams (lamb zeta : ℝ) (startpoint : Option ℝ) : Except PyErr Marginal :=
  let f := (Frozen.lognorm zeta).locScale 0 (exp lamb)
  match initMoments (some f) none none startpoint with
  | .error e => .error e
  | .ok (m, s, sp) => .ok
    { mean := m, stdv := s, startpoint := sp, pdf := pdf lamb zeta, cdf := cdf lamb zeta, ppf := f.ppf
      uToX := uToX lamb zeta, xToU := xToU lamb zeta, jac := baseJac (pdf lamb zeta) }

/-- `Lognormal(name, mean, stdv, input_type)` (lognormal.py 25–46). -/
noncomputable def new (mean stdv : ℝ) (inputType : Bool) (startpoint : Option ℝ) : Except PyErr Marginal :=
  if inputType then ofParams mean stdv startpoint
  else
    let (lamb, zeta) := params mean stdv
    ofParams lamb zeta startpoint

end Lognormal

namespace ShiftedLognormal

/-- `ShiftedLognormal(name, mean, stdv, lower)` (shiftedlognormal.py 26–77); a non-`None` `input_type` raises
`NotImplementedError`. -/
noncomputable def new (mean stdv lower : ℝ) (inputType : Bool) (startpoint : Option ℝ) : Except PyErr Marginal :=
  if inputType then .error .notImplemented
  else
    let (lamb, zeta) := Lognormal.params (mean - lower) stdv
    let f := (Frozen.lognorm zeta).locScale lower (exp lamb)
    match initMoments (some f) none none startpoint with
    | .error e => .error e
    | .ok (m, s, sp) => .ok
      { mean := m, stdv := s, startpoint := sp
        pdf := fun x => Lognormal.pdf lamb zeta (x - lower)
        cdf := fun x => Lognormal.cdf lamb zeta (x - lower)
        ppf := f.ppf
        uToX := fun u => Lognormal.uToX lamb zeta u + lower
        xToU := fun x => Lognormal.xToU lamb zeta (x - lower)
        jac := baseJac (fun x => Lognormal.pdf lamb zeta (x - lower)) }

/-- `dF_dtheta` as inherited from `Lognormal` (lognormal.py 87–126 through shiftedlognormal.py 9): it reads
`self.mean`, `self.stdv` and `log x` without the shift. -/
noncomputable def dFdTheta (mean stdv lower x : ℝ) : ℝ × ℝ :=
  let (lamb, zeta) := Lognormal.params (mean - lower) stdv
  Lognormal.dFdTheta mean stdv lamb zeta x

end ShiftedLognormal

namespace Uniform

/-- The interval `[a, b]` (uniform.py 21–27). -/
noncomputable def bounds (mean stdv : ℝ) (inputType : Bool) : ℝ × ℝ :=
  if inputType then (mean, stdv) else (mean - √3 * stdv, mean + √3 * stdv)

/-- `Uniform(name, mean, stdv, input_type)` (uniform.py 20–58). -/
noncomputable def new (mean stdv : ℝ) (inputType : Bool) (startpoint : Option ℝ) : Except PyErr Marginal :=
  let (a, b) := bounds mean stdv inputType
  let f := Frozen.uniform01.locScale a (b - a)
  match initMoments (some f) none none startpoint with
  | .error e => .error e
  | .ok (m, s, sp) => .ok
    { mean := m, stdv := s, startpoint := sp, pdf := f.pdf, cdf := f.cdf, ppf := f.ppf
      uToX := fun u => a + (b - a) * StdNormal.cdf u
      xToU := fun x => StdNormal.ppf (f.cdf x)
      jac := baseJac f.pdf }

end Uniform

/-- `Gamma` (gamma.py 19–37). -/
noncomputable def GammaDist.frozen (mean stdv : ℝ) (inputType : Bool) : Frozen :=
  let (beta, alpha) := if inputType then (mean, stdv) else (mean / stdv ^ 2, mean ^ 2 / stdv ^ 2)
  (Frozen.gamma alpha).locScale 0 (1 / beta)

/-- `Gamma(name, mean, stdv, input_type)` (gamma.py 19–37). -/
noncomputable def GammaDist.new (mean stdv : ℝ) (inputType : Bool) (startpoint : Option ℝ) : Except PyErr Marginal :=
  ofFrozen (GammaDist.frozen mean stdv inputType) startpoint

/-- `ShiftedExponential` (shiftedexponential.py 19–37). -/
noncomputable def ShiftedExponential.frozen (mean stdv : ℝ) (inputType : Bool) : Frozen :=
  let (lamb, x_zero) := if inputType then (mean, stdv) else (1 / stdv, mean - stdv)
  Frozen.expon.locScale x_zero (1 / lamb)

/-- `ShiftedExponential(name, mean, stdv, input_type)` (shiftedexponential.py 19–37). -/
noncomputable def ShiftedExponential.new (mean stdv : ℝ) (inputType : Bool) (startpoint : Option ℝ) :
    Except PyErr Marginal :=
  ofFrozen (ShiftedExponential.frozen mean stdv inputType) startpoint

/-- `ShiftedRayleigh` (shiftedrayleigh.py 20–38). -/
noncomputable def ShiftedRayleigh.frozen (mean stdv : ℝ) (inputType : Bool) : Frozen :=
  let (a, x_zero) := if inputType then (mean, stdv)
    else (stdv / √(2 - π * 0.5), mean - stdv * √(π / (4 - π)))
  Frozen.rayleigh.locScale x_zero a

/-- `ShiftedRayleigh(name, mean, stdv, input_type)` (shiftedrayleigh.py 20–38). -/
noncomputable def ShiftedRayleigh.new (mean stdv : ℝ) (inputType : Bool) (startpoint : Option ℝ) :
    Except PyErr Marginal :=
  ofFrozen (ShiftedRayleigh.frozen mean stdv inputType) startpoint

/-- `Gumbel` (gumbel.py 20–38), with the truncated constant of the source; `TypeIlargestValue`
(typeilargestvalue.py 18–31) wraps the same object. -/
noncomputable def Gumbel.frozen (mean stdv : ℝ) (inputType : Bool) : Frozen :=
  let (mu, scale) := if inputType then (mean, stdv)
    else (mean - 0.5772156649 * stdv * √6 / π, stdv * √6 / π)
  Frozen.gumbelR.locScale mu scale

/-- `Gumbel(name, mean, stdv, input_type)` (gumbel.py 20–38) and `TypeIlargestValue`. -/
noncomputable def Gumbel.new (mean stdv : ℝ) (inputType : Bool) (startpoint : Option ℝ) : Except PyErr Marginal :=
  ofFrozen (Gumbel.frozen mean stdv inputType) startpoint

/-- `TypeIsmallestValue` (typeismallestvalue.py 20–38). -/
noncomputable def TypeIsmallest.frozen (mean stdv : ℝ) (inputType : Bool) : Frozen :=
  let (mu, beta) := if inputType then (mean, stdv)
    else (mean + (0.5772156649 * stdv * √6) / π, π / (stdv * √6))
  Frozen.gumbelL.locScale mu (1 / beta)

/-- `TypeIsmallestValue(name, mean, stdv, input_type)` (typeismallestvalue.py 20–38). -/
noncomputable def TypeIsmallest.new (mean stdv : ℝ) (inputType : Bool) (startpoint : Option ℝ) :
    Except PyErr Marginal :=
  ofFrozen (TypeIsmallest.frozen mean stdv inputType) startpoint

/-- `ChiSquare` (chisquare.py 19–44); the consistency message is only printed. -/
noncomputable def ChiSquare.frozen (mean stdv : ℝ) (inputType : Bool) : Frozen :=
  let nu := if inputType then mean else 2 * mean ^ 2 / stdv ^ 2
  Frozen.chi2 nu

/-- `ChiSquare(name, mean, stdv, input_type)` (chisquare.py 19–44). -/
noncomputable def ChiSquare.new (mean stdv : ℝ) (inputType : Bool) (startpoint : Option ℝ) : Except PyErr Marginal :=
  ofFrozen (ChiSquare.frozen mean stdv inputType) startpoint

/-- The equation solved by `Weibull` for its shape (weibull.py 55–60). -/
noncomputable def Weibull.parameter (x meaneps stdv : ℝ) : ℝ :=
  √(Gamma (1 + 2 / x) - Gamma (1 + 1 / x) ^ 2) - (stdv / meaneps) * Gamma (1 + 1 / x)

/-- `Weibull` (weibull.py 22–53), `TypeIIIsmallestValue` (typeiiismallestvalue.py 21–36); `k` is the number
returned by `scipy.optimize.fsolve` on `Weibull.parameter`. -/
noncomputable def Weibull.frozen (k : ℝ) (mean stdv epsilon : ℝ) (inputType : Bool) : Frozen :=
  let (u1, k) := if inputType then (mean, stdv) else ((mean - epsilon) / Gamma (1 + 1 / k) + epsilon, k)
  (Frozen.weibullMin k).locScale epsilon (u1 - epsilon)

/-- `Weibull(name, mean, stdv, epsilon, input_type)` (weibull.py 22–53). -/
noncomputable def Weibull.new (k mean stdv epsilon : ℝ) (inputType : Bool) (startpoint : Option ℝ) :
    Except PyErr Marginal :=
  ofFrozen (Weibull.frozen k mean stdv epsilon inputType) startpoint

/-- The equation solved by `TypeIIlargestValue` (typeiilargestvalue.py 48–54). -/
noncomputable def TypeIIlargest.parameter (x mean stdv : ℝ) : ℝ :=
  √(Gamma (1 - 2 / x) - Gamma (1 - 1 / x) ^ 2) - (stdv / mean) * Gamma (1 - 1 / x)

/-- `TypeIIlargestValue` (typeiilargestvalue.py 22–46); `k` from `fsolve`. -/
noncomputable def TypeIIlargest.frozen (k : ℝ) (mean stdv : ℝ) (inputType : Bool) : Frozen :=
  let (u_n, k) := if inputType then (mean, stdv) else (mean / Gamma (1 - 1 / k), k)
  (Frozen.invweibull k).locScale 0 u_n

/-- `TypeIIlargestValue(name, mean, stdv, input_type)` (typeiilargestvalue.py 22–46). -/
noncomputable def TypeIIlargest.new (k mean stdv : ℝ) (inputType : Bool) (startpoint : Option ℝ) :
    Except PyErr Marginal :=
  ofFrozen (TypeIIlargest.frozen k mean stdv inputType) startpoint

/-- The objective minimised by `Beta` for its shape `q` (beta.py 57–63). -/
noncomputable def BetaDist.parameter (q a b mean stdv : ℝ) : ℝ :=
  let r := (b - mean) * (mean - a)⁻¹ * q
  |((b - a) * (q + r)⁻¹) * √(q * r * (q + r + 1)⁻¹) - stdv|

/-- `Beta` (beta.py 23–55); `q` is the number returned by `scipy.optimize.fmin`. -/
noncomputable def BetaDist.frozen (q : ℝ) (mean stdv a b : ℝ) (inputType : Bool) : Frozen :=
  let (q, r) := if inputType then (mean, stdv) else (q, q * (b - a) * (mean - a)⁻¹ - q)
  (Frozen.betaDist q r).locScale a (b - a)

/-- `Beta(name, mean, stdv, a, b, input_type)` (beta.py 23–55). -/
noncomputable def BetaDist.new (q mean stdv a b : ℝ) (inputType : Bool) (startpoint : Option ℝ) :
    Except PyErr Marginal :=
  ofFrozen (BetaDist.frozen q mean stdv a b inputType) startpoint

/-- `np.isclose(a, 0)` with default tolerances: `|a| ≤ 1e-8`. -/
def iscloseZero (a : ℝ) : Prop := |a| ≤ 1e-8

namespace GEV

open Classical in
/-- `(loc, scale)` of `GEVmax`/`GEVmin` from mean and standard deviation (gev.py 46–52, 117–136). -/
noncomputable def locScale (mean stdv shape : ℝ) : ℝ × ℝ :=
  let g1 := Gamma (1 - shape)
  let g2 := Gamma (1 - 2 * shape)
  if iscloseZero shape then
    let scale := stdv * √6 / π
    (mean - scale * eulerMascheroniConstant, scale)
  else
    let scale := stdv * |shape| / √(g2 - g1 ^ 2)
    (mean - scale / shape * (g1 - 1), scale)

open Classical in
/-- Moments recorded by `GEVmin` when `loc` and `scale` are given (gev.py 117–136). -/
noncomputable def moments (loc scale shape : ℝ) : ℝ × ℝ :=
  let g1 := Gamma (1 - shape)
  let g2 := Gamma (1 - 2 * shape)
  if iscloseZero shape then (loc + scale * eulerMascheroniConstant, scale * π / √6)
  else (loc + (g1 - 1) * scale / shape, √((g2 - g1 ^ 2) * (scale / shape) ^ 2))

open Classical in
/-- `GEVmax` (gev.py 36–72). -/
noncomputable def newMax (mean stdv shape : ℝ) (inputType : Bool) (startpoint : Option ℝ) : Except PyErr Marginal :=
  if shape ≥ 0.5 then .error .valueError
  else
    let (loc, scale) := if inputType then (mean, stdv) else locScale mean stdv shape
    ofFrozen ((Frozen.genextreme (-shape)).locScale loc scale) startpoint

open Classical in
/-- `GEVmin` (gev.py 107–188): the frozen object models `-X`; `pdf`, `cdf`, `ppf` are overridden, `u_to_x`,
`x_to_u` and `jacobian` are inherited (`u_to_x` calls `dist_obj.ppf`, the other two call the overrides). -/
noncomputable def newMin (mean stdv shape : ℝ) (inputType : Bool) (startpoint : Option ℝ) : Except PyErr Marginal :=
  if shape ≥ 0.5 then .error .valueError
  else
    let (loc, scale) := if inputType then (mean, stdv) else locScale mean stdv shape
    let (m, s) := if inputType then moments loc scale shape else (mean, stdv)
    let f := (Frozen.genextreme (-shape)).locScale (-loc) scale
    match initMoments (some f) none none startpoint with
    | .error e => .error e
    | .ok _ => .ok
      { mean := m, stdv := s, startpoint := startPoint m startpoint
        pdf := fun x => f.pdf (-x)
        cdf := fun x => 1 - f.cdf (-x)
        ppf := fun u => -f.ppf u
        uToX := fun u => f.ppf (StdNormal.cdf u)
        xToU := fun x => StdNormal.ppf (1 - f.cdf (-x))
        jac := baseJac (fun x => f.pdf (-x)) }

end GEV

/-- `scipy.optimize.fmin` as used by `Maximum.ppf` / `MaxParent.ppf` (maximum.py 62–72, parent.py 65–75): it maps
the objective to the point returned. -/
abbrev Minimiser := (ℝ → ℝ) → ℝ

/-- `zero_distn` (maximum.py 134–138, parent.py 144–148): the objective minimised by `ppf`. -/
def zeroDistn (cdf : ℝ → ℝ) (p x : ℝ) : ℝ := |cdf x - p|

/-- `ppf(p)` by minimisation (maximum.py 62–72, parent.py 65–75). -/
def ppfBySearch (fmin : Minimiser) (cdf : ℝ → ℝ) (p : ℝ) : ℝ := fmin (zeroDistn cdf p)

namespace Maximum

open Classical in
/-- `Maximum.pdf` (maximum.py 44–53). -/
noncomputable def pdf (parent : Marginal) (N x : ℝ) : ℝ :=
  let pdf := parent.pdf x
  let cdf := if N > 1 then parent.cdf x else 1
  N * pdf * cdf ^ (N - 1)

/-- `Maximum.cdf` (maximum.py 55–60). -/
noncomputable def cdf (parent : Marginal) (N x : ℝ) : ℝ := parent.cdf x ^ N

open Classical in
/-- `Maximum(name, parent, N)` (maximum.py 23–42, 62–96); `stats` are the sample mean and standard deviation of
100 simulated values (maximum.py 98–109), `fmin` the minimiser. -/
noncomputable def new (fmin : Minimiser) (stats : ℝ × ℝ) (parent : Marginal) (N : ℝ) (startpoint : Option ℝ) :
    Except PyErr Marginal :=
  if N < 1 then .error .exception
  else .ok
    { mean := stats.1, stdv := stats.2, startpoint := startPoint stats.1 startpoint
      pdf := pdf parent N, cdf := cdf parent N, ppf := ppfBySearch fmin (cdf parent N)
      uToX := fun u => ppfBySearch fmin (cdf parent N) (StdNormal.cdf u)
      xToU := fun x => StdNormal.ppf (cdf parent N x)
      jac := baseJac (pdf parent N) }

end Maximum

namespace MaxParent

/-- `MaxParent.cdf` (parent.py 58–63). -/
noncomputable def cdf (maxDist : Marginal) (N x : ℝ) : ℝ := maxDist.cdf x ^ (1 / N)

/-- `MaxParent.pdf` (parent.py 49–56). -/
noncomputable def pdf (maxDist : Marginal) (N x : ℝ) : ℝ := maxDist.pdf x / (N * cdf maxDist N x ^ (N - 1))

open Classical in
/-- `MaxParent(name, max_dist, N)` (parent.py 28–47, 65–112). -/
noncomputable def new (fmin : Minimiser) (stats : ℝ × ℝ) (maxDist : Marginal) (N : ℝ) (startpoint : Option ℝ) :
    Except PyErr Marginal :=
  if N < 1 then .error .exception
  else .ok
    { mean := stats.1, stdv := stats.2, startpoint := startPoint stats.1 startpoint
      pdf := pdf maxDist N, cdf := cdf maxDist N, ppf := ppfBySearch fmin (cdf maxDist N)
      uToX := fun u => ppfBySearch fmin (cdf maxDist N) (StdNormal.cdf u)
      xToU := fun x => StdNormal.ppf (cdf maxDist N x)
      jac := baseJac (pdf maxDist N) }

end MaxParent

namespace ZeroInflated

/-- `self.zero_tol` (zeroinflated.py 40). -/
noncomputable def zeroTol : ℝ := 1e-6

open Classical in
/-- `ZeroInflated.pdf` (zeroinflated.py 51–59). -/
noncomputable def pdf (dist : Marginal) (p x : ℝ) : ℝ :=
  dist.pdf x * (1 - p) + (if -zeroTol < x ∧ x < zeroTol then p else 0)

open Classical in
/-- `ZeroInflated.cdf` (zeroinflated.py 61–69). -/
noncomputable def cdf (dist : Marginal) (p x : ℝ) : ℝ :=
  dist.cdf x * (1 - p) + (if -zeroTol < x then p else 0)

open Classical in
/-- `ZeroInflated.ppf` (zeroinflated.py 71–91); the array starts at zero, so a probability in none of the three
classes (exactly `q·p0`) yields zero. -/
noncomputable def ppf (dist : Marginal) (p t : ℝ) : ℝ :=
  let q := 1 - p
  let qp0 := q * dist.cdf 0
  let qp0p := qp0 + p
  if t ≥ qp0p then dist.ppf ((t - p) / q)
  else if qp0 < t ∧ t < qp0p then 0
  else if t < qp0 then dist.ppf (t / q)
  else 0

/-- `_get_stats` (zeroinflated.py 117–133). -/
noncomputable def stats (dist : Marginal) (p : ℝ) : ℝ × ℝ :=
  let q := 1 - p
  (q * dist.mean, √(q * dist.stdv ^ 2 + p * q * dist.mean ^ 2))

/-- The object for a given zero probability; `u_to_x`, `x_to_u` and `jacobian` are zeroinflated.py 93–115. -/
noncomputable def obj (dist : Marginal) (p : ℝ) (startpoint : ℝ) : Marginal :=
  { mean := (stats dist p).1, stdv := (stats dist p).2, startpoint := startpoint
    pdf := pdf dist p, cdf := cdf dist p, ppf := ppf dist p
    uToX := fun u => ppf dist p (StdNormal.cdf u)
    xToU := fun x => StdNormal.ppf (cdf dist p x)
    jac := baseJac (pdf dist p) }

open Classical in
/-- `ZeroInflated(name, dist, p)` (zeroinflated.py 26–49). -/
noncomputable def new (dist : Marginal) (p : ℝ) (startpoint : Option ℝ) : Except PyErr Marginal :=
  if p < 0 then .error .exception
  else if p ≥ 1 then .error .exception
  else .ok (obj dist p (startPoint (stats dist p).1 startpoint))

/-- `set_zero_probability(p)` (zeroinflated.py 149–155): no range check; start point kept. -/
noncomputable def setZeroProbability (m : Marginal) (dist : Marginal) (p : ℝ) : Marginal := obj dist p m.startpoint

end ZeroInflated
end Pystra
