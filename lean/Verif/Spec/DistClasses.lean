import Verif.Model.DistClasses

/-! Which constructor calls give an object that can be rebuilt from what it reports. -/

namespace Pystra.Spec
open Real

/-- The arguments of a constructor call, class by class, for which the class makes a proper law (see C14, C20) that is determined by
its mean, its standard deviation and the extra arguments.  First the call with mean and standard deviation (`inputType = false`), then
the call with the class's own parameters.  The Type I classes are missing: see `C85_gumbel`.  Where the class solves an equation
numerically, the solver has found the solution. -/
def Reproducible (S : Solvers) (F : Family) (inputType : Bool) (p q : ℝ) (kw : Dict String ℝ) : Prop :=
  match F, inputType with
  | .normal, _ => True
  | .lognormal, false => 0 < p ∧ 0 < q
  | .lognormal, true => 0 < q
  | .shiftedLognormal, false => Family.arg kw "lower" < p ∧ 0 < q
  | .uniform, false => 0 < q
  | .uniform, true => p < q
  | .gamma, _ => 0 < p ∧ 0 < q
  | .shiftedExponential, false => 0 < q
  | .shiftedExponential, true => 0 < p
  | .shiftedRayleigh, false => 0 < q
  | .shiftedRayleigh, true => 0 < p
  | .chiSquare, false => 0 < p ∧ 0 < q
  | .chiSquare, true => 0 < p
  | .weibull, false | .typeIIIsmallest, false =>
    Family.arg kw "epsilon" < p ∧ 0 < S.weibull (p - Family.arg kw "epsilon") q ∧
      Weibull.parameter (S.weibull (p - Family.arg kw "epsilon") q) (p - Family.arg kw "epsilon") q = 0
  | .weibull, true | .typeIIIsmallest, true =>
    Family.arg kw "epsilon" < p ∧ 0 < q ∧
      S.weibull ((p - Family.arg kw "epsilon") * Gamma (1 + 1 / q))
        ((p - Family.arg kw "epsilon") * √(Gamma (1 + 2 / q) - Gamma (1 + 1 / q) ^ 2)) = q
  | .typeIIlargest, false => 0 < p ∧ 2 < S.typeII p q ∧ TypeIIlargest.parameter (S.typeII p q) p q = 0
  | .typeIIlargest, true =>
    0 < p ∧ 2 < q ∧ S.typeII (p * Gamma (1 - 1 / q)) (p * √(Gamma (1 - 2 / q) - Gamma (1 - 1 / q) ^ 2)) = q
  | .beta, false =>
    Family.arg kw "a" < p ∧ p < Family.arg kw "b" ∧ 0 < S.beta (Family.arg kw "a") (Family.arg kw "b") p q ∧
      BetaDist.parameter (S.beta (Family.arg kw "a") (Family.arg kw "b") p q) (Family.arg kw "a") (Family.arg kw "b") p q = 0
  | .beta, true =>
    0 < p ∧ 0 < q ∧ Family.arg kw "a" < Family.arg kw "b" ∧
      S.beta (Family.arg kw "a") (Family.arg kw "b")
        (Family.arg kw "a" + (Family.arg kw "b" - Family.arg kw "a") * (p / (p + q)))
        ((Family.arg kw "b" - Family.arg kw "a") * (p + q)⁻¹ * √(p * q * (p + q + 1)⁻¹)) = p
  | .gevMax, _ => 0 < q ∧ Family.arg kw "shape" < 1 / 2 ∧ (Family.arg kw "shape" = 0 ∨ 1e-8 < |Family.arg kw "shape"|)
  | .gevMin, _ => 0 < q ∧ Family.arg kw "shape" < 1 / 2
  | _, _ => False

/-- `c` is the object `o` rebuilt: the same class, extra arguments, mean, standard deviation and methods; its start point is the
default one, whatever the original's. -/
def Rebuilt (o c : Dist) : Prop :=
  c.cls = o.cls ∧ c.kwargs = o.kwargs ∧ c.marg.mean = o.marg.mean ∧ c.marg.stdv = o.marg.stdv ∧ c.marg.pdf = o.marg.pdf ∧
    c.marg.cdf = o.marg.cdf ∧ c.marg.ppf = o.marg.ppf ∧ c.marg.uToX = o.marg.uToX ∧ c.marg.xToU = o.marg.xToU ∧
    c.marg.jac = o.marg.jac ∧ c.marg.startpoint = o.marg.mean

/-- `c` is the object `o` moved by `δ` along the axis: the mean, the quantiles and the transformation are moved, pdf and cdf shifted, the
standard deviation is the same; the start point is the mean. -/
def Moved (o c : Dist) (δ : ℝ) : Prop :=
  c.cls = o.cls ∧ c.kwargs = o.kwargs ∧ c.marg.stdv = o.marg.stdv ∧ c.marg.mean = o.marg.mean + δ ∧ c.marg.startpoint = c.marg.mean ∧
    (∀ x, c.marg.pdf x = o.marg.pdf (x - δ)) ∧ (∀ x, c.marg.cdf x = o.marg.cdf (x - δ)) ∧
    (∀ t, c.marg.ppf t = o.marg.ppf t + δ) ∧ ∀ u, c.marg.uToX u = o.marg.uToX u + δ

end Pystra.Spec

namespace Pystra.Spec

/-- The constructor call returns. -/
def Returns (r : Except PyErr Marginal) : Prop := ∃ m, r = .ok m

/-- The step with which a parameter of value `v` of a variable with standard deviation `σ` is varied. -/
noncomputable def step (v σ : ℝ) : ℝ := max (|v| * 1e-6) (σ * 1e-8)

/-- The cdf at `x` of a constructed object (`0` if the constructor raises). -/
noncomputable def cdfAt (r : Except PyErr Marginal) (x : ℝ) : ℝ :=
  match r with
  | .ok m => m.cdf x
  | .error _ => 0

/-- The pdf at `x` of a constructed object (`0` if the constructor raises). -/
noncomputable def pdfAt (r : Except PyErr Marginal) (x : ℝ) : ℝ :=
  match r with
  | .ok m => m.pdf x
  | .error _ => 0

/-- The central difference at `v`, with step `h`, of the cdf at `x` of the objects that `make` constructs from a number. -/
noncomputable def central (make : ℝ → Except PyErr Marginal) (v h x : ℝ) : ℝ :=
  (cdfAt (make (v + h)) x - cdfAt (make (v - h)) x) / (2 * h)

/-- The cdf sensitivities of a class that has none of its own: `μ` and `σ` are what the object reports, `kw` its extra arguments; a
central difference of the cdf for the mean, one for the standard deviation, and one for each further parameter. -/
noncomputable def cdfDifferences (S : Solvers) (F : Family) (kw : Dict String ℝ) (μ σ x : ℝ) : Dict String ℝ :=
  ("mean", central (fun t => F.construct S t σ kw false none) μ (step μ σ) x) ::
  ("std", central (fun t => F.construct S μ t kw false none) σ (step σ σ) x) ::
  F.extra.map (fun name =>
    (name, central (fun t => F.construct S μ σ (Dict.set kw name t) false none) (Family.arg kw name) (step (Family.arg kw name) σ) x))

/-- The classes whose members differ by location and scale only. -/
def locationScale : List Family := [.uniform, .shiftedExponential, .shiftedRayleigh, .gumbel, .typeIlargest, .typeIsmallest]

/-- The constructor calls made for them return. -/
def Differentiable (S : Solvers) (F : Family) (kw : Dict String ℝ) (μ σ : ℝ) : Prop :=
  (Returns (F.construct S (μ + step μ σ) σ kw false none) ∧ Returns (F.construct S (μ - step μ σ) σ kw false none)) ∧
  (Returns (F.construct S μ (σ + step σ σ) kw false none) ∧ Returns (F.construct S μ (σ - step σ σ) kw false none)) ∧
  ∀ name ∈ F.extra,
    Returns (F.construct S μ σ (Dict.set kw name (Family.arg kw name + step (Family.arg kw name) σ)) false none) ∧
    Returns (F.construct S μ σ (Dict.set kw name (Family.arg kw name - step (Family.arg kw name) σ)) false none)

end Pystra.Spec
