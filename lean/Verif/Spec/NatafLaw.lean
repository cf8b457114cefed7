import Verif.Spec.Transformation
import Verif.Spec.Gauss
import Mathlib.MeasureTheory.Measure.Haar.OfBasis

/-! Laws given by densities, for the statements about the random vector `X = u_to_x(U)`. -/

namespace Pystra.Spec
open MeasureTheory

/-- The measure with density `f` on a space with a volume. -/
noncomputable def densityLaw {E : Type} [MeasureSpace E] (f : E → ℝ) : Measure E :=
  volume.withDensity (fun x => ENNReal.ofReal (f x))

/-- `jacobian(x_to_u(x), x)` is the ratio of the densities of the variable and of the standard normal variable. -/
def JacobianRatio (m : Marginal) (S : Set ℝ) : Prop :=
  ∀ x ∈ S, m.jac (m.xToU x) x = m.pdf x / StdNormal.pdf (m.xToU x)

/-- The density of `n` independent standard normal variables. -/
noncomputable def normalPdf {n : ℕ} (u : Fin n → ℝ) : ℝ := ∏ i, StdNormal.pdf (u i)

variable {n : ℕ}

/-- A marginal whose transformation, Jacobian, density and moments fit together on the support `S`: what C12, C13 and
C14 prove of the standard classes. -/
structure Faithful (m : Marginal) (S : Set ℝ) : Prop where
  /-- C12 -/
  round : RoundTrip m S
  /-- the support is open -/
  isOpen : IsOpen S
  /-- C13 -/
  jac : JacobianCorrect m S
  /-- the Jacobian is the ratio of densities -/
  ratio : JacobianRatio m S
  /-- C14 -/
  law : Law (S.indicator m.pdf) m.mean m.stdv

/-- A correlated random vector as an analysis uses it: a correlation matrix `Ro`, the matrices computed from it and the
marginals. -/
structure NatafSetting (la : LinAlg) (ty : TransformType) (Ro : Matrix (Fin n) (Fin n) ℝ) (m : Transformation.Mats n)
    (marg : Fin n → Marginal) (S : Fin n → Set ℝ) : Prop where
  /-- numpy's contract -/
  linAlg : LinAlgOK la
  /-- positive definite -/
  posDef : Ro.PosDef
  /-- a correlation matrix -/
  diag : ∀ i, Ro i i = 1
  /-- the transformation in use -/
  mats : Transformation.compute la ty Ro = .ok m
  /-- the marginals -/
  marg : ∀ i, Faithful (marg i) (S i)

end Pystra.Spec
