import Verif.Props.Transformation
import Verif.Props.Correlation
import Verif.Model.Form

/-! What "the derivative of the FORM index with respect to a parameter" means. -/

namespace Pystra.Spec
open Filter Topology Transformation Matrix Asymptotics

variable {n : ℕ}

/-- `m s` is a distribution as a function of one of its parameters, at the parameter value `θ`; `dF`, `dmu`, `dsig` are the derivatives
of its cdf, mean and standard deviation with respect to the parameter, and `S` is its support. -/
structure ParamPath (m : ℝ → Marginal) (θ : ℝ) (dF : ℝ → ℝ) (dmu dsig : ℝ) (S : Set ℝ) : Prop where
  /-- derivative of the mean -/
  mean : HasDerivAt (fun s => (m s).mean) dmu θ
  /-- derivative of the standard deviation -/
  stdv : HasDerivAt (fun s => (m s).stdv) dsig θ
  /-- the cdf has partial derivatives `dF` in the parameter and the density in `x` -/
  cdf : ∀ x ∈ S, HasFDerivAt (fun p : ℝ × ℝ => (m p.1).cdf p.2)
    (dF x • ContinuousLinearMap.fst ℝ ℝ ℝ + (m θ).pdf x • ContinuousLinearMap.snd ℝ ℝ ℝ) (θ, x)
  /-- the quantiles move accordingly -/
  quantile : ∀ z, HasDerivAt (fun s => (m s).uToX z) (-dF ((m θ).uToX z) / (m θ).pdf ((m θ).uToX z)) θ
  /-- `x_to_u` is the standard normal quantile of the cdf -/
  link : ∀ x ∈ S, ∀ᶠ p : ℝ × ℝ in 𝓝 (θ, x), StdNormal.cdf ((m p.1).xToU p.2) = (m p.1).cdf p.2

/-- The derivative `dF` of the cdf with respect to the parameter holds uniformly near the point `x0`: `F_s(x) - F_θ(x) = dF(x0) (s - θ)`
up to an error that is small compared with `s - θ` when `s` is near `θ` and `x` is near `x0`. -/
def UniformAt (m : ℝ → Marginal) (θ : ℝ) (dF : ℝ → ℝ) (x0 : ℝ) : Prop :=
  (fun p : ℝ × ℝ => (m p.1).cdf p.2 - (m θ).cdf p.2 - dF x0 * (p.1 - θ)) =o[𝓝 (θ, x0)] fun p => p.1 - θ

/-- A family of design points: for each parameter value `s` near `θ` the point `x s` lies on the limit-state surface and its image
`u s` in standard space is `β s` times a unit vector `α s`; `x` is differentiable and `α` continuous at `θ`. -/
structure DesignPath (g : (Fin n → ℝ) → ℝ) (t : ℝ → Mats n) (marg : ℝ → Fin n → Marginal) (θ : ℝ) (x : ℝ → Fin n → ℝ)
    (β : ℝ → ℝ) (α : ℝ → Fin n → ℝ) : Prop where
  /-- the design point moves differentiably -/
  smooth : ∀ i, DifferentiableAt ℝ (fun s => x s i) θ
  /-- on the surface -/
  surface : ∀ᶠ s in 𝓝 θ, g (x s) = 0
  /-- `u = β α` with a unit vector -/
  polar : ∀ᶠ s in 𝓝 θ, xToU (t s) (marg s) (x s) = β s • α s ∧ α s ⬝ᵥ α s = 1
  /-- the direction is continuous -/
  cont : ∀ i, ContinuousAt (fun s => α s i) θ

/-- `α` is the direction FORM computes at the point `x`: minus the normalised gradient of `g` in standard space. -/
def FormDirection (g : (Fin n → ℝ) → ℝ) (t : Mats n) (marg : Fin n → Marginal) (x α : Fin n → ℝ) : Prop :=
  ∃ grad Ji, HasFDerivAt g (Props.gradMap grad) x ∧ npInv (jacobian t marg (xToU t marg x) x) = .ok Ji ∧
    α = Form.alpha (vecMul grad Ji)

/-- The marginals when variable `k` has the distribution `m`. -/
def margWith (marg : Fin n → Marginal) (k : Fin n) (m : Marginal) : Fin n → Marginal := fun i => if i = k then m else marg i

/-- `Ro s` is the modified correlation matrix of the correlation matrix `R` while the distribution `m s` of variable `k` moves: unit
diagonal; the pairs without variable `k` do not move; a pair with variable `k` is uncorrelated, or (its correlation being at least the
`1e-12` below which the code does not look) its modified coefficient solves the code's correlation integral exactly, the derivative of
that integral is not zero, and the densities at the quadrature points are not below the value `1e-300` at which the code clips them. -/
structure NatafPath (marg : Fin n → Marginal) (k : Fin n) (m : ℝ → Marginal) (θ : ℝ) (R : Matrix (Fin n) (Fin n) ℝ)
    (Ro : ℝ → Matrix (Fin n) (Fin n) ℝ) : Prop where
  /-- unit diagonal -/
  diag : ∀ a, ∀ᶠ s in 𝓝 θ, Ro s a a = 1
  /-- the entries move differentiably -/
  smooth : ∀ a b, DifferentiableAt ℝ (fun s => Ro s a b) θ
  /-- other pairs -/
  other : ∀ a b, a ≠ k → b ≠ k → ∀ᶠ s in 𝓝 θ, Ro s a b = Ro θ a b
  /-- pairs with variable `k` -/
  pair : ∀ a b, b < a → k = a ∨ k = b → (R a b = 0 ∧ ∀ᶠ s in 𝓝 θ, Ro s a b = 0) ∨
    (1e-12 ≤ |R a b| ∧
      (∀ᶠ s in 𝓝 θ, Integration.rhoIntegral (Ro s a b) (margWith marg k (m s) a) (margWith marg k (m s) b)
        (Props.gridOf (R a b) (margWith marg k (m s) a) (margWith marg k (m s) b)) = R a b) ∧
      Integration.drhoDrho0 (Ro θ a b) (margWith marg k (m θ) a) (margWith marg k (m θ) b)
        (Props.gridOf (R a b) (margWith marg k (m θ) a) (margWith marg k (m θ) b)) ≠ 0 ∧
      ∀ q, q < Correlation.selectNIP (R a b) → 1e-300 ≤ (m θ).pdf ((Props.gridOf (R a b) (m θ) (m θ)).X1 q 0))

end Pystra.Spec
