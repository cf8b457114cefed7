import Verif.Model.Session
import Verif.Spec.LimitState
import Mathlib.LinearAlgebra.Matrix.Symmetric

/-! Specification vocabulary for a model whose variables were added in another order. -/

namespace Pystra.Spec
open Matrix

variable {n : ℕ}

/-- The same random variables added in another order: variable `i` of `m'` is variable `π i` of `m`; the correlation matrix is the
symmetric one of the user with rows and columns in the new order, the constants have the same values (their order does not matter), and the
same number of evaluations has been counted. -/
structure Reordered (π : Equiv.Perm (Fin n)) (m m' : StochModel Marginal ℝ) : Prop where
  marg : ∃ v : Fin n → DistObj Marginal, m.marg = List.ofFn v ∧ m'.marg = List.ofFn (v ∘ π)
  correlation : ∃ R : Matrix (Fin n) (Fin n) ℝ, R.IsSymm ∧ m.correlation = some ⟨n, n, R⟩ ∧
    m'.correlation = some ⟨n, n, R.submatrix π π⟩
  consts : ∀ k, m'.consts.get? k = m.consts.get? k
  callFunction : m'.callFunction = m.callFunction

/-- The user's function sees its arguments by name only (keyword arguments), point by point: `f` gets the value of every name. -/
def ByName (expr : Kwargs → GRet) (f : (String → Option ℝ) → ℝ) : Prop :=
  ∀ (kw : Kwargs) (nc : ℕ), kw ≠ [] → (∀ e ∈ kw, e.2.length = nc) →
    expr kw = .val (.arr ((List.range nc).map fun c => f fun name => (kw.get? name).map fun row => row.getD c 0))

/-- The result of FORM for the variables in the new order: the same number of iterations, `G`, first `G`, `β` and `Pf`; points of the
physical space with the components in the new order; vectors of the standard normal space turned by an orthogonal matrix `Q`. -/
structure ResultReordered (π : Equiv.Perm (Fin n)) (Q : Matrix (Fin n) (Fin n) ℝ) (r r' : Form.Result n) : Prop where
  i : r'.i = r.i
  G : r'.point.G = r.point.G
  Go : r'.Go = r.Go
  beta : r'.beta = r.beta
  Pf : r'.Pf = r.Pf
  x : r'.point.x = r.point.x ∘ π
  xAttr : r'.point.xAttr = r.point.xAttr ∘ π
  u : r'.point.u = Q *ᵥ r.point.u
  alpha : r'.alpha = Q *ᵥ r.alpha
  gradient : r'.point.gradient = Q *ᵥ r.point.gradient
  J : r'.point.J = (r.point.J * Qᵀ).submatrix π id

/-- Two states of the analyses of the two models: the same points have been evaluated, possibly in another order. -/
structure EvReordered (π : Equiv.Perm (Fin n)) (s s' : Ev Marginal) : Prop where
  reach : Reachable s.model
  reach' : Reachable s'.model
  model : Reordered π s.model s'.model
  points : ((pointsOf s'.trace).map Dict.get?).Perm ((pointsOf s.trace).map Dict.get?)

/-- What two runs of FORM on the two models leave. -/
def FormReordered (π : Equiv.Perm (Fin n)) (Q : Matrix (Fin n) (Fin n) ℝ) (p q : Ev Marginal × (Form.Result n ⊕ Session.Out n)) : Prop :=
  EvReordered π p.1 q.1 ∧
  ((∃ r r', p.2 = .inl r ∧ q.2 = .inl r' ∧ ResultReordered π Q r r') ∨
   (∃ o, p.2 = .inr o ∧ q.2 = .inr o ∧ (o = .nan ∨ ∃ e, o = .raised e)))

end Pystra.Spec
