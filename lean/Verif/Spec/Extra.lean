import Verif.Model.Session
import Verif.Spec.LimitState
import Verif.Spec.Order

/-! Specification vocabulary for a model with further random variables that the limit-state function does not use. -/

namespace Pystra.Spec
open Matrix

variable {n k : ℕ}

/-- Position `j` of the large model is an extra variable. -/
def IsExtra (ι : Fin n ↪ Fin k) (j : Fin k) : Prop := ∀ i, ι i ≠ j

/-- `m'` has the variables of `m` (variable `i` of `m` is variable `ι i` of `m'`) and `k - n` more, which are not correlated with them
(they may be correlated with each other); the correlations between the common variables and the constants are the same. -/
structure WithExtra (ι : Fin n ↪ Fin k) (m m' : StochModel Marginal ℝ) : Prop where
  marg : ∃ (v : Fin n → DistObj Marginal) (v' : Fin k → DistObj Marginal), m.marg = List.ofFn v ∧ m'.marg = List.ofFn v' ∧
    ∀ i, v' (ι i) = v i
  correlation : ∃ R : Matrix (Fin k) (Fin k) ℝ, R.IsSymm ∧ (∀ i j, IsExtra ι j → R (ι i) j = 0) ∧ m'.correlation = some ⟨k, k, R⟩ ∧
    m.correlation = some ⟨n, n, R.submatrix ι ι⟩
  consts : ∀ name, m'.consts.get? name = m.consts.get? name

/-- The names of the extra variables. -/
def ExtraName (ι : Fin n ↪ Fin k) (m' : StochModel Marginal ℝ) (name : String) : Prop :=
  ∃ j : Fin k, IsExtra ι j ∧ ∃ d, m'.marg[j.val]? = some d ∧ d.name = name

/-- The user's function does not look at these arguments. -/
def IgnoresNames (f : (String → Option ℝ) → ℝ) (S : String → Prop) : Prop :=
  ∀ a b, (∀ name, ¬ S name → a name = b name) → f a = f b

/-- The start point of every extra variable has the image 0 in the standard normal space, and its transformation has a nonzero derivative
there (for instance a start point at the median). -/
def ExtraAtRest (ι : Fin n ↪ Fin k) (m' : StochModel Marginal ℝ) : Prop :=
  ∀ j : Fin k, IsExtra ι j → ∀ d, m'.marg[j.val]? = some d → d.body.xToU d.body.startpoint = 0 ∧ d.body.jac 0 (d.body.uToX 0) ≠ 0

/-- The results of FORM on the two models: the same number of iterations, `G`, first `G`, `β` and `Pf`; the same value of every common
variable at the design point, the extra ones at the image of 0; vectors of the standard normal space related by an isometry `Q`. -/
structure ResultExtra (ι : Fin n ↪ Fin k) (Q : Matrix (Fin k) (Fin n) ℝ) (m' : StochModel Marginal ℝ) (r : Form.Result n)
    (r' : Form.Result k) : Prop where
  i : r'.i = r.i
  G : r'.point.G = r.point.G
  Go : r'.Go = r.Go
  beta : r'.beta = r.beta
  Pf : r'.Pf = r.Pf
  x : ∀ i, r'.point.x (ι i) = r.point.x i
  xExtra : ∀ j, IsExtra ι j → ∀ d, m'.marg[j.val]? = some d → r'.point.x j = d.body.uToX 0
  u : r'.point.u = Q *ᵥ r.point.u
  alpha : r'.alpha = Q *ᵥ r.alpha
  gradient : r'.point.gradient = Q *ᵥ r.point.gradient

/-- The same with the vectors of the standard normal space given variable by variable: nothing changes for the common variables, and the
extra ones have 0. -/
structure ResultExtraZero (ι : Fin n ↪ Fin k) (r : Form.Result n) (r' : Form.Result k) : Prop where
  i : r'.i = r.i
  G : r'.point.G = r.point.G
  beta : r'.beta = r.beta
  Pf : r'.Pf = r.Pf
  x : ∀ i, r'.point.x (ι i) = r.point.x i
  u : ∀ i, r'.point.u (ι i) = r.point.u i
  alpha : ∀ i, r'.alpha (ι i) = r.alpha i
  gradient : ∀ i, r'.point.gradient (ι i) = r.point.gradient i
  uExtra : ∀ j, IsExtra ι j → r'.point.u j = 0
  alphaExtra : ∀ j, IsExtra ι j → r'.alpha j = 0

/-- Two states of the analyses. -/
structure EvExtra (ι : Fin n ↪ Fin k) (s s' : Ev Marginal) : Prop where
  reach : Reachable s.model
  reach' : Reachable s'.model
  model : WithExtra ι s.model s'.model

/-- What two runs of FORM on the two models leave: related states, and related results or the same exception. -/
def FormExtra (ι : Fin n ↪ Fin k) (R : StochModel Marginal ℝ → Form.Result n → Form.Result k → Prop)
    (p : Ev Marginal × (Form.Result n ⊕ Session.Out n)) (q : Ev Marginal × (Form.Result k ⊕ Session.Out k)) : Prop :=
  EvExtra ι p.1 q.1 ∧
  ((∃ r r', p.2 = .inl r ∧ q.2 = .inl r' ∧ R q.1.model r r') ∨
   (p.2 = .inr .nan ∧ q.2 = .inr .nan) ∨ (∃ e, p.2 = .inr (.raised e) ∧ q.2 = .inr (.raised e)))

end Pystra.Spec
