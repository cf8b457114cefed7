import Verif.Model.Form
import Verif.Model.Session
import Verif.Model.DistClasses

/-! Specification vocabulary for a model whose variables are measured in other units. -/

namespace Pystra.Spec
open Matrix

/-- A choice of units, name by name: the number `v` of the old unit is the number `off name + fac name * v` of the new one (degrees
Celsius to Fahrenheit, kilonewton to newton, …). -/
structure Units where
  /-- the offset -/
  off : String → ℝ
  /-- the factor -/
  fac : String → ℝ

namespace Units

/-- A number in the new unit. -/
def conv (U : Units) (name : String) (v : ℝ) : ℝ := U.off name + U.fac name * v

/-- The keyword arguments of a call, in the new units. -/
def kwargs (U : Units) (kw : Kwargs) : Kwargs := kw.map (fun p => (p.1, p.2.map (U.conv p.1)))

/-- A point, in the new units; `names i` is the name of component `i`. -/
def point {n : ℕ} (U : Units) (names : Fin n → String) (x : Fin n → ℝ) : Fin n → ℝ := fun i => U.conv (names i) (x i)

end Units

/-- `m'` is the distribution object of `off + fac · X` when `m` is that of `X`; the values in `D` (the support, with room for the
perturbed points of a finite difference) are those for which `cdf`, `pdf`, `x_to_u` and `jacobian` matter. -/
structure Rescaled (off fac : ℝ) (D : Set ℝ) (m m' : Marginal) : Prop where
  mean : m'.mean = off + fac * m.mean
  stdv : m'.stdv = fac * m.stdv
  startpoint : m'.startpoint = off + fac * m.startpoint
  pdf : ∀ x ∈ D, m'.pdf (off + fac * x) = m.pdf x / fac
  cdf : ∀ x ∈ D, m'.cdf (off + fac * x) = m.cdf x
  uToX : ∀ u, m'.uToX u = off + fac * m.uToX u
  xToU : ∀ x ∈ D, m'.xToU (off + fac * x) = m.xToU x
  jac : ∀ u, ∀ x ∈ D, m'.jac u (off + fac * x) = m.jac u x / fac
  support : ∀ u, m.uToX u ∈ D
  start : m.startpoint ∈ D

/-- The user's function written for the new units: it returns what the old one returns for the same quantities; when it also returns
the gradient (direct differentiation), that is the gradient with respect to the new numbers. -/
def SameFunction {n : ℕ} (U : Units) (names : Fin n → String) (mode : String) (expr expr' : Kwargs → GRet) : Prop :=
  if mode = "ddm" then
    ∀ kw, ∃ g, ∃ dg : Fin n → ℝ, expr kw = .tuple [g, .arr (List.ofFn dg)] ∧
      expr' (U.kwargs kw) = .tuple [g, .arr (List.ofFn fun i => dg i / U.fac (names i))]
  else ∀ kw, expr' (U.kwargs kw) = expr kw

variable {σ τ : Type} {n : ℕ}

/-- A result of FORM in the new units: the points of the physical space and the Jacobian `∂x/∂u` are converted, everything else is the
same. -/
def Units.result (U : Units) (names : Fin n → String) (r : Form.Result n) : Form.Result n :=
  { r with point := { r.point with
      x := U.point names r.point.x
      xAttr := U.point names r.point.xAttr
      J := fun i j => U.fac (names i) * r.point.J i j } }

/-- Two outcomes of FORM: the same kind, related states, and a result that is the same up to the units. -/
def Units.Outcome (U : Units) (names : Fin n → String) (R : σ → τ → Prop) : Form.Outcome σ n → Form.Outcome τ n → Prop
  | .done r s, .done r' s' => r' = U.result names r ∧ R s s'
  | .raised e s, .raised e' s' => e' = e ∧ R s s'
  | .nan s, .nan s' => R s s'
  | .next Go u s, .next Go' u' s' => Go' = Go ∧ u' = u ∧ R s s'
  | _, _ => False

/-- Two computations that may still be running. -/
def RelOpt {α β : Type} (Q : α → β → Prop) : Option α → Option β → Prop
  | none, none => True
  | some a, some b => Q a b
  | _, _ => False

/-- The same model written down in new units: the same names in the same order, the same correlation, the marginals and the constants
converted. -/
structure ModelInUnits (U : Units) (D : String → Set ℝ) (m m' : StochModel Marginal ℝ) : Prop where
  vars : List.Forall₂ (fun p p' => p'.1 = p.1) m.vars m'.vars
  names : m'.names = m.names
  marg : List.Forall₂ (fun d d' : DistObj Marginal => d'.name = d.name ∧ Rescaled (U.off d.name) (U.fac d.name) (D d.name) d.body d'.body)
    m.marg m'.marg
  correlation : m'.correlation = m.correlation
  Ro : m'.Ro = m.Ro
  callFunction : m'.callFunction = m.callFunction
  consts : m'.consts = m.consts.map (fun p => (p.1, U.conv p.1 p.2))

/-- The same statement of the program that builds the model, in new units. -/
inductive OpInUnits (U : Units) (D : String → Set ℝ) : StochModel.Op Marginal ℝ → StochModel.Op Marginal ℝ → Prop
  | variable (name : String) (b b' : Marginal) (h : Rescaled (U.off name) (U.fac name) (D name) b b') :
      OpInUnits U D (.add (.distribution ⟨name, b⟩)) (.add (.distribution ⟨name, b'⟩))
  | constant (name : String) (v : ℝ) : OpInUnits U D (.add (.constant name v)) (.add (.constant name (U.conv name v)))
  | same (op : StochModel.Op Marginal ℝ) (h : ∀ o, op ≠ .add o) : OpInUnits U D op op
  | other : OpInUnits U D (.add .other) (.add .other)

/-- The two evaluations states: the model in the other units, and calls of the user's function with the same quantities. -/
structure EvInUnits (U : Units) (D : String → Set ℝ) (s s' : Ev Marginal) : Prop where
  model : ModelInUnits U D s.model s'.model
  trace : s'.trace = s.trace.map U.kwargs

end Pystra.Spec

namespace Pystra.Spec

/-- The arguments of a constructor call other than mean and standard deviation, in the new unit: bounds are converted, a shape is a pure
number. -/
def unitArgs (off fac : ℝ) (kw : Dict String ℝ) : Dict String ℝ :=
  kw.map (fun p => (p.1, if p.1 = "shape" then p.2 else off + fac * p.2))

/-- The classes that have a member for `off + fac · X` whenever they have one for `X`: those with a location; the classes whose support
starts at 0, and `GEVmin`, when only the scale changes. -/
def ClosedUnder (off : ℝ) : Family → Prop
  | .normal | .uniform | .shiftedExponential | .shiftedRayleigh | .gumbel | .typeIlargest | .typeIsmallest | .shiftedLognormal
  | .weibull | .typeIIIsmallest | .beta | .gevMax => True
  | .lognormal | .gamma | .typeIIlargest | .gevMin => off = 0
  | .chiSquare | .composite => False

/-- The solvers find the same shape for the same problem in other units. -/
structure UnitFree (S : Solvers) : Prop where
  weibull : ∀ fac m s : ℝ, 0 < fac → S.weibull (fac * m) (fac * s) = S.weibull m s
  typeII : ∀ fac m s : ℝ, 0 < fac → S.typeII (fac * m) (fac * s) = S.typeII m s
  beta : ∀ off fac a b m s : ℝ, 0 < fac → S.beta (off + fac * a) (off + fac * b) (off + fac * m) (fac * s) = S.beta a b m s

/-- Arguments with which a class makes a law: mean `p`, standard deviation `q`. -/
def Proper (S : Solvers) (F : Family) (p q : ℝ) (kw : Dict String ℝ) : Prop :=
  match F with
  | .normal | .uniform | .shiftedExponential | .shiftedRayleigh | .gumbel | .typeIlargest | .typeIsmallest => 0 < q
  | .lognormal | .gamma => 0 < p ∧ 0 < q
  | .shiftedLognormal => Family.arg kw "lower" < p ∧ 0 < q
  | .weibull | .typeIIIsmallest => Family.arg kw "epsilon" < p ∧ 0 < S.weibull (p - Family.arg kw "epsilon") q
  | .typeIIlargest => 0 < p ∧ 2 < S.typeII p q
  | .beta => Family.arg kw "a" < p ∧ p < Family.arg kw "b" ∧ 0 < S.beta (Family.arg kw "a") (Family.arg kw "b") p q
  | .gevMax | .gevMin => 0 < q ∧ Family.arg kw "shape" < 1 / 2
  | .chiSquare | .composite => False

/-- The values at which the methods are compared. -/
def familyDomain (F : Family) (kw : Dict String ℝ) : Set ℝ :=
  match F with
  | .lognormal => Set.Ioi 0
  | .shiftedLognormal => Set.Ioi (Family.arg kw "lower")
  | _ => Set.univ

end Pystra.Spec

namespace Pystra.Spec
open Matrix

variable {n : ℕ}

/-- `x_all` of a simulation in the new units: the points of the first block are converted; what the code appends for later blocks are
points of the standard normal space, which do not depend on the units. -/
inductive KeptInUnits (U : Units) (names : Fin n → String) : MonteCarlo.Kept n → MonteCarlo.Kept n → Prop
  | none : KeptInUnits U names .none .none
  | cols (c : List (Fin n → ℝ)) : KeptInUnits U names (.cols c) (.cols (c.map (U.point names)))
  | flat (c : List (Fin n → ℝ)) (l : List ℝ) :
      KeptInUnits U names (.flat (MonteCarlo.rowMajor c ++ l)) (.flat (MonteCarlo.rowMajor (c.map (U.point names)) ++ l))

/-- The state of a simulation in the new units: the same in everything but `x_all`, which is converted, and the evaluator's state. -/
structure SimStateInUnits {σ τ : Type} (U : Units) (names : Fin n → String) (R : σ → τ → Prop) (x : MonteCarlo.State σ n)
    (y : MonteCarlo.State τ n) : Prop where
  k : y.k = x.k
  pos : y.pos = x.pos
  sumQ : y.sumQ = x.sumQ
  sumQ2 : y.sumQ2 = x.sumQ2
  qBar : y.qBar = x.qBar
  covQBar : y.covQBar = x.covQBar
  uAll : y.uAll = x.uAll
  xAll : KeptInUnits U names x.xAll y.xAll
  allG : y.allG = x.allG
  betaAll : y.betaAll = x.betaAll
  s : R x.s y.s

/-- What an analysis reports, in the new units: a point of the physical space is converted; probabilities, reliability indices,
direction cosines, curvatures, thresholds, coefficients of variation, the values of the limit-state function and the points of the standard
normal space are the same numbers. -/
def Units.Report (U : Units) (names : Fin n → String) : Session.Out n → Session.Out n → Prop
  | .form r, .form r' => r' = U.result names r
  | .simulation r, .simulation r' => SimStateInUnits U names (fun _ _ => True) r.st r'.st ∧ r'.Pf = r.Pf ∧ r'.beta = r.beta
  | .distribution X G, .distribution X' G' => X' = X.map (U.point names) ∧ G' = G
  | o, o' => o' = o

/-- Room for the shift that a finite difference leaves in the array of the caller, which SORM evaluates the marginals at. -/
def Room (D : String → Set ℝ) (opt : LSOptions) (M : List (DistObj Marginal)) : Prop :=
  opt.diffMode ≠ "no" → opt.diffMode ≠ "ddm" → ∀ d ∈ M, ∀ x ∈ D d.name, x + d.body.stdv / opt.ffdpara ∈ D d.name

end Pystra.Spec
