import Verif.Model.Form
import Verif.Model.MonteCarlo
import Verif.Model.Subset

/-! Specification vocabulary for a limit-state function measured in another unit. -/

namespace Pystra.Spec

/-- A returned value times `c`. -/
def scaleVal (c : ℝ) : GVal → GVal
  | .arr l => .arr (l.map (c * ·))
  | .scalar v => .scalar (c * v)

/-- What a limit-state function returns, times `c` (value and gradient, if it returns both). -/
def scaleRet (c : ℝ) : GRet → GRet
  | .val g => .val (scaleVal c g)
  | .tuple parts => .tuple (parts.map (scaleVal c))

variable {σ : Type} {n : ℕ}

/-- A result of FORM seen after the limit-state function was multiplied by `c`: the value and the gradient are multiplied by `c`; points,
iterations and the state are the same; for `c < 0` the safe side is the former failure side: `alpha` and `beta` change sign and the
failure probability becomes that of the complement. -/
noncomputable def scaledResult (c : ℝ) (r : Form.Result n) : Form.Result n :=
  { i := r.i
    point := { r.point with G := c * r.point.G, gradient := fun k => c * r.point.gradient k }
    Go := c * r.Go
    alpha := fun k => SignType.sign c * r.alpha k
    beta := SignType.sign c * r.beta
    Pf := if 0 < c then r.Pf else 1 - r.Pf }

/-- The outcome of a run seen after the limit-state function was multiplied by `c`. -/
noncomputable def scaledOutcome (c : ℝ) : Form.Outcome σ n → Form.Outcome σ n
  | .done r s => .done (scaledResult c r) s
  | .raised e s => .raised e s
  | .nan s => .nan s
  | .next Go u s => .next (c * Go) u s

/-- Two results of a step that may raise: the same exception, or values related by `Q`. -/
def RelOk {ε α β : Type} (Q : α → β → Prop) : Except ε α → Except ε β → Prop
  | .error e, .error e' => e = e'
  | .ok a, .ok b => Q a b
  | _, _ => False

/-- Two outcomes of a loop: both still running, or related results. -/
def RelOut {ε α β : Type} (Q : α → β → Prop) : Option (Except ε α) → Option (Except ε β) → Prop
  | none, none => True
  | some a, some b => RelOk Q a b
  | _, _ => False

/-- Two limit-state functions, called with the same points in the same state, leave the same state and either raise the same exception
or return values that are related by `R`, one by one. -/
def RelValues (R : ℝ → ℝ → Prop) (ev ev' : Form.Evaluator σ n) : Prop :=
  ∀ s xs, (ev'.values s xs).1 = (ev.values s xs).1 ∧ RelOk (List.Forall₂ R) (ev.values s xs).2 (ev'.values s xs).2

/-- Two results of a simulation that differ in the recorded values of the limit-state function only. -/
def SameEstimate (R : ℝ → ℝ → Prop) (r r' : MonteCarlo.Result σ n) : Prop :=
  r'.Pf = r.Pf ∧ r'.beta = r.beta ∧ r'.st = { r.st with allG := r'.st.allG } ∧ List.Forall₂ R r.st.allG r'.st.allG

/-- A result of subset simulation seen after the limit-state function was multiplied by `c`: the thresholds and the values of the
samples are multiplied by `c`, everything else is the same. -/
def scaledSubset (c : ℝ) (r : Subset.Result σ n) : Subset.Result σ n :=
  { r with thresholds := r.thresholds.map (c * ·)
           samples := r.samples.map (List.map fun p => (p.1, c * p.2)) }

end Pystra.Spec
