import Verif.Model.Session

/-! Specification vocabulary for the names of variables, and for constants. -/

namespace Pystra.Spec
open StochModel (Op)

variable {D V : Type}

/-- The entries of a dictionary under other names. -/
def renameKeys (ρ : String → String) (d : Dict String V) : Dict String V := d.map fun e => (ρ e.1, e.2)

/-- A distribution object with another name. -/
def renameDist (ρ : String → String) (d : DistObj D) : DistObj D := ⟨ρ d.name, d.body⟩

/-- The same object offered under another name. -/
def renameObj (ρ : String → String) : PyObj D V → PyObj D V
  | .distribution d => .distribution (renameDist ρ d)
  | .constant name v => .constant (ρ name) v
  | .other => .other

/-- The same call on the model, with another name. -/
def renameOp (ρ : String → String) : Op D V → Op D V
  | .add o => .add (renameObj ρ o)
  | .setCorr A => .setCorr A
  | .setRo A => .setRo A
  | .calls k => .calls k

/-- The model with other names. -/
def renameModel (ρ : String → String) (m : StochModel D V) : StochModel D V :=
  { vars := m.vars.map fun e => (ρ e.1, renameDist ρ e.2), names := m.names.map ρ, marg := m.marg.map (renameDist ρ)
    correlation := m.correlation, Ro := m.Ro, callFunction := m.callFunction, consts := renameKeys ρ m.consts }

/-- The model with other names, and the calls of the limit-state function so far with other names. -/
def renameEv (ρ : String → String) (ev : Ev Marginal) : Ev Marginal := ⟨renameModel ρ ev.model, ev.trace.map (renameKeys ρ)⟩

/-- A dictionary without one of its entries. -/
def without (name : String) (d : Dict String V) : Dict String V := d.filter fun e => e.1 ≠ name

/-- The model without one of its constants. -/
def withoutConst (name : String) (m : StochModel D V) : StochModel D V :=
  { m with names := m.names.filter (· ≠ name), consts := without name m.consts }

/-- The model without one of its constants, and the calls of the limit-state function so far without that argument. -/
def withoutEv (name : String) (ev : Ev Marginal) : Ev Marginal := ⟨withoutConst name ev.model, ev.trace.map (without name)⟩

/-- A call does not offer an object with this name. -/
def NotNamed (name : String) : Op D V → Prop
  | .add (.distribution d) => d.name ≠ name
  | .add (.constant k _) => k ≠ name
  | _ => True

/-- `g` is `f` with the keyword argument `name` fixed to `v` at every point. -/
def FixedArg (name : String) (v : ℝ) (f g : Kwargs → GRet) : Prop :=
  ∀ (kw : Kwargs) (nc : ℕ), (∀ e ∈ kw, e.2.length = nc) → kw.get? name = some (List.replicate nc v) → g (without name kw) = f kw

end Pystra.Spec
