import Verif.Model.Sensitivity

/-! Specification vocabulary for the sensitivity analysis. -/

namespace Pystra.Spec

/-- The registry is consistent: variables and marginals list the same objects, names are distinct. -/
structure Consistent (m : StochModel Dist ℝ) : Prop where
  /-- the dictionary lists the marginals by name -/
  vars : m.vars = m.marg.map (fun d => (d.name, d))
  /-- distinct names -/
  nodup : (m.marg.map DistObj.name).Nodup

/-- The same model except that the variable called `name` has the distribution `d`. -/
def exchanged (m : StochModel Dist ℝ) (name : String) (d : Dist) : StochModel Dist ℝ :=
  { m with
    vars := m.vars.map (fun p => if p.1 = name then (p.1, ⟨name, d⟩) else p)
    marg := m.marg.map (fun e => if e.name = name then ⟨name, d⟩ else e) }

/-- Two models with the same variables, constants, names and correlation (only the counter and the stored `Ro` may differ). -/
structure SameContents (m m' : StochModel Dist ℝ) : Prop where
  /-- `variables` -/
  vars : m'.vars = m.vars
  /-- marginals -/
  marg : m'.marg = m.marg
  /-- names -/
  names : m'.names = m.names
  /-- correlation -/
  correlation : m'.correlation = m.correlation
  /-- constants -/
  consts : m'.consts = m.consts

open Sensitivity

/-- If the analysis of the model `m` returns an index at all, it is within `ε` of `β`. -/
def Within (form : FormOracle) (ε : ℝ) (m : StochModel Dist ℝ) (β : ℝ) : Prop := ∀ b, (form m).2 = .ok b → |b - β| ≤ ε

/-- What `run(numerical=True, delta=δ)` reports for the parameter `param` (present value `θ`) of the variable `d` approaches `v` as
`δ → 0`: it is within `η + 2 ε / (|δ| σ)` of `v` for all `δ` of absolute value below some `δ0`, where `ε` is the accuracy of the
analysis of the user's model (whose index is `index0`) and of the model in which `d` is exchanged for its copy with the parameter
`θ + δ σ` (whose index is `index copy (θ + δ σ)`), and `σ` the variable's standard deviation.  `δ0` does not depend on how FORM works. -/
def ApproachedBy (H : Heap) (d : DistObj Dist) (param : String) (θ index0 : ℝ) (index : Dist → ℝ → ℝ) (v : ℝ) : Prop :=
  ∀ η > 0, ∃ δ0 > 0, ∀ δ, δ ≠ 0 → |δ| < δ0 → ∀ (form : FormOracle) (fresh : ℕ) (ε : ℝ) (r : Dict String (Dict String ℝ)),
    (∀ m, SameContents m (form m).1) → 0 < fresh → Within form ε (H 0) index0 →
    (∀ d', d.body.makeCopy [(param, θ + δ * d.body.marg.stdv)] = .ok d' →
      Within form ε (exchanged (form (H 0)).1 d.name d') (index d' (θ + δ * d.body.marg.stdv))) →
    (numericalSens form δ fresh H).2 = .ok r →
    ∃ e w, Dict.get? r d.name = some e ∧ Dict.get? e param = some w ∧ |w - v| ≤ η + 2 * ε / (|δ| * |d.body.marg.stdv|)

end Pystra.Spec
