import Verif.Model.LimitState

/-! Specification vocabulary for limit-state evaluation. -/

namespace Pystra.Spec

variable {D : Type} {n : ℕ}

/-- The named scalar arguments of one evaluation point: the model's variables in order with the point's
coordinates, then the constants. -/
def pointArgs (m : StochModel D ℝ) (p : Fin n → ℝ) : Dict String ℝ :=
  m.getVariables.keys.zip (List.ofFn p) ++ m.getConstants

/-- Column `c` of a keyword dictionary of arrays. -/
def column (kw : Kwargs) (c : ℕ) : Dict String ℝ := kw.map (fun e => (e.1, e.2.getD c 0))

/-- A vectorised limit-state function that acts point by point: it returns the array of the values of the
scalar function `g` at the columns. -/
def Pointwise (expr : Kwargs → GRet) (g : Dict String ℝ → ℝ) : Prop :=
  ∀ (kw : Kwargs) (nc : ℕ), kw ≠ [] → (∀ e ∈ kw, e.2.length = nc) →
    expr kw = .val (.arr ((List.range nc).map (fun c => g (column kw c))))

/-- A model state reached from `StochasticModel()` by some history of calls. -/
def Reachable (m : StochModel D ℝ) : Prop := ∃ h, m = StochModel.init.run h

/-- All the points that a record of calls to the user's function evaluated, in order: for each call, its
columns (`nc` of them, `nc` the length of its first array). -/
def pointsOf (tr : List Kwargs) : List (Dict String ℝ) :=
  tr.flatMap (fun kw => match kw with
    | [] => []
    | e :: _ => (List.range e.2.length).map (column kw))

end Pystra.Spec
