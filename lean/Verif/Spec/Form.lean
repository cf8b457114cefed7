import Verif.Model.Form

/-! Specification vocabulary for FORM. -/

namespace Pystra.Spec
open Transformation

variable {σ : Type} {n : ℕ}

/-- The states in which a run started at `(u0, s0)` can be at the beginning of pass `i`. -/
inductive Reaches (t : Mats n) (marg : Fin n → Marginal) (ev : Form.Evaluator σ n) (opt : Form.Options)
    (u0 : Fin n → ℝ) (s0 : σ) : ℕ → ℝ → (Fin n → ℝ) → σ → Prop where
  | start : Reaches t marg ev opt u0 s0 1 0 u0 s0
  | next {i Go u s Go' u' s'} : Reaches t marg ev opt u0 s0 i Go u s →
      Form.iteration t marg ev opt i Go u s = .next Go' u' s' → Reaches t marg ev opt u0 s0 (i + 1) Go' u' s'

/-- Euclidean length. -/
noncomputable def len (v : Fin n → ℝ) : ℝ := √(∑ i, v i ^ 2)

/-- The two convergence criteria at a point `u` with limit-state value `G` and gradient `∇`: the value is small
relative to the one at the start, and the component of `u` orthogonal to the gradient is small. -/
def Converged (e1 e2 G G0 : ℝ) (u grad : Fin n → ℝ) : Prop :=
  G0 ≠ 0 ∧ |G| < e1 * |G0| ∧
    len (fun i => u i - (∑ j, grad j * u j) / (∑ j, grad j ^ 2) * grad i) < e2

end Pystra.Spec

namespace Pystra.Spec

variable {σ : Type} {n : ℕ}

/-- Two outcomes of FORM that a user cannot tell apart except for a rotation `Q` of the standard normal space. -/
inductive SameUpTo (Q : Matrix (Fin n) (Fin n) ℝ) : Option (Form.Outcome σ n) → Option (Form.Outcome σ n) → Prop where
  | running : SameUpTo Q none none
  | raised (e s) : SameUpTo Q (some (.raised e s)) (some (.raised e s))
  | nan (s) : SameUpTo Q (some (.nan s)) (some (.nan s))
  | done (r1 r2 : Form.Result n) (s : σ) : r1.i = r2.i → r1.point.x = r2.point.x → r1.point.xAttr = r2.point.xAttr →
      r1.point.G = r2.point.G → r1.Go = r2.Go → r1.beta = r2.beta → r1.Pf = r2.Pf →
      r1.point.u = Q.mulVec r2.point.u → r1.alpha = Q.mulVec r2.alpha →
      SameUpTo Q (some (.done r1 s)) (some (.done r2 s))

end Pystra.Spec
