import Verif.Spec.LimitState

/-! The shapes that an evaluation expects from the limit-state function (C133). -/

namespace Pystra.Spec

/-- The function answers every call at `nc` points with an array of `nc` numbers, or with a pair of such an array and a second one; for
`diff_mode = "ddm"` always with a pair, whose second part has `n` entries when there is one point.  Which numbers does not matter. -/
def AnswersInShape (expr : Kwargs → GRet) (n : ℕ) (mode : String) : Prop :=
  ∀ (kw : Kwargs) (nc : ℕ), kw ≠ [] → (∀ e ∈ kw, e.2.length = nc) →
    (mode ≠ "ddm" ∧ ∃ l : List ℝ, l.length = nc ∧ expr kw = .val (.arr l)) ∨
    ∃ l dg : List ℝ, l.length = nc ∧ (nc = 1 → dg.length = n) ∧ expr kw = .tuple [.arr l, .arr dg]

end Pystra.Spec
