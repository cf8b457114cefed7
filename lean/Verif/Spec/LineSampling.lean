import Verif.Model.Form
import Mathlib.Data.Real.Basic

/-! Specification vocabulary for line sampling. -/

namespace Pystra.Spec

/-- On states satisfying `P` the routine `f` behaves as the partial function `h` (`none`: it raises), and keeps `P`. -/
def Computes {σ : Type} (f : σ → ℝ → σ × Except PyErr ℝ) (P : σ → Prop) (h : ℝ → Option ℝ) : Prop :=
  ∀ s, P s → ∀ x, P (f s x).1 ∧ (f s x).2.toOption = h x

/-- `c` is a root of `h` to the tolerance `tol`: a root, or within `tol` of a point of `[a, b]` where `h` has the opposite
sign. -/
def RootWithin (h : ℝ → Option ℝ) (a b tol c : ℝ) : Prop :=
  a ≤ c ∧ c ≤ b ∧ (h c = some 0 ∨ ∃ c' y y', a ≤ c' ∧ c' ≤ b ∧ |c' - c| < tol ∧ h c = some y ∧ h c' = some y' ∧ y * y' < 0)

/-- The scan sees `h` go from positive to non-positive between `c` and `c'`. -/
def SafeToFail (h : ℝ → Option ℝ) (c c' : ℝ) : Prop := ∃ y y', h c = some y ∧ h c' = some y' ∧ 0 < y ∧ y' ≤ 0

/-- The scan sees `h` change sign (or vanish at an end) between `c` and `c'`. -/
def SignChange (h : ℝ → Option ℝ) (c c' : ℝ) : Prop := ∃ y y', h c = some y ∧ h c' = some y' ∧ y * y' ≤ 0

/-- The points of the scan: 40 points evenly spaced over `[-m, m]`. -/
noncomputable def scanPoint (m : ℝ) (j : ℕ) : ℝ := -m + (j : ℝ) * (2 * m / 39)

/-- Evaluating one point on states satisfying `P` gives `g` of the point (`none`: an exception), and keeps `P`. -/
def PointValues {σ : Type} {n : ℕ} (ev : Form.Evaluator σ n) (P : σ → Prop) (g : (Fin n → ℝ) → Option ℝ) : Prop :=
  ∀ s, P s → ∀ x, P (ev.values s [x]).1 ∧ ((ev.values s [x]).2.toOption.map (fun G => G.headD 0)) = g x

end Pystra.Spec
