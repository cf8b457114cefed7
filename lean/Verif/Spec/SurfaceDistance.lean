import Verif.Spec.Form
import Verif.Model.Transformation

/-! The reliability index as a quantity of the model alone: the distance of the limit-state surface from the origin of standard space. -/

namespace Pystra.Spec
open Transformation

variable {n : ℕ}

/-- The distance from the origin of the surface `g = 0` in standard normal space. -/
noncomputable def surfaceDist (g : (Fin n → ℝ) → ℝ) (t : Mats n) (marg : Fin n → Marginal) : ℝ :=
  sInf {r | ∃ u : Fin n → ℝ, g (uToX t marg u) = 0 ∧ r = len u}

/-- The reliability index of Hasofer and Lind: that distance, negative when the origin lies in the failure domain. -/
noncomputable def hasoferLind (g : (Fin n → ℝ) → ℝ) (t : Mats n) (marg : Fin n → Marginal) : ℝ :=
  if g (uToX t marg 0) < 0 then - surfaceDist g t marg else surfaceDist g t marg

/-- `u0` is the design point: it lies on the surface, and every other point of the surface is farther from the origin. -/
def OnlyNearest (g : (Fin n → ℝ) → ℝ) (t : Mats n) (marg : Fin n → Marginal) (u0 : Fin n → ℝ) : Prop :=
  g (uToX t marg u0) = 0 ∧ ∀ u, g (uToX t marg u) = 0 → u ≠ u0 → len u0 < len u

end Pystra.Spec
