import Verif.Model.Session

/-! What the analyses cost, in calls of the limit-state function counted by the model (C132). -/

namespace Pystra.Spec
open Session

variable {m : ℕ}

/-- The price of one gradient for `n` variables. -/
def gradPrice (c : Setup) (n : ℕ) : ℕ := if c.lsopt.diffMode ≠ "no" ∧ c.lsopt.diffMode ≠ "ddm" then 1 + n else 1

/-- The price of `i` iterations of FORM. -/
noncomputable def formPrice (c : Setup) (n : ℕ) (o : Form.Options) (i : ℕ) : ℕ :=
  i * gradPrice c n + (if o.stepSize = 0 then 6 * (i - 1) else 0)

/-- The number of iterations is one that the options allow. -/
def Allowed (o : Form.Options) (i : ℕ) : Prop := 1 ≤ i ∧ i ≤ o.iMax

/-- What an analysis that ends with a result costs, in calls of the limit-state function. -/
def Price (c : Setup) : Job (m + 1) → Out (m + 1) → ℕ → Prop
  | .form o, .form r, K => K = formPrice c (m + 1) o r.i ∧ Allowed o r.i
  | .crude o _ _, .simulation r, K => K = r.st.k ∧ K ≤ o.samples
  | .importance fo o _, .simulation r, K => ∃ i, K = formPrice c (m + 1) fo i + r.st.k ∧ Allowed fo i ∧ r.st.k ≤ o.samples
  | .distribution o _, .distribution _ _, K => K = o.samples
  | .subset o _ _, .subset r, K => K = o.N * r.nLevels
  | .line fo N _, .line _, K => ∃ i l, K = formPrice c (m + 1) fo i + l ∧ Allowed fo i ∧ 40 * N ≤ l ∧ l ≤ 92 * N
  | .sorm fo _ fit, .sorm _, K => ∃ i j, K = formPrice c (m + 1) fo i + j * gradPrice c (m + 1) ∧ Allowed fo i ∧
      (fit = "cf" ∧ j = m + 2 ∨ fit = "pf" ∧ 2 * m ≤ j ∧ j ≤ 100 * m)
  | _, .raised _, _ => True
  | _, .nan, _ => True
  | _, _, _ => False

/-- Options with which an analysis can be carried out. -/
def Sensible (c : Setup) : Job (m + 1) → Prop
  | .form o => 1 ≤ o.iMax ∧ o.iMax ≤ c.fuel
  | .importance o _ _ => 1 ≤ o.iMax ∧ o.iMax ≤ c.fuel
  | .line o _ _ => 1 ≤ o.iMax ∧ o.iMax ≤ c.fuel
  | .sorm o _ _ => 1 ≤ o.iMax ∧ o.iMax ≤ c.fuel
  | .subset o _ _ => 0 < o.p0 ∧ o.p0 < 1 ∧ 1 ≤ o.N ∧ 1 ≤ o.block
  | _ => True

/-- The least that an analysis can cost, known before it is run. -/
noncomputable def least (c : Setup) : Job (m + 1) → ℕ
  | .form _ | .importance _ _ _ => gradPrice c (m + 1)
  | .crude _ _ _ | .subset _ _ _ => 0
  | .distribution o _ => o.samples
  | .line _ N _ => gradPrice c (m + 1) + 40 * N
  | .sorm _ _ fit => gradPrice c (m + 1) + (if fit = "cf" then m + 2 else 2 * m) * gradPrice c (m + 1)

/-- The most that an analysis can cost, known before it is run; for subset simulation with the number `L` of levels that it may
have. -/
noncomputable def most (c : Setup) (L : ℕ) : Job (m + 1) → ℕ
  | .form o => formPrice c (m + 1) o o.iMax
  | .crude o _ _ | .distribution o _ => o.samples
  | .importance fo o _ => formPrice c (m + 1) fo fo.iMax + o.samples
  | .subset o _ _ => o.N * L
  | .line fo N _ => formPrice c (m + 1) fo fo.iMax + 92 * N
  | .sorm fo _ fit => formPrice c (m + 1) fo fo.iMax + (if fit = "cf" then m + 2 else 100 * m) * gradPrice c (m + 1)

/-- Subset simulation ended with at most `L` levels. -/
def LevelsAtMost (L : ℕ) : Out (m + 1) → Prop
  | .subset r => r.nLevels ≤ L
  | _ => True

end Pystra.Spec
