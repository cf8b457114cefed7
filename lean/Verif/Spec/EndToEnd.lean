import Verif.Model.Session
import Verif.Spec.LimitState
import Verif.Spec.Gauss
import Verif.Props.SormCurvature

/-! Specification vocabulary for C102: a linear problem with independent normal variables, and what its analyses should
report. -/

namespace Pystra.Spec
open MeasureTheory ProbabilityTheory Session

variable {n m : ℕ}

/-- The user's script: an empty model to which the variables are added one by one. -/
noncomputable def normalModel (name : Fin n → String) (marg : Fin n → Marginal) : StochModel Marginal ℝ :=
  StochModel.init.run (List.ofFn fun i => .add (.distribution ⟨name i, marg i⟩))

/-- The user's limit state: `a0 + Σ aᵢ Xᵢ`, the variables looked up by name. -/
noncomputable def linearOf (name : Fin n → String) (a0 : ℝ) (a : Fin n → ℝ) (d : Dict String ℝ) : ℝ :=
  a0 + ∑ i, a i * (d.get? (name i)).getD 0

/-- The mean of the limit state over its standard deviation. -/
noncomputable def linearIndex (a0 : ℝ) (a μ sd : Fin n → ℝ) : ℝ := (a0 + ∑ i, a i * μ i) / √(∑ i, (a i * sd i) ^ 2)

/-- The probability of failure: independent normal variables with means `μ` and standard deviations `sd`. -/
noncomputable def linearPf (a0 : ℝ) (a μ sd : Fin n → ℝ) : ℝ :=
  (Measure.pi fun i => gaussianReal (μ i) (sd i ^ 2).toNNReal).real {x | a0 + ∑ i, a i * x i < 0}

/-- FORM's options: full steps, or the default step rule with (at least) the accuracy and the number of iterations it needs;
the default values of the library (`i_max = 100`, `e1 = e2 = 0.001`, `step_size = 0`) are among them. -/
structure GoodForm (c : Setup) (o : Form.Options) : Prop where
  e1 : 0 < o.e1
  e2 : 0 < o.e2
  fuel : o.iMax ≤ c.fuel
  rule : o.stepSize = 1 ∧ o.e1 ≤ 1 ∧ 2 ≤ o.iMax ∨ o.stepSize = 0 ∧ o.multiProc = 1 ∧ o.e1 ≤ 1 / 6 ∧ 37 ≤ o.iMax

/-- The options of a simulation without a target coefficient of variation. -/
structure GoodSim (c : Setup) (o : MonteCarlo.Options) : Prop where
  generator : o.randomGenerator = 0
  block : 1 ≤ o.blockSize
  samples : 1 ≤ o.samples
  stdv : 0 < o.stdv
  cov : o.cov ≤ 0
  fuel : o.samples ≤ c.fuel

/-- An analysis, its draws left open. -/
inductive Plan (n : ℕ) where
  | form (o : Form.Options)
  | crude (o : MonteCarlo.Options) (point : Option (Fin n → ℝ))
  | importance (fo : Form.Options) (o : MonteCarlo.Options)
  | line (fo : Form.Options) (N : ℕ)
  | sorm (fo : Form.Options) (ffdpara : ℝ) (fitType : String)

/-- The analysis with its draws. -/
def Plan.job : Plan n → (ℕ → ℝ) → Job n
  | .form o, _ => .form o
  | .crude o point, ω => .crude o point ω
  | .importance fo o, ω => .importance fo o ω
  | .line fo N, ω => .line fo N ω
  | .sorm fo p fit, _ => .sorm fo p fit

/-- The tolerance of line sampling's root finder on the scanned range. -/
noncomputable def lineTol (β : ℝ) : ℝ := 1e-6 + 4 * (1 / 2) ^ 52 * max (|β| * 3 + 5) 15

/-- Which analyses are considered.  SORM needs two variables at least, a last direction cosine that its rotation accepts, and
for the point fit a design point away from the origin and a gradient that its Newton iteration accepts. -/
def Plan.Good (c : Setup) (a0 : ℝ) (a μ sd : Fin (m + 1) → ℝ) : Plan (m + 1) → Prop
  | .form o => GoodForm c o
  | .crude o _ => GoodSim c o
  | .importance fo o => GoodForm c fo ∧ GoodSim c o
  | .line fo N => GoodForm c fo ∧ 1 ≤ N
  | .sorm fo p fit => GoodForm c fo ∧ m ≠ 0 ∧ c.ty = .cholesky ∧
      1e-8 * √(∑ i, (a i * sd i) ^ 2) < |a (Fin.last m) * sd (Fin.last m)| ∧
      (fit = "cf" ∧ p ≠ 0 ∧ Props.EigOK (c.eig m) ∨
        fit = "pf" ∧ a0 + ∑ i, a i * μ i ≠ 0 ∧ 1e-12 ≤ √(∑ i, (a i * sd i) ^ 2))

/-- What a result should be when the exact reliability index is `β`, the exact probability `p`: FORM exact; line sampling exact
up to its root finder, without scatter; SORM without curvature and exact; a simulation gives its estimate. -/
def Agrees (β p : ℝ) (est : (ℕ → ℝ) → ℝ) : Plan (m + 1) → (ℕ → ℝ) → Out (m + 1) → Prop
  | .form _, _, o => ∃ r, o = .form r ∧ r.beta = β ∧ r.Pf = p
  | .crude _ _, ω, o => ∃ r, o = .simulation r ∧ r.Pf = est ω
  | .importance _ _, ω, o => ∃ r, o = .simulation r ∧ r.Pf = est ω
  | .line _ N, _, o => ∃ (r : LineSampling.Result) (b : ℝ), o = .line r ∧ r.beta = (b : EReal) ∧ |b - β| ≤ lineTol β ∧
      r.c = List.replicate N b ∧ r.cov = 0 ∧ |r.Pf - p| ≤ lineTol β / √(2 * Real.pi)
  | .sorm _ _ _, _, o => ∃ r, o = .sorm r ∧ r.betaHL = β ∧ r.kappa = List.replicate m 0 ∧
      r.breitungM.pf = .fin p ∧ r.breitungM.betag = .fin β ∧
      (0 ≤ β → r.breitung.pf = .fin p ∧ r.breitung.betag = .fin β)

/-- The analyses whose result depends on the draws. -/
def Plan.Random : Plan n → Prop
  | .crude _ _ => True
  | .importance _ _ => True
  | _ => False

end Pystra.Spec
