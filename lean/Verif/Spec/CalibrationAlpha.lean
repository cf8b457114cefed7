import Verif.Model.CalibrationForm
import Verif.Props.CalibrationDesign
import Verif.Spec.EndToEnd

/-! Vocabulary for C110: a linear calibration problem with independent normal variables. -/

namespace Pystra.Spec
open Session

/-- A weighted sum of variables. -/
noncomputable def linearEffect (labels : List String) (w v : String → ℝ) : ℝ := (labels.map fun k => w k * v k).sum

/-- The standard deviation of a weighted sum of independent variables. -/
noncomputable def effectDev (labels : List String) (w sd : String → ℝ) : ℝ := √(labels.map fun k => (w k * sd k) ^ 2).sum

/-- The keyword arguments of a call as plain numbers. -/
def argNums (d : Dict String ℝ) (k : String) : ℝ := (d.get? k).getD 0

/-- A calibration with the limit state `z · Σ ρ_k R_k - Σ σ_k S_k`, `z` the design parameter, analysed by the library's FORM. -/
structure LinearCalib (C : Calib Marginal) (c : Setup) (o : Form.Options) (consts : Dict String ConstObj) (ρ σ : String → ℝ) :
    Prop where
  /-- the labels of resistances, loads and constants -/
  labels : GoodLabels C consts
  /-- constants are stored under their names -/
  selfNamed : ∀ p ∈ consts, p.2.name = p.1
  /-- the analysis of a case -/
  form : C.form = formObject c o
  /-- the user's function, called with numbers -/
  lsf : ∀ a, C.lsf a = .ok (nums a C.cvar * linearEffect C.labelR ρ (nums a) - linearEffect C.labelS σ (nums a))
  /-- the same function, called with arrays -/
  expr : Pointwise c.expr fun d =>
    argNums d C.cvar * linearEffect C.labelR ρ (argNums d) - linearEffect C.labelS σ (argNums d)
  /-- no correlations -/
  uncorrelated : C.lc.dfCorr = none
  /-- numpy's factorisations -/
  la : LinAlgOK c.la
  /-- options of the evaluation -/
  block : 1 ≤ c.lsopt.blockSize
  /-- the step of the finite differences -/
  para : c.lsopt.ffdpara ≠ 0
  /-- processes -/
  mp : c.lsopt.multiProc ≠ 0
  /-- gradients by finite differences -/
  d1 : c.lsopt.diffMode ≠ "no"
  /-- gradients by finite differences -/
  d2 : c.lsopt.diffMode ≠ "ddm"
  /-- options of FORM; the defaults are among them -/
  good : GoodForm c o

/-- The variables of a case: the resistances and loads, normal with means `μ` and standard deviations `sd`. -/
structure NormalCase (C : Calib Marginal) (case : String) (μ sd : String → ℝ) (sp : String → Option ℝ) : Prop where
  /-- the variables -/
  vars : ∃ vars, C.lc.dictDistComb.get? case = some vars ∧ vars.keys.Nodup ∧ vars.keys.Perm (C.labelR ++ C.labelS) ∧
    ∀ p ∈ vars, p.2.name = p.1 ∧ Normal.new (μ p.1) (.fin (sd p.1)) (sp p.1) = .ok p.2.body
  /-- positive standard deviations -/
  pos : ∀ k ∈ C.labelR ++ C.labelS, 0 < sd k

/-- The reliability index of a case at the design parameter `z`: mean over standard deviation of the limit state. -/
noncomputable def caseIndex (C : Calib Marginal) (ρ σ μ sd : String → ℝ) (z : ℝ) : ℝ :=
  (z * linearEffect C.labelR ρ μ - linearEffect C.labelS σ μ) /
    √(z ^ 2 * effectDev C.labelR ρ sd ^ 2 + effectDev C.labelS σ sd ^ 2)

end Pystra.Spec
