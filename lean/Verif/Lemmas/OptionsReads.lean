import Verif.Lemmas.Options

/-! Which settings an analysis reads. -/

namespace Pystra
open Transformation Form

variable {σ : Type} {n : ℕ}

namespace MonteCarlo

theorem block_values (t : Mats n) (marg : Fin n → Marginal) (E E' : Evaluator σ n) (h : E.values = E'.values) (opt : MonteCarlo.Options)
    (point : Fin n → ℝ) (ω : ℕ → ℝ) (st : State σ n) : block t marg E opt point ω st = block t marg E' opt point ω st := by
  simp only [block, h]

theorem loop_values (t : Mats n) (marg : Fin n → Marginal) (E E' : Evaluator σ n) (h : E.values = E'.values) (opt : MonteCarlo.Options)
    (point : Fin n → ℝ) (ω : ℕ → ℝ) : ∀ (fuel : ℕ) (st : State σ n), loop t marg E opt point ω fuel st = loop t marg E' opt point ω fuel st
  | 0, st => by simp only [loop]
  | fuel + 1, st => by
    simp only [loop, block_values t marg E E' h, loop_values t marg E E' h opt point ω fuel]

theorem runOn_values (old : Records n) (t : Mats n) (marg : Fin n → Marginal) (E E' : Evaluator σ n) (h : E.values = E'.values)
    (opt : MonteCarlo.Options) (point : Option (Fin n → ℝ)) (ω : ℕ → ℝ) (pos fuel : ℕ) (s : σ) :
    runOn old t marg E opt point ω pos fuel s = runOn old t marg E' opt point ω pos fuel s := by
  simp only [runOn, loop_values t marg E E' h]

theorem dLoop_values (t : Mats n) (marg : Fin n → Marginal) (E E' : Evaluator σ n) (h : E.values = E'.values)
    (opt opt' : MonteCarlo.Options) (h1 : opt.samples = opt'.samples) (h2 : opt.blockSize = opt'.blockSize) (h3 : opt.stdv = opt'.stdv)
    (h4 : opt.randomGenerator = opt'.randomGenerator) (ω : ℕ → ℝ) : ∀ (fuel : ℕ) (st : DState σ n),
    dLoop t marg E opt ω fuel st = dLoop t marg E' opt' ω fuel st
  | 0, st => by simp only [dLoop, h1]
  | fuel + 1, st => by
    simp only [dLoop, randomNumbers, h, h1, h2, h3, h4, dLoop_values t marg E E' h opt opt' h1 h2 h3 h4 ω fuel]

end MonteCarlo

namespace Subset

theorem evalBatch_values (t : Mats n) (marg : Fin n → Marginal) (E E' : Evaluator σ n) (h : E.values = E'.values) (b : ℕ) :
    ∀ (fuel : ℕ) (us : List (Fin n → ℝ)) (s : σ), evalBatch t marg E b fuel us s = evalBatch t marg E' b fuel us s
  | _, [], s => by simp only [evalBatch]
  | 0, _ :: _, s => by simp only [evalBatch]
  | fuel + 1, u :: us, s => by simp only [evalBatch, h, evalBatch_values t marg E E' h b fuel]

theorem move_values (t : Mats n) (marg : Fin n → Marginal) (E E' : Evaluator σ n) (h : E.values = E'.values) (sg y : ℝ) (υ : ℕ → ℝ)
    (cur : Sample n) (pos : ℕ) (s : σ) : move t marg E sg y υ cur pos s = move t marg E' sg y υ cur pos s := by
  simp only [move, h]

theorem chain_values (t : Mats n) (marg : Fin n → Marginal) (E E' : Evaluator σ n) (h : E.values = E'.values) (sg y : ℝ) (υ : ℕ → ℝ) :
    ∀ (m : ℕ) (cur : Sample n) (pos : ℕ) (s : σ), chain t marg E sg y υ m cur pos s = chain t marg E' sg y υ m cur pos s
  | 0, cur, pos, s => by simp only [chain]
  | m + 1, cur, pos, s => by simp only [chain, move_values t marg E E' h, chain_values t marg E E' h sg y υ m]

theorem chains_values (t : Mats n) (marg : Fin n → Marginal) (E E' : Evaluator σ n) (h : E.values = E'.values) (sg y : ℝ) (υ : ℕ → ℝ)
    (b r : ℕ) : ∀ (seeds : List (Sample n)) (i pos : ℕ) (s : σ),
    chains t marg E sg y υ b r i seeds pos s = chains t marg E' sg y υ b r i seeds pos s
  | [], i, pos, s => by simp only [chains]
  | seed :: seeds, i, pos, s => by
    simp only [chains, chain_values t marg E E' h, chains_values t marg E E' h sg y υ b r seeds]

theorem mmhStep_values (t : Mats n) (marg : Fin n → Marginal) (E E' : Evaluator σ n) (h : E.values = E'.values) (sg y : ℝ) (υ : ℕ → ℝ)
    (N : ℕ) (seeds : List (Sample n)) (pos : ℕ) (s : σ) :
    mmhStep t marg E sg y υ N seeds pos s = mmhStep t marg E' sg y υ N seeds pos s := by
  simp only [mmhStep, chains_values t marg E E' h]

theorem levels_values (t : Mats n) (marg : Fin n → Marginal) (E E' : Evaluator σ n) (h : E.values = E'.values) (opt : Subset.Options)
    (υ : ℕ → ℝ) : ∀ (fuel : ℕ) (seeds : List (Sample n)) (y Pf : ℝ) (ts ps : List ℝ) (lv : ℕ) (recs : List (List (Sample n))) (pos : ℕ)
      (s : σ), levels t marg E opt υ fuel seeds y Pf ts ps lv recs pos s = levels t marg E' opt υ fuel seeds y Pf ts ps lv recs pos s
  | 0, _, _, _, _, _, _, _, _, _ => by simp only [levels]
  | fuel + 1, seeds, y, Pf, ts, ps, lv, recs, pos, s => by
    simp only [levels, mmhStep_values t marg E E' h, levels_values t marg E E' h opt υ fuel]

theorem run_values (t : Mats n) (marg : Fin n → Marginal) (E E' : Evaluator σ n) (h : E.values = E'.values) (opt : Subset.Options)
    (ω υ : ℕ → ℝ) (fuel : ℕ) (s : σ) : Subset.run t marg E opt ω υ fuel s = Subset.run t marg E' opt ω υ fuel s := by
  simp only [Subset.run, evalBatch_values t marg E E' h, levels_values t marg E E' h]

end Subset

/-- Evaluations without a gradient read neither the differentiation mode nor `ffdpara`. -/
theorem lsEvaluator_values {D : Type} (expr : Kwargs → GRet) (opt opt' : LSOptions) (h1 : opt.multiProc = opt'.multiProc)
    (h2 : opt.blockSize = opt'.blockSize) (stdv : Fin n → ℝ) :
    (lsEvaluator (D := D) expr opt stdv).values = (lsEvaluator (D := D) expr opt' stdv).values := by
  funext ev xs
  simp only [lsEvaluator, LimitState.evaluateLsf, LimitState.evaluateNogradient, h1, h2]
  simp

namespace Opts

/-- What it means that the settings of an object are `s`. -/
theorem settings_spec (o : Obj) (s : Settings) : settings o = some s →
    readAs asNat (attr o "i_max") = some s.form.iMax ∧ readAs asReal (attr o "e1") = some s.form.e1 ∧
    readAs asReal (attr o "e2") = some s.form.e2 ∧ readAs asReal (attr o "step_size") = some s.form.stepSize ∧
    readAs asNat (attr o "multi_proc") = some s.form.multiProc ∧
    readAs (fun v => some (asMode v)) (attr o "diff_mode") = some s.lsf.diffMode ∧
    readAs asNat (attr o "multi_proc") = some s.lsf.multiProc ∧
    readAs asNat (attr o "block_size") = some s.lsf.blockSize ∧ readAs asReal (attr o "ffdpara") = some s.lsf.ffdpara ∧
    readAs asNat (attr o "samples") = some s.mc.samples ∧ readAs asNat (attr o "block_size") = some s.mc.blockSize ∧
    readAs asReal (attr o "stdv_sim") = some s.mc.stdv ∧ readAs asReal (attr o "target_cov") = some s.mc.cov ∧
    readAs asNat (attr o "random_generator") = some s.mc.randomGenerator := by
  intro h
  simp only [settings, readForm, readLsf, readMc, callGetter, Option.bind_eq_bind, Option.pure_def, Option.bind_eq_some_iff,
    Option.some.injEq] at h
  obtain ⟨f, ⟨a1, h1, a2, h2, a3, h3, a4, h4, a5, h5, rfl⟩, l, ⟨b1, g1, b2, g2, b3, g3, b4, g4, rfl⟩, m,
    ⟨c1, k1, c2, k2, c3, k3, c4, k4, c5, k5, rfl⟩, rfl⟩ := h
  exact ⟨h1, h2, h3, h4, h5, g1, g2, g3, g4, k1, k2, k3, k4, k5⟩

theorem attr_congr (o o' : Obj) (name : String) (h : Dict.get? o name = Dict.get? o' name) : attr o name = attr o' name := by
  simp only [attr, h]

end Opts
end Pystra
