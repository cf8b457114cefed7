import Verif.Props.LoadCase
import Verif.Props.CalibrationMax
import Verif.Props.CalibrationLoop
import Verif.Props.CalibrationMatrix
import Verif.Props.CalibrationDesign
import Verif.Props.CalibrationLife
import Verif.Props.GenericCalib
import Verif.Props.GenericForm

/-! Concrete cases for theorems of C56–C66, C113, C117 that have no example beside them. -/

namespace Pystra.Props
open LoadComb Calib GenericModel GenericCalib CalibState Pystra.Spec

/-- C56: the two-load example has the labels given. -/
example : ∃ lc, exNew = .ok lc ∧ lc.getLabel "resist" = .ok (some ["R"]) ∧ lc.getLabel "comb_vrs" = .ok (some ["Q1", "Q2"]) ∧
    lc.getLabel "comb_cases" = .ok (some ["Q1_max", "Q2_max"]) ∧ lc.getLabel "nonsense" = .error .keyError := by
  obtain ⟨lc, h⟩ : ∃ lc, exNew = .ok lc := ⟨_, rfl⟩
  obtain ⟨h1, -, h2, h3, -, -, h4⟩ := C56_labels h
  exact ⟨lc, h, h1, h2, h3, h4 "nonsense" (by decide)⟩

example : ∃ lc dd, exNew = .ok lc ∧ lc.dictDistComb.get? "Q2_max" = some dd ∧ dd.get? "Q1" = some ⟨"Q1", 2⟩ ∧ dd.get? "Q2" = some ⟨"Q2", 3⟩ := by
  obtain ⟨lc, h⟩ : ∃ lc, exNew = .ok lc := ⟨_, rfl⟩
  obtain ⟨dd, h1, h2, -⟩ := C56_case (by decide) (by decide) h (name := "Q2_max") (leading := ["Q2"]) (by simp [exCases])
  exact ⟨lc, dd, h, h1, by simpa using h2 "Q1" _ (.head _), by simpa using h2 "Q2" _ (.tail _ (.head _))⟩

/-- C56: without combination cases the same example raises. -/
example := C56_default_fails exComb (by simp [exComb]) [⟨"R", 5⟩] none none none

/-- C57: an unknown keyword. -/
example : ∃ lc, exNew = .ok lc ∧ lc.caseModel (some "Q2_max") [("nonsense", .constant "nonsense" 2)] = lc.caseModel (some "Q2_max") [] := by
  obtain ⟨lc, h, hdd, hc⟩ : ∃ lc, exNew = .ok lc ∧ lc.dictDistComb.get? "Q2_max" =
      some [("R", ⟨"R", 5⟩), ("G", ⟨"G", 6⟩), ("Q1", ⟨"Q1", 2⟩), ("Q2", ⟨"Q2", 3⟩)] ∧
      lc.constant = some [("z", ⟨"z", 1⟩)] := ⟨_, rfl, by rfl, by rfl⟩
  refine ⟨lc, h, C57_unknown_ignored lc hdd _ _ fun k hk => ?_⟩
  rw [hc] at hk
  have : k ≠ "nonsense" := by rintro rfl; revert hk; decide
  simp [Dict.get?, this.symm]

/-- C59: the second row and the second load of the example. -/
example : ∃ res, exCalib.getPsiMax exTable = .ok res ∧ res.get "B" "Q2" = some 1 :=
  C59_positional exCalib (psi := exTable) (by decide) (by decide) (by decide) (by decide) (i := 1) rfl rfl

/-- C60: a solver that returns any number is believed. -/
example (z : ℝ) : ∃ f, calibrationOptimize (fun _ _ => .ok z) exCalib1 "A" 1 3 = .ok (.arr z, f) ∧ f.beta = z ∧ exCalib1.relFunc "A" z = .ok f := by
  obtain ⟨m, h, -⟩ := exCalib1_rel z
  have h1 := C60_optimize_unchecked exCalib1 "A" 1 3 z h
  exact ⟨_, h1, rfl, (C60_optimize _ _ _ _ _ h1).1⟩

/-- C60: when the given constant already reaches the target, the alpha method fails. -/
example (r) : calibrateDesignParam (fun _ _ => .error .exception) { exCalib1 with betaT := 1 } 100 ≠ some (.ok r) := by
  obtain ⟨m, h, -⟩ := exCalib1_rel 1
  exact C60_start_converged _ { exCalib1 with betaT := 1 } rfl (consts := [("z", ⟨"z", 1⟩)]) (c := ⟨"z", 1⟩) rfl rfl (case := "A") (by decide)
    (f := ⟨m, 1, [1, 0], [0, 0], fun _ => [1, 3]⟩) h (by norm_num) r

example := C60_unknown_method (fun _ _ => .error .exception) { exCalib1 with calibMethod := "newton" } (by simp) (by simp) 1 100 "A"

/-- C61: a design between the factored loads 2 and 4. -/
example : ∃ z, design 0.5 0.5 0.5 2 2 4 1 1 1 1 = .ok z ∧ lsf z 0.5 0.5 1 (0.5 * 1) 1 (2 * 1) (2 * 1) (4 * 1) = 0 ∧ 2 ≤ 0.5 * 1 * z ∧ 0.5 * 1 * z ≤ 4 := by
  obtain ⟨z, h⟩ : ∃ z, design 0.5 0.5 0.5 2 2 4 1 1 1 1 = .ok z := ⟨_, by unfold design; rw [if_neg (by norm_num)]⟩
  exact ⟨z, h, C61_limit_state h, C61_between h (by norm_num) (by norm_num) (by norm_num) (by norm_num) (by norm_num)⟩

theorem witness_grid : getReliabilities exGenForm [0, 1] [1] exModel = .ok [[4, 8]] := by
  simp only [getReliabilities, mapE, exCell]
  norm_num

example := C61_grid exGenForm [0, 1] [1] witness_grid

example := C61_incomplete (D := ℕ) { exModel with Rk := none } 0 1 (.inr (.inl rfl))

/-- C62: a model that analyses and one that does not. -/
theorem witness_heap : (runOps exGenForm ⟨fun i => if i = 0 then exModel else { exModel with Rk := none }, GenericCalib.new [0, 1] [1]⟩
    [.addModel 0 "b" "m", .analyse]).calib.plot = .ok [⟨0, some [[4, 8]], "b", "m"⟩] := by
  simp [runOps, step, addModel, GenericCalib.new, analyse, analyseLoop, witness_grid, plot]

example := C62_history exGenForm (fun _ => exModel) [0, 1] [1] [.addModel 0 "b" "m", .analyse]

example : ∃ b, getReliabilities exGenForm [0, 1] [1] exModel = .ok b ∧ b = [[4, 8]] := by
  have h := C62_current exGenForm ⟨fun _ => exModel, (GenericCalib.new [0, 1] [1]).addModel 0 "b" "m"⟩
    (by simp [addModel, GenericCalib.new, analyse, analyseLoop, witness_grid])
    (d := [⟨0, some [[4, 8]], "b", "m"⟩]) (by simp [step, addModel, GenericCalib.new, analyse, analyseLoop, witness_grid, plot]) (k := 0) rfl
  obtain ⟨b, h1, h2⟩ := h
  exact ⟨b, h2, by simpa using h1.symm⟩

/-- C65: the constant `z` under another name. -/
example := C65_other_name (C := { exCalibM with cvar := "zz" }) (x := exTable) (by decide) (comb := "A") (t := ["B"]) (sl := ["Q1"]) rfl (by decide)

/-- C62: two analysed models of which the second has lost its nominal resistance; the second analysis raises and the plot mixes. -/
example : ∃ done p rest done', [(⟨0, some [[1, 1]], "b", "m"⟩ : ProbModel), ⟨1, some [[2, 2]], "r", "n"⟩] = done ++ p :: rest ∧
    (step exGenForm ⟨fun i => if i = 0 then exModel else { exModel with Rk := none },
      ⟨[0, 1], [1], [⟨0, some [[1, 1]], "b", "m"⟩, ⟨1, some [[2, 2]], "r", "n"⟩], true⟩⟩ .analyse).calib.plot = .ok (done' ++ p :: rest) := by
  have hbad : getReliabilities exGenForm [0, 1] [1] { exModel with Rk := none } = .error .typeError := by
    simp [getReliabilities, mapE, cell, analyseDesign, designOf, exModel, complete, GenericModel.setFactors, GenericModel.setDistributions,
      GenericModel.setNominals]
  obtain ⟨done, p, rest, done', h1, h2, -⟩ := C62_mixed exGenForm ⟨fun i => if i = 0 then exModel else { exModel with Rk := none },
      ⟨[0, 1], [1], [⟨0, some [[1, 1]], "b", "m"⟩, ⟨1, some [[2, 2]], "r", "n"⟩], true⟩⟩ rfl (e := .typeError)
      (by simp [analyse, analyseLoop, witness_grid, hbad]) (by simp)
  exact ⟨done, p, rest, done', h1, h2⟩

/-- C66: the factored values and the design parameter of the one-load example. -/
noncomputable def witnessFactors : Factors := ⟨⟨["A"], ["R"], fun _ _ => some (1/2)⟩, ⟨["A"], ["Q"], fun _ _ => some 2⟩, ⟨["A"], ["Q"], fun _ _ => some 1⟩⟩

theorem witness_design : ∃ t zs, exCalib1.calcDfPgRS witnessFactors false false = .ok t ∧
    exCalib1.getDesignParamFactor witnessFactors false false = .ok zs := by
  have hg : GoodLabels exCalib1 [("z", ⟨"z", 1⟩)] := ⟨rfl, by decide, by decide, by decide, by decide, by decide⟩
  have hev : ∀ a, exCalib1.eval a = .ok ((defaultArgs ["R", "Q", "z"] [("z", ⟨"z", 1⟩)] 0 none a "z").getD 0 *
      (defaultArgs ["R", "Q", "z"] [("z", ⟨"z", 1⟩)] 0 none a "R").getD 0 -
      (defaultArgs ["R", "Q", "z"] [("z", ⟨"z", 1⟩)] 0 none a "Q").getD 0) := fun a => eval_eq hg a
  obtain ⟨t, ht⟩ : ∃ t, exCalib1.calcDfPgRS witnessFactors false false = .ok t := by
    unfold calcDfPgRS
    simp only [Bool.false_eq_true, if_false]
    rw [if_neg (by decide)]
    exact ⟨_, rfl⟩
  obtain ⟨psi, -, hpsi, hi, hc, hR, hS⟩ := C66_factored_values ht (by decide)
  have r1 : t.get "A" "R" = some (2 * (1/2)) := hR "A" "R" (by decide) 2 (1/2) rfl rfl
  have q1 : t.get "A" "Q" = some (2 * 2 * 1) := hS "A" "Q" (by decide) 2 2 1 rfl ⟨⟨"A", by simp [witnessFactors], rfl⟩, by
    rintro v ⟨r, hr, hv⟩
    simp [witnessFactors, Frame.get] at hr hv
    simp [hr] at hv
    exact hv.ge⟩ (by rw [hpsi rfl]; rfl)
  refine ⟨t, ?_⟩
  have : ∃ z, exCalib1.calcDesignParam t "A" = .ok z := by
    have k1 : Calib.rowArgs t "A" (exCalib1.labelOther ++ exCalib1.labelCombVrs) = .ok (fun k => if k ∈ ["Q"] then t.get "A" k else none) := by
      change (if "A" ∉ t.index ∨ ∃ c ∈ ["Q"], c ∉ t.columns then _ else if ∃ c ∈ ["Q"], t.get "A" c = none then _ else _) = _
      rw [if_neg (by rw [hi, hc]; decide), if_neg (by simp [q1])]
      rfl
    have k2 : Calib.rowArgs t "A" exCalib1.labelR = .ok (fun k => if k ∈ ["R"] then t.get "A" k else none) := by
      change (if "A" ∉ t.index ∨ ∃ c ∈ ["R"], c ∉ t.columns then _ else if ∃ c ∈ ["R"], t.get "A" c = none then _ else _) = _
      rw [if_neg (by rw [hi, hc]; decide), if_neg (by simp [r1])]
      rfl
    unfold calcDesignParam
    simp only [k1, k2, hev]
    rw [if_neg (by simp [defaultArgs, Dict.get?, r1])]
    exact ⟨_, rfl⟩
  obtain ⟨z, hz⟩ := this
  refine ⟨[z], ht, ?_⟩
  unfold getDesignParamFactor
  rw [ht]
  simp [designParams, exCalib1, exLC1, Calib.labelCombCases] at hz ⊢
  simp [hz]

example : ∃ t zs z, exCalib1.calcDfPgRS witnessFactors false false = .ok t ∧
    exCalib1.getDesignParamFactor witnessFactors false false = .ok zs ∧ zs[0]? = some z ∧ 0 ≤ z := by
  have hg : GoodLabels exCalib1 [("z", ⟨"z", 1⟩)] := ⟨rfl, by decide, by decide, by decide, by decide, by decide⟩
  have hs : Separated exCalib1 (fun v => v "R") (fun v => v "Q") :=
    ⟨fun a => rfl, fun v w h => h "R" (by decide) (by decide), fun v h => h "R" (by decide), fun v w h => h "Q" (by decide) (by decide),
      fun v h => h "Q" (by decide)⟩
  obtain ⟨t, zs, -, h2⟩ := witness_design
  obtain ⟨t', h1, -, h3⟩ := C66_factor hg hs (c := ⟨"z", 1⟩) rfl rfl h2
  obtain ⟨z, h4, h5, -⟩ := h3 0 "A" rfl
  exact ⟨t', zs, z, h1, h2, h4, h5⟩

/-- C113: a calibration that succeeds, then the method is set to an unknown one: the next run raises and the design points stay. -/
example : ∃ s s' outs x, session exSolver 100 (fresh exLife) [.run (some "coeff") false, .setCalibMethod "newton"] = some (s, outs) ∧
    session exSolver 100 (fresh exLife) ([.run (some "coeff") false, .setCalibMethod "newton"] ++ [.run none false]) =
      some (s', outs ++ [.raised .nameError]) ∧ s'.xstar = some x ∧ s'.xstar = s.xstar := by
  obtain ⟨s, outs, h⟩ := C113_ends exSolver (fuel := 100) le_rfl exLife [.run (some "coeff") false, .setCalibMethod "newton"]
  obtain ⟨k1, k2, -⟩ := C113_life _ _ _ _ h
  have hr : (settings exLife [.run (some "coeff") false, .setCalibMethod "newton"]).runCalibration exSolver 100 = some (.error .nameError) := by
    obtain ⟨C, hC⟩ : ∃ C : Calib ℕ, C = { exLife with calibMethod := "newton" } := ⟨_, rfl⟩
    show Calib.runCalibration exSolver { exLife with calibMethod := "newton" } 100 = _
    rw [← hC]
    have e := C60_unknown_method exSolver C (by rw [hC]; simp) (by rw [hC]; simp) 1 100 "A"
    have e2 : calibrateLoop exSolver C 1 100 ["A"] = some (.error .nameError) := by
      rw [calibrateLoop, e]
    have e4 : C.lc.constant = some [("z", ⟨"z", 1⟩)] := by rw [hC]; rfl
    have e5 : C.cvar = "z" := by rw [hC]; rfl
    have e6 : C.labelCombCases = ["A"] := by rw [hC]; rfl
    have e3 : Dict.get? ([("z", ⟨"z", 1⟩)] : Dict String ConstObj) "z" = some ⟨"z", 1⟩ := rfl
    unfold runCalibration calibrateDesignParam
    simp only [e4, e5, e3, e6, e2]
  have h' : session exSolver 100 (fresh exLife) ([.run (some "coeff") false, .setCalibMethod "newton"] ++ [.run none false]) =
      some (s, outs ++ [.raised .nameError]) := by
    rw [session_append, h]
    simp only [session, exec, CalibState.run, k1, hr]
  obtain ⟨x, hx, -⟩ := exLife_calibrated 3
  have := C113_raised _ _ _ _ _ _ h h'
  exact ⟨s, s, outs, x, h, h', by
    rw [k2]
    have hx' : exLife.runCalibration exSolver 100 = some (.ok x) := hx
    simp [latest, latestRev, calibrated, settings, hx'], this.2.2.1 hr⟩

/-- C117. -/
example := C117_factors exGenForm exModel (k := 3) (by norm_num) 0.5 2 2 4 [0, 1] [1]

end Pystra.Props
