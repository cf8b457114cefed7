import Verif.Props.UnitsSession
import Verif.Props.UnitsFamily

/-! C90: an example. -/

namespace Pystra.Props
open LimitState Spec Form Matrix Transformation StochModel Session Distribution

/-- The user's function for the new units, written with the old one: convert every argument back. -/
noncomputable def convertBack (U : Units) (expr : Kwargs → GRet) : Kwargs → GRet :=
  fun kw => expr (kw.map fun p => (p.1, p.2.map fun v => (v - U.off p.1) / U.fac p.1))

theorem convertBack_same {n : ℕ} (U : Units) (hU : ∀ k, U.fac k ≠ 0) (names : Fin n → String) {mode : String} (hm : mode ≠ "ddm")
    (expr : Kwargs → GRet) : SameFunction U names mode expr (convertBack U expr) := by
  unfold SameFunction
  rw [if_neg hm]
  intro kw
  unfold convertBack Units.kwargs
  congr 1
  rw [List.map_map]
  conv_rhs => rw [← List.map_id kw]
  refine List.map_congr_left fun p _ => ?_
  obtain ⟨k, l⟩ := p
  simp only [Function.comp_apply, List.map_map, id_eq, Prod.mk.injEq, true_and]
  conv_rhs => rw [← List.map_id l]
  refine List.map_congr_left fun v _ => ?_
  have := hU k
  simp only [Function.comp_apply, Units.conv, id_eq]
  field_simp
  ring

/-- Temperature in degrees Fahrenheit, load in newton. -/
noncomputable def fahrenheit : Units where
  off := fun k => if k = "T" then 32 else 0
  fac := fun k => if k = "T" then 1.8 else if k = "P" then 1000 else 1

theorem fahrenheit_fac (k : String) : fahrenheit.fac k ≠ 0 := by
  unfold fahrenheit
  dsimp only
  split
  · norm_num
  · split <;> norm_num

/-- The values at which the two objects are compared. -/
def fahrenheitDomain : String → Set ℝ := fun k => if k = "P" then Set.Ioi 0 else Set.univ

/-- A temperature, a load and a constant; the temperature range is a number of its own unit. -/
theorem fahrenheit_program : ∃ h h' : List (Op Marginal ℝ), List.Forall₂ (OpInUnits fahrenheit fahrenheitDomain) h h' ∧
    (init.run h : StochModel Marginal ℝ).marg.map DistObj.name = List.ofFn ![("T" : String), "P"] ∧
    (∀ para : ℝ, 0 < para → ∀ d ∈ (init.run h : StochModel Marginal ℝ).marg, ∀ x ∈ fahrenheitDomain d.name,
      x + d.body.stdv / para ∈ fahrenheitDomain d.name) ∧
    ∃ T T' P P', Normal.new 20 (.fin 5) none = .ok T ∧ Normal.new (32 + 1.8 * 20) (.fin (1.8 * 5)) none = .ok T' ∧
      Lognormal.new 40 8 false none = .ok P ∧ Lognormal.new (0 + 1000 * 40) (1000 * 8) false none = .ok P' ∧
      h = [.add (.distribution ⟨"T", T⟩), .add (.distribution ⟨"P", P⟩), .add (.constant "a" 3)] ∧
      h' = [.add (.distribution ⟨"T", T'⟩), .add (.distribution ⟨"P", P'⟩), .add (.constant "a" (fahrenheit.conv "a" 3))] := by
  obtain ⟨T, T', h1, h2, h3⟩ := units_normal (off := 32) (fac := 1.8) (by norm_num) 20 (q := 5) (by norm_num) none
  obtain ⟨P, P', h4, h5, h6⟩ := units_lognormal (fac := 1000) (by norm_num) (p := 40) (q := 8) (by norm_num) (by norm_num) none
    (by norm_num [startPoint])
  have hT : Rescaled (fahrenheit.off "T") (fahrenheit.fac "T") (fahrenheitDomain "T") T T' := by
    have e1 : fahrenheit.off "T" = 32 := by simp [fahrenheit]
    have e2 : fahrenheit.fac "T" = 1.8 := by simp [fahrenheit]
    have e3 : fahrenheitDomain "T" = Set.univ := by simp [fahrenheitDomain]
    rw [e1, e2, e3]; exact h3
  have hP : Rescaled (fahrenheit.off "P") (fahrenheit.fac "P") (fahrenheitDomain "P") P P' := by
    have e1 : fahrenheit.off "P" = 0 := by simp [fahrenheit]
    have e2 : fahrenheit.fac "P" = 1000 := by simp [fahrenheit]
    have e3 : fahrenheitDomain "P" = Set.Ioi 0 := by simp [fahrenheitDomain]
    rw [e1, e2, e3]; exact h6
  have hm : (init.run [Op.add (.distribution ⟨"T", T⟩), .add (.distribution ⟨"P", P⟩), .add (.constant "a" 3)] : StochModel Marginal ℝ).marg =
      [⟨"T", T⟩, ⟨"P", P⟩] := by
    simp [StochModel.run, StochModel.step, addVariable, init]
  refine ⟨_, _, .cons (.variable "T" T T' hT) (.cons (.variable "P" P P' hP) (.cons (.constant "a" 3) .nil)), ?_, ?_, T, T', P, P', h1, h2,
    h4, h5, rfl, rfl⟩
  · rw [hm]; simp
  · rw [hm]
    intro para hpara d hd x hx
    have hs : P.stdv = 8 := by
      obtain ⟨m', g, -, hsd, -⟩ := (good_lognormal (μ := 40) (σ := 8) (by norm_num) (by norm_num) none).ex
      rw [h4] at g; injection g with g; rw [g]; exact hsd
    simp only [List.mem_cons, List.not_mem_nil, or_false] at hd
    rcases hd with rfl | rfl
    · simp [fahrenheitDomain]
    · simp only [fahrenheitDomain, if_true, Set.mem_Ioi] at hx ⊢
      rw [hs]
      positivity

/-- For any function of temperature, load and the constant, finite differences, and any analyses: the reports agree. -/
example (c : Setup) (hc : c.lsopt.diffMode = "ffd") (hp : 0 < c.lsopt.ffdpara) (jobs : List (Job 2)) :
    ∃ h h' : List (Op Marginal ℝ), List.Forall₂ (OpInUnits fahrenheit fahrenheitDomain) h h' ∧
      RelOpt (fun p q => EvInUnits fahrenheit fahrenheitDomain p.1 q.1 ∧ List.Forall₂ (fahrenheit.Report ![("T" : String), "P"]) p.2 q.2)
        (session c jobs ⟨init.run h, []⟩) (session { c with expr := convertBack fahrenheit c.expr } jobs ⟨init.run h', []⟩) := by
  obtain ⟨h, h', hh, hn, hr, -⟩ := fahrenheit_program
  exact ⟨h, h', hh, C90_session fahrenheit fahrenheit_fac fahrenheitDomain hh _ hn c _
    (convertBack_same fahrenheit fahrenheit_fac _ (by rw [hc]; decide) c.expr) jobs (fun _ _ _ => hr _ hp)⟩

end Pystra.Props
