import Verif.Witness.Samples
import Verif.Props.OptionsMeaning
import Verif.Props.OrderExample
import Verif.Props.Importance
import Verif.Props.FormCalls
import Verif.Props.FormObject

/-! Concrete cases for theorems of C34, C70, C71 and C76: two correlated standard normal variables, `g = 1 + x₁`. -/

namespace Pystra.Props
open Spec Transformation Form Session Matrix StochModel

theorem witness_session {la : LinAlg} (hla : LinAlgOK la) {m : Marginal} (hm : Normal.new 0 (.fin 1) none = .ok m) :
    ∃ s r, formRun (orderSetup la m 1000) 2 ⟨100, 0.001, 0.001, 1, 1⟩ ⟨orderModel m "x1" "x2", []⟩ = some (s, .inl r) := by
  obtain ⟨s, r, -, -, h, -⟩ := C91_alpha_order hla hm 1000 (by norm_num)
  exact ⟨s, r, h⟩

/-- C70: what a FORM analysis leaves behind. -/
example {la : LinAlg} (hla : LinAlgOK la) {m : Marginal} (hm : Normal.new 0 (.fin 1) none = .ok m) : ∃ s o,
    runJob (m := 1) (orderSetup la m 1000) (.form ⟨100, 0.001, 0.001, 1, 1⟩) ⟨orderModel m "x1" "x2", []⟩ = some (s, o) ∧
    SameDefinition s.model (orderModel m "x1" "x2") ∧
    ∀ job : Job 2, (runJob (m := 1) (orderSetup la m 1000) job s = none ↔
      runJob (m := 1) (orderSetup la m 1000) job ⟨orderModel m "x1" "x2", []⟩ = none) := by
  obtain ⟨s, r, h⟩ := witness_session hla hm
  have hj : runJob (m := 1) (orderSetup la m 1000) (.form ⟨100, 0.001, 0.001, 1, 1⟩) ⟨orderModel m "x1" "x2", []⟩ = some (s, .form r) := by
    simp only [runJob, h]
  obtain ⟨hd, -⟩ := C70_frame (m := 1) _ hj
  exact ⟨s, .form r, hj, hd, fun job => (C70_definition (m := 1) job hd).1⟩

/-- C71: importance sampling around the design point of that analysis. -/
example {la : LinAlg} (hla : LinAlgOK la) {m : Marginal} (hm : Normal.new 0 (.fin 1) none = .ok m) (ω : ℕ → ℝ) : ∃ s r s' res,
    importanceNew (orderSetup la m 1000) 2 ⟨100, 0.001, 0.001, 1, 1⟩ ⟨orderModel m "x1" "x2", []⟩ = some (s, .inl r) ∧
    importanceRun (orderSetup la m 1000) 2 .fresh ⟨1000, 10, 1, 0.05, 0⟩ r ω true ⟨orderModel m "x1" "x2", []⟩ =
      some (true, s', .simulation res) ∧ s'.model.callFunction = res.st.k := by
  obtain ⟨s, r, h⟩ := witness_session hla hm
  have hr : Reachable (orderModel m "x1" "x2") := ⟨_, rfl⟩
  have e := orderModel_eq m (n1 := "x1") (n2 := "x2") (by decide)
  obtain ⟨h1, ev0, t, -, s', res, h2, -, -, -, -, -, -, h3, -⟩ := C71_run (c := orderSetup la m 1000) (n := 2)
    (pointwise_of_byName (vectorise_byName fun a => 1 + (a "x1").getD 0)) (by norm_num [orderSetup]) (by norm_num [orderSetup])
    (ev := ⟨orderModel m "x1" "x2", []⟩) hr (by rw [e]; rfl) (by rw [e]; simp [getNames]) h (s := ⟨orderModel m "x1" "x2", []⟩)
    (SameDefinition.refl _) hr (opt := ⟨1000, 10, 1, 0.05, 0⟩) rfl (by norm_num) (by norm_num) one_pos (by norm_num [orderSetup])
    .fresh ω true
  exact ⟨s, r.point.u, s', res, h1, h2, by rw [h3]; simp [e]⟩

/-- C34, for an analysis of a session. -/
theorem witness_calls {c : Setup} {opt : Form.Options} {ev ev' : Ev Marginal} {n : ℕ} (hn : ev.model.marg.length = n) {r : Result n}
    (h : formRun c n opt ev = some (ev', .inl r)) :
    ev'.model.callFunction = ev.model.callFunction +
      r.i * (if c.lsopt.diffMode ≠ "no" ∧ c.lsopt.diffMode ≠ "ddm" then 1 + n else 1) + (if opt.stepSize = 0 then 6 * (r.i - 1) else 0) := by
  subst hn
  rw [C70_form] at h
  split at h
  · next hF =>
    cases h
    exact C34_run hF
  all_goals (cases h; done)

/-- C34: the calls of that analysis. -/
example {la : LinAlg} (hla : LinAlgOK la) {m : Marginal} (hm : Normal.new 0 (.fin 1) none = .ok m) : ∃ s r,
    formRun (orderSetup la m 1000) 2 ⟨100, 0.001, 0.001, 1, 1⟩ ⟨orderModel m "x1" "x2", []⟩ = some (s, .inl r) ∧
    s.model.callFunction = 3 * r.i := by
  obtain ⟨s, r, h⟩ := witness_session hla hm
  refine ⟨s, r, h, ?_⟩
  have e := orderModel_eq m (n1 := "x1") (n2 := "x2") (by decide)
  rw [witness_calls (by rw [e]; rfl) h]
  simp only [e, orderSetup]
  norm_num
  rw [if_pos (by decide)]
  ring

/-- C84: a FORM analysis that reads the default settings. -/
example {la : LinAlg} (hla : LinAlgOK la) {m : Marginal} (hm : Normal.new 0 (.fin 1) none = .ok m) (ω υ : ℕ → ℝ) :
    let s : Opts.Settings := ⟨⟨100, 0.001, 0.001, 1, 1⟩, (orderSetup la m 1000).lsopt, ⟨1000, 10, 1, 0.05, 0⟩⟩
    ∃ ev' r, Opts.analyse (orderSetup la m 1000) (m := 1) (orderSetup la m 1000).ty s ω υ .form ⟨orderModel m "x1" "x2", []⟩ =
      some (ev', .form r) ∧ r.i ≤ 100 := by
  intro s
  obtain ⟨ev', r, h⟩ := witness_session hla hm
  have e := orderModel_eq m (n1 := "x1") (n2 := "x2") (by decide)
  have hj : Opts.analyse (orderSetup la m 1000) (m := 1) (orderSetup la m 1000).ty s ω υ .form ⟨orderModel m "x1" "x2", []⟩ =
      some (ev', .form r) := by
    simp only [Opts.analyse, Opts.job, s, runJob, h]
  refine ⟨ev', r, hj, ?_⟩
  exact ((C84_reach (orderSetup la m 1000) (m := 1) (orderSetup la m 1000).ty s ω υ
    (pointwise_of_byName (vectorise_byName fun a => 1 + (a "x1").getD 0)) (by norm_num [s, orderSetup]) (by norm_num [s, orderSetup])
    (by norm_num [s]) (by norm_num [s]) (by norm_num [s]) rfl (by norm_num [s]) (by norm_num [s, orderSetup])
    (by norm_num [s, orderSetup]) ⟨orderModel m "x1" "x2", []⟩ ev' ⟨_, rfl⟩ (by rw [e]; rfl) (by rw [e]; simp [getNames])).1 r hj).2.1

end Pystra.Props
