import Verif.Lemmas.AnalysisSim
import Verif.Props.Form

/-! C70: analyses sharing one model object do not disturb each other. -/

namespace Pystra.Props
open Transformation Form Session

/-- What the user defined: variables, their order, correlation, constants.  (Not: the stored modified correlation matrix and
the call counter.) -/
structure SameDefinition (a b : StochModel Marginal ℝ) : Prop where
  vars : a.vars = b.vars
  names : a.names = b.names
  marg : a.marg = b.marg
  correlation : a.correlation = b.correlation
  consts : a.consts = b.consts

theorem SameDefinition.refl (a : StochModel Marginal ℝ) : SameDefinition a a := ⟨rfl, rfl, rfl, rfl, rfl⟩

theorem SameDefinition.symm {a b : StochModel Marginal ℝ} (h : SameDefinition a b) : SameDefinition b a :=
  ⟨h.vars.symm, h.names.symm, h.marg.symm, h.correlation.symm, h.consts.symm⟩

theorem SameDefinition.trans {a b c : StochModel Marginal ℝ} (h : SameDefinition a b) (g : SameDefinition b c) :
    SameDefinition a c :=
  ⟨h.vars.trans g.vars, h.names.trans g.names, h.marg.trans g.marg, h.correlation.trans g.correlation,
    h.consts.trans g.consts⟩

/-- From `a` to `s`: the definition is untouched, `j` evaluations were counted, the limit-state function was called on `T`,
and the stored modified correlation matrix is the old one or the one computed from the definition. -/
structure Since (c : Setup) (a s : Ev Marginal) (j : ℕ) (T : List Kwargs) : Prop where
  definition : SameDefinition s.model a.model
  count : s.model.callFunction = a.model.callFunction + j
  trace : s.trace = a.trace ++ T
  Ro : s.model.Ro = a.model.Ro ∨ ∃ M, Correlation.compute c.fmin c.default a.model = .ok M ∧ s.model.Ro = some M

theorem Since.refl (c : Setup) (a : Ev Marginal) : Since c a a 0 [] :=
  ⟨.refl _, rfl, by simp, Or.inl rfl⟩

theorem Since.advance {c : Setup} {a s : Ev Marginal} {j : ℕ} {T : List Kwargs} (h : Since c a s j T) (k : ℕ)
    (S : List Kwargs) : Since c a (s.advance k S) (j + k) (T ++ S) :=
  ⟨⟨h.definition.vars, h.definition.names, h.definition.marg, h.definition.correlation, h.definition.consts⟩,
    by simp [Ev.advance, StochModel.addCallFunction, h.count, Nat.add_assoc], by simp [Ev.advance, h.trace], h.Ro⟩

/-- Two sessions on models with the same definition, after the same evaluations. -/
def Alike (c : Setup) (a b s t : Ev Marginal) : Prop := ∃ j T, Since c a s j T ∧ Since c b t j T

variable {c : Setup} {a b : Ev Marginal} {n m : ℕ}

theorem Alike.same (hd : SameDefinition a.model b.model) {s t : Ev Marginal} (h : Alike c a b s t) :
    SameDefinition s.model t.model := by
  obtain ⟨j, T, h1, h2⟩ := h
  exact (h1.definition.trans hd).trans h2.definition.symm

theorem ls_alike (hd : SameDefinition a.model b.model) (expr : Kwargs → GRet) (opt : LSOptions) (stdv : Fin n → ℝ) :
    Sim (Alike c a b) (lsEvaluator expr opt stdv) (lsEvaluator expr opt stdv) := by
  have adv : ∀ s t, Alike c a b s t → ∀ k S, Alike c a b (s.advance k S) (t.advance k S) := by
    rintro s t ⟨j, T, h1, h2⟩ k S
    exact ⟨j + k, T ++ S, h1.advance k S, h2.advance k S⟩
  constructor
  · intro s t hst x
    have hs := hst.same hd
    simp only [lsEvaluator]
    rcases evaluateLsf_same (7 + n) expr opt stdv none [x] (a := s) (b := t) ⟨hs.vars, hs.consts⟩ with
      ⟨e1, e2⟩ | ⟨j', T', out, e1, e2⟩
    · rw [e1, e2]; exact ⟨hst, rfl⟩
    · rw [e1, e2]
      cases out with
      | error e => exact ⟨adv s t hst _ _, rfl⟩
      | ok o => exact ⟨adv s t hst _ _, rfl⟩
  · intro s t hst xs
    have hs := hst.same hd
    simp only [lsEvaluator]
    rcases evaluateLsf_same (7 + n + xs.length) expr opt stdv (some "no") xs (a := s) (b := t) ⟨hs.vars, hs.consts⟩ with
      ⟨e1, e2⟩ | ⟨j', T', out, e1, e2⟩
    · rw [e1, e2]; exact ⟨hst, rfl⟩
    · rw [e1, e2]
      cases out with
      | error e => exact ⟨adv s t hst _ _, rfl⟩
      | ok o => exact ⟨adv s t hst _ _, rfl⟩

theorem compute_same {s t : StochModel Marginal ℝ} (h : SameDefinition s t) (fmin : Correlation.Fmin) (d : Marginal) :
    Correlation.compute fmin d s = Correlation.compute fmin d t := by
  unfold Correlation.compute StochModel.getCorrelation
  rw [h.correlation, h.marg]

theorem initRun_alike (hd : SameDefinition a.model b.model) {s t : Ev Marginal} (h : Alike c a b s t) :
    RP (Alike c a b) (initRun c n s) (initRun c n t) := by
  have hst := h.same hd
  unfold initRun Correlation.setModified
  rw [compute_same hst]
  cases hc : Correlation.compute c.fmin c.default t.model with
  | error e => exact ⟨h, rfl⟩
  | ok Ro =>
    simp only [StochModel.setModifiedCorrelation]
    have hA : Alike c a b { s with model := { s.model with Ro := some Ro } } { t with model := { t.model with Ro := some Ro } } := by
      obtain ⟨j, T, h1, h2⟩ := h
      refine ⟨j, T, ⟨⟨h1.definition.vars, h1.definition.names, h1.definition.marg, h1.definition.correlation,
        h1.definition.consts⟩, h1.count, h1.trace, Or.inr ⟨Ro, ?_, rfl⟩⟩,
        ⟨⟨h2.definition.vars, h2.definition.names, h2.definition.marg, h2.definition.correlation,
        h2.definition.consts⟩, h2.count, h2.trace, Or.inr ⟨Ro, ?_, rfl⟩⟩⟩
      · rw [← compute_same h1.definition, compute_same hst, hc]
      · rw [← compute_same h2.definition, hc]
    split
    · exact ⟨hA, rfl⟩
    · exact ⟨hA, rfl⟩

theorem margN_same {s t : StochModel Marginal ℝ} (h : SameDefinition s t) (d : Marginal) : margN n d s = margN n d t := by
  unfold margN
  rw [h.marg]

theorem evaluator_same {s t : StochModel Marginal ℝ} (h : SameDefinition s t) : evaluator c n s = evaluator c n t := by
  unfold evaluator
  rw [margN_same h]

theorem evaluator_alike (hd : SameDefinition a.model b.model) (mdl : StochModel Marginal ℝ) :
    Sim (Alike c a b) (evaluator c n mdl) (evaluator c n mdl) := ls_alike hd _ _ _

theorem withInit_alike {β : Type} {Q : β → β → Prop} (hd : SameDefinition a.model b.model) {s t : Ev Marginal}
    (h : Alike c a b s t) {fail : Ev Marginal → PyErr → Option β} {body : Mats n → Ev Marginal → Option β}
    (hf : ∀ s t e, Alike c a b s t → OptRel Q (fail s e) (fail t e))
    (hb : ∀ M s t, Alike c a b s t → OptRel Q (body M s) (body M t)) :
    OptRel Q (withInit c n s fail body) (withInit c n t fail body) := by
  unfold withInit
  obtain ⟨s', t', o, hst, h1, h2⟩ := (initRun_alike (n := n) hd h).cases
  rw [h1, h2]
  cases o with
  | error e => exact hf _ _ _ hst
  | ok M => exact hb _ _ _ hst

/-- Abbreviation: both still running, or the same outcome and alike states. -/
def Same {α : Type} (c : Setup) (a b : Ev Marginal) (p q : Option (Ev Marginal × α)) : Prop :=
  OptRel (RP (Alike c a b)) p q

theorem Same.mk {α : Type} {s t : Ev Marginal} (h : Alike c a b s t) (x : α) : Same c a b (some (s, x)) (some (t, x)) :=
  Or.inr ⟨_, _, rfl, rfl, h, rfl⟩

theorem formRun_alike (hd : SameDefinition a.model b.model) (opt : Form.Options) {s t : Ev Marginal}
    (h : Alike c a b s t) : Same c a b (formRun c n opt s) (formRun c n opt t) := by
  refine withInit_alike hd h (fun s t e h => Same.mk h _) ?_
  intro M s t h
  rw [margN_same (h.same hd), evaluator_same (h.same hd)]
  rcases runFrom_sim (evaluator_alike (c := c) (n := n) hd t.model) M (margN n c.default t.model) opt c.fuel h with
    ⟨h1, h2⟩ | ⟨p, q, h1, h2, hq⟩
  · rw [h1, h2]; exact Or.inl ⟨rfl, rfl⟩
  · rw [h1, h2]
    cases hq with
    | done r h => exact Same.mk h _
    | raised r h => exact Same.mk h _
    | nan h => exact Same.mk h _
    | next _ _ h => exact Or.inl ⟨rfl, rfl⟩

theorem simOut_alike {p q : Option (Except (PyErr × Ev Marginal) (MonteCarlo.Result (Ev Marginal) n))}
    (h : OptRel (ExRel (Alike c a b) (MonteCarlo.ResRel (Alike c a b))) p q) : Same c a b (simOut p) (simOut q) := by
  rcases h with ⟨rfl, rfl⟩ | ⟨p, q, rfl, rfl, hq⟩
  · exact Or.inl ⟨rfl, rfl⟩
  · cases hq with
    | error e h => exact Same.mk h _
    | ok h =>
      simp only [simOut, h.1]
      exact Same.mk h.2 _

theorem importanceRun_alike (hd : SameDefinition a.model b.model) (old : MonteCarlo.Records n) (opt : MonteCarlo.Options)
    (point : Fin n → ℝ) (ω : ℕ → ℝ) (print : Bool) {s t : Ev Marginal} (h : Alike c a b s t) :
    Same c a b ((importanceRun c n old opt point ω print s).map Prod.snd)
      ((importanceRun c n old opt point ω print t).map Prod.snd) := by
  unfold importanceRun
  obtain ⟨s', t', o, hst, h1, h2⟩ := (initRun_alike (n := n) hd h).cases
  rw [h1, h2]
  cases o with
  | error e => exact Same.mk hst _
  | ok _ =>
    dsimp only
    obtain ⟨s'', t'', o, hst, h1, h2⟩ := (initRun_alike (n := n) hd hst).cases
    rw [h1, h2]
    cases o with
    | error e => exact Same.mk hst _
    | ok M =>
      dsimp only
      rw [margN_same (hst.same hd), evaluator_same (hst.same hd)]
      rcases simOut_alike (MonteCarlo.runOn_sim (evaluator_alike (c := c) (n := n) hd t''.model) old M
        (margN n c.default t''.model) opt (some point) ω 0 c.fuel hst) with ⟨h1, h2⟩ | ⟨p, q, h1, h2, hq⟩
      · rw [h1, h2]; exact Or.inl ⟨rfl, rfl⟩
      · obtain ⟨u, v, o, huv, rfl, rfl⟩ := hq.cases
        rw [h1, h2]
        cases o <;> exact Same.mk huv _

/-- An analysis on two models with the same definition that have seen the same evaluations. -/
theorem runJob_alike (hd : SameDefinition a.model b.model) (job : Job (m + 1)) {s t : Ev Marginal}
    (h : Alike c a b s t) : Same c a b (runJob c job s) (runJob c job t) := by
  cases job with
  | form opt =>
    unfold runJob
    dsimp only
    rcases formRun_alike (n := m + 1) hd opt h with ⟨h1, h2⟩ | ⟨p, q, h1, h2, hq⟩
    · rw [h1, h2]; exact Or.inl ⟨rfl, rfl⟩
    · obtain ⟨s', t', o, hst, rfl, rfl⟩ := hq.cases
      rw [h1, h2]
      cases o with
      | inl r => exact Same.mk hst _
      | inr r => exact Same.mk hst _
  | crude opt point ω =>
    refine withInit_alike hd h (fun s t e h => Same.mk h _) ?_
    intro M s t h
    rw [margN_same (h.same hd), evaluator_same (h.same hd)]
    exact simOut_alike (MonteCarlo.run_sim (evaluator_alike hd _) M _ opt point ω 0 c.fuel h)
  | importance fopt opt ω =>
    unfold runJob importanceNew
    dsimp only
    rcases formRun_alike (n := m + 1) hd fopt h with ⟨h1, h2⟩ | ⟨p, q, h1, h2, hq⟩
    · rw [h1, h2]; exact Or.inl ⟨rfl, rfl⟩
    · obtain ⟨s', t', o, hst, rfl, rfl⟩ := hq.cases
      rw [h1, h2]
      cases o with
      | inr r => exact Same.mk hst _
      | inl r =>
        dsimp only
        exact importanceRun_alike hd _ opt _ ω false hst
  | distribution opt ω =>
    refine withInit_alike hd h (fun s t e h => Same.mk h _) ?_
    intro M s t h
    rw [margN_same (h.same hd), evaluator_same (h.same hd)]
    rcases MonteCarlo.dLoop_sim (evaluator_alike (c := c) (n := m + 1) hd t.model) M (margN (m + 1) c.default t.model) opt ω
      c.fuel (x := ⟨0, 0, [], [], s⟩) (y := ⟨0, 0, [], [], t⟩) ⟨rfl, rfl, rfl, rfl, h⟩ with ⟨h1, h2⟩ | ⟨p, q, h1, h2, hq⟩
    · rw [h1, h2]; exact Or.inl ⟨rfl, rfl⟩
    · rw [h1, h2]
      cases hq with
      | error e h => exact Same.mk h _
      | ok h =>
        obtain ⟨-, -, h3, h4, h5⟩ := h
        dsimp only
        rw [h3, h4]
        exact Same.mk h5 _
  | subset opt ω υ =>
    refine withInit_alike hd h (fun s t e h => Same.mk h _) ?_
    intro M s t h
    rw [margN_same (h.same hd), evaluator_same (h.same hd)]
    rcases Subset.run_sim (evaluator_alike (c := c) (n := m + 1) hd t.model) M (margN (m + 1) c.default t.model) opt ω υ
      c.fuel h with ⟨h1, h2⟩ | ⟨p, q, h1, h2, hq⟩
    · rw [h1, h2]; exact Or.inl ⟨rfl, rfl⟩
    · rw [h1, h2]
      cases hq with
      | error e h => exact Same.mk h _
      | ok h =>
        dsimp only
        rw [h.1]
        exact Same.mk h.2 _
  | line fopt N ω =>
    refine withInit_alike hd h (fun s t e h => Same.mk h _) ?_
    intro M s t h
    dsimp only
    rcases formRun_alike (n := m + 1) hd fopt h with ⟨h1, h2⟩ | ⟨p, q, h1, h2, hq⟩
    · rw [h1, h2]; exact Or.inl ⟨rfl, rfl⟩
    · obtain ⟨s', t', o, hst, rfl, rfl⟩ := hq.cases
      rw [h1, h2]
      cases o with
      | inr r => exact Same.mk hst _
      | inl r =>
        dsimp only
        rw [margN_same (hst.same hd), evaluator_same (hst.same hd)]
        obtain ⟨s'', t'', o, hst, h1, h2⟩ := (LineSampling.sample_sim (evaluator_alike (c := c) (n := m + 1) hd t'.model) M
          (margN (m + 1) c.default t'.model) r.alpha r.beta N ω 0 hst).cases
        rw [h1, h2]
        exact Same.mk hst _
  | sorm fopt p fit =>
    unfold runJob
    dsimp only
    rcases formRun_alike (n := m + 1) hd fopt h with ⟨h1, h2⟩ | ⟨p, q, h1, h2, hq⟩
    · rw [h1, h2]; exact Or.inl ⟨rfl, rfl⟩
    · obtain ⟨s', t', o, hst, rfl, rfl⟩ := hq.cases
      rw [h1, h2]
      cases o with
      | inr r => exact Same.mk hst _
      | inl r =>
        refine withInit_alike hd hst (fun s t e h => Same.mk h _) ?_
        intro M s t h
        rw [margN_same (h.same hd), evaluator_same (h.same hd)]
        obtain ⟨s'', t'', o, hst, h1, h2⟩ := (Sorm.run_sim (evaluator_alike (c := c) (n := m + 1) hd t.model) (c.eig m) M
          (margN (m + 1) c.default t.model) r _ false fit h).cases
        rw [h1, h2]
        cases o with
        | error e => exact Same.mk hst _
        | ok r => exact Same.mk hst _

/-- C70: an analysis leaves the definition of the model as it is; it only adds to the call counter, and stores on the model
the modified correlation matrix of that definition. -/
theorem C70_frame (job : Job (m + 1)) {ev ev' : Ev Marginal} {o : Out (m + 1)} (h : runJob c job ev = some (ev', o)) :
    SameDefinition ev'.model ev.model ∧ ev.model.callFunction ≤ ev'.model.callFunction ∧ (∃ T, ev'.trace = ev.trace ++ T) ∧
    (ev'.model.Ro = ev.model.Ro ∨ ∃ M, Correlation.compute c.fmin c.default ev.model = .ok M ∧ ev'.model.Ro = some M) := by
  rcases runJob_alike (c := c) (a := ev) (b := ev) (.refl _) job ⟨0, [], .refl c ev, .refl c ev⟩ with
    ⟨h1, -⟩ | ⟨p, q, h1, h2, ⟨⟨j, T, hs, -⟩, -⟩⟩
  · rw [h1] at h; cases h
  · rw [h1] at h
    injection h with h
    subst h
    exact ⟨hs.definition, by rw [hs.count]; exact Nat.le_add_right _ _, ⟨T, hs.trace⟩, hs.Ro⟩

/-- C70: an analysis depends on the definition of the model only: on two models with the same definition, whatever their
stored modified correlation matrices and call counters, the analysis ends in the same way with the same result, makes the same
calls of the limit-state function and counts the same number of evaluations. -/
theorem C70_definition (job : Job (m + 1)) {ev1 ev2 : Ev Marginal} (hd : SameDefinition ev1.model ev2.model) :
    (runJob c job ev1 = none ↔ runJob c job ev2 = none) ∧
    ∀ ev1' o1 ev2' o2, runJob c job ev1 = some (ev1', o1) → runJob c job ev2 = some (ev2', o2) →
      o1 = o2 ∧ ∃ j T, ev1'.model.callFunction = ev1.model.callFunction + j ∧ ev1'.trace = ev1.trace ++ T ∧
        ev2'.model.callFunction = ev2.model.callFunction + j ∧ ev2'.trace = ev2.trace ++ T := by
  rcases runJob_alike (c := c) hd job ⟨0, [], .refl c ev1, .refl c ev2⟩ with
    ⟨h1, h2⟩ | ⟨p, q, h1, h2, ⟨⟨j, T, hs, ht⟩, ho⟩⟩
  · exact ⟨by simp [h1, h2], fun _ _ _ _ h => by rw [h1] at h; cases h⟩
  · refine ⟨by simp [h1, h2], ?_⟩
    intro ev1' o1 ev2' o2 e1 e2
    rw [h1] at e1
    rw [h2] at e2
    injection e1 with e1
    injection e2 with e2
    subst e1 e2
    exact ⟨ho, j, T, hs.count, hs.trace, ht.count, ht.trace⟩

/-- C70: any sequence of analyses on one model object: every result is the one the analysis would have given alone on the
model as it was defined; the calls of the limit-state function are those of the analyses alone, one after the other, and the
counter grows by the sum of their counts. -/
theorem C70_session : ∀ (jobs : List (Job (m + 1))) {ev ev' : Ev Marginal} {outs : List (Out (m + 1))},
    session c jobs ev = some (ev', outs) →
    ∃ runs : List (Ev Marginal × Out (m + 1)), jobs.map (fun job => runJob c job ev) = runs.map some ∧
      outs = runs.map Prod.snd ∧ SameDefinition ev'.model ev.model ∧
      ev'.model.callFunction = ev.model.callFunction +
        (runs.map (fun r => r.1.model.callFunction - ev.model.callFunction)).sum ∧
      ev'.trace = ev.trace ++ (runs.map (fun r => r.1.trace.drop ev.trace.length)).flatten := by
  -- from any state with the same definition
  have key : ∀ (jobs : List (Job (m + 1))) {ev s ev' : Ev Marginal} {outs : List (Out (m + 1))},
      SameDefinition s.model ev.model → session c jobs s = some (ev', outs) →
      ∃ runs : List (Ev Marginal × Out (m + 1)), jobs.map (fun job => runJob c job ev) = runs.map some ∧
        outs = runs.map Prod.snd ∧ SameDefinition ev'.model s.model ∧
        ev'.model.callFunction = s.model.callFunction +
          (runs.map (fun r => r.1.model.callFunction - ev.model.callFunction)).sum ∧
        ev'.trace = s.trace ++ (runs.map (fun r => r.1.trace.drop ev.trace.length)).flatten := by
    intro jobs
    induction jobs with
    | nil =>
      intro ev s ev' outs hd h
      simp only [session, Option.some.injEq, Prod.mk.injEq] at h
      obtain ⟨rfl, rfl⟩ := h
      exact ⟨[], rfl, rfl, .refl _, by simp, by simp⟩
    | cons job jobs ih =>
      intro ev s ev' outs hd h
      unfold session at h
      rcases runJob_alike (c := c) hd job ⟨0, [], .refl c s, .refl c ev⟩ with
        ⟨h1, -⟩ | ⟨p, q, h1, h2, hq⟩
      · rw [h1] at h; cases h
      · obtain ⟨s1, t1, o, ⟨j, T, hs, ht⟩, rfl, rfl⟩ := hq.cases
        rw [h1] at h
        dsimp only at h
        rcases hr : session c jobs s1 with _ | ⟨s2, os⟩
        · rw [hr] at h; cases h
        · rw [hr] at h
          simp only [Option.some.injEq, Prod.mk.injEq] at h
          obtain ⟨rfl, rfl⟩ := h
          obtain ⟨runs, g1, g2, g3, g4, g5⟩ := ih (hs.definition.trans hd) hr
          refine ⟨(t1, o) :: runs, by simp [h2, g1], by simp [g2], g3.trans hs.definition, ?_, ?_⟩
          · rw [g4, hs.count]
            simp [ht.count, Nat.add_assoc]
          · rw [g5, hs.trace]
            simp [ht.trace]
  intro jobs ev ev' outs h
  exact key jobs (.refl _) h

/-- C70: a session ends exactly if every analysis, alone on the model as defined, ends. -/
theorem C70_terminates (jobs : List (Job (m + 1))) (ev : Ev Marginal) :
    (session c jobs ev).isSome ↔ ∀ job ∈ jobs, (runJob c job ev).isSome := by
  have key : ∀ (jobs : List (Job (m + 1))) (s : Ev Marginal), SameDefinition s.model ev.model →
      ((session c jobs s).isSome ↔ ∀ job ∈ jobs, (runJob c job ev).isSome) := by
    intro jobs
    induction jobs with
    | nil => intro s _; simp [session]
    | cons job jobs ih =>
      intro s hd
      unfold session
      rcases runJob_alike (c := c) hd job ⟨0, [], .refl c s, .refl c ev⟩ with
        ⟨h1, h2⟩ | ⟨p, q, h1, h2, hq⟩
      · simp [h1, h2]
      · obtain ⟨s1, t1, o, ⟨j, T, hs, ht⟩, rfl, rfl⟩ := hq.cases
        have := ih s1 (hs.definition.trans hd)
        rw [h1]
        dsimp only
        rw [List.forall_mem_cons, ← this, h2]
        rcases session c jobs s1 with _ | ⟨s2, os⟩ <;> simp
  exact key jobs ev (.refl _)

/-- C70: the order does not matter: a permutation of the analyses permutes the results and leaves the final count as it is. -/
theorem C70_order {jobs jobs' : List (Job (m + 1))} (hp : jobs.Perm jobs') {ev ev1 ev2 : Ev Marginal}
    {outs outs' : List (Out (m + 1))} (h1 : session c jobs ev = some (ev1, outs)) (h2 : session c jobs' ev = some (ev2, outs')) :
    (jobs.zip outs).Perm (jobs'.zip outs') ∧ ev1.model.callFunction = ev2.model.callFunction := by
  classical
  obtain ⟨r1, e1, o1, -, c1, -⟩ := C70_session jobs h1
  obtain ⟨r2, e2, o2, -, c2, -⟩ := C70_session jobs' h2
  -- the runs are the image of the jobs under a function
  have get : ∀ (l : List (Job (m + 1))) (r : List (Ev Marginal × Out (m + 1))),
      l.map (fun job => runJob c job ev) = r.map some → r = l.map (fun job => (runJob c job ev).getD (ev, .nan)) := by
    intro l
    induction l with
    | nil => intro r h; cases r with | nil => rfl | cons _ _ => simp at h
    | cons j l ih =>
      intro r h
      cases r with
      | nil => simp at h
      | cons x r =>
        simp only [List.map_cons, List.cons.injEq] at h
        rw [List.map_cons, h.1, ← ih r h.2]; rfl
  have zipm : ∀ (l : List (Job (m + 1))) (F : Job (m + 1) → Out (m + 1)), l.zip (l.map F) = l.map (fun j => (j, F j)) := by
    intro l F
    induction l with
    | nil => rfl
    | cons j l ih => simp [ih]
  rw [get _ _ e1] at o1 c1
  rw [get _ _ e2] at o2 c2
  subst o1 o2
  rw [List.map_map, List.map_map, zipm, zipm, c1, c2, List.map_map, List.map_map]
  exact ⟨hp.map _, by rw [(hp.map _).sum_eq]⟩

/-- The first analysis of a session is the `Form(...).run()` of C28–C35. -/
theorem C70_form (opt : Form.Options) (ev : Ev Marginal) :
    formRun c ev.model.marg.length opt ev =
      match Form.run c.fmin c.default c.la c.ty c.expr c.lsopt opt c.fuel ev with
      | some (.done r ev) => some (ev, .inl r)
      | some (.raised e ev) => some (ev, .inr (.raised e))
      | some (.nan ev) => some (ev, .inr .nan)
      | _ => none := by
  have hm : ∀ M : StochModel Marginal ℝ, M.marg = ev.model.marg →
      margN ev.model.marg.length c.default M = margOf ev.model := by
    intro M hM
    funext i
    simp [margN, margOf, hM]
  unfold formRun withInit initRun Form.run Correlation.setModified
  cases hc : Correlation.compute c.fmin c.default ev.model with
  | error e => rfl
  | ok Ro =>
    simp only [StochModel.setModifiedCorrelation]
    by_cases h : Ro.nrow = ev.model.marg.length ∧ Ro.ncol = ev.model.marg.length
    · simp only [dif_pos h]
      rcases Transformation.compute c.la c.ty (fun a b => Ro.val (Fin.cast h.1.symm a) (Fin.cast h.2.symm b)) with e | t
      · rfl
      · dsimp only [evaluator]
        rw [hm { ev.model with Ro := some Ro } rfl]
        generalize runFrom t (margOf ev.model) _ opt c.fuel _ = x
        rcases x with _ | _ | _ | _ | _ <;> rfl
    · simp only [dif_neg h]

/-! Termination -/

/-- The simulation loop ends whatever the limit-state function does. -/
theorem mcLoop_ends {σ : Type} {t : Mats n} {marg : Fin n → Marginal} {e : Evaluator σ n} {opt : MonteCarlo.Options}
    (hb : 1 ≤ opt.blockSize) (point : Fin n → ℝ) (ω : ℕ → ℝ) : ∀ (fuel : ℕ) (st : MonteCarlo.State σ n),
    opt.samples ≤ st.k + fuel → (MonteCarlo.loop t marg e opt point ω fuel st).isSome := by
  intro fuel
  induction fuel with
  | zero => intro st h; unfold MonteCarlo.loop; rw [if_neg (by omega)]; rfl
  | succ fuel ih =>
    intro st h
    unfold MonteCarlo.loop
    by_cases hk : st.k < opt.samples
    · rw [if_pos hk]
      rcases hbl : MonteCarlo.block t marg e opt point ω st with x | st'
      · rfl
      · dsimp only
        have hk' : st'.k = st.k + min opt.blockSize (opt.samples - st.k) := by
          unfold MonteCarlo.block at hbl
          dsimp only at hbl
          split at hbl
          · cases hbl
          · split at hbl
            · cases hbl
            · injection hbl with hbl; rw [← hbl]
        split
        · rfl
        · exact ih st' (by rw [hk']; omega)
    · rw [if_neg hk]; rfl

theorem dLoop_ends {σ : Type} {t : Mats n} {marg : Fin n → Marginal} {e : Evaluator σ n} {opt : MonteCarlo.Options}
    (hb : 1 ≤ opt.blockSize) (ω : ℕ → ℝ) : ∀ (fuel : ℕ) (st : MonteCarlo.DState σ n),
    opt.samples ≤ st.k + fuel → (MonteCarlo.dLoop t marg e opt ω fuel st).isSome := by
  intro fuel
  induction fuel with
  | zero => intro st h; unfold MonteCarlo.dLoop; rw [if_neg (by omega)]; rfl
  | succ fuel ih =>
    intro st h
    unfold MonteCarlo.dLoop
    by_cases hk : st.k < opt.samples
    · rw [if_pos hk]
      dsimp only
      split
      · rfl
      · split
        · rfl
        · exact ih _ (by dsimp only; omega)
    · rw [if_neg hk]; rfl

theorem runOn_ends {σ : Type} {t : Mats n} {marg : Fin n → Marginal} {e : Evaluator σ n} {opt : MonteCarlo.Options}
    (hb : 1 ≤ opt.blockSize) (old : MonteCarlo.Records n) (point : Option (Fin n → ℝ)) (ω : ℕ → ℝ) (pos fuel : ℕ)
    (hf : opt.samples ≤ fuel) (s : σ) : (MonteCarlo.runOn old t marg e opt point ω pos fuel s).isSome := by
  unfold MonteCarlo.runOn
  dsimp only
  split
  · rfl
  · split
    · rfl
    · have := mcLoop_ends (t := t) (marg := marg) (e := e) hb (point.getD fun _ => 0) ω fuel
        ⟨0, pos, 0, 0, 0, 1, old.uAll, old.xAll, old.allG, old.betaAll, s⟩ (by simpa using hf)
      generalize MonteCarlo.loop t marg e opt _ ω fuel _ = x at this ⊢
      rcases x with _ | _ | _
      · cases this
      · rfl
      · rfl

theorem formRun_ends {fopt : Form.Options} (h1 : 1 ≤ fopt.iMax) (h2 : fopt.iMax ≤ c.fuel) (ev : Ev Marginal) :
    (formRun c n fopt ev).isSome := by
  unfold formRun withInit
  rcases initRun c n ev with ⟨ev0, e | t⟩
  · rfl
  · dsimp only
    obtain ⟨o, ho, hn, -⟩ := C28_stops t (margN n c.default ev0.model) (evaluator c n ev0.model) fopt h1 ev0 c.fuel h2
    rw [ho]
    cases o with
    | next a b d => exact absurd rfl (hn a b d)
    | done _ _ => rfl
    | raised _ _ => rfl
    | nan _ => rfl

theorem simOut_ends {o : Option (Except (PyErr × Ev Marginal) (MonteCarlo.Result (Ev Marginal) n))} (h : o.isSome) :
    (simOut o).isSome := by
  rcases o with _ | ⟨_, _⟩ | _
  · cases h
  · rfl
  · rfl

/-- Options with which an analysis is certain to end: at least one FORM iteration, samples in blocks of at least one, and a
fuel that covers them.  Subset simulation has no bound on its number of levels. -/
def Bounded (c : Setup) {n : ℕ} : Job n → Prop
  | .form o => 1 ≤ o.iMax ∧ o.iMax ≤ c.fuel
  | .crude o _ _ => 1 ≤ o.blockSize ∧ o.samples ≤ c.fuel
  | .importance f o _ => (1 ≤ f.iMax ∧ f.iMax ≤ c.fuel) ∧ 1 ≤ o.blockSize ∧ o.samples ≤ c.fuel
  | .distribution o _ => 1 ≤ o.blockSize ∧ o.samples ≤ c.fuel
  | .subset _ _ _ => False
  | .line f _ _ => 1 ≤ f.iMax ∧ f.iMax ≤ c.fuel
  | .sorm f _ _ => 1 ≤ f.iMax ∧ f.iMax ≤ c.fuel

/-- C70: every such analysis ends, on any model and for any limit-state function, even one that raises. -/
theorem C70_ends (job : Job (m + 1)) (hb : Bounded c job) (ev : Ev Marginal) : (runJob c job ev).isSome := by
  cases job with
  | form opt =>
    have := formRun_ends (c := c) (n := m + 1) hb.1 hb.2 ev
    unfold runJob; dsimp only
    generalize formRun c (m + 1) opt ev = x at this ⊢
    rcases x with _ | ⟨_, _ | _⟩
    · cases this
    · rfl
    · rfl
  | crude opt point ω =>
    unfold runJob withInit; dsimp only
    rcases initRun c (m + 1) ev with ⟨ev0, e | t⟩
    · rfl
    · exact simOut_ends (runOn_ends hb.1 _ _ _ _ _ hb.2 _)
  | importance fopt opt ω =>
    have := formRun_ends (c := c) (n := m + 1) hb.1.1 hb.1.2 ev
    unfold runJob importanceNew; dsimp only
    generalize formRun c (m + 1) fopt ev = x at this ⊢
    rcases x with _ | ⟨ev, r | _⟩
    · cases this
    · dsimp only
      unfold importanceRun
      rcases initRun c (m + 1) ev with ⟨ev0, e | t⟩
      · rfl
      · dsimp only
        rcases initRun c (m + 1) ev0 with ⟨ev1, e | t⟩
        · rfl
        · dsimp only
          have := simOut_ends (runOn_ends (t := t) (marg := margN (m + 1) c.default ev1.model)
            (e := evaluator c (m + 1) ev1.model) hb.2.1 .fresh (some r.point.u) ω 0 c.fuel hb.2.2 ev1)
          generalize simOut (MonteCarlo.runOn _ t _ _ opt _ ω 0 c.fuel ev1) = x at this ⊢
          rcases x with _ | ⟨ev2, o⟩
          · cases this
          · cases o <;> rfl
    · rfl
  | distribution opt ω =>
    unfold runJob withInit; dsimp only
    rcases initRun c (m + 1) ev with ⟨ev0, e | t⟩
    · rfl
    · dsimp only
      have := dLoop_ends (t := t) (marg := margN (m + 1) c.default ev0.model) (e := evaluator c (m + 1) ev0.model) hb.1 ω c.fuel
        ⟨0, 0, [], [], ev0⟩ (by simpa using hb.2)
      generalize MonteCarlo.dLoop t _ _ opt ω c.fuel _ = x at this ⊢
      rcases x with _ | ⟨_, _⟩ | _
      · cases this
      · rfl
      · rfl
  | subset _ _ _ => exact hb.elim
  | line fopt N ω =>
    unfold runJob withInit; dsimp only
    rcases initRun c (m + 1) ev with ⟨ev0, e | t⟩
    · rfl
    · dsimp only
      have := formRun_ends (c := c) (n := m + 1) hb.1 hb.2 ev0
      generalize formRun c (m + 1) fopt ev0 = x at this ⊢
      rcases x with _ | ⟨_, _ | _⟩
      · cases this
      · rfl
      · rfl
  | sorm fopt p fit =>
    have := formRun_ends (c := c) (n := m + 1) hb.1 hb.2 ev
    unfold runJob; dsimp only
    generalize formRun c (m + 1) fopt ev = x at this ⊢
    rcases x with _ | ⟨ev0, r | _⟩
    · cases this
    · dsimp only
      unfold withInit
      rcases initRun c (m + 1) ev0 with ⟨ev1, e | t⟩
      · rfl
      · dsimp only
        rcases Sorm.run (c.eig m) t _ _ r p false fit ev1 with ⟨_, _ | _⟩ <;> rfl
    · rfl

end Pystra.Props
