import Verif.Props.UnitsModel

/-! C90: sessions of analyses in other units. -/

namespace Pystra.Props
open LimitState Spec Form Matrix Transformation StochModel Session

variable {n m : ℕ} {U : Units} {D : String → Set ℝ} {names : Fin n → String}
  {M : List (DistObj Marginal)}

/-- Two evaluation states of a session: the same model in the two units, with `names` its random variables. -/
structure Ready (U : Units) (D : String → Set ℝ) (names : Fin n → String) (M : List (DistObj Marginal)) (a b : Ev Marginal) : Prop where
  inUnits : EvInUnits U D a b
  keys : a.model.vars.keys = List.ofFn names
  marg : a.model.marg.map DistObj.name = List.ofFn names
  list : a.model.marg = M

theorem Ready.advance {a b : Ev Marginal} (h : Ready U D names M a b) (j : ℕ) (T : List Kwargs) :
    Ready U D names M (a.advance j T) (b.advance j (T.map U.kwargs)) where
  inUnits := by
    refine ⟨⟨h.inUnits.model.vars, h.inUnits.model.names, h.inUnits.model.marg, h.inUnits.model.correlation, h.inUnits.model.Ro, ?_,
      h.inUnits.model.consts⟩, ?_⟩
    · simp [Ev.advance, StochModel.addCallFunction, h.inUnits.model.callFunction]
    · simp [Ev.advance, h.inUnits.trace]
  keys := h.keys
  marg := h.marg
  list := h.list

theorem Ready.of_advance {a b s t : Ev Marginal} (h : Ready U D names M a b) (hA : Units.Advance U a b s t) : Ready U D names M s t := by
  obtain ⟨j, T, rfl, rfl⟩ := hA
  exact h.advance j T

theorem Ready.vars {a b : Ev Marginal} (h : Ready U D names M a b) : VarsInUnits U names a.model b.model := by
  refine ⟨h.keys, ?_, h.inUnits.model.consts⟩
  have := h.inUnits.model.vars
  unfold Dict.keys
  generalize a.model.vars = l at this
  generalize b.model.vars = l' at this
  induction this with
  | nil => rfl
  | cons h1 _ ih => rw [List.map_cons, List.map_cons, h1, ih]

theorem Ready.margs {a b : Ev Marginal} (h : Ready U D names M a b) (hU : ∀ k, U.fac k ≠ 0) (d : Marginal) :
    MargInUnits U names (fun i => D (names i)) (margN n d a.model) (margN n d b.model) := by
  intro i
  have hl : a.model.marg.length = n := by simpa using congrArg List.length h.marg
  have hi : i.val < a.model.marg.length := by rw [hl]; exact i.isLt
  obtain ⟨o, ho, hf, hr⟩ := marg_units hU h.inUnits.model d hi
  have hn : o.name = names i := by
    have e := congrArg (fun l => l[i.val]?) h.marg
    simp only [List.getElem?_map, List.getElem?_eq_getElem hi, List.getElem?_ofFn] at e
    rw [ho]
    simpa using e
  rw [hn] at hr hf
  exact ⟨hf, hr⟩

theorem Ready.init {a b : Ev Marginal} (h : Ready U D names M a b) (hU : ∀ k, U.fac k ≠ 0) (c : Setup) (expr' : Kwargs → GRet) (k : ℕ) :
    ∃ a' b' o, Ready U D names M a' b' ∧ initRun c k a = (a', o) ∧ initRun { c with expr := expr' } k b = (b', o) := by
  unfold initRun
  have hc := compute_units hU h.inUnits.model c.fmin c.default
  unfold Correlation.setModified
  dsimp only
  rw [hc]
  cases Correlation.compute c.fmin c.default a.model with
  | error e => exact ⟨a, b, .error e, h, rfl, rfl⟩
  | ok Ro =>
    have hr : Ready U D names M { a with model := a.model.setModifiedCorrelation Ro } { b with model := b.model.setModifiedCorrelation Ro } :=
      ⟨⟨⟨h.inUnits.model.vars, h.inUnits.model.names, h.inUnits.model.marg, h.inUnits.model.correlation, rfl,
        h.inUnits.model.callFunction, h.inUnits.model.consts⟩, h.inUnits.trace⟩, h.keys, h.marg, h.list⟩
    simp only [setModifiedCorrelation]
    by_cases hd : Ro.nrow = k ∧ Ro.ncol = k
    · rw [dif_pos hd, dif_pos hd]
      exact ⟨_, _, _, hr, rfl, rfl⟩
    · rw [dif_neg hd, dif_neg hd]
      exact ⟨_, _, _, hr, rfl, rfl⟩

theorem Ready.sim {a b : Ev Marginal} (h : Ready U D names M a b) (hU : ∀ k, U.fac k ≠ 0) {c : Setup} {expr' : Kwargs → GRet}
    (hf : SameFunction U names c.lsopt.diffMode c.expr expr') :
    Sim (Units.Advance U a b) (evaluator c n a.model) (Units.pull U names (evaluator { c with expr := expr' } n b.model)) := by
  unfold evaluator
  dsimp only
  rw [stdv_units (h.margs hU c.default)]
  exact ls_units c.lsopt _ (fun i => hU _) hf h.vars

theorem advance_refl (U : Units) (a b : Ev Marginal) : Units.Advance U a b a b :=
  ⟨0, [], a.advance_zero.symm, by rw [List.map_nil, b.advance_zero]⟩

/-- What two jobs leave. -/
def JobInUnits (U : Units) (D : String → Set ℝ) (names : Fin n → String) (M : List (DistObj Marginal)) (p q : Ev Marginal × Out n) : Prop :=
  Ready U D names M p.1 q.1 ∧ U.Report names p.2 q.2

/-- What two runs of FORM leave. -/
def FormRunInUnits (U : Units) (D : String → Set ℝ) (names : Fin n → String) (M : List (DistObj Marginal))
    (p q : Ev Marginal × (Form.Result n ⊕ Out n)) : Prop :=
  (∃ a b r, Ready U D names M a b ∧ p = (a, .inl r) ∧ q = (b, .inl (U.result names r))) ∨
  (∃ a b o, Ready U D names M a b ∧ p = (a, .inr o) ∧ q = (b, .inr o) ∧ (o = .nan ∨ ∃ e, o = .raised e))

theorem formRun_units {a b : Ev Marginal} (h : Ready U D names M a b) (hU : ∀ k, U.fac k ≠ 0) (c : Setup) {expr' : Kwargs → GRet}
    (hf : SameFunction U names c.lsopt.diffMode c.expr expr') (opt : Form.Options) :
    RelOpt (FormRunInUnits U D names M) (formRun c n opt a) (formRun { c with expr := expr' } n opt b) := by
  unfold formRun withInit
  obtain ⟨a', b', o, h', e1, e2⟩ := h.init hU c expr' n
  rw [e1, e2]
  cases o with
  | error e => exact Or.inr ⟨_, _, _, h', rfl, rfl, Or.inr ⟨e, rfl⟩⟩
  | ok t =>
    dsimp only
    have hr := C90_form (h'.margs hU c.default) t c.lsopt hf opt c.fuel a' b' h'.vars
    unfold evaluator
    dsimp only
    rcases g1 : runFrom t (margN n c.default a'.model) (lsEvaluator c.expr c.lsopt fun i => (margN n c.default a'.model i).stdv) opt c.fuel a'
      with _ | ⟨r, s⟩ | ⟨e, s⟩ | ⟨s⟩ | ⟨Go, u, s⟩ <;>
    rcases g2 : runFrom t (margN n c.default b'.model) (lsEvaluator expr' c.lsopt fun i => (margN n c.default b'.model i).stdv) opt c.fuel b'
      with _ | ⟨r', s'⟩ | ⟨e', s'⟩ | ⟨s'⟩ | ⟨Go', u', s'⟩ <;> rw [g1, g2] at hr <;> try (exact hr.elim)
    · exact trivial
    · exact Or.inl ⟨_, _, _, h'.of_advance hr.2, rfl, by rw [hr.1]⟩
    · exact Or.inr ⟨_, _, _, h'.of_advance hr.2, rfl, by rw [hr.1], Or.inr ⟨_, rfl⟩⟩
    · exact Or.inr ⟨_, _, _, h'.of_advance hr, rfl, rfl, Or.inl rfl⟩
    · exact trivial

theorem report_plain (U : Units) (names : Fin n → String) {o : Out n} (h : o = .nan ∨ ∃ e, o = .raised e) : U.Report names o o := by
  rcases h with rfl | ⟨e, rfl⟩ <;> exact rfl

theorem simOut_units {a b : Ev Marginal} (h : Ready U D names M a b)
    {p q : Option (Except (PyErr × Ev Marginal) (MonteCarlo.Result (Ev Marginal) n))}
    (hp : RelOpt (ExRel (Units.Advance U a b) (SimResultInUnits U names (Units.Advance U a b))) p q) :
    RelOpt (JobInUnits U D names M) (simOut p) (simOut q) := by
  unfold simOut
  rcases p with _ | p | p <;> rcases q with _ | q | q <;> try (exact hp.elim)
  · exact trivial
  · cases hp with | error e hR => exact ⟨h.of_advance hR, rfl⟩
  · cases hp
  · cases hp
  · cases hp with
    | ok hq =>
      obtain ⟨⟨h1, h2, h3, h4, h5, h6, h7, h8, h9, h10, h11⟩, h12, h13⟩ := hq
      exact ⟨h.of_advance h11, ⟨h1, h2, h3, h4, h5, h6, h7, h8, h9, h10, trivial⟩, h12, h13⟩

theorem crude_units {a b : Ev Marginal} (h : Ready U D names M a b) (hU : ∀ k, U.fac k ≠ 0) (c : Setup) {expr' : Kwargs → GRet}
    (hf : SameFunction U names c.lsopt.diffMode c.expr expr') (opt : MonteCarlo.Options) (point : Option (Fin n → ℝ)) (ω : ℕ → ℝ) (t : Mats n) :
    RelOpt (JobInUnits U D names M)
      (simOut (MonteCarlo.run t (margN n c.default a.model) (evaluator c n a.model) opt point ω 0 c.fuel a))
      (simOut (MonteCarlo.run t (margN n c.default b.model) (evaluator { c with expr := expr' } n b.model) opt point ω 0 c.fuel b)) :=
  simOut_units h (mcRun_units (h.margs hU c.default) (h.sim hU hf) t opt point ω 0 c.fuel (advance_refl U a b))

theorem Ready.stays {a b : Ev Marginal} (h : Ready U D names M a b) (hU : ∀ k, U.fac k ≠ 0) {c : Setup} (expr' : Kwargs → GRet)
    (hroom : Room D c.lsopt M) :
    Stays (fun i => D (names i)) (Units.pull U names (evaluator { c with expr := expr' } n b.model)) := by
  unfold evaluator
  dsimp only
  rw [stdv_units (h.margs hU c.default)]
  refine stays_ls c.lsopt _ (fun h1 h2 i => ?_) (fun i => hU _)
  have hl : a.model.marg.length = n := by simpa using congrArg List.length h.marg
  have hi : i.val < a.model.marg.length := by rw [hl]; exact i.isLt
  have hr := hroom h1 h2 (a.model.marg[i.val]) (by rw [← h.list]; exact List.getElem_mem hi)
  have hn : (a.model.marg[i.val]).name = names i := by
    have e := congrArg (fun l => l[i.val]?) h.marg
    simp only [List.getElem?_map, List.getElem?_eq_getElem hi, List.getElem?_ofFn] at e
    simpa using e
  rw [hn] at hr
  simpa [margN, List.getD_eq_getElem?_getD, hi] using hr

variable {names' : Fin (m + 1) → String}

theorem job_units {a b : Ev Marginal} (h : Ready U D names' M a b) (hU : ∀ k, U.fac k ≠ 0) (c : Setup) {expr' : Kwargs → GRet}
    (hf : SameFunction U names' c.lsopt.diffMode c.expr expr') (job : Job (m + 1))
    (hs : (∃ fopt p ft, job = .sorm fopt p ft) → Room D c.lsopt M) :
    RelOpt (JobInUnits U D names' M) (runJob c job a) (runJob { c with expr := expr' } job b) := by
  cases job with
  | form opt =>
    have hr := formRun_units h hU c hf opt
    unfold runJob
    dsimp only
    rcases g1 : formRun c (m + 1) opt a with _ | p <;> rcases g2 : formRun { c with expr := expr' } (m + 1) opt b with _ | q <;>
      rw [g1, g2] at hr
    · exact trivial
    · exact hr.elim
    · exact hr.elim
    · rcases hr with ⟨s, t, r, hR, rfl, rfl⟩ | ⟨s, t, o, hR, rfl, rfl, ho⟩
      · exact ⟨hR, rfl⟩
      · exact ⟨hR, report_plain U names' ho⟩
  | crude opt point ω =>
    unfold runJob withInit
    dsimp only
    obtain ⟨a', b', o, h', e1, e2⟩ := h.init hU c expr' (m + 1)
    rw [e1, e2]
    cases o with
    | error e => exact ⟨h', rfl⟩
    | ok t => exact crude_units h' hU c hf opt point ω t
  | importance fopt opt ω =>
    have hr := formRun_units h hU c hf fopt
    unfold runJob importanceNew
    dsimp only
    rcases g1 : formRun c (m + 1) fopt a with _ | p <;> rcases g2 : formRun { c with expr := expr' } (m + 1) fopt b with _ | q <;>
      rw [g1, g2] at hr
    · exact trivial
    · exact hr.elim
    · exact hr.elim
    · rcases hr with ⟨s, t, r, hR, rfl, rfl⟩ | ⟨s, t, o, hR, rfl, rfl, ho⟩
      · dsimp only
        unfold importanceRun
        obtain ⟨s1, t1, o1, h1, e1, e2⟩ := hR.init hU c expr' (m + 1)
        rw [e1, e2]
        cases o1 with
        | error e => exact ⟨h1, rfl⟩
        | ok t0 =>
          dsimp only
          obtain ⟨s2, t2, o2, h2, e3, e4⟩ := h1.init hU c expr' (m + 1)
          rw [e3, e4]
          cases o2 with
          | error e => exact ⟨h2, rfl⟩
          | ok tm =>
            have hc := crude_units h2 hU c hf opt (some r.point.u) ω tm
            unfold MonteCarlo.run at hc
            dsimp only [Units.result]
            rcases g3 : simOut (MonteCarlo.runOn MonteCarlo.Records.fresh tm (margN (m + 1) c.default s2.model)
              (evaluator c (m + 1) s2.model) opt (some r.point.u) ω 0 c.fuel s2) with _ | ⟨x, p⟩ <;>
            rcases g4 : simOut (MonteCarlo.runOn MonteCarlo.Records.fresh tm (margN (m + 1) c.default t2.model)
              (evaluator { c with expr := expr' } (m + 1) t2.model) opt (some r.point.u) ω 0 c.fuel t2) with _ | ⟨y, q⟩ <;>
              rw [g3, g4] at hc
            · exact trivial
            · exact hc.elim
            · exact hc.elim
            · obtain ⟨hR, hq⟩ := hc
              cases p <;> cases q <;> first | exact ⟨hR, hq⟩ | (exact absurd hq (by simp [Units.Report]))
      · exact ⟨hR, report_plain U names' ho⟩
  | distribution opt ω =>
    unfold runJob withInit
    dsimp only
    obtain ⟨a', b', o, h', e1, e2⟩ := h.init hU c expr' (m + 1)
    rw [e1, e2]
    cases o with
    | error e => exact ⟨h', rfl⟩
    | ok t =>
      have hd := dLoop_units (h'.margs hU c.default) (h'.sim hU hf) t opt ω c.fuel (x := ⟨0, 0, [], [], a'⟩) (y := ⟨0, 0, [], [], b'⟩)
        ⟨rfl, rfl, rfl, rfl, advance_refl U a' b'⟩
      dsimp only
      rcases g1 : MonteCarlo.dLoop t (margN (m + 1) c.default a'.model) (evaluator c (m + 1) a'.model) opt ω c.fuel ⟨0, 0, [], [], a'⟩
        with _ | p | p <;>
      rcases g2 : MonteCarlo.dLoop t (margN (m + 1) c.default b'.model) (evaluator { c with expr := expr' } (m + 1) b'.model) opt ω c.fuel
        ⟨0, 0, [], [], b'⟩ with _ | q | q <;> rw [g1, g2] at hd <;> try (exact hd.elim)
      · exact trivial
      · cases hd with | error e hR => exact ⟨h'.of_advance hR, rfl⟩
      · cases hd
      · cases hd
      · cases hd with | ok hq => exact ⟨h'.of_advance hq.2.2.2.2, hq.2.2.1, hq.2.2.2.1⟩
  | subset opt ω υ =>
    unfold runJob withInit
    dsimp only
    obtain ⟨a', b', o, h', e1, e2⟩ := h.init hU c expr' (m + 1)
    rw [e1, e2]
    cases o with
    | error e => exact ⟨h', rfl⟩
    | ok t =>
      dsimp only
      rw [subset_units (h'.margs hU c.default)]
      rcases Subset.run_sim (h'.sim hU hf) t (margN (m + 1) c.default a'.model) opt ω υ c.fuel (advance_refl U a' b') with
        ⟨g1, g2⟩ | ⟨p, q, g1, g2, hq⟩
      · rw [g1, g2]; exact trivial
      · rw [g1, g2]
        cases hq with
        | error e hR => exact ⟨h'.of_advance hR, rfl⟩
        | ok hR => exact ⟨h'.of_advance hR.2, by rw [hR.1]; rfl⟩
  | line fopt N ω =>
    unfold runJob withInit
    dsimp only
    obtain ⟨a', b', o, h', e1, e2⟩ := h.init hU c expr' (m + 1)
    rw [e1, e2]
    cases o with
    | error e => exact ⟨h', rfl⟩
    | ok t =>
      have hr := formRun_units h' hU c hf fopt
      dsimp only
      rcases g1 : formRun c (m + 1) fopt a' with _ | p <;> rcases g2 : formRun { c with expr := expr' } (m + 1) fopt b' with _ | q <;>
        rw [g1, g2] at hr
      · exact trivial
      · exact hr.elim
      · exact hr.elim
      · rcases hr with ⟨s, s', r, hR, rfl, rfl⟩ | ⟨s, s', o, hR, rfl, rfl, ho⟩
        · dsimp only
          rw [sample_units (hR.margs hU c.default), show (U.result names' r).alpha = r.alpha from rfl,
            show (U.result names' r).beta = r.beta from rfl]
          obtain ⟨x, y, l, hA, k1, k2⟩ := (LineSampling.sample_sim (hR.sim hU hf) t (margN (m + 1) c.default s.model) r.alpha r.beta N ω 0
            (advance_refl U s s')).cases
          rw [k1, k2]
          exact ⟨hR.of_advance hA, rfl⟩
        · exact ⟨hR, report_plain U names' ho⟩
  | sorm fopt para fit =>
    have hr := formRun_units h hU c hf fopt
    unfold runJob withInit
    dsimp only
    rcases g1 : formRun c (m + 1) fopt a with _ | p <;> rcases g2 : formRun { c with expr := expr' } (m + 1) fopt b with _ | q <;>
      rw [g1, g2] at hr
    · exact trivial
    · exact hr.elim
    · exact hr.elim
    · rcases hr with ⟨s, s', r, hR, rfl, rfl⟩ | ⟨s, s', o, hR, rfl, rfl, ho⟩
      · dsimp only
        obtain ⟨a', b', o, h', e1, e2⟩ := hR.init hU c expr' (m + 1)
        rw [e1, e2]
        cases o with
        | error e => exact ⟨h', rfl⟩
        | ok t =>
          dsimp only
          rw [sorm_units (h'.margs hU c.default) t _ (h'.stays hU expr' (hs ⟨_, _, _, rfl⟩)) (c.eig m) r _ rfl]
          obtain ⟨x, y, l, hA, k1, k2⟩ := (Sorm.run_sim (h'.sim hU hf) (c.eig m) t (margN (m + 1) c.default a'.model) r para false fit
            (advance_refl U a' b')).cases
          rw [k1, k2]
          cases l with
          | error e => exact ⟨h'.of_advance hA, rfl⟩
          | ok v => exact ⟨h'.of_advance hA, rfl⟩
      · exact ⟨hR, report_plain U names' ho⟩

theorem session_units (hU : ∀ k, U.fac k ≠ 0) (c : Setup) {expr' : Kwargs → GRet}
    (hf : SameFunction U names' c.lsopt.diffMode c.expr expr') (jobs : List (Job (m + 1)))
    (hs : (∃ fopt p ft, .sorm fopt p ft ∈ jobs) → Room D c.lsopt M) : ∀ {a b : Ev Marginal}, Ready U D names' M a b →
    RelOpt (fun p q => Ready U D names' M p.1 q.1 ∧ List.Forall₂ (U.Report names') p.2 q.2) (session c jobs a)
      (session { c with expr := expr' } jobs b) := by
  induction jobs with
  | nil => intro a b h; exact ⟨h, .nil⟩
  | cons job jobs ih =>
    intro a b h
    have hj := job_units h hU c hf job (fun ⟨f, p, ft, e⟩ => hs ⟨f, p, ft, by rw [e]; exact List.mem_cons_self⟩)
    unfold session
    rcases g1 : runJob c job a with _ | ⟨x, o⟩ <;> rcases g2 : runJob { c with expr := expr' } job b with _ | ⟨y, o'⟩ <;> rw [g1, g2] at hj
    · exact trivial
    · exact hj.elim
    · exact hj.elim
    · have hk := ih (fun ⟨f, p, ft, e⟩ => hs ⟨f, p, ft, List.mem_cons_of_mem _ e⟩) hj.1
      dsimp only
      rcases g3 : session c jobs x with _ | ⟨x', os⟩ <;> rcases g4 : session { c with expr := expr' } jobs y with _ | ⟨y', os'⟩ <;>
        rw [g3, g4] at hk
      · exact trivial
      · exact hk.elim
      · exact hk.elim
      · exact ⟨hk.1, .cons hj.2 hk.2⟩

/-- **C90 (sessions).**  A model built by a program, and the same program with every number in other units (`off + fac · v`, name by
name), with the user's function written for these units.  Whatever analyses are run one after the other, the reports are the same in the
two units: physical points are converted, everything else — β, α, Pf, curvatures, coefficients of variation, thresholds — is the same
number; the same analyses raise the same exceptions or are still running; the function is called with the same quantities in the same
order.  (SORM with finite differences evaluates the marginals at the shifted array: there must be room for the shift.) -/
theorem C90_session (U : Units) (hU : ∀ k, U.fac k ≠ 0) (D : String → Set ℝ) {h h' : List (Op Marginal ℝ)}
    (hh : List.Forall₂ (OpInUnits U D) h h') {m : ℕ} (names : Fin (m + 1) → String)
    (hn : (init.run h : StochModel Marginal ℝ).marg.map DistObj.name = List.ofFn names) (c : Setup) (expr' : Kwargs → GRet)
    (hf : SameFunction U names c.lsopt.diffMode c.expr expr') (jobs : List (Job (m + 1)))
    (hs : (∃ fopt p ft, .sorm fopt p ft ∈ jobs) → Room D c.lsopt (init.run h : StochModel Marginal ℝ).marg) :
    RelOpt (fun p q => EvInUnits U D p.1 q.1 ∧ List.Forall₂ (U.Report names) p.2 q.2)
      (session c jobs ⟨init.run h, []⟩) (session { c with expr := expr' } jobs ⟨init.run h', []⟩) := by
  have hk : (init.run h : StochModel Marginal ℝ).vars.keys = List.ofFn names := by
    have hr := refines_reachable h
    rw [← hn, hr.vars, hr.marg]
    simp [Dict.keys, Function.comp_def]
  have hr : Ready U D names (init.run h : StochModel Marginal ℝ).marg ⟨init.run h, []⟩ ⟨init.run h', []⟩ :=
    ⟨⟨C90_model hh, rfl⟩, hk, hn, rfl⟩
  have := session_units hU c hf jobs hs hr
  rcases g3 : session c jobs ⟨init.run h, []⟩ with _ | ⟨x', os⟩ <;>
    rcases g4 : session { c with expr := expr' } jobs ⟨init.run h', []⟩ with _ | ⟨y', os'⟩ <;> rw [g3, g4] at this
  · exact trivial
  · exact this.elim
  · exact this.elim
  · exact ⟨this.1.inUnits, this.2⟩

end Pystra.Props
