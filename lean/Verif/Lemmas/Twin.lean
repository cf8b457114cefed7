import Verif.Lemmas.AnalysisSim

/-! Analyses of two models that answer alike, with two limit-state functions. -/

namespace Pystra
open Transformation Form Session LimitState

/-- The same set-up with another limit-state expression. -/
def Session.Setup.withExpr (c : Setup) (e : Kwargs → GRet) : Setup := { c with expr := e }

/-- Two ways of presenting a problem: in related states the models have the same marginals and correlation matrix, and calls of the two
limit-state functions at the same points have the same answer and lead to related states. -/
structure Twin (c : Setup) (e : Kwargs → GRet) (R : Ev Marginal → Ev Marginal → Prop) : Prop where
  call : ∀ s t, R s t → ∀ {n : ℕ} (x : List (Fin n → ℝ)) (ddm : Bool), RP R (computeLsf c.expr x ddm s) (computeLsf e x ddm t)
  count : ∀ s t, R s t → ∀ k, R { s with model := s.model.addCallFunction k } { t with model := t.model.addCallFunction k }
  setRo : ∀ s t, R s t → ∀ A, R { s with model := s.model.setModifiedCorrelation A } { t with model := t.model.setModifiedCorrelation A }
  marg : ∀ s t, R s t → s.model.marg.map DistObj.body = t.model.marg.map DistObj.body
  correlation : ∀ s t, R s t → s.model.correlation = t.model.correlation

variable {c : Setup} {e : Kwargs → GRet} {R : Ev Marginal → Ev Marginal → Prop} {n m : ℕ}

theorem blockLoop_twin (hd : Twin c e R) {assign : ℕ → GVal → Except PyErr (List ℝ)} {x : List (Fin n → ℝ)} (fuel : ℕ) :
    ∀ (bs k : ℕ) (acc : List ℝ) {s t : Ev Marginal}, R s t →
    OptRel (RP R) (blockLoop assign c.expr x fuel bs k acc s) (blockLoop assign e x fuel bs k acc t) := by
  induction fuel with
  | zero =>
    intro bs k acc s t h
    unfold blockLoop
    split
    · exact Or.inl ⟨rfl, rfl⟩
    · exact Or.inr ⟨_, _, rfl, rfl, h, rfl⟩
  | succ fuel ih =>
    intro bs k acc s t h
    unfold blockLoop
    split
    · obtain ⟨s', t', o, hst, h1, h2⟩ := (hd.call s t h ((x.drop k).take (min bs (x.length - k))) false).cases
      dsimp only
      rw [h1, h2]
      rcases o with er | ⟨g, dg⟩
      · exact Or.inr ⟨_, _, rfl, rfl, hst, rfl⟩
      · dsimp only
        cases assign (min bs (x.length - k)) g with
        | error er => exact Or.inr ⟨_, _, rfl, rfl, hst, rfl⟩
        | ok vals => exact ih _ _ _ hst
    · exact Or.inr ⟨_, _, rfl, rfl, h, rfl⟩

theorem ddmLoop_twin (hd : Twin c e R) {nx : ℕ} (xs : List (Fin n → ℝ)) : ∀ (k : ℕ) (G : List ℝ)
    (grad : List (Fin n → ℝ)) {s t : Ev Marginal}, R s t →
    RP R (ddmLoop c.expr nx xs k G grad s) (ddmLoop e nx xs k G grad t) := by
  induction xs with
  | nil => intro k G grad s t h; exact ⟨h, rfl⟩
  | cons p ps ih =>
    intro k G grad s t h
    unfold ddmLoop
    obtain ⟨s', t', o, hst, h1, h2⟩ := (hd.call s t h [p] true).cases
    rw [h1, h2]
    rcases o with er | ⟨g, dg⟩
    · exact ⟨hst, rfl⟩
    · dsimp only
      cases ddmAssignG nx k g with
      | error er => exact ⟨hst, rfl⟩
      | ok G' =>
        dsimp only
        cases gradColumn (n := n) (dg.getD (.scalar 0)) with
        | error er => exact ⟨hst, rfl⟩
        | ok col => exact ih _ _ _ hst

theorem evaluateLsf_twin (hd : Twin c e R) (fuel : ℕ) (opt : LSOptions) (stdv : Fin n → ℝ) (mode : Option String)
    (x : List (Fin n → ℝ)) {s t : Ev Marginal} (h : R s t) :
    OptRel (RP R) (evaluateLsf fuel c.expr opt stdv mode x s) (evaluateLsf fuel e opt stdv mode x t) := by
  have core : ∀ md : String, OptRel (RP R)
      (if opt.multiProc = 0 then some (s, .error .notImplemented)
        else if md = "no" then evaluateNogradient fuel c.expr opt x s
        else if md = "ddm" then some (evaluateDdm c.expr x s)
        else evaluateFfd fuel c.expr opt stdv x s)
      (if opt.multiProc = 0 then some (t, .error .notImplemented)
        else if md = "no" then evaluateNogradient fuel e opt x t
        else if md = "ddm" then some (evaluateDdm e x t)
        else evaluateFfd fuel e opt stdv x t) := by
    intro md
    split
    · exact Or.inr ⟨_, _, rfl, rfl, h, rfl⟩
    · split
      · unfold evaluateNogradient
        rcases blockLoop_twin hd (assign := broadcastTo) (x := x) fuel opt.blockSize 0 [] h with ⟨h1, h2⟩ | ⟨p, q, h1, h2, hq⟩
        · rw [h1, h2]; exact Or.inl ⟨rfl, rfl⟩
        · obtain ⟨s', t', o, hst, rfl, rfl⟩ := hq.cases
          rw [h1, h2]
          cases o with
          | error er => exact Or.inr ⟨_, _, rfl, rfl, hst, rfl⟩
          | ok G => exact Or.inr ⟨_, _, rfl, rfl, hd.count _ _ hst _, rfl⟩
      · split
        · unfold evaluateDdm
          obtain ⟨s', t', o, hst, h1, h2⟩ := (ddmLoop_twin hd (nx := x.length) x 0 [] [] h).cases
          rw [h1, h2]
          rcases o with er | ⟨G, grad⟩
          · exact Or.inr ⟨_, _, rfl, rfl, hst, rfl⟩
          · exact Or.inr ⟨_, _, rfl, rfl, hd.count _ _ hst _, rfl⟩
        · unfold evaluateFfd
          rcases x with _ | ⟨x0, _ | ⟨x1, l⟩⟩
          · exact Or.inr ⟨_, _, rfl, rfl, h, rfl⟩
          · simp only
            rcases ffdPerturb (fun j => stdv j / opt.ffdpara) (List.finRange n) (x0, List.replicate (1 + n) x0)
              with ⟨xa, allx⟩
            simp only
            rcases blockLoop_twin hd (assign := squeezeTo) (x := allx) fuel opt.blockSize 0 [] h with
              ⟨h1, h2⟩ | ⟨p, q, h1, h2, hq⟩
            · rw [h1, h2]; exact Or.inl ⟨rfl, rfl⟩
            · obtain ⟨s', t', o, hst, rfl, rfl⟩ := hq.cases
              rw [h1, h2]
              cases o with
              | error er => exact Or.inr ⟨_, _, rfl, rfl, hst, rfl⟩
              | ok G => exact Or.inr ⟨_, _, rfl, rfl, hd.count _ _ hst _, rfl⟩
          · exact Or.inr ⟨_, _, rfl, rfl, h, rfl⟩
  unfold evaluateLsf
  cases mode with
  | none => exact core _
  | some _ => exact core _

theorem ls_twin (hd : Twin c e R) (opt : LSOptions) (stdv : Fin n → ℝ) :
    Sim R (lsEvaluator c.expr opt stdv) (lsEvaluator e opt stdv) := by
  constructor
  · intro s t hst x
    simp only [lsEvaluator]
    rcases evaluateLsf_twin hd (7 + n) opt stdv none [x] hst with ⟨h1, h2⟩ | ⟨p, q, h1, h2, hq⟩
    · rw [h1, h2]; exact ⟨hst, rfl⟩
    · obtain ⟨s', t', o, hst, rfl, rfl⟩ := hq.cases
      rw [h1, h2]
      cases o with
      | error e => exact ⟨hst, rfl⟩
      | ok o => exact ⟨hst, rfl⟩
  · intro s t hst xs
    simp only [lsEvaluator]
    rcases evaluateLsf_twin hd (7 + n + xs.length) opt stdv (some "no") xs hst with ⟨h1, h2⟩ | ⟨p, q, h1, h2, hq⟩
    · rw [h1, h2]; exact ⟨hst, rfl⟩
    · obtain ⟨s', t', o, hst, rfl, rfl⟩ := hq.cases
      rw [h1, h2]
      cases o with
      | error e => exact ⟨hst, rfl⟩
      | ok o => exact ⟨hst, rfl⟩

theorem margN_twin {s t : StochModel Marginal ℝ} (h : s.marg.map DistObj.body = t.marg.map DistObj.body) (d : Marginal) :
    margN n d s = margN n d t := by
  unfold margN
  rw [h]

theorem evaluator_twin_eq {s t : StochModel Marginal ℝ} (h : s.marg.map DistObj.body = t.marg.map DistObj.body) :
    evaluator c n s = evaluator c n t := by
  unfold evaluator
  rw [margN_twin h]

theorem evaluator_twin (hd : Twin c e R) (mdl : StochModel Marginal ℝ) :
    Sim R (evaluator c n mdl) (evaluator (c.withExpr e) n mdl) := ls_twin hd _ _

theorem twin_mk {α : Type} {s t : Ev Marginal} (h : R s t) (x : α) : OptRel (RP R) (some (s, x)) (some (t, x)) :=
  Or.inr ⟨_, _, rfl, rfl, h, rfl⟩

@[simp] theorem withExpr_default : (c.withExpr e).default = c.default := rfl
@[simp] theorem withExpr_fuel : (c.withExpr e).fuel = c.fuel := rfl
@[simp] theorem withExpr_eig : (c.withExpr e).eig = c.eig := rfl

theorem compute_twin {s t : StochModel Marginal ℝ} (h : s.marg.map DistObj.body = t.marg.map DistObj.body)
    (hc : s.correlation = t.correlation) (fmin : Correlation.Fmin) (d : Marginal) :
    Correlation.compute fmin d s = Correlation.compute fmin d t := by
  have hl : s.marg.length = t.marg.length := by simpa using congrArg List.length h
  unfold Correlation.compute StochModel.getCorrelation
  rw [hc, h, hl]

theorem initRun_twin (hd : Twin c e R) {s t : Ev Marginal} (h : R s t) :
    RP R (initRun c n s) (initRun (c.withExpr e) n t) := by
  unfold initRun Correlation.setModified
  show RP R _ (match (match Correlation.compute c.fmin c.default t.model with
    | .error e => (t.model, .error e)
    | .ok Ro => (t.model.setModifiedCorrelation Ro, .ok ()) : StochModel Marginal ℝ × Except PyErr Unit) with
    | (_, .error e) => (t, .error e)
    | (m, .ok ()) =>
      match m.Ro with
      | none => (t, .error .valueError)
      | some Ro =>
        if h : Ro.nrow = n ∧ Ro.ncol = n then
          ({ t with model := m }, Transformation.compute c.la c.ty
            (fun a b => Ro.val (Fin.cast h.1.symm a) (Fin.cast h.2.symm b)))
        else ({ t with model := m }, .error .valueError))
  rw [compute_twin (hd.marg _ _ h) (hd.correlation _ _ h)]
  cases hc : Correlation.compute c.fmin c.default t.model with
  | error e => exact ⟨h, rfl⟩
  | ok Ro =>
    have hA := hd.setRo _ _ h Ro
    simp only [StochModel.setModifiedCorrelation] at hA ⊢
    split
    · exact ⟨hA, rfl⟩
    · exact ⟨hA, rfl⟩

theorem withInit_twin {β : Type} {Q : β → β → Prop} (hd : Twin c e R) {s t : Ev Marginal}
    (h : R s t) {fail fail' : Ev Marginal → PyErr → Option β} {body body' : Mats n → Ev Marginal → Option β}
    (hf : ∀ s t e, R s t → OptRel Q (fail s e) (fail' t e))
    (hb : ∀ M s t, R s t → OptRel Q (body M s) (body' M t)) :
    OptRel Q (withInit c n s fail body) (withInit (c.withExpr e) n t fail' body') := by
  unfold withInit
  obtain ⟨s', t', o, hst, h1, h2⟩ := (initRun_twin (n := n) hd h).cases
  rw [h1, h2]
  cases o with
  | error e => exact hf _ _ _ hst
  | ok M => exact hb _ _ _ hst

theorem formRun_twin (hd : Twin c e R) (opt : Form.Options) {s t : Ev Marginal}
    (h : R s t) : OptRel (RP R) (formRun c n opt s) (formRun (c.withExpr e) n opt t) := by
  refine withInit_twin hd h (fun s t e h => twin_mk h _) ?_
  intro M s t h
  rw [margN_twin (hd.marg _ _ h), evaluator_twin_eq (hd.marg _ _ h)]
  simp only [withExpr_default, withExpr_fuel, withExpr_eig]
  rcases runFrom_sim (evaluator_twin (n := n) hd t.model) M (margN n c.default t.model) opt c.fuel h with
    ⟨h1, h2⟩ | ⟨p, q, h1, h2, hq⟩
  · rw [h1, h2]; exact Or.inl ⟨rfl, rfl⟩
  · rw [h1, h2]
    cases hq with
    | done r h => exact twin_mk h _
    | raised r h => exact twin_mk h _
    | nan h => exact twin_mk h _
    | next _ _ h => exact Or.inl ⟨rfl, rfl⟩

theorem simOut_twin {p q : Option (Except (PyErr × Ev Marginal) (MonteCarlo.Result (Ev Marginal) n))}
    (h : OptRel (ExRel R (MonteCarlo.ResRel R)) p q) : OptRel (RP R) (simOut p) (simOut q) := by
  rcases h with ⟨rfl, rfl⟩ | ⟨p, q, rfl, rfl, hq⟩
  · exact Or.inl ⟨rfl, rfl⟩
  · cases hq with
    | error e h => exact twin_mk h _
    | ok h =>
      simp only [simOut, h.1]
      exact twin_mk h.2 _

theorem importanceRun_twin (hd : Twin c e R) (old : MonteCarlo.Records n) (opt : MonteCarlo.Options)
    (point : Fin n → ℝ) (ω : ℕ → ℝ) (print : Bool) {s t : Ev Marginal} (h : R s t) :
    OptRel (RP R) ((importanceRun c n old opt point ω print s).map Prod.snd)
      ((importanceRun (c.withExpr e) n old opt point ω print t).map Prod.snd) := by
  unfold importanceRun
  obtain ⟨s', t', o, hst, h1, h2⟩ := (initRun_twin (n := n) hd h).cases
  rw [h1, h2]
  cases o with
  | error e => exact twin_mk hst _
  | ok _ =>
    dsimp only
    obtain ⟨s'', t'', o, hst, h1, h2⟩ := (initRun_twin (n := n) hd hst).cases
    rw [h1, h2]
    cases o with
    | error e => exact twin_mk hst _
    | ok M =>
      dsimp only
      rw [margN_twin (hd.marg _ _ hst), evaluator_twin_eq (hd.marg _ _ hst)]
      simp only [withExpr_default, withExpr_fuel, withExpr_eig]
      rcases simOut_twin (MonteCarlo.runOn_sim (evaluator_twin (n := n) hd t''.model) old M
        (margN n c.default t''.model) opt (some point) ω 0 c.fuel hst) with ⟨h1, h2⟩ | ⟨p, q, h1, h2, hq⟩
      · rw [h1, h2]; exact Or.inl ⟨rfl, rfl⟩
      · obtain ⟨u, v, o, huv, rfl, rfl⟩ := hq.cases
        rw [h1, h2]
        cases o <;> exact twin_mk huv _

/-- An analysis of the same problem presented in two ways. -/
theorem runJob_twin (hd : Twin c e R) (job : Job (m + 1)) {s t : Ev Marginal}
    (h : R s t) : OptRel (RP R) (runJob c job s) (runJob (c.withExpr e) job t) := by
  cases job with
  | form opt =>
    unfold runJob
    dsimp only
    rcases formRun_twin (n := m + 1) hd opt h with ⟨h1, h2⟩ | ⟨p, q, h1, h2, hq⟩
    · rw [h1, h2]; exact Or.inl ⟨rfl, rfl⟩
    · obtain ⟨s', t', o, hst, rfl, rfl⟩ := hq.cases
      rw [h1, h2]
      cases o with
      | inl r => exact twin_mk hst _
      | inr r => exact twin_mk hst _
  | crude opt point ω =>
    refine withInit_twin hd h (fun s t e h => twin_mk h _) ?_
    intro M s t h
    rw [margN_twin (hd.marg _ _ h), evaluator_twin_eq (hd.marg _ _ h)]
    simp only [withExpr_default, withExpr_fuel, withExpr_eig]
    exact simOut_twin (MonteCarlo.run_sim (evaluator_twin hd _) M _ opt point ω 0 c.fuel h)
  | importance fopt opt ω =>
    unfold runJob importanceNew
    dsimp only
    rcases formRun_twin (n := m + 1) hd fopt h with ⟨h1, h2⟩ | ⟨p, q, h1, h2, hq⟩
    · rw [h1, h2]; exact Or.inl ⟨rfl, rfl⟩
    · obtain ⟨s', t', o, hst, rfl, rfl⟩ := hq.cases
      rw [h1, h2]
      cases o with
      | inr r => exact twin_mk hst _
      | inl r =>
        dsimp only
        exact importanceRun_twin hd _ opt _ ω false hst
  | distribution opt ω =>
    refine withInit_twin hd h (fun s t e h => twin_mk h _) ?_
    intro M s t h
    rw [margN_twin (hd.marg _ _ h), evaluator_twin_eq (hd.marg _ _ h)]
    simp only [withExpr_default, withExpr_fuel, withExpr_eig]
    rcases MonteCarlo.dLoop_sim (evaluator_twin (n := m + 1) hd t.model) M (margN (m + 1) c.default t.model) opt ω
      c.fuel (x := ⟨0, 0, [], [], s⟩) (y := ⟨0, 0, [], [], t⟩) ⟨rfl, rfl, rfl, rfl, h⟩ with ⟨h1, h2⟩ | ⟨p, q, h1, h2, hq⟩
    · rw [h1, h2]; exact Or.inl ⟨rfl, rfl⟩
    · rw [h1, h2]
      cases hq with
      | error e h => exact twin_mk h _
      | ok h =>
        obtain ⟨-, -, h3, h4, h5⟩ := h
        dsimp only
        rw [h3, h4]
        exact twin_mk h5 _
  | subset opt ω υ =>
    refine withInit_twin hd h (fun s t e h => twin_mk h _) ?_
    intro M s t h
    rw [margN_twin (hd.marg _ _ h), evaluator_twin_eq (hd.marg _ _ h)]
    simp only [withExpr_default, withExpr_fuel, withExpr_eig]
    rcases Subset.run_sim (evaluator_twin (n := m + 1) hd t.model) M (margN (m + 1) c.default t.model) opt ω υ
      c.fuel h with ⟨h1, h2⟩ | ⟨p, q, h1, h2, hq⟩
    · rw [h1, h2]; exact Or.inl ⟨rfl, rfl⟩
    · rw [h1, h2]
      cases hq with
      | error e h => exact twin_mk h _
      | ok h =>
        dsimp only
        rw [h.1]
        exact twin_mk h.2 _
  | line fopt N ω =>
    refine withInit_twin hd h (fun s t e h => twin_mk h _) ?_
    intro M s t h
    dsimp only
    rcases formRun_twin (n := m + 1) hd fopt h with ⟨h1, h2⟩ | ⟨p, q, h1, h2, hq⟩
    · rw [h1, h2]; exact Or.inl ⟨rfl, rfl⟩
    · obtain ⟨s', t', o, hst, rfl, rfl⟩ := hq.cases
      rw [h1, h2]
      cases o with
      | inr r => exact twin_mk hst _
      | inl r =>
        dsimp only
        rw [margN_twin (hd.marg _ _ hst), evaluator_twin_eq (hd.marg _ _ hst)]
        simp only [withExpr_default, withExpr_fuel, withExpr_eig]
        obtain ⟨s'', t'', o, hst, h1, h2⟩ := (LineSampling.sample_sim (evaluator_twin (n := m + 1) hd t'.model) M
          (margN (m + 1) c.default t'.model) r.alpha r.beta N ω 0 hst).cases
        rw [h1, h2]
        exact twin_mk hst _
  | sorm fopt p fit =>
    unfold runJob
    dsimp only
    rcases formRun_twin (n := m + 1) hd fopt h with ⟨h1, h2⟩ | ⟨p, q, h1, h2, hq⟩
    · rw [h1, h2]; exact Or.inl ⟨rfl, rfl⟩
    · obtain ⟨s', t', o, hst, rfl, rfl⟩ := hq.cases
      rw [h1, h2]
      cases o with
      | inr r => exact twin_mk hst _
      | inl r =>
        refine withInit_twin hd hst (fun s t e h => twin_mk h _) ?_
        intro M s t h
        rw [margN_twin (hd.marg _ _ h), evaluator_twin_eq (hd.marg _ _ h)]
        simp only [withExpr_default, withExpr_fuel, withExpr_eig]
        obtain ⟨s'', t'', o, hst, h1, h2⟩ := (Sorm.run_sim (evaluator_twin (n := m + 1) hd t.model) (c.eig m) M
          (margN (m + 1) c.default t.model) r _ false fit h).cases
        rw [h1, h2]
        cases o with
        | error e => exact twin_mk hst _
        | ok r => exact twin_mk hst _


/-- A session of analyses of the same problem presented in two ways. -/
theorem session_twin (hd : Twin c e R) (jobs : List (Job (m + 1))) : ∀ {s t : Ev Marginal}, R s t →
    OptRel (RP R) (session c jobs s) (session (c.withExpr e) jobs t) := by
  induction jobs with
  | nil => intro s t h; exact twin_mk h _
  | cons job jobs ih =>
    intro s t h
    unfold session
    rcases runJob_twin hd job h with ⟨h1, h2⟩ | ⟨p, q, h1, h2, hq⟩
    · rw [h1, h2]; exact Or.inl ⟨rfl, rfl⟩
    · obtain ⟨s', t', o, hst, rfl, rfl⟩ := hq.cases
      rw [h1, h2]
      dsimp only
      rcases ih hst with ⟨h1, h2⟩ | ⟨p, q, h1, h2, hq⟩
      · rw [h1, h2]; exact Or.inl ⟨rfl, rfl⟩
      · obtain ⟨s'', t'', o, hst, rfl, rfl⟩ := hq.cases
        rw [h1, h2]
        exact twin_mk hst _

end Pystra
