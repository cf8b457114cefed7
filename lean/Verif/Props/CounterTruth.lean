import Verif.Props.SessionCost
import Verif.Spec.CounterTruth

/-! C133: the counter tells the truth: it grows by the number of points at which the limit-state function was evaluated, however the
analyses of a session end. -/

namespace Pystra.Props.KeptRun
open Transformation Form Session Pystra.Props

/-- `P` is kept by `init_run` and by every evaluation of the limit state. -/
structure KeptBy (c : Setup) (n : ℕ) (P : Ev Marginal → Prop) : Prop where
  init : ∀ s, P s → P (initRun c n s).1
  withGrad : ∀ (mdl : StochModel Marginal ℝ) s x, P s → P ((evaluator c n mdl).withGrad s x).1
  values : ∀ (mdl : StochModel Marginal ℝ) s xs, P s → P ((evaluator c n mdl).values s xs).1

/-- The same state, with the property `P`. -/
def Kept (P : Ev Marginal → Prop) (s t : Ev Marginal) : Prop := s = t ∧ P t

variable {c : Setup} {P : Ev Marginal → Prop} {n m : ℕ}

theorem initRun_kept (hd : KeptBy c n P) {s t : Ev Marginal} (h : Kept P s t) : RP (Kept P) (initRun c n s) (initRun c n t) := by
  obtain ⟨rfl, h⟩ := h
  exact ⟨⟨rfl, hd.init s h⟩, rfl⟩

theorem margN_kept {s t : Ev Marginal} (h : Kept P s t) (d : Marginal) : margN n d s.model = margN n d t.model := by rw [h.1]

theorem evaluator_kept {s t : Ev Marginal} (h : Kept P s t) : evaluator c n s.model = evaluator c n t.model := by rw [h.1]

theorem evaluator_sim (hd : KeptBy c n P) (mdl : StochModel Marginal ℝ) :
    Sim (Kept P) (evaluator c n mdl) (evaluator c n mdl) := by
  constructor
  · rintro s t ⟨rfl, h⟩ x; exact ⟨⟨rfl, hd.withGrad mdl s x h⟩, rfl⟩
  · rintro s t ⟨rfl, h⟩ x; exact ⟨⟨rfl, hd.values mdl s x h⟩, rfl⟩

theorem withInit_kept {β : Type} {Q : β → β → Prop} (hd : KeptBy c n P) {s t : Ev Marginal}
    (h : Kept P s t) {fail : Ev Marginal → PyErr → Option β} {body : Mats n → Ev Marginal → Option β}
    (hf : ∀ s t e, Kept P s t → OptRel Q (fail s e) (fail t e))
    (hb : ∀ M s t, Kept P s t → OptRel Q (body M s) (body M t)) :
    OptRel Q (withInit c n s fail body) (withInit c n t fail body) := by
  unfold withInit
  obtain ⟨s', t', o, hst, h1, h2⟩ := (initRun_kept (n := n) hd h).cases
  rw [h1, h2]
  cases o with
  | error e => exact hf _ _ _ hst
  | ok M => exact hb _ _ _ hst

/-- Abbreviation: both still running, or the same outcome and alike states. -/
def SameK {α : Type} (P : Ev Marginal → Prop) (p q : Option (Ev Marginal × α)) : Prop :=
  OptRel (RP (Kept P)) p q

theorem SameK.mk {α : Type} {s t : Ev Marginal} (h : Kept P s t) (x : α) : SameK P (some (s, x)) (some (t, x)) :=
  Or.inr ⟨_, _, rfl, rfl, h, rfl⟩

theorem formRun_kept (hd : KeptBy c n P) (opt : Form.Options) {s t : Ev Marginal}
    (h : Kept P s t) : SameK P (formRun c n opt s) (formRun c n opt t) := by
  refine withInit_kept hd h (fun s t e h => SameK.mk h _) ?_
  intro M s t h
  rw [margN_kept h, evaluator_kept h]
  rcases runFrom_sim (evaluator_sim hd t.model) M (margN n c.default t.model) opt c.fuel h with
    ⟨h1, h2⟩ | ⟨p, q, h1, h2, hq⟩
  · rw [h1, h2]; exact Or.inl ⟨rfl, rfl⟩
  · rw [h1, h2]
    cases hq with
    | done r h => exact SameK.mk h _
    | raised r h => exact SameK.mk h _
    | nan h => exact SameK.mk h _
    | next _ _ h => exact Or.inl ⟨rfl, rfl⟩

theorem simOut_kept {p q : Option (Except (PyErr × Ev Marginal) (MonteCarlo.Result (Ev Marginal) n))}
    (h : OptRel (ExRel (Kept P) (MonteCarlo.ResRel (Kept P))) p q) : SameK P (simOut p) (simOut q) := by
  rcases h with ⟨rfl, rfl⟩ | ⟨p, q, rfl, rfl, hq⟩
  · exact Or.inl ⟨rfl, rfl⟩
  · cases hq with
    | error e h => exact SameK.mk h _
    | ok h =>
      simp only [simOut, h.1]
      exact SameK.mk h.2 _

theorem importanceRun_kept (hd : KeptBy c n P) (old : MonteCarlo.Records n) (opt : MonteCarlo.Options)
    (point : Fin n → ℝ) (ω : ℕ → ℝ) (print : Bool) {s t : Ev Marginal} (h : Kept P s t) :
    SameK P ((importanceRun c n old opt point ω print s).map Prod.snd)
      ((importanceRun c n old opt point ω print t).map Prod.snd) := by
  unfold importanceRun
  obtain ⟨s', t', o, hst, h1, h2⟩ := (initRun_kept (n := n) hd h).cases
  rw [h1, h2]
  cases o with
  | error e => exact SameK.mk hst _
  | ok _ =>
    dsimp only
    obtain ⟨s'', t'', o, hst, h1, h2⟩ := (initRun_kept (n := n) hd hst).cases
    rw [h1, h2]
    cases o with
    | error e => exact SameK.mk hst _
    | ok M =>
      dsimp only
      rw [margN_kept hst, evaluator_kept hst]
      rcases simOut_kept (MonteCarlo.runOn_sim (evaluator_sim (n := n) hd t''.model) old M
        (margN n c.default t''.model) opt (some point) ω 0 c.fuel hst) with ⟨h1, h2⟩ | ⟨p, q, h1, h2, hq⟩
      · rw [h1, h2]; exact Or.inl ⟨rfl, rfl⟩
      · obtain ⟨u, v, o, huv, rfl, rfl⟩ := hq.cases
        rw [h1, h2]
        cases o <;> exact SameK.mk huv _

/-- An analysis on two models with the same definition that have seen the same evaluations. -/
theorem runJob_kept (hd : KeptBy c (m + 1) P) (job : Job (m + 1)) {s t : Ev Marginal}
    (h : Kept P s t) : SameK P (runJob c job s) (runJob c job t) := by
  cases job with
  | form opt =>
    unfold runJob
    dsimp only
    rcases formRun_kept (n := m + 1) hd opt h with ⟨h1, h2⟩ | ⟨p, q, h1, h2, hq⟩
    · rw [h1, h2]; exact Or.inl ⟨rfl, rfl⟩
    · obtain ⟨s', t', o, hst, rfl, rfl⟩ := hq.cases
      rw [h1, h2]
      cases o with
      | inl r => exact SameK.mk hst _
      | inr r => exact SameK.mk hst _
  | crude opt point ω =>
    refine withInit_kept hd h (fun s t e h => SameK.mk h _) ?_
    intro M s t h
    rw [margN_kept h, evaluator_kept h]
    exact simOut_kept (MonteCarlo.run_sim (evaluator_sim hd _) M _ opt point ω 0 c.fuel h)
  | importance fopt opt ω =>
    unfold runJob importanceNew
    dsimp only
    rcases formRun_kept (n := m + 1) hd fopt h with ⟨h1, h2⟩ | ⟨p, q, h1, h2, hq⟩
    · rw [h1, h2]; exact Or.inl ⟨rfl, rfl⟩
    · obtain ⟨s', t', o, hst, rfl, rfl⟩ := hq.cases
      rw [h1, h2]
      cases o with
      | inr r => exact SameK.mk hst _
      | inl r =>
        dsimp only
        exact importanceRun_kept hd _ opt _ ω false hst
  | distribution opt ω =>
    refine withInit_kept hd h (fun s t e h => SameK.mk h _) ?_
    intro M s t h
    rw [margN_kept h, evaluator_kept h]
    rcases MonteCarlo.dLoop_sim (evaluator_sim (n := m + 1) hd t.model) M (margN (m + 1) c.default t.model) opt ω
      c.fuel (x := ⟨0, 0, [], [], s⟩) (y := ⟨0, 0, [], [], t⟩) ⟨rfl, rfl, rfl, rfl, h⟩ with ⟨h1, h2⟩ | ⟨p, q, h1, h2, hq⟩
    · rw [h1, h2]; exact Or.inl ⟨rfl, rfl⟩
    · rw [h1, h2]
      cases hq with
      | error e h => exact SameK.mk h _
      | ok h =>
        obtain ⟨-, -, h3, h4, h5⟩ := h
        dsimp only
        rw [h3, h4]
        exact SameK.mk h5 _
  | subset opt ω υ =>
    refine withInit_kept hd h (fun s t e h => SameK.mk h _) ?_
    intro M s t h
    rw [margN_kept h, evaluator_kept h]
    rcases Subset.run_sim (evaluator_sim (n := m + 1) hd t.model) M (margN (m + 1) c.default t.model) opt ω υ
      c.fuel h with ⟨h1, h2⟩ | ⟨p, q, h1, h2, hq⟩
    · rw [h1, h2]; exact Or.inl ⟨rfl, rfl⟩
    · rw [h1, h2]
      cases hq with
      | error e h => exact SameK.mk h _
      | ok h =>
        dsimp only
        rw [h.1]
        exact SameK.mk h.2 _
  | line fopt N ω =>
    refine withInit_kept hd h (fun s t e h => SameK.mk h _) ?_
    intro M s t h
    dsimp only
    rcases formRun_kept (n := m + 1) hd fopt h with ⟨h1, h2⟩ | ⟨p, q, h1, h2, hq⟩
    · rw [h1, h2]; exact Or.inl ⟨rfl, rfl⟩
    · obtain ⟨s', t', o, hst, rfl, rfl⟩ := hq.cases
      rw [h1, h2]
      cases o with
      | inr r => exact SameK.mk hst _
      | inl r =>
        dsimp only
        rw [margN_kept hst, evaluator_kept hst]
        obtain ⟨s'', t'', o, hst, h1, h2⟩ := (LineSampling.sample_sim (evaluator_sim (n := m + 1) hd t'.model) M
          (margN (m + 1) c.default t'.model) r.alpha r.beta N ω 0 hst).cases
        rw [h1, h2]
        exact SameK.mk hst _
  | sorm fopt p fit =>
    unfold runJob
    dsimp only
    rcases formRun_kept (n := m + 1) hd fopt h with ⟨h1, h2⟩ | ⟨p, q, h1, h2, hq⟩
    · rw [h1, h2]; exact Or.inl ⟨rfl, rfl⟩
    · obtain ⟨s', t', o, hst, rfl, rfl⟩ := hq.cases
      rw [h1, h2]
      cases o with
      | inr r => exact SameK.mk hst _
      | inl r =>
        refine withInit_kept hd hst (fun s t e h => SameK.mk h _) ?_
        intro M s t h
        rw [margN_kept h, evaluator_kept h]
        obtain ⟨s'', t'', o, hst, h1, h2⟩ := (Sorm.run_sim (evaluator_sim (n := m + 1) hd t.model) (c.eig m) M
          (margN (m + 1) c.default t.model) r _ false fit h).cases
        rw [h1, h2]
        cases o with
        | error e => exact SameK.mk hst _
        | ok r => exact SameK.mk hst _

/-- What `init_run` and the evaluations keep, every analysis keeps. -/
theorem runJob_keeps (hd : KeptBy c (m + 1) P) (job : Job (m + 1)) {ev ev' : Ev Marginal} {o : Out (m + 1)} (h : runJob c job ev = some (ev', o))
    (hp : P ev) : P ev' := by
  rcases runJob_kept hd job (s := ev) (t := ev) ⟨rfl, hp⟩ with ⟨h1, -⟩ | ⟨p, q, h1, h2, ⟨h3, -⟩⟩
  · rw [h1] at h; cases h
  · rw [h2] at h
    injection h with h
    subst h
    exact h3.2

/-- … and every session. -/
theorem session_keeps (hd : KeptBy c (m + 1) P) : ∀ (jobs : List (Job (m + 1))) {ev ev' : Ev Marginal} {outs : List (Out (m + 1))},
    session c jobs ev = some (ev', outs) → P ev → P ev'
  | [], ev, ev', outs, h, hp => by
    simp only [session, Option.some.injEq, Prod.mk.injEq] at h
    rw [← h.1]; exact hp
  | job :: jobs, ev, ev', outs, h, hp => by
    unfold session at h
    split at h
    · cases h
    · next ev1 o h1 =>
      split at h
      · cases h
      · next ev2 os h2 =>
        simp only [Option.some.injEq, Prod.mk.injEq] at h
        rw [← h.1]
        exact session_keeps hd jobs h2 (runJob_keeps hd job h1 hp)

end Pystra.Props.KeptRun

namespace Pystra.Props
open Transformation Form Session Spec LimitState StochModel KeptRun

section
variable {D : Type} {n m : ℕ} {expr : Kwargs → GRet}

theorem computeLsf_kw {ev : Ev D} (w : WF ev.model) (hn : ev.model.nMarg ≤ n) (x : List (Fin n → ℝ)) (ddm : Bool) :
    computeLsf expr x ddm ev = ({ ev with trace := ev.trace ++ [kwOf ev.model x] }, unpackRet ddm (expr (kwOf ev.model x))) := by
  unfold computeLsf
  rw [inpdict_spec w hn x]
  rfl

theorem points_length {mdl : StochModel D ℝ} (w : WF mdl) (hn : mdl.nMarg ≤ n) (hne : mdl.getNames ≠ []) (x : List (Fin n → ℝ)) :
    (pointsOf [kwOf mdl x]).length = x.length := by
  rw [pointsOf_kw w hn hne, List.length_map]

theorem blockLoop_points {assign : ℕ → GVal → Except PyErr (List ℝ)} (x : List (Fin n → ℝ)) : ∀ (fuel bs k : ℕ) (acc : List ℝ)
    {ev ev' : Ev D} {r : Except PyErr (List ℝ)}, WF ev.model → ev.model.nMarg ≤ n → ev.model.getNames ≠ [] → k ≤ x.length →
    blockLoop assign expr x fuel bs k acc ev = some (ev', r) →
    ∃ T, ev' = { ev with trace := ev.trace ++ T } ∧ ∀ v, r = .ok v → (pointsOf T).length = x.length - k := by
  intro fuel
  induction fuel with
  | zero =>
    intro bs k acc ev ev' r w hn hne hk h
    unfold blockLoop at h
    split_ifs at h
    injection h with h
    injection h with h1 h2
    exact ⟨[], by rw [← h1]; simp, fun v _ => by simp only [pointsOf, List.flatMap_nil, List.length_nil]; omega⟩
  | succ fuel ih =>
    intro bs k acc ev ev' r w hn hne hk h
    unfold blockLoop at h
    split_ifs at h with h0
    · dsimp only at h
      rw [computeLsf_kw w hn] at h
      generalize hx : (x.drop k).take (min bs (x.length - k)) = bx at h
      have hl : bx.length = min bs (x.length - k) := by rw [← hx]; simp
      split at h
      · next e1 e2 he =>
        injection h with h
        injection h with h1 h2
        injection he with he1 he2
        exact ⟨[kwOf ev.model bx], by rw [← h1, ← he1], fun v hv => by rw [← h2] at hv; cases hv⟩
      · next e1 g dg he =>
        injection he with he1 he2
        split at h
        · next e _ =>
          injection h with h
          injection h with h1 h2
          exact ⟨[kwOf ev.model bx], by rw [← h1, ← he1], fun v hv => by rw [← h2] at hv; cases hv⟩
        · subst he1
          obtain ⟨T, h1, h2⟩ := @ih _ _ _ ⟨ev.model, ev.trace ++ [kwOf ev.model bx]⟩ ev' r w hn hne (by omega) h
          refine ⟨[kwOf ev.model bx] ++ T, by rw [h1]; simp, fun v hv => ?_⟩
          rw [pointsOf_append, List.length_append, points_length w hn hne, h2 v hv, hl]
          omega
    · injection h with h
      injection h with h1 h2
      exact ⟨[], by rw [← h1]; simp, fun v _ => by simp only [pointsOf, List.flatMap_nil, List.length_nil]; omega⟩

theorem ddmLoop_points {nx : ℕ} : ∀ (xs : List (Fin n → ℝ)) (k : ℕ) (G : List ℝ) (grad : List (Fin n → ℝ)) {ev ev' : Ev D}
    {r : Except PyErr (List ℝ × List (Fin n → ℝ))}, WF ev.model → ev.model.nMarg ≤ n → ev.model.getNames ≠ [] →
    ddmLoop expr nx xs k G grad ev = (ev', r) →
    ∃ T, ev' = { ev with trace := ev.trace ++ T } ∧ ∀ v, r = .ok v → (pointsOf T).length = xs.length := by
  intro xs
  induction xs with
  | nil =>
    intro k G grad ev ev' r w hn hne h
    unfold ddmLoop at h
    injection h with h1 h2
    exact ⟨[], by rw [← h1]; simp, fun v _ => by simp [pointsOf]⟩
  | cons p t ih =>
    intro k G grad ev ev' r w hn hne h
    unfold ddmLoop at h
    rw [computeLsf_kw w hn] at h
    split at h
    · next e1 e2 he =>
      injection h with h1 h2
      injection he with he1 he2
      exact ⟨[kwOf ev.model [p]], by rw [← h1, ← he1], fun v hv => by rw [← h2] at hv; cases hv⟩
    · next e1 g dg he =>
      injection he with he1 he2
      split at h
      · injection h with h1 h2
        exact ⟨[kwOf ev.model [p]], by rw [← h1, ← he1], fun v hv => by rw [← h2] at hv; cases hv⟩
      · split at h
        · injection h with h1 h2
          exact ⟨[kwOf ev.model [p]], by rw [← h1, ← he1], fun v hv => by rw [← h2] at hv; cases hv⟩
        · subst he1
          obtain ⟨T, h1, h2⟩ := @ih _ _ _ ⟨ev.model, ev.trace ++ [kwOf ev.model [p]]⟩ ev' r w hn hne h
          refine ⟨[kwOf ev.model [p]] ++ T, by rw [h1]; simp, fun v hv => ?_⟩
          rw [pointsOf_append, List.length_append, points_length w hn hne, h2 v hv]
          simp [Nat.add_comm]

/-- From `ev` to `ev'`: the calls `T` were made and `j` points were counted. -/
def Went (ev ev' : Ev D) (j : ℕ) (T : List Kwargs) : Prop := ev' = ⟨ev.model.addCallFunction j, ev.trace ++ T⟩

/-- An evaluation that returns counts the points at which it evaluated; one that raises counts nothing. -/
theorem evaluate_points (fuel : ℕ) (lo : LSOptions) (stdv : Fin n → ℝ) (dm : Option String) (x : List (Fin n → ℝ)) {ev ev' : Ev D}
    {r : Except PyErr (EvalOut n)} (w : WF ev.model) (hn : ev.model.nMarg ≤ n) (hne : ev.model.getNames ≠ [])
    (h : evaluateLsf fuel expr lo stdv dm x ev = some (ev', r)) :
    ∃ j T, Went ev ev' j T ∧ j ≤ (pointsOf T).length ∧ ∀ out, r = .ok out → j = (pointsOf T).length := by
  have hz : ∀ T : List Kwargs, ({ ev with trace := ev.trace ++ T } : Ev D) = ⟨ev.model.addCallFunction 0, ev.trace ++ T⟩ := by
    intro T; simp [addCallFunction]
  have hstop : ∀ T (e : PyErr), ev' = { ev with trace := ev.trace ++ T } → r = .error e →
      ∃ j T, Went ev ev' j T ∧ j ≤ (pointsOf T).length ∧ ∀ out, r = .ok out → j = (pointsOf T).length := by
    intro T e h1 h2
    exact ⟨0, T, by unfold Went; rw [h1, hz], Nat.zero_le _, fun out ho => by rw [h2] at ho; cases ho⟩
  unfold evaluateLsf at h
  generalize hmode : (match dm with | none => lo.diffMode | some _ => "no") = mode at h
  dsimp only at h
  split_ifs at h with h0 h1 h2
  · injection h with h
    injection h with h1 h2
    exact hstop [] _ (by rw [← h1]; simp) h2.symm
  · unfold evaluateNogradient at h
    split at h
    · cases h
    · next ev1 e hb =>
      injection h with h
      injection h with h1 h2
      obtain ⟨T, h3, -⟩ := blockLoop_points x _ _ _ _ w hn hne (Nat.zero_le _) hb
      exact hstop T e (by rw [← h1, h3]) h2.symm
    · next ev1 G hb =>
      injection h with h
      injection h with h1 h2
      obtain ⟨T, h3, h4⟩ := blockLoop_points x _ _ _ _ w hn hne (Nat.zero_le _) hb
      have h5 := h4 _ rfl
      rw [Nat.sub_zero] at h5
      exact ⟨x.length, T, by unfold Went; rw [← h1, h3], h5.ge, fun _ _ => h5.symm⟩
  · injection h with h
    unfold evaluateDdm at h
    split at h
    · next ev1 e hb =>
      injection h with h1 h2
      obtain ⟨T, h3, -⟩ := ddmLoop_points x _ _ _ w hn hne hb
      exact hstop T e (by rw [← h1, h3]) h2.symm
    · next ev1 G grad hb =>
      injection h with h1 h2
      obtain ⟨T, h3, h4⟩ := ddmLoop_points x _ _ _ w hn hne hb
      have h5 := h4 _ rfl
      exact ⟨x.length, T, by unfold Went; rw [← h1, h3], h5.ge, fun _ _ => h5.symm⟩
  · unfold evaluateFfd at h
    rcases x with _ | ⟨x0, _ | ⟨x1, t⟩⟩
    · injection h with h
      injection h with h1 h2
      exact ⟨0, [], by unfold Went; rw [← h1, ← hz]; simp, Nat.zero_le _, fun _ _ => by simp [pointsOf]⟩
    · simp only at h
      have hlen := (ffd_table (fun j => stdv j / lo.ffdpara) x0).2
      rcases hp : ffdPerturb (fun j => stdv j / lo.ffdpara) (List.finRange n) (x0, List.replicate (1 + n) x0) with ⟨xa, allx⟩
      rw [hp] at h hlen
      simp only at h hlen
      split at h
      · cases h
      · next ev1 e hb =>
        injection h with h
        injection h with h1 h2
        obtain ⟨T, h3, -⟩ := blockLoop_points allx _ _ _ _ w hn hne (Nat.zero_le _) hb
        exact hstop T e (by rw [← h1, h3]) h2.symm
      · next ev1 G hb =>
        injection h with h
        injection h with h1 h2
        obtain ⟨T, h3, h4⟩ := blockLoop_points allx _ _ _ _ w hn hne (Nat.zero_le _) hb
        have h5 := h4 _ rfl
        rw [Nat.sub_zero, hlen] at h5
        have h6 : (pointsOf T).length = 1 + n := by rw [h5]; simp [Nat.add_comm]
        exact ⟨1 + n, T, by unfold Went; rw [← h1, h3], h6.ge, fun _ _ => h6.symm⟩
    · injection h with h
      injection h with h1 h2
      exact hstop [] _ (by rw [← h1]; simp) h2.symm

theorem broadcast_length {nc : ℕ} {l : List ℝ} (h : l.length = nc) : ∃ v, broadcastTo nc (.arr l) = .ok v := by
  unfold broadcastTo
  split
  · exact ⟨_, rfl⟩
  · exact ⟨_, rfl⟩
  · next l' _ he =>
    injection he with he
    subst he
    exact ⟨l, by rw [if_pos h]⟩

theorem answers_kw {mode : String} (hp : AnswersInShape expr n mode) {mdl : StochModel D ℝ} (w : WF mdl) (hn : mdl.nMarg ≤ n)
    (hne : mdl.getNames ≠ []) (x : List (Fin n → ℝ)) :
    (mode ≠ "ddm" ∧ ∃ l : List ℝ, l.length = x.length ∧ expr (kwOf mdl x) = .val (.arr l)) ∨
    ∃ l dg : List ℝ, l.length = x.length ∧ (x.length = 1 → dg.length = n) ∧ expr (kwOf mdl x) = .tuple [.arr l, .arr dg] :=
  hp (kwOf mdl x) x.length (kw_ne_nil w hn hne x) (kw_lengths mdl x)

theorem blockLoop_answers {mode : String} (hp : AnswersInShape expr n mode) {assign : ℕ → GVal → Except PyErr (List ℝ)}
    (ha : ∀ (l : List ℝ) nc, l.length = nc → ∃ v, assign nc (.arr l) = .ok v) (x : List (Fin n → ℝ)) : ∀ (fuel bs k : ℕ) (acc : List ℝ)
    {ev ev' : Ev D} {e : PyErr}, WF ev.model → ev.model.nMarg ≤ n → ev.model.getNames ≠ [] →
    blockLoop assign expr x fuel bs k acc ev ≠ some (ev', .error e) := by
  intro fuel
  induction fuel with
  | zero =>
    intro bs k acc ev ev' e w hn hne h
    unfold blockLoop at h
    split_ifs at h
    injection h with h
    injection h with h1 h2
    cases h2
  | succ fuel ih =>
    intro bs k acc ev ev' e w hn hne h
    unfold blockLoop at h
    split_ifs at h with h0
    · dsimp only at h
      rw [computeLsf_kw w hn] at h
      generalize hx : (x.drop k).take (min bs (x.length - k)) = bx at h
      have hl : bx.length = min bs (x.length - k) := by rw [← hx]; simp
      obtain ⟨l, h1, h2⟩ : ∃ l : List ℝ, l.length = bx.length ∧ unpackRet false (expr (kwOf ev.model bx)) = .ok (.arr l, none) := by
        rcases answers_kw hp w hn hne bx with ⟨-, l, h1, h2⟩ | ⟨l, dg, h1, -, h2⟩
        · exact ⟨l, h1, by rw [h2]; rfl⟩
        · exact ⟨l, h1, by rw [h2]; rfl⟩
      rw [h2] at h
      obtain ⟨v, hv⟩ := ha l (min bs (x.length - k)) (by rw [h1, hl])
      simp only [hv] at h
      exact @ih _ _ _ ⟨ev.model, ev.trace ++ [kwOf ev.model bx]⟩ ev' e w hn hne h
    · injection h with h
      injection h with h1 h2
      cases h2

/-- When the limit-state function answers in shape, an evaluation of one point or of values only that raises has not begun. -/
theorem evaluate_raises {fuel : ℕ} {lo : LSOptions} (hp : AnswersInShape expr n lo.diffMode) {stdv : Fin n → ℝ} {dm : Option String}
    {x : List (Fin n → ℝ)} {ev ev' : Ev D} {e : PyErr} (w : WF ev.model) (hn : ev.model.nMarg ≤ n) (hne : ev.model.getNames ≠ [])
    (hx : dm = none → ∃ x0, x = [x0]) (h : evaluateLsf fuel expr lo stdv dm x ev = some (ev', .error e)) : ev' = ev := by
  have hbc : ∀ (l : List ℝ) nc, l.length = nc → ∃ v, broadcastTo nc (.arr l) = .ok v := fun l nc h => broadcast_length h
  have hno : ∀ {ev'}, evaluateNogradient fuel expr lo x ev ≠ some (ev', .error e) := by
    intro ev' h
    unfold evaluateNogradient at h
    split at h
    · cases h
    · next hb => exact blockLoop_answers hp hbc x _ _ _ _ w hn hne hb
    · injection h with h
      injection h with h2 h3
      cases h3
  unfold evaluateLsf at h
  cases dm with
  | some d =>
    simp only [if_true] at h
    split_ifs at h
    · injection h with h; injection h with h1 h2; exact h1.symm
    · exact absurd h hno
  | none =>
    obtain ⟨x0, rfl⟩ := hx rfl
    dsimp only at h
    split_ifs at h with h0 h1 h2
    · injection h with h; injection h with h1 h2; exact h1.symm
    · exact absurd h hno
    · exfalso
      obtain ⟨l, dg, h3, h4, h5⟩ := (answers_kw hp w hn hne [x0]).resolve_left (fun h => h.1 h2)
      obtain ⟨v, hv⟩ := broadcast_length h3
      simp only [List.length_singleton] at hv h4
      simp only [evaluateDdm, ddmLoop, computeLsf_kw w hn, h5, unpackRet, ddmAssignG, if_true, hv, Option.getD_some, gradColumn,
        List.length_singleton, dif_pos (h4 trivial)] at h
      injection h with h
      injection h with h6 h7
      cases h7
    · exfalso
      unfold evaluateFfd at h
      simp only at h
      split at h
      · cases h
      · next hb => exact blockLoop_answers hp (assign := squeezeTo) (fun l nc h => broadcast_length (l := l) h) _ _ _ _ _ w hn hne hb
      · injection h with h
        injection h with h2 h3
        cases h3

/-- Between `ev` and `s` the counter grew by at most the number of points at which the limit state was evaluated; exactly, if `X`. -/
def Counted (n : ℕ) (X : Prop) (ev s : Ev D) : Prop :=
  Reachable s.model ∧ s.model.nMarg ≤ n ∧ s.model.getNames ≠ [] ∧
    ∃ T j, s.trace = ev.trace ++ T ∧ s.model.callFunction = ev.model.callFunction + j ∧ j ≤ (pointsOf T).length ∧
      (X → j = (pointsOf T).length)

theorem Counted.went {X : Prop} {ev s s' : Ev D} (h : Counted n X ev s) {j : ℕ} {T : List Kwargs} (hw : Went s s' j T)
    (h1 : j ≤ (pointsOf T).length) (h2 : X → j = (pointsOf T).length) : Counted n X ev s' := by
  obtain ⟨a, b, d, T0, j0, e1, e2, e3, e4⟩ := h
  unfold Went at hw
  subst hw
  refine ⟨reachable_calls a j, b, d, T0 ++ T, j0 + j, by simp [e1], by simp [addCallFunction, e2, Nat.add_assoc], ?_, fun hX => ?_⟩
  · rw [pointsOf_append, List.length_append]; omega
  · rw [pointsOf_append, List.length_append, h2 hX, ← e4 hX]

end

section
variable {c : Setup} {n m : ℕ}

theorem counted_kept (c : Setup) (ev : Ev Marginal) : KeptBy c n (Counted n (AnswersInShape c.expr n c.lsopt.diffMode) ev) := by
  have key : ∀ {fuel : ℕ} {stdv : Fin n → ℝ} {dm : Option String} {x : List (Fin n → ℝ)} {s s' : Ev Marginal} {r : Except PyErr (EvalOut n)},
      Counted n (AnswersInShape c.expr n c.lsopt.diffMode) ev s → (dm = none → ∃ x0, x = [x0]) →
      evaluateLsf fuel c.expr c.lsopt stdv dm x s = some (s', r) → Counted n (AnswersInShape c.expr n c.lsopt.diffMode) ev s' := by
    intro fuel stdv dm x s s' r hs hx h
    obtain ⟨a, b, d, -⟩ := id hs
    obtain ⟨j, T, h1, h2, h3⟩ := evaluate_points fuel c.lsopt stdv dm x (wf_of_reachable a) b d h
    by_cases hX : AnswersInShape c.expr n c.lsopt.diffMode
    · cases r with
      | ok out => exact hs.went h1 h2 (fun _ => h3 out rfl)
      | error e =>
        rw [evaluate_raises hX (wf_of_reachable a) b d hx h]
        exact hs
    · exact hs.went h1 h2 (fun h => absurd h hX)
  constructor
  · rintro s ⟨a, b, d, T, j, e1, e2, e3, e4⟩
    unfold initRun Correlation.setModified
    cases Correlation.compute c.fmin c.default s.model with
    | error e => exact ⟨a, b, d, T, j, e1, e2, e3, e4⟩
    | ok Ro =>
      have : Counted n (AnswersInShape c.expr n c.lsopt.diffMode) ev { s with model := { s.model with Ro := some Ro } } :=
        ⟨reachable_setRo a Ro, b, d, T, j, e1, e2, e3, e4⟩
      simp only [setModifiedCorrelation]
      split <;> exact this
  · intro mdl s x hs
    simp only [evaluator, lsEvaluator]
    split
    · exact hs
    · next h => exact key hs (fun _ => ⟨x, rfl⟩) h
    · next h => exact key hs (fun _ => ⟨x, rfl⟩) h
  · intro mdl s xs hs
    simp only [evaluator, lsEvaluator]
    split
    · exact hs
    · next h => exact key hs (fun h => by cases h) h
    · next h => exact key hs (fun h => by cases h) h

/-- C133: the counter never runs ahead: in every session, whatever the limit-state function returns and however the analyses end, the
counter grows by no more than the number of points at which the limit-state function was evaluated. -/
theorem C133_never_ahead {ev ev' : Ev Marginal} (hm : Reachable ev.model) (hn : ev.model.nMarg ≤ m + 1) (hne : ev.model.getNames ≠ [])
    (jobs : List (Job (m + 1))) {outs : List (Out (m + 1))} (h : session c jobs ev = some (ev', outs)) :
    ∃ T, ev'.trace = ev.trace ++ T ∧ ev'.model.callFunction ≤ ev.model.callFunction + (pointsOf T).length := by
  obtain ⟨-, -, -, T, j, h1, h2, h3, -⟩ := session_keeps (counted_kept c ev) jobs h
    ⟨hm, hn, hne, [], 0, by simp, rfl, Nat.zero_le _, fun _ => by simp [pointsOf]⟩
  exact ⟨T, h1, by omega⟩

/-- C133: the counter is right: for a limit-state function that answers in the expected shape (with any numbers, in any differentiation
mode), the counter grows in every session by exactly the number of points at which the function was evaluated, however the analyses end. -/
theorem C133_exact (hp : AnswersInShape c.expr (m + 1) c.lsopt.diffMode)
    {ev ev' : Ev Marginal} (hm : Reachable ev.model) (hn : ev.model.nMarg ≤ m + 1) (hne : ev.model.getNames ≠ [])
    (jobs : List (Job (m + 1))) {outs : List (Out (m + 1))} (h : session c jobs ev = some (ev', outs)) :
    ∃ T, ev'.trace = ev.trace ++ T ∧ ev'.model.callFunction = ev.model.callFunction + (pointsOf T).length := by
  obtain ⟨-, -, -, T, j, h1, h2, -, h4⟩ := session_keeps (counted_kept c ev) jobs h
    ⟨hm, hn, hne, [], 0, by simp, rfl, Nat.zero_le _, fun _ => by simp [pointsOf]⟩
  exact ⟨T, h1, by rw [h2, h4 hp]⟩

/-- A function computed point by point answers in shape in the modes without user-supplied derivatives; with its derivatives, in all. -/
theorem C133_shapes {expr : Kwargs → GRet} {g : Dict String ℝ → ℝ} (hp : Pointwise expr g) {mode : String} (h : mode ≠ "ddm") (n : ℕ)
    (dg : Kwargs → List ℝ) (hdg : ∀ kw, (dg kw).length = n) :
    AnswersInShape expr n mode ∧
      AnswersInShape (fun kw => match expr kw with | .val v => .tuple [v, .arr (dg kw)] | r => r) n "ddm" := by
  constructor
  · intro kw nc h1 h2
    exact .inl ⟨h, _, by simp, hp kw nc h1 h2⟩
  · intro kw nc h1 h2
    refine .inr ⟨(List.range nc).map (fun k => g (column kw k)), dg kw, by simp, fun _ => hdg kw, ?_⟩
    simp only [hp kw nc h1 h2]

/-- C133: where the counter falls behind: on every model there is a limit-state function (one that always answers with three numbers) whose
evaluation at four points in blocks of three raises after all four were evaluated, and none is counted. -/
theorem C133_behind {mdl : StochModel Marginal ℝ} (hm : Reachable mdl) (hn : mdl.nMarg ≤ n) (hne : mdl.getNames ≠ []) (stdv x0 : Fin n → ℝ) :
    ∃ (expr : Kwargs → GRet) (lo : LSOptions) (ev' : Ev Marginal) (e : PyErr),
      (lsEvaluator expr lo stdv).values ⟨mdl, []⟩ [x0, x0, x0, x0] = (ev', .error e) ∧
      ev'.model.callFunction = mdl.callFunction ∧ (pointsOf ev'.trace).length = 4 := by
  have w := wf_of_reachable hm
  refine ⟨fun _ => .val (.arr [1, 1, 1]), ⟨"ffd", 1, 3, 1000⟩, ⟨mdl, [kwOf mdl [x0, x0, x0], kwOf mdl [x0]]⟩, .valueError, ?_, rfl, ?_⟩
  · have h1 : ∀ (x : List (Fin n → ℝ)) (tr : List Kwargs), computeLsf (fun _ => .val (.arr [1, 1, 1])) x false (⟨mdl, tr⟩ : Ev Marginal) =
        (⟨mdl, tr ++ [kwOf mdl x]⟩, .ok (.arr [1, 1, 1], none)) := fun x tr => computeLsf_kw (ev := ⟨mdl, tr⟩) w hn x false
    obtain ⟨f, hf⟩ : ∃ f, 7 + n + 4 = f + 2 := ⟨9 + n, by omega⟩
    simp [lsEvaluator, evaluateLsf, evaluateNogradient, hf, blockLoop, h1, broadcastTo]
  · have h2 : pointsOf [kwOf mdl [x0, x0, x0], kwOf mdl [x0]] = pointsOf [kwOf mdl [x0, x0, x0]] ++ pointsOf [kwOf mdl [x0]] :=
      pointsOf_append [_] [_]
    show (pointsOf [kwOf mdl [x0, x0, x0], kwOf mdl [x0]]).length = 4
    rw [h2, List.length_append, points_length w hn hne, points_length w hn hne]
    rfl

/-- A concrete case: any function `g` of two variables, whatever the library's numerical routines return: a session of FORM, SORM, line
sampling, importance sampling and crude Monte Carlo with the default options ends, and its count is exact. -/
example (g : Dict String ℝ → ℝ) (la : LinAlg) (eig : (k : ℕ) → Matrix (Fin k) (Fin k) ℝ → List ℝ) (marg : Fin 2 → Marginal) (ω : ℕ → ℝ) :
    ∃ (c : Setup) (ev' : Ev Marginal) (outs : List (Out (1 + 1))), c.expr = vectorised g ∧
      session c [.form ⟨100, 0.001, 0.001, 0, 1⟩, .sorm ⟨100, 0.001, 0.001, 0, 1⟩ 1000 "pf", .line ⟨100, 0.001, 0.001, 0, 1⟩ 100 ω,
        .importance ⟨100, 0.001, 0.001, 1, 1⟩ ⟨1000, 100, 1, 0, 0⟩ ω, .crude ⟨1000, 100, 1, 0, 0⟩ none ω]
        ⟨normalModel !["R", "S"] marg, []⟩ = some (ev', outs) ∧
      ev'.model.callFunction = (normalModel !["R", "S"] marg).callFunction + (pointsOf ev'.trace).length := by
  obtain ⟨c, hc⟩ : ∃ c : Setup, c = ⟨fun _ x => x, marg 0, la, eig, .cholesky, vectorised g, ⟨"ffd", 1, 1000, 1000⟩, 1000⟩ := ⟨_, rfl⟩
  have hnd : Function.Injective !["R", "S"] := by
    intro i j h
    fin_cases i <;> fin_cases j <;> simp_all
  obtain ⟨q1, q2, q3, -, -⟩ := normalModel_spec hnd marg (by norm_num)
  refine ⟨c, ?_⟩
  generalize hjobs : ([.form ⟨100, 0.001, 0.001, 0, 1⟩, .sorm ⟨100, 0.001, 0.001, 0, 1⟩ 1000 "pf", .line ⟨100, 0.001, 0.001, 0, 1⟩ 100 ω,
        .importance ⟨100, 0.001, 0.001, 1, 1⟩ ⟨1000, 100, 1, 0, 0⟩ ω, .crude ⟨1000, 100, 1, 0, 0⟩ none ω] : List (Job (1 + 1))) = jobs
  have hend : (session c jobs ⟨normalModel !["R", "S"] marg, []⟩).isSome := by
    rw [C70_terminates]
    intro job hj
    refine C70_ends job ?_ _
    rw [← hjobs] at hj
    simp only [List.mem_cons, List.not_mem_nil, or_false] at hj
    rw [hc]
    rcases hj with rfl | rfl | rfl | rfl | rfl <;> simp [Bounded]
  obtain ⟨⟨ev', outs⟩, h⟩ := Option.isSome_iff_exists.1 hend
  obtain ⟨T, h1, h2⟩ := C133_exact (c := c) (m := 1)
    (by rw [hc]; exact (C133_shapes (vectorised_pointwise g) (by simp) 2 (fun _ => [0, 0]) (fun _ => rfl)).1) q1 (by unfold StochModel.nMarg; dsimp only; rw [q3]; simp)
    (by unfold StochModel.getNames; dsimp only; rw [q2]; simp) jobs h
  refine ⟨ev', outs, by rw [hc], h, ?_⟩
  rw [h2, h1]
  simp

end

end Pystra.Props
