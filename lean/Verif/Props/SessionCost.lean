import Verif.Spec.SessionCost
import Verif.Props.SormCost
import Verif.Props.LineCost
import Verif.Props.Subset
import Verif.Props.Importance

/-! C132: what a session costs. -/

namespace Pystra.Props
open Matrix Spec Transformation Form StochModel Session

variable {n m : ℕ}

section
variable {D : Type} {expr : Kwargs → GRet} {lo : LSOptions} {stdv : Fin n → ℝ} {t : Mats n} {marg : Fin n → Marginal}

theorem random_length {opt : MonteCarlo.Options} {point : Fin n → ℝ} {ω : ℕ → ℝ} {b pos : ℕ} {us : List (Fin n → ℝ)}
    (h : MonteCarlo.randomNumbers opt point ω b pos = .ok us) : us.length = b := by
  unfold MonteCarlo.randomNumbers at h
  split_ifs at h
  all_goals first | cases h; done | (injection h with h; rw [← h]; simp [MonteCarlo.randn])

theorem block_count {opt : MonteCarlo.Options} {point : Fin n → ℝ} {ω : ℕ → ℝ} {st st' : MonteCarlo.State (Ev D) n}
    (h : MonteCarlo.block t marg (lsEvaluator expr lo stdv) opt point ω st = .ok st') :
    st'.s.model.callFunction + st.k = st.s.model.callFunction + st'.k ∧ (st.k ≤ opt.samples → st'.k ≤ opt.samples) := by
  unfold MonteCarlo.block at h
  dsimp only at h
  split at h
  · cases h
  · next us hus =>
    split at h
    · cases h
    · next s G hv =>
      injection h with h
      rw [← h]
      have h1 := values_calls hv
      have h2 := random_length hus
      simp only [h1, addCallFunction, List.length_map, h2]
      omega

theorem loop_count {opt : MonteCarlo.Options} {point : Fin n → ℝ} {ω : ℕ → ℝ} : ∀ (fuel : ℕ) {st st' : MonteCarlo.State (Ev D) n},
    MonteCarlo.loop t marg (lsEvaluator expr lo stdv) opt point ω fuel st = some (.ok st') →
      st'.s.model.callFunction + st.k = st.s.model.callFunction + st'.k ∧ (st.k ≤ opt.samples → st'.k ≤ opt.samples)
  | 0, st, st', h => by
    unfold MonteCarlo.loop at h
    split_ifs at h
    injection h with h; injection h with h; rw [← h]
    exact ⟨rfl, id⟩
  | fuel + 1, st, st', h => by
    unfold MonteCarlo.loop at h
    split_ifs at h
    · split at h
      · cases h
      · next st1 hb =>
        have h1 := block_count hb
        split_ifs at h
        · injection h with h; injection h with h; rw [← h]
          exact h1
        · have h2 := loop_count fuel h
          exact ⟨by omega, fun h3 => h2.2 (h1.2 h3)⟩
    · injection h with h; injection h with h; rw [← h]
      exact ⟨rfl, id⟩

theorem dLoop_count {opt : MonteCarlo.Options} {ω : ℕ → ℝ} : ∀ (fuel : ℕ) {st st' : MonteCarlo.DState (Ev D) n},
    MonteCarlo.dLoop t marg (lsEvaluator expr lo stdv) opt ω fuel st = some (.ok st') →
      st'.s.model.callFunction + st.k = st.s.model.callFunction + st'.k ∧ (st.k ≤ opt.samples → st'.k = opt.samples)
  | 0, st, st', h => by
    unfold MonteCarlo.dLoop at h
    split_ifs at h with h0
    injection h with h; injection h with h; rw [← h]
    exact ⟨rfl, fun h1 => by omega⟩
  | fuel + 1, st, st', h => by
    unfold MonteCarlo.dLoop at h
    split_ifs at h with h0
    · dsimp only at h
      split at h
      · cases h
      · next us hus =>
        split at h
        · cases h
        · next s G hv =>
          have h1 := values_calls hv
          have h2 := random_length hus
          have h3 := dLoop_count fuel h
          simp only [h1, addCallFunction, List.length_map, h2] at h3
          exact ⟨by omega, fun h4 => h3.2 (by omega)⟩
    · injection h with h; injection h with h; rw [← h]
      exact ⟨rfl, fun h1 => by omega⟩

end

theorem formRun_fails {c : Setup} {opt : Form.Options} {ev ev' : Ev Marginal} {o : Out n}
    (h : formRun c n opt ev = some (ev', .inr o)) : o = .nan ∨ ∃ e, o = .raised e := by
  unfold Session.formRun Session.withInit at h
  rcases hI : Session.initRun c n ev with ⟨ev0, e | t⟩
  · rw [hI] at h
    simp only [Option.some.injEq, Prod.mk.injEq, Sum.inr.injEq] at h
    exact .inr ⟨e, h.2.symm⟩
  · rw [hI] at h
    dsimp only at h
    generalize runFrom t (Session.margN n c.default ev0.model) (Session.evaluator c n ev0.model) opt c.fuel ev0 = x at h
    rcases x with _ | _ | _ | _ | _ <;> simp at h
    · exact .inr ⟨_, h.2.symm⟩
    · exact .inl h.2.symm

theorem initRun_count {c : Setup} {ev ev0 : Ev Marginal} {x : Except PyErr (Mats n)} (h : initRun c n ev = (ev0, x)) :
    ev0.model.callFunction = ev.model.callFunction := by
  have h1 : (initRun c n ev).1.model.callFunction = ev.model.callFunction := by
    unfold Session.initRun Correlation.setModified
    cases Correlation.compute c.fmin c.default ev.model with
    | error e => rfl
    | ok Ro =>
      simp only [setModifiedCorrelation]
      split <;> rfl
  rw [h] at h1
  exact h1

theorem formRun_price {c : Setup} {o : Form.Options} {ev ev1 : Ev Marginal} {r : Form.Result n}
    (h : formRun c n o ev = some (ev1, .inl r)) (h1 : 1 ≤ o.iMax) (h2 : o.iMax ≤ c.fuel) :
    ev1.model.callFunction = ev.model.callFunction + formPrice c n o r.i ∧ Allowed o r.i := by
  obtain ⟨ev0, t, hI, hrun, -⟩ := formRun_done h
  refine ⟨?_, ?_⟩
  · rw [C34_calls hrun, initRun_count hI, formPrice, gradPrice, Nat.add_assoc]
  · obtain ⟨o', h3, -, h4⟩ := C28_stops t (margN n c.default ev.model) (evaluator c n ev.model) o h1 ev0 c.fuel h2
    rw [hrun] at h3
    injection h3 with h3
    have := h4 _ _ h3.symm
    exact ⟨this.1, this.2.1⟩

theorem reachable_since {c : Setup} {ev ev1 : Ev Marginal} {j : ℕ} {T : List Kwargs} (h : Since c ev ev1 j T) (hr : Reachable ev.model) :
    Reachable ev1.model := by
  have h1 := reachable_calls hr j
  rcases h.Ro with h2 | ⟨M, -, h2⟩
  · convert h1 using 1
    rcases ev1 with ⟨⟨v, a, b, d, e, f, g⟩, T'⟩
    obtain ⟨⟨h3, h4, h5, h6, h7⟩, h8, -, -⟩ := h
    simp only [addCallFunction] at *
    simp [h3, h4, h5, h6, h7, h8, h2]
  · convert reachable_setRo h1 M using 1
    rcases ev1 with ⟨⟨v, a, b, d, e, f, g⟩, T'⟩
    obtain ⟨⟨h3, h4, h5, h6, h7⟩, h8, -, -⟩ := h
    simp only [addCallFunction, setModifiedCorrelation] at *
    simp [h3, h4, h5, h6, h7, h8, h2]

theorem run_count {D : Type} {expr : Kwargs → GRet} {lo : LSOptions} {stdv : Fin n → ℝ} {t : Mats n} {marg : Fin n → Marginal}
    {old : MonteCarlo.Records n} {opt : MonteCarlo.Options} {point : Option (Fin n → ℝ)} {ω : ℕ → ℝ} {pos fuel : ℕ} {ev : Ev D}
    {r : MonteCarlo.Result (Ev D) n} (h : MonteCarlo.runOn old t marg (lsEvaluator expr lo stdv) opt point ω pos fuel ev = some (.ok r)) :
    r.st.s.model.callFunction = ev.model.callFunction + r.st.k ∧ r.st.k ≤ opt.samples := by
  unfold MonteCarlo.runOn at h
  dsimp only at h
  split_ifs at h
  · cases h
  · cases h
  split at h
  · cases h
  · cases h
  · next st hl =>
    injection h with h; injection h with h
    have h1 := loop_count _ hl
    simp only [Nat.add_zero] at h1
    rw [← h]
    simp only [MonteCarlo.finish]
    exact ⟨by omega, h1.2 (Nat.zero_le _)⟩

theorem simOut_count {c : Setup} {old : MonteCarlo.Records n} {opt : MonteCarlo.Options} {point : Option (Fin n → ℝ)} {ω : ℕ → ℝ} {t : Mats n}
    {marg : Fin n → Marginal} {m : StochModel Marginal ℝ} {ev ev' : Ev Marginal} {o : Out n}
    (h : simOut (MonteCarlo.runOn old t marg (evaluator c n m) opt point ω 0 c.fuel ev) = some (ev', o)) :
    (∃ e, o = .raised e) ∨ ∃ r, o = .simulation r ∧ ev'.model.callFunction = ev.model.callFunction + r.st.k ∧ r.st.k ≤ opt.samples := by
  rcases hr : MonteCarlo.runOn old t marg (evaluator c n m) opt point ω 0 c.fuel ev with _ | ⟨⟨e, ev1⟩⟩ | r
  · rw [hr] at h; cases h
  · rw [hr] at h
    simp only [simOut, Option.some.injEq, Prod.mk.injEq] at h
    exact Or.inl ⟨e, h.2.symm⟩
  · rw [hr] at h
    simp only [simOut, Option.some.injEq, Prod.mk.injEq] at h
    have := run_count hr
    refine Or.inr ⟨_, h.2.symm, ?_, ?_⟩
    · rw [← h.1]; exact this.1
    · exact this.2

theorem price_aux {c : Setup} {g : Dict String ℝ → ℝ} (hp : Pointwise c.expr g) (hbs : 1 ≤ c.lsopt.blockSize) (hmp : c.lsopt.multiProc ≠ 0)
    {ev ev' : Ev Marginal} (hm : Reachable ev.model) (hn : ev.model.nMarg ≤ m + 1) (hne : ev.model.getNames ≠ []) (job : Job (m + 1))
    (hs : Sensible c job) {o : Out (m + 1)} (h : runJob c job ev = some (ev', o)) :
    ∃ K, (∀ e, o ≠ .raised e) → o ≠ .nan → ev'.model.callFunction = ev.model.callFunction + K ∧ Price c job o K := by
  by_cases hgood : (∀ e, o ≠ .raised e) ∧ o ≠ .nan
  swap
  · exact ⟨0, fun h1 h2 => absurd ⟨h1, h2⟩ hgood⟩
  obtain ⟨hg1, hg2⟩ := hgood
  have hnone : ∀ {fo : Form.Options} {s s1 : Ev Marginal}, formRun c (m + 1) fo s ≠ some (s1, .inr o) := by
    intro fo s s1 hF
    rcases formRun_fails hF with h | ⟨e, h⟩
    · exact hg2 h
    · exact hg1 e h
  cases job with
  | form fo =>
    unfold runJob at h
    dsimp only at h
    rcases hF : formRun c (m + 1) fo ev with _ | ⟨ev1, r | o'⟩
    · rw [hF] at h; cases h
    · rw [hF] at h
      simp only [Option.some.injEq, Prod.mk.injEq] at h
      obtain ⟨rfl, rfl⟩ := h
      have := formRun_price hF hs.1 hs.2
      exact ⟨_, fun _ _ => ⟨this.1, rfl, this.2⟩⟩
    · rw [hF] at h
      simp only [Option.some.injEq, Prod.mk.injEq] at h
      obtain ⟨rfl, rfl⟩ := h
      exact absurd hF hnone
  | crude opt point ω =>
    unfold runJob withInit at h
    dsimp only at h
    rcases hI : initRun c (m + 1) ev with ⟨ev0, e | t⟩
    · rw [hI] at h
      simp only [Option.some.injEq, Prod.mk.injEq] at h
      exact absurd h.2.symm (hg1 e)
    · rw [hI] at h
      dsimp only at h
      rcases simOut_count h with ⟨e, he⟩ | ⟨r, rfl, h1, h2⟩
      · exact absurd he (hg1 e)
      · exact ⟨_, fun _ _ => ⟨by rw [h1, initRun_count hI], rfl, h2⟩⟩
  | importance fo opt ω =>
    unfold runJob importanceNew at h
    dsimp only at h
    rcases hF : formRun c (m + 1) fo ev with _ | ⟨ev1, r | o'⟩
    · rw [hF] at h; cases h
    · rw [hF] at h
      have hf := formRun_price hF hs.1 hs.2
      dsimp only at h
      unfold importanceRun at h
      rcases hI : initRun c (m + 1) ev1 with ⟨ev2, e | t⟩
      · rw [hI] at h
        simp only [Option.map_some, Option.some.injEq, Prod.mk.injEq] at h
        exact absurd h.2.symm (hg1 e)
      rw [hI] at h
      dsimp only at h
      rcases hI2 : initRun c (m + 1) ev2 with ⟨ev3, e | t2⟩
      · rw [hI2] at h
        simp only [Option.map_some, Option.some.injEq, Prod.mk.injEq] at h
        exact absurd h.2.symm (hg1 e)
      rw [hI2] at h
      dsimp only at h
      rcases hS : simOut (MonteCarlo.runOn .fresh t2 (margN (m + 1) c.default ev3.model) (evaluator c (m + 1) ev3.model) opt (some r.point.u) ω 0
        c.fuel ev3) with _ | ⟨ev4, o'⟩
      · rw [hS] at h; cases h
      · rcases simOut_count hS with ⟨e, he⟩ | ⟨r', he, h1, h2⟩
        · rw [hS, he] at h
          simp only [Option.map_some, Option.some.injEq, Prod.mk.injEq] at h
          exact absurd h.2.symm (hg1 e)
        · rw [hS, he] at h
          simp only [Option.map_some, Option.some.injEq, Prod.mk.injEq] at h
          obtain ⟨rfl, rfl⟩ := h
          refine ⟨_, fun _ _ => ⟨?_, r.i, rfl, hf.2, h2⟩⟩
          rw [h1, initRun_count hI2, initRun_count hI, hf.1, Nat.add_assoc]
    · rw [hF] at h
      simp only [Option.some.injEq, Prod.mk.injEq] at h
      obtain ⟨rfl, rfl⟩ := h
      exact absurd hF hnone
  | distribution opt ω =>
    unfold runJob withInit at h
    dsimp only at h
    rcases hI : initRun c (m + 1) ev with ⟨ev0, e | t⟩
    · rw [hI] at h
      simp only [Option.some.injEq, Prod.mk.injEq] at h
      exact absurd h.2.symm (hg1 e)
    · rw [hI] at h
      dsimp only at h
      rcases hD : MonteCarlo.dLoop t (margN (m + 1) c.default ev0.model) (evaluator c (m + 1) ev0.model) opt ω c.fuel
        ⟨0, 0, [], [], ev0⟩ with _ | ⟨⟨e, ev1⟩⟩ | st
      · rw [hD] at h; cases h
      · rw [hD] at h
        simp only [Option.some.injEq, Prod.mk.injEq] at h
        exact absurd h.2.symm (hg1 e)
      · rw [hD] at h
        simp only [Option.some.injEq, Prod.mk.injEq] at h
        obtain ⟨rfl, rfl⟩ := h
        have h1 := dLoop_count _ hD
        have h2 := h1.2 (Nat.zero_le _)
        refine ⟨_, fun _ _ => ⟨?_, rfl⟩⟩
        have h3 := h1.1
        rw [h2] at h3
        rw [← initRun_count hI]
        exact h3
  | subset opt ω υ =>
    unfold runJob withInit at h
    dsimp only at h
    rcases hI : initRun c (m + 1) ev with ⟨ev0, e | t⟩
    · rw [hI] at h
      simp only [Option.some.injEq, Prod.mk.injEq] at h
      exact absurd h.2.symm (hg1 e)
    · rw [hI] at h
      dsimp only at h
      rcases hD : Subset.run t (margN (m + 1) c.default ev0.model) (evaluator c (m + 1) ev0.model) opt ω υ c.fuel ev0 with
        _ | ⟨⟨e, ev1⟩⟩ | r
      · rw [hD] at h; cases h
      · rw [hD] at h
        simp only [Option.some.injEq, Prod.mk.injEq] at h
        exact absurd h.2.symm (hg1 e)
      · rw [hD] at h
        simp only [Option.some.injEq, Prod.mk.injEq] at h
        obtain ⟨rfl, rfl⟩ := h
        obtain ⟨Ro, -, hev0⟩ := initRun_ok hI
        have := C64_calls hp c.lsopt hbs hmp _ ev0 (by rw [hev0]; exact reachable_setRo hm Ro) (by rw [hev0]; exact hn)
          (by rw [hev0]; exact hne) opt hs.1 hs.2.1 hs.2.2.1 hs.2.2.2 ω υ c.fuel r hD
        refine ⟨_, fun _ _ => ⟨?_, rfl⟩⟩
        rw [this, ← initRun_count hI]
        rfl
  | line fo N ω =>
    unfold runJob withInit at h
    dsimp only at h
    rcases hI : initRun c (m + 1) ev with ⟨ev0, e | t⟩
    · rw [hI] at h
      simp only [Option.some.injEq, Prod.mk.injEq] at h
      exact absurd h.2.symm (hg1 e)
    · rw [hI] at h
      dsimp only at h
      rcases hF : formRun c (m + 1) fo ev0 with _ | ⟨ev1, r | o'⟩
      · rw [hF] at h; cases h
      · rw [hF] at h
        simp only [Option.some.injEq, Prod.mk.injEq] at h
        have hf := formRun_price hF hs.1 hs.2
        obtain ⟨Ro, -, hev0⟩ := initRun_ok hI
        obtain ⟨-, -, -, -, j, T, hsince⟩ := formRun_done hF
        have hr1 : Reachable ev1.model := reachable_since hsince (by rw [hev0]; exact reachable_setRo hm Ro)
        have hn1 : ev1.model.nMarg ≤ m + 1 := by
          unfold nMarg; rw [hsince.definition.marg, hev0]; exact hn
        have hne1 : ev1.model.getNames ≠ [] := by
          unfold getNames at *; rw [hsince.definition.names, hev0]; exact hne
        have hv := ls_values hp c.lsopt hbs hmp (fun i => (margN (m + 1) c.default ev1.model i).stdv) ev1.model hr1 hn1 hne1
        obtain ⟨K, k1, k2, k3⟩ := C128_cost (t := t) (marg := margN (m + 1) c.default ev1.model) (ev := evaluator c (m + 1) ev1.model)
          (Q := fun k s => s.model = ev1.model.addCallFunction k) (by
            intro k s x hk
            obtain ⟨s', e1, -⟩ := hv s ⟨k, hk⟩ [x]
            have e2 := values_calls e1
            unfold evaluator
            rw [e1]
            dsimp only
            rw [e2, hk]
            simp [addCallFunction, Nat.add_assoc]) r.alpha r.beta N ω 0 (k := 0) (s := ev1) rfl
        obtain ⟨rfl, rfl⟩ := h
        refine ⟨formPrice c (m + 1) fo r.i + K, fun _ _ => ⟨?_, r.i, K, rfl, hf.2, k1, k2⟩⟩
        rw [k3]
        simp only [addCallFunction, hf.1, initRun_count hI]
        omega
      · rw [hF] at h
        simp only [Option.some.injEq, Prod.mk.injEq] at h
        obtain ⟨rfl, rfl⟩ := h
        exact absurd hF hnone
  | sorm fo p fit =>
    cases o with
    | raised e => exact absurd rfl (hg1 e)
    | nan => exact absurd rfl hg2
    | sorm res =>
      obtain ⟨ev1, r, j, h1, h2, h3⟩ := C131_whole c fo p fit ev ev' res h
      have hf := formRun_price h1 hs.1 hs.2
      refine ⟨_, fun _ _ => ⟨?_, r.i, j, rfl, hf.2, ?_⟩⟩
      · rw [h2, formPrice, gradPrice]; ring
      · rcases h3 with h3 | h3
        · exact Or.inl h3
        · exact Or.inr ⟨h3.1, h3.2.1, h3.2.2.1⟩
    | _ =>
      exfalso
      have := C78_fresh (m := m) c fo p fit ev
      rw [h] at this
      exact this

/-- C132: the price of every analysis that ends with a result. -/
theorem C132_price {c : Setup} {g : Dict String ℝ → ℝ} (hp : Pointwise c.expr g) (hbs : 1 ≤ c.lsopt.blockSize) (hmp : c.lsopt.multiProc ≠ 0)
    {ev ev' : Ev Marginal} (hm : Reachable ev.model) (hn : ev.model.nMarg ≤ m + 1) (hne : ev.model.getNames ≠ []) (job : Job (m + 1))
    (hs : Sensible c job) {o : Out (m + 1)} (h : runJob c job ev = some (ev', o)) (h1 : ∀ e, o ≠ .raised e) (h2 : o ≠ .nan) :
    ∃ K, ev'.model.callFunction = ev.model.callFunction + K ∧ Price c job o K := by
  obtain ⟨K, hK⟩ := price_aux hp hbs hmp hm hn hne job hs h
  exact ⟨K, hK h1 h2⟩

/-- C132: the price of a session.  Analyses on one model object, all of which end with a result: the counter of the model grows by the sum of
the prices of the analyses, none of which depends on what was run before. -/
theorem C132_session {c : Setup} {g : Dict String ℝ → ℝ} (hp : Pointwise c.expr g) (hbs : 1 ≤ c.lsopt.blockSize) (hmp : c.lsopt.multiProc ≠ 0)
    {ev ev' : Ev Marginal} (hm : Reachable ev.model) (hn : ev.model.nMarg ≤ m + 1) (hne : ev.model.getNames ≠ []) (jobs : List (Job (m + 1)))
    (hs : ∀ job ∈ jobs, Sensible c job) {outs : List (Out (m + 1))} (h : session c jobs ev = some (ev', outs))
    (hr : ∀ o ∈ outs, (∀ e, o ≠ .raised e) ∧ o ≠ .nan) :
    ∃ Ks : List ℕ, ev'.model.callFunction = ev.model.callFunction + Ks.sum ∧
      List.Forall₂ (fun p K => Price c p.1 p.2 K) (jobs.zip outs) Ks ∧ outs.length = jobs.length := by
  obtain ⟨runs, h1, h2, -, h3, -⟩ := C70_session jobs h
  refine ⟨runs.map (fun r => r.1.model.callFunction - ev.model.callFunction), h3, ?_, ?_⟩
  · clear h h3
    subst h2
    induction jobs generalizing runs with
    | nil =>
      cases runs with
      | nil => exact .nil
      | cons r runs => simp at h1
    | cons job jobs ih =>
      cases runs with
      | nil => simp at h1
      | cons r runs =>
        simp only [List.map_cons, List.cons.injEq] at h1
        obtain ⟨h4, h5⟩ := h1
        refine .cons ?_ (ih (fun j hj => hs j (List.mem_cons_of_mem _ hj)) runs h5 (fun o ho => hr o (List.mem_cons_of_mem _ ho)))
        obtain ⟨h6, h7⟩ := hr r.2 (by simp)
        obtain ⟨K, h8, h9⟩ := C132_price hp hbs hmp hm hn hne job (hs job (by simp)) (ev' := r.1) (o := r.2) h4 h6 h7
        show Price c job r.2 (r.1.model.callFunction - ev.model.callFunction)
        rw [h8, Nat.add_sub_cancel_left]
        exact h9
  · have := congrArg List.length h1
    rw [h2]
    simpa using this.symm

/-- The price of a FORM run grows with its iterations. -/
theorem formPrice_mono (c : Setup) (n : ℕ) (o : Form.Options) {i j : ℕ} (h : i ≤ j) : formPrice c n o i ≤ formPrice c n o j := by
  unfold formPrice
  have h1 : i * gradPrice c n ≤ j * gradPrice c n := Nat.mul_le_mul_right _ h
  split <;> omega

theorem formPrice_ge (c : Setup) (n : ℕ) (o : Form.Options) {i : ℕ} (h : 1 ≤ i) : gradPrice c n ≤ formPrice c n o i := by
  refine le_trans ?_ (formPrice_mono c n o h)
  unfold formPrice
  simp

/-- C132: what an analysis that ends with a result costs lies between two numbers known before it is run. -/
theorem C132_range (c : Setup) (L : ℕ) (job : Job (m + 1)) {o : Out (m + 1)} {K : ℕ} (hr : (∀ e, o ≠ .raised e) ∧ o ≠ .nan)
    (hL : LevelsAtMost L o) (h : Price c job o K) : least c job ≤ K ∧ K ≤ most c L job := by
  obtain ⟨hr1, hr2⟩ := hr
  cases o with
  | raised e => exact absurd rfl (hr1 e)
  | nan => exact absurd rfl hr2
  | form r =>
    cases job <;> try exact h.elim
    obtain ⟨rfl, h1, h2⟩ := h
    exact ⟨formPrice_ge _ _ _ h1, formPrice_mono _ _ _ h2⟩
  | simulation r =>
    cases job <;> try exact h.elim
    · obtain ⟨rfl, h1⟩ := h
      exact ⟨Nat.zero_le _, h1⟩
    · obtain ⟨i, rfl, ⟨h1, h2⟩, h3⟩ := h
      exact ⟨le_trans (formPrice_ge _ _ _ h1) (Nat.le_add_right _ _), Nat.add_le_add (formPrice_mono _ _ _ h2) h3⟩
  | distribution a b =>
    cases job <;> try exact h.elim
    obtain rfl := h
    exact ⟨le_rfl, le_rfl⟩
  | subset r =>
    cases job <;> try exact h.elim
    obtain rfl := h
    exact ⟨Nat.zero_le _, Nat.mul_le_mul_left _ hL⟩
  | line r =>
    cases job <;> try exact h.elim
    obtain ⟨i, l, rfl, ⟨h1, h2⟩, h3, h4⟩ := h
    exact ⟨Nat.add_le_add (formPrice_ge _ _ _ h1) h3, Nat.add_le_add (formPrice_mono _ _ _ h2) h4⟩
  | sorm r =>
    cases job <;> try exact h.elim
    obtain ⟨i, j, rfl, ⟨h1, h2⟩, h3⟩ := h
    have h4 := formPrice_ge c (m + 1) ‹Form.Options› h1
    unfold least most
    dsimp only
    rcases h3 with ⟨rfl, rfl⟩ | ⟨rfl, h5, h6⟩
    · rw [if_pos rfl]
      exact ⟨Nat.add_le_add (formPrice_ge _ _ _ h1) le_rfl, Nat.add_le_add (formPrice_mono _ _ _ h2) le_rfl⟩
    · rw [if_neg (by decide), if_neg (by decide)]
      exact ⟨Nat.add_le_add (formPrice_ge _ _ _ h1) (Nat.mul_le_mul_right _ h5),
        Nat.add_le_add (formPrice_mono _ _ _ h2) (Nat.mul_le_mul_right _ h6)⟩

/-- C132: the budget of a session, known before it starts (up to the number of levels of its subset simulations). -/
theorem C132_budget {c : Setup} {g : Dict String ℝ → ℝ} (hp : Pointwise c.expr g) (hbs : 1 ≤ c.lsopt.blockSize) (hmp : c.lsopt.multiProc ≠ 0)
    {ev ev' : Ev Marginal} (hm : Reachable ev.model) (hn : ev.model.nMarg ≤ m + 1) (hne : ev.model.getNames ≠ []) (jobs : List (Job (m + 1)))
    (hs : ∀ job ∈ jobs, Sensible c job) {outs : List (Out (m + 1))} (h : session c jobs ev = some (ev', outs))
    (hr : ∀ o ∈ outs, (∀ e, o ≠ .raised e) ∧ o ≠ .nan) {L : ℕ} (hL : ∀ o ∈ outs, LevelsAtMost L o) :
    ev.model.callFunction + (jobs.map (least c)).sum ≤ ev'.model.callFunction ∧
      ev'.model.callFunction ≤ ev.model.callFunction + (jobs.map (most c L)).sum := by
  obtain ⟨Ks, h1, h2, h3⟩ := C132_session hp hbs hmp hm hn hne jobs hs h hr
  have key : ∀ (jobs : List (Job (m + 1))) (outs : List (Out (m + 1))) (Ks : List ℕ), outs.length = jobs.length →
      (∀ o ∈ outs, (∀ e, o ≠ .raised e) ∧ o ≠ .nan) → (∀ o ∈ outs, LevelsAtMost L o) →
      List.Forall₂ (fun p K => Price c p.1 p.2 K) (jobs.zip outs) Ks →
      (jobs.map (least c)).sum ≤ Ks.sum ∧ Ks.sum ≤ (jobs.map (most c L)).sum := by
    intro jobs
    induction jobs with
    | nil =>
      intro outs Ks _ _ _ h
      cases h
      simp
    | cons job jobs ih =>
      intro outs Ks hl hr hL h
      cases outs with
      | nil => simp at hl
      | cons o outs =>
        rw [List.zip_cons_cons] at h
        cases h with
        | cons h4 h5 =>
          obtain ⟨h6, h7⟩ := ih outs _ (by simpa using hl) (fun o ho => hr o (List.mem_cons_of_mem _ ho))
            (fun o ho => hL o (List.mem_cons_of_mem _ ho)) h5
          obtain ⟨h8, h9⟩ := C132_range c L job (hr o (by simp)) (hL o (by simp)) h4
          simp only [List.map_cons, List.sum_cons]
          exact ⟨Nat.add_le_add h8 h6, Nat.add_le_add h9 h7⟩
  obtain ⟨h4, h5⟩ := key jobs outs Ks h3 hr hL h2
  omega

/-- A concrete case: `g = R - S - 2T` with three normal variables; FORM, line sampling, SORM of both kinds, crude Monte Carlo and importance
sampling in one session, with the library's default options. -/
example {la : LinAlg} (hla : LinAlgOK la) {eig : (k : ℕ) → Matrix (Fin k) (Fin k) ℝ → List ℝ} (heig : EigOK (eig 2)) :
    ∃ (c : Setup) (marg : Fin 3 → Marginal), ∀ ω : ℕ → ℝ,
      let jobs : List (Job (2 + 1)) := [.form ⟨100, 0.001, 0.001, 0, 1⟩, .line ⟨100, 0.001, 0.001, 0, 1⟩ 100 ω,
        .sorm ⟨100, 0.001, 0.001, 0, 1⟩ 1000 "cf", .sorm ⟨100, 0.001, 0.001, 0, 1⟩ 1000 "pf", .crude ⟨1000, 100, 1, 0, 0⟩ none ω,
        .importance ⟨100, 0.001, 0.001, 1, 1⟩ ⟨1000, 100, 1, 0, 0⟩ ω]
      ∃ (ev' : Ev Marginal) (outs : List (Out (2 + 1))) (Ks : List ℕ),
        session c jobs ⟨normalModel !["R", "S", "T"] marg, []⟩ = some (ev', outs) ∧
        ev'.model.callFunction = (normalModel !["R", "S", "T"] marg).callFunction + Ks.sum ∧
        List.Forall₂ (fun p K => Price c p.1 p.2 K) (jobs.zip outs) Ks ∧ outs.length = 6 ∧
        4052 ≤ Ks.sum ∧ Ks.sum ≤ 16392 := by
  have hm : ∀ i : Fin 3, ∃ mm, Normal.new (![10, 3, 2] i) (.fin (![2, 1, 1] i : ℝ)) none = .ok mm := fun i => ⟨_, rfl⟩
  choose marg hmarg using hm
  obtain ⟨c, hc⟩ : ∃ c : Setup, c = ⟨fun _ x => x, marg 0, la, eig, .cholesky,
    vectorised (linearOf !["R", "S", "T"] 0 ![1, -1, -2]), ⟨"ffd", 1, 1000, 1000⟩, 1000⟩ := ⟨_, rfl⟩
  have hnd : Function.Injective !["R", "S", "T"] := by
    intro i j h
    fin_cases i <;> fin_cases j <;> simp_all
  have hsd : ∀ i : Fin 3, (0 : ℝ) < ![2, 1, 1] i := fun i => by fin_cases i <;> simp
  have hpw : Pointwise c.expr (linearOf !["R", "S", "T"] 0 ![1, -1, -2]) := by rw [hc]; exact vectorised_pointwise _
  obtain ⟨q1, q2, q3, -, -⟩ := normalModel_spec hnd marg (by norm_num)
  obtain ⟨est, -, h⟩ := C102_agree (c := c) (m := 2) (by rw [hc]; exact hla) (by rw [hc]; norm_num) (by rw [hc]; norm_num)
    (by rw [hc]; norm_num) (by rw [hc]; simp) (by rw [hc]; simp) hnd hsd hmarg (a0 := 0) (a := ![1, -1, -2])
    (by intro h; simpa using congrFun h 0) hpw
  have hsum : ∑ i : Fin 3, ((![1, -1, -2] : Fin 3 → ℝ) i * (![2, 1, 1] : Fin 3 → ℝ) i) ^ 2 = 3 ^ 2 := by
    simp [Fin.sum_univ_three]; norm_num
  have hmean : (0 : ℝ) + ∑ i : Fin 3, (![1, -1, -2] : Fin 3 → ℝ) i * (![10, 3, 2] : Fin 3 → ℝ) i = 3 := by
    simp [Fin.sum_univ_three]; norm_num
  have hF : ∀ st : ℝ, st = 0 ∨ st = 1 → GoodForm c ⟨100, 0.001, 0.001, st, 1⟩ := by
    rintro st (rfl | rfl)
    · exact ⟨by norm_num, by norm_num, by rw [hc]; norm_num, Or.inr ⟨rfl, rfl, by norm_num, by norm_num⟩⟩
    · exact ⟨by norm_num, by norm_num, by rw [hc]; norm_num, Or.inl ⟨rfl, by norm_num, by norm_num⟩⟩
  have hS : GoodSim c ⟨1000, 100, 1, 0, 0⟩ := ⟨rfl, by norm_num, by norm_num, by norm_num, le_rfl, by rw [hc]⟩
  have hlast : 1e-8 * √(∑ i : Fin 3, ((![1, -1, -2] : Fin 3 → ℝ) i * (![2, 1, 1] : Fin 3 → ℝ) i) ^ 2) <
      |(![1, -1, -2] : Fin 3 → ℝ) (Fin.last 2) * (![2, 1, 1] : Fin 3 → ℝ) (Fin.last 2)| := by
    rw [hsum, Real.sqrt_sq (by norm_num)]
    have : (Fin.last 2) = (2 : Fin 3) := rfl
    rw [this]
    simp
    norm_num
  have hcf : (Plan.sorm ⟨100, 0.001, 0.001, 0, 1⟩ 1000 "cf" : Plan 3).Good (m := 2) c 0 ![1, -1, -2] ![10, 3, 2] ![2, 1, 1] :=
    ⟨hF 0 (Or.inl rfl), by norm_num, by rw [hc], hlast, Or.inl ⟨rfl, by norm_num, by rw [hc]; exact heig⟩⟩
  have hpf : (Plan.sorm ⟨100, 0.001, 0.001, 0, 1⟩ 1000 "pf" : Plan 3).Good (m := 2) c 0 ![1, -1, -2] ![10, 3, 2] ![2, 1, 1] :=
    ⟨hF 0 (Or.inl rfl), by norm_num, by rw [hc], hlast,
      Or.inr ⟨rfl, by rw [hmean]; norm_num, by rw [hsum, Real.sqrt_sq (by norm_num)]; norm_num⟩⟩
  refine ⟨c, marg, fun ω => ?_⟩
  intro jobs
  obtain ⟨work, hwork⟩ : ∃ work : List (Plan 3 × (ℕ → ℝ)), work = [(.form ⟨100, 0.001, 0.001, 0, 1⟩, ω),
          (.line ⟨100, 0.001, 0.001, 0, 1⟩ 100, ω), (.sorm ⟨100, 0.001, 0.001, 0, 1⟩ 1000 "cf", ω),
          (.sorm ⟨100, 0.001, 0.001, 0, 1⟩ 1000 "pf", ω), (.crude ⟨1000, 100, 1, 0, 0⟩ none, ω),
          (.importance ⟨100, 0.001, 0.001, 1, 1⟩ ⟨1000, 100, 1, 0, 0⟩, ω)] := ⟨_, rfl⟩
  obtain ⟨ev', outs, h1, h2⟩ := h work (by
      intro w hw
      simp only [hwork, List.mem_cons, List.not_mem_nil, or_false] at hw
      rcases hw with rfl | rfl | rfl | rfl | rfl | rfl
      · exact hF 0 (Or.inl rfl)
      · exact ⟨hF 0 (Or.inl rfl), by norm_num⟩
      · exact hcf
      · exact hpf
      · exact hS
      · exact ⟨hF 1 (Or.inr rfl), hS⟩)
  have hjobs : (work.map fun w => w.1.job w.2) = jobs := by rw [hwork]; rfl
  rw [hjobs] at h1
  have hgood : ∀ o ∈ outs, (∀ e, o ≠ .raised e) ∧ o ≠ .nan := by
    intro o ho
    obtain ⟨i, hi, rfl⟩ := List.mem_iff_getElem.1 ho
    have h3 := (List.forall₂_iff_get.1 h2).2 i (by rw [h2.length_eq]; exact hi) hi
    simp only [List.get_eq_getElem] at h3
    revert h3
    generalize outs[i] = o
    generalize work[i]'_ = w
    obtain ⟨pl, ω'⟩ := w
    cases pl with
    | line fo N => rintro ⟨r, b, rfl, -⟩; exact ⟨fun e => by simp, by simp⟩
    | _ => rintro ⟨r, rfl, -⟩; exact ⟨fun e => by simp, by simp⟩
  have hsens : ∀ job ∈ jobs, Sensible c job := by
    intro job hj
    simp only [jobs, List.mem_cons, List.not_mem_nil, or_false] at hj
    rcases hj with rfl | rfl | rfl | rfl | rfl | rfl <;> (try trivial) <;> exact ⟨by norm_num, by rw [hc]; norm_num⟩
  have hlev : ∀ o ∈ outs, LevelsAtMost 0 o := by
    intro o ho
    obtain ⟨i, hi, rfl⟩ := List.mem_iff_getElem.1 ho
    have h3 := (List.forall₂_iff_get.1 h2).2 i (by rw [h2.length_eq]; exact hi) hi
    simp only [List.get_eq_getElem] at h3
    revert h3
    generalize outs[i] = o
    generalize work[i]'_ = w
    obtain ⟨pl, ω'⟩ := w
    cases pl with
    | line fo N => rintro ⟨r, b, rfl, -⟩; trivial
    | _ => rintro ⟨r, rfl, -⟩; trivial
  have hgp : gradPrice c (2 + 1) = 4 := by rw [hc]; rfl
  have hleast : (jobs.map (least c)).sum = 4052 := by
    simp [jobs, least, hgp]
  have hmost : (jobs.map (most c 0)).sum = 16392 := by
    simp [jobs, most, formPrice, hgp]
  obtain ⟨b1, b2⟩ := C132_budget (m := 2) hpw (by rw [hc]; norm_num) (by rw [hc]; norm_num)
    (ev := ⟨normalModel !["R", "S", "T"] marg, []⟩) q1 (by unfold StochModel.nMarg; dsimp only; rw [q3]; simp)
    (by unfold StochModel.getNames; dsimp only; rw [q2]; simp) jobs hsens h1 hgood hlev
  rw [hleast] at b1
  rw [hmost] at b2
  obtain ⟨Ks, k1, k2, k3⟩ := C132_session (m := 2) hpw (by rw [hc]; norm_num) (by rw [hc]; norm_num)
    (ev := ⟨normalModel !["R", "S", "T"] marg, []⟩) q1 (by unfold StochModel.nMarg; dsimp only; rw [q3]; simp)
    (by unfold StochModel.getNames; dsimp only; rw [q2]; simp) jobs hsens h1 hgood
  rw [k1] at b1 b2
  exact ⟨ev', outs, Ks, h1, k1, k2, k3, Nat.le_of_add_le_add_left b1, Nat.le_of_add_le_add_left b2⟩

end Pystra.Props
