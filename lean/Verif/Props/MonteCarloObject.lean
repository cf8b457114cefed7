import Verif.Spec.Objects
import Verif.Props.MonteCarloRerun
import Verif.Lemmas.MonteCarloObject
import Verif.Lemmas.PlotX

/-! C81: the life of a `CrudeMonteCarlo` or `ImportanceSampling` object. -/

namespace Pystra.Props
open Spec Transformation Form MonteCarlo

variable {σ : Type} {n : ℕ}

/-- `b` are the records of a used object when `a` are those of a new one. -/
structure RecOver (old a b : Records n) : Prop where
  allG : b.allG = old.allG ++ a.allG
  betaAll : b.betaAll = old.betaAll ++ a.betaAll
  uAll : keptEntries b.uAll = keptEntries old.uAll ++ keptEntries a.uAll
  none : a.xAll = .none ↔ a.uAll = .none
  xNew : old.xAll = .none → b.xAll = a.xAll
  xOld : old.xAll ≠ .none → b.xAll ≠ .none ∧ keptEntries b.xAll = keptEntries old.xAll ++ keptEntries a.uAll

theorem RecOver.step {old a b : Records n} (h : RecOver old a b) (us xs : List (Fin n → ℝ)) (G B : List ℝ) :
    RecOver old ⟨keep a.uAll us us, keep a.xAll xs us, a.allG ++ G, a.betaAll ++ B⟩
      ⟨keep b.uAll us us, keep b.xAll xs us, b.allG ++ G, b.betaAll ++ B⟩ := by
  refine ⟨?_, ?_, ?_, ?_, ?_, ?_⟩
  · simp only [h.allG, List.append_assoc]
  · simp only [h.betaAll, List.append_assoc]
  · simp only [keptEntries_keep, h.uAll, List.append_assoc]
  · simp [keep_ne_none]
  · intro ho
    simp only [h.xNew ho]
  · intro ho
    obtain ⟨h1, h2⟩ := h.xOld ho
    exact ⟨keep_ne_none _ _ _, by simp only [keptEntries_keep_some h1, keptEntries_keep, h2, List.append_assoc]⟩

/-- `b` is what a run makes of the used object `old` when it makes `a` of a new one. -/
structure McOver (old a b : McObj.Obj n) : Prop where
  valid : b.resultsValid = (a.resultsValid || old.resultsValid)
  transform : b.transform = a.transform.or old.transform
  k : b.k = a.k.or old.k
  blockSize : b.blockSize = a.blockSize.or old.blockSize
  sumQ : b.sumQ = a.sumQ.or old.sumQ
  sumQ2 : b.sumQ2 = a.sumQ2.or old.sumQ2
  qBar : b.qBar = a.qBar.or old.qBar
  cov : b.cov = a.cov.or old.cov
  Pf : b.Pf = a.Pf.or old.Pf
  beta : b.beta = a.beta.or old.beta
  recs : RecOver old.records a.records b.records

/-- The loop has been entered. -/
structure InLoop (a : McObj.Obj n) : Prop where
  k : a.k.isSome
  sumQ : a.sumQ.isSome
  sumQ2 : a.sumQ2.isSome
  qBar : a.qBar.isSome
  cov : a.cov.isSome

theorem or_of_isSome {α : Type} {a b : Option α} (h : a.isSome) : a.or b = a := by
  cases a <;> simp_all

theorem McOver.eqs {old a b : McObj.Obj n} (h : McOver old a b) (hl : InLoop a) :
    b.k = a.k ∧ b.sumQ = a.sumQ ∧ b.sumQ2 = a.sumQ2 ∧ b.qBar = a.qBar ∧ b.cov = a.cov :=
  ⟨by rw [h.k, or_of_isSome hl.k], by rw [h.sumQ, or_of_isSome hl.sumQ], by rw [h.sumQ2, or_of_isSome hl.sumQ2],
    by rw [h.qBar, or_of_isSome hl.qBar], by rw [h.cov, or_of_isSome hl.cov]⟩

theorem pass_over {t : Mats n} {marg : Fin n → Marginal} {ev : Evaluator σ n} {opt : MonteCarlo.Options}
    (hg : opt.randomGenerator = 0) {c : Fin n → ℝ} {ω : ℕ → ℝ} {old a b : McObj.Obj n} (h : McOver old a b) (hl : InLoop a)
    (s : σ) (pos : ℕ) :
    let p := McObj.pass t marg ev opt c ω a s pos
    let q := McObj.pass t marg ev opt c ω b s pos
    q.2 = p.2 ∧ McOver old p.1 q.1 ∧ InLoop p.1 := by
  obtain ⟨ek, e1, e2, e3, e4⟩ := h.eqs hl
  intro p q
  simp only [p, q, McObj.pass, McObj.draw, hg, if_true, ek]
  obtain ⟨us, hus⟩ : ∃ us, us = (randn ω n (min opt.blockSize (opt.samples - a.k.getD 0)) pos).map
    (fun z => fun r => c r + opt.stdv * z r) := ⟨_, rfl⟩
  simp only [← hus]
  obtain ⟨m, hm⟩ : ∃ m, m = min opt.blockSize (opt.samples - a.k.getD 0) := ⟨_, rfl⟩
  simp only [← hm]
  have h1 : McOver old { a with blockSize := some m, k := some (a.k.getD 0 + m), u := some us }
      { b with blockSize := some m, k := some (a.k.getD 0 + m), u := some us } :=
    ⟨h.valid, h.transform, rfl, rfl, h.sumQ, h.sumQ2, h.qBar, h.cov, h.Pf, h.beta, h.recs⟩
  have h2 : InLoop { a with blockSize := some m, k := some (a.k.getD 0 + m), u := some us } :=
    ⟨rfl, hl.sumQ, hl.sumQ2, hl.qBar, hl.cov⟩
  by_cases hlen : us.length < m
  · simp only [if_pos hlen]
    exact ⟨trivial, h1, h2⟩
  simp only [if_neg hlen]
  rcases hv : ev.values s ((us.take m).map (uToX t marg)) with ⟨s', e | G⟩
  · exact ⟨rfl, h1, h2⟩
  dsimp only
  by_cases hx : us.length ≠ m ∧ m ≠ 1
  · simp only [if_pos hx]
    exact ⟨trivial, h1, h2⟩
  simp only [if_neg hx]
  refine ⟨trivial, ?_, ?_⟩
  · simp only [McObj.update, e1, e2, e3, e4]
    exact ⟨h.valid, h.transform, rfl, rfl, rfl, rfl, rfl, rfl, h.Pf, h.beta, h.recs.step _ _ _ _⟩
  · exact ⟨rfl, rfl, rfl, rfl, rfl⟩

theorem mcLoop_over {t : Mats n} {marg : Fin n → Marginal} {ev : Evaluator σ n} {opt : MonteCarlo.Options}
    (hg : opt.randomGenerator = 0) {c : Fin n → ℝ} {ω : ℕ → ℝ} {old : McObj.Obj n} (fuel : ℕ) :
    ∀ {a b : McObj.Obj n} (s : σ) (pos : ℕ), McOver old a b → InLoop a →
    match McObj.loop t marg ev opt c ω fuel a s pos with
    | none => McObj.loop t marg ev opt c ω fuel b s pos = none
    | some (a', r) => InLoop a' ∧ ∃ b', McObj.loop t marg ev opt c ω fuel b s pos = some (b', r) ∧ McOver old a' b' := by
  induction fuel with
  | zero =>
    intro a b s pos h hl
    unfold McObj.loop
    rw [(h.eqs hl).1]
    by_cases hk : a.k.getD 0 < opt.samples
    · simp only [if_pos hk]
    · simp only [if_neg hk]
      exact ⟨hl, b, rfl, h⟩
  | succ fuel ih =>
    intro a b s pos h hl
    unfold McObj.loop
    rw [(h.eqs hl).1]
    by_cases hk : a.k.getD 0 < opt.samples
    · simp only [if_pos hk]
      have hp := pass_over (t := t) (marg := marg) (ev := ev) hg (c := c) (ω := ω) h hl s pos
      rcases ha : McObj.pass t marg ev opt c ω a s pos with ⟨a1, s1, pos1, x⟩
      rcases hb : McObj.pass t marg ev opt c ω b s pos with ⟨b1, r1⟩
      rw [ha, hb] at hp
      obtain ⟨hr, hov, hin⟩ := hp
      dsimp only at hr hov hin
      subst hr
      cases x with
      | error e => exact ⟨hin, b1, rfl, hov⟩
      | ok u =>
        dsimp only
        have hc : McObj.converged opt b1 = McObj.converged opt a1 := by
          obtain ⟨ek, -, -, -, e4⟩ := hov.eqs hin
          simp only [McObj.converged, ek, e4]
        rw [hc]
        cases McObj.converged opt a1
        · exact ih s1 pos1 hov hin
        · exact ⟨hin, b1, rfl, hov⟩
    · simp only [if_neg hk]
      exact ⟨hl, b, rfl, h⟩

theorem finish_over {old a b : McObj.Obj n} (h : McOver old a b) (hl : InLoop a) :
    McOver old (McObj.finishObj a) (McObj.finishObj b) := by
  obtain ⟨ek, e1, e2, e3, e4⟩ := h.eqs hl
  simp only [McObj.finishObj, ek, e1, e3]
  exact ⟨h.valid, h.transform, ek ▸ h.k, h.blockSize, e1 ▸ h.sumQ, h.sumQ2, e3 ▸ h.qBar, h.cov, rfl, rfl, h.recs⟩

theorem recOver_fresh (r : Records n) : RecOver r Records.fresh r :=
  ⟨by simp [Records.fresh], by simp [Records.fresh], by simp [Records.fresh, keptEntries], by simp [Records.fresh],
    fun h => by rw [h]; rfl, fun h => ⟨h, by simp [Records.fresh, keptEntries]⟩⟩

/-- The centre used by a run of the object is that of a new object with `point`. -/
def SameCentre (point : Option (Fin n → ℝ)) (o : McObj.Obj n) : Prop := o.point.getD (fun _ => 0) = point.getD (fun _ => 0)

theorem loop_point {t : Mats n} {marg : Fin n → Marginal} {ev : Evaluator σ n} {opt : MonteCarlo.Options} {c : Fin n → ℝ} {ω : ℕ → ℝ}
    (fuel : ℕ) : ∀ {a a' : McObj.Obj n} {s s' : σ} {pos pos' : ℕ} {x}, McObj.loop t marg ev opt c ω fuel a s pos = some (a', s', pos', x) →
    a'.point = a.point ∧ a'.resultsValid = a.resultsValid := by
  have hpass : ∀ (a : McObj.Obj n) (s : σ) (pos : ℕ), (McObj.pass t marg ev opt c ω a s pos).1.point = a.point ∧
      (McObj.pass t marg ev opt c ω a s pos).1.resultsValid = a.resultsValid := by
    intro a s pos
    unfold McObj.pass
    dsimp only
    rcases hd : (McObj.draw opt c ω (min opt.blockSize (opt.samples - a.k.getD 0)) a.u pos) with ⟨_ | us, p⟩
    · exact ⟨rfl, rfl⟩
    · dsimp only
      split
      · exact ⟨rfl, rfl⟩
      · rcases hv : ev.values s ((us.take (min opt.blockSize (opt.samples - a.k.getD 0))).map (uToX t marg)) with ⟨s', e | G⟩
        · exact ⟨rfl, rfl⟩
        · dsimp only
          split <;> exact ⟨rfl, rfl⟩
  induction fuel with
  | zero =>
    intro a a' s s' pos pos' x h
    unfold McObj.loop at h
    split at h
    · cases h
    · cases h; exact ⟨rfl, rfl⟩
  | succ fuel ih =>
    intro a a' s s' pos pos' x h
    unfold McObj.loop at h
    split at h
    · have := hpass a s pos
      rcases hp : McObj.pass t marg ev opt c ω a s pos with ⟨a1, s1, p1, e | u⟩ <;> rw [hp] at h this <;> dsimp only at h this
      · cases h; exact this
      · split at h
        · cases h; exact this
        · rw [(ih h).1, (ih h).2]; exact this
    · cases h; exact ⟨rfl, rfl⟩

/-- The object when the loop is entered. -/
noncomputable def mcEntered (st : McObj.Settings) (t : Mats n) (point : Option (Fin n → ℝ)) (o : McObj.Obj n) : McObj.Obj n :=
  let N := st.opt.samples
  ⟨true, some t, some (point.getD (fun _ => 0)), some 0, o.blockSize, o.u, some 0, some 0, some (List.replicate N 0),
    some ((List.replicate N none).set 0 (some 1)), o.Pf, o.beta, o.records⟩

/-- One run up to the report: a used object against a new one. -/
theorem body_over {st : McObj.Settings} (hg : st.opt.randomGenerator = 0) (ω : ℕ → ℝ) {point : Option (Fin n → ℝ)} {old b0 : McObj.Obj n}
    (hc : SameCentre point b0) {a0 : McObj.Obj n} (ha0 : McOver old a0 b0) (hp0 : a0.point = point) (ev : Ev Marginal) (pos : ℕ) :
    match McObj.body st ω a0 ev pos with
    | none => McObj.body st ω b0 ev pos = none
    | some (a, r) => ∃ b, McObj.body st ω b0 ev pos = some (b, r) ∧ McOver old a b ∧ SameCentre point b ∧
        a.resultsValid = true := by
  unfold McObj.body
  dsimp only
  rcases hI : Session.initRun st.c n ev with ⟨ev1, e | t⟩
  · dsimp only
    exact ⟨_, rfl, ⟨by simp, ha0.transform, ha0.k, ha0.blockSize, ha0.sumQ, ha0.sumQ2, ha0.qBar, ha0.cov, ha0.Pf, ha0.beta,
      ha0.recs⟩, hc, rfl⟩
  dsimp only
  unfold McObj.simulate McObj.initialise
  dsimp only
  rw [hp0, show b0.point.getD (fun _ => 0) = point.getD (fun _ => 0) from hc]
  by_cases hs : st.opt.stdv = 0
  · simp only [if_pos hs]
    exact ⟨_, rfl, ⟨by simp, by simp, ha0.k, ha0.blockSize, ha0.sumQ, ha0.sumQ2, ha0.qBar, ha0.cov, ha0.Pf, ha0.beta,
      ha0.recs⟩, rfl, trivial⟩
  simp only [if_neg hs]
  by_cases hN : st.opt.samples = 0
  · simp only [if_pos hN]
    exact ⟨_, rfl, ⟨by simp, by simp, ha0.k, ha0.blockSize, rfl, rfl, rfl, rfl, ha0.Pf, ha0.beta,
      ha0.recs⟩, rfl, trivial⟩
  simp only [if_neg hN]
  obtain ⟨A, hA⟩ : ∃ A, A = mcEntered st t point a0 := ⟨_, rfl⟩
  obtain ⟨B, hB⟩ : ∃ B, B = mcEntered st t point b0 := ⟨_, rfl⟩
  have hover : McOver old A B := by
    rw [hA, hB]
    exact ⟨rfl, rfl, rfl, ha0.blockSize, rfl, rfl, rfl, rfl, ha0.Pf, ha0.beta, ha0.recs⟩
  have hin : InLoop A := by rw [hA]; exact ⟨rfl, rfl, rfl, rfl, rfl⟩
  have hl := mcLoop_over (t := t) (marg := Session.margN n st.c.default ev1.model) (ev := Session.evaluator st.c n ev1.model) hg
    (c := point.getD (fun _ => 0)) (ω := ω) st.c.fuel ev1 pos hover hin
  have hval : A.resultsValid = true := by rw [hA]; rfl
  have hpt : B.point = some (point.getD (fun _ => 0)) := by rw [hB]; rfl
  unfold mcEntered at hA hB
  rw [← hA, ← hB]
  rcases hla : McObj.loop t (Session.margN n st.c.default ev1.model) (Session.evaluator st.c n ev1.model) st.opt
    (point.getD (fun _ => 0)) ω st.c.fuel A ev1 pos with _ | ⟨a, s, p, e | u⟩ <;> rw [hla] at hl <;> dsimp only at hl
  · rw [hl]
  · obtain ⟨hin', b, hb, hov⟩ := hl
    rw [hb]
    exact ⟨b, rfl, hov, by rw [SameCentre, (loop_point _ hb).1, hpt]; rfl, (loop_point _ hla).2.trans hval⟩
  · obtain ⟨hin', b, hb, hov⟩ := hl
    rw [hb]
    exact ⟨_, rfl, finish_over hov hin', by
      rw [SameCentre, show (McObj.finishObj b).point = b.point from rfl, (loop_point _ hb).1, hpt]; rfl,
      (loop_point _ hla).2.trans hval⟩

theorem mcOver_fresh (point : Option (Fin n → ℝ)) (old : McObj.Obj n) : McOver old (McObj.fresh point) old :=
  ⟨rfl, rfl, rfl, rfl, rfl, rfl, rfl, rfl, rfl, rfl, recOver_fresh _⟩

/-- What a run leaves is the same with and without the report. -/
theorem report_false (kind : McObj.Kind) (r : Option (McObj.Obj n × Ev Marginal × ℕ × Except PyErr Unit)) :
    McObj.report kind false r = r := by
  rcases r with _ | ⟨o, ev, pos, e | u⟩ <;> rfl

/-- One run: a used object against a new one. -/
theorem mcRun_over (kind : McObj.Kind) {st : McObj.Settings} (hg : st.opt.randomGenerator = 0) (ω : ℕ → ℝ) {point : Option (Fin n → ℝ)}
    {old : McObj.Obj n} (hc : SameCentre point old) (ev : Ev Marginal) (pos : ℕ) :
    match mcAlone kind st ω point ev pos with
    | none => McObj.run kind st ω old ev pos = none
    | some (a, ev', pos', r) => ∃ b, McObj.run kind st ω old ev pos = some (b, ev', pos',
          match r with | .error e => .error e | .ok _ => McObj.printed kind st.print b) ∧
        McOver old a b ∧ SameCentre point b ∧ a.resultsValid = true := by
  unfold mcAlone McObj.run
  cases kind with
  | crude =>
    simp only [report_false]
    have h := body_over (st := st) hg ω hc (mcOver_fresh point old) rfl ev pos
    have hb : McObj.body { st with print := false } ω (McObj.fresh point) ev pos = McObj.body st ω (McObj.fresh point) ev pos := rfl
    rw [hb]
    rcases ha : McObj.body st ω (McObj.fresh point) ev pos with _ | ⟨a, ev', pos', e | u⟩ <;> rw [ha] at h <;> dsimp only at h ⊢
    · rw [h]; rfl
    · obtain ⟨b, h1, h2⟩ := h
      exact ⟨b, by rw [h1]; rfl, h2⟩
    · obtain ⟨b, h1, h2⟩ := h
      exact ⟨b, by rw [h1]; rfl, h2⟩
  | importance =>
    simp only [report_false]
    rcases hI : Session.initRun st.c n ev with ⟨ev1, e | t⟩
    · exact ⟨_, rfl, ⟨rfl, rfl, rfl, rfl, rfl, rfl, rfl, rfl, rfl, rfl, recOver_fresh _⟩, hc, rfl⟩
    dsimp only
    obtain ⟨a0, ha0⟩ : ∃ a0 : McObj.Obj n, a0 = { McObj.fresh point with resultsValid := true, transform := some t } := ⟨_, rfl⟩
    obtain ⟨b0, hb0⟩ : ∃ b0 : McObj.Obj n, b0 = { old with resultsValid := true, transform := some t } := ⟨_, rfl⟩
    have hov : McOver old a0 b0 := by
      rw [ha0, hb0]
      exact ⟨rfl, rfl, rfl, rfl, rfl, rfl, rfl, rfl, rfl, rfl, recOver_fresh _⟩
    rw [← ha0, ← hb0]
    have h := body_over (st := st) hg ω (point := point) (b0 := b0) (by rw [hb0]; exact hc) hov (by rw [ha0]; rfl) ev1 pos
    have hb : McObj.body { st with print := false } ω a0 ev1 pos = McObj.body st ω a0 ev1 pos := rfl
    rw [hb]
    rcases ha : McObj.body st ω a0 ev1 pos with _ | ⟨a, ev', pos', e | u⟩ <;> rw [ha] at h <;> dsimp only at h ⊢
    · rw [h]; rfl
    · obtain ⟨b, h1, h2⟩ := h
      exact ⟨b, by rw [h1]; rfl, h2⟩
    · obtain ⟨b, h1, h2⟩ := h
      exact ⟨b, by rw [h1]; rfl, h2⟩

theorem lastWritten_cons {α β : Type} (f : α → Option β) (a : α) (l : List α) :
    lastWritten f (a :: l) = (lastWritten f l).or (f a) := by
  unfold lastWritten
  cases h : f a with
  | none => simp [List.filterMap_cons, h]
  | some b =>
    simp only [List.filterMap_cons, h]
    rcases hl : (l.filterMap f) with _ | ⟨c, cs⟩
    · simp
    · simp [List.getLast?_cons_cons, List.getLast?_cons]

theorem lastWritten_append {α β : Type} (f : α → Option β) (l l' : List α) :
    lastWritten f (l ++ l') = (lastWritten f l').or (lastWritten f l) := by
  unfold lastWritten
  rw [List.filterMap_append, List.getLast?_append]

/-- The entries of `x_all` after the runs `l` of a new object: the physical samples of the first block, of everything after it the
samples in standard space. -/
def xRecord : List (McObj.Obj n × Except PyErr Unit) → List ℝ
  | [] => []
  | (a, _) :: l =>
    match a.records.xAll with
    | .none => xRecord l
    | x => keptEntries x ++ l.flatMap (fun r => keptEntries r.1.records.uAll)

theorem xRecord_cons {a : McObj.Obj n} {x} {l} (h : a.records.xAll ≠ .none) :
    xRecord ((a, x) :: l) = keptEntries a.records.xAll ++ l.flatMap (fun r => keptEntries r.1.records.uAll) := by
  rw [xRecord]
  split
  · rename_i h'; exact absurd h' h
  · rfl

/-- What the runs `l`, each taken on its own, make of the object `old`. -/
structure McAfter (old : McObj.Obj n) (l : List (McObj.Obj n × Except PyErr Unit)) (o : McObj.Obj n) : Prop where
  valid : o.resultsValid = (!l.isEmpty || old.resultsValid)
  k : o.k = (lastWritten (fun r => r.1.k) l).or old.k
  blockSize : o.blockSize = (lastWritten (fun r => r.1.blockSize) l).or old.blockSize
  qBar : o.qBar = (lastWritten (fun r => r.1.qBar) l).or old.qBar
  cov : o.cov = (lastWritten (fun r => r.1.cov) l).or old.cov
  Pf : o.Pf = (lastWritten (fun r => r.1.Pf) l).or old.Pf
  beta : o.beta = (lastWritten (fun r => r.1.beta) l).or old.beta
  allG : o.records.allG = old.records.allG ++ l.flatMap (fun r => r.1.records.allG)
  betaAll : o.records.betaAll = old.records.betaAll ++ l.flatMap (fun r => r.1.records.betaAll)
  uAll : keptEntries o.records.uAll = keptEntries old.records.uAll ++ l.flatMap (fun r => keptEntries r.1.records.uAll)
  xNew : old.records.xAll = .none → keptEntries o.records.xAll = xRecord l
  xOld : old.records.xAll ≠ .none →
    keptEntries o.records.xAll = keptEntries old.records.xAll ++ l.flatMap (fun r => keptEntries r.1.records.uAll)

theorem mcHistory_from (kind : McObj.Kind) (ω : ℕ → ℝ) {point : Option (Fin n → ℝ)} (h : List McObj.Event)
    (hg : ∀ st, .run st ∈ h → st.opt.randomGenerator = 0) : ∀ (old : McObj.Obj n), SameCentre point old →
    ∀ (ev ev' : Ev Marginal) (pos pos' : ℕ) (outs), mcRuns kind ω point h ev pos = some (ev', pos', outs) →
    ∃ o, McObj.history kind ω h old ev pos = some (o, ev', pos') ∧ McAfter old outs o := by
  induction h with
  | nil =>
    intro old hc ev ev' pos pos' outs hh
    simp only [mcRuns, Option.some.injEq, Prod.mk.injEq] at hh
    obtain ⟨rfl, rfl, rfl⟩ := hh
    exact ⟨old, rfl, ⟨by simp, by simp [lastWritten], by simp [lastWritten], by simp [lastWritten], by simp [lastWritten],
      by simp [lastWritten], by simp [lastWritten], by simp, by simp, by simp, fun h => by rw [h]; rfl, fun _ => by simp⟩⟩
  | cons e h ih =>
    intro old hc ev ev' pos pos' outs hh
    have ih := ih (fun st hm => hg st (List.mem_cons_of_mem _ hm))
    cases e with
    | world f k => exact ih old hc (f ev) ev' (pos + k) pos' outs hh
    | run st =>
      have hr := mcRun_over kind (hg st List.mem_cons_self) ω hc ev pos
      simp only [mcRuns] at hh
      rcases ha : mcAlone kind st ω point ev pos with _ | ⟨a, ev1, pos1, r⟩
      · rw [ha] at hh; cases hh
      · rw [ha] at hh hr
        dsimp only at hh hr
        obtain ⟨b, hb, hov, hcb, hv⟩ := hr
        rcases hm : mcRuns kind ω point h ev1 pos1 with _ | ⟨ev2, pos2, l⟩
        · rw [hm] at hh; cases hh
        rw [hm] at hh
        simp only [Option.map_some, Option.some.injEq, Prod.mk.injEq] at hh
        obtain ⟨rfl, rfl, rfl⟩ := hh
        obtain ⟨o, ho, hA⟩ := ih b hcb ev1 ev2 pos1 pos2 l hm
        refine ⟨o, ?_, ?_⟩
        · simp only [McObj.history, hb]
          exact ho
        · constructor
          · rw [hA.valid, hov.valid, hv]; simp
          · rw [hA.k, hov.k, lastWritten_cons, Option.or_assoc]
          · rw [hA.blockSize, hov.blockSize, lastWritten_cons, Option.or_assoc]
          · rw [hA.qBar, hov.qBar, lastWritten_cons, Option.or_assoc]
          · rw [hA.cov, hov.cov, lastWritten_cons, Option.or_assoc]
          · rw [hA.Pf, hov.Pf, lastWritten_cons, Option.or_assoc]
          · rw [hA.beta, hov.beta, lastWritten_cons, Option.or_assoc]
          · rw [hA.allG, hov.recs.allG]; simp
          · rw [hA.betaAll, hov.recs.betaAll]; simp
          · rw [hA.uAll, hov.recs.uAll]; simp
          · intro hx
            have hbx := hov.recs.xNew hx
            by_cases hax : a.records.xAll = .none
            · rw [hA.xNew (hbx.trans hax), xRecord, hax]
            · rw [hA.xOld (hbx ▸ hax), xRecord_cons hax, hbx]
          · intro hx
            obtain ⟨h1, h2⟩ := hov.recs.xOld hx
            rw [hA.xOld h1, h2]
            simp

/-- An object on which no run has written anything but the flag and the transformation. -/
def McNew (a : McObj.Obj n) : Prop :=
  a.k = none ∧ a.blockSize = none ∧ a.qBar = none ∧ a.cov = none ∧ a.Pf = none ∧ a.beta = none ∧ a.records = Records.fresh

/-- A run that raised, on a new object: before the loop (nothing written, or empty arrays), or in the block that starts after `K`
samples. -/
def McRaised (opt : MonteCarlo.Options) (V : ℕ → ℝ × ℝ → Prop) (a : McObj.Obj n) : Prop :=
  a.Pf = none ∧ a.beta = none ∧
  ((a.k = none ∧ a.blockSize = none ∧ (a.qBar = none ∧ a.cov = none ∨ a.qBar = some [] ∧ a.cov = some [])) ∨
   ∃ K, McObj.ArrO opt.blockSize opt.samples V K a ∧ K < opt.samples ∧ opt.blockSize ∣ K ∧
        a.k = some (K + min opt.blockSize (opt.samples - K)) ∧ a.blockSize = some (min opt.blockSize (opt.samples - K)))

/-- A completed run on a new object. -/
def McDone (opt : MonteCarlo.Options) (V : ℕ → ℝ × ℝ → Prop) (a : McObj.Obj n) (r : MonteCarlo.Result (Ev Marginal) n) : Prop :=
  a.Pf = some r.Pf ∧ a.beta = some r.beta ∧ McObj.Rep a r.st ∧ McObj.ArrO opt.blockSize opt.samples V r.st.k a ∧
    1 ≤ r.st.k ∧ r.st.k ≤ opt.samples ∧ McObj.Last opt.blockSize opt.samples a r.st

/-- One run on a new object, compared with the simulation of C36–C38. -/
theorem body_rep {st : McObj.Settings} (hg : st.opt.randomGenerator = 0) (hb : 1 ≤ st.opt.blockSize) (ω : ℕ → ℝ)
    {point : Option (Fin n → ℝ)} {a0 : McObj.Obj n} (h0 : McNew a0) (hp0 : a0.point = point) (ev : Ev Marginal) (pos : ℕ)
    {V : ℕ → ℝ × ℝ → Prop} {I : MonteCarlo.State (Ev Marginal) n → Prop}
    (hV : ∀ t ev1, Session.initRun st.c n ev = (ev1, .ok t) →
      I ⟨0, pos, 0, 0, 0, 1, .none, .none, [], [], ev1⟩ ∧ ∀ s s', I s → s.k < st.opt.samples →
        block t (Session.margN n st.c.default ev1.model) (Session.evaluator st.c n ev1.model) st.opt (point.getD (fun _ => 0)) ω s =
          .ok s' → I s' ∧ V s'.k (s'.qBar, s'.covQBar)) :
    match Session.initRun st.c n ev with
    | (ev1, .error e) => ∃ a, McObj.body st ω a0 ev pos = some (a, ev1, pos, .error e) ∧ McRaised st.opt V a
    | (ev1, .ok t) =>
      match MonteCarlo.run t (Session.margN n st.c.default ev1.model) (Session.evaluator st.c n ev1.model) st.opt point ω pos
        st.c.fuel ev1 with
      | none => McObj.body st ω a0 ev pos = none
      | some (.error (e, ev2)) => ∃ a pos', McObj.body st ω a0 ev pos = some (a, ev2, pos', .error e) ∧ McRaised st.opt V a
      | some (.ok r) => ∃ a, McObj.body st ω a0 ev pos = some (a, r.st.s, r.st.pos, .ok ()) ∧ McDone st.opt V a r ∧ I r.st := by
  obtain ⟨z1, z2, z3, z4, z5, z6, z7⟩ := h0
  unfold McObj.body
  dsimp only
  rcases hI : Session.initRun st.c n ev with ⟨ev1, e | t⟩
  · exact ⟨_, rfl, z5, z6, Or.inl ⟨z1, z2, Or.inl ⟨z3, z4⟩⟩⟩
  dsimp only
  obtain ⟨hI0, hVV⟩ := hV t ev1 hI
  unfold McObj.simulate McObj.initialise MonteCarlo.run runOn
  dsimp only
  rw [hp0]
  by_cases hs : st.opt.stdv = 0
  · simp only [if_pos hs]
    exact ⟨_, _, rfl, z5, z6, Or.inl ⟨z1, z2, Or.inl ⟨z3, z4⟩⟩⟩
  simp only [if_neg hs]
  by_cases hN : st.opt.samples = 0
  · simp only [if_pos hN]
    refine ⟨_, _, rfl, z5, z6, Or.inl ⟨z1, z2, Or.inr ⟨by simp [hN], rfl⟩⟩⟩
  simp only [if_neg hN]
  obtain ⟨A, hA⟩ : ∃ A, A = mcEntered st t point a0 := ⟨_, rfl⟩
  have hrep : McObj.Rep A (⟨0, pos, 0, 0, 0, 1, .none, .none, [], [], ev1⟩ : MonteCarlo.State (Ev Marginal) n) := by
    rw [hA]
    exact ⟨rfl, rfl, rfl, z7⟩
  have harr : McObj.ArrO st.opt.blockSize st.opt.samples V 0 A := by
    rw [hA]
    exact ⟨_, _, rfl, rfl, McObj.Arr.init _ _⟩
  have hl := McObj.loop_rep (t := t) (marg := Session.margN n st.c.default ev1.model) (ev := Session.evaluator st.c n ev1.model)
    (point := point.getD (fun _ => 0)) (ω := ω) hg hb hVV st.c.fuel hrep harr hI0 (Nat.zero_le _) (Or.inl (dvd_zero _)) (Or.inl rfl)
  have hPf : A.Pf = none := by rw [hA]; exact z5
  have hbeta : A.beta = none := by rw [hA]; exact z6
  unfold mcEntered at hA
  rw [← hA]
  simp only [Records.fresh]
  rcases hml : MonteCarlo.loop t (Session.margN n st.c.default ev1.model) (Session.evaluator st.c n ev1.model) st.opt
    (point.getD (fun _ => 0)) ω st.c.fuel ⟨0, pos, 0, 0, 0, 1, .none, .none, [], [], ev1⟩ with _ | ⟨e, s⟩ | s <;>
    rw [hml] at hl <;> dsimp only at hl ⊢
  · rw [hl]
  · obtain ⟨o', pos', K, g1, g2, g3, g4, g5, g6, g7, g8⟩ := hl
    rw [g1]
    exact ⟨o', pos', rfl, g2.trans hPf, g3.trans hbeta, Or.inr ⟨K, g4, g5, g6, g7, g8⟩⟩
  · obtain ⟨o', g1, g2, g3, g4, g5, g6, g7, g8, g9, g10⟩ := hl
    rw [g1]
    have h1 : 1 ≤ s.k := g9 (Nat.pos_of_ne_zero hN)
    have hL : McObj.Last st.opt.blockSize st.opt.samples o' s := g10.resolve_left (by omega)
    refine ⟨_, rfl, ⟨?_, ?_, ⟨g4.k, g4.sumQ, g4.sumQ2, g4.records⟩, g5, h1, g7, ⟨hL.block, hL.q, hL.c⟩⟩, g6⟩
    all_goals
      obtain ⟨q, c, hq, hc, -⟩ := g5
      have hqk := hL.q q hq
      simp only [McObj.finishObj, MonteCarlo.finish, g4.sumQ, g4.k, hq, Option.getD_some, List.getD, hqk]

/-- How a run taken on its own ended. -/
def McFact (x : McObj.Obj n × Except PyErr Unit) : Prop :=
  ∃ opt : MonteCarlo.Options, 1 ≤ opt.blockSize ∧
    match x.2 with
    | .error _ => McRaised opt (fun _ _ => True) x.1
    | .ok _ => ∃ r, McDone opt (fun _ _ => True) x.1 r

theorem body_fact {st : McObj.Settings} (hg : st.opt.randomGenerator = 0) (hb : 1 ≤ st.opt.blockSize) (ω : ℕ → ℝ)
    {a0 : McObj.Obj n} (h0 : McNew a0) (ev : Ev Marginal) (pos : ℕ) {a : McObj.Obj n} {ev' pos' x}
    (h : McObj.body st ω a0 ev pos = some (a, ev', pos', x)) : McFact (a, x) := by
  have hr := body_rep hg hb ω h0 rfl ev pos (V := fun _ _ => True) (I := fun _ => True)
    (fun _ _ _ => ⟨trivial, fun _ _ _ _ _ => ⟨trivial, trivial⟩⟩)
  refine ⟨st.opt, hb, ?_⟩
  rcases hI : Session.initRun st.c n ev with ⟨ev1, e | t⟩ <;> rw [hI] at hr <;> dsimp only at hr
  · obtain ⟨a', h1, h2⟩ := hr
    rw [h] at h1
    cases h1
    exact h2
  · rcases hm : MonteCarlo.run t (Session.margN n st.c.default ev1.model) (Session.evaluator st.c n ev1.model) st.opt a0.point ω pos
        st.c.fuel ev1 with _ | ⟨e, s⟩ | r <;> rw [hm] at hr <;> dsimp only at hr
    · rw [h] at hr; cases hr
    · obtain ⟨a', p, h1, h2⟩ := hr
      rw [h] at h1
      cases h1
      exact h2
    · obtain ⟨a', h1, h2, -⟩ := hr
      rw [h] at h1
      cases h1
      exact ⟨r, h2⟩

theorem mcAlone_fact (kind : McObj.Kind) {st : McObj.Settings} (hg : st.opt.randomGenerator = 0) (hb : 1 ≤ st.opt.blockSize) (ω : ℕ → ℝ)
    {point : Option (Fin n → ℝ)} (ev : Ev Marginal) (pos : ℕ) {a : McObj.Obj n} {ev' pos' x}
    (h : mcAlone kind st ω point ev pos = some (a, ev', pos', x)) : McFact (a, x) := by
  unfold mcAlone McObj.run at h
  cases kind with
  | crude =>
    simp only [report_false] at h
    exact body_fact (st := { st with print := false }) hg hb ω ⟨rfl, rfl, rfl, rfl, rfl, rfl, rfl⟩ ev pos h
  | importance =>
    simp only [report_false] at h
    rcases hI : Session.initRun st.c n ev with ⟨ev1, e | t⟩ <;> rw [hI] at h <;> dsimp only at h
    · cases h
      exact ⟨st.opt, hb, rfl, rfl, Or.inl ⟨rfl, rfl, Or.inl ⟨rfl, rfl⟩⟩⟩
    · exact body_fact (st := { st with print := false }) hg hb ω ⟨rfl, rfl, rfl, rfl, rfl, rfl, rfl⟩ ev1 pos h

theorem mcRuns_fact (kind : McObj.Kind) (ω : ℕ → ℝ) {point : Option (Fin n → ℝ)} (h : List McObj.Event)
    (hg : ∀ st, .run st ∈ h → st.opt.randomGenerator = 0 ∧ 1 ≤ st.opt.blockSize) :
    ∀ (ev ev' : Ev Marginal) (pos pos' : ℕ) (outs), mcRuns kind ω point h ev pos = some (ev', pos', outs) → ∀ x ∈ outs, McFact x := by
  induction h with
  | nil =>
    intro ev ev' pos pos' outs hh
    simp only [mcRuns, Option.some.injEq, Prod.mk.injEq] at hh
    obtain ⟨rfl, rfl, rfl⟩ := hh
    simp
  | cons e h ih =>
    intro ev ev' pos pos' outs hh
    have ih := ih (fun st hm => hg st (List.mem_cons_of_mem _ hm))
    cases e with
    | world f k => exact ih (f ev) ev' (pos + k) pos' outs hh
    | run st =>
      simp only [mcRuns] at hh
      rcases ha : mcAlone kind st ω point ev pos with _ | ⟨a, ev1, pos1, r⟩
      · rw [ha] at hh; cases hh
      · rw [ha] at hh
        dsimp only at hh
        rcases hm : mcRuns kind ω point h ev1 pos1 with _ | ⟨ev2, pos2, l⟩
        · rw [hm] at hh; cases hh
        rw [hm] at hh
        simp only [Option.map_some, Option.some.injEq, Prod.mk.injEq] at hh
        obtain ⟨rfl, rfl, rfl⟩ := hh
        intro x hx
        rcases List.mem_cons.1 hx with rfl | hx
        · exact mcAlone_fact kind (hg st List.mem_cons_self).1 (hg st List.mem_cons_self).2 ω ev pos ha
        · exact ih ev1 ev2 pos1 pos2 l hm x hx

/-- The new object of a run that was completed. -/
def mcOutcome (x : McObj.Obj n × Except PyErr Unit) : Except PyErr (McObj.Obj n) :=
  match x.2 with
  | .error e => .error e
  | .ok _ => .ok x.1

theorem McFact.arrays {x : McObj.Obj n × Except PyErr Unit} (h : McFact x) :
    (x.1.Pf.isSome ↔ ∃ a, mcOutcome x = .ok a) ∧ (x.1.beta.isSome ↔ ∃ a, mcOutcome x = .ok a) ∧
    ((x.1.k = none ∧ x.1.blockSize = none ∧ (x.1.qBar = none ∧ x.1.cov = none ∨ x.1.qBar = some [] ∧ x.1.cov = some []) ∧
        ¬ ∃ a, mcOutcome x = .ok a) ∨
      ∃ k b q c N, x.1.k = some k ∧ x.1.blockSize = some b ∧ x.1.qBar = some q ∧ x.1.cov = some c ∧ 1 ≤ b ∧ b ≤ k ∧ k ≤ N ∧
        q.length = N ∧ c.length = N ∧
        ((∃ a, mcOutcome x = .ok a) → ∃ v, c[k - 1]? = some (some v)) ∧
        ((¬ ∃ a, mcOutcome x = .ok a) → c[k - 1]? = some (if k = 1 then some 1 else none))) := by
  obtain ⟨opt, hb, h⟩ := h
  rcases x with ⟨a, e | u⟩
  · obtain ⟨h1, h2, h3⟩ := h
    dsimp only at h1 h2
    have hno : ¬ ∃ a', mcOutcome (a, (Except.error e : Except PyErr Unit)) = .ok a' := by rintro ⟨a', h⟩; cases h
    refine ⟨by simp only [h1, hno]; simp, by simp only [h2, hno]; simp, ?_⟩
    rcases h3 with ⟨h3, h4, h5⟩ | ⟨K, ⟨q, c, hq, hc, hA⟩, hK, hd, hk, hbl⟩
    · exact Or.inl ⟨h3, h4, h5, hno⟩
    · refine Or.inr ⟨_, _, q, c, opt.samples, hk, hbl, hq, hc, by omega, by omega, by omega, hA.qlen, hA.clen,
        fun h => absurd h hno, fun _ => ?_⟩
      rw [(hA.other (K + min opt.blockSize (opt.samples - K) - 1) (by omega) (by omega)).2]
      congr 1
      by_cases h1 : K + min opt.blockSize (opt.samples - K) = 1
      · rw [if_pos h1, if_pos (by omega)]
      · rw [if_neg h1, if_neg (by omega)]
  · obtain ⟨r, h1, h2, hrep, ⟨q, c, hq, hc, hA⟩, hk1, hk2, hL⟩ := h
    dsimp only at h1 h2
    have hyes : ∃ a', mcOutcome (a, (Except.ok u : Except PyErr Unit)) = .ok a' := ⟨a, rfl⟩
    refine ⟨by simp only [h1, hyes]; simp, by simp only [h2, hyes]; simp, Or.inr ?_⟩
    obtain ⟨b, g1, g2, g3, g4, g5⟩ := hL.block
    exact ⟨r.st.k, b, q, c, opt.samples, hrep.k, g1, hq, hc, g2, g3, hk2, hA.qlen, hA.clen, fun _ => ⟨_, hL.c c hc⟩,
      fun h => absurd hyes h⟩

theorem lastCompleted_eq {α : Type} (l : List (Except PyErr α)) : lastCompleted l = lastWritten Except.toOption l := by
  unfold lastCompleted lastWritten
  congr 1
  apply List.filterMap_congr
  intro x _
  cases x <;> rfl

theorem lastCompleted_mc (l : List (McObj.Obj n × Except PyErr Unit)) (hl : ∀ x ∈ l, McFact x) :
    lastWritten (fun r => r.1.Pf) l = (lastCompleted (l.map mcOutcome)).bind McObj.getFailure ∧
    lastWritten (fun r => r.1.beta) l = (lastCompleted (l.map mcOutcome)).bind McObj.getBeta := by
  induction l with
  | nil => exact ⟨rfl, rfl⟩
  | cons x l ih =>
    have ih := ih (fun y hy => hl y (List.mem_cons_of_mem _ hy))
    obtain ⟨h1, h2, -⟩ := (hl x List.mem_cons_self).arrays
    rw [lastWritten_cons, lastWritten_cons, ih.1, ih.2]
    have hc : lastCompleted ((x :: l).map mcOutcome) =
        (lastCompleted (l.map mcOutcome)).or (match mcOutcome x with | .ok r => some r | .error _ => none) := by
      rw [List.map_cons, lastCompleted_eq, lastCompleted_eq, lastWritten_cons]
      cases mcOutcome x <;> rfl
    rw [hc]
    rcases hL : lastCompleted (l.map mcOutcome) with _ | a
    · rcases x with ⟨b, e | u⟩
      · have : ¬ ∃ a', mcOutcome (b, (Except.error e : Except PyErr Unit)) = .ok a' := by rintro ⟨a', h⟩; cases h
        have e1 : b.Pf = none := by simpa [this] using h1
        have e2 : b.beta = none := by simpa [this] using h2
        simp [mcOutcome, e1, e2]
      · exact ⟨rfl, rfl⟩
    · have ha : a.Pf.isSome ∧ a.beta.isSome := by
        have hm : Except.ok a ∈ l.map mcOutcome := by
          unfold lastCompleted at hL
          have := List.mem_of_getLast? hL
          rw [List.mem_filterMap] at this
          obtain ⟨y, hy, hy'⟩ := this
          cases y with
          | error e => cases hy'
          | ok r => simp only [Option.some.injEq] at hy'; subst hy'; exact hy
        obtain ⟨y, hy, hya⟩ := List.mem_map.1 hm
        obtain ⟨g1, g2, -⟩ := (hl y (List.mem_cons_of_mem _ hy)).arrays
        have : y.1 = a := by
          rcases y with ⟨b, e | u⟩
          · cases hya
          · cases hya; rfl
        rw [← this]
        exact ⟨g1.2 ⟨a, hya⟩, g2.2 ⟨a, hya⟩⟩
      simp only [Option.some_or, Option.bind_some, McObj.getFailure, McObj.getBeta]
      exact ⟨or_of_isSome ha.1, or_of_isSome ha.2⟩

/-- C81: over any history of runs (completed or raising), other draws and changes of the model, `Pf` and `beta` are those of the last
completed run, taken on its own by a new object at the same position of the draws; the number of simulations, the block size and
the running estimates are those of the last run that wrote them; and the kept records are those of all runs, one after the other
(of the physical samples only the first block's). -/
theorem C81_history (kind : McObj.Kind) (ω : ℕ → ℝ) (point : Option (Fin n → ℝ)) (h : List McObj.Event)
    (hg : ∀ st, .run st ∈ h → st.opt.randomGenerator = 0 ∧ 1 ≤ st.opt.blockSize) (ev ev' : Ev Marginal) (pos pos' : ℕ)
    (outs : List (McObj.Obj n × Except PyErr Unit)) (hh : mcRuns kind ω point h ev pos = some (ev', pos', outs)) :
    ∃ o, McObj.history kind ω h (McObj.fresh point) ev pos = some (o, ev', pos') ∧
      McObj.getFailure o = (lastCompleted (outs.map mcOutcome)).bind McObj.getFailure ∧
      McObj.getBeta o = (lastCompleted (outs.map mcOutcome)).bind McObj.getBeta ∧
      o.k = lastWritten (fun r => r.1.k) outs ∧ o.blockSize = lastWritten (fun r => r.1.blockSize) outs ∧
      o.qBar = lastWritten (fun r => r.1.qBar) outs ∧ o.cov = lastWritten (fun r => r.1.cov) outs ∧
      o.records.allG = outs.flatMap (fun r => r.1.records.allG) ∧
      o.records.betaAll = outs.flatMap (fun r => r.1.records.betaAll) ∧
      keptEntries o.records.uAll = outs.flatMap (fun r => keptEntries r.1.records.uAll) ∧
      keptEntries o.records.xAll = xRecord outs := by
  obtain ⟨o, ho, hA⟩ := mcHistory_from kind ω h (fun st hm => (hg st hm).1) (McObj.fresh point) rfl ev ev' pos pos' outs hh
  obtain ⟨c1, c2⟩ := lastCompleted_mc outs (mcRuns_fact kind ω h hg ev ev' pos pos' outs hh)
  refine ⟨o, ho, ?_, ?_, ?_, ?_, ?_, ?_, ?_, ?_, ?_, hA.xNew rfl⟩
  · rw [← c1, McObj.getFailure, hA.Pf]; exact Option.or_none
  · rw [← c2, McObj.getBeta, hA.beta]; exact Option.or_none
  · rw [hA.k]; exact Option.or_none
  · rw [hA.blockSize]; exact Option.or_none
  · rw [hA.qBar]; exact Option.or_none
  · rw [hA.cov]; exact Option.or_none
  · rw [hA.allG]; rfl
  · rw [hA.betaAll]; rfl
  · rw [hA.uAll]; rfl

end Pystra.Props
