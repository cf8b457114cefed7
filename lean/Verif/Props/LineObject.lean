import Verif.Props.SormObject
import Verif.Props.LineSamplingRun

/-! C80: the life of a `LineSampling` object. -/

namespace Pystra.Props
open Spec Transformation Form Matrix LineSampling

variable {n : ℕ}

/-- The results on two objects are the same. -/
structure SameLine (o a : LineObj.Obj n) : Prop where
  alpha : o.alpha = a.alpha
  Pf : o.Pf = a.Pf
  beta : o.beta = a.beta
  cov : o.cov = a.cov
  nSamples : o.nSamples = a.nSamples
  contribs : o.contribs = a.contribs

/-- What a completed sampling puts on an object. -/
def lineStore (al : Fin n → ℝ) (r : LineSampling.Result) (o : LineObj.Obj n) : LineObj.Obj n :=
  { o with alpha := some al, contribs := some r.contribs, Pf := some r.Pf, nSamples := some r.nSamples, beta := some r.beta
           cov := some r.cov }

/-- Sampling with a FORM object: it is unusable, or the run is completed. -/
theorem sampleRun_cases (st : LineObj.Settings) (ω : ℕ → ℝ) (t : Mats n) (marg : Fin n → Marginal) (F : FormObj.Obj n)
    (ev : Ev Marginal) (pos : ℕ) :
    (∃ e, (F.alpha = none ∨ F.beta = none) ∧ ∀ p o, LineObj.sampleRun { st with print := p } ω t marg F o ev pos = (o, ev, pos, .error e)) ∨
    ∃ al b, F.alpha = some al ∧ F.beta = some b ∧ ∀ p o, o.resultsValid = true →
      let r := sample t marg (Session.evaluator st.c n ev.model) al b st.N ω pos ev
      LineObj.sampleRun { st with print := p } ω t marg F o ev pos = (lineStore al r.2 o, r.1, pos + n * st.N, .ok ()) := by
  unfold LineObj.sampleRun
  cases hal : F.alpha with
  | none => exact Or.inl ⟨.typeError, Or.inl rfl, fun p o => by simp [FormObj.getAlpha, hal]⟩
  | some al =>
    cases hb : F.beta with
    | none => exact Or.inl ⟨.typeError, Or.inr rfl, fun p o => by simp [FormObj.getAlpha, FormObj.getBeta, hal, hb]⟩
    | some b =>
      refine Or.inr ⟨al, b, rfl, rfl, fun p o ho => ?_⟩
      simp only [FormObj.getAlpha, FormObj.getBeta, hal, hb, lineStore, Prod.mk.injEq, true_and]
      unfold LineObj.printed LineObj.showResults
      simp [ho]

/-- A line-sampling run on an object with any earlier history, compared with the same run on a new object. -/
theorem lineRun_alone (st : LineObj.Settings) (ω : ℕ → ℝ) (o : LineObj.Obj n) (ev : Ev Marginal) (pos : ℕ) :
    match lineAlone st ω o.form ev pos with
    | none => LineObj.run st ω o ev pos = none
    | some (F, ev', pos', .ok a) => ∃ o', LineObj.run st ω o ev pos = some (o', ev', pos', .ok ()) ∧ o'.form = F ∧
        o'.resultsValid = true ∧ SameLine o' a ∧ a.resultsValid = true ∧ a.form = F ∧
        ∃ G t ev1 b, F = some G ∧ a.alpha = G.alpha ∧ a.alpha.isSome ∧ G.beta = some b ∧
          (∀ H, o.form = some H → G = H) ∧ (o.form = none → FormObj.run st.c st.fopt FormObj.fresh (Session.initRun st.c n ev).1 =
            some (G, ev1, .finished)) ∧ (o.form.isSome → ev1 = (Session.initRun st.c n ev).1) ∧
          (Session.initRun st.c n ev).2 = .ok t ∧
          let r := sample t (Session.margN n st.c.default (Session.initRun st.c n ev).1.model) (Session.evaluator st.c n ev1.model)
            (a.alpha.getD 0) b st.N ω pos ev1
          a.Pf = some r.2.Pf ∧ a.beta = some r.2.beta ∧ a.cov = some r.2.cov ∧ a.nSamples = some r.2.nSamples ∧
          a.contribs = some r.2.contribs ∧ ev' = r.1 ∧ pos' = pos + n * st.N
    | some (F, ev', pos', .error e) => ∃ o', LineObj.run st ω o ev pos = some (o', ev', pos', .error e) ∧ o'.form = F ∧
        o'.resultsValid = true ∧ SameLine o' o ∧ pos' = pos ∧ (∀ H, o.form = some H → F = some H) := by
  unfold lineAlone LineObj.run
  dsimp only [LineObj.fresh]
  rcases hI : Session.initRun st.c n ev with ⟨ev1, e | t⟩
  · exact ⟨_, rfl, rfl, rfl, ⟨rfl, rfl, rfl, rfl, rfl, rfl⟩, rfl, fun H h => h⟩
  · dsimp only
    unfold LineObj.obtainForm
    dsimp only
    cases hof : o.form with
    | some F =>
      dsimp only
      rcases sampleRun_cases st ω t (Session.margN n st.c.default ev1.model) F ev1 pos with ⟨e, h0, h1⟩ | ⟨al, b, h1, h2, h3⟩
      · rw [h1, h1 st.print]
        exact ⟨_, rfl, rfl, rfl, ⟨rfl, rfl, rfl, rfl, rfl, rfl⟩, rfl, fun H h => h⟩
      · dsimp only at h3
        rw [h3 _ _ rfl, h3 st.print _ rfl]
        refine ⟨_, rfl, rfl, rfl, ⟨rfl, rfl, rfl, rfl, rfl, rfl⟩, rfl, rfl, F, t, ev1, b, rfl, h1.symm, rfl, h2,
          fun H h => Option.some.inj h, by simp, fun _ => rfl, rfl, rfl, rfl, rfl, rfl, rfl, rfl, rfl⟩
    | none =>
      dsimp only
      rcases hR : FormObj.run st.c st.fopt FormObj.fresh ev1 with _ | ⟨F, ev2, x⟩
      · simp
      · cases x with
        | finished =>
          dsimp only
          rcases sampleRun_cases st ω t (Session.margN n st.c.default ev1.model) F ev2 pos with ⟨e, h0, h1⟩ | ⟨al, b, h1, h2, h3⟩
          · rw [h1, h1 st.print]
            exact ⟨_, rfl, rfl, rfl, ⟨rfl, rfl, rfl, rfl, rfl, rfl⟩, rfl, by simp⟩
          · dsimp only at h3
            rw [h3 _ _ rfl, h3 st.print _ rfl]
            refine ⟨_, rfl, rfl, rfl, ⟨rfl, rfl, rfl, rfl, rfl, rfl⟩, rfl, rfl, F, t, ev2, b, rfl, h1.symm, rfl, h2,
              by simp, fun _ => rfl, by simp, rfl, rfl, rfl, rfl, rfl, rfl, rfl, rfl⟩
        | raised e =>
          exact ⟨_, rfl, rfl, rfl, ⟨rfl, rfl, rfl, rfl, rfl, rfl⟩, rfl, by simp⟩
        | _ => simp

/-- What a history leaves on an object, whatever it had before. -/
structure AfterLine (o o' : LineObj.Obj n) (outs : List (Except PyErr (LineObj.Obj n))) : Prop where
  same : SameLine o' ((lastCompleted outs).getD o)
  valid : o'.resultsValid = (o.resultsValid || !outs.isEmpty)
  good : ∀ a, lastCompleted outs = some a → a.resultsValid = true ∧ a.beta.isSome ∧ a.Pf.isSome ∧ a.cov.isSome

theorem lineHistory_from (ω : ℕ → ℝ) (h : List LineObj.Event) : ∀ (o : LineObj.Obj n) (ev ev' : Ev Marginal) (pos pos' : ℕ)
    (F' : Option (FormObj.Obj n)) (outs : List (Except PyErr (LineObj.Obj n))),
    lineOutcomes ω h o.form ev pos = some (F', ev', pos', outs) →
    ∃ o', LineObj.history ω h o ev pos = some (o', ev', pos') ∧ o'.form = F' ∧ AfterLine o o' outs := by
  induction h with
  | nil =>
    intro o ev ev' pos pos' F' outs hh
    simp only [lineOutcomes, Option.some.injEq, Prod.mk.injEq] at hh
    obtain ⟨rfl, rfl, rfl, rfl⟩ := hh
    exact ⟨o, rfl, rfl, ⟨rfl, rfl, rfl, rfl, rfl, rfl⟩, by simp, by simp [lastCompleted]⟩
  | cons a h ih =>
    intro o ev ev' pos pos' F' outs hh
    cases a with
    | world f k => exact ih o (f ev) ev' (pos + k) pos' F' outs hh
    | form c fopt =>
      have he : lineOutcomes ω (.form c fopt :: h) o.form ev pos =
          match LineObj.runForm c fopt o.form ev with
          | none => none
          | some (F, ev) => lineOutcomes ω h F ev pos := by
        simp only [lineOutcomes, LineObj.runForm]
        cases o.form with
        | none => rfl
        | some F => dsimp only; (repeat' split) <;> simp_all
      rw [he] at hh
      simp only [LineObj.history]
      rcases hf : LineObj.runForm c fopt o.form ev with _ | ⟨F1, ev1⟩
      · rw [hf] at hh; cases hh
      · rw [hf] at hh
        dsimp only at hh ⊢
        obtain ⟨o', k1, k2, k⟩ := ih { o with form := F1 } ev1 ev' pos pos' F' outs hh
        refine ⟨o', k1, k2, ?_, k.valid, k.good⟩
        have := k.same
        cases hl : lastCompleted outs with
        | none => rw [hl] at this; exact ⟨this.alpha, this.Pf, this.beta, this.cov, this.nSamples, this.contribs⟩
        | some a => rw [hl] at this; exact this
    | run st =>
      have hr := lineRun_alone st ω o ev pos
      simp only [lineOutcomes] at hh
      simp only [LineObj.history]
      rcases ha : lineAlone st ω o.form ev pos with _ | ⟨F1, ev1, pos1, x⟩
      · rw [ha] at hh; cases hh
      · rw [ha] at hh hr
        dsimp only at hh
        simp only [Option.map_eq_some_iff, Prod.exists, Prod.mk.injEq] at hh
        obtain ⟨F2, ev2, pos2, outs', hh, rfl, rfl, rfl, rfl⟩ := hh
        cases x with
        | error e =>
          obtain ⟨o1, h1, h2, h3, h4, -⟩ := hr
          rw [h1]
          dsimp only
          rw [← h2] at hh
          obtain ⟨o', k1, k2, k⟩ := ih o1 ev1 ev2 pos1 pos2 F2 outs' hh
          have hd : lastCompleted (.error e :: outs') = lastCompleted outs' := by rw [lastCompleted_cons]; simp
          refine ⟨o', k1, k2, ?_, by rw [k.valid, h3]; simp, by rw [hd]; exact k.good⟩
          rw [hd]
          have := k.same
          cases hl : lastCompleted outs' with
          | none =>
            rw [hl] at this
            exact ⟨this.alpha.trans h4.alpha, this.Pf.trans h4.Pf, this.beta.trans h4.beta, this.cov.trans h4.cov,
              this.nSamples.trans h4.nSamples, this.contribs.trans h4.contribs⟩
          | some a => rw [hl] at this; exact this
        | ok a =>
          obtain ⟨o1, h1, h2, h3, h4, h5, h6, G, t, ev0, b, -, -, -, -, -, -, -, -, hs⟩ := hr
          rw [h1]
          dsimp only
          rw [← h2] at hh
          obtain ⟨o', k1, k2, k⟩ := ih o1 ev1 ev2 pos1 pos2 F2 outs' hh
          have hd : lastCompleted (.ok a :: outs') = (lastCompleted outs').or (some a) := by rw [lastCompleted_cons]
          refine ⟨o', k1, k2, ?_, by rw [k.valid, h3]; simp, ?_⟩
          · rw [hd]
            have := k.same
            cases hl : lastCompleted outs' with
            | none =>
              rw [hl] at this
              exact ⟨this.alpha.trans h4.alpha, this.Pf.trans h4.Pf, this.beta.trans h4.beta, this.cov.trans h4.cov,
                this.nSamples.trans h4.nSamples, this.contribs.trans h4.contribs⟩
            | some a => rw [hl] at this; exact this
          · rw [hd]
            intro x hx
            cases hl : lastCompleted outs' with
            | none =>
              rw [hl] at hx
              simp only [Option.none_or, Option.some.injEq] at hx
              subst hx
              rw [hs.1, hs.2.1, hs.2.2.1]
              exact ⟨h5, rfl, rfl, rfl⟩
            | some y =>
              rw [hl] at hx
              simp only [Option.some_or, Option.some.injEq] at hx
              subst hx
              exact k.good y hl

/-- C80: whatever was done with a `LineSampling` object — any number of runs, completed or raising, printed or not, its `Form`
object run again, the model changed, random numbers drawn elsewhere — the direction, `Pf`, `beta`, `cov`, the number of lines
and the contributions on it are all those of one and the same run: the last one that was completed, which gave what a new
object with the `Form` object of that moment would have given.  The printed report shows these numbers, also when later runs
raised.  Before the first run it is `ValueError`, before the first completed one `TypeError`, and the getters return `None`. -/
theorem C80_history (ω : ℕ → ℝ) (h : List LineObj.Event) (F : Option (FormObj.Obj n)) (ev ev' : Ev Marginal) (pos pos' : ℕ)
    (F' : Option (FormObj.Obj n)) (outs : List (Except PyErr (LineObj.Obj n)))
    (hh : lineOutcomes ω h F ev pos = some (F', ev', pos', outs)) :
    ∃ o, LineObj.history ω h (LineObj.fresh F) ev pos = some (o, ev', pos') ∧ o.form = F' ∧
      (∀ a, lastCompleted outs = some a →
        o.alpha = a.alpha ∧ LineObj.getFailure o = LineObj.getFailure a ∧ LineObj.getBeta o = LineObj.getBeta a ∧
        o.cov = a.cov ∧ o.nSamples = a.nSamples ∧ o.contribs = a.contribs ∧
        LineObj.showResults o = LineObj.showResults a ∧ ∃ sh, LineObj.showResults a = .ok sh) ∧
      (lastCompleted outs = none → LineObj.getFailure o = none ∧ LineObj.getBeta o = none ∧
        LineObj.showResults o = .error (if outs.isEmpty then .valueError else .typeError)) := by
  obtain ⟨o, h1, h2, k⟩ := lineHistory_from ω h (LineObj.fresh F) ev ev' pos pos' F' outs hh
  refine ⟨o, h1, h2, ?_, ?_⟩
  · intro a ha
    have hs := k.same
    rw [ha] at hs
    obtain ⟨g1, g2, g3, g4⟩ := k.good a ha
    simp only [Option.getD_some] at hs
    have hne : outs.isEmpty = false := by
      cases outs with
      | nil => simp [lastCompleted] at ha
      | cons => rfl
    have hv : o.resultsValid = true := by rw [k.valid, hne]; simp
    refine ⟨hs.alpha, hs.Pf, hs.beta, hs.cov, hs.nSamples, hs.contribs, ?_, ?_⟩
    · unfold LineObj.showResults
      rw [hv, g1, hs.beta, hs.Pf, hs.cov, hs.nSamples]
    · obtain ⟨b, hb⟩ := Option.isSome_iff_exists.1 g2
      obtain ⟨p, hp⟩ := Option.isSome_iff_exists.1 g3
      obtain ⟨c, hc⟩ := Option.isSome_iff_exists.1 g4
      exact ⟨_, by simp [LineObj.showResults, g1, hb, hp, hc]; rfl⟩
  · intro hl
    have hs := k.same
    rw [hl] at hs
    refine ⟨hs.Pf, hs.beta, ?_⟩
    have hb : o.beta = none := hs.beta
    have hv := k.valid
    unfold LineObj.showResults
    cases hE : outs.isEmpty with
    | true => rw [hE] at hv; simp [hv, LineObj.fresh]
    | false => rw [hE] at hv; simp [hv, hb]

/-- C80: FORM is run at most once.  As long as nobody runs the `Form` object itself, the object that the first completed FORM run
left (or the supplied one) is used, unchanged, by every later run, whatever has become of the model and of the limit state; the
direction of the last completed run is the one of that `Form` object. -/
theorem C80_form_kept (ω : ℕ → ℝ) (h : List LineObj.Event) (hn : ∀ c fopt, .form c fopt ∉ h) :
    ∀ (o o' : LineObj.Obj n) (ev ev' : Ev Marginal) (pos pos' : ℕ), LineObj.history ω h o ev pos = some (o', ev', pos') →
    (∀ F, o.form = some F → o'.form = some F) ∧
    (o'.alpha = o.alpha ∨ ∃ F, o'.form = some F ∧ o'.alpha = F.alpha ∧ F.beta.isSome) := by
  induction h with
  | nil =>
    intro o o' ev ev' pos pos' hh
    simp only [LineObj.history, Option.some.injEq, Prod.mk.injEq] at hh
    obtain ⟨rfl, -⟩ := hh
    exact ⟨fun F h => h, Or.inl rfl⟩
  | cons a h ih =>
    intro o o' ev ev' pos pos' hh
    have ih := ih (fun c fopt hm => hn c fopt (List.mem_cons_of_mem _ hm))
    cases a with
    | world f k => exact ih o o' (f ev) ev' (pos + k) pos' hh
    | form c fopt => exact absurd (List.mem_cons_self) (hn c fopt)
    | run st =>
      have hr := lineRun_alone st ω o ev pos
      simp only [LineObj.history] at hh
      rcases ha : lineAlone st ω o.form ev pos with _ | ⟨F1, ev1, pos1, x⟩
      · rw [ha] at hr; rw [hr] at hh; cases hh
      · rw [ha] at hr
        cases x with
        | error e =>
          obtain ⟨o1, h1, h2, h3, h4, -, h5⟩ := hr
          rw [h1] at hh
          obtain ⟨k1, k2⟩ := ih o1 o' ev1 ev' pos1 pos' hh
          refine ⟨fun F hF => k1 F (by rw [h2, h5 F hF]), ?_⟩
          rcases k2 with k2 | k2
          · exact Or.inl (k2.trans h4.alpha)
          · exact Or.inr k2
        | ok a =>
          obtain ⟨o1, h1, h2, h3, h4, h5, h6, G, t, ev0, b, g1, g2, g3, g4, g5, -⟩ := hr
          rw [h1] at hh
          obtain ⟨k1, k2⟩ := ih o1 o' ev1 ev' pos1 pos' hh
          refine ⟨fun F hF => k1 F (by rw [h2, g1, g5 F hF]), ?_⟩
          rcases k2 with k2 | k2
          · exact Or.inr ⟨G, k1 G (by rw [h2, g1]), by rw [k2, h4.alpha, g2], by rw [g4]; rfl⟩
          · exact Or.inr k2

/-- Sampling from a position of the stream is sampling from the start of the rest of the stream. -/
theorem sample_shift {σ : Type} (t : Mats n) (marg : Fin n → Marginal) (E : Evaluator σ n) (al : Fin n → ℝ) (b : ℝ) (N : ℕ)
    (ω : ℕ → ℝ) (pos : ℕ) (s : σ) : sample t marg E al b N ω pos s = sample t marg E al b N (fun k => ω (pos + k)) 0 s := by
  have : Subset.randn ω n N pos = Subset.randn (fun k => ω (pos + k)) n N 0 := by
    unfold Subset.randn
    apply List.map_congr_left
    intro c _
    funext r
    congr 1
    omega
  unfold sample
  rw [this]

/-- C80: the run of a new object without a `Form` object is the line-sampling analysis of C44, C45 and C70, on the draws from the
current position on; it reads `n·N` draws. -/
theorem C80_fresh {m : ℕ} (st : LineObj.Settings) (ω : ℕ → ℝ) (ev : Ev Marginal) (pos : ℕ) :
    match lineAlone (n := m + 1) st ω none ev pos with
    | some (_, ev', pos', .ok a) => ∃ r, Session.runJob st.c (.line st.fopt st.N (fun k => ω (pos + k)) : Session.Job (m + 1)) ev =
        some (ev', .line r) ∧ LineObj.getFailure a = some r.Pf ∧ LineObj.getBeta a = some r.beta ∧ a.cov = some r.cov ∧
        a.nSamples = some r.nSamples ∧ a.contribs = some r.contribs ∧ pos' = pos + (m + 1) * st.N
    | some (_, ev', pos', .error e) => Session.runJob st.c (.line st.fopt st.N (fun k => ω (pos + k)) : Session.Job (m + 1)) ev =
        some (ev', .raised e) ∧ pos' = pos
    | none => ∀ ev' r, Session.runJob st.c (.line st.fopt st.N (fun k => ω (pos + k)) : Session.Job (m + 1)) ev ≠
        some (ev', .line r) := by
  unfold lineAlone LineObj.run Session.runJob Session.withInit
  dsimp only [LineObj.fresh]
  rcases hI : Session.initRun st.c (m + 1) ev with ⟨ev1, e | t⟩
  · exact ⟨rfl, rfl⟩
  · dsimp only
    unfold LineObj.obtainForm
    dsimp only
    have hr := C76_run st.c st.fopt FormObj.fresh ev1 (n := m + 1)
    rcases hF : Session.formRun st.c (m + 1) st.fopt ev1 with _ | ⟨ev2, r | out⟩
    · rw [hF] at hr
      simp only [hr]
      simp
    · rw [hF] at hr
      obtain ⟨F, k1, k2, -⟩ := hr
      rw [k1]
      dsimp only
      obtain ⟨-, -, -, -, j, T, hS⟩ := formRun_done hF
      rcases sampleRun_cases st ω t (Session.margN (m + 1) st.c.default ev1.model) F ev2 pos with ⟨e, h0, -⟩ | ⟨al, b, h1, h2, h3⟩
      · rcases h0 with h0 | h0
        · rw [k2.alpha] at h0; cases h0
        · rw [k2.beta] at h0; cases h0
      · dsimp only at h3
        rw [k2.alpha] at h1
        injection h1 with h1
        rw [k2.beta] at h2
        injection h2 with h2
        subst h1 h2
        rw [h3 _ _ rfl, sample_shift, ← margN_same hS.definition]
        exact ⟨_, rfl, rfl, rfl, rfl, rfl, rfl, rfl⟩
    · rw [hF] at hr
      cases out with
      | raised e =>
        obtain ⟨F, k1, -⟩ := hr
        rw [k1]
        exact ⟨rfl, rfl⟩
      | nan =>
        obtain ⟨F, k1⟩ := hr
        rw [k1]
        simp
      | _ => exact hr.elim

end Pystra.Props
