import Verif.Lemmas.SubsetObject
import Verif.Props.MonteCarloObject

/-! C83: the life of a `SubsetSimulation` object. -/

namespace Pystra.Props
open Spec Transformation Form

variable {n : ℕ}

/-- The outcome of a run. -/
def subsetOutcome (x : SubsetObj.Obj n × Except PyErr Unit) : Except PyErr (SubsetObj.Obj n) :=
  match x.2 with
  | .ok _ => .ok x.1
  | .error e => .error e

/-- The lists of thresholds and conditional probabilities of a run, if it got as far as resetting them (behind `init_run`). -/
def subsetLists (x : SubsetObj.Obj n × Except PyErr Unit) : Option (List ℝ × List ℝ) :=
  x.1.transform.map (fun _ => (x.1.thresholds, x.1.probs))

/-- What a run on a new object leaves. -/
structure SubsetFact (x : SubsetObj.Obj n × Except PyErr Unit) : Prop where
  valid : x.1.resultsValid = true
  lengths : x.1.thresholds.length = x.1.probs.length
  done : x.2 = .ok () → ∃ t k Pf b c, x.1.transform = some t ∧ x.1.nLevels = some k ∧ x.1.Pf = some Pf ∧ x.1.beta = some b ∧
    x.1.cov = some c ∧ x.1.thresholds.length = k ∧ x.1.thresholds.getLast? = some 0
  raised : ∀ e, x.2 = .error e → x.1.nLevels = none ∧ x.1.Pf = none ∧ x.1.beta = none ∧ x.1.cov = none ∧
    ∀ y ∈ x.1.thresholds, 0 < y

/-- The used object after a run, against the new one. -/
structure SubsetOver (old a b : SubsetObj.Obj n) : Prop where
  valid : b.resultsValid = true
  p0 : b.p0 = old.p0
  sigma : b.sigma = old.sigma
  transform : b.transform = a.transform.or old.transform
  nLevels : b.nLevels = a.nLevels.or old.nLevels
  Pf : b.Pf = a.Pf.or old.Pf
  beta : b.beta = a.beta.or old.beta
  cov : b.cov = a.cov.or old.cov
  lists : (b.thresholds, b.probs) = (a.transform.map (fun _ => (a.thresholds, a.probs))).getD (old.thresholds, old.probs)

theorem subsetRun_over (st : SubsetObj.Settings) (ω υ : ℕ → ℝ) (old : SubsetObj.Obj n) (ev : Ev Marginal) (pos upos : ℕ) :
    match subsetAlone (n := n) st ω υ old.p0 old.sigma ev pos upos with
    | none => SubsetObj.run st ω υ old ev pos upos = none
    | some (a, ev', pos', upos', r) => ∃ b, SubsetObj.run st ω υ old ev pos upos = some (b, ev', pos', upos', r) ∧
        SubsetOver old a b ∧ SubsetFact (a, r) := by
  unfold subsetAlone SubsetObj.run
  rcases hI : Session.initRun st.c n ev with ⟨ev1, e | t⟩
  · simp only [hI]
    refine ⟨_, rfl, ⟨rfl, rfl, rfl, rfl, rfl, rfl, rfl, rfl, rfl⟩, rfl, rfl, by intro h; simp at h, fun _ _ => ⟨rfl, rfl, rfl, rfl, by simp⟩⟩
  · simp only [hI]
    have hl := SubsetObj.sample_lists (t := t) (marg := Session.margN n st.c.default ev1.model) (ev := Session.evaluator st.c n ev1.model)
      old.p0 old.sigma st.N st.block st.c.fuel (fun k => ω (pos + k)) υ upos ev1
    rcases hs : SubsetObj.sample t (Session.margN n st.c.default ev1.model) (Session.evaluator st.c n ev1.model)
      old.p0 old.sigma st.N st.block st.c.fuel (fun k => ω (pos + k)) υ upos ev1 with _ | ⟨l, ev2, q, e | ⟨k, Pf⟩⟩
    · rfl
    · obtain ⟨h1, h2⟩ := hl _ _ _ _ hs
      refine ⟨_, rfl, ⟨rfl, rfl, rfl, rfl, rfl, rfl, rfl, rfl, rfl⟩, rfl, h1, by intro h; simp at h, fun _ _ => ⟨rfl, rfl, rfl, rfl, h2⟩⟩
    · obtain ⟨h1, h2, h3⟩ := hl _ _ _ _ hs
      unfold SubsetObj.close SubsetObj.finish SubsetObj.printed SubsetObj.showResults
      dsimp only
      simp only [Bool.false_eq_true, if_false, Bool.not_true, ite_self]
      refine ⟨_, rfl, ⟨rfl, rfl, rfl, rfl, rfl, rfl, rfl, rfl, rfl⟩, rfl, h1, fun _ => ⟨_, _, _, _, _, rfl, rfl, rfl, rfl, rfl, h2, h3⟩,
        by intro e h; simp at h⟩

/-- The object after a history, against the runs taken on their own. -/
structure SubsetAfter (old : SubsetObj.Obj n) (outs : List (SubsetObj.Obj n × Except PyErr Unit)) (o : SubsetObj.Obj n) : Prop where
  valid : o.resultsValid = (old.resultsValid || !outs.isEmpty)
  p0 : o.p0 = old.p0
  sigma : o.sigma = old.sigma
  nLevels : o.nLevels = (lastWritten (fun r => r.1.nLevels) outs).or old.nLevels
  Pf : o.Pf = (lastWritten (fun r => r.1.Pf) outs).or old.Pf
  beta : o.beta = (lastWritten (fun r => r.1.beta) outs).or old.beta
  cov : o.cov = (lastWritten (fun r => r.1.cov) outs).or old.cov
  lists : (o.thresholds, o.probs) = (lastWritten subsetLists outs).getD (old.thresholds, old.probs)
  facts : ∀ x ∈ outs, SubsetFact x

theorem subsetHistory_from (ω υ : ℕ → ℝ) (h : List SubsetObj.Event) : ∀ (old : SubsetObj.Obj n) (ev ev' : Ev Marginal)
    (pos upos pos' upos' : ℕ) outs, subsetRuns ω υ old.p0 old.sigma h ev pos upos = some (ev', pos', upos', outs) →
    ∃ o, SubsetObj.history ω υ h old ev pos upos = some (o, ev', pos', upos') ∧ SubsetAfter old outs o := by
  induction h with
  | nil =>
    intro old ev ev' pos upos pos' upos' outs hh
    simp only [subsetRuns, Option.some.injEq, Prod.mk.injEq] at hh
    obtain ⟨rfl, rfl, rfl, rfl⟩ := hh
    exact ⟨old, rfl, by simp, rfl, rfl, rfl, rfl, rfl, rfl, rfl, by simp⟩
  | cons e h ih =>
    intro old ev ev' pos upos pos' upos' outs hh
    cases e with
    | world f k k' => exact ih old (f ev) ev' _ _ _ _ outs hh
    | run st =>
      have hr := subsetRun_over st ω υ old ev pos upos
      simp only [subsetRuns] at hh
      rcases ha : subsetAlone (n := n) st ω υ old.p0 old.sigma ev pos upos with _ | ⟨a, ev1, pos1, upos1, r⟩
      · rw [ha] at hh; cases hh
      rw [ha] at hh hr
      dsimp only at hh hr
      obtain ⟨b, hb, hov, hf⟩ := hr
      rcases hm : subsetRuns (n := n) ω υ old.p0 old.sigma h ev1 pos1 upos1 with _ | ⟨ev2, pos2, upos2, l⟩
      · rw [hm] at hh; cases hh
      rw [hm] at hh
      simp only [Option.map_some, Option.some.injEq, Prod.mk.injEq] at hh
      obtain ⟨rfl, rfl, rfl, rfl⟩ := hh
      rw [← hov.p0, ← hov.sigma] at hm
      obtain ⟨o, ho, hA⟩ := ih b ev1 ev2 pos1 upos1 pos2 upos2 l hm
      refine ⟨o, ?_, ?_⟩
      · simp only [SubsetObj.history, hb, ho]
      · constructor
        · rw [hA.valid, hov.valid]; simp
        · rw [hA.p0, hov.p0]
        · rw [hA.sigma, hov.sigma]
        · rw [hA.nLevels, hov.nLevels, lastWritten_cons, Option.or_assoc]
        · rw [hA.Pf, hov.Pf, lastWritten_cons, Option.or_assoc]
        · rw [hA.beta, hov.beta, lastWritten_cons, Option.or_assoc]
        · rw [hA.cov, hov.cov, lastWritten_cons, Option.or_assoc]
        · rw [hA.lists, hov.lists, lastWritten_cons]
          cases lastWritten subsetLists l <;> rfl
        · intro x hx
          rcases List.mem_cons.1 hx with rfl | hx
          · exact hf
          · exact hA.facts x hx

/-- An attribute that only completed runs write is that of the last completed run. -/
theorem lastCompleted_subset {β : Type} (f : SubsetObj.Obj n → Option β) (l : List (SubsetObj.Obj n × Except PyErr Unit))
    (h1 : ∀ x ∈ l, x.2 = .ok () → (f x.1).isSome) (h2 : ∀ x ∈ l, ∀ e, x.2 = .error e → f x.1 = none) :
    lastWritten (fun r => f r.1) l = (lastCompleted (l.map subsetOutcome)).bind f := by
  induction l with
  | nil => rfl
  | cons x l ih =>
    have ih := ih (fun y hy => h1 y (List.mem_cons_of_mem _ hy)) (fun y hy => h2 y (List.mem_cons_of_mem _ hy))
    have hsome : ∀ a, lastCompleted (l.map subsetOutcome) = some a → (f a).isSome := by
      intro a ha
      unfold lastCompleted at ha
      have hmem := List.mem_of_getLast? ha
      obtain ⟨o, ho, hoa⟩ := List.mem_filterMap.1 hmem
      obtain ⟨y, hy, rfl⟩ := List.mem_map.1 ho
      unfold subsetOutcome at hoa
      rcases hy2 : y.2 with e | u
      · rw [hy2] at hoa; cases hoa
      · rw [hy2] at hoa
        simp only [Option.some.injEq] at hoa
        subst hoa
        exact h1 y (List.mem_cons_of_mem _ hy) (by rw [hy2])
    have hc : lastCompleted ((x :: l).map subsetOutcome) =
        (lastCompleted (l.map subsetOutcome)).or (match subsetOutcome x with | .ok r => some r | .error _ => none) := by
      rw [List.map_cons, lastCompleted_eq, lastCompleted_eq, lastWritten_cons]
      cases subsetOutcome x <;> rfl
    rw [lastWritten_cons, ih, hc]
    rcases hL : lastCompleted (l.map subsetOutcome) with _ | a
    · simp only [Option.bind_none, Option.none_or]
      unfold subsetOutcome
      rcases hx : x.2 with e | u
      · simp only [h2 x List.mem_cons_self e hx, Option.bind_none]
      · simp only [Option.bind_some]
    · rw [Option.some_or, Option.bind_some, or_of_isSome (hsome a hL)]

/-- C83: an object can be made exactly for a level probability strictly between 0 and 1 — anything else is a `ValueError` — and a new
object has no results to show. -/
theorem C83_new (p0 sigma : ℝ) :
    (0 < p0 → p0 < 1 → ∃ o : SubsetObj.Obj n, SubsetObj.new p0 sigma = .ok o ∧ SubsetObj.getFailure o = none ∧
      SubsetObj.getBeta o = none ∧ o.cov = none ∧ o.nLevels = none ∧ o.thresholds = [] ∧ o.probs = [] ∧
      SubsetObj.showResults o = .error .valueError) ∧
    (p0 ≤ 0 ∨ 1 ≤ p0 → (SubsetObj.new p0 sigma : Except PyErr (SubsetObj.Obj n)) = .error .valueError) := by
  constructor
  · intro h0 h1
    unfold SubsetObj.new
    rw [if_neg (not_not.2 ⟨h0, h1⟩)]
    exact ⟨_, rfl, rfl, rfl, rfl, rfl, rfl, rfl, rfl⟩
  · intro h
    unfold SubsetObj.new
    rw [if_pos]
    rintro ⟨h0, h1⟩
    rcases h with h | h <;> linarith

/-- C83: over any history, `Pf`, `beta`, `cov` and the number of levels are those of the last completed run, as a new object would have
computed it from the same places of the random streams; the thresholds and conditional probabilities are those of the last run that
got past `init_run`, completed or not. -/
theorem C83_history (ω υ : ℕ → ℝ) (p0 sigma : ℝ) (h : List SubsetObj.Event) (o0 : SubsetObj.Obj n)
    (h0 : SubsetObj.new p0 sigma = .ok o0) (ev ev' : Ev Marginal) (pos upos pos' upos' : ℕ)
    (outs : List (SubsetObj.Obj n × Except PyErr Unit))
    (hh : subsetRuns ω υ p0 sigma h ev pos upos = some (ev', pos', upos', outs)) :
    ∃ o, SubsetObj.history ω υ h o0 ev pos upos = some (o, ev', pos', upos') ∧
      SubsetObj.getFailure o = (lastCompleted (outs.map subsetOutcome)).bind SubsetObj.getFailure ∧
      SubsetObj.getBeta o = (lastCompleted (outs.map subsetOutcome)).bind SubsetObj.getBeta ∧
      o.cov = (lastCompleted (outs.map subsetOutcome)).bind (·.cov) ∧
      o.nLevels = (lastCompleted (outs.map subsetOutcome)).bind (·.nLevels) ∧
      (o.thresholds, o.probs) = (lastWritten subsetLists outs).getD ([], []) := by
  unfold SubsetObj.new at h0
  split at h0
  · cases h0
  simp only [Except.ok.injEq] at h0
  subst h0
  obtain ⟨o, ho, hA⟩ := subsetHistory_from ω υ h ⟨false, none, p0, sigma, none, none, none, [], [], none⟩ ev ev' pos upos pos' upos' outs hh
  refine ⟨o, ho, ?_, ?_, ?_, ?_, hA.lists⟩
  · rw [SubsetObj.getFailure, hA.Pf]
    exact Option.or_none.trans (lastCompleted_subset (·.Pf) outs (fun x hx hok => by
      obtain ⟨_, _, _, _, _, -, -, h, -⟩ := (hA.facts x hx).done hok; rw [h]; rfl) (fun x hx e he => ((hA.facts x hx).raised e he).2.1))
  · rw [SubsetObj.getBeta, hA.beta]
    exact Option.or_none.trans (lastCompleted_subset (·.beta) outs (fun x hx hok => by
      obtain ⟨_, _, _, _, _, -, -, -, h, -⟩ := (hA.facts x hx).done hok; rw [h]; rfl)
      (fun x hx e he => ((hA.facts x hx).raised e he).2.2.1))
  · rw [hA.cov]
    exact Option.or_none.trans (lastCompleted_subset (·.cov) outs (fun x hx hok => by
      obtain ⟨_, _, _, _, _, -, -, -, -, h, -⟩ := (hA.facts x hx).done hok; rw [h]; rfl)
      (fun x hx e he => ((hA.facts x hx).raised e he).2.2.2.1))
  · rw [hA.nLevels]
    exact Option.or_none.trans (lastCompleted_subset (·.nLevels) outs (fun x hx hok => by
      obtain ⟨_, _, _, _, _, -, h, -⟩ := (hA.facts x hx).done hok; rw [h]; rfl) (fun x hx e he => ((hA.facts x hx).raised e he).1))

/-- C83, the report after any history: before a run it raises `ValueError`, before a completed run `TypeError`; otherwise it shows the
results of the last completed run, beside the thresholds and conditional probabilities of the last run that got past `init_run`. -/
theorem C83_report (ω υ : ℕ → ℝ) (p0 sigma : ℝ) (h : List SubsetObj.Event) (o0 : SubsetObj.Obj n)
    (h0 : SubsetObj.new p0 sigma = .ok o0) (ev ev' : Ev Marginal) (pos upos pos' upos' : ℕ)
    (outs : List (SubsetObj.Obj n × Except PyErr Unit))
    (hh : subsetRuns ω υ p0 sigma h ev pos upos = some (ev', pos', upos', outs)) :
    ∃ o, SubsetObj.history ω υ h o0 ev pos upos = some (o, ev', pos', upos') ∧
      (outs = [] → SubsetObj.showResults o = .error .valueError) ∧
      (outs ≠ [] → lastCompleted (outs.map subsetOutcome) = none → SubsetObj.showResults o = .error .typeError) ∧
      ∀ a, lastCompleted (outs.map subsetOutcome) = some a → ∃ sh, SubsetObj.showResults o = .ok sh ∧
        SubsetObj.getFailure a = some sh.Pf ∧ SubsetObj.getBeta a = some sh.beta ∧ a.cov = some sh.cov ∧ a.nLevels = sh.nLevels ∧
        sh.nLevels.isSome ∧ sh.lines = (((lastWritten subsetLists outs).getD ([], [])).1.zip
          ((lastWritten subsetLists outs).getD ([], [])).2) := by
  obtain ⟨o, ho, e1, e2, e3, e4, e5⟩ := C83_history ω υ p0 sigma h o0 h0 ev ev' pos upos pos' upos' outs hh
  unfold SubsetObj.new at h0
  split at h0
  · cases h0
  simp only [Except.ok.injEq] at h0
  subst h0
  obtain ⟨o', ho', hA⟩ := subsetHistory_from ω υ h ⟨false, none, p0, sigma, none, none, none, [], [], none⟩ ev ev' pos upos pos' upos' outs hh
  rw [ho] at ho'
  simp only [Option.some.injEq, Prod.mk.injEq, and_true] at ho'
  subst ho'
  unfold SubsetObj.getFailure at e1
  unfold SubsetObj.getBeta at e2
  refine ⟨o, ho, ?_, ?_, ?_⟩
  · rintro rfl
    have : o.resultsValid = false := by rw [hA.valid]; rfl
    unfold SubsetObj.showResults
    rw [this]; rfl
  · intro hne hno
    have : o.resultsValid = true := by
      rw [hA.valid]
      cases outs with
      | nil => exact absurd rfl hne
      | cons x l => rfl
    unfold SubsetObj.showResults
    rw [hno, Option.bind_none] at e2
    rw [this, e2]; rfl
  · intro a ha
    have hmem : ∃ x ∈ outs, x.2 = .ok () ∧ x.1 = a := by
      unfold lastCompleted at ha
      obtain ⟨q, hq, hqa⟩ := List.mem_filterMap.1 (List.mem_of_getLast? ha)
      obtain ⟨y, hy, rfl⟩ := List.mem_map.1 hq
      unfold subsetOutcome at hqa
      rcases hy2 : y.2 with e | u
      · rw [hy2] at hqa; cases hqa
      · rw [hy2] at hqa
        simp only [Option.some.injEq] at hqa
        exact ⟨y, hy, hy2, hqa⟩
    obtain ⟨x, hx, hxok, rfl⟩ := hmem
    obtain ⟨t, k, Pf, b, c, f1, f2, f3, f4, f5, -⟩ := (hA.facts x hx).done hxok
    have hv : o.resultsValid = true := by
      rw [hA.valid]
      cases outs with
      | nil => cases hx
      | cons x l => rfl
    rw [ha, Option.bind_some] at e1 e2 e3 e4
    rw [f3] at e1
    rw [f4] at e2
    rw [f5] at e3
    rw [f2] at e4
    unfold SubsetObj.showResults
    rw [hv, e1, e2, e3]
    refine ⟨_, rfl, f3, f4, f5, by rw [f2, e4], by rw [e4]; rfl, ?_⟩
    rw [← e5]

/-- C83: when the last run was completed, the report is exactly that of a new object which runs it, with one line for every level. -/
theorem C83_last (ω υ : ℕ → ℝ) (p0 sigma : ℝ) (h : List SubsetObj.Event) (o0 : SubsetObj.Obj n)
    (h0 : SubsetObj.new p0 sigma = .ok o0) (ev ev' : Ev Marginal) (pos upos pos' upos' : ℕ)
    (l : List (SubsetObj.Obj n × Except PyErr Unit)) (a : SubsetObj.Obj n)
    (hh : subsetRuns ω υ p0 sigma h ev pos upos = some (ev', pos', upos', l ++ [(a, .ok ())])) :
    ∃ o sh, SubsetObj.history ω υ h o0 ev pos upos = some (o, ev', pos', upos') ∧
      SubsetObj.showResults o = SubsetObj.showResults a ∧ SubsetObj.showResults a = .ok sh ∧
      sh.nLevels = some sh.lines.length ∧ (sh.lines.map Prod.fst).getLast? = some 0 ∧
      o.thresholds = a.thresholds ∧ o.probs = a.probs ∧ SubsetObj.getFailure o = SubsetObj.getFailure a ∧
      SubsetObj.getBeta o = SubsetObj.getBeta a ∧ o.cov = a.cov ∧ o.nLevels = a.nLevels := by
  obtain ⟨o, ho, e1, e2, e3, e4, e5⟩ := C83_history ω υ p0 sigma h o0 h0 ev ev' pos upos pos' upos' _ hh
  unfold SubsetObj.new at h0
  split at h0
  · cases h0
  simp only [Except.ok.injEq] at h0
  subst h0
  obtain ⟨o', ho', hA⟩ := subsetHistory_from ω υ h ⟨false, none, p0, sigma, none, none, none, [], [], none⟩ ev ev' pos upos pos' upos' _ hh
  rw [ho] at ho'
  simp only [Option.some.injEq, Prod.mk.injEq, and_true] at ho'
  subst ho'
  have hf := hA.facts (a, .ok ()) (by simp)
  obtain ⟨t, k, Pf, b, c, f1, f2, f3, f4, f5, f6, f7⟩ := hf.done rfl
  have hlen := hf.lengths
  have hva := hf.valid
  dsimp only at f1 f2 f3 f4 f5 f6 f7 hlen hva
  have hlast : lastCompleted ((l ++ [(a, (Except.ok () : Except PyErr Unit))]).map subsetOutcome) = some a := by
    simp [lastCompleted, subsetOutcome]
  rw [hlast, Option.bind_some] at e1 e2 e3 e4
  have hls : lastWritten subsetLists (l ++ [(a, (Except.ok () : Except PyErr Unit))]) = some (a.thresholds, a.probs) := by
    rw [lastWritten_append, lastWritten_cons]
    simp [lastWritten, subsetLists, f1]
  rw [hls, Option.getD_some, Prod.mk.injEq] at e5
  have hv : o.resultsValid = true := by rw [hA.valid]; simp
  unfold SubsetObj.getFailure at e1
  unfold SubsetObj.getBeta at e2
  refine ⟨o, ⟨b, Pf, c, a.nLevels, a.thresholds.zip a.probs⟩, ho, ?_, ?_, ?_, ?_, e5.1, e5.2, e1, e2, e3, e4⟩
  · unfold SubsetObj.showResults
    rw [hv, hva, e1, e2, e3, e4, e5.1, e5.2]
  · unfold SubsetObj.showResults
    rw [hva, f3, f4, f5]; rfl
  · dsimp only
    rw [f2, List.length_zip, ← hlen, min_self, f6]
  · dsimp only
    rw [List.map_fst_zip hlen.le, f7]

/-- C83: when the last run raised after `init_run`, the report (if there was a completed run before) mixes the two: the probability, index,
coefficient of variation and number of levels of the last completed run beside the levels that the failed run had finished, whose
thresholds are all positive. -/
theorem C83_mixed (ω υ : ℕ → ℝ) (p0 sigma : ℝ) (h : List SubsetObj.Event) (o0 : SubsetObj.Obj n)
    (h0 : SubsetObj.new p0 sigma = .ok o0) (ev ev' : Ev Marginal) (pos upos pos' upos' : ℕ)
    (l : List (SubsetObj.Obj n × Except PyErr Unit)) (a b : SubsetObj.Obj n) (e : PyErr)
    (ha : lastCompleted (l.map subsetOutcome) = some a) (hb : b.transform.isSome)
    (hh : subsetRuns ω υ p0 sigma h ev pos upos = some (ev', pos', upos', l ++ [(b, .error e)])) :
    ∃ o sh, SubsetObj.history ω υ h o0 ev pos upos = some (o, ev', pos', upos') ∧ SubsetObj.showResults o = .ok sh ∧
      SubsetObj.getFailure a = some sh.Pf ∧ SubsetObj.getBeta a = some sh.beta ∧ a.cov = some sh.cov ∧ a.nLevels = sh.nLevels ∧
      sh.lines = b.thresholds.zip b.probs ∧ ∀ x ∈ sh.lines, 0 < x.1 := by
  obtain ⟨o, ho, -, -, hr⟩ := C83_report ω υ p0 sigma h o0 h0 ev ev' pos upos pos' upos' _ hh
  have hl : lastCompleted ((l ++ [(b, (Except.error e : Except PyErr Unit))]).map subsetOutcome) = some a := by
    rw [← ha]
    simp [lastCompleted, subsetOutcome, List.filterMap_append]
  obtain ⟨sh, q1, q2, q3, q4, q5, -, q7⟩ := hr a hl
  obtain ⟨t, ht⟩ := Option.isSome_iff_exists.1 hb
  have hls : lastWritten subsetLists (l ++ [(b, (Except.error e : Except PyErr Unit))]) = some (b.thresholds, b.probs) := by
    rw [lastWritten_append, lastWritten_cons]
    simp [lastWritten, subsetLists, ht]
  rw [hls] at q7
  refine ⟨o, sh, ho, q1, q2, q3, q4, q5, q7, ?_⟩
  unfold SubsetObj.new at h0
  split at h0
  · cases h0
  simp only [Except.ok.injEq] at h0
  subst h0
  obtain ⟨o', ho', hA⟩ := subsetHistory_from ω υ h ⟨false, none, p0, sigma, none, none, none, [], [], none⟩ ev ev' pos upos pos' upos' _ hh
  intro x hx
  rw [q7] at hx
  obtain ⟨-, -, -, -, hpos⟩ := (hA.facts (b, .error e) (by simp)).raised e rfl
  exact hpos x.1 (List.of_mem_zip (a := x.1) (b := x.2) hx).1

/-- C83: a run taken on its own is the subset simulation of the model as it is, with the draws from its positions on. -/
theorem C83_fresh {m : ℕ} (st : SubsetObj.Settings) (ω υ : ℕ → ℝ) (p0 sigma : ℝ) (hp : 0 < p0 ∧ p0 < 1) (ev : Ev Marginal)
    (pos upos : ℕ) :
    let job := Session.runJob (m := m) st.c (.subset ⟨st.N, st.block, p0, sigma⟩ (fun k => ω (pos + k)) (fun k => υ (upos + k))) ev
    match subsetAlone (n := m + 1) st ω υ p0 sigma ev pos upos with
    | none => job = none
    | some (_, ev', _, _, .error e) => job = some (ev', .raised e)
    | some (a, ev', pos', _, .ok _) => ∃ r, job = some (ev', .subset r) ∧ SubsetObj.getFailure a = some r.Pf ∧
        SubsetObj.getBeta a = some r.beta ∧ a.cov = some r.cov ∧ a.nLevels = some r.nLevels ∧ a.thresholds = r.thresholds ∧
        a.probs = r.probs ∧ pos' = pos + (m + 1) * st.N := by
  intro job
  simp only [job]
  unfold subsetAlone SubsetObj.run Session.runJob Session.withInit
  rcases hI : Session.initRun st.c (m + 1) ev with ⟨ev1, e | t⟩
  · simp only [hI]
  · simp only [hI]
    have h := SubsetObj.sample_rep (t := t) (marg := Session.margN (m + 1) st.c.default ev1.model)
      (ev := Session.evaluator st.c (m + 1) ev1.model) ⟨st.N, st.block, p0, sigma⟩ hp (fun k => ω (pos + k)) υ upos st.c.fuel ev1
    rcases hr : Subset.run t (Session.margN (m + 1) st.c.default ev1.model) (Session.evaluator st.c (m + 1) ev1.model)
      ⟨st.N, st.block, p0, sigma⟩ (fun k => ω (pos + k)) (fun k => υ (upos + k)) st.c.fuel ev1 with _ | ⟨e, s⟩ | r <;> rw [hr] at h <;>
      dsimp only at h
    · rw [h]; rfl
    · obtain ⟨l, q, h⟩ := h
      rw [h]; rfl
    · obtain ⟨q, h, hfin⟩ := h
      rw [h]
      refine ⟨r.forget, rfl, rfl, ?_, ?_, rfl, rfl, rfl, rfl⟩
      · show some _ = some r.beta
        rw [hfin]; rfl
      · show some _ = some r.cov
        rw [hfin]; rfl

end Pystra.Props
