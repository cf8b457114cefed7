import Verif.Props.MonteCarloObject
import Verif.Props.Importance

/-! C81: what a simulation object reports.  C82: the running estimates and their plots. -/

namespace Pystra.Props
open Spec Transformation Form MonteCarlo

variable {σ : Type} {n : ℕ}

/-- The object's report when its arrays and counters come from one run. -/
theorem show_ok (kind : McObj.Kind) {o : McObj.Obj n} (hv : o.resultsValid = true) {k b N : ℕ} {q : List ℝ} {c : List (Option ℝ)}
    (hk : o.k = some k) (hbl : o.blockSize = some b) (hq : o.qBar = some q) (hc : o.cov = some c) (hb : 1 ≤ b) (hbk : b ≤ k)
    (hkN : k ≤ N) (hql : q.length = N) (hcl : c.length = N) :
    ∃ sh, McObj.showResults kind o = .ok sh ∧ sh.k = k ∧ sh.Pf = o.Pf ∧ sh.beta = o.beta ∧ c[k - 1]? = some sh.cov ∧
      match kind with
      | .importance => sh.plots = none
      | .crude => ∃ p, sh.plots = some p ∧ McObj.plots k b q c = .ok p := by
  have hlt : k - 1 < c.length := by omega
  unfold McObj.showResults
  rw [hv, hk, hc]
  simp only [Bool.not_true, Bool.false_eq_true, if_false, List.getElem?_eq_getElem hlt]
  cases kind with
  | importance => exact ⟨_, rfl, rfl, rfl, rfl, rfl, rfl⟩
  | crude =>
    obtain ⟨p, hp, -⟩ := McObj.plots_ok hb hbk hkN hql hcl
    rw [hbl, hq]
    simp only [Option.getD_some, hp]
    exact ⟨_, rfl, rfl, rfl, rfl, rfl, p, rfl, rfl⟩

/-- Where the attributes that a report reads come from. -/
theorem lastWritten_cases (l : List (McObj.Obj n × Except PyErr Unit)) (hl : ∀ x ∈ l, McFact x) :
    ((∀ x ∈ l, x.1.k = none) ∧ lastWritten (fun r => r.1.k) l = none ∧ lastWritten (fun r => r.1.blockSize) l = none ∧
      (lastWritten (fun r => r.1.qBar) l = none ∧ lastWritten (fun r => r.1.cov) l = none ∨
        lastWritten (fun r => r.1.qBar) l = some [] ∧ lastWritten (fun r => r.1.cov) l = some [])) ∨
    ((∃ x ∈ l, x.1.k.isSome) ∧ (lastWritten (fun r => r.1.k) l).isSome ∧ lastWritten (fun r => r.1.cov) l = some []) ∨
    (∃ x ∈ l, x.1.k.isSome ∧ lastWritten (fun r => r.1.k) l = x.1.k ∧ lastWritten (fun r => r.1.blockSize) l = x.1.blockSize ∧
      lastWritten (fun r => r.1.qBar) l = x.1.qBar ∧ lastWritten (fun r => r.1.cov) l = x.1.cov) := by
  induction l with
  | nil => left; exact ⟨by simp, rfl, rfl, Or.inl ⟨rfl, rfl⟩⟩
  | cons x l ih =>
    simp only [lastWritten_cons]
    obtain ⟨-, -, hx⟩ := (hl x List.mem_cons_self).arrays
    rcases ih (fun y hy => hl y (List.mem_cons_of_mem _ hy)) with ⟨h0, h1, h2, h3⟩ | ⟨⟨y, hy, hyk⟩, h1, h2⟩ | ⟨y, hy, hyk, h1, h2, h3, h4⟩
    · rw [h1, h2]
      rcases hx with ⟨g1, g2, g3, -⟩ | ⟨k, b, q, c, N, g1, g2, g3, g4, -⟩
      · left
        refine ⟨fun z hz => ?_, by simpa using g1, by simpa using g2, ?_⟩
        · rcases List.mem_cons.1 hz with rfl | hz
          · exact g1
          · exact h0 z hz
        · rcases h3 with ⟨e1, e2⟩ | ⟨e1, e2⟩
          · rw [e1, e2]; simpa using g3
          · rw [e1, e2]; right; exact ⟨rfl, rfl⟩
      · right
        rcases h3 with ⟨e1, e2⟩ | ⟨e1, e2⟩
        · right
          rw [e1, e2]
          exact ⟨x, List.mem_cons_self, by rw [g1]; rfl, rfl, rfl, rfl, rfl⟩
        · left
          rw [e2, g1]
          exact ⟨⟨x, List.mem_cons_self, by rw [g1]; rfl⟩, rfl, rfl⟩
    · right; left
      refine ⟨⟨y, List.mem_cons_of_mem _ hy, hyk⟩, ?_, by rw [h2]; rfl⟩
      rw [or_of_isSome h1]; exact h1
    · right; right
      refine ⟨y, List.mem_cons_of_mem _ hy, hyk, ?_⟩
      obtain ⟨-, -, hyy⟩ := (hl y (List.mem_cons_of_mem _ hy)).arrays
      rcases hyy with ⟨g1, -⟩ | ⟨k, b, q, c, N, g1, g2, g3, g4, -⟩
      · rw [g1] at hyk; cases hyk
      · rw [h1, h2, h3, h4, g1, g2, g3, g4]
        exact ⟨rfl, rfl, rfl, rfl⟩

/-- C81, the report after any history: without a run it raises `ValueError`, without a run that reached the sampling loop `TypeError`;
after a run with no samples (which leaves empty arrays behind) `IndexError`; otherwise it shows the object's `Pf` and `beta`, the
number of simulations and the entry of the running coefficients of variation at that number. -/
theorem C81_report (kind : McObj.Kind) (ω : ℕ → ℝ) (point : Option (Fin n → ℝ)) (h : List McObj.Event)
    (hg : ∀ st, .run st ∈ h → st.opt.randomGenerator = 0 ∧ 1 ≤ st.opt.blockSize) (ev ev' : Ev Marginal) (pos pos' : ℕ)
    (outs : List (McObj.Obj n × Except PyErr Unit)) (hh : mcRuns kind ω point h ev pos = some (ev', pos', outs)) :
    ∃ o, McObj.history kind ω h (McObj.fresh point) ev pos = some (o, ev', pos') ∧
      (outs = [] → McObj.showResults kind o = .error .valueError) ∧
      (outs ≠ [] → (∀ x ∈ outs, x.1.k = none) → McObj.showResults kind o = .error .typeError) ∧
      ((∃ x ∈ outs, x.1.k.isSome) → o.cov = some [] → McObj.showResults kind o = .error .indexError) ∧
      ((∃ x ∈ outs, x.1.k.isSome) → o.cov ≠ some [] → ∃ sh c, McObj.showResults kind o = .ok sh ∧ o.k = some sh.k ∧
        sh.Pf = McObj.getFailure o ∧ sh.beta = McObj.getBeta o ∧ o.cov = some c ∧ c[sh.k - 1]? = some sh.cov ∧
        (sh.plots.isSome ↔ kind = .crude)) := by
  obtain ⟨o, ho, hA⟩ := mcHistory_from kind ω h (fun st hm => (hg st hm).1) (McObj.fresh point) rfl ev ev' pos pos' outs hh
  have hF := mcRuns_fact kind ω h hg ev ev' pos pos' outs hh
  have hk : o.k = lastWritten (fun r => r.1.k) outs := by rw [hA.k]; exact Option.or_none
  have hbl : o.blockSize = lastWritten (fun r => r.1.blockSize) outs := by rw [hA.blockSize]; exact Option.or_none
  have hq : o.qBar = lastWritten (fun r => r.1.qBar) outs := by rw [hA.qBar]; exact Option.or_none
  have hc : o.cov = lastWritten (fun r => r.1.cov) outs := by rw [hA.cov]; exact Option.or_none
  refine ⟨o, ho, ?_, ?_, ?_, ?_⟩
  · intro he
    have : o.resultsValid = false := by rw [hA.valid, he]; rfl
    unfold McObj.showResults
    rw [this]; rfl
  · intro hne hno
    have hv : o.resultsValid = true := by
      rw [hA.valid]
      cases outs with
      | nil => exact absurd rfl hne
      | cons x l => rfl
    rcases lastWritten_cases outs hF with ⟨-, h1, -⟩ | ⟨⟨x, hx, hxk⟩, -⟩ | ⟨x, hx, hxk, -⟩
    · unfold McObj.showResults
      rw [hv, hk, h1]; rfl
    · rw [hno x hx] at hxk; cases hxk
    · rw [hno x hx] at hxk; cases hxk
  · rintro ⟨x, hx, hxk⟩ hce
    have hv : o.resultsValid = true := by
      rw [hA.valid]
      cases outs with
      | nil => cases hx
      | cons x l => rfl
    have hks : o.k.isSome := by
      rcases lastWritten_cases outs hF with ⟨h0, -⟩ | ⟨-, h1, -⟩ | ⟨y, -, hyk, h1, -⟩
      · rw [h0 x hx] at hxk; cases hxk
      · rw [hk]; exact h1
      · rw [hk, h1]; exact hyk
    obtain ⟨k, hk'⟩ := Option.isSome_iff_exists.1 hks
    unfold McObj.showResults
    rw [hv, hk', hce]; rfl
  · rintro ⟨x, hx, hxk⟩ hce
    have hv : o.resultsValid = true := by
      rw [hA.valid]
      cases outs with
      | nil => cases hx
      | cons x l => rfl
    rcases lastWritten_cases outs hF with ⟨h0, -⟩ | ⟨-, -, h1⟩ | ⟨y, hy, hyk, h1, h2, h3, h4⟩
    · rw [h0 x hx] at hxk; cases hxk
    · exact absurd (hc.trans h1) hce
    · obtain ⟨-, -, hyy⟩ := (hF y hy).arrays
      rcases hyy with ⟨g1, -⟩ | ⟨k, b, q, c, N, g1, g2, g3, g4, e1, e2, e3, e4, e5, -⟩
      · rw [g1] at hyk; cases hyk
      · have hk' := hk.trans (h1.trans g1)
        have hc' := hc.trans (h4.trans g4)
        obtain ⟨sh, s1, s2, s3, s4, s5, s6⟩ := show_ok kind hv hk' (hbl.trans (h2.trans g2)) (hq.trans (h3.trans g3)) hc' e1 e2 e3 e4 e5
        refine ⟨sh, c, s1, by rw [s2]; exact hk', s3, s4, hc', by rw [s2]; exact s5, ?_⟩
        cases kind with
        | importance => rw [show sh.plots = none from s6]; simp
        | crude => obtain ⟨p, hp, -⟩ := s6; rw [hp]; simp

/-- C81: when the last run was completed, the report is exactly that of a new object making this run, and it does not raise. -/
theorem C81_last (kind : McObj.Kind) (ω : ℕ → ℝ) (point : Option (Fin n → ℝ)) (h : List McObj.Event)
    (hg : ∀ st, .run st ∈ h → st.opt.randomGenerator = 0 ∧ 1 ≤ st.opt.blockSize) (ev ev' : Ev Marginal) (pos pos' : ℕ)
    (l : List (McObj.Obj n × Except PyErr Unit)) (a : McObj.Obj n)
    (hh : mcRuns kind ω point h ev pos = some (ev', pos', l ++ [(a, .ok ())])) :
    ∃ o sh c, McObj.history kind ω h (McObj.fresh point) ev pos = some (o, ev', pos') ∧
      McObj.getFailure o = McObj.getFailure a ∧ McObj.getBeta o = McObj.getBeta a ∧ o.k = a.k ∧ o.qBar = a.qBar ∧ o.cov = a.cov ∧
      McObj.showResults kind o = McObj.showResults kind a ∧ McObj.showResults kind a = .ok sh ∧
      McObj.getFailure a = sh.Pf ∧ sh.Pf.isSome ∧ McObj.getBeta a = sh.beta ∧ sh.beta.isSome ∧ sh.cov = some c := by
  obtain ⟨o, ho, hA⟩ := mcHistory_from kind ω h (fun st hm => (hg st hm).1) (McObj.fresh point) rfl ev ev' pos pos' _ hh
  have hF := mcRuns_fact kind ω h hg ev ev' pos pos' _ hh (a, .ok ()) (by simp)
  obtain ⟨f1, f2, f3⟩ := hF.arrays
  have hyes : ∃ a', mcOutcome (a, (Except.ok () : Except PyErr Unit)) = .ok a' := ⟨a, rfl⟩
  have p1 : a.Pf.isSome := f1.2 hyes
  have p2 : a.beta.isSome := f2.2 hyes
  obtain ⟨k, b, q, c, N, g1, g2, g3, g4, e1, e2, e3, e4, e5, e6, -⟩ := f3.resolve_left (fun h => h.2.2.2 hyes)
  dsimp only at g1 g2 g3 g4
  have hv : o.resultsValid = true := by rw [hA.valid]; simp
  have hlast : ∀ {β : Type} (f : McObj.Obj n × Except PyErr Unit → Option β), (f (a, .ok ())).isSome →
      lastWritten f (l ++ [(a, .ok ())]) = f (a, .ok ()) := by
    intro β f hf
    have e : lastWritten f [(a, .ok ())] = f (a, .ok ()) := by rw [lastWritten_cons]; rfl
    rw [lastWritten_append, e, or_of_isSome hf]
  have hPf : o.Pf = a.Pf := by rw [hA.Pf, hlast _ p1]; exact Option.or_none
  have hbeta : o.beta = a.beta := by rw [hA.beta, hlast _ p2]; exact Option.or_none
  have hk : o.k = a.k := by rw [hA.k, hlast _ (by dsimp only; rw [g1]; rfl)]; exact Option.or_none
  have hbl : o.blockSize = a.blockSize := by rw [hA.blockSize, hlast _ (by dsimp only; rw [g2]; rfl)]; exact Option.or_none
  have hq : o.qBar = a.qBar := by rw [hA.qBar, hlast _ (by dsimp only; rw [g3]; rfl)]; exact Option.or_none
  have hc : o.cov = a.cov := by rw [hA.cov, hlast _ (by dsimp only; rw [g4]; rfl)]; exact Option.or_none
  have hva : a.resultsValid = true := by
    have : ∀ (h : List McObj.Event) (ev : Ev Marginal) (pos : ℕ) outs, mcRuns kind ω point h ev pos = some (ev', pos', outs) →
        (∀ st, .run st ∈ h → st.opt.randomGenerator = 0) → ∀ x ∈ outs, x.1.resultsValid = true := by
      intro h
      induction h with
      | nil =>
        intro ev pos outs hh _
        simp only [mcRuns, Option.some.injEq, Prod.mk.injEq] at hh
        obtain ⟨rfl, rfl, rfl⟩ := hh
        simp
      | cons e h ih =>
        intro ev pos outs hh hgen
        cases e with
        | world f k => exact ih _ _ _ hh (fun st hm => hgen st (List.mem_cons_of_mem _ hm))
        | run st =>
          have hr := mcRun_over kind (hgen st List.mem_cons_self) ω (point := point) (old := McObj.fresh point) rfl ev pos
          simp only [mcRuns] at hh
          rcases ha : mcAlone kind st ω point ev pos with _ | ⟨a, ev1, pos1, r⟩
          · rw [ha] at hh; cases hh
          rw [ha] at hh hr
          dsimp only at hh hr
          rcases hm : mcRuns kind ω point h ev1 pos1 with _ | ⟨ev2, pos2, l⟩
          · rw [hm] at hh; cases hh
          rw [hm] at hh
          simp only [Option.map_some, Option.some.injEq, Prod.mk.injEq] at hh
          obtain ⟨rfl, rfl, rfl⟩ := hh
          intro x hx
          rcases List.mem_cons.1 hx with rfl | hx
          · obtain ⟨b, -, -, -, hv⟩ := hr; exact hv
          · exact ih _ _ _ hm (fun st hm => hgen st (List.mem_cons_of_mem _ hm)) x hx
    exact this h ev pos _ hh (fun st hm => (hg st hm).1) (a, .ok ()) (by simp)
  obtain ⟨sh, s1, s2, s3, s4, s5, -⟩ := show_ok kind hva g1 g2 g3 g4 e1 e2 e3 e4 e5
  obtain ⟨v, hvv⟩ := e6 hyes
  refine ⟨o, sh, v, ho, hPf, hbeta, hk, hq, hc, ?_, s1, s3.symm, s3 ▸ p1, s4.symm, s4 ▸ p2, ?_⟩
  · unfold McObj.showResults
    rw [hv, hva, hPf, hbeta, hk, hbl, hq, hc]
  · rw [hvv, Option.some.injEq] at s5
    exact s5.symm

/-- C81: when the last run raised inside its sampling loop, the report does not raise: it shows `Pf` and `beta` of the last completed
run (or `None`) beside the number of simulations at which the last run stopped, and NaN as the coefficient of variation (1.0 if it
stopped in a first block of one sample). -/
theorem C81_mixed (kind : McObj.Kind) (ω : ℕ → ℝ) (point : Option (Fin n → ℝ)) (h : List McObj.Event)
    (hg : ∀ st, .run st ∈ h → st.opt.randomGenerator = 0 ∧ 1 ≤ st.opt.blockSize) (ev ev' : Ev Marginal) (pos pos' : ℕ)
    (l : List (McObj.Obj n × Except PyErr Unit)) (b : McObj.Obj n) (e : PyErr) (k : ℕ) (hk : b.k = some k)
    (hh : mcRuns kind ω point h ev pos = some (ev', pos', l ++ [(b, .error e)])) :
    ∃ o sh, McObj.history kind ω h (McObj.fresh point) ev pos = some (o, ev', pos') ∧ McObj.showResults kind o = .ok sh ∧
      sh.Pf = (lastCompleted (l.map mcOutcome)).bind McObj.getFailure ∧
      sh.beta = (lastCompleted (l.map mcOutcome)).bind McObj.getBeta ∧
      sh.k = k ∧ sh.cov = (if k = 1 then some 1 else none) := by
  obtain ⟨o, ho, hA⟩ := mcHistory_from kind ω h (fun st hm => (hg st hm).1) (McObj.fresh point) rfl ev ev' pos pos' _ hh
  have hFs := mcRuns_fact kind ω h hg ev ev' pos pos' _ hh
  have hF := hFs (b, .error e) (by simp)
  obtain ⟨f1, f2, f3⟩ := hF.arrays
  have hno : ¬ ∃ a', mcOutcome (b, (Except.error e : Except PyErr Unit)) = .ok a' := by rintro ⟨a', h⟩; cases h
  obtain ⟨k', bb, q, c, N, g1, g2, g3, g4, e1, e2, e3, e4, e5, -, e6⟩ := f3.resolve_left (fun h => by
    have := h.1; dsimp only at this; rw [hk] at this; cases this)
  dsimp only at g1 g2 g3 g4
  rw [hk, Option.some.injEq] at g1
  subst g1
  have hv : o.resultsValid = true := by rw [hA.valid]; simp
  have hlast : ∀ {β : Type} (f : McObj.Obj n × Except PyErr Unit → Option β), (f (b, .error e)).isSome →
      lastWritten f (l ++ [(b, .error e)]) = f (b, .error e) := by
    intro β f hf
    have e : lastWritten f [(b, .error e)] = f (b, .error e) := by rw [lastWritten_cons]; rfl
    rw [lastWritten_append, e, or_of_isSome hf]
  have hk' : o.k = some k := by rw [hA.k, hlast _ (by dsimp only; rw [hk]; rfl)]; exact Option.or_none.trans hk
  have hbl : o.blockSize = some bb := by rw [hA.blockSize, hlast _ (by dsimp only; rw [g2]; rfl)]; exact Option.or_none.trans g2
  have hq : o.qBar = some q := by rw [hA.qBar, hlast _ (by dsimp only; rw [g3]; rfl)]; exact Option.or_none.trans g3
  have hc : o.cov = some c := by rw [hA.cov, hlast _ (by dsimp only; rw [g4]; rfl)]; exact Option.or_none.trans g4
  obtain ⟨sh, s1, s2, s3, s4, s5, -⟩ := show_ok kind hv hk' hbl hq hc e1 e2 e3 e4 e5
  obtain ⟨c1, c2⟩ := lastCompleted_mc l (fun x hx => hFs x (List.mem_append_left _ hx))
  have n1 : b.Pf = none := by
    have := f1.not.2 hno
    simpa using this
  have n2 : b.beta = none := by
    have := f2.not.2 hno
    simpa using this
  refine ⟨o, sh, ho, s1, ?_, ?_, s2, ?_⟩
  · have e : lastWritten (fun r : McObj.Obj n × Except PyErr Unit => r.1.Pf) [(b, .error e)] = none := by
      rw [lastWritten_cons]; exact n1
    rw [s3, ← c1, hA.Pf, lastWritten_append, e]
    exact Option.or_none
  · have e : lastWritten (fun r : McObj.Obj n × Except PyErr Unit => r.1.beta) [(b, .error e)] = none := by
      rw [lastWritten_cons]; exact n2
    rw [s4, ← c2, hA.beta, lastWritten_append, e]
    exact Option.or_none
  · rw [e6 hno, Option.some.injEq] at s5
    exact s5.symm

/-- The same state further along the stream. -/
def shiftState (pos : ℕ) (st : MonteCarlo.State σ n) : MonteCarlo.State σ n := { st with pos := pos + st.pos }

theorem mcLoop_shift {t : Mats n} {marg : Fin n → Marginal} {ev : Evaluator σ n} {opt : MonteCarlo.Options} {c : Fin n → ℝ} (ω : ℕ → ℝ)
    (pos : ℕ) (fuel : ℕ) : ∀ st : MonteCarlo.State σ n, MonteCarlo.loop t marg ev opt c ω fuel (shiftState pos st) =
      (MonteCarlo.loop t marg ev opt c (fun k => ω (pos + k)) fuel st).map (fun r => r.map (shiftState pos)) := by
  have hblock : ∀ st : MonteCarlo.State σ n, block t marg ev opt c ω (shiftState pos st) =
      (block t marg ev opt c (fun k => ω (pos + k)) st).map (shiftState pos) := by
    intro st
    unfold block
    have hr : ∀ b, randomNumbers opt c ω b (shiftState pos st).pos = randomNumbers opt c (fun k => ω (pos + k)) b st.pos := by
      intro b
      unfold randomNumbers randn shiftState
      simp only [Nat.add_assoc]
    simp only [hr, show (shiftState pos st).k = st.k from rfl, show (shiftState pos st).s = st.s from rfl]
    rcases randomNumbers opt c (fun k => ω (pos + k)) (min opt.blockSize (opt.samples - st.k)) st.pos with e | us
    · rfl
    · dsimp only
      rcases ev.values st.s (us.map (uToX t marg)) with ⟨s', e | G⟩
      · rfl
      · simp only [Except.map, shiftState, Nat.add_assoc]
  induction fuel with
  | zero =>
    intro st
    unfold MonteCarlo.loop
    rw [show (shiftState pos st).k = st.k from rfl]
    split <;> rfl
  | succ fuel ih =>
    intro st
    unfold MonteCarlo.loop
    rw [show (shiftState pos st).k = st.k from rfl, hblock]
    split
    · rcases block t marg ev opt c (fun k => ω (pos + k)) st with e | st1
      · rfl
      · simp only [Except.map]
        rw [show (shiftState pos st1).covQBar = st1.covQBar from rfl]
        split
        · rfl
        · exact ih st1
    · rfl

theorem mcRun_shift {t : Mats n} {marg : Fin n → Marginal} {ev : Evaluator σ n} {opt : MonteCarlo.Options} (old : Records n)
    (point : Option (Fin n → ℝ)) (ω : ℕ → ℝ) (pos fuel : ℕ) (s : σ) : runOn old t marg ev opt point ω pos fuel s =
      (runOn old t marg ev opt point (fun k => ω (pos + k)) 0 fuel s).map
        (fun r => r.map (fun r => { r with st := shiftState pos r.st })) := by
  unfold runOn
  dsimp only
  split
  · rfl
  split
  · rfl
  have h := mcLoop_shift (t := t) (marg := marg) (ev := ev) (opt := opt) (c := point.getD (fun _ => 0)) ω pos fuel
    ⟨0, 0, 0, 0, 0, 1, old.uAll, old.xAll, old.allG, old.betaAll, s⟩
  rw [show (⟨0, pos, 0, 0, 0, 1, old.uAll, old.xAll, old.allG, old.betaAll, s⟩ : MonteCarlo.State σ n) =
    shiftState pos ⟨0, 0, 0, 0, 0, 1, old.uAll, old.xAll, old.allG, old.betaAll, s⟩ from rfl, h]
  rcases MonteCarlo.loop t marg ev opt (point.getD (fun _ => 0)) (fun k => ω (pos + k)) fuel
    ⟨0, 0, 0, 0, 0, 1, old.uAll, old.xAll, old.allG, old.betaAll, s⟩ with _ | e | st <;> rfl

/-- C81: a run taken on its own is the crude Monte Carlo analysis of the model as it is, with the draws from its position on. -/
theorem C81_fresh {m : ℕ} {st : McObj.Settings} (hg : st.opt.randomGenerator = 0) (hb : 1 ≤ st.opt.blockSize) (ω : ℕ → ℝ)
    (point : Option (Fin (m + 1) → ℝ)) (ev : Ev Marginal) (pos : ℕ) :
    match mcAlone .crude st ω point ev pos with
    | none => Session.runJob st.c (.crude st.opt point (fun k => ω (pos + k))) ev = none
    | some (_, ev', _, .error e) => Session.runJob st.c (.crude st.opt point (fun k => ω (pos + k))) ev = some (ev', .raised e)
    | some (a, ev', pos', .ok _) => ∃ r, Session.runJob st.c (.crude st.opt point (fun k => ω (pos + k))) ev =
          some (ev', .simulation r) ∧ McObj.getFailure a = some r.Pf ∧ McObj.getBeta a = some r.beta ∧ a.k = some r.st.k ∧
        a.records = r.st.records ∧ pos' = pos + r.st.pos ∧ ∃ q c, a.qBar = some q ∧ a.cov = some c ∧
        q[r.st.k - 1]? = some r.st.qBar ∧ c[r.st.k - 1]? = some (some r.st.covQBar) := by
  have h := body_rep (st := st) hg hb ω (point := point) (a0 := McObj.fresh point) ⟨rfl, rfl, rfl, rfl, rfl, rfl, rfl⟩ rfl ev pos
    (V := fun _ _ => True) (I := fun _ => True) (fun _ _ _ => ⟨trivial, fun _ _ _ _ _ => ⟨trivial, trivial⟩⟩)
  unfold mcAlone McObj.run Session.runJob Session.withInit
  simp only [report_false]
  rw [show McObj.body { st with print := false } ω (McObj.fresh point) ev pos = McObj.body st ω (McObj.fresh point) ev pos from rfl]
  rcases hI : Session.initRun st.c (m + 1) ev with ⟨ev1, e | t⟩ <;> rw [hI] at h <;> dsimp only at h ⊢
  · obtain ⟨a, h1, -⟩ := h
    rw [h1]
  · unfold MonteCarlo.run at h ⊢
    rw [mcRun_shift] at h
    rcases hr : runOn Records.fresh t (Session.margN (m + 1) st.c.default ev1.model) (Session.evaluator st.c (m + 1) ev1.model) st.opt point
      (fun k => ω (pos + k)) 0 st.c.fuel ev1 with _ | ⟨e, s⟩ | r <;> rw [hr] at h <;>
      simp only [Option.map_some, Option.map_none, Except.map] at h
    · rw [h]; rfl
    · obtain ⟨a, p, h1, -⟩ := h
      rw [h1]; rfl
    · obtain ⟨a, h1, ⟨d1, d2, d3, ⟨q, c, hq, hc, -⟩, -, -, hL⟩, -⟩ := h
      rw [h1]
      exact ⟨_, rfl, d1, d2, d3.k, d3.records, rfl, q, c, hq, hc, hL.q q hq, hL.c c hc⟩

/-- C81, importance sampling: a run taken on its own is the run of C71 with the same centre. -/
theorem C81_importance {m : ℕ} {st : McObj.Settings} (hg : st.opt.randomGenerator = 0) (hb : 1 ≤ st.opt.blockSize) (ω : ℕ → ℝ)
    (centre : Fin (m + 1) → ℝ) (ev : Ev Marginal) (pos : ℕ) (print : Bool) :
    let job := Session.importanceRun st.c (m + 1) .fresh st.opt centre (fun k => ω (pos + k)) print ev
    match mcAlone .importance st ω (some centre) ev pos with
    | none => job = none
    | some (_, ev', _, .error e) => ∃ p, job = some (p, ev', .raised e)
    | some (a, ev', pos', .ok _) => ∃ r, job = some (print, ev', .simulation r) ∧ McObj.getFailure a = some r.Pf ∧
        McObj.getBeta a = some r.beta ∧ a.k = some r.st.k ∧ a.records = r.st.records ∧ pos' = pos + r.st.pos ∧
        ∃ q c, a.qBar = some q ∧ a.cov = some c ∧ q[r.st.k - 1]? = some r.st.qBar ∧ c[r.st.k - 1]? = some (some r.st.covQBar) := by
  intro job
  simp only [job]
  unfold mcAlone McObj.run Session.importanceRun
  simp only [report_false]
  rcases hI : Session.initRun st.c (m + 1) ev with ⟨ev0, e | t0⟩
  · exact ⟨print, rfl⟩
  dsimp only
  obtain ⟨a0, ha0⟩ : ∃ a0 : McObj.Obj (m + 1), a0 = { McObj.fresh (some centre) with resultsValid := true, transform := some t0 } := ⟨_, rfl⟩
  rw [← ha0]
  have h := body_rep (st := st) hg hb ω (point := some centre) (a0 := a0) (by rw [ha0]; exact ⟨rfl, rfl, rfl, rfl, rfl, rfl, rfl⟩)
    (by rw [ha0]; rfl) ev0 pos
    (V := fun _ _ => True) (I := fun _ => True) (fun _ _ _ => ⟨trivial, fun _ _ _ _ _ => ⟨trivial, trivial⟩⟩)
  rw [show McObj.body { st with print := false } ω a0 ev0 pos = McObj.body st ω a0 ev0 pos from rfl]
  rcases hI : Session.initRun st.c (m + 1) ev0 with ⟨ev1, e | t⟩ <;> rw [hI] at h <;> dsimp only at h ⊢
  · obtain ⟨a, h1, -⟩ := h
    rw [h1]
    exact ⟨false, rfl⟩
  · unfold MonteCarlo.run at h
    rw [mcRun_shift] at h
    rcases hr : runOn Records.fresh t (Session.margN (m + 1) st.c.default ev1.model) (Session.evaluator st.c (m + 1) ev1.model) st.opt
      (some centre) (fun k => ω (pos + k)) 0 st.c.fuel ev1 with _ | ⟨e, s⟩ | r <;> rw [hr] at h <;>
      simp only [Option.map_some, Option.map_none, Except.map] at h
    · rw [h]; rfl
    · obtain ⟨a, p, h1, -⟩ := h
      rw [h1]
      exact ⟨false, rfl⟩
    · obtain ⟨a, h1, ⟨d1, d2, d3, ⟨q, c, hq, hc, -⟩, -, -, hL⟩, -⟩ := h
      rw [h1]
      exact ⟨_, rfl, d1, d2, d3.k, d3.records, rfl, q, c, hq, hc, hL.q q hq, hL.c c hc⟩

section
variable {st : McObj.Settings} {ev ev1 : Ev Marginal} {t : Mats n} {P : Ev Marginal → Prop} {f : (Fin n → ℝ) → ℝ}

/-- C82, what a completed run leaves in the arrays of running estimates: at the end of every block that was evaluated, the mean of the
summands so far and its coefficient of variation; everywhere else the initial entries, zeros and NaN (1.0 at the first). -/
theorem C82_arrays (hg : st.opt.randomGenerator = 0) (hb : 1 ≤ st.opt.blockSize) (hN : 1 ≤ st.opt.samples) (hs : 0 < st.opt.stdv)
    (hf : st.opt.samples ≤ st.c.fuel) (hI : Session.initRun st.c n ev = (ev1, .ok t))
    (hev : Values (Session.evaluator st.c n ev1.model) P f) (hP : P ev1) (ω : ℕ → ℝ) (point : Option (Fin n → ℝ)) (pos : ℕ) :
    let N := st.opt.samples
    let q := summand t (Session.margN n st.c.default ev1.model) f st.opt (point.getD (fun _ => 0)) ω pos
    let S := fun k => ∑ j ∈ Finset.range k, q j
    let S2 := fun k => ∑ j ∈ Finset.range k, q j ^ 2
    ∃ a ev' pos' k b Q C, mcAlone .crude st ω point ev pos = some (a, ev', pos', .ok ()) ∧ P ev' ∧ a.k = some k ∧ a.blockSize = some b ∧
      a.qBar = some Q ∧ a.cov = some C ∧ Q.length = N ∧ C.length = N ∧ 1 ≤ k ∧ k ≤ N ∧ 1 ≤ b ∧ b ≤ k ∧
      b = (if st.opt.blockSize ∣ k then st.opt.blockSize else N % st.opt.blockSize) ∧
      (k = N ∨ st.opt.blockSize ∣ k ∧ cvOfMean k (S k) (S2 k) ≤ st.opt.cov) ∧ McObj.getFailure a = some (S k / k) ∧
      ∀ j < N, if j + 1 ≤ k ∧ (st.opt.blockSize ∣ j + 1 ∨ j + 1 = N)
        then Q[j]? = some (S (j + 1) / (j + 1 : ℕ)) ∧ C[j]? = some (some (cvOfMean (j + 1) (S (j + 1)) (S2 (j + 1))))
        else Q[j]? = some 0 ∧ C[j]? = some (if j = 0 then some 1 else none) := by
  intro N q S S2
  have hterm : ∀ j, MonteCarlo.term t (Session.margN n st.c.default ev1.model) st.opt (point.getD (fun _ => 0)) ω pos f j = q j :=
    fun j => term_eq hs
  have hS : ∀ s : MonteCarlo.State (Ev Marginal) n, MonteCarlo.Inv t (Session.margN n st.c.default ev1.model) st.opt
      (point.getD (fun _ => 0)) ω pos P f s → s.sumQ = S s.k ∧ s.sumQ2 = S2 s.k := by
    intro s hi
    exact ⟨by rw [hi.sumQ]; exact Finset.sum_congr rfl fun j _ => hterm j,
      by rw [hi.sumQ2]; exact Finset.sum_congr rfl fun j _ => by rw [hterm j]⟩
  have hnn : ∀ k, 0 ≤ S k := fun k => Finset.sum_nonneg fun j _ => summand_nonneg hs
  have hmean : ∀ k : ℕ, (if 0 < S k then S k / k else 0) = S k / k := by
    intro k
    by_cases h : 0 < S k
    · rw [if_pos h]
    · rw [if_neg h, le_antisymm (not_lt.1 h) (hnn k), zero_div]
  have h := body_rep (st := st) hg hb ω (point := point) (a0 := McObj.fresh point) ⟨rfl, rfl, rfl, rfl, rfl, rfl, rfl⟩ rfl ev pos
    (V := fun k v => v = (S k / k, cvOfMean k (S k) (S2 k)))
    (I := fun s => MonteCarlo.Inv t (Session.margN n st.c.default ev1.model) st.opt (point.getD (fun _ => 0)) ω pos P f s)
    (by
      intro t' ev1' hI'
      rw [hI] at hI'
      simp only [Prod.mk.injEq, Except.ok.injEq] at hI'
      obtain ⟨rfl, rfl⟩ := hI'
      refine ⟨⟨hP, Nat.zero_le _, Or.inr (dvd_zero _), by simp, by simp, by simp, Or.inl ⟨rfl, rfl, rfl⟩, rfl, rfl⟩, ?_⟩
      intro s s' hi hk hbl
      obtain ⟨s1, h1, h2, -, h4, h5, -⟩ := MonteCarlo.block_inv hev hg hb hi hk
      rw [hbl, Except.ok.injEq] at h1
      subst h1
      obtain ⟨e1, e2⟩ := hS s' h2
      refine ⟨h2, ?_⟩
      rw [h4, h5, e1, e2, hmean])
  rw [hI] at h
  dsimp only at h
  obtain ⟨r, hr, -, -, hPf, -, -, -, hcv, hstop, -⟩ := C37_run (t := t) (marg := Session.margN n st.c.default ev1.model) hev hg hb hN hs point ω pos
    st.c.fuel hf ev1 hP
  rw [hr] at h
  dsimp only at h
  obtain ⟨a, h1, ⟨d1, d2, d3, ⟨Q, C, hQ, hC, hA⟩, hk1, hk2, hL⟩, hi⟩ := h
  obtain ⟨b, g1, g2, g3, g4, g5⟩ := hL.block
  refine ⟨a, r.st.s, r.st.pos, r.st.k, b, Q, C, ?_, hi.hP, d3.k, g1, hQ, hC, hA.qlen, hA.clen, hk1, hk2, g2, g3, ?_, ?_, ?_, ?_⟩
  · unfold mcAlone McObj.run
    simp only [report_false]
    exact h1
  · by_cases hx : st.opt.blockSize ≤ N - (r.st.k - b)
    · have hbb : b = st.opt.blockSize := by rw [g5]; exact min_eq_left hx
      have : st.opt.blockSize ∣ r.st.k := by
        have := Nat.dvd_add g4 (dvd_refl st.opt.blockSize)
        rwa [show r.st.k - b + st.opt.blockSize = r.st.k by omega] at this
      rw [if_pos this]; exact hbb
    · have hbb : b = N - (r.st.k - b) := by
        have : b = min st.opt.blockSize (N - (r.st.k - b)) := g5
        omega
      have hkN : r.st.k = N := by
        have : r.st.k ≤ N := hk2
        omega
      have hlt : b < st.opt.blockSize := by omega
      have hnd : ¬ st.opt.blockSize ∣ r.st.k := by
        intro hd
        have h3 := Nat.dvd_sub hd g4
        rw [show r.st.k - (r.st.k - b) = b by omega] at h3
        have := Nat.le_of_dvd (by omega) h3
        omega
      rw [if_neg hnd]
      obtain ⟨m, hm⟩ := g4
      have : N = st.opt.blockSize * m + b := by omega
      rw [this, Nat.mul_add_mod, Nat.mod_eq_of_lt hlt]
  · rcases hstop with hw | ⟨hw, hle⟩
    · exact Or.inl hw
    · rw [hcv] at hle
      exact Or.inr ⟨hw, hle⟩
  · rw [McObj.getFailure, d1, hPf]
  · intro j hj
    split
    · rename_i hc
      obtain ⟨x, y, e1, e2, e3⟩ := hA.written j hc.1 hc.2
      simp only [Prod.mk.injEq] at e3
      rw [e1, e2, e3.1, e3.2]
      exact ⟨rfl, rfl⟩
    · rename_i hc
      exact hA.other j hj hc

/-- C82, the plots of a completed crude Monte Carlo run: at most 299 points, the first at 1 and all others below the number of
simulations, at multiples of the size of the last block.  A point at the end of a block shows the estimate at that number of
simulations; every other point shows probability 0, and NaN (1.0 at the first point) as coefficient of variation. -/
theorem C82_plots (hg : st.opt.randomGenerator = 0) (hb : 1 ≤ st.opt.blockSize) (hN : 1 ≤ st.opt.samples) (hs : 0 < st.opt.stdv)
    (hf : st.opt.samples ≤ st.c.fuel) (hI : Session.initRun st.c n ev = (ev1, .ok t))
    (hev : Values (Session.evaluator st.c n ev1.model) P f) (hP : P ev1) (ω : ℕ → ℝ) (point : Option (Fin n → ℝ)) (pos : ℕ) :
    let N := st.opt.samples
    let bs := st.opt.blockSize
    let q := summand t (Session.margN n st.c.default ev1.model) f st.opt (point.getD (fun _ => 0)) ω pos
    let S := fun k => ∑ j ∈ Finset.range k, q j
    let S2 := fun k => ∑ j ∈ Finset.range k, q j ^ 2
    ∃ a ev' pos' sh p X, mcAlone .crude st ω point ev pos = some (a, ev', pos', .ok ()) ∧ McObj.showResults .crude a = .ok sh ∧
      sh.plots = some p ∧ p.pf.map Prod.fst = X ∧ p.cov.map Prod.fst = X ∧ X.head? = some 1 ∧ X.length ≤ 299 ∧
      (∀ x ∈ X, x = 1 ∨ (1 ≤ x ∧ x < sh.k ∧ (if bs ∣ sh.k then bs else N % bs) ∣ x)) ∧
      (sh.k ≤ 200 * (if bs ∣ sh.k then bs else N % bs) → ∀ i, 1 ≤ i → i * (if bs ∣ sh.k then bs else N % bs) < sh.k →
        i * (if bs ∣ sh.k then bs else N % bs) ∈ X) ∧
      (∀ x v, (x, v) ∈ p.pf → v = if bs ∣ x ∨ x = N then S x / x else 0) ∧
      (∀ x v, (x, v) ∈ p.cov → v = if bs ∣ x ∨ x = N then some (cvOfMean x (S x) (S2 x)) else if x = 1 then some 1 else none) ∧
      sh.Pf = some (S sh.k / sh.k) ∧ (sh.k = N ∨ bs ∣ sh.k ∧ cvOfMean sh.k (S sh.k) (S2 sh.k) ≤ st.opt.cov) := by
  intro N bs q S S2
  obtain ⟨a, ev', pos', k, b, Q, C, h1, -, h2, h3, h4, h5, h6, h7, h8, h9, h10, h11, h12, h13, h14, h15⟩ :=
    C82_arrays hg hb hN hs hf hI hev hP ω point pos
  have hva : a.resultsValid = true := by
    have hr := mcRun_over .crude hg ω (point := point) (old := McObj.fresh point) rfl ev pos
    rw [h1] at hr
    obtain ⟨-, -, -, -, hv⟩ := hr
    exact hv
  obtain ⟨sh, s1, s2, s3, s4, s5, p, s6, s7⟩ := show_ok .crude hva h2 h3 h4 h5 h10 h11 h9 h6 h7
  obtain ⟨p', t1, t2, t3, -⟩ := McObj.plots_ok h10 h11 h9 h6 h7
  rw [s7, Except.ok.injEq] at t1
  subst t1
  refine ⟨a, ev', pos', sh, p, McObj.plotX k b, h1, s1, s6, ?_, ?_, McObj.plotX_head h10 h8, (McObj.plotX_length h10 h8).2, ?_, ?_, ?_,
    ?_, ?_, ?_⟩
  · rw [t3, List.map_map]; exact List.map_id _
  · rw [t2, List.map_map]; exact List.map_id _
  · intro x hx
    rw [s2]
    rcases McObj.plotX_mem h10 h8 hx with h | ⟨u1, u2, u3⟩
    · exact Or.inl h
    · exact Or.inr ⟨u2, u3, by rw [← h12]; exact u1⟩
  · rw [s2, ← h12]
    intro hle i hi hik
    have hst : McObj.stride k b = 1 := by unfold McObj.stride; rw [if_neg (by omega)]
    rw [McObj.plotX_spec h10, hst, Nat.one_mul]
    refine List.mem_map.2 ⟨i, ?_, by rw [if_neg (by omega)]⟩
    rw [List.mem_range, McObj.ceil_lt h10]; exact hik
  · intro x v hxv
    rw [t3] at hxv
    obtain ⟨y, hy, he⟩ := List.mem_map.1 hxv
    simp only [Prod.mk.injEq] at he
    obtain ⟨rfl, rfl⟩ := he
    obtain ⟨y1, y2⟩ := McObj.plotX_le h10 h8 hy
    have := h15 (y - 1) (by omega)
    rw [show y - 1 + 1 = y by omega] at this
    by_cases hc : st.opt.blockSize ∣ y ∨ y = st.opt.samples
    · rw [if_pos ⟨y2, hc⟩] at this
      rw [if_pos hc, List.getD, this.1]; rfl
    · rw [if_neg (fun h => hc h.2)] at this
      rw [if_neg hc, List.getD, this.1]; rfl
  · intro x v hxv
    rw [t2] at hxv
    obtain ⟨y, hy, he⟩ := List.mem_map.1 hxv
    simp only [Prod.mk.injEq] at he
    obtain ⟨rfl, rfl⟩ := he
    obtain ⟨y1, y2⟩ := McObj.plotX_le h10 h8 hy
    have := h15 (y - 1) (by omega)
    rw [show y - 1 + 1 = y by omega] at this
    by_cases hc : st.opt.blockSize ∣ y ∨ y = st.opt.samples
    · rw [if_pos ⟨y2, hc⟩] at this
      rw [if_pos hc, List.getD, this.2]; rfl
    · rw [if_neg (fun h => hc h.2)] at this
      rw [if_neg hc, List.getD, this.2]
      by_cases h1 : y = 1
      · rw [if_pos h1, if_pos (by omega)]; rfl
      · rw [if_neg h1, if_neg (by omega)]; rfl
  · rw [s3, s2]; exact h14
  · rw [s2]; exact h13

/-- C82, what goes wrong in the plots: when the last block is a partial one of `b = N % bs` samples, at most 200 times smaller than the
sample, the plot of the failure probability has a point at `b` simulations with probability 0, whatever the estimates are, and no
coefficient of variation is drawn there (unless `b = 1`). -/
theorem C82_short_block (hg : st.opt.randomGenerator = 0) (hb : 1 ≤ st.opt.blockSize) (hs : 0 < st.opt.stdv)
    (hf : st.opt.samples ≤ st.c.fuel) (hI : Session.initRun st.c n ev = (ev1, .ok t))
    (hev : Values (Session.evaluator st.c n ev1.model) P f) (hP : P ev1) (ω : ℕ → ℝ) (point : Option (Fin n → ℝ)) (pos : ℕ)
    (hN : st.opt.blockSize < st.opt.samples) (hmod : 1 ≤ st.opt.samples % st.opt.blockSize)
    (h200 : st.opt.samples ≤ 200 * (st.opt.samples % st.opt.blockSize)) :
    ∃ a ev' pos' sh p, mcAlone .crude st ω point ev pos = some (a, ev', pos', .ok ()) ∧ McObj.showResults .crude a = .ok sh ∧
      sh.plots = some p ∧ (sh.k = st.opt.samples → (st.opt.samples % st.opt.blockSize, 0) ∈ p.pf ∧
        (2 ≤ st.opt.samples % st.opt.blockSize → (st.opt.samples % st.opt.blockSize, none) ∈ p.cov)) := by
  obtain ⟨a, ev', pos', sh, p, X, h1, h2, h3, h4, h5, h6, h7, h8, h9, h10, h11, h12, h13⟩ :=
    C82_plots hg hb (by omega) hs hf hI hev hP ω point pos
  refine ⟨a, ev', pos', sh, p, h1, h2, h3, ?_⟩
  intro hk
  obtain ⟨N, hNN⟩ : ∃ N, N = st.opt.samples := ⟨_, rfl⟩
  obtain ⟨bs, hbs⟩ : ∃ bs, bs = st.opt.blockSize := ⟨_, rfl⟩
  rw [hk] at h9
  rw [← hNN, ← hbs] at h9 hmod h200 hN ⊢
  rw [← hbs] at hb
  have hlt : N % bs < bs := Nat.mod_lt _ hb
  have hnd : ¬ bs ∣ N := by
    intro hd
    have := Nat.mod_eq_zero_of_dvd hd
    omega
  have hnd2 : ¬ (bs ∣ N % bs ∨ N % bs = N) := by
    rintro (hd | he)
    · have := Nat.le_of_dvd hmod hd; omega
    · omega
  rw [if_neg hnd] at h9
  have hmem := h9 h200 1 le_rfl (by omega)
  rw [Nat.one_mul] at hmem
  constructor
  · rw [← h4] at hmem
    obtain ⟨⟨x, v⟩, hxv, hx⟩ := List.mem_map.1 hmem
    simp only at hx
    subst hx
    have hv := h10 _ _ hxv
    rw [← hNN, ← hbs, if_neg hnd2] at hv
    rw [← hv]; exact hxv
  · intro h2
    rw [← h5] at hmem
    obtain ⟨⟨x, v⟩, hxv, hx⟩ := List.mem_map.1 hmem
    simp only at hx
    subst hx
    have hv := h11 _ _ hxv
    rw [← hNN, ← hbs, if_neg hnd2, if_neg (by omega)] at hv
    rw [← hv]; exact hxv

end

end Pystra.Props
