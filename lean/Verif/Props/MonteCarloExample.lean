import Verif.Props.MonteCarloReport
import Verif.Props.MonteCarloStale
import Verif.Props.FormObject

/-! Concrete histories of simulation objects, to which the theorems of C81 and C82 apply. -/

namespace Pystra.Props
open Spec Transformation Form MonteCarlo

variable {n : ℕ}

/-- A limit state that returns an empty tuple raises `IndexError` at every non-empty list of points. -/
theorem raising_values {c : Session.Setup} (hls : c.lsopt = ⟨"ffd", 1, 1000, 1000⟩) (hex : c.expr = fun _ => .tuple [])
    (m : StochModel Marginal ℝ) (ev : Ev Marginal) (xs : List (Fin n → ℝ)) (hx : xs ≠ []) :
    ∃ ev2, (Session.evaluator c n m).values ev xs = (ev2, .error .indexError) := by
  have hcomp : ∀ (xs : List (Fin n → ℝ)) (e : Ev Marginal), ∃ e',
      LimitState.computeLsf c.expr xs false e = (e', .error .indexError) := by
    intro xs e
    unfold LimitState.computeLsf
    have hb : ∀ (vs : List String) (i : ℕ) (d : Kwargs) (err : PyErr), LimitState.bindVars xs vs i d = .error err →
        err = .indexError := by
      intro vs
      induction vs with
      | nil => intro i d err hh; simp [LimitState.bindVars] at hh
      | cons v vs ih =>
        intro i d err hh
        unfold LimitState.bindVars at hh
        split at hh
        · exact ih _ _ _ hh
        · injection hh with hh; exact hh.symm
    unfold LimitState.inpdict
    rcases hx : LimitState.bindVars xs e.model.getVariables.keys 0 [] with err | d
    · exact ⟨e, by rw [hb _ _ _ _ hx]⟩
    · exact ⟨_, by rw [hex]; rfl⟩
  obtain ⟨e', he'⟩ := hcomp (List.take (min 1000 (xs.length - 0)) (List.drop 0 xs)) ev
  refine ⟨e', ?_⟩
  unfold Session.evaluator lsEvaluator
  dsimp only
  unfold LimitState.evaluateLsf
  rw [hls]
  simp only [one_ne_zero, if_false, if_true]
  unfold LimitState.evaluateNogradient
  rw [show 7 + n + xs.length = (6 + n + xs.length) + 1 by omega, LimitState.blockLoop,
    if_pos (List.length_pos_iff.2 hx)]
  simp only [he']

/-- A run whose limit state raises in the first block. -/
theorem mcAlone_first_block {st : McObj.Settings} (hg : st.opt.randomGenerator = 0) (hs : st.opt.stdv ≠ 0) (hN : 1 ≤ st.opt.samples)
    (hb : 1 ≤ st.opt.blockSize) (hf : 1 ≤ st.c.fuel) {ev ev1 : Ev Marginal} {t : Mats n}
    (hI : Session.initRun st.c n ev = (ev1, .ok t)) {e : PyErr}
    (hev : ∀ xs, xs ≠ [] → ∃ ev2, (Session.evaluator st.c n ev1.model).values ev1 xs = (ev2, .error e)) (ω : ℕ → ℝ)
    (point : Option (Fin n → ℝ)) (pos : ℕ) :
    ∃ b ev2, mcAlone .crude st ω point ev pos = some (b, ev2, pos + n * min st.opt.blockSize st.opt.samples, .error e) ∧
      b.k = some (min st.opt.blockSize st.opt.samples) := by
  obtain ⟨f, hf'⟩ : ∃ f, st.c.fuel = f + 1 := ⟨st.c.fuel - 1, by omega⟩
  have hN' : st.opt.samples ≠ 0 := by omega
  unfold mcAlone McObj.run
  simp only [report_false]
  unfold McObj.body
  simp only [hI]
  unfold McObj.simulate McObj.initialise
  simp only [if_neg hs, if_neg hN', hf']
  unfold McObj.loop McObj.pass McObj.draw
  obtain ⟨ev2, hev2⟩ := hev ((List.take (min st.opt.blockSize st.opt.samples)
    ((randn ω n (min st.opt.blockSize st.opt.samples) pos).map (fun z => fun r => point.getD (fun _ => 0) r + st.opt.stdv * z r))).map
      (uToX t (Session.margN n st.c.default ev1.model))) (by
        intro h
        have := congrArg List.length h
        simp [randn] at this
        omega)
  have hl : ¬ ((randn ω n (min st.opt.blockSize st.opt.samples) pos).map
      (fun z => fun r => point.getD (fun _ => 0) r + st.opt.stdv * z r)).length < min st.opt.blockSize st.opt.samples := by
    simp [randn]
  simp only [McObj.fresh, if_pos hg, Option.getD_some, Nat.sub_zero, if_pos (Nat.pos_of_ne_zero hN'), if_neg hl, hev2, Nat.zero_add]
  exact ⟨_, _, rfl, rfl⟩

/-- The concrete setting: `X ~ N(1, 1)`, `Y ~ N(2, 1)`, the constant `k = 3` and `g = 7 - X - 2Y`; five samples in blocks of two, with
draws that are all 0 except the first (which is 10). -/
theorem mcObject_world : ∃ (c : Session.Setup) (ev ev1 : Ev Marginal) (t : Mats 2) (P : Ev Marginal → Prop) (f : (Fin 2 → ℝ) → ℝ),
    c.fuel = 1000 ∧ c.lsopt = ⟨"ffd", 1, 1000, 1000⟩ ∧ Session.initRun c 2 ev = (ev1, .ok t) ∧
    Values (Session.evaluator c 2 ev1.model) P f ∧ P ev1 ∧
    (∀ e c', P e → c'.la = c.la → ∃ e1 t', Session.initRun c' 2 e = (e1, .ok t')) ∧
    (∀ e, P e → ∃ e1 t', Session.initRun c 2 e = (e1, .ok t') ∧ Values (Session.evaluator c 2 e1.model) P f ∧ P e1 ∧
      ∀ u, uToX t' (Session.margN 2 c.default e1.model) u = ![1 + u 0, 2 + u 1]) ∧
    (∀ x, f x = 7 - x 0 - 2 * x 1) ∧ ∀ u, uToX t (Session.margN 2 c.default ev1.model) u = ![1 + u 0, 2 + u 1] := by
  obtain ⟨c, ev, -, -, m1, m2, hla, hreach, hmarg, hconsts, hcor, hfuel, hls, hnames, h1, h2, -, -, -, ⟨g, hp, hg⟩, -, -, -, hT⟩ :=
    formObject_world
  obtain ⟨Ro, t, h0, ht⟩ := initRun_eye (c := c) (n := 2) (ev := ev) hla (by rw [hmarg]; rfl) hcor
  obtain ⟨ev1, he1⟩ : ∃ ev1 : Ev Marginal, ev1 = { ev with model := ev.model.setModifiedCorrelation Ro } := ⟨_, rfl⟩
  rw [← he1] at h0
  have hd : SameDefinition ev1.model ev.model := by rw [he1]; exact ⟨rfl, rfl, rfl, rfl, rfl⟩
  have hr1 : Reachable ev1.model := by rw [he1]; exact reachable_setRo hreach Ro
  have hm1 : ev1.model.marg = [⟨"X", m1⟩, ⟨"Y", m2⟩] := by rw [hd.marg, hmarg]
  obtain ⟨P, hPdef⟩ : ∃ P : Ev Marginal → Prop, P = fun e => SameDefinition e.model ev1.model ∧ Reachable e.model := ⟨_, rfl⟩
  have hV : ∀ m : StochModel Marginal ℝ, Values (Session.evaluator c 2 m) P (fun x => g (pointArgs ev1.model x)) := by
    intro m e he xs
    rw [hPdef] at he
    obtain ⟨he1, he2⟩ := he
    obtain ⟨s', k1, k, k2⟩ := ls_values (n := 2) hp c.lsopt (by rw [hls]; norm_num) (by rw [hls]; norm_num)
      (fun i => (Session.margN 2 c.default m i).stdv) e.model he2 (by unfold StochModel.nMarg; rw [he1.marg, hm1]; rfl)
      (by unfold StochModel.getNames; rw [he1.names, hd.names, hnames]; simp) e ⟨0, rfl⟩ xs
    refine ⟨s', ?_, ?_⟩
    · unfold Session.evaluator
      rw [k1]
      simp only [pointArgs_same he1]
    · rw [hPdef]
      dsimp only
      rw [k2]
      exact ⟨⟨he1.vars, he1.names, he1.marg, he1.correlation, he1.consts⟩, reachable_calls he2 k⟩
  have hX : ∀ (t' : Mats 2) (m : StochModel Marginal ℝ), t'.invT = 1 → m.marg = [⟨"X", m1⟩, ⟨"Y", m2⟩] →
      ∀ u, uToX t' (Session.margN 2 c.default m) u = ![1 + u 0, 2 + u 1] := by
    intro t' m ht' hm u
    have h1' := (normal_ok h1).1
    have h2' := (normal_ok h2).1
    unfold uToX
    rw [ht', Matrix.one_mulVec]
    funext i
    unfold Session.margN
    rw [hm]
    fin_cases i
    · simp [h1', Normal.uToX, add_comm]
    · simp [h2', Normal.uToX, add_comm]
  refine ⟨c, ev, ev1, t, P, _, hfuel, hls, h0, hV _, ?_, ?_, ?_, ?_, hX t _ (hT t ht) hm1⟩
  · rw [hPdef]; exact ⟨⟨rfl, rfl, rfl, rfl, rfl⟩, hr1⟩
  · intro e c' he hc'
    rw [hPdef] at he
    obtain ⟨Ro', t', h, -⟩ := initRun_eye (c := c') (n := 2) (ev := e) (by rw [hc']; exact hla) (by rw [he.1.marg, hm1]; rfl)
      (by rw [he.1.correlation, hd.correlation, hcor])
    exact ⟨_, _, h⟩
  · intro e he
    have he' := he
    rw [hPdef] at he
    obtain ⟨Ro', t', h, ht'⟩ := initRun_eye (c := c) (n := 2) (ev := e) hla (by rw [he.1.marg, hm1]; rfl)
      (by rw [he.1.correlation, hd.correlation, hcor])
    refine ⟨_, t', h, hV _, ?_, hX t' _ (hT t' ht') (by show e.model.marg = _; rw [he.1.marg, hm1])⟩
    rw [hPdef]
    exact ⟨⟨he.1.vars, he.1.names, he.1.marg, he.1.correlation, he.1.consts⟩, reachable_setRo he.2 Ro'⟩
  · intro x
    rw [pointArgs_same hd, hg, Fin.sum_univ_two]
    simp; ring

/-- The summands of the concrete runs. -/
theorem mcObject_summand {t : Mats 2} {marg : Fin 2 → Marginal} {f : (Fin 2 → ℝ) → ℝ} (hf : ∀ x, f x = 7 - x 0 - 2 * x 1)
    (hu : ∀ u, uToX t marg u = ![1 + u 0, 2 + u 1]) (j : ℕ) :
    summand t marg f ⟨5, 2, 1, 0, 0⟩ (fun _ => 0) (fun k => if k = 0 then 10 else 0) 0 j = if j = 0 then 1 else 0 := by
  have hd : ∀ u, normalDensity (fun _ : Fin 2 => (0:ℝ)) 1 u / normalDensity (fun _ => 0) 1 u = 1 := fun u =>
    div_self (normalDensity_pos _ one_pos _).ne'
  unfold summand mcSample mcDraw
  simp only [hf, hu, hd]
  by_cases hj : j = 0
  · subst hj; norm_num
  · have h1 : ¬ (j ≤ 1 ∧ j % 2 = 0) := by omega
    have h2 : ¬ ((j ≤ 1 ∧ 5 - 2 * (j / 2) = 0) ∧ j % 2 = 0) := by omega
    rw [if_neg hj, if_neg]
    simp [h1, h2]
    norm_num

/-- The hypotheses of C81 are met: a crude Monte Carlo run of five samples finds one failure; then the limit state is replaced by one that
raises `IndexError`, and the second run raises in its first block.  The report then shows the probability 1/5 of the first run
beside 2 simulations and no coefficient of variation. -/
example : ∃ (c c' : Session.Setup) (ev ev' : Ev Marginal) (pos' : ℕ) (a b o : McObj.Obj 2) (sh : McObj.Shown),
    mcRuns .crude (fun k => if k = 0 then 10 else 0) none
      [.run ⟨c, ⟨5, 2, 1, 0, 0⟩, true⟩, .run ⟨c', ⟨5, 2, 1, 0, 0⟩, true⟩] ev 0 =
        some (ev', pos', [(a, .ok ()), (b, .error .indexError)]) ∧
    McObj.history .crude (fun k => if k = 0 then 10 else 0) [.run ⟨c, ⟨5, 2, 1, 0, 0⟩, true⟩, .run ⟨c', ⟨5, 2, 1, 0, 0⟩, true⟩]
      (McObj.fresh none) ev 0 = some (o, ev', pos') ∧
    McObj.showResults .crude o = .ok sh ∧ sh.Pf = some (1 / 5) ∧ sh.k = 2 ∧ sh.cov = none := by
  obtain ⟨c, ev, ev1, t, P, f, hfuel, hls, hI, hV, hP, hagain', hagain, hf, hu⟩ := mcObject_world
  obtain ⟨c', hc'⟩ : ∃ c' : Session.Setup, c' = { c with expr := fun _ => .tuple [] } := ⟨_, rfl⟩
  obtain ⟨a, ev2, pos2, k, b, Q, C, r1, r2, r3, -, -, -, -, -, -, rk, -, -, -, rd, rP, -⟩ :=
    C82_arrays (st := ⟨c, ⟨5, 2, 1, 0, 0⟩, false⟩) rfl (by norm_num) (by norm_num) one_pos (by simp [hfuel]) hI hV hP
      (fun k => if k = 0 then 10 else 0) none 0
  have hq := mcObject_summand (t := t) (marg := Session.margN 2 c.default ev1.model) hf hu
  have hk5 : k = 5 := by
    rcases rd with h | ⟨-, h⟩
    · exact h
    · exact absurd h (not_le.2 (cvOfMean_pos _ _ _))
  subst hk5
  have hPf : McObj.getFailure a = some (1 / 5) := by
    rw [rP]
    simp only [Option.getD_none, hq, Finset.sum_range_succ, Finset.sum_range_zero]
    norm_num
  obtain ⟨e1, t', hI'⟩ := hagain' ev2 c' r2 (by rw [hc'])
  obtain ⟨b2, ev3, w1, w2⟩ := mcAlone_first_block (st := ⟨c', ⟨5, 2, 1, 0, 0⟩, true⟩) rfl one_ne_zero (by norm_num) (by norm_num)
    (by simp [hc', hfuel]) hI' (raising_values (c := c') (by rw [hc', hls]) (by rw [hc']) e1.model e1)
    (fun k => if k = 0 then 10 else 0) none pos2
  have hruns : mcRuns .crude (fun k => if k = 0 then 10 else 0) none
      [.run ⟨c, ⟨5, 2, 1, 0, 0⟩, true⟩, .run ⟨c', ⟨5, 2, 1, 0, 0⟩, true⟩] ev 0 =
        some (ev3, pos2 + 2 * min 2 5, [(a, .ok ())] ++ [(b2, .error .indexError)]) := by
    have r1' : mcAlone .crude ⟨c, ⟨5, 2, 1, 0, 0⟩, true⟩ (fun k => if k = 0 then 10 else 0) none ev 0 = some (a, ev2, pos2, .ok ()) := r1
    simp only [mcRuns, r1', w1, Option.map_some]
    rfl
  obtain ⟨o, sh, q1, q2, q3, -, q5, q6⟩ := C81_mixed .crude _ none _ (by
    intro st hst
    simp only [List.mem_cons, McObj.Event.run.injEq, List.not_mem_nil, or_false] at hst
    rcases hst with rfl | rfl <;> exact ⟨rfl, by norm_num⟩) ev ev3 0 _ [(a, .ok ())] b2 .indexError 2 w2 hruns
  refine ⟨c, c', ev, ev3, _, a, b2, o, sh, hruns, q1, q2, ?_, q5, by rw [q6]; rfl⟩
  rw [q3, ← hPf]
  rfl

/-- The hypotheses of C82 are met, also those of `C82_short_block`: five samples in blocks of two, of which the first fails.  The plot has
points at 1, 2, 3 and 4 only; the estimates at 2 and 4 are 1/2 and 1/4, the other points are drawn at 0; the reported probability,
1/5, is none of them. -/
example : ∃ (st : McObj.Settings) (ω : ℕ → ℝ) (ev ev' : Ev Marginal) (a : McObj.Obj 2) (pos' : ℕ) (sh : McObj.Shown) (p : McObj.Plots),
    mcAlone .crude st ω none ev 0 = some (a, ev', pos', .ok ()) ∧ McObj.showResults .crude a = .ok sh ∧ sh.plots = some p ∧
    sh.Pf = some (1 / 5) ∧ (1, 0) ∈ p.pf ∧ (2, 1 / 2) ∈ p.pf ∧ (3, 0) ∈ p.pf ∧ (4, 1 / 4) ∈ p.pf ∧
    ∀ x v, (x, v) ∈ p.pf → 1 ≤ x ∧ x ≤ 4 ∧ v ≠ 1 / 5 := by
  obtain ⟨c, ev, ev1, t, P, f, hfuel, hls, hI, hV, hP, hagain', hagain, hf, hu⟩ := mcObject_world
  have hq := mcObject_summand (t := t) (marg := Session.margN 2 c.default ev1.model) hf hu
  obtain ⟨a, ev', pos', sh, p, h1, h2, h3, h4⟩ := C82_short_block (st := ⟨c, ⟨5, 2, 1, 0, 0⟩, false⟩) rfl (by norm_num) one_pos
    (by simp [hfuel]) hI hV hP (fun k => if k = 0 then 10 else 0) none 0 (by norm_num) (by norm_num) (by norm_num)
  obtain ⟨a', ev2, pos2, sh', p', X, g1, g2, g3, g4, g5, g6, g7, g8, g9, g10, g11, g12, g13⟩ :=
    C82_plots (st := ⟨c, ⟨5, 2, 1, 0, 0⟩, false⟩) rfl (by norm_num) (by norm_num) one_pos (by simp [hfuel]) hI hV hP
      (fun k => if k = 0 then 10 else 0) none 0
  rw [h1] at g1
  obtain ⟨rfl, rfl, rfl⟩ : a = a' ∧ ev' = ev2 ∧ pos' = pos2 := by simpa using g1
  rw [h2, Except.ok.injEq] at g2
  subst g2
  rw [h3, Option.some.injEq] at g3
  subst g3
  have hk5 : sh.k = 5 := by
    rcases g13 with h | ⟨-, h⟩
    · exact h
    · exact absurd h (not_le.2 (cvOfMean_pos _ _ _))
  simp only [Option.getD_none, hq, hk5] at g8 g9 g10 g12
  norm_num at g8 g9
  have hS : ∀ x : ℕ, 1 ≤ x → (∑ j ∈ Finset.range x, if j = 0 then (1:ℝ) else 0) = 1 := by
    intro x hx
    rw [Finset.sum_ite_eq' (Finset.range x) 0 (fun _ => (1:ℝ)), if_pos (Finset.mem_range.2 hx)]
  have hin : ∀ i : ℕ, 1 ≤ i → i < 5 → (i, if 2 ∣ i then (1:ℝ) / i else 0) ∈ p.pf := by
    intro i hi1 hi2
    have hm := g9 i hi1 hi2
    rw [← g4] at hm
    obtain ⟨⟨x, v⟩, hxv, hx⟩ := List.mem_map.1 hm
    simp only at hx
    subst hx
    have hv := g10 _ _ hxv
    rw [hS _ hi1] at hv
    have h5 : ¬ x = 5 := by omega
    simp only [h5, or_false] at hv
    rw [← hv]; exact hxv
  refine ⟨_, _, ev, ev', a, pos', sh, p, h1, h2, h3, ?_, ?_, ?_, ?_, ?_, ?_⟩
  · rw [g12, hS 5 (by norm_num)]; norm_num
  · have := hin 1 le_rfl (by norm_num)
    rwa [if_neg (by norm_num)] at this
  · have := hin 2 (by norm_num) (by norm_num)
    rw [if_pos (by norm_num)] at this
    exact_mod_cast this
  · have := hin 3 (by norm_num) (by norm_num)
    rwa [if_neg (by norm_num)] at this
  · have := hin 4 (by norm_num) (by norm_num)
    rw [if_pos (by norm_num)] at this
    exact_mod_cast this
  · intro x v hxv
    have hx : 1 ≤ x ∧ x ≤ 4 := by
      have : x ∈ X := by rw [← g4]; exact List.mem_map.2 ⟨_, hxv, rfl⟩
      rcases g8 x this with h | h <;> omega
    refine ⟨hx.1, hx.2, ?_⟩
    have hv := g10 _ _ hxv
    rw [hS _ hx.1] at hv
    rw [hv]
    have h5 : ¬ x = 5 := by omega
    simp only [h5, or_false]
    obtain ⟨y1, y2⟩ := hx
    split
    · interval_cases x <;> norm_num
    · norm_num

/-- A run of one block leaves its samples in the object. -/
theorem run_one_block {st : McObj.Settings} (hg : st.opt.randomGenerator = 0) (hs : st.opt.stdv ≠ 0) (hN : 1 ≤ st.opt.samples)
    (hb : st.opt.blockSize = st.opt.samples) (hf : 1 ≤ st.c.fuel) (hp : st.print = false) {ev ev1 : Ev Marginal} {t : Mats n}
    (hI : Session.initRun st.c n ev = (ev1, .ok t)) {P : Ev Marginal → Prop} {f : (Fin n → ℝ) → ℝ}
    (hev : Values (Session.evaluator st.c n ev1.model) P f) (hP : P ev1) (ω : ℕ → ℝ) (point : Option (Fin n → ℝ)) (pos : ℕ) :
    ∃ b ev2, McObj.run .crude st ω (McObj.fresh point) ev pos = some (b, ev2, pos + n * st.opt.samples, .ok ()) ∧ P ev2 ∧
      b.point = some (point.getD (fun _ => 0)) ∧
      b.u = some ((randn ω n st.opt.samples pos).map (fun z => fun r => point.getD (fun _ => 0) r + st.opt.stdv * z r)) := by
  obtain ⟨fu, hf'⟩ : ∃ f, st.c.fuel = f + 1 := ⟨st.c.fuel - 1, by omega⟩
  have hN' : st.opt.samples ≠ 0 := by omega
  unfold McObj.run McObj.body
  simp only [hI]
  unfold McObj.simulate McObj.initialise
  simp only [if_neg hs, if_neg hN', hf']
  unfold McObj.loop McObj.pass McObj.draw
  obtain ⟨ev2, hev2, hP2⟩ := hev ev1 hP (((randn ω n st.opt.samples pos).map
    (fun z => fun r => point.getD (fun _ => 0) r + st.opt.stdv * z r)).map (uToX t (Session.margN n st.c.default ev1.model)))
  have hl : ((randn ω n st.opt.samples pos).map
      (fun z => fun r => point.getD (fun _ => 0) r + st.opt.stdv * z r)).length = st.opt.samples := by
    simp [randn]
  have htake : List.take st.opt.samples ((randn ω n st.opt.samples pos).map
      (fun z => fun r => point.getD (fun _ => 0) r + st.opt.stdv * z r)) = (randn ω n st.opt.samples pos).map
      (fun z => fun r => point.getD (fun _ => 0) r + st.opt.stdv * z r) := List.take_of_length_le (by rw [hl])
  simp only [McObj.fresh, if_pos hg, Option.getD_some, Nat.sub_zero, if_pos (Nat.pos_of_ne_zero hN'), hb, min_self, hl, lt_irrefl, if_false,
    htake, hev2, Nat.zero_add, ne_eq, not_true_eq_false, false_and]
  have hend : ∀ (fu : ℕ) (o : McObj.Obj n) (s : Ev Marginal) (p : ℕ), o.k = some st.opt.samples →
      (if McObj.converged st.opt o = true then some (o, s, p, (Except.ok () : Except PyErr Unit)) else McObj.loop t
        (Session.margN n st.c.default ev1.model) (Session.evaluator st.c n ev1.model) st.opt (point.getD (fun _ => 0)) ω fu o s p) =
        some (o, s, p, .ok ()) := by
    intro fu o s p ho
    split
    · rfl
    · cases fu <;> unfold McObj.loop <;> rw [ho] <;> simp
  rw [hend _ _ _ _ rfl]
  unfold McObj.report McObj.printed
  simp only [hp]
  exact ⟨_, _, rfl, hP2, rfl, rfl⟩

/-- The hypotheses of `C81_stale` are met: a run with two samples, of which one fails, and then one of six samples with
`random_generator = 1`: it draws nothing and reports 1/2. -/
example : ∃ (c : Session.Setup) (ω : ℕ → ℝ) (ev ev1 ev2 : Ev Marginal) (a b : McObj.Obj 2),
    McObj.run .crude ⟨c, ⟨2, 2, 1, 0, 0⟩, false⟩ ω (McObj.fresh none) ev 0 = some (a, ev1, 4, .ok ()) ∧
    McObj.run .crude ⟨c, ⟨6, 2, 1, 0, 1⟩, false⟩ ω a ev1 4 = some (b, ev2, 4, .ok ()) ∧ McObj.getFailure b = some (1 / 2) := by
  obtain ⟨c, ev, ev1, t, P, f, hfuel, hls, hI, hV, hP, hagain', hagain, hf, hu⟩ := mcObject_world
  obtain ⟨a, ev2, h1, h2, h3, h4⟩ := run_one_block (st := ⟨c, ⟨2, 2, 1, 0, 0⟩, false⟩) rfl one_ne_zero (by norm_num) rfl
    (by simp [hfuel]) rfl hI hV hP (fun k => if k = 0 then 10 else 0) none 0
  have hd : ∀ u, normalDensity (fun _ : Fin 2 => (0:ℝ)) 1 u / normalDensity (fun _ => 0) 1 u = 1 := fun u =>
    div_self (normalDensity_pos _ one_pos _).ne'
  obtain ⟨e1, t', hI2, hV2, hP3, hu2⟩ := hagain ev2 h2
  obtain ⟨b, ev3, g1, -, g3⟩ := C81_stale (st := ⟨c, ⟨6, 2, 1, 0, 1⟩, false⟩) (by norm_num) one_pos rfl h4 (by simp [randn])
    (by simp [randn]) (by simp [randn]) (by norm_num) (by simp [hfuel]) hI2 hV2 hP3 (fun k => if k = 0 then 10 else 0) 4
  refine ⟨c, _, ev, ev2, ev3, a, b, h1, g1, ?_⟩
  rw [g3]
  simp [blockSum, randn, List.range_succ, hf, hu2, h3, hd]
  norm_num

end Pystra.Props
