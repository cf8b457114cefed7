import Verif.Props.MonteCarloReport

/-! C81: a generator other than 0 on a simulation object that has run before. -/

namespace Pystra.Props
open Spec Transformation Form MonteCarlo

variable {n : ℕ}

/-- The sum of the summands of one block of old samples. -/
noncomputable def blockSum (t : Mats n) (marg : Fin n → Marginal) (f : (Fin n → ℝ) → ℝ) (s : ℝ) (c : Fin n → ℝ)
    (us : List (Fin n → ℝ)) : ℝ :=
  (us.map (fun u => open Classical in
    if f (uToX t marg u) < 0 then normalDensity (fun _ => 0) 1 u / normalDensity c s u else 0)).sum

theorem blockSum_nonneg {t : Mats n} {marg : Fin n → Marginal} {f : (Fin n → ℝ) → ℝ} {s : ℝ} (hs : 0 < s) {c : Fin n → ℝ}
    {us : List (Fin n → ℝ)} : 0 ≤ blockSum t marg f s c us := by
  unfold blockSum
  refine List.sum_nonneg ?_
  intro x hx
  obtain ⟨u, -, rfl⟩ := List.mem_map.1 hx
  split_ifs
  · exact (div_pos (normalDensity_pos _ one_pos _) (normalDensity_pos _ hs _)).le
  · exact le_rfl

/-- The state of the object between two passes. -/
structure Stale (us : List (Fin n → ℝ)) (N : ℕ) (B : ℝ) (m : ℕ) (o : McObj.Obj n) : Prop where
  u : o.u = some us
  k : o.k = some (m * us.length)
  sumQ : o.sumQ = some (m * B)
  qlen : ∃ q, o.qBar = some q ∧ q.length = N ∧ (1 ≤ m → q[m * us.length - 1]? = some (B / us.length))
  cov : ∃ c, o.cov = some c

theorem stale_pass {t : Mats n} {marg : Fin n → Marginal} {ev : Evaluator (Ev Marginal) n} {P : Ev Marginal → Prop}
    {f : (Fin n → ℝ) → ℝ} (hev : Values ev P f) {opt : MonteCarlo.Options} (hg : opt.randomGenerator ≠ 0) (hs : 0 < opt.stdv)
    {us : List (Fin n → ℝ)} (hb : opt.blockSize = us.length) (h1 : 1 ≤ us.length) {M : ℕ} (hN : opt.samples = M * us.length)
    (point : Fin n → ℝ) (ω : ℕ → ℝ) {o : McObj.Obj n} {m : ℕ} (hm : m < M)
    (ho : Stale us opt.samples (blockSum t marg f opt.stdv point us) m o) (s : Ev Marginal) (hP : P s) (pos : ℕ) :
    ∃ o' s', McObj.pass t marg ev opt point ω o s pos = (o', s', pos, .ok ()) ∧ P s' ∧
      Stale us opt.samples (blockSum t marg f opt.stdv point us) (m + 1) o' := by
  obtain ⟨q, hq, hql, -⟩ := ho.qlen
  obtain ⟨c, hc⟩ := ho.cov
  have hmin : min opt.blockSize (opt.samples - m * us.length) = us.length := by
    rw [hb, hN]
    apply min_eq_left
    have := Nat.mul_le_mul_right us.length (Nat.succ_le_of_lt hm)
    rw [Nat.succ_mul] at this
    omega
  have hk' : m * us.length + us.length = (m + 1) * us.length := by ring
  have hB := blockSum_nonneg (t := t) (marg := marg) (f := f) (us := us) (c := point) hs
  have hsum : (List.zipWith (fun g u => indicator g * weight opt.stdv point u) (us.map (fun u => f (uToX t marg u))) us).sum =
      blockSum t marg f opt.stdv point us := by
    unfold blockSum
    congr 1
    clear hb h1 hN ho hmin hk' hB
    induction us with
    | nil => rfl
    | cons u us ih =>
      simp only [List.map_cons, List.zipWith_cons_cons, ih]
      congr 1
      unfold indicator
      rw [weight_eq hs]
      split_ifs <;> simp
  obtain ⟨s', he, hP'⟩ := hev s hP (us.map (uToX t marg))
  unfold McObj.pass McObj.draw
  simp only [if_neg hg, ho.u, ho.k, Option.getD_some, hmin, lt_irrefl, if_false, List.take_length, he, ne_eq, not_true_eq_false, false_and]
  refine ⟨_, s', rfl, hP', rfl, ?_, ?_, ?_, ?_⟩
  · show some (m * us.length + us.length) = _
    rw [hk']
  · unfold McObj.update
    simp only [ho.sumQ, Option.getD_some, List.map_map, Function.comp_def, hsum]
    push_cast
    ring_nf
  · unfold McObj.update
    simp only [ho.sumQ, Option.getD_some, hq, List.map_map, Function.comp_def, hsum, hk']
    refine ⟨_, rfl, by simp [hql], fun _ => ?_⟩
    have hlt : (m + 1) * us.length - 1 < q.length := by
      rw [hql, hN]
      have := Nat.mul_le_mul_right us.length (Nat.succ_le_of_lt hm)
      have h2 : 1 ≤ (m + 1) * us.length := Nat.one_le_iff_ne_zero.2 (Nat.mul_ne_zero (by omega) (by omega))
      simp only [Nat.succ_eq_add_one] at this
      omega
    rw [List.getElem?_set_self hlt]
    congr 1
    unfold coefficient
    have hne : (us.length : ℝ) ≠ 0 := by exact_mod_cast (by omega : us.length ≠ 0)
    have hne2 : ((m : ℝ) + 1) ≠ 0 := by positivity
    split_ifs with hpos
    · simp only
      push_cast
      field_simp
    · have : blockSum t marg f opt.stdv point us = 0 := by
        have h3 : (m:ℝ) * blockSum t marg f opt.stdv point us + blockSum t marg f opt.stdv point us ≤ 0 := not_lt.1 hpos
        have h4 := mul_nonneg (Nat.cast_nonneg (α := ℝ) m) hB
        linarith
      simp [this]
  · unfold McObj.update
    exact ⟨_, rfl⟩

theorem stale_loop {t : Mats n} {marg : Fin n → Marginal} {ev : Evaluator (Ev Marginal) n} {P : Ev Marginal → Prop}
    {f : (Fin n → ℝ) → ℝ} (hev : Values ev P f) {opt : MonteCarlo.Options} (hg : opt.randomGenerator ≠ 0) (hs : 0 < opt.stdv)
    {us : List (Fin n → ℝ)} (hb : opt.blockSize = us.length) (h1 : 1 ≤ us.length) {M : ℕ} (hN : opt.samples = M * us.length)
    (point : Fin n → ℝ) (ω : ℕ → ℝ) (pos : ℕ) (fuel : ℕ) : ∀ (m : ℕ) (o : McObj.Obj n) (s : Ev Marginal), m ≤ M → M ≤ m + fuel →
    Stale us opt.samples (blockSum t marg f opt.stdv point us) m o → P s →
    ∃ o' s' m', McObj.loop t marg ev opt point ω fuel o s pos = some (o', s', pos, .ok ()) ∧ P s' ∧ m ≤ m' ∧ m' ≤ M ∧
      (m < M → m < m') ∧ Stale us opt.samples (blockSum t marg f opt.stdv point us) m' o' := by
  have hlt : ∀ {m}, m * us.length < opt.samples ↔ m < M := by
    intro m
    rw [hN]
    exact Nat.mul_lt_mul_right (by omega)
  induction fuel with
  | zero =>
    intro m o s hm hf ho hP
    have : ¬ m < M := by omega
    unfold McObj.loop
    rw [ho.k, Option.getD_some, if_neg (by rw [hlt]; exact this)]
    exact ⟨o, s, m, rfl, hP, le_rfl, hm, fun h => absurd h this, ho⟩
  | succ fuel ih =>
    intro m o s hm hf ho hP
    unfold McObj.loop
    rw [ho.k, Option.getD_some]
    by_cases hlt' : m < M
    · rw [if_pos (hlt.2 hlt')]
      obtain ⟨o1, s1, p1, p2, p3⟩ := stale_pass hev hg hs hb h1 hN point ω hlt' ho s hP pos
      rw [p1]
      dsimp only
      split
      · exact ⟨o1, s1, m + 1, rfl, p2, by omega, hlt', fun _ => by omega, p3⟩
      · obtain ⟨o2, s2, m', q1, q2, q3, q4, -, q6⟩ := ih (m + 1) o1 s1 hlt' (by omega) p3 p2
        exact ⟨o2, s2, m', q1, q2, by omega, q4, fun _ => by omega, q6⟩
    · rw [if_neg (by rw [hlt]; exact hlt')]
      exact ⟨o, s, m, rfl, hP, le_rfl, hm, fun h => absurd h hlt', ho⟩

/-- C81: a run with a `random_generator` other than 0, on an object that has run before, draws no numbers: it takes the samples that the
last block of an earlier run left behind, again in every block, and the probability it reports is the mean over that one block. -/
theorem C81_stale {st : McObj.Settings} {ev ev1 : Ev Marginal} {t : Mats n} {P : Ev Marginal → Prop} {f : (Fin n → ℝ) → ℝ}
    (hg : st.opt.randomGenerator ≠ 0) (hs : 0 < st.opt.stdv) (hp : st.print = false) {o : McObj.Obj n} {us : List (Fin n → ℝ)}
    (ho : o.u = some us) (hb : st.opt.blockSize = us.length) (h1 : 1 ≤ us.length) (hN : us.length ∣ st.opt.samples)
    (hN1 : 1 ≤ st.opt.samples) (hf : st.opt.samples ≤ st.c.fuel) (hI : Session.initRun st.c n ev = (ev1, .ok t))
    (hev : Values (Session.evaluator st.c n ev1.model) P f) (hP : P ev1) (ω : ℕ → ℝ) (pos : ℕ) :
    ∃ o' ev', McObj.run .crude st ω o ev pos = some (o', ev', pos, .ok ()) ∧ o'.u = some us ∧
      McObj.getFailure o' = some (blockSum t (Session.margN n st.c.default ev1.model) f st.opt.stdv (o.point.getD (fun _ => 0)) us /
        us.length) := by
  obtain ⟨M, hM⟩ := hN
  rw [Nat.mul_comm] at hM
  have hM1 : 1 ≤ M := by
    rcases Nat.eq_zero_or_pos M with h | h
    · rw [h, Nat.zero_mul] at hM; omega
    · exact h
  have hMf : M ≤ st.c.fuel := by
    have : M * 1 ≤ M * us.length := Nat.mul_le_mul_left M h1
    omega
  unfold McObj.run McObj.body
  simp only [hI]
  unfold McObj.simulate McObj.initialise
  simp only [if_neg hs.ne', if_neg (show st.opt.samples ≠ 0 by omega)]
  obtain ⟨o0, ho0⟩ : ∃ o0 : McObj.Obj n, o0 = { o with
    resultsValid := true, transform := some t, point := some (o.point.getD (fun _ => 0)), sumQ := some 0, sumQ2 := some 0
    qBar := some (List.replicate st.opt.samples 0), cov := some ((List.replicate st.opt.samples none).set 0 (some 1)), k := some 0 } :=
    ⟨_, rfl⟩
  obtain ⟨o', s', m', q1, q2, -, q4, q5, q6⟩ := stale_loop (us := us) hev hg hs hb h1 hM (o.point.getD (fun _ => 0)) ω pos st.c.fuel 0
    o0 ev1 (Nat.zero_le _) (by omega) (by
      rw [ho0]
      refine ⟨ho, by simp, by simp, ⟨_, rfl, by simp, fun h => absurd h (by omega)⟩, _, rfl⟩) hP
  rw [ho0] at q1
  rw [q1]
  unfold McObj.report McObj.printed
  simp only [hp]
  refine ⟨_, _, rfl, q6.u, ?_⟩
  obtain ⟨q, hq, -, hq2⟩ := q6.qlen
  unfold McObj.getFailure McObj.finishObj
  simp only [q6.sumQ, q6.k, hq, Option.getD_some, List.getD, hq2 (q5 (by omega))]
  have hB := blockSum_nonneg (t := t) (marg := Session.margN n st.c.default ev1.model) (f := f) (us := us)
    (c := o.point.getD (fun _ => 0)) hs
  split_ifs with hpos
  · rfl
  · rcases hB.lt_or_eq with h | h
    · exact absurd (mul_pos (Nat.cast_pos.2 (q5 (by omega))) h) hpos
    · rw [← h]; simp

/-- C81: on a new object the same run raises `TypeError`. -/
theorem C81_stale_new {st : McObj.Settings} {ev ev1 : Ev Marginal} {t : Mats n} (hg : st.opt.randomGenerator ≠ 0) (hs : 0 < st.opt.stdv)
    (hN : 1 ≤ st.opt.samples) (hf : 1 ≤ st.c.fuel) (hI : Session.initRun st.c n ev = (ev1, .ok t)) (ω : ℕ → ℝ)
    (point : Option (Fin n → ℝ)) (pos : ℕ) :
    ∃ o', McObj.run .crude st ω (McObj.fresh point) ev pos = some (o', ev1, pos, .error .typeError) := by
  obtain ⟨fu, hf'⟩ : ∃ f, st.c.fuel = f + 1 := ⟨st.c.fuel - 1, by omega⟩
  unfold McObj.run McObj.body
  simp only [hI]
  unfold McObj.simulate McObj.initialise
  simp only [if_neg hs.ne', if_neg (show st.opt.samples ≠ 0 by omega), hf']
  unfold McObj.loop McObj.pass McObj.draw
  simp only [Option.getD_some, if_neg hg, McObj.fresh, if_pos (show 0 < st.opt.samples by omega), McObj.report]
  exact ⟨_, rfl⟩

end Pystra.Props
