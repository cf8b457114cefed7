import Verif.Props.MonteCarlo

/-! C69: running the same simulation object again. -/

namespace Pystra.Props
open Spec Transformation Form MonteCarlo

variable {σ : Type} {n : ℕ}

/-- The numbers held by a kept array, in order. -/
def keptEntries : Kept n → List ℝ
  | .none => []
  | .cols c => (List.finRange n).flatMap (fun r => c.map (fun v => v r))
  | .flat l => l

theorem keptEntries_keep (a : Kept n) (b : List (Fin n → ℝ)) : keptEntries (keep a b b) = keptEntries a ++ rowMajor b := by
  cases a <;> simp [keep, keptEntries, rowMajor]

theorem keptEntries_keep_some {a : Kept n} (ha : a ≠ .none) (b c : List (Fin n → ℝ)) :
    keptEntries (keep a b c) = keptEntries a ++ rowMajor c := by
  cases a
  · exact absurd rfl ha
  · rfl
  · rfl

theorem keep_ne_none (a : Kept n) (b c : List (Fin n → ℝ)) : keep a b c ≠ .none := by
  cases a <;> simp [keep]

/-- `b` is the state of a run on a used object when `a` is that of the same run on a fresh one. -/
structure After (old : Records n) (a b : MonteCarlo.State σ n) : Prop where
  k : b.k = a.k
  pos : b.pos = a.pos
  sumQ : b.sumQ = a.sumQ
  sumQ2 : b.sumQ2 = a.sumQ2
  qBar : b.qBar = a.qBar
  cov : b.covQBar = a.covQBar
  s : b.s = a.s
  allG : b.allG = old.allG ++ a.allG
  betaAll : b.betaAll = old.betaAll ++ a.betaAll
  uAll : keptEntries b.uAll = keptEntries old.uAll ++ keptEntries a.uAll
  xAll : old.xAll ≠ .none → b.xAll ≠ .none ∧ keptEntries b.xAll = keptEntries old.xAll ++ keptEntries a.uAll

theorem block_after {t : Mats n} {marg : Fin n → Marginal} {ev : Evaluator σ n} {opt : MonteCarlo.Options} {c : Fin n → ℝ}
    {ω : ℕ → ℝ} {old : Records n} {a b : MonteCarlo.State σ n} (h : After old a b) :
    (∀ e, block t marg ev opt c ω a = .error e → block t marg ev opt c ω b = .error e) ∧
    (∀ a', block t marg ev opt c ω a = .ok a' → ∃ b', block t marg ev opt c ω b = .ok b' ∧ After old a' b') := by
  unfold block
  simp only [h.k, h.pos, h.s, h.sumQ, h.sumQ2]
  cases hr : randomNumbers opt c ω (min opt.blockSize (opt.samples - a.k)) a.pos with
  | error e => simp
  | ok us =>
    simp only
    rcases hv : ev.values a.s (us.map (uToX t marg)) with ⟨s', e | G⟩
    · simp
    · refine ⟨by simp, ?_⟩
      intro a' ha
      simp only [Except.ok.injEq] at ha
      subst ha
      refine ⟨_, rfl, ⟨rfl, rfl, rfl, rfl, rfl, rfl, rfl, ?_, ?_, ?_, ?_⟩⟩
      · simp only [h.allG, List.append_assoc]
      · simp only [h.betaAll, List.append_assoc]
      · simp only [keptEntries_keep, h.uAll, List.append_assoc]
      · intro ho
        obtain ⟨h1, h2⟩ := h.xAll ho
        exact ⟨keep_ne_none _ _ _, by simp only [keptEntries_keep_some h1, keptEntries_keep, h2, List.append_assoc]⟩

theorem loop_after {t : Mats n} {marg : Fin n → Marginal} {ev : Evaluator σ n} {opt : MonteCarlo.Options} {c : Fin n → ℝ}
    {ω : ℕ → ℝ} {old : Records n} (fuel : ℕ) : ∀ {a b : MonteCarlo.State σ n}, After old a b →
    (MonteCarlo.loop t marg ev opt c ω fuel a = none → MonteCarlo.loop t marg ev opt c ω fuel b = none) ∧
    (∀ e, MonteCarlo.loop t marg ev opt c ω fuel a = some (.error e) →
      MonteCarlo.loop t marg ev opt c ω fuel b = some (.error e)) ∧
    (∀ a', MonteCarlo.loop t marg ev opt c ω fuel a = some (.ok a') →
      ∃ b', MonteCarlo.loop t marg ev opt c ω fuel b = some (.ok b') ∧ After old a' b') := by
  induction fuel with
  | zero =>
    intro a b h
    unfold MonteCarlo.loop
    rw [h.k]
    by_cases hk : a.k < opt.samples
    · simp only [if_pos hk]; simp
    · simp only [if_neg hk]
      exact ⟨by simp, by simp, fun a' ha => ⟨b, rfl, by simp at ha; exact ha ▸ h⟩⟩
  | succ fuel ih =>
    intro a b h
    unfold MonteCarlo.loop
    rw [h.k]
    by_cases hk : a.k < opt.samples
    · simp only [if_pos hk]
      obtain ⟨h1, h2⟩ := block_after (t := t) (marg := marg) (ev := ev) (opt := opt) (c := c) (ω := ω) h
      cases hb : block t marg ev opt c ω a with
      | error e => simp [h1 e hb]
      | ok a1 =>
        obtain ⟨b1, hb1, hab⟩ := h2 a1 hb
        simp only [hb1, hab.cov]
        by_cases hc : a1.covQBar ≤ opt.cov
        · simp only [if_pos hc]
          exact ⟨by simp, by simp, fun a' ha => ⟨b1, rfl, by simp at ha; exact ha ▸ hab⟩⟩
        · simp only [if_neg hc]
          exact ih hab
    · simp only [if_neg hk]
      exact ⟨by simp, by simp, fun a' ha => ⟨b, rfl, by simp at ha; exact ha ▸ h⟩⟩

/-- C69: whatever earlier runs left on the object, a run returns the same estimate, uses the same draws and evaluations
and ends in the same way as the same run of a fresh object; only the kept records differ: they are the old ones followed
by the new ones.  In the record of physical samples an object that was run before gains only `u`-coordinates. -/
theorem C69_rerun (old : Records n) (t : Mats n) (marg : Fin n → Marginal) (ev : Evaluator σ n) (opt : MonteCarlo.Options)
    (point : Option (Fin n → ℝ)) (ω : ℕ → ℝ) (pos fuel : ℕ) (s : σ) :
    let new := runOn old t marg ev opt point ω pos fuel s
    let first := MonteCarlo.run t marg ev opt point ω pos fuel s
    (first = none → new = none) ∧ (∀ e, first = some (.error e) → new = some (.error e)) ∧
    (∀ r, first = some (.ok r) → ∃ r', new = some (.ok r') ∧
      r'.Pf = r.Pf ∧ r'.beta = r.beta ∧ r'.st.covQBar = r.st.covQBar ∧ r'.st.k = r.st.k ∧ r'.st.pos = r.st.pos ∧
      r'.st.s = r.st.s ∧
      r'.st.allG = old.allG ++ r.st.allG ∧ r'.st.betaAll = old.betaAll ++ r.st.betaAll ∧
      keptEntries r'.st.uAll = keptEntries old.uAll ++ keptEntries r.st.uAll ∧
      (old.xAll ≠ .none → keptEntries r'.st.xAll = keptEntries old.xAll ++ keptEntries r.st.uAll)) := by
  intro new first
  have h0 : After old (⟨0, pos, 0, 0, 0, 1, .none, .none, [], [], s⟩ : MonteCarlo.State σ n)
      ⟨0, pos, 0, 0, 0, 1, old.uAll, old.xAll, old.allG, old.betaAll, s⟩ :=
    ⟨rfl, rfl, rfl, rfl, rfl, rfl, rfl, by simp, by simp, by simp [keptEntries], fun h => ⟨h, by simp [keptEntries]⟩⟩
  obtain ⟨h1, h2, h3⟩ := loop_after (t := t) (marg := marg) (ev := ev) (opt := opt) (c := point.getD (fun _ => 0))
    (ω := ω) fuel h0
  simp only [new, first, MonteCarlo.run, runOn, Records.fresh]
  by_cases hs : opt.stdv = 0
  · simp [hs]
  · by_cases hN : opt.samples = 0
    · simp [hs, hN]
    · simp only [if_neg hs, if_neg hN]
      rcases hl : MonteCarlo.loop t marg ev opt (point.getD (fun _ => 0)) ω fuel
          ⟨0, pos, 0, 0, 0, 1, .none, .none, [], [], s⟩ with _ | e | st
      · simp [h1 hl]
      · simp [h2 e hl]
      · obtain ⟨st', hl', hr⟩ := h3 st hl
        refine ⟨by simp, by simp, ?_⟩
        intro r hr'
        simp only [Option.some.injEq, Except.ok.injEq] at hr'
        subst hr'
        rw [hl']
        refine ⟨finish st', rfl, ?_, ?_, hr.cov, hr.k, hr.pos, hr.s, hr.allG, hr.betaAll, hr.uAll,
          fun h => (hr.xAll h).2⟩
        · simp only [finish, hr.sumQ, hr.qBar]
        · simp only [finish, hr.sumQ, hr.qBar]

/-- A sequence of runs of one object, each continuing the stream where the previous one stopped: the results of the
runs, or nothing if one of them does not end normally. -/
noncomputable def runsOn (t : Mats n) (marg : Fin n → Marginal) (ev : Evaluator σ n) (opt : MonteCarlo.Options)
    (point : Option (Fin n → ℝ)) (ω : ℕ → ℝ) (fuel : ℕ) : ℕ → Records n → ℕ → σ → List (MonteCarlo.Result σ n)
  | 0, _, _, _ => []
  | m + 1, old, pos, s =>
    match runOn old t marg ev opt point ω pos fuel s with
    | some (.ok r) => r :: runsOn t marg ev opt point ω fuel m r.st.records r.st.pos r.st.s
    | _ => []

/-- C69: in every sequence of runs of one object, each run estimates what a fresh object would estimate from the same
draws: `Pf` is the mean of the summands over that run's samples alone.  The kept limit-state values end with those of
that run's samples, and their number is the number of evaluations of all runs so far. -/
theorem C69_runs {t : Mats n} {marg : Fin n → Marginal} {ev : Evaluator σ n} {P : σ → Prop} {f : (Fin n → ℝ) → ℝ}
    (hev : Values ev P f) {opt : MonteCarlo.Options} (hg : opt.randomGenerator = 0) (hb : 1 ≤ opt.blockSize)
    (hN : 1 ≤ opt.samples) (hs : 0 < opt.stdv) (point : Option (Fin n → ℝ)) (ω : ℕ → ℝ) (fuel : ℕ)
    (hf : opt.samples ≤ fuel) (m : ℕ) : ∀ (old : Records n) (pos : ℕ) (s : σ), P s →
    (runsOn t marg ev opt point ω fuel m old pos s).length = m ∧
    ∀ i (hi : i < (runsOn t marg ev opt point ω fuel m old pos s).length),
      let rs := runsOn t marg ev opt point ω fuel m old pos s
      let start := pos + n * ((rs.take i).map (fun r => r.st.k)).sum
      rs[i].Pf = (∑ j ∈ Finset.range rs[i].st.k,
        summand t marg f opt (point.getD (fun _ => 0)) ω start j) / rs[i].st.k ∧
      rs[i].st.allG.drop (rs[i].st.allG.length - rs[i].st.k) = (List.range rs[i].st.k).map (fun j => f (uToX t marg
        (mcSample opt.stdv (point.getD (fun _ => 0)) ω opt.blockSize opt.samples start j))) ∧
      rs[i].st.allG.length = old.allG.length + ((rs.take (i + 1)).map (fun r => r.st.k)).sum := by
  induction m with
  | zero => intro old pos s _; simp [runsOn]
  | succ m ih =>
    intro old pos s hP
    obtain ⟨r0, hr0, hPf⟩ : ∃ r0, MonteCarlo.run t marg ev opt point ω pos fuel s = some (.ok r0) ∧
        r0.Pf = (∑ j ∈ Finset.range r0.st.k, summand t marg f opt (point.getD (fun _ => 0)) ω pos j) / r0.st.k := by
      obtain ⟨r, h1, -, -, h4, -⟩ := C37_run (t := t) (marg := marg) hev hg hb hN hs point ω pos fuel hf s hP
      exact ⟨r, h1, h4⟩
    have hstate : r0.st.pos = pos + n * r0.st.k ∧ P r0.st.s ∧ r0.st.allG = (List.range r0.st.k).map (fun j => f (uToX t marg
        (mcSample opt.stdv (point.getD (fun _ => 0)) ω opt.blockSize opt.samples pos j))) := by
      obtain ⟨st, hl, hi, -⟩ := loop_spec (pos := pos) (ω := ω) (point := point.getD (fun _ => 0)) (t := t) (marg := marg)
        hev hg hb hN (Q := fun _ _ => True) (fun _ _ _ _ _ _ _ => trivial) fuel
        ⟨0, pos, 0, 0, 0, 1, .none, .none, [], [], s⟩
        ⟨hP, Nat.zero_le _, Or.inr (dvd_zero _), by simp, by simp, by simp, Or.inl ⟨rfl, rfl, rfl⟩, rfl, rfl⟩ trivial hf
        (fun h => absurd h (lt_irrefl _))
      have : r0.st = st := by
        unfold MonteCarlo.run runOn Records.fresh at hr0
        simp only [if_neg hs.ne', if_neg (show opt.samples ≠ 0 by omega)] at hr0
        rw [hl] at hr0
        simp only [Option.some.injEq, Except.ok.injEq] at hr0
        rw [← hr0]; rfl
      rw [this]
      exact ⟨hi.hpos, hi.hP, hi.allG⟩
    have hglen : r0.st.allG.length = r0.st.k := by rw [hstate.2.2]; simp
    obtain ⟨-, -, h3⟩ := C69_rerun old t marg ev opt point ω pos fuel s
    obtain ⟨r, hr, e1, -, -, e4, e5, e6, e7, -⟩ := h3 r0 hr0
    have hruns : runsOn t marg ev opt point ω fuel (m + 1) old pos s =
        r :: runsOn t marg ev opt point ω fuel m r.st.records r.st.pos r.st.s := by
      rw [runsOn, hr]
    obtain ⟨hlen, hrest⟩ := ih r.st.records r.st.pos r.st.s (by rw [e6]; exact hstate.2.1)
    rw [hruns]
    have hdrop : r.st.allG.drop (r.st.allG.length - r.st.k) = r0.st.allG := by
      rw [e7, e4, List.length_append, hglen, Nat.add_sub_cancel, List.drop_left]
    refine ⟨by simp [hlen], ?_⟩
    intro i hi
    cases i with
    | zero =>
      simp only [List.getElem_cons_zero, List.take_zero, List.map_nil, List.sum_nil, Nat.mul_zero, Nat.add_zero,
        List.take_succ_cons, List.flatMap_cons, List.flatMap_nil, List.append_nil, List.map_cons, List.sum_cons]
      exact ⟨by rw [e1, hPf, e4], by rw [hdrop, hstate.2.2, e4], by rw [e7, List.length_append, hglen, e4]⟩
    | succ i =>
      have hi' : i < (runsOn t marg ev opt point ω fuel m r.st.records r.st.pos r.st.s).length := by
        simpa using hi
      obtain ⟨g1, g2, g3⟩ := hrest i hi'
      simp only [List.getElem_cons_succ, List.take_succ_cons, List.map_cons, List.sum_cons, List.flatMap_cons]
      refine ⟨?_, ?_, ?_⟩
      · rw [g1]
        simp only [e5, hstate.1, e4, Nat.mul_add, Nat.add_assoc]
      · rw [g2]
        simp only [e5, hstate.1, e4, Nat.mul_add, Nat.add_assoc]
      · rw [g3]
        simp only [MonteCarlo.State.records, e7, List.length_append, hglen, e4]
        omega

/-- Two runs of one object: one standard normal variable, `g = x`, 3 samples in blocks of 2.  The stream is
`-1, 1, 0, -2, -2, 3, …`: the first run sees one failure in three, the second two; the object then keeps six values. -/
example : ∃ m r1 r2, Normal.new 0 (.fin 1) none = .ok m ∧ runsOn (n := 1) ⟨1, 1⟩ (fun _ => m)
    (⟨fun s _ => (s, .error .typeError), fun s xs => (s, .ok (xs.map (fun x => x 0)))⟩ : Evaluator Unit 1)
    ⟨3, 2, 1, 0, 0⟩ none (fun k => [-1, 1, 0, -2, -2, 3].getD k 0) 3 2 Records.fresh 0 () = [r1, r2] ∧
    r1.Pf = 1 / 3 ∧ r2.Pf = 2 / 3 ∧ r2.st.allG.length = 6 := by
  obtain ⟨m, hm⟩ : ∃ m, Normal.new 0 (.fin (1 : ℝ)) none = .ok m := ⟨_, rfl⟩
  have hu := (normal_ok hm).1
  obtain ⟨h1, h2⟩ := C69_runs (t := ⟨1, 1⟩) (marg := fun _ => m)
    (ev := (⟨fun s _ => (s, .error .typeError), fun s xs => (s, .ok (xs.map (fun x => x 0)))⟩ : Evaluator Unit 1))
    (P := fun _ => True) (f := fun x : Fin 1 → ℝ => x 0) (fun s _ xs => ⟨s, rfl, trivial⟩) (opt := ⟨3, 2, 1, 0, 0⟩) rfl
    (by norm_num) (by norm_num) (by norm_num) none (fun k => [-1, 1, 0, -2, -2, 3].getD k 0) 3 le_rfl 2 Records.fresh 0 ()
    trivial
  obtain ⟨r1, hr1, hk1, -⟩ := run_full (t := ⟨1, 1⟩) (marg := fun _ => m)
    (ev := (⟨fun s _ => (s, .error .typeError), fun s xs => (s, .ok (xs.map (fun x => x 0)))⟩ : Evaluator Unit 1))
    (P := fun _ => True) (f := fun x : Fin 1 → ℝ => x 0) (fun s _ xs => ⟨s, rfl, trivial⟩) (opt := ⟨3, 2, 1, 0, 0⟩) rfl
    (by norm_num) (by norm_num) (by norm_num) (by norm_num) none (fun k => [-1, 1, 0, -2, -2, 3].getD k 0) 0 3 le_rfl ()
    trivial
  obtain ⟨r2, hr2, hk2, -⟩ := run_full (t := ⟨1, 1⟩) (marg := fun _ => m)
    (ev := (⟨fun s _ => (s, .error .typeError), fun s xs => (s, .ok (xs.map (fun x => x 0)))⟩ : Evaluator Unit 1))
    (P := fun _ => True) (f := fun x : Fin 1 → ℝ => x 0) (fun s _ xs => ⟨s, rfl, trivial⟩) (opt := ⟨3, 2, 1, 0, 0⟩) rfl
    (by norm_num) (by norm_num) (by norm_num) (by norm_num) none (fun k => [-1, 1, 0, -2, -2, 3].getD k 0) r1.st.pos 3 le_rfl
    r1.st.s trivial
  obtain ⟨r2', hr2', -, -, -, hk2', -⟩ := (C69_rerun r1.st.records _ _ _ _ _ _ _ _ _).2.2 r2 hr2
  have hr1' : runOn (n := 1) Records.fresh ⟨1, 1⟩ (fun _ => m)
    (⟨fun s _ => (s, .error .typeError), fun s xs => (s, .ok (xs.map (fun x => x 0)))⟩ : Evaluator Unit 1)
    ⟨3, 2, 1, 0, 0⟩ none (fun k => [-1, 1, 0, -2, -2, 3].getD k 0) 0 3 () = some (.ok r1) := hr1
  have hlist : runsOn (n := 1) ⟨1, 1⟩ (fun _ => m)
    (⟨fun s _ => (s, .error .typeError), fun s xs => (s, .ok (xs.map (fun x => x 0)))⟩ : Evaluator Unit 1)
    ⟨3, 2, 1, 0, 0⟩ none (fun k => [-1, 1, 0, -2, -2, 3].getD k 0) 3 2 Records.fresh 0 () = [r1, r2'] := by
    simp only [runsOn, hr1', hr2']
  have hd : ∀ u, normalDensity (fun _ : Fin 1 => (0:ℝ)) 1 u / normalDensity (fun _ => 0) 1 u = 1 := fun u =>
    div_self (normalDensity_pos _ one_pos _).ne'
  have hk : r2'.st.k = 3 := by rw [hk2', hk2]
  have hk1' : r1.st.k = 3 := hk1
  refine ⟨m, r1, r2', hm, hlist, ?_, ?_, ?_⟩
  · have := (h2 0 (by rw [h1]; norm_num)).1
    simp only [hlist, List.getElem_cons_zero, hk1', Finset.sum_range_succ] at this
    rw [this]
    simp [summand, mcSample, mcDraw, uToX, hu, hd, Normal.uToX]
    norm_num
  · have := (h2 1 (by rw [h1]; norm_num)).1
    simp only [hlist, List.getElem_cons_succ, List.getElem_cons_zero, hk, Finset.sum_range_succ] at this
    rw [this]
    simp [summand, mcSample, mcDraw, uToX, hu, hd, Normal.uToX, hk1']
    norm_num
  · have := (h2 1 (by rw [h1]; norm_num)).2.2
    simp only [hlist, List.getElem_cons_succ, List.getElem_cons_zero] at this
    rw [this]
    simp [hk, hk1', Records.fresh]

end Pystra.Props
