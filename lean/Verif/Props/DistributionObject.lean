import Verif.Spec.Objects
import Verif.Props.MonteCarloObject

/-! C88: the life of a `DistributionAnalysis` object. -/

namespace Pystra.Props
open Spec Transformation Form MonteCarlo

variable {σ : Type} {n : ℕ}

/-- The same results. -/
structure DaSame (a b : DaObj.Obj n) : Prop where
  k : b.k = a.k
  allX : b.allX = a.allX
  allG : b.allG = a.allG
  bins : b.bins = a.bins
  done : b.done = a.done
  Pf : b.Pf = a.Pf
  beta : b.beta = a.beta

theorem percentDone_same {a b : DaObj.Obj n} (h : DaSame a b) (N : ℕ) (p q : Bool) :
    DaSame (DaObj.percentDone N p a) (DaObj.percentDone N q b) := by
  have hk := h.k
  have hd := h.done
  unfold DaObj.percentDone
  dsimp only
  rw [hk, hd]
  by_cases hc : a.done.getD 0 < a.k.getD 0 * 20 / N
  · rw [if_pos hc, if_pos hc]
    exact ⟨rfl, h.allX, h.allG, h.bins, rfl, h.Pf, h.beta⟩
  · rw [if_neg hc, if_neg hc]
    exact h

theorem dataUpdate_same {a b : DaObj.Obj n} (h : DaSame a b) (start : ℕ) (xs : List (Fin n → ℝ)) (G : List ℝ) :
    DaSame (DaObj.dataUpdate start xs G a) (DaObj.dataUpdate start xs G b) := by
  have h1 := h.allX
  have h2 := h.allG
  refine ⟨h.k, ?_, ?_, h.bins, h.done, h.Pf, h.beta⟩
  · unfold DaObj.dataUpdate; dsimp only; rw [h1]
  · unfold DaObj.dataUpdate; dsimp only; rw [h2]

theorem daPass_same {t : Mats n} {marg : Fin n → Marginal} {ev : Evaluator σ n} {opt : MonteCarlo.Options}
    (hg : opt.randomGenerator = 0) {ω : ℕ → ℝ} {a b : DaObj.Obj n} (h : DaSame a b) (p q : Bool) (s : σ) (pos : ℕ) :
    (DaObj.pass t marg ev opt q ω b s pos).2 = (DaObj.pass t marg ev opt p ω a s pos).2 ∧
      DaSame (DaObj.pass t marg ev opt p ω a s pos).1 (DaObj.pass t marg ev opt q ω b s pos).1 := by
  have hk := h.k
  simp only [DaObj.pass, DaObj.draw, hg, if_true, hk]
  obtain ⟨m, hm⟩ : ∃ m, m = min opt.blockSize (opt.samples - a.k.getD 0) := ⟨_, rfl⟩
  simp only [← hm]
  obtain ⟨us, hus⟩ : ∃ us, us = (randn ω n m pos).map (fun z => fun r => 0 + opt.stdv * z r) := ⟨_, rfl⟩
  simp only [← hus]
  have hs : DaSame { a with blockSize := some m, k := some (a.k.getD 0 + m), u := some us }
      { b with blockSize := some m, k := some (a.k.getD 0 + m), u := some us } :=
    ⟨rfl, h.allX, h.allG, h.bins, h.done, h.Pf, h.beta⟩
  by_cases hlen : us.length < m
  · simp only [if_pos hlen]
    exact ⟨trivial, hs⟩
  simp only [if_neg hlen]
  obtain ⟨⟨s', x⟩, hv⟩ : ∃ y, ev.values s ((us.take m).map (uToX t marg)) = y := ⟨_, rfl⟩
  rw [hv]
  cases x with
  | error e => exact ⟨rfl, hs⟩
  | ok G => exact ⟨rfl, percentDone_same (dataUpdate_same hs _ _ _) _ _ _⟩

theorem daLoop_same {t : Mats n} {marg : Fin n → Marginal} {ev : Evaluator σ n} {opt : MonteCarlo.Options}
    (hg : opt.randomGenerator = 0) {ω : ℕ → ℝ} (p q : Bool) (fuel : ℕ) :
    ∀ {a b : DaObj.Obj n} (s : σ) (pos : ℕ), DaSame a b →
    match DaObj.loop t marg ev opt p ω fuel a s pos with
    | none => DaObj.loop t marg ev opt q ω fuel b s pos = none
    | some (a', r) => ∃ b', DaObj.loop t marg ev opt q ω fuel b s pos = some (b', r) ∧ DaSame a' b' := by
  induction fuel with
  | zero =>
    intro a b s pos h
    unfold DaObj.loop
    rw [h.k]
    by_cases hk : a.k.getD 0 < opt.samples
    · simp only [if_pos hk]
    · simp only [if_neg hk]
      exact ⟨b, rfl, h⟩
  | succ fuel ih =>
    intro a b s pos h
    unfold DaObj.loop
    rw [h.k]
    by_cases hk : a.k.getD 0 < opt.samples
    · simp only [if_pos hk]
      have hp := daPass_same (t := t) (marg := marg) (ev := ev) hg (ω := ω) h p q s pos
      rcases ha : DaObj.pass t marg ev opt p ω a s pos with ⟨a1, s1, pos1, x⟩
      rcases hb : DaObj.pass t marg ev opt q ω b s pos with ⟨b1, r1⟩
      rw [ha, hb] at hp
      obtain ⟨hr, hov⟩ := hp
      dsimp only at hr hov
      subst hr
      cases x with
      | error e => exact ⟨b1, rfl, hov⟩
      | ok u => exact ih s1 pos1 hov
    · simp only [if_neg hk]
      exact ⟨b, rfl, h⟩

/-- What a run makes of a used object, in terms of what it makes of a new one. -/
structure DaOver (old a b : DaObj.Obj n) : Prop where
  valid : b.resultsValid = true
  k : b.k = a.k.or old.k
  allX : b.allX = a.allX.or old.allX
  allG : b.allG = a.allG.or old.allG
  bins : b.bins = a.bins.or old.bins
  Pf : b.Pf = old.Pf
  beta : b.beta = old.beta

theorem daLoop_some {t : Mats n} {marg : Fin n → Marginal} {ev : Evaluator σ n} {opt : MonteCarlo.Options} {ω : ℕ → ℝ} (p : Bool) (fuel : ℕ) :
    ∀ {a : DaObj.Obj n} (s : σ) (pos : ℕ) {a' r}, DaObj.loop t marg ev opt p ω fuel a s pos = some (a', r) →
      a.k.isSome → a.allX.isSome → a.allG.isSome → a.bins.isSome →
      a'.k.isSome ∧ a'.allX.isSome ∧ a'.allG.isSome ∧ a'.bins.isSome ∧ a'.resultsValid = a.resultsValid ∧ a'.Pf = a.Pf ∧ a'.beta = a.beta := by
  induction fuel with
  | zero =>
    intro a s pos a' r h h1 h2 h3 h4
    unfold DaObj.loop at h
    split at h
    · cases h
    · injection h with h; injection h with h _; subst h; exact ⟨h1, h2, h3, h4, rfl, rfl, rfl⟩
  | succ fuel ih =>
    intro a s pos a' r h h1 h2 h3 h4
    unfold DaObj.loop at h
    split at h
    · have hpass : ∀ c, c = (DaObj.pass t marg ev opt p ω a s pos).1 →
          c.k.isSome ∧ c.allX.isSome ∧ c.allG.isSome ∧ c.bins.isSome ∧ c.resultsValid = a.resultsValid ∧ c.Pf = a.Pf ∧ c.beta = a.beta := by
        rintro c rfl
        unfold DaObj.pass
        dsimp only
        split
        · exact ⟨rfl, h2, h3, h4, rfl, rfl, rfl⟩
        · split
          · exact ⟨rfl, h2, h3, h4, rfl, rfl, rfl⟩
          · split
            · exact ⟨rfl, h2, h3, h4, rfl, rfl, rfl⟩
            · unfold DaObj.percentDone
              dsimp only
              split
              · exact ⟨rfl, rfl, rfl, h4, rfl, rfl, rfl⟩
              · exact ⟨rfl, rfl, rfl, h4, rfl, rfl, rfl⟩
      rcases ha : DaObj.pass t marg ev opt p ω a s pos with ⟨a1, s1, pos1, x⟩
      obtain ⟨k1, k2, k3, k4, k5, k6, k7⟩ := hpass a1 (by rw [ha])
      rw [ha] at h
      cases x with
      | error e =>
        dsimp only at h
        injection h with h; injection h with h _; subst h; exact ⟨k1, k2, k3, k4, k5, k6, k7⟩
      | ok u =>
        dsimp only at h
        obtain ⟨l1, l2, l3, l4, l5, l6, l7⟩ := ih s1 pos1 h k1 k2 k3 k4
        exact ⟨l1, l2, l3, l4, l5.trans k5, l6.trans k6, l7.trans k7⟩
    · injection h with h; injection h with h _; subst h; exact ⟨h1, h2, h3, h4, rfl, rfl, rfl⟩

theorem daRun_over {st : DaObj.Settings} (hg : st.opt.randomGenerator = 0) (ω : ℕ → ℝ) (old : DaObj.Obj n) (h1 : old.Pf = none)
    (h2 : old.beta = none) (ev : Ev Marginal) (pos : ℕ) :
    match daAlone (n := n) st ω ev pos with
    | none => DaObj.run st ω old ev pos = none
    | some (a, ev', pos', _) => ∃ b r, DaObj.run st ω old ev pos = some (b, ev', pos', r) ∧ DaOver old a b := by
  unfold daAlone DaObj.run
  dsimp only
  rcases hi : Session.initRun st.c n ev with ⟨ev1, e | t⟩
  · exact ⟨_, _, rfl, rfl, rfl, rfl, rfl, rfl, rfl, rfl⟩
  dsimp only [DaObj.simulate]
  have hs : DaSame { DaObj.initialise { st with print := false } { (DaObj.fresh : DaObj.Obj n) with resultsValid := true, transform := some t } with k := some 0 }
      { DaObj.initialise st { old with resultsValid := true, transform := some t } with k := some 0 } :=
    ⟨rfl, rfl, rfl, rfl, rfl, h1, h2⟩
  have hl := daLoop_same (t := t) (marg := Session.margN n st.c.default ev1.model) (ev := Session.evaluator st.c n ev1.model) hg (ω := ω)
    false st.print st.c.fuel ev1 pos hs
  obtain ⟨la, hla⟩ : ∃ y, DaObj.loop t (Session.margN n st.c.default ev1.model) (Session.evaluator st.c n ev1.model) st.opt false ω st.c.fuel
    { DaObj.initialise { st with print := false } { (DaObj.fresh : DaObj.Obj n) with resultsValid := true, transform := some t } with k := some 0 }
    ev1 pos = y := ⟨_, rfl⟩
  rw [hla] at hl
  rw [hla]
  rcases la with _ | ⟨a, ev2, pos2, x⟩
  · rw [hl]
  dsimp only at hl
  obtain ⟨b, hb, hab⟩ := hl
  obtain ⟨k1, k2, k3, k4, -, k6, k7⟩ := daLoop_some _ _ _ _ hla rfl rfl rfl rfl
  obtain ⟨-, -, -, -, l5, -, -⟩ := daLoop_some _ _ _ _ hb rfl rfl rfl rfl
  rw [hb]
  cases x with
  | error e =>
    refine ⟨b, _, rfl, l5, ?_, ?_, ?_, ?_, ?_, ?_⟩
    · rw [hab.k, or_of_isSome k1]
    · rw [hab.allX, or_of_isSome k2]
    · rw [hab.allG, or_of_isSome k3]
    · rw [hab.bins, or_of_isSome k4]
    · rw [hab.Pf, k6, h1]; rfl
    · rw [hab.beta, k7, h2]; rfl
  | ok u =>
    refine ⟨DaObj.transpose b, _, rfl, l5, ?_, ?_, ?_, ?_, ?_, ?_⟩
    · change b.k = a.k.or _
      rw [hab.k, or_of_isSome k1]
    · change b.allX = a.allX.or _
      rw [hab.allX, or_of_isSome k2]
    · change b.allG.map _ = (a.allG.map _).or _
      rw [hab.allG, or_of_isSome (by simpa using k3)]
    · change b.bins = a.bins.or _
      rw [hab.bins, or_of_isSome k4]
    · change b.Pf = _
      rw [hab.Pf, k6, h1]; rfl
    · change b.beta = _
      rw [hab.beta, k7, h2]; rfl

/-- A history seen as its runs taken alone. -/
structure DaAfter (old o : DaObj.Obj n) (l : List (DaObj.Obj n × Except PyErr Unit)) : Prop where
  valid : o.resultsValid = (old.resultsValid || !l.isEmpty)
  k : o.k = (lastWritten (fun r => r.1.k) l).or old.k
  allX : o.allX = (lastWritten (fun r => r.1.allX) l).or old.allX
  allG : o.allG = (lastWritten (fun r => r.1.allG) l).or old.allG
  bins : o.bins = (lastWritten (fun r => r.1.bins) l).or old.bins
  Pf : o.Pf = none
  beta : o.beta = none

theorem daHistory_from (ω : ℕ → ℝ) (h : List DaObj.Event) (hg : ∀ st, DaObj.Event.run st ∈ h → st.opt.randomGenerator = 0) :
    ∀ (old : DaObj.Obj n) (ev : Ev Marginal) (pos : ℕ), old.Pf = none → old.beta = none →
    match daRuns (n := n) ω h ev pos with
    | none => DaObj.history ω h old ev pos = none
    | some (ev', pos', l) => ∃ o, DaObj.history ω h old ev pos = some (o, ev', pos') ∧ DaAfter old o l := by
  induction h with
  | nil =>
    intro old ev pos h1 h2
    exact ⟨old, rfl, by simp, by simp [lastWritten], by simp [lastWritten], by simp [lastWritten], by simp [lastWritten], h1, h2⟩
  | cons e h ih =>
    intro old ev pos h1 h2
    have ih' := ih (fun st hst => hg st (List.mem_cons_of_mem _ hst))
    cases e with
    | world f k => exact ih' old (f ev) (pos + k) h1 h2
    | run st =>
      have hr := daRun_over (n := n) (hg st List.mem_cons_self) ω old h1 h2 ev pos
      unfold daRuns DaObj.history
      obtain ⟨al, hal⟩ : ∃ y, daAlone (n := n) st ω ev pos = y := ⟨_, rfl⟩
      rw [hal] at hr ⊢
      rcases al with _ | ⟨a, ev1, pos1, x⟩
      · dsimp only at hr ⊢
        rw [hr]
      dsimp only at hr ⊢
      obtain ⟨b, r, hb, hov⟩ := hr
      rw [hb]
      dsimp only
      have := ih' b ev1 pos1 (by rw [hov.Pf, h1]) (by rw [hov.beta, h2])
      obtain ⟨dl, hdl⟩ : ∃ y, daRuns (n := n) ω h ev1 pos1 = y := ⟨_, rfl⟩
      rw [hdl] at this ⊢
      rcases dl with _ | ⟨ev2, pos2, l⟩
      · exact this
      dsimp only [Option.map] at this ⊢
      obtain ⟨o, ho, hA⟩ := this
      refine ⟨o, ho, ?_, ?_, ?_, ?_, ?_, hA.Pf, hA.beta⟩
      · rw [hA.valid, hov.valid]; simp
      · rw [hA.k, hov.k, lastWritten_cons, Option.or_assoc]
      · rw [hA.allX, hov.allX, lastWritten_cons, Option.or_assoc]
      · rw [hA.allG, hov.allG, lastWritten_cons, Option.or_assoc]
      · rw [hA.bins, hov.bins, lastWritten_cons, Option.or_assoc]

/-- **C88** (whatever happened before).  After any history of runs (with the default generator, some interrupted by exceptions) and
changes of the model, what the object holds is what the last run that got so far would have given to a new object; a run hangs exactly
when it would hang on a new object; beta and the failure probability are never there. -/
theorem C88_history (ω : ℕ → ℝ) (h : List DaObj.Event) (hg : ∀ st, DaObj.Event.run st ∈ h → st.opt.randomGenerator = 0)
    (ev : Ev Marginal) (pos : ℕ) :
    match daRuns (n := n) ω h ev pos with
    | none => DaObj.history ω h (DaObj.fresh : DaObj.Obj n) ev pos = none
    | some (ev', pos', outs) => ∃ o, DaObj.history ω h (DaObj.fresh : DaObj.Obj n) ev pos = some (o, ev', pos') ∧
        o.resultsValid = !outs.isEmpty ∧
        o.k = lastWritten (fun r => r.1.k) outs ∧
        o.allX = lastWritten (fun r => r.1.allX) outs ∧
        DaObj.getDistributionData o = lastWritten (fun r => DaObj.getDistributionData r.1) outs ∧
        DaObj.getBins o = lastWritten (fun r => DaObj.getBins r.1) outs ∧
        DaObj.getBeta o = none ∧ DaObj.getFailure o = none := by
  have := daHistory_from (n := n) ω h hg DaObj.fresh ev pos rfl rfl
  obtain ⟨dl, hdl⟩ : ∃ y, daRuns (n := n) ω h ev pos = y := ⟨_, rfl⟩
  rw [hdl] at this ⊢
  rcases dl with _ | ⟨ev2, pos2, l⟩
  · exact this
  obtain ⟨o, ho, hA⟩ := this
  refine ⟨o, ho, ?_, ?_, ?_, ?_, ?_, hA.beta, hA.Pf⟩
  · simpa [DaObj.fresh] using hA.valid
  · simpa [DaObj.fresh] using hA.k
  · simpa [DaObj.fresh] using hA.allX
  · simpa [DaObj.fresh, DaObj.getDistributionData] using hA.allG
  · simpa [DaObj.fresh, DaObj.getBins] using hA.bins

/-! ### What a run stores and prints -/

theorem write_firstK {α : Type} (N K b : ℕ) (hK : K + b ≤ N) (F : ℕ → α) (z : α) :
    DaObj.write ((List.range N).map (fun j => if j < K then F j else z)) K ((List.range b).map (fun c => F (K + c))) =
      (List.range N).map (fun j => if j < K + b then F j else z) := by
  unfold DaObj.write
  apply List.ext_getElem
  · simp; omega
  · intro i h1 h2
    simp only [List.length_map, List.length_range] at h2
    simp only [List.getElem_append, List.getElem_map, List.getElem_take, List.getElem_drop, List.getElem_range, List.length_append,
      List.length_map, List.length_take, List.length_range]
    split
    · split
      · rename_i h3 h4
        have h5 : i < K := by omega
        rw [if_pos h5, if_pos (by omega)]
      · rw [if_pos (by omega)]; congr 1; omega
    · rw [if_neg (by omega), if_neg (by omega)]

/-- The state of the loop after the first `K` samples. -/
structure DaInv (t : Mats n) (marg : Fin n → Marginal) (P : σ → Prop) (f : (Fin n → ℝ) → ℝ) (opt : MonteCarlo.Options) (print : Bool)
    (ω : ℕ → ℝ) (pos : ℕ) (msgs : List ℕ) (bins : Option ℕ) (K : ℕ) (o : DaObj.Obj n) (s : σ) (pos' : ℕ) : Prop where
  hP : P s
  k : o.k = some K
  le : K ≤ opt.samples
  block : K = opt.samples ∨ opt.blockSize ∣ K
  hpos : pos' = pos + n * K
  u : 0 < K → o.u = some ((List.range (K - opt.blockSize * ((K - 1) / opt.blockSize))).map (fun c =>
    mcSample opt.stdv (fun _ => 0) ω opt.blockSize opt.samples pos (opt.blockSize * ((K - 1) / opt.blockSize) + c)))
  allX : o.allX = some ((List.range opt.samples).map (fun j => if j < K then
    uToX t marg (mcSample opt.stdv (fun _ => 0) ω opt.blockSize opt.samples pos j) else fun _ => 0))
  allG : o.allG = some ⟨false, (List.range opt.samples).map (fun j => if j < K then
    f (uToX t marg (mcSample opt.stdv (fun _ => 0) ω opt.blockSize opt.samples pos j)) else 0)⟩
  bins : o.bins = bins
  done : o.done = some (20 * K / opt.samples)
  valid : o.resultsValid = true
  messages : ∃ L, o.messages = msgs ++ L ∧ (print = false → L = []) ∧ (print = true → DoneMessages opt.blockSize opt.samples K L)

theorem doneMessages_step {bs N K b : ℕ} (hb : 1 ≤ bs) (hbd : b = min bs (N - K)) (hK : K < N) (hd : bs ∣ K) {L : List ℕ}
    (h : DoneMessages bs N K L) :
    DoneMessages bs N (K + b) (if 20 * K / N < 20 * (K + b) / N then L ++ [20 * (K + b) / N * 5] else L) := by
  have hbpos : 1 ≤ b := by omega
  have hnext : ∀ K', K < K' → K' ≤ K + b → (bs ∣ K' ∨ K' = N) → K' = K + b := by
    intro K' h1 h2 h3
    rcases h3 with h3 | h3
    · obtain ⟨c, hc⟩ := (Nat.dvd_sub h3 hd)
      have : 1 ≤ c := by
        rcases Nat.eq_zero_or_pos c with h0 | h0
        · subst h0; omega
        · exact h0
      have : bs * 1 ≤ bs * c := Nat.mul_le_mul_left _ this
      omega
    · omega
  have hend : bs ∣ K + b ∨ K + b = N := by
    by_cases h0 : bs ≤ N - K
    · left
      rw [show b = bs by omega]
      exact Nat.dvd_add hd (dvd_refl _)
    · right; omega
  have hmono : ∀ {i j : ℕ}, i ≤ j → 20 * i / N ≤ 20 * j / N := fun hij => Nat.div_le_div_right (Nat.mul_le_mul_left _ hij)
  split
  · rename_i hlt
    refine ⟨?_, fun p => ?_⟩
    · rw [List.pairwise_append]
      refine ⟨h.1, by simp, fun a ha c hc => ?_⟩
      obtain ⟨-, K', -, h2, -, rfl⟩ := (h.2 a).1 ha
      simp only [List.mem_singleton] at hc
      subst hc
      have := hmono h2
      omega
    · rw [List.mem_append, h.2, List.mem_singleton]
      constructor
      · rintro (⟨h0, K', h1, h2, h3, h4⟩ | rfl)
        · exact ⟨h0, K', h1, by omega, h3, h4⟩
        · have hpos : 0 < 20 * (K + b) / N := lt_of_le_of_lt (Nat.zero_le _) hlt
          exact ⟨by omega, K + b, by omega, le_rfl, hend, by ring⟩
      · rintro ⟨h0, K', h1, h2, h3, h4⟩
        by_cases hc : K' ≤ K
        · exact Or.inl ⟨h0, K', h1, hc, h3, h4⟩
        · right
          rw [h4, hnext K' (by omega) h2 h3]; ring
  · rename_i hlt
    refine ⟨h.1, fun p => ?_⟩
    rw [h.2]
    constructor
    · rintro ⟨h0, K', h1, h2, h3, h4⟩
      exact ⟨h0, K', h1, by omega, h3, h4⟩
    · rintro ⟨h0, K', h1, h2, h3, h4⟩
      by_cases hc : K' ≤ K
      · exact ⟨h0, K', h1, hc, h3, h4⟩
      · have e := hnext K' (by omega) h2 h3
        have e2 : 20 * (K + b) / N = 20 * K / N := le_antisymm (by omega) (hmono (by omega))
        refine ⟨h0, K, ?_, le_rfl, Or.inl hd, by rw [h4, e, e2]⟩
        by_contra hz
        have : K = 0 := by omega
        subst this
        rw [h4, e, e2] at h0
        simp at h0

theorem daLoop_inv {t : Mats n} {marg : Fin n → Marginal} {ev : Evaluator σ n} {P : σ → Prop} {f : (Fin n → ℝ) → ℝ}
    (hev : Honest ev P f) {opt : MonteCarlo.Options} (hg : opt.randomGenerator = 0) (hb : 1 ≤ opt.blockSize) (print : Bool) (ω : ℕ → ℝ)
    (pos : ℕ) (msgs : List ℕ) (bins : Option ℕ) (fuel : ℕ) :
    ∀ (K : ℕ) (o : DaObj.Obj n) (s : σ) (pos' : ℕ), opt.samples ≤ fuel + K → DaInv t marg P f opt print ω pos msgs bins K o s pos' →
    ∃ o' s' pos'' r, DaObj.loop t marg ev opt print ω fuel o s pos' = some (o', s', pos'', r) ∧
      ((r = .ok () ∧ DaInv t marg P f opt print ω pos msgs bins opt.samples o' s' pos'') ∨
        ((∃ e, r = .error e ∧ ∃ s xs s', P s ∧ ev.values s xs = (s', .error e)) ∧ ∃ K' < opt.samples, opt.blockSize ∣ K' ∧ pos'' = pos + n * min (K' + opt.blockSize) opt.samples ∧
          o'.k = some (min (K' + opt.blockSize) opt.samples) ∧
          ∃ o1 s1, DaInv t marg P f opt print ω pos msgs bins K' o1 s1 (pos + n * K') ∧
            o'.allX = o1.allX ∧ o'.allG = o1.allG ∧ o'.bins = o1.bins ∧ o'.resultsValid = o1.resultsValid ∧ o'.messages = o1.messages)) := by
  induction fuel with
  | zero =>
    intro K o s pos' hf hi
    have hK : K = opt.samples := by have := hi.le; omega
    refine ⟨o, s, pos', .ok (), ?_, Or.inl ⟨rfl, hK ▸ hi⟩⟩
    unfold DaObj.loop
    rw [hi.k]
    simp [hK]
  | succ fuel ih =>
    intro K o s pos' hf hi
    unfold DaObj.loop
    have hk0 : o.k.getD 0 = K := by rw [hi.k]; rfl
    by_cases hlt : K < opt.samples
    · rw [hk0, if_pos hlt]
      have hd : opt.blockSize ∣ K := by
        rcases hi.block with h | h
        · omega
        · exact h
      have hus := block_samples (σ := σ) (n := n) (opt := opt) (point := fun _ => (0:ℝ)) (ω := ω) (pos := pos)
        (st := ⟨K, pos', 0, 0, 0, 0, .none, .none, [], [], s⟩) hlt hb hd hi.hpos
      simp only at hus
      obtain ⟨b, hbd⟩ : ∃ b, b = min opt.blockSize (opt.samples - K) := ⟨_, rfl⟩
      rw [← hbd] at hus
      have hKb : K + b = min (K + opt.blockSize) opt.samples := by omega
      obtain ⟨F, hF⟩ : ∃ F : ℕ → Fin n → ℝ, F = fun j => uToX t marg (mcSample opt.stdv (fun _ => 0) ω opt.blockSize opt.samples pos j) :=
        ⟨_, rfl⟩
      have hxs : (((List.range b).map (fun c => sampleU opt (fun _ => (0:ℝ)) ω pos (K + c))).take b).map (uToX t marg) =
          (List.range b).map (fun c => F (K + c)) := by
        rw [List.take_of_length_le (by simp), List.map_map, hF]; rfl
      have hp : ∃ y, ev.values s ((List.range b).map (fun c => F (K + c))) = y := ⟨_, rfl⟩
      obtain ⟨⟨s', x⟩, hv⟩ := hp
      cases x with
      | error e =>
        have hpass : DaObj.pass t marg ev opt print ω o s pos' =
            ({ o with blockSize := some b, k := some (K + b), u := some ((List.range b).map (fun c => sampleU opt (fun _ => (0:ℝ)) ω pos (K + c))) },
              s', pos' + n * b, .error e) := by
          unfold DaObj.pass DaObj.draw
          simp only [hk0, ← hbd, hg, if_true, hus, List.length_map, List.length_range, lt_irrefl, if_false, hxs, hv]
        rw [hpass]
        refine ⟨_, _, _, _, rfl, Or.inr ⟨⟨e, rfl, s, _, s', hi.hP, hv⟩, K, hlt, hd, ?_, ?_, o, s, hi.hpos ▸ hi, rfl, rfl, rfl, rfl, rfl⟩⟩
        · rw [hi.hpos, ← hKb]; ring
        · rw [← hKb]
      | ok G =>
        obtain ⟨hG, hP'⟩ := hev s hi.hP _ _ _ hv
        have hpass : DaObj.pass t marg ev opt print ω o s pos' =
            (DaObj.percentDone opt.samples print (DaObj.dataUpdate K ((List.range b).map (fun c => F (K + c))) G
              { o with blockSize := some b, k := some (K + b), u := some ((List.range b).map (fun c => sampleU opt (fun _ => (0:ℝ)) ω pos (K + c))) }),
              s', pos' + n * b, .ok ()) := by
          unfold DaObj.pass DaObj.draw
          simp only [hk0, ← hbd, hg, if_true, hus, List.length_map, List.length_range, lt_irrefl, if_false, hxs, hv]
        rw [hpass]
        dsimp only
        refine ih (K + b) _ s' (pos' + n * b) (by omega) ?_
        have hX := hi.allX
        have hGG := hi.allG
        have eX : DaObj.write ((List.range opt.samples).map (fun j => if j < K then F j else fun _ => 0)) K
            ((List.range b).map (fun c => F (K + c))) = _ := write_firstK _ _ _ (by omega) F _
        have eG : DaObj.write ((List.range opt.samples).map (fun j => if j < K then f (F j) else 0)) K
            ((List.range b).map (fun c => f (F (K + c)))) = _ := write_firstK _ _ _ (by omega) (fun j => f (F j)) _
        have hmono : 20 * K / opt.samples ≤ 20 * (K + b) / opt.samples :=
          Nat.div_le_div_right (Nat.mul_le_mul_left _ (by omega))
        obtain ⟨L, hL, hL0, hL1⟩ := hi.messages
        have hstep := doneMessages_step (L := L) hb hbd hlt hd
        subst hG
        have hdu : DaObj.dataUpdate K ((List.range b).map (fun c => F (K + c))) (((List.range b).map (fun c => F (K + c))).map f)
              { o with blockSize := some b, k := some (K + b), u := some ((List.range b).map (fun c => sampleU opt (fun _ => (0:ℝ)) ω pos (K + c))) } =
            { o with
              blockSize := some b, k := some (K + b),
              u := some ((List.range b).map (fun c => sampleU opt (fun _ => (0:ℝ)) ω pos (K + c)))
              allX := some ((List.range opt.samples).map (fun j => if j < K + b then F j else fun _ => 0))
              allG := some ⟨false, (List.range opt.samples).map (fun j => if j < K + b then f (F j) else 0)⟩ } := by
          unfold DaObj.dataUpdate
          dsimp only
          rw [hX, hGG]
          dsimp only [Option.getD, Option.map]
          rw [List.map_map, ← eX, ← eG]
          subst hF
          rfl
        rw [hdu]
        unfold DaObj.percentDone
        dsimp only [Option.getD]
        have hdone := hi.done
        rw [hdone]
        dsimp only [Option.getD]
        rw [show (K + b) * 20 = 20 * (K + b) by ring]
        have hblock : K + b = opt.samples ∨ opt.blockSize ∣ K + b := by
          by_cases h : opt.samples ≤ K + opt.blockSize
          · left; omega
          · right
            rw [show b = opt.blockSize by omega]; exact Nat.dvd_add hd (dvd_refl _)
        have hpos2 : pos' + n * b = pos + n * (K + b) := by rw [hi.hpos]; ring
        have hstart : opt.blockSize * ((K + b - 1) / opt.blockSize) = K := by
          obtain ⟨q, rfl⟩ := hd
          rw [show opt.blockSize * q + b - 1 = opt.blockSize * q + (b - 1) by omega, Nat.mul_add_div (by omega),
            Nat.div_eq_of_lt (by omega), add_zero]
        have hu : 0 < K + b → some ((List.range b).map (fun c => sampleU opt (fun _ => (0:ℝ)) ω pos (K + c))) =
            some ((List.range (K + b - opt.blockSize * ((K + b - 1) / opt.blockSize))).map (fun c =>
              mcSample opt.stdv (fun _ : Fin n => 0) ω opt.blockSize opt.samples pos (opt.blockSize * ((K + b - 1) / opt.blockSize) + c))) := by
          intro _
          rw [hstart, Nat.add_sub_cancel_left]
          rfl
        by_cases hc : 20 * K / opt.samples < 20 * (K + b) / opt.samples
        · rw [if_pos hc]
          rw [if_pos hc] at hstep
          refine ⟨hP', rfl, by omega, hblock, hpos2, hu, by rw [hF], by rw [hF], hi.bins, rfl, hi.valid, ?_⟩
          cases print with
          | false => exact ⟨L, hL, hL0, fun h => by cases h⟩
          | true =>
            exact ⟨L ++ [20 * (K + b) / opt.samples * 5], by simp [hL], fun h => (by cases h), fun _ => hstep (hL1 rfl)⟩
        · rw [if_neg hc]
          rw [if_neg hc] at hstep
          refine ⟨hP', rfl, by omega, hblock, hpos2, hu, by rw [hF], by rw [hF], hi.bins, ?_, hi.valid, ?_⟩
          · dsimp only
            congr 1; omega
          · exact ⟨L, hL, hL0, fun h => hstep (hL1 h)⟩
    · rw [hk0, if_neg hlt]
      have hK : K = opt.samples := by have := hi.le; omega
      exact ⟨o, s, pos', .ok (), rfl, Or.inl ⟨rfl, hK ▸ hi⟩⟩

/-- **C88** (what a run stores).  A run with the default generator, on an object with any past, stores the physical samples of its own
draws and their limit-state values, in order: of all `N` samples, in a column, if it completes; of the blocks before the exception,
followed by zeros, in a row, if the limit state raises.  Printing is switched on or off by the option; the percentages printed are
those of the block ends.  The draws of the last block stay on the object. -/
theorem C88_run {st : DaObj.Settings} (hg : st.opt.randomGenerator = 0) (hb : 1 ≤ st.opt.blockSize) (hf : st.opt.samples ≤ st.c.fuel)
    (ω : ℕ → ℝ) (old : DaObj.Obj n) {ev ev1 : Ev Marginal} {t : Mats n} (hI : Session.initRun st.c n ev = (ev1, .ok t))
    {P : Ev Marginal → Prop} {f : (Fin n → ℝ) → ℝ} (hev : Honest (Session.evaluator st.c n ev1.model) P f) (hP : P ev1) (pos : ℕ) :
    let N := st.opt.samples
    let marg := Session.margN n st.c.default ev1.model
    let x := fun j => uToX t marg (mcSample st.opt.stdv (fun _ => 0) ω st.opt.blockSize N pos j)
    ∃ o ev' pos' r K L, DaObj.run st ω old ev pos = some (o, ev', pos', r) ∧ K ≤ N ∧ o.resultsValid = true ∧
      o.allX = some ((List.range N).map (fun j => if j < K then x j else fun _ => 0)) ∧
      DaObj.getDistributionData o = some ⟨decide (K = N), (List.range N).map (fun j => if j < K then f (x j) else 0)⟩ ∧
      DaObj.getBins o = some (computeBins st.bins N) ∧
      o.messages = old.messages ++ L ∧ (st.print = false → L = []) ∧ (st.print = true → DoneMessages st.opt.blockSize N K L) ∧
      (K = N → o.k = some N ∧ pos' = pos + n * N ∧ P ev' ∧
        (0 < N → o.u = some ((List.range (N - st.opt.blockSize * ((N - 1) / st.opt.blockSize))).map (fun c =>
          mcSample st.opt.stdv (fun _ => 0) ω st.opt.blockSize N pos (st.opt.blockSize * ((N - 1) / st.opt.blockSize) + c)))) ∧
        r = DaObj.printed st.print ev'.model (Session.margN n st.c.default ev'.model) o) ∧
      (K < N → st.opt.blockSize ∣ K ∧ o.k = some (min (K + st.opt.blockSize) N) ∧ pos' = pos + n * min (K + st.opt.blockSize) N ∧
        ∃ e, r = .error e ∧ ∃ s xs s', P s ∧ (Session.evaluator st.c n ev1.model).values s xs = (s', .error e)) := by
  intro N marg x
  unfold DaObj.run
  dsimp only
  rw [hI]
  dsimp only [DaObj.simulate]
  have hinit : DaInv t marg P f st.opt st.print ω pos old.messages (some (computeBins st.bins N)) 0
      { DaObj.initialise st { old with resultsValid := true, transform := some t } with k := some 0 } ev1 pos := by
    refine ⟨hP, rfl, Nat.zero_le _, Or.inr (dvd_zero _), by simp, fun h => absurd h (lt_irrefl _), ?_, ?_, rfl, ?_, rfl, [], by simp [DaObj.initialise], fun _ => rfl,
      fun _ => ⟨List.Pairwise.nil, fun p => ?_⟩⟩
    · simp [DaObj.initialise, List.map_const']
    · simp [DaObj.initialise, List.map_const']
    · simp [DaObj.initialise]
    · simp
  obtain ⟨o', s', pos'', r, hl, hcase⟩ := daLoop_inv hev hg hb st.print ω pos old.messages _ st.c.fuel 0 _ ev1 pos (by omega) hinit
  rw [hl]
  rcases hcase with ⟨rfl, hi⟩ | ⟨⟨e, rfl, he⟩, K, hK, hd, hp, hk, o1, s1, hi, e1, e2, e3, e4, e5⟩
  · obtain ⟨L, hL, hL0, hL1⟩ := hi.messages
    refine ⟨DaObj.transpose o', s', pos'', _, N, L, rfl, le_rfl, hi.valid, hi.allX, ?_, hi.bins, hL, hL0, hL1, ?_, ?_⟩
    · unfold DaObj.getDistributionData DaObj.transpose
      rw [hi.allG]
      simp [N, x, marg]
    · intro _
      exact ⟨hi.k, hi.hpos, hi.hP, hi.u, rfl⟩
    · intro h; exact absurd h (lt_irrefl _)
  · obtain ⟨L, hL, hL0, hL1⟩ := hi.messages
    refine ⟨o', s', pos'', .error e, K, L, rfl, hK.le, e4.trans hi.valid, e1.trans hi.allX, ?_, e3.trans hi.bins, e5.trans hL, hL0, hL1,
      ?_, ?_⟩
    · unfold DaObj.getDistributionData
      rw [e2, hi.allG]
      have : decide (K = N) = false := by simp; omega
      rw [this]
    · intro h; omega
    · intro _
      exact ⟨hd, hk, hp, e, rfl, he⟩

/-- **C88** (completed runs).  When the limit state always returns, a run stores all `N` samples and values, whatever happened before. -/
theorem C88_complete {st : DaObj.Settings} (hg : st.opt.randomGenerator = 0) (hb : 1 ≤ st.opt.blockSize) (hf : st.opt.samples ≤ st.c.fuel)
    (ω : ℕ → ℝ) (old : DaObj.Obj n) {ev ev1 : Ev Marginal} {t : Mats n} (hI : Session.initRun st.c n ev = (ev1, .ok t))
    {P : Ev Marginal → Prop} {f : (Fin n → ℝ) → ℝ} (hev : Values (Session.evaluator st.c n ev1.model) P f) (hP : P ev1) (pos : ℕ) :
    let N := st.opt.samples
    let marg := Session.margN n st.c.default ev1.model
    let x := fun j => uToX t marg (mcSample st.opt.stdv (fun _ => 0) ω st.opt.blockSize N pos j)
    ∃ o ev' r L, DaObj.run st ω old ev pos = some (o, ev', pos + n * N, r) ∧ o.resultsValid = true ∧ o.k = some N ∧
      o.allX = some ((List.range N).map x) ∧
      DaObj.getDistributionData o = some ⟨true, (List.range N).map (fun j => f (x j))⟩ ∧
      DaObj.getBins o = some (computeBins st.bins N) ∧ P ev' ∧
      (0 < N → o.u = some ((List.range (N - st.opt.blockSize * ((N - 1) / st.opt.blockSize))).map (fun c =>
        mcSample st.opt.stdv (fun _ => 0) ω st.opt.blockSize N pos (st.opt.blockSize * ((N - 1) / st.opt.blockSize) + c)))) ∧
      r = DaObj.printed st.print ev'.model (Session.margN n st.c.default ev'.model) o ∧
      o.messages = old.messages ++ L ∧ (st.print = false → L = []) ∧ (st.print = true → DoneMessages st.opt.blockSize N N L) := by
  intro N marg x
  have hH : Honest (Session.evaluator st.c n ev1.model) P f := by
    intro s hs xs s' G h
    obtain ⟨s2, h2, h3⟩ := hev s hs xs
    rw [h2] at h
    injection h with h4 h5
    injection h5 with h5
    exact ⟨h5.symm, h4 ▸ h3⟩
  obtain ⟨o, ev', pos', r, K, L, h1, h2, h3, h4, h5, h6, h7, h8, h9, h10, h11⟩ := C88_run hg hb hf ω old hI hH hP pos
  have hK : K = st.opt.samples := by
    by_contra hne
    obtain ⟨-, -, -, e, -, s, xs, s', hs, hv⟩ := h11 (by omega)
    obtain ⟨s2, h2', -⟩ := hev s hs xs
    rw [hv] at h2'
    cases h2'
  subst hK
  obtain ⟨k1, k2, k3, ku, k4⟩ := h10 rfl
  subst k2
  have hall : ∀ (α : Type) (g : ℕ → α) (z : α), (List.range st.opt.samples).map (fun j => if j < st.opt.samples then g j else z) =
      (List.range st.opt.samples).map g := by
    intro α g z
    apply List.map_congr_left
    intro j hj
    rw [if_pos (List.mem_range.1 hj)]
  refine ⟨o, ev', r, L, h1, h3, k1, ?_, ?_, h6, k3, ku, k4, h7, h8, h9⟩
  · rw [h4, hall]
  · rw [h5, hall, decide_eq_true rfl]

end Pystra.Props
