import Verif.Spec.Objects

/-! The loops of a `SubsetSimulation` object and those of the analysis taken on its own. -/

namespace Pystra.SubsetObj
open Transformation Form Subset

variable {σ : Type} {n : ℕ} {t : Mats n} {marg : Fin n → Marginal} {ev : Evaluator σ n} {sigma y : ℝ}

theorem proposal_shift (υ : ℕ → ℝ) (p q : ℕ) (u : Fin n → ℝ) :
    proposal sigma υ (p + q) u = proposal sigma (fun k => υ (p + k)) q u := by
  unfold proposal
  simp only [Nat.add_assoc]

theorem move_rep (υ : ℕ → ℝ) (p q : ℕ) (cur : Sample n) (s : σ) :
    match Subset.move t marg ev sigma y (fun k => υ (p + k)) cur q s with
    | .error (e, s') => move t marg ev sigma y υ cur (p + q) s = (s', p + (q + 2 * n), .error e)
    | .ok (cur', q', s') => move t marg ev sigma y υ cur (p + q) s = (s', p + q', .ok cur') := by
  unfold Subset.move move
  simp only [proposal_shift]
  rcases ev.values s [uToX t marg (proposal sigma (fun k => υ (p + k)) q cur.1)] with ⟨s', e | G⟩
  · simp only [Nat.add_assoc]
  · simp only [Nat.add_assoc]

theorem chain_rep (υ : ℕ → ℝ) (p : ℕ) (m : ℕ) : ∀ (cur : Sample n) (q : ℕ) (s : σ),
    match Subset.chain t marg ev sigma y (fun k => υ (p + k)) m cur q s with
    | .error (e, s') => ∃ q', chain t marg ev sigma y υ m cur (p + q) s = (s', q', .error e)
    | .ok (l, q', s') => chain t marg ev sigma y υ m cur (p + q) s = (s', p + q', .ok l) := by
  induction m with
  | zero => intro cur q s; simp only [Subset.chain, chain]
  | succ m ih =>
    intro cur q s
    have hm := move_rep (t := t) (marg := marg) (ev := ev) (sigma := sigma) (y := y) υ p q cur s
    unfold Subset.chain chain
    rcases hxhm : Subset.move t marg ev sigma y (fun k => υ (p + k)) cur q s with ⟨e, s1⟩ | ⟨cur1, q1, s1⟩ <;> rw [hxhm] at hm
    · dsimp only at hm ⊢
      rw [hm]
      exact ⟨_, rfl⟩
    · dsimp only at hm ⊢
      rw [hm]
      have hc := ih cur1 q1 s1
      rcases hxhc : Subset.chain t marg ev sigma y (fun k => υ (p + k)) m cur1 q1 s1 with ⟨e, s2⟩ | ⟨l, q2, s2⟩ <;> rw [hxhc] at hc
      · obtain ⟨q', hc⟩ := hc
        dsimp only
        rw [hc]
        exact ⟨_, rfl⟩
      · dsimp only at hc ⊢
        rw [hc]

theorem chains_rep (υ : ℕ → ℝ) (p base rem : ℕ) (seeds : List (Sample n)) : ∀ (i q : ℕ) (s : σ),
    match Subset.chains t marg ev sigma y (fun k => υ (p + k)) base rem i seeds q s with
    | .error (e, s') => ∃ q', chains t marg ev sigma y υ base rem i seeds (p + q) s = (s', q', .error e)
    | .ok (ls, q', s') => chains t marg ev sigma y υ base rem i seeds (p + q) s = (s', p + q', .ok ls.flatten) := by
  induction seeds with
  | nil => intro i q s; simp only [Subset.chains, chains, List.flatten_nil]
  | cons seed seeds ih =>
    intro i q s
    have hm := chain_rep (t := t) (marg := marg) (ev := ev) (sigma := sigma) (y := y) υ p (base + if i < rem then 1 else 0) seed q s
    unfold Subset.chains chains
    rcases hxhm : Subset.chain t marg ev sigma y (fun k => υ (p + k)) (base + if i < rem then 1 else 0) seed q s with ⟨e, s1⟩ | ⟨l, q1, s1⟩ <;> rw [hxhm] at hm
    · obtain ⟨q', hm⟩ := hm
      dsimp only
      rw [hm]
      exact ⟨_, rfl⟩
    · dsimp only at hm ⊢
      rw [hm]
      have hc := ih (i + 1) q1 s1
      rcases hxhc : Subset.chains t marg ev sigma y (fun k => υ (p + k)) base rem (i + 1) seeds q1 s1 with ⟨e, s2⟩ | ⟨ls, q2, s2⟩ <;> rw [hxhc] at hc
      · obtain ⟨q', hc⟩ := hc
        dsimp only
        rw [hc]
        exact ⟨_, rfl⟩
      · dsimp only at hc ⊢
        rw [hc, List.flatten_cons]

theorem mmh_rep (υ : ℕ → ℝ) (p N : ℕ) (seeds : List (Sample n)) (q : ℕ) (s : σ) :
    match Subset.mmhStep t marg ev sigma y (fun k => υ (p + k)) N seeds q s with
    | .error (e, s') => ∃ q', mmhStep t marg ev sigma y υ N seeds (p + q) s = (s', q', .error e)
    | .ok (ls, q', s') => mmhStep t marg ev sigma y υ N seeds (p + q) s = (s', p + q', .ok ls.flatten) := by
  unfold Subset.mmhStep mmhStep
  by_cases h0 : seeds.length = 0
  · rw [if_pos h0, if_pos h0]
    exact ⟨_, rfl⟩
  · rw [if_neg h0, if_neg h0]
    exact chains_rep υ p _ _ seeds 0 q s

theorem levels_rep (opt : Subset.Options) (υ : ℕ → ℝ) (p : ℕ) (fuel : ℕ) : ∀ (seeds : List (Sample n)) (y Pf : ℝ) (th pr : List ℝ)
    (level : ℕ) (recs : List (List (Sample n))) (q : ℕ) (s : σ),
    match Subset.levels t marg ev opt (fun k => υ (p + k)) fuel seeds y Pf th pr level recs q s with
    | none => levels t marg ev opt.p0 opt.sigma opt.N υ fuel seeds y Pf ⟨th, pr⟩ level (p + q) s = none
    | some (.error (e, s')) => ∃ l q', levels t marg ev opt.p0 opt.sigma opt.N υ fuel seeds y Pf ⟨th, pr⟩ level (p + q) s =
        some (l, s', q', .error e)
    | some (.ok r) => ∃ q', levels t marg ev opt.p0 opt.sigma opt.N υ fuel seeds y Pf ⟨th, pr⟩ level (p + q) s =
        some (⟨r.thresholds, r.probs⟩, r.s, q', .ok (r.nLevels, r.Pf)) ∧
        r = finalise opt.N r.thresholds r.probs r.nLevels r.Pf r.samples r.s := by
  induction fuel with
  | zero => intro seeds y Pf th pr level recs q s; simp only [Subset.levels, levels]
  | succ fuel ih =>
    intro seeds y Pf th pr level recs q s
    have hm := mmh_rep (t := t) (marg := marg) (ev := ev) (sigma := opt.sigma) (y := y) υ p opt.N seeds q s
    unfold Subset.levels levels
    rcases hxhm : Subset.mmhStep t marg ev opt.sigma y (fun k => υ (p + k)) opt.N seeds q s with ⟨e, s1⟩ | ⟨ls, q1, s1⟩ <;> rw [hxhm] at hm
    · obtain ⟨q', hm⟩ := hm
      dsimp only
      rw [hm]
      exact ⟨_, _, rfl⟩
    · dsimp only at hm ⊢
      rw [hm]
      dsimp only
      by_cases hy : percentile (ls.flatten.map Prod.snd) opt.p0 ≤ 0
      · rw [if_pos hy, if_pos hy]
        exact ⟨_, rfl, rfl⟩
      · rw [if_neg hy, if_neg hy]
        exact ih _ _ _ _ _ _ _ _ _

theorem sample_rep (opt : Subset.Options) (hp : 0 < opt.p0 ∧ opt.p0 < 1) (ω υ : ℕ → ℝ) (p fuel : ℕ) (s : σ) :
    match Subset.run t marg ev opt ω (fun k => υ (p + k)) fuel s with
    | none => sample t marg ev opt.p0 opt.sigma opt.N opt.block fuel ω υ p s = none
    | some (.error (e, s')) => ∃ l q', sample t marg ev opt.p0 opt.sigma opt.N opt.block fuel ω υ p s = some (l, s', q', .error e)
    | some (.ok r) => ∃ q', sample t marg ev opt.p0 opt.sigma opt.N opt.block fuel ω υ p s =
        some (⟨r.thresholds, r.probs⟩, r.s, q', .ok (r.nLevels, r.Pf)) ∧
        r = finalise opt.N r.thresholds r.probs r.nLevels r.Pf r.samples r.s := by
  unfold Subset.run sample
  rw [if_neg (not_not.2 hp)]
  dsimp only
  rcases evalBatch t marg ev opt.block opt.N (Subset.randn ω n opt.N 0) s with ⟨e, s1⟩ | ⟨G, s1⟩
  · exact ⟨_, _, rfl⟩
  · dsimp only
    by_cases h0 : G.length = 0
    · rw [if_pos h0, if_pos h0]
      exact ⟨_, _, rfl⟩
    · rw [if_neg h0, if_neg h0]
      by_cases hy : percentile G opt.p0 ≤ 0
      · rw [if_pos hy, if_pos hy]
        exact ⟨_, rfl, rfl⟩
      · rw [if_neg hy, if_neg hy]
        exact levels_rep opt υ p fuel _ _ _ _ _ _ _ 0 s1

/-- The lists have one entry per level; those of a run that is not complete have positive thresholds only. -/
theorem levels_lists (p0 sigma : ℝ) (N : ℕ) (υ : ℕ → ℝ) (fuel : ℕ) : ∀ (seeds : List (Sample n)) (y Pf : ℝ) (l : Lists) (level p : ℕ)
    (s : σ), l.thresholds.length = level → l.probs.length = level → (∀ y ∈ l.thresholds, 0 < y) → ∀ l' s' q r,
    levels t marg ev p0 sigma N υ fuel seeds y Pf l level p s = some (l', s', q, r) →
    l'.thresholds.length = l'.probs.length ∧
    match r with
    | .error _ => ∀ y ∈ l'.thresholds, 0 < y
    | .ok (k, _) => l'.thresholds.length = k ∧ l'.thresholds.getLast? = some 0 := by
  induction fuel with
  | zero => intro seeds y Pf l level p s h1 h2 h3 l' s' q r h; simp [levels] at h
  | succ fuel ih =>
    intro seeds y Pf l level p s h1 h2 h3 l' s' q r h
    unfold levels at h
    rcases hx : mmhStep t marg ev sigma y υ N seeds p s with ⟨s1, p1, e | new⟩ <;> rw [hx] at h
    · simp only [Option.some.injEq, Prod.mk.injEq] at h
      obtain ⟨rfl, rfl, rfl, rfl⟩ := h
      exact ⟨by rw [h1, h2], h3⟩
    · dsimp only at h
      by_cases hy : percentile (new.map Prod.snd) p0 ≤ 0
      · rw [if_pos hy] at h
        simp only [Option.some.injEq, Prod.mk.injEq] at h
        obtain ⟨rfl, rfl, rfl, rfl⟩ := h
        simp [Lists.append, h1, h2]
      · rw [if_neg hy] at h
        refine ih _ _ _ _ _ _ _ ?_ ?_ ?_ l' s' q r h
        · simp [Lists.append, h1]
        · simp [Lists.append, h2]
        · intro z hz
          simp only [Lists.append, List.mem_append, List.mem_singleton] at hz
          rcases hz with hz | rfl
          · exact h3 z hz
          · exact not_le.1 hy

theorem sample_lists (p0 sigma : ℝ) (N block fuel : ℕ) (ω υ : ℕ → ℝ) (p : ℕ) (s : σ) : ∀ l' s' q r,
    sample t marg ev p0 sigma N block fuel ω υ p s = some (l', s', q, r) →
    l'.thresholds.length = l'.probs.length ∧
    match r with
    | .error _ => ∀ y ∈ l'.thresholds, 0 < y
    | .ok (k, _) => l'.thresholds.length = k ∧ l'.thresholds.getLast? = some 0 := by
  intro l' s' q r h
  unfold sample at h
  dsimp only at h
  rcases hx : evalBatch t marg ev block N (Subset.randn ω n N 0) s with ⟨e, s1⟩ | ⟨G, s1⟩ <;> rw [hx] at h
  · simp only [Option.some.injEq, Prod.mk.injEq] at h
    obtain ⟨rfl, rfl, rfl, rfl⟩ := h
    simp
  · dsimp only at h
    by_cases h0 : G.length = 0
    · rw [if_pos h0] at h
      simp only [Option.some.injEq, Prod.mk.injEq] at h
      obtain ⟨rfl, rfl, rfl, rfl⟩ := h
      simp
    · rw [if_neg h0] at h
      by_cases hy : percentile G p0 ≤ 0
      · rw [if_pos hy] at h
        simp only [Option.some.injEq, Prod.mk.injEq] at h
        obtain ⟨rfl, rfl, rfl, rfl⟩ := h
        simp
      · rw [if_neg hy] at h
        exact levels_lists p0 sigma N υ fuel _ _ _ _ 1 _ _ rfl rfl (by simpa using hy) l' s' q r h

end Pystra.SubsetObj
