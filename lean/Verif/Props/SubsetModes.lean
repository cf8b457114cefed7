import Verif.Props.SubsetLaw

/-! C126: the chains of subset simulation do not jump: failure modes the first level has not seen. -/

namespace Pystra.Props
open MeasureTheory Set Spec Matrix Transformation Form
open ProbabilityTheory hiding cdf

variable {n : ℕ} {σ σ' : Type}

/-- The candidate of a move lies within the width of the proposal of the current state, component by component. -/
theorem proposal_near (sigma : ℝ) {υ : ℕ → ℝ} (hυ : ∀ k, 0 ≤ υ k ∧ υ k ≤ 1) (pos : ℕ) (u : Fin n → ℝ) (d : Fin n) :
    |Subset.proposal sigma υ pos u d - u d| ≤ |sigma| := by
  unfold Subset.proposal
  dsimp only
  split_ifs
  · rw [add_sub_cancel_left, abs_mul]
    refine mul_le_of_le_one_right (abs_nonneg _) (abs_le.2 ⟨?_, ?_⟩) <;> linarith [(hυ (pos + 2 * d.val)).1, (hυ (pos + 2 * d.val)).2]
  · simp

/-- Two runs with the same outcome: both still running, or both finished with the same samples and the same numbers. -/
def SameRun (a : Option (Except (PyErr × σ) (Subset.Result σ n))) (b : Option (Except (PyErr × σ') (Subset.Result σ' n))) : Prop :=
  (a = none ∧ b = none) ∨ ∃ r r', a = some (.ok r) ∧ b = some (.ok r') ∧ r'.thresholds = r.thresholds ∧ r'.probs = r.probs ∧
    r'.nLevels = r.nLevels ∧ r'.Pf = r.Pf ∧ r'.beta = r.beta ∧ r'.cov = r.cov ∧
    r'.samples.map (List.map Prod.fst) = r.samples.map (List.map Prod.fst)

section
variable {t : Mats n} {marg : Fin n → Marginal} {ev : Evaluator σ n} {ev' : Evaluator σ' n} {P : σ → Prop} {P' : σ' → Prop}
  {f f' : (Fin n → ℝ) → ℝ} {opt : Subset.Options} {υ : ℕ → ℝ} {B : Set (Fin n → ℝ)} {Y sigma : ℝ}

/-- A sample of the kept part, recorded with its value. -/
def Kept (t : Mats n) (marg : Fin n → Marginal) (f : (Fin n → ℝ) → ℝ) (B : Set (Fin n → ℝ)) (y : ℝ) (q : Subset.Sample n) : Prop :=
  q.2 = f (uToX t marg q.1) ∧ q.2 ≤ y ∧ q.1 ∉ B

/-- The setting: `f'` agrees with `f` off `B`, is above `Y` on `B`, and within `{f ≤ Y}` some component differs by more than `|sigma|`
between a point off `B` and a point of `B`. -/
structure Hidden (t : Mats n) (marg : Fin n → Marginal) (f f' : (Fin n → ℝ) → ℝ) (B : Set (Fin n → ℝ)) (Y sigma : ℝ) : Prop where
  same : ∀ u, u ∉ B → f' (uToX t marg u) = f (uToX t marg u)
  high : ∀ u ∈ B, Y < f' (uToX t marg u)
  gap : ∀ a b, a ∉ B → b ∈ B → f (uToX t marg a) ≤ Y → f (uToX t marg b) ≤ Y → ∃ d, |sigma| < |b d - a d|

theorem move_same (hH : Hidden t marg f f' B Y sigma) (hev : Values ev P f) (hev' : Values ev' P' f') (hυ : ∀ k, 0 ≤ υ k ∧ υ k ≤ 1)
    {y : ℝ} (hy : y ≤ Y) {cur : Subset.Sample n} (hc : Kept t marg f B y cur) {pos : ℕ} {s : σ} {s' : σ'} (hP : P s) (hP' : P' s') :
    ∃ cur₁ s₁ s₁', Subset.move t marg ev sigma y υ cur pos s = .ok (cur₁, pos + 2 * n, s₁) ∧
      Subset.move t marg ev' sigma y υ cur pos s' = .ok (cur₁, pos + 2 * n, s₁') ∧ Kept t marg f B y cur₁ ∧ P s₁ ∧ P' s₁' := by
  obtain ⟨v, hv⟩ : ∃ v, v = Subset.proposal sigma υ pos cur.1 := ⟨_, rfl⟩
  obtain ⟨s₁, h1, h2⟩ := hev s hP [uToX t marg v]
  obtain ⟨s₁', h1', h2'⟩ := hev' s' hP' [uToX t marg v]
  unfold Subset.move
  simp only [← hv, h1, h1', List.map_cons, List.map_nil, List.headD_cons]
  by_cases hB : v ∈ B
  · have hf : ¬ f (uToX t marg v) ≤ y := by
      intro hle
      obtain ⟨d, hd⟩ := hH.gap cur.1 v hc.2.2 hB (by rw [← hc.1]; exact hc.2.1.trans hy) (hle.trans hy)
      have := proposal_near sigma hυ pos cur.1 d
      rw [← hv] at this
      exact absurd hd (not_lt.2 this)
    have hf' : ¬ f' (uToX t marg v) ≤ y := not_le.2 (lt_of_le_of_lt hy (hH.high v hB))
    rw [if_neg hf, if_neg hf']
    exact ⟨_, _, _, rfl, rfl, hc, h2, h2'⟩
  · rw [hH.same v hB]
    refine ⟨_, _, _, rfl, rfl, ?_, h2, h2'⟩
    split_ifs with h
    · exact ⟨rfl, h, hB⟩
    · exact hc

theorem chain_same (hH : Hidden t marg f f' B Y sigma) (hev : Values ev P f) (hev' : Values ev' P' f') (hυ : ∀ k, 0 ≤ υ k ∧ υ k ≤ 1)
    {y : ℝ} (hy : y ≤ Y) : ∀ (m : ℕ) {cur : Subset.Sample n}, Kept t marg f B y cur → ∀ {pos : ℕ} {s : σ} {s' : σ'}, P s → P' s' →
    ∃ l pos₁ s₁ s₁', Subset.chain t marg ev sigma y υ m cur pos s = .ok (l, pos₁, s₁) ∧
      Subset.chain t marg ev' sigma y υ m cur pos s' = .ok (l, pos₁, s₁') ∧ (∀ q ∈ l, Kept t marg f B y q) ∧ P s₁ ∧ P' s₁'
  | 0, _, _, _, _, _, hP, hP' => ⟨[], _, _, _, rfl, rfl, by simp, hP, hP'⟩
  | m + 1, cur, hc, pos, s, s', hP, hP' => by
    obtain ⟨c₁, s₁, s₁', h1, h2, h3, h4, h5⟩ := move_same hH hev hev' hυ hy hc (pos := pos) hP hP'
    obtain ⟨l, pos₂, s₂, s₂', h6, h7, h8, h9, h10⟩ := chain_same hH hev hev' hυ hy m h3 (pos := pos + 2 * n) h4 h5
    refine ⟨c₁ :: l, pos₂, s₂, s₂', ?_, ?_, ?_, h9, h10⟩
    · unfold Subset.chain; simp only [h1, h6]
    · unfold Subset.chain; simp only [h2, h7]
    · intro q hq
      rcases List.mem_cons.1 hq with h | h
      · exact h ▸ h3
      · exact h8 q h

theorem chains_same (hH : Hidden t marg f f' B Y sigma) (hev : Values ev P f) (hev' : Values ev' P' f') (hυ : ∀ k, 0 ≤ υ k ∧ υ k ≤ 1)
    {y : ℝ} (hy : y ≤ Y) (base rem : ℕ) : ∀ (seeds : List (Subset.Sample n)) (i : ℕ), (∀ q ∈ seeds, Kept t marg f B y q) →
    ∀ {pos : ℕ} {s : σ} {s' : σ'}, P s → P' s' →
    ∃ ls pos₁ s₁ s₁', Subset.chains t marg ev sigma y υ base rem i seeds pos s = .ok (ls, pos₁, s₁) ∧
      Subset.chains t marg ev' sigma y υ base rem i seeds pos s' = .ok (ls, pos₁, s₁') ∧ (∀ l ∈ ls, ∀ q ∈ l, Kept t marg f B y q) ∧
      P s₁ ∧ P' s₁'
  | [], _, _, _, _, _, hP, hP' => ⟨[], _, _, _, rfl, rfl, by simp, hP, hP'⟩
  | seed :: seeds, i, hs, pos, s, s', hP, hP' => by
    obtain ⟨l, pos₁, s₁, s₁', h1, h2, h3, h4, h5⟩ := chain_same hH hev hev' hυ hy (base + if i < rem then 1 else 0)
      (hs seed (by simp)) (pos := pos) hP hP'
    obtain ⟨ls, pos₂, s₂, s₂', h6, h7, h8, h9, h10⟩ := chains_same hH hev hev' hυ hy base rem seeds (i + 1)
      (fun q hq => hs q (by simp [hq])) (pos := pos₁) h4 h5
    refine ⟨l :: ls, pos₂, s₂, s₂', ?_, ?_, ?_, h9, h10⟩
    · unfold Subset.chains; simp only [h1, h6]
    · unfold Subset.chains; simp only [h2, h7]
    · intro l' hl'
      rcases List.mem_cons.1 hl' with h | h
      · exact h ▸ h3
      · exact h8 l' h

theorem mmhStep_same (hH : Hidden t marg f f' B Y sigma) (hev : Values ev P f) (hev' : Values ev' P' f') (hυ : ∀ k, 0 ≤ υ k ∧ υ k ≤ 1)
    {y : ℝ} (hy : y ≤ Y) (N : ℕ) {seeds : List (Subset.Sample n)} (hne : seeds ≠ []) (hs : ∀ q ∈ seeds, Kept t marg f B y q)
    {pos : ℕ} {s : σ} {s' : σ'} (hP : P s) (hP' : P' s') :
    ∃ ls pos₁ s₁ s₁', Subset.mmhStep t marg ev sigma y υ N seeds pos s = .ok (ls, pos₁, s₁) ∧
      Subset.mmhStep t marg ev' sigma y υ N seeds pos s' = .ok (ls, pos₁, s₁') ∧ (∀ q ∈ ls.flatten, Kept t marg f B y q) ∧
      ls.flatten.length = N ∧ P s₁ ∧ P' s₁' := by
  have hl : seeds.length ≠ 0 := fun h => hne (List.length_eq_zero_iff.1 h)
  obtain ⟨ls, pos₁, s₁, s₁', h1, h2, h3, h4, h5⟩ := chains_same hH hev hev' hυ hy (N / seeds.length) (N - N / seeds.length * seeds.length) seeds 0
    hs (pos := pos) hP hP'
  have e : Subset.mmhStep t marg ev sigma y υ N seeds pos s = .ok (ls, pos₁, s₁) := by unfold Subset.mmhStep; rw [if_neg hl]; exact h1
  refine ⟨ls, pos₁, s₁, s₁', e, by unfold Subset.mmhStep; rw [if_neg hl]; exact h2, ?_, ?_, h4, h5⟩
  · intro q hq
    obtain ⟨l, hl, hq⟩ := List.mem_flatten.1 hq
    exact h3 l hl q hq
  · obtain ⟨ls', pos', s₂, g1, -, g3, -⟩ := Subset.mmhStep_spec (Q := fun _ _ => True) (t := t) (marg := marg) (sigma := sigma) (υ := υ) (y := y)
      hev (fun _ _ _ _ _ _ _ _ => trivial) N hne (fun q hq => ⟨(hs q hq).1, (hs q hq).2.1⟩) (pos := pos) hP (k := 0) trivial
    rw [e] at g1
    cases g1
    exact g3

theorem levels_same (hH : Hidden t marg f f' B Y opt.sigma) (hev : Values ev P f) (hev' : Values ev' P' f') (hυ : ∀ k, 0 ≤ υ k ∧ υ k ≤ 1)
    (hp : 0 < opt.p0) (hp1 : opt.p0 < 1) (hN : 1 ≤ opt.N) :
    ∀ (fuel : ℕ) (seeds : List (Subset.Sample n)) (y Pf : ℝ) (ys ps : List ℝ) (level : ℕ) (Ss Ss' : List (List (Subset.Sample n))) (pos : ℕ)
      (s : σ) (s' : σ'), seeds ≠ [] → (∀ q ∈ seeds, Kept t marg f B y q) → y ≤ Y →
      Ss'.map (List.map Prod.fst) = Ss.map (List.map Prod.fst) → P s → P' s' →
      SameRun (Subset.levels t marg ev opt υ fuel seeds y Pf ys ps level Ss pos s)
        (Subset.levels t marg ev' opt υ fuel seeds y Pf ys ps level Ss' pos s') := by
  intro fuel
  induction fuel with
  | zero => intros; exact Or.inl ⟨by unfold Subset.levels; rfl, by unfold Subset.levels; rfl⟩
  | succ fuel ih =>
    intro seeds y Pf ys ps level Ss Ss' pos s s' hne hs hy hSs hP hP'
    obtain ⟨ls, pos₁, s₁, s₁', h1, h2, h3, h4, h5, h6⟩ := mmhStep_same hH hev hev' hυ hy opt.N hne hs (pos := pos) hP hP'
    unfold Subset.levels
    simp only [h1, h2]
    by_cases hz : Subset.percentile (ls.flatten.map Prod.snd) opt.p0 ≤ 0
    · rw [if_pos hz, if_pos hz]
      refine Or.inr ⟨_, _, rfl, rfl, rfl, rfl, rfl, rfl, rfl, rfl, ?_⟩
      simp only [Subset.finalise, List.map_append, hSs]
    · rw [if_neg hz, if_neg hz]
      have hG : ls.flatten.map Prod.snd ≠ [] := by
        intro h; have := congrArg List.length h; simp only [List.length_map, List.length_nil] at this; omega
      refine ih _ _ _ _ _ _ _ _ _ _ _ (seedsOf_ne hN hp hp1 h4) ?_ ?_ (by simp only [List.map_append, hSs]) h5 h6
      · intro q hq
        unfold Subset.seedsOf at hq
        rw [List.mem_filter, decide_eq_true_eq] at hq
        exact ⟨(h3 q hq.1).1, hq.2, (h3 q hq.1).2.2⟩
      · refine (Subset.percentile_le hp hp1 hG fun g hg => ?_).trans hy
        obtain ⟨q, hq, rfl⟩ := List.mem_map.1 hg
        exact (h3 q hq).2.1

/-- C126: a failure mode that no draw of the first level has hit, and that is separated from the rest of `{g ≤ Y}` by more than the width
of the proposal, is never found: with `p0·(N-1) + 1` draws at or below `Y`, the run is the run for any limit state without that mode -
the same samples, levels, probability, index and coefficient of variation. -/
theorem C126_blind (hH : Hidden t marg f f' B Y opt.sigma) (hev : Values ev P f) (hev' : Values ev' P' f') (hυ : ∀ k, 0 ≤ υ k ∧ υ k ≤ 1)
    (hp : 0 < opt.p0) (hp1 : opt.p0 < 1) (hN : 1 ≤ opt.N) (hb : 1 ≤ opt.block) (ω : ℕ → ℝ) (fuel : ℕ) (s : σ) (s' : σ') (hP : P s) (hP' : P' s')
    (hB : ∀ j : Fin opt.N, mcDraw ω n opt.N opt.N 0 j ∉ B)
    (hK : opt.p0 * ((opt.N : ℝ) - 1) + 1 ≤ Set.ncard {j : Fin opt.N | f (uToX t marg (mcDraw ω n opt.N opt.N 0 j)) ≤ Y}) :
    SameRun (Subset.run t marg ev opt ω υ fuel s) (Subset.run t marg ev' opt ω υ fuel s') := by
  obtain ⟨us, hus⟩ : ∃ us, us = Subset.randn ω n opt.N 0 := ⟨_, rfl⟩
  have hlu : us.length = opt.N := by simp [hus, Subset.randn]
  have hoff : ∀ u ∈ us, u ∉ B := by
    intro u hu
    rw [hus, firstLevel_draws] at hu
    obtain ⟨j, -, rfl⟩ := List.mem_map.1 hu
    exact hB j
  obtain ⟨s₁, h1, h2, -⟩ := Subset.evalBatch_spec (Q := fun _ _ => True) (t := t) (marg := marg) hev (fun _ _ _ _ _ _ _ _ => trivial) hb opt.N
    us hlu.le hP (k := 0) trivial
  obtain ⟨s₁', h1', h2', -⟩ := Subset.evalBatch_spec (Q := fun _ _ => True) (t := t) (marg := marg) hev' (fun _ _ _ _ _ _ _ _ => trivial) hb
    opt.N us hlu.le hP' (k := 0) trivial
  obtain ⟨G, hG⟩ : ∃ G, G = us.map fun u => f (uToX t marg u) := ⟨_, rfl⟩
  have hG' : us.map (fun u => f' (uToX t marg u)) = G := by
    rw [hG]; exact List.map_congr_left fun u hu => hH.same u (hoff u hu)
  have hlG : G.length = opt.N := by rw [hG, List.length_map, hlu]
  have hGne : G ≠ [] := by intro h; rw [h] at hlG; simp at hlG; omega
  rw [← hG] at h1
  rw [hG'] at h1'
  unfold Subset.run
  rw [if_neg (not_not.2 ⟨hp, hp1⟩), if_neg (not_not.2 ⟨hp, hp1⟩)]
  simp only [← hus, h1, h1', hlG, if_neg (show opt.N ≠ 0 by omega)]
  by_cases hz : Subset.percentile G opt.p0 ≤ 0
  · rw [if_pos hz, if_pos hz]
    exact Or.inr ⟨_, _, rfl, rfl, rfl, rfl, rfl, rfl, rfl, rfl, rfl⟩
  · rw [if_neg hz, if_neg hz]
    have hzG : (us.zip G).map Prod.snd = G := List.map_snd_zip (by omega)
    have hzl : (us.zip G).length = opt.N := by rw [List.length_zip]; omega
    have hsd := seedsOf_ne (opt := opt) hN hp hp1 hzl
    rw [hzG] at hsd
    refine levels_same hH hev hev' hυ hp hp1 hN fuel _ _ _ _ _ _ _ _ _ _ _ hsd ?_ ?_ rfl h2 h2'
    · intro q hq
      unfold Subset.seedsOf at hq
      rw [List.mem_filter, decide_eq_true_eq] at hq
      refine ⟨?_, hq.2, hoff _ (List.of_mem_zip (a := q.1) (b := q.2) hq.1).1⟩
      have hm := hq.1
      rw [hG, List.zip_map_right] at hm
      obtain ⟨⟨a, b⟩, hab, rfl⟩ := List.mem_map.1 hm
      simp only [Prod.map, id]
      have : a = b := by
        rw [List.zip_eq_zipWith, List.zipWith_self] at hab
        obtain ⟨c, -, hc⟩ := List.mem_map.1 hab
        injection hc with e1 e2
        rw [← e1, ← e2]
      rw [this]
    · refine percentile_le_of_count hp hp1 hGne ?_
      rw [hlG, hG, hus, firstLevel_draws]
      refine hK.trans (le_of_eq ?_)
      rw [countLe_ncard (fun j : Fin opt.N => mcDraw ω n opt.N opt.N 0 j) (fun u => f (uToX t marg u)) Y]

/-- C126: so with a probability of at least `(1 - P(B))^N - 2 exp(-2Nε²)` the run is that of the limit state without the mode `B`, when
`{g ≤ Y}` has a probability above `(p0(N-1)+1)/N + ε`. -/
theorem C126_probability (hH : Hidden t marg f f' B Y opt.sigma) (hev : Values ev P f) (hev' : Values ev' P' f')
    (hυ : ∀ k, 0 ≤ υ k ∧ υ k ≤ 1) (hBm : MeasurableSet B) (hA : MeasurableSet {u : Fin n → ℝ | f (uToX t marg u) ≤ Y})
    (hp : 0 < opt.p0) (hp1 : opt.p0 < 1) (hN : 1 ≤ opt.N) (hb : 1 ≤ opt.block) (fuel : ℕ) (s : σ) (s' : σ') (hP : P s) (hP' : P' s')
    {ε : ℝ} (hε : 0 < ε) (h : (opt.p0 * ((opt.N : ℝ) - 1) + 1) / opt.N + ε ≤ (stdGauss n).real {u | f (uToX t marg u) ≤ Y}) :
    (1 - (stdGauss n).real B) ^ opt.N - 2 * Real.exp (-2 * opt.N * ε ^ 2) ≤
      stream.real {ω | SameRun (Subset.run t marg ev opt ω υ fuel s) (Subset.run t marg ev' opt ω υ fuel s')} := by
  haveI : IsProbabilityMeasure (stdGauss n) := by unfold stdGauss; infer_instance
  have hN' : (0:ℝ) < opt.N := by exact_mod_cast hN
  have hs : ∀ x, f x - Y ≤ 0 ↔ f x ≤ Y := fun x => sub_nonpos
  obtain ⟨hm, ht⟩ := fraction_tail (t := t) (marg := marg) (f := fun x => f x - Y) (by simp only [hs]; exact hA) hN hε
  simp only [hs] at hm ht
  have h0 : stream.real {ω | ∀ j : Fin opt.N, mcDraw ω n opt.N opt.N 0 j ∉ B} = (1 - (stdGauss n).real B) ^ opt.N := by
    have h1 : {ω | ∀ j : Fin opt.N, mcDraw ω n opt.N opt.N 0 j ∉ B} =
        (fun ω (j : Fin opt.N) => mcDraw ω n opt.N opt.N 0 j) ⁻¹' (Set.univ.pi fun _ => Bᶜ) := by
      ext ω; simp [Set.mem_pi]
    rw [h1, ← map_measureReal_apply (measurable_draw _ _ _) (MeasurableSet.univ_pi fun _ => hBm.compl), MonteCarlo.samples_law hN 0,
      measureReal_def, Measure.pi_pi, ENNReal.toReal_prod]
    simp only [← measureReal_def, probReal_compl_eq_one_sub hBm, Finset.prod_const, Finset.card_univ, Fintype.card_fin]
  rw [← h0]
  refine le_trans (sub_le_sub_left ht _) ?_
  rw [sub_le_iff_le_add]
  refine le_trans (measureReal_mono fun ω hω => ?_) (measureReal_union_le _ _)
  rw [mem_union, or_iff_not_imp_right]
  intro hn
  simp only [mem_setOf_eq, not_le] at hn
  refine C126_blind hH hev hev' hυ hp hp1 hN hb ω fuel s s' hP hP' hω ?_
  have h2 := (abs_lt.1 hn).1
  have h3 : (opt.p0 * ((opt.N : ℝ) - 1) + 1) / opt.N <
      ((Set.ncard {j : Fin opt.N | f (uToX t marg (mcDraw ω n opt.N opt.N 0 j)) ≤ Y} : ℕ) : ℝ) / opt.N := by linarith
  rw [div_lt_div_iff_of_pos_right hN'] at h3
  exact h3.le

/-- C126: the `k`-th state of a chain is within `(k+1)` widths of its seed, component by component, whatever the limit state. -/
theorem C126_reach (hev : Values ev P f) (hυ : ∀ k, 0 ≤ υ k ∧ υ k ≤ 1) (sigma y : ℝ) : ∀ (m : ℕ) (cur : Subset.Sample n) (pos : ℕ) (s : σ),
    P s → ∃ l pos₁ s₁, Subset.chain t marg ev sigma y υ m cur pos s = .ok (l, pos₁, s₁) ∧ l.length = m ∧ P s₁ ∧
      ∀ (k : ℕ) (q : Subset.Sample n), l[k]? = some q → ∀ d, |q.1 d - cur.1 d| ≤ (k + 1) * |sigma|
  | 0, _, pos, s, hP => ⟨[], pos, s, rfl, rfl, hP, by simp⟩
  | m + 1, cur, pos, s, hP => by
    obtain ⟨s₁, h1, h2⟩ := hev s hP [uToX t marg (Subset.proposal sigma υ pos cur.1)]
    obtain ⟨c, hc⟩ : ∃ c : Subset.Sample n, Subset.move t marg ev sigma y υ cur pos s = .ok (c, pos + 2 * n, s₁) ∧
        ∀ d, |c.1 d - cur.1 d| ≤ |sigma| := by
      unfold Subset.move
      simp only [h1]
      refine ⟨_, rfl, fun d => ?_⟩
      by_cases h : ([uToX t marg (Subset.proposal sigma υ pos cur.1)].map f).headD 0 ≤ y
      · rw [if_pos h]; exact proposal_near sigma hυ pos cur.1 d
      · rw [if_neg h]; simp
    obtain ⟨l, pos₂, s₂, h3, h4, h5, h6⟩ := C126_reach hev hυ sigma y m c (pos + 2 * n) s₁ h2
    refine ⟨c :: l, pos₂, s₂, ?_, by simp [h4], h5, ?_⟩
    · unfold Subset.chain; simp only [hc.1, h3]
    · intro k q hq d
      cases k with
      | zero =>
        simp only [List.getElem?_cons_zero, Option.some.injEq] at hq
        subst hq
        simpa using hc.2 d
      | succ k =>
        rw [List.getElem?_cons_succ] at hq
        have h7 := h6 k q hq d
        have h8 := hc.2 d
        calc |q.1 d - cur.1 d| = |(q.1 d - c.1 d) + (c.1 d - cur.1 d)| := by congr 1; ring
          _ ≤ |q.1 d - c.1 d| + |c.1 d - cur.1 d| := abs_add_le _ _
          _ ≤ (k + 1) * |sigma| + |sigma| := add_le_add h7 h8
          _ = _ := by push_cast; ring

end

/-- A case of C126: one standard normal variable, `g = min(3 - x₀, 100 (3 + x₀))`, with two failure modes of the same probability `Φ(-3)`;
100 samples per level, `p0 = 1/10`, width 1.  With a probability of at least `(1 - Φ(-2.9))^100 - 2 exp(-30)` (about 0.83) the run is exactly
that of `3 - x₀` alone, and half of the probability of failure is not seen. -/
example : ∃ m : Marginal, Normal.new 0 (.fin 1) none = .ok m ∧
    (∀ υ : ℕ → ℝ, (∀ k, 0 ≤ υ k ∧ υ k ≤ 1) → ∀ fuel, (1 - StdNormal.cdf (-2.9)) ^ 100 - 2 * Real.exp (-2 * (100:ℕ) * 0.39 ^ 2) ≤
      stream.real {ω | SameRun
        (Subset.run ⟨1, 1⟩ (fun _ => m) (gradEv (fun x : Fin 1 → ℝ => min (3 - x 0) (100 * (3 + x 0))) fun _ _ => 1) ⟨100, 1000, 0.1, 1⟩ ω υ fuel ())
        (Subset.run ⟨1, 1⟩ (fun _ => m) (gradEv (fun x : Fin 1 → ℝ => 3 - x 0) fun _ _ => 1) ⟨100, 1000, 0.1, 1⟩ ω υ fuel ())}) ∧
    (stdGauss 1).real {u : Fin 1 → ℝ | 3 - uToX ⟨1, 1⟩ (fun _ => m) u 0 ≤ 0} = StdNormal.cdf (-3) ∧
    (stdGauss 1).real {u : Fin 1 → ℝ | min (3 - uToX ⟨1, 1⟩ (fun _ => m) u 0) (100 * (3 + uToX ⟨1, 1⟩ (fun _ => m) u 0)) ≤ 0} =
      2 * StdNormal.cdf (-3) := by
  obtain ⟨m, hm, -⟩ := C12_normal 0 (σ := 1) one_pos none
  haveI : IsProbabilityMeasure (stdGauss 1) := by unfold stdGauss; infer_instance
  have hle : ∀ d : ℝ, (stdGauss 1).real {u : Fin 1 → ℝ | d + u 0 ≤ 0} = StdNormal.cdf (-d) := by
    intro d
    have h1 := halfspace_lt (n := 1) (fun _ => -1) (by simp) (-d)
    have e : {u : Fin 1 → ℝ | d + u 0 ≤ 0} = {u : Fin 1 → ℝ | -d + ∑ i, (-1 : ℝ) * u i < 0}ᶜ := by
      ext u
      simp only [mem_setOf_eq, mem_compl_iff, not_lt, Fin.sum_univ_one]
      constructor <;> intro h <;> linarith
    rw [e, probReal_compl_eq_one_sub (measurableSet_lt (by fun_prop) measurable_const), h1]
    simp only [Fin.sum_univ_one]
    norm_num
    rw [StdNormal.cdf_neg]
  have hge : ∀ d : ℝ, (stdGauss 1).real {u : Fin 1 → ℝ | d - u 0 ≤ 0} = StdNormal.cdf (-d) := by
    intro d
    have h1 := halfspace_lt (n := 1) (fun _ => 1) (by simp) (-d)
    have e : {u : Fin 1 → ℝ | d - u 0 ≤ 0} = {u : Fin 1 → ℝ | -d + ∑ i, (1 : ℝ) * u i < 0}ᶜ := by
      ext u
      simp only [mem_setOf_eq, mem_compl_iff, not_lt, Fin.sum_univ_one]
      constructor <;> intro h <;> linarith
    rw [e, probReal_compl_eq_one_sub (measurableSet_lt (by fun_prop) measurable_const), h1]
    simp only [Fin.sum_univ_one]
    norm_num
    rw [StdNormal.cdf_neg]
  refine ⟨m, hm, fun υ hυ fuel => ?_, ?_, ?_⟩
  · have hH : Hidden (⟨1, 1⟩ : Mats 1) (fun _ => m) (fun x : Fin 1 → ℝ => min (3 - x 0) (100 * (3 + x 0))) (fun x => 3 - x 0)
        {u | 2.9 + u 0 ≤ 0} 3 1 := by
      constructor
      · intro u hu
        simp only [std_uToX hm, mem_setOf_eq, not_le] at hu ⊢
        rw [min_eq_left (by linarith)]
      · intro u hu
        simp only [std_uToX hm, mem_setOf_eq] at hu ⊢
        linarith
      · intro a b ha hb h1 h2
        simp only [std_uToX hm, mem_setOf_eq, not_le] at ha hb h1 h2
        refine ⟨0, ?_⟩
        have h3 : 0 ≤ a 0 := by
          rw [min_eq_left (by linarith)] at h1
          linarith
        rw [abs_one, lt_abs]
        right; linarith
    have h := C126_probability (t := ⟨1, 1⟩) (marg := fun _ => m) (opt := ⟨100, 1000, 0.1, 1⟩) (P := fun _ => True) (P' := fun _ => True)
      (ev := gradEv (fun x : Fin 1 → ℝ => min (3 - x 0) (100 * (3 + x 0))) fun _ _ => 1)
      (ev' := gradEv (fun x : Fin 1 → ℝ => 3 - x 0) fun _ _ => 1) hH (fun s xs _ => ⟨s, rfl, trivial⟩) (fun s xs _ => ⟨s, rfl, trivial⟩) hυ
      (measurableSet_le (by fun_prop) measurable_const)
      (by simp only [std_uToX hm]; exact measurableSet_le (by fun_prop) measurable_const) (by norm_num) (by norm_num) (by norm_num) (by norm_num)
      fuel () () trivial trivial (ε := 0.39) (by norm_num) (by
        have h0 : StdNormal.cdf (-0) ≤ (stdGauss 1).real {u : Fin 1 → ℝ | min (3 - uToX ⟨1, 1⟩ (fun _ => m) u 0)
            (100 * (3 + uToX ⟨1, 1⟩ (fun _ => m) u 0)) ≤ 3} := by
          rw [← hge 0]
          refine measureReal_mono fun u hu => ?_
          simp only [std_uToX hm, mem_setOf_eq] at hu ⊢
          exact (min_le_left _ _).trans (by linarith)
        rw [neg_zero, StdNormal.cdf_zero] at h0
        refine le_trans ?_ h0
        norm_num)
    rw [hle] at h
    exact h
  · simp only [std_uToX hm]; exact hge 3
  · have e : {u : Fin 1 → ℝ | min (3 - uToX ⟨1, 1⟩ (fun _ => m) u 0) (100 * (3 + uToX ⟨1, 1⟩ (fun _ => m) u 0)) ≤ 0} =
        {u : Fin 1 → ℝ | 3 - u 0 ≤ 0} ∪ {u | 3 + u 0 ≤ 0} := by
      ext u
      simp only [std_uToX hm, mem_setOf_eq, mem_union, min_le_iff]
      constructor <;> rintro (h | h)
      · exact Or.inl h
      · exact Or.inr (by linarith)
      · exact Or.inl h
      · exact Or.inr (by linarith)
    rw [e, measureReal_union ?_ (measurableSet_le (by fun_prop) measurable_const), hge, hle]
    · ring
    · rw [Set.disjoint_left]
      intro u h1 h2
      simp only [mem_setOf_eq] at h1 h2
      linarith

end Pystra.Props
