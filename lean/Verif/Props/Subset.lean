import Verif.Lemmas.Subset
import Verif.Spec.Subset
import Verif.Props.MonteCarlo

/-! C40, C41, C43, C64: subset simulation. -/

namespace Pystra.Props
open Spec Transformation Form Subset

variable {σ : Type} {n : ℕ}

/-- What holds at each level of a run: the samples `S` with their limit-state values, threshold `y`, estimate `p`, and
`prev` the threshold of the level before (if any). -/
structure LevelOK (t : Mats n) (marg : Fin n → Marginal) (f : (Fin n → ℝ) → ℝ) (N : ℕ) (prev : Option ℝ)
    (S : List (Sample n)) (y p : ℝ) : Prop where
  /-- `N` samples -/
  size : S.length = N
  /-- recorded values are the limit-state values of the samples -/
  value : ∀ q ∈ S, q.2 = f (uToX t marg q.1)
  /-- the samples lie in the previous subset -/
  inside : ∀ y' ∈ prev, ∀ q ∈ S, q.2 ≤ y'
  /-- the estimate is the fraction of the samples in the next subset -/
  prob : p = (countLe (S.map Prod.snd) y : ℝ) / N

/-- All levels. -/
def LevelsOK (t : Mats n) (marg : Fin n → Marginal) (f : (Fin n → ℝ) → ℝ) (N : ℕ) (ys ps : List ℝ)
    (Ss : List (List (Sample n))) : Prop :=
  ∀ j y p S, ys[j]? = some y → ps[j]? = some p → Ss[j]? = some S →
    LevelOK t marg f N (if j = 0 then none else ys[j - 1]?) S y p

section
variable {t : Mats n} {marg : Fin n → Marginal} {ev : Evaluator σ n} {P : σ → Prop} {f : (Fin n → ℝ) → ℝ}
  {Q : ℕ → σ → Prop} {opt : Subset.Options} {υ : ℕ → ℝ}

theorem fraction_eq (G : List ℝ) (y : ℝ) (N : ℕ) : fraction G y N = (countLe G y : ℝ) / N := by
  unfold fraction countLe; congr

theorem LevelsOK.snoc {N : ℕ} {ys ps : List ℝ} {Ss : List (List (Sample n))} (h : LevelsOK t marg f N ys ps Ss)
    (h1 : ps.length = ys.length) (h2 : Ss.length = ys.length) {S : List (Sample n)} {y p : ℝ}
    (hl : LevelOK t marg f N (if ys.length = 0 then none else ys[ys.length - 1]?) S y p) :
    LevelsOK t marg f N (ys ++ [y]) (ps ++ [p]) (Ss ++ [S]) := by
  intro j y' p' S' e1 e2 e3
  have hj : j < ys.length + 1 := by
    have := (List.getElem?_eq_some_iff.1 e1).1
    simpa using this
  have hprev : (if j = 0 then none else (ys ++ [y])[j - 1]?) = if j = 0 then none else ys[j - 1]? := by
    by_cases h0 : j = 0
    · rw [if_pos h0, if_pos h0]
    · rw [if_neg h0, if_neg h0, List.getElem?_append_left (by omega)]
  rw [hprev]
  rcases Nat.lt_or_ge j ys.length with hlt | hge
  · rw [List.getElem?_append_left hlt] at e1
    rw [List.getElem?_append_left (by omega)] at e2 e3
    exact h j y' p' S' e1 e2 e3
  · obtain rfl : j = ys.length := by omega
    rw [List.getElem?_append_right le_rfl, Nat.sub_self] at e1
    rw [List.getElem?_append_right (by omega), h1, Nat.sub_self] at e2
    rw [List.getElem?_append_right (by omega), h2, Nat.sub_self] at e3
    simp only [List.getElem?_cons_zero, Option.some.injEq] at e1 e2 e3
    subst e1 e2 e3
    exact hl

/-- The statement about a finished run. -/
structure Finished (t : Mats n) (marg : Fin n → Marginal) (f : (Fin n → ℝ) → ℝ) (Q : ℕ → σ → Prop) (N : ℕ) (p0 : ℝ)
    (r : Subset.Result σ n) : Prop where
  lenY : r.thresholds.length = r.nLevels
  lenP : r.probs.length = r.nLevels
  lenS : r.samples.length = r.nLevels
  ok : LevelsOK t marg f N r.thresholds r.probs r.samples
  mono : r.thresholds.Pairwise (· ≥ ·)
  last : ∃ ys, r.thresholds = ys ++ [0] ∧ (∀ y ∈ ys, 0 < y) ∧
    ∀ (j : ℕ) (y : ℝ) (S : List (Sample n)), ys[j]? = some y → r.samples[j]? = some S → IsQuantile p0 (S.map Prod.snd) y
  lastQ : ∀ S : List (Sample n), r.samples.getLast? = some S → ∃ y ≤ 0, IsQuantile p0 (S.map Prod.snd) y
  probs : ∀ p ∈ r.probs, p0 * ((N:ℝ) - 1) / N < p ∧ p ≤ 1
  prod : r.Pf = r.probs.prod
  count : Q (N * r.nLevels) r.s

theorem isQuantile_percentile {p : ℝ} {G : List ℝ} (hp : 0 < p) (hp1 : p < 1) (hG : G ≠ []) :
    IsQuantile p G (percentile G p) := ⟨count_le_percentile hp hp1 hG, count_lt_percentile hp hp1 hG⟩

open Classical in
theorem countLe_mono (G : List ℝ) {y y' : ℝ} (h : y ≤ y') : countLe G y ≤ countLe G y' := by
  unfold countLe
  rw [← List.countP_eq_length_filter, ← List.countP_eq_length_filter]
  apply List.countP_mono_left
  intro g _ hg
  rw [decide_eq_true_eq] at hg ⊢
  exact hg.trans h

theorem countLe_le (G : List ℝ) (y : ℝ) : countLe G y ≤ G.length := List.length_filter_le _ _

theorem frac_bounds {p0 : ℝ} {N : ℕ} (hN : 1 ≤ N) (hp : 0 < p0) (hp1 : p0 < 1) {G : List ℝ} (hl : G.length = N) {y : ℝ}
    (hy : percentile G p0 ≤ y) : p0 * ((N:ℝ) - 1) / N < (countLe G y : ℝ) / N ∧ (countLe G y : ℝ) / N ≤ 1 := by
  have hG : G ≠ [] := by intro h; rw [h] at hl; simp at hl; omega
  have hN' : (0:ℝ) < N := by exact_mod_cast hN
  have h1 := (isQuantile_percentile hp hp1 hG).1
  have h2 : (countLe G (percentile G p0) : ℝ) ≤ countLe G y := by exact_mod_cast countLe_mono G hy
  have h3 : (countLe G y : ℝ) ≤ N := by rw [← hl]; exact_mod_cast countLe_le G y
  rw [hl] at h1
  exact ⟨by gcongr; linarith, by rw [div_le_one hN']; exact h3⟩

theorem seedsOf_ne {N : ℕ} (hN : 1 ≤ N) (hp : 0 < opt.p0) (hp1 : opt.p0 < 1) {S : List (Sample n)} (hl : S.length = N) :
    seedsOf S (percentile (S.map Prod.snd) opt.p0) ≠ [] := by
  intro h
  have hG : S.map Prod.snd ≠ [] := by intro h; have := congrArg List.length h; simp at this; rw [this] at hl; simp at hl; omega
  have h1 := (isQuantile_percentile hp hp1 hG).1
  have : countLe (S.map Prod.snd) (percentile (S.map Prod.snd) opt.p0) = 0 := by
    unfold countLe
    unfold seedsOf at h
    rw [List.length_eq_zero_iff, List.filter_eq_nil_iff]
    rw [List.filter_eq_nil_iff] at h
    intro g hg
    obtain ⟨q, hq, rfl⟩ := List.mem_map.1 hg
    have := h q hq
    rw [decide_eq_true_eq] at this ⊢
    exact this
  rw [this, List.length_map, hl] at h1
  have : (1:ℝ) ≤ N := by exact_mod_cast hN
  push_cast at h1
  nlinarith

theorem seedsOf_good {y y' : ℝ} {S : List (Sample n)} (h : ∀ q ∈ S, q.2 = f (uToX t marg q.1)) :
    ∀ q ∈ seedsOf S y, Subset.Good t marg f y q := by
  intro q hq
  unfold seedsOf at hq
  rw [List.mem_filter, decide_eq_true_eq] at hq
  exact ⟨h q hq.1, hq.2⟩

theorem levels_spec (hev : Values ev P f) (hQ : Counts ev P Q) (hp : 0 < opt.p0) (hp1 : opt.p0 < 1) (hN : 1 ≤ opt.N) :
    ∀ (fuel : ℕ) (seeds : List (Sample n)) (y Pf : ℝ) (ys ps : List ℝ) (level : ℕ) (Ss : List (List (Sample n)))
      (pos : ℕ) (s : σ) (res : Except (PyErr × σ) (Subset.Result σ n)),
    seeds ≠ [] → (∀ q ∈ seeds, Subset.Good t marg f y q) → 0 < y → ys.length = level → ps.length = level → Ss.length = level →
    1 ≤ level → ys[level - 1]? = some y → LevelsOK t marg f opt.N ys ps Ss → (ys.Pairwise (· ≥ ·)) →
    (∀ y' ∈ ys, y ≤ y') →
    (∀ (j : ℕ) (y : ℝ) (S : List (Sample n)), ys[j]? = some y → Ss[j]? = some S → IsQuantile opt.p0 (S.map Prod.snd) y) →
    (∀ p ∈ ps, opt.p0 * ((opt.N:ℝ) - 1) / opt.N < p ∧ p ≤ 1) → Pf = ps.prod → P s → Q (opt.N * level) s →
    levels t marg ev opt υ fuel seeds y Pf ys ps level Ss pos s = some res →
    ∃ r, res = .ok r ∧ Finished t marg f Q opt.N opt.p0 r ∧
      r = finalise opt.N r.thresholds r.probs r.nLevels r.Pf r.samples r.s ∧ r.samples.head? = Ss.head? := by
  intro fuel
  induction fuel with
  | zero => intro seeds y Pf ys ps level Ss pos s res _ _ _ _ _ _ _ _ _ _ _ _ _ _ _ _ h; unfold levels at h; cases h
  | succ fuel ih =>
    intro seeds y Pf ys ps level Ss pos s res hne hgood hy hly hlp hls hlev hlast hok hmono hge hquant hprobs hPf hP hq h
    obtain ⟨ls, pos', s', h1, -, h3, h4, h5, h6⟩ := mmhStep_spec (sigma := opt.sigma) (υ := υ) hev hQ opt.N hne hgood
      (pos := pos) hP hq
    unfold levels at h
    simp only [h1] at h
    set new := ls.flatten with hnew
    have hG : new.map Prod.snd ≠ [] := by
      intro h; have := congrArg List.length h; simp only [List.length_map, List.length_nil] at this; omega
    have hlenG : (new.map Prod.snd).length = opt.N := by rw [List.length_map, h3]
    have hprev : (if ys.length = 0 then none else ys[ys.length - 1]?) = some y := by
      rw [if_neg (by omega), hly]; exact hlast
    have hyle : percentile (new.map Prod.snd) opt.p0 ≤ y := percentile_le hp hp1 hG (by
      intro g hg
      obtain ⟨q, hq, rfl⟩ := List.mem_map.1 hg
      exact (h4 q hq).2)
    have hlevel : ∀ y' , LevelOK t marg f opt.N (if ys.length = 0 then none else ys[ys.length - 1]?) new y'
        (fraction (new.map Prod.snd) y' opt.N) := by
      intro y'
      rw [hprev]
      exact ⟨h3, fun q hq => (h4 q hq).1, fun z hz q hq => by
        rw [Option.mem_def, Option.some.injEq] at hz; rw [← hz]; exact (h4 q hq).2, fraction_eq _ _ _⟩
    have hcount : Q (opt.N * (level + 1)) s' := by rw [Nat.mul_succ]; exact h6
    have hhead : (Ss ++ [new]).head? = Ss.head? := by
      cases Ss with
      | nil => simp at hls; omega
      | cons a l => rfl
    by_cases hz : percentile (new.map Prod.snd) opt.p0 ≤ 0
    · rw [if_pos hz] at h
      injection h with h
      subst h
      refine ⟨_, rfl, ?_, rfl, hhead⟩
      constructor
      · simp [finalise, hly]
      · simp [finalise, hlp]
      · simp [finalise, hls]
      · exact hok.snoc (by omega) (by omega) (hlevel 0)
      · change (ys ++ [0]).Pairwise (· ≥ ·)
        rw [List.pairwise_append]
        refine ⟨hmono, List.pairwise_singleton _ _, fun a ha b hb => ?_⟩
        rw [List.mem_singleton] at hb
        subst hb
        exact hy.le.trans (hge a ha)
      · refine ⟨ys, rfl, fun y' hy' => lt_of_lt_of_le hy (hge y' hy'), fun j y' S e1 e2 => ?_⟩
        have hj := (List.getElem?_eq_some_iff.1 e1).1
        change (Ss ++ [new])[j]? = some S at e2
        rw [List.getElem?_append_left (by omega)] at e2
        exact hquant j y' S e1 e2
      · intro S hS
        change (Ss ++ [new]).getLast? = some S at hS
        rw [List.getLast?_append] at hS
        simp only [List.getLast?_singleton, Option.some_or, Option.some.injEq] at hS
        subst hS
        exact ⟨_, hz, isQuantile_percentile hp hp1 hG⟩
      · intro p hpm
        change p ∈ ps ++ [_] at hpm
        rcases List.mem_append.1 hpm with hm | hm
        · exact hprobs p hm
        · rw [List.mem_singleton] at hm
          subst hm
          rw [fraction_eq]
          exact frac_bounds hN hp hp1 hlenG hz
      · change Pf * _ = (ps ++ [_]).prod
        rw [List.prod_append, List.prod_singleton, hPf]
      · exact hcount
    · rw [if_neg hz] at h
      rw [← hhead]
      refine ih _ _ _ _ _ _ _ _ _ _ (seedsOf_ne hN hp hp1 h3) (seedsOf_good (y' := 0) fun q hq => (h4 q hq).1)
        (not_le.1 hz) (by simp [hly]) (by simp [hlp]) (by simp [hls]) (by omega) ?_
        (hok.snoc (by omega) (by omega) (hlevel _)) ?_ ?_ ?_ ?_ ?_ h5 hcount h
      · rw [Nat.add_sub_cancel, List.getElem?_append_right (by omega), hly, Nat.sub_self]; rfl
      · rw [List.pairwise_append]
        refine ⟨hmono, List.pairwise_singleton _ _, fun a ha b hb => ?_⟩
        rw [List.mem_singleton] at hb
        subst hb
        exact hyle.trans (hge a ha)
      · intro y' hy'
        rcases List.mem_append.1 hy' with hm | hm
        · exact hyle.trans (hge y' hm)
        · rw [List.mem_singleton] at hm; exact hm.ge
      · intro j y' S e1 e2
        have hj : j < level + 1 := by
          have := (List.getElem?_eq_some_iff.1 e1).1
          simp only [List.length_append, List.length_singleton] at this; omega
        rcases Nat.lt_or_ge j level with hlt | hge'
        · rw [List.getElem?_append_left (by omega)] at e1 e2
          exact hquant j y' S e1 e2
        · obtain rfl : j = level := by omega
          rw [List.getElem?_append_right (by omega), hly, Nat.sub_self] at e1
          rw [List.getElem?_append_right (by omega), hls, Nat.sub_self] at e2
          simp only [List.getElem?_cons_zero, Option.some.injEq] at e1 e2
          subst e1 e2
          exact isQuantile_percentile hp hp1 hG
      · intro p hpm
        rcases List.mem_append.1 hpm with hm | hm
        · exact hprobs p hm
        · rw [List.mem_singleton] at hm
          subst hm
          rw [fraction_eq]
          exact frac_bounds hN hp hp1 hlenG le_rfl
      · rw [List.prod_append, List.prod_singleton, hPf]

theorem run_finished (hev : Values ev P f) (hQ : Counts ev P Q) (hp : 0 < opt.p0) (hp1 : opt.p0 < 1) (hN : 1 ≤ opt.N)
    (hb : 1 ≤ opt.block) (ω υ : ℕ → ℝ) (fuel : ℕ) (s : σ) (hP : P s) (hq : Q 0 s)
    (res : Except (PyErr × σ) (Subset.Result σ n)) (h : Subset.run t marg ev opt ω υ fuel s = some res) :
    ∃ r, res = .ok r ∧ Finished t marg f Q opt.N opt.p0 r ∧
      r = finalise opt.N r.thresholds r.probs r.nLevels r.Pf r.samples r.s ∧
      r.samples.head?.map (List.map Prod.fst) = some (randn ω n opt.N 0) := by
  unfold Subset.run at h
  rw [if_neg (not_not.2 ⟨hp, hp1⟩)] at h
  set us := randn ω n opt.N 0 with hus
  have hlu : us.length = opt.N := by simp [hus, randn]
  obtain ⟨s', h1, h2, h3⟩ := evalBatch_spec (t := t) (marg := marg) hev hQ hb opt.N us hlu.le hP hq
  simp only [h1, List.length_map, hlu, if_neg (show opt.N ≠ 0 by omega)] at h
  set G := us.map (fun u => f (uToX t marg u)) with hGdef
  have hlenG : G.length = opt.N := by rw [hGdef, List.length_map, hlu]
  have hG : G ≠ [] := by intro h; rw [h] at hlenG; simp at hlenG; omega
  have hzG : (us.zip G).map Prod.snd = G := List.map_snd_zip (by omega)
  have hzu : (us.zip G).map Prod.fst = us := List.map_fst_zip (by omega)
  have hzl : (us.zip G).length = opt.N := by rw [List.length_zip]; omega
  have hzv : ∀ q ∈ us.zip G, q.2 = f (uToX t marg q.1) := by
    intro q hq
    rw [hGdef, List.zip_map_right] at hq
    obtain ⟨⟨a, b⟩, hab, rfl⟩ := List.mem_map.1 hq
    simp only [Prod.map, id]
    have : a = b := by
      rw [List.zip_eq_zipWith] at hab
      rw [List.zipWith_self] at hab
      obtain ⟨c, -, hc⟩ := List.mem_map.1 hab
      injection hc with h1 h2
      rw [← h1, ← h2]
    rw [this]
  have hlevel : ∀ y', LevelOK t marg f opt.N none (us.zip G) y' (fraction G y' opt.N) := fun y' =>
    ⟨hzl, hzv, (fun z hz => absurd hz (by simp)), by rw [hzG]; exact fraction_eq _ _ _⟩
  have hcount : Q (opt.N * 1) s' := by rw [Nat.zero_add, hlu] at h3; rw [Nat.mul_one]; exact h3
  have hone : ∀ y', LevelsOK t marg f opt.N [y'] [fraction G y' opt.N] [us.zip G] := by
    intro y' j y p S e1 e2 e3
    have hj : j = 0 := by
      have := (List.getElem?_eq_some_iff.1 e1).1
      simpa using this
    subst hj
    simp only [List.getElem?_cons_zero, Option.some.injEq] at e1 e2 e3
    subst e1 e2 e3
    rw [if_pos rfl]; exact hlevel y'
  by_cases hz : percentile G opt.p0 ≤ 0
  · rw [if_pos hz] at h
    injection h with h
    subst h
    refine ⟨_, rfl, ?_, rfl, by simp [finalise, hzu]⟩
    constructor
    · rfl
    · rfl
    · rfl
    · exact hone 0
    · exact List.pairwise_singleton _ _
    · exact ⟨[], rfl, by simp, by simp⟩
    · intro S hS
      change some (us.zip G) = some S at hS
      injection hS with hS
      subst hS
      rw [hzG]
      exact ⟨_, hz, isQuantile_percentile hp hp1 hG⟩
    · intro p hpm
      change p ∈ [_] at hpm
      rw [List.mem_singleton] at hpm
      subst hpm
      rw [fraction_eq]
      exact frac_bounds hN hp hp1 hlenG hz
    · exact (List.prod_singleton).symm
    · exact hcount
  · rw [if_neg hz] at h
    have hsd := seedsOf_ne (opt := opt) hN hp hp1 hzl
    rw [hzG] at hsd
    have hlv := levels_spec hev hQ hp hp1 hN fuel (seedsOf (us.zip G) (percentile G opt.p0)) (percentile G opt.p0)
      (fraction G (percentile G opt.p0) opt.N) [percentile G opt.p0] [fraction G (percentile G opt.p0) opt.N] 1
      [us.zip G] 0 s' res hsd (seedsOf_good (y' := 0) hzv)
      (not_le.1 hz) rfl rfl rfl le_rfl rfl (hone _) (List.pairwise_singleton _ _)
      (by intro y' hy'; rw [List.mem_singleton] at hy'; exact hy'.ge)
      (by
        intro j y S e1 e2
        have hj : j = 0 := by
          have := (List.getElem?_eq_some_iff.1 e1).1
          simpa using this
        subst hj
        simp only [List.getElem?_cons_zero, Option.some.injEq] at e1 e2
        subst e1 e2
        rw [hzG]
        exact isQuantile_percentile hp hp1 hG)
      (by
        intro p hpm
        rw [List.mem_singleton] at hpm
        subst hpm
        rw [fraction_eq]
        exact frac_bounds hN hp hp1 hlenG le_rfl)
      (List.prod_singleton).symm h2 hcount h
    obtain ⟨r, e, hfin, hr, hhd⟩ := hlv
    refine ⟨r, e, hfin, hr, ?_⟩
    rw [hhd]
    simp [hzu]

/-- The coefficient of variation reported for estimates `ps` from `N` samples each: `√(Σ (1-p)/(N·p))`. -/
noncomputable def ssCov (N : ℕ) (ps : List ℝ) : ℝ := √((ps.map (fun p : ℝ => (1 - p) / (N * p))).sum)

/-- C40: every terminating run succeeds; there is one threshold and one conditional probability per level; thresholds never
increase, all but the last are positive and the last is `0`; each conditional probability is the fraction of the `N`
samples of its level at or below its threshold, more than `p0·(N-1)/N` and at most `1`; each positive threshold is a
`p0`-quantile of the values of its level; `Pf` is the product of the conditional probabilities, in `(0, 1]`;
`Φ(-beta) = Pf` when `Pf < 1` and `beta = -∞` when `Pf = 1`; `cov` is `√(Σ (1-p)/(N·p))`; the first level is `N`
unconditional draws. -/
theorem C40_run (hev : Values ev P f) (hp : 0 < opt.p0) (hp1 : opt.p0 < 1) (hN : 1 ≤ opt.N)
    (hb : 1 ≤ opt.block) (ω υ : ℕ → ℝ) (fuel : ℕ) (s : σ) (hP : P s)
    (res : Except (PyErr × σ) (Subset.Result σ n)) (h : Subset.run t marg ev opt ω υ fuel s = some res) :
    ∃ r, res = .ok r ∧ 1 ≤ r.nLevels ∧ r.thresholds.length = r.nLevels ∧ r.probs.length = r.nLevels ∧
      r.samples.length = r.nLevels ∧ r.thresholds.Pairwise (· ≥ ·) ∧
      (∃ ys, r.thresholds = ys ++ [0] ∧ (∀ y ∈ ys, 0 < y) ∧
        ∀ (j : ℕ) (y : ℝ) (S : List (Sample n)), ys[j]? = some y → r.samples[j]? = some S →
          IsQuantile opt.p0 (S.map Prod.snd) y) ∧
      (∀ (j : ℕ) (y p : ℝ) (S : List (Sample n)), r.thresholds[j]? = some y → r.probs[j]? = some p →
        r.samples[j]? = some S → S.length = opt.N ∧ p = (countLe (S.map Prod.snd) y : ℝ) / opt.N) ∧
      (∀ p ∈ r.probs, opt.p0 * ((opt.N:ℝ) - 1) / opt.N < p ∧ p ≤ 1) ∧
      r.Pf = r.probs.prod ∧ 0 < r.Pf ∧ r.Pf ≤ 1 ∧
      (r.Pf < 1 → ∃ b : ℝ, r.beta = (b : EReal) ∧ StdNormal.cdf (-b) = r.Pf) ∧
      (r.Pf = 1 → r.beta = ⊥) ∧
      r.cov = ssCov opt.N r.probs ∧
      r.samples.head?.map (List.map Prod.fst) = some (randn ω n opt.N 0) := by
  obtain ⟨r, h1, h2, h3, h4⟩ := run_finished (Q := fun _ _ => True) (t := t) (marg := marg) hev
    (fun _ _ _ _ _ _ _ _ => trivial) hp hp1 hN hb ω υ fuel s hP trivial res h
  have hN' : (1:ℝ) ≤ opt.N := by exact_mod_cast hN
  have hpos : ∀ p ∈ r.probs, 0 < p := by
    intro p hpm
    have h5 := (h2.probs p hpm).1
    have : 0 ≤ opt.p0 * ((opt.N:ℝ) - 1) / opt.N := by
      apply div_nonneg (mul_nonneg hp.le (by linarith)) (by linarith)
    linarith
  have hPf0 : 0 < r.Pf := by
    rw [h2.prod]
    exact List.prod_pos hpos
  have hPf1 : r.Pf ≤ 1 := by
    rw [h2.prod]
    have : ∀ l : List ℝ, (∀ p ∈ l, 0 < p) → (∀ p ∈ l, p ≤ 1) → 0 ≤ l.prod ∧ l.prod ≤ 1 := by
      intro l
      induction l with
      | nil => intro _ _; simp
      | cons a l ih =>
        intro h0 h1
        have := ih (fun p hp => h0 p (by simp [hp])) (fun p hp => h1 p (by simp [hp]))
        have ha := h0 a (by simp)
        have ha1 := h1 a (by simp)
        rw [List.prod_cons]
        exact ⟨mul_nonneg ha.le this.1, mul_le_one₀ ha1 this.1 this.2⟩
    exact (this r.probs hpos fun p hp => (h2.probs p hp).2).2
  have hbeta : r.beta = if 0 < r.Pf ∧ r.Pf < 1 then ((-StdNormal.ppf r.Pf : ℝ) : EReal) else if r.Pf ≤ 0 then ⊤ else ⊥ := by
    conv_lhs => rw [h3]
    rfl
  have hcov : r.cov = ssCov opt.N r.probs := by
    conv_lhs => rw [h3]
    unfold finalise ssCov
    have hf : r.probs.filter (fun p : ℝ => decide (0 < p)) = r.probs := by
      rw [List.filter_eq_self]
      intro p hpm
      rw [decide_eq_true_eq]; exact hpos p hpm
    simp only
    rw [show (r.probs.filter (fun p : ℝ => decide (0 < p))) = r.probs from hf]
    split_ifs with hd
    · rfl
    · rw [Real.sqrt_eq_zero_of_nonpos (not_lt.1 hd)]
  obtain ⟨ys, hys, hys1, hys2⟩ := h2.last
  refine ⟨r, h1, ?_, h2.lenY, h2.lenP, h2.lenS, h2.mono, ⟨ys, hys, hys1, hys2⟩, ?_, h2.probs, h2.prod, hPf0, hPf1, ?_, ?_,
    hcov, h4⟩
  · have := h2.lenY
    rw [hys] at this
    simp at this
    omega
  · intro j y p S e1 e2 e3
    have := h2.ok j y p S e1 e2 e3
    exact ⟨this.size, this.prob⟩
  · intro hlt
    refine ⟨-StdNormal.ppf r.Pf, ?_, ?_⟩
    · rw [hbeta, if_pos ⟨hPf0, hlt⟩]
    · rw [neg_neg]; exact StdNormal.cdf_ppf hPf0 hlt
  · intro he
    rw [hbeta, if_neg (by rw [he]; simp), if_neg (by rw [he]; norm_num)]

/-- C41: in a terminating run every level has exactly `N` samples, each recorded with its limit-state value, and every
sample of level `j+1` lies in the subset `g ≤ thresholds[j]`. -/
theorem C41_levels (hev : Values ev P f) (hp : 0 < opt.p0) (hp1 : opt.p0 < 1) (hN : 1 ≤ opt.N)
    (hb : 1 ≤ opt.block) (ω υ : ℕ → ℝ) (fuel : ℕ) (s : σ) (hP : P s) (r : Subset.Result σ n)
    (h : Subset.run t marg ev opt ω υ fuel s = some (.ok r)) :
    (∀ S ∈ r.samples, S.length = opt.N ∧ ∀ q ∈ S, q.2 = f (uToX t marg q.1)) ∧
    ∀ (j : ℕ) (y : ℝ) (S : List (Sample n)), r.thresholds[j]? = some y → r.samples[j + 1]? = some S →
      ∀ q ∈ S, f (uToX t marg q.1) ≤ y := by
  obtain ⟨r', h1, h2, -⟩ := run_finished (Q := fun _ _ => True) (t := t) (marg := marg) hev
    (fun _ _ _ _ _ _ _ _ => trivial) hp hp1 hN hb ω υ fuel s hP trivial _ h
  injection h1 with h1
  subst h1
  have get : ∀ (j : ℕ) (S : List (Sample n)), r.samples[j]? = some S → ∃ y p, r.thresholds[j]? = some y ∧
      r.probs[j]? = some p ∧ LevelOK t marg f opt.N (if j = 0 then none else r.thresholds[j - 1]?) S y p := by
    intro j S hS
    have hj := (List.getElem?_eq_some_iff.1 hS).1
    have h3 := h2.lenS
    have h4 := h2.lenY
    have h5 := h2.lenP
    have hy : r.thresholds[j]? = some r.thresholds[j] := List.getElem?_eq_getElem (by omega)
    have hpp : r.probs[j]? = some r.probs[j] := List.getElem?_eq_getElem (by omega)
    exact ⟨_, _, hy, hpp, h2.ok j _ _ S hy hpp hS⟩
  constructor
  · intro S hS
    obtain ⟨j, hj, rfl⟩ := List.getElem_of_mem hS
    obtain ⟨y, p, -, -, hl⟩ := get j _ (List.getElem?_eq_getElem hj)
    exact ⟨hl.size, hl.value⟩
  · intro j y S hy hS q hq
    obtain ⟨y', p, -, -, hl⟩ := get (j + 1) S hS
    rw [← hl.value q hq]
    refine hl.inside y ?_ q hq
    rw [if_neg (by omega), Nat.add_sub_cancel, hy]
    rfl

/-- C41: one level of conditional sampling, from any seeds in the subset and for any draws: one chain per seed, of lengths
that split `N` as evenly as possible with the longer chains first; exactly `N` states, each recorded with its limit-state
value and inside the subset; `N` evaluations. -/
theorem C41_chains (hev : Values ev P f) (sigma y : ℝ) (N : ℕ) (seeds : List (Sample n)) (hne : seeds ≠ [])
    (hs : ∀ q ∈ seeds, q.2 = f (uToX t marg q.1) ∧ q.2 ≤ y) (pos : ℕ) (s : σ) (hP : P s) :
    ∃ ls pos' s', mmhStep t marg ev sigma y υ N seeds pos s = .ok (ls, pos', s') ∧ ls.length = seeds.length ∧
      (∀ (j : ℕ) (l : List (Sample n)), ls[j]? = some l →
        l.length = N / seeds.length + if j < N % seeds.length then 1 else 0) ∧
      ls.flatten.length = N ∧
      ∀ q ∈ ls.flatten, q.2 = f (uToX t marg q.1) ∧ q.2 ≤ y := by
  obtain ⟨ls, pos', s', h1, h2, h3, h4, -⟩ := mmhStep_spec (Q := fun _ _ => True) (t := t) (marg := marg)
    (sigma := sigma) (υ := υ) hev (fun _ _ _ _ _ _ _ _ => trivial) N hne hs (pos := pos) hP (k := 0) trivial
  have hl : ls.length = seeds.length := by simpa using congrArg List.length h2
  refine ⟨ls, pos', s', h1, hl, ?_, h3, h4⟩
  intro j l hjl
  have hj := (List.getElem?_eq_some_iff.1 hjl).1
  have := congrArg (fun L => L[j]?) h2
  simp only [List.getElem?_map, hjl, Option.map_some, List.getElem?_range (show j < seeds.length by omega),
    Option.some.injEq] at this
  exact this

/-- C43: a terminating run has seen a failure: some sample of its last level has `g ≤ 0`. -/
theorem C43_needs_failure (hev : Values ev P f) (hp : 0 < opt.p0) (hp1 : opt.p0 < 1) (hN : 1 ≤ opt.N)
    (hb : 1 ≤ opt.block) (ω υ : ℕ → ℝ) (fuel : ℕ) (s : σ) (hP : P s)
    (res : Except (PyErr × σ) (Subset.Result σ n)) (h : Subset.run t marg ev opt ω υ fuel s = some res) :
    ∃ u : Fin n → ℝ, f (uToX t marg u) ≤ 0 := by
  obtain ⟨r, h1, h2, -, -⟩ := run_finished (Q := fun _ _ => True) (t := t) (marg := marg) hev
    (fun _ _ _ _ _ _ _ _ => trivial) hp hp1 hN hb ω υ fuel s hP trivial res h
  obtain ⟨ys, hys, -⟩ := h2.last
  have h3 := h2.lenS
  have h4 := h2.lenY
  have h5 := h2.lenP
  have hl : r.nLevels = ys.length + 1 := by rw [hys] at h4; simpa using h4.symm
  have hy : r.thresholds[ys.length]? = some 0 := by rw [hys]; simp
  have hpp : r.probs[ys.length]? = some r.probs[ys.length] := List.getElem?_eq_getElem (by omega)
  have hS : r.samples[ys.length]? = some r.samples[ys.length] := List.getElem?_eq_getElem (by omega)
  have hok := h2.ok _ _ _ _ hy hpp hS
  have hb1 := (h2.probs _ (List.getElem_mem (show ys.length < r.probs.length by omega))).1
  rw [hok.prob] at hb1
  have hN' : (1:ℝ) ≤ opt.N := by exact_mod_cast hN
  have h0 : 0 ≤ opt.p0 * ((opt.N:ℝ) - 1) / opt.N :=
    div_nonneg (mul_nonneg hp.le (by linarith)) (by linarith)
  have hc : countLe (r.samples[ys.length].map Prod.snd) 0 ≠ 0 := by
    intro he
    rw [he] at hb1
    simp at hb1
    linarith
  unfold countLe at hc
  rw [Ne, List.length_eq_zero_iff, List.filter_eq_nil_iff] at hc
  push Not at hc
  obtain ⟨g, hg, hg0⟩ := hc
  rw [decide_eq_true_eq] at hg0
  obtain ⟨q, hq, rfl⟩ := List.mem_map.1 hg
  exact ⟨q.1, by rw [← hok.value q hq]; exact hg0⟩

/-- C43: for a limit state that is positive everywhere no run of subset simulation ever terminates. -/
theorem C43_no_failure (hev : Values ev P f) (hf : ∀ x, 0 < f x) (hp : 0 < opt.p0) (hp1 : opt.p0 < 1) (hN : 1 ≤ opt.N)
    (hb : 1 ≤ opt.block) (ω υ : ℕ → ℝ) (s : σ) (hP : P s) :
    ∀ fuel, Subset.run t marg ev opt ω υ fuel s = none := by
  intro fuel
  rcases h : Subset.run t marg ev opt ω υ fuel s with _ | res
  · rfl
  · obtain ⟨u, hu⟩ := C43_needs_failure (t := t) (marg := marg) hev hp hp1 hN hb ω υ fuel s hP res h
    exact absurd hu (not_le.2 (hf _))

end

/-- C64: a terminating run of subset simulation evaluates the limit state exactly `N` times per level: the call counter
grows by `N · n_levels`. -/
theorem C64_calls {D : Type} {t : Mats n} {marg : Fin n → Marginal} {expr : Kwargs → GRet} {g : Dict String ℝ → ℝ}
    (hp : Pointwise expr g) (lo : LSOptions) (hbs : 1 ≤ lo.blockSize) (hmp : lo.multiProc ≠ 0) (stdv : Fin n → ℝ)
    (ev : Ev D) (hm : Reachable ev.model) (hn : ev.model.nMarg ≤ n) (hne : ev.model.getNames ≠ [])
    (opt : Subset.Options) (hp0 : 0 < opt.p0) (hp1 : opt.p0 < 1) (hN : 1 ≤ opt.N) (hb : 1 ≤ opt.block) (ω υ : ℕ → ℝ)
    (fuel : ℕ) (r : Subset.Result (Ev D) n)
    (h : Subset.run t marg (lsEvaluator expr lo stdv) opt ω υ fuel ev = some (.ok r)) :
    r.s.model = ev.model.addCallFunction (opt.N * r.nLevels) := by
  have hev := ls_values hp lo hbs hmp stdv ev.model hm hn hne
  obtain ⟨r', h1, h2, -⟩ := run_finished (t := t) (marg := marg) (Q := fun k (s : Ev D) => s.model = ev.model.addCallFunction k) hev
    (by
      intro k s s' xs Gs _ hk hv
      rw [values_calls hv, hk, addCall_addCall]) hp0 hp1 hN hb ω υ fuel ev ⟨0, rfl⟩ rfl _ h
  injection h1 with h1
  subst h1
  exact h2.count

open Classical in
theorem percentile_pair {a b : ℝ} (h : a ≤ b) : percentile [a, b] (1 / 2) = (a + b) / 2 ∧
    percentile [b, a] (1 / 2) = (a + b) / 2 := by
  have hfl : ⌊(1 / 2 : ℝ) * (((2:ℕ) : ℝ) - 1)⌋₊ = 0 := by
    rw [Nat.floor_eq_zero]; norm_num
  have e1 : [a, b].insertionSort (fun x y : ℝ => x ≤ y) = [a, b] := by
    simp [List.insertionSort, List.orderedInsert, h]
  have e2 : [b, a].insertionSort (fun x y : ℝ => x ≤ y) = [a, b] := by
    rcases h.eq_or_lt with h | h
    · subst h; simp [List.insertionSort, List.orderedInsert]
    · simp [List.insertionSort, List.orderedInsert, not_le.2 h]
  constructor
  · unfold percentile
    simp only [List.length_cons, List.length_nil, Nat.zero_add, Nat.reduceAdd, hfl]
    have e1' : List.insertionSort (fun x y : ℝ => x ≤ y) [a, b] = [a, b] := by
      convert e1
    simp [e1']
    ring
  · unfold percentile
    simp only [List.length_cons, List.length_nil, Nat.zero_add, Nat.reduceAdd, hfl]
    have e2' : List.insertionSort (fun x y : ℝ => x ≤ y) [b, a] = [a, b] := by
      convert e2
    simp [e2']
    ring

/-- C40, C41, C64, concretely: one standard normal variable, `g = x`, two samples per level, `p0 = 1/2`, first samples `1`
and `2`: the run ends after two levels with thresholds `3/2`, `0` and `Pf = 1/2`. -/
example : ∃ m r, Normal.new 0 (.fin 1) none = .ok m ∧ Subset.run (n := 1) ⟨1, 1⟩ (fun _ => m)
    (⟨fun s _ => (s, .error .typeError), fun s xs => (s, .ok (xs.map (fun x => x 0)))⟩ : Evaluator Unit 1)
    ⟨2, 1, 1 / 2, 3⟩ (fun k => k + 1) (fun _ => 0) 1 () = some (.ok r) ∧ r.thresholds = [3 / 2, 0] ∧ r.Pf = 1 / 2 := by
  obtain ⟨m, hm⟩ : ∃ m, Normal.new 0 (.fin (1 : ℝ)) none = .ok m := ⟨_, rfl⟩
  have hu := (normal_ok hm).1
  have hx : ∀ u : Fin 1 → ℝ, uToX (⟨1, 1⟩ : Mats 1) (fun _ => m) u 0 = u 0 := by
    intro u
    simp [uToX, hu, Normal.uToX]
  refine ⟨m, ?_⟩
  have h1 := (percentile_pair (show (1:ℝ) ≤ 2 by norm_num)).1
  have h2 := (percentile_pair (show (-5:ℝ) ≤ -2 by norm_num)).2
  have hr : randn (fun k => (k:ℝ) + 1) 1 2 0 = [fun _ => 1, fun _ => 2] := by
    unfold randn
    simp only [List.range_succ, List.range_zero, List.nil_append, List.map_append, List.map_cons, List.map_nil,
      List.cons_append]
    congr 1
    · funext r; simp
    · congr 1; funext r; simp; norm_num
  have hprop : ∀ (pos : ℕ) (u : Fin 1 → ℝ), proposal 3 (fun _ => 0) pos u = fun d => u d - 3 := by
    intro pos u
    funext d
    unfold proposal
    rw [if_pos (Or.inl rfl)]
    ring
  unfold Subset.run
  rw [if_neg (by norm_num)]
  simp only [hr]
  simp only [evalBatch, List.take, List.drop, List.map_cons, List.map_nil, hx, List.cons_append, List.nil_append,
    one_ne_zero, if_false, List.length_cons, List.length_nil]
  rw [h1, if_neg (by norm_num), if_neg (by norm_num)]
  have hsd : seedsOf ([fun _ => 1, fun _ => 2].zip [1, 2]) ((1 + 2) / 2 : ℝ) = [((fun _ => 1 : Fin 1 → ℝ), (1:ℝ))] := by
    unfold seedsOf
    simp only [List.zip_cons_cons, List.zip_nil_right, List.filter_cons, List.filter_nil]
    norm_num
  have hf1 : fraction [1, 2] ((1 + 2) / 2) 2 = 1 / 2 := by
    unfold fraction
    simp only [List.filter_cons, List.filter_nil]
    norm_num
  have hf2 : fraction [-2, -5] 0 2 = 1 := by
    unfold fraction
    simp only [List.filter_cons, List.filter_nil]
    norm_num
  have hmm : mmhStep (⟨1, 1⟩ : Mats 1) (fun _ => m)
      (⟨fun s _ => (s, .error .typeError), fun s xs => (s, .ok (xs.map (fun x => x 0)))⟩ : Evaluator Unit 1) 3 ((1 + 2) / 2)
      (fun _ => 0) 2 [((fun _ => 1 : Fin 1 → ℝ), (1:ℝ))] 0 () =
      .ok ([[((fun _ => -2 : Fin 1 → ℝ), (-2:ℝ)), ((fun _ => -5 : Fin 1 → ℝ), (-5:ℝ))]], 4, ()) := by
    have e1 : (fun _ : Fin 1 => (1:ℝ) - 3) = fun _ => -2 := by funext; norm_num
    have e2 : (fun _ : Fin 1 => (-2:ℝ) - 3) = fun _ => -5 := by funext; norm_num
    simp only [mmhStep, chains, chain, move, hprop, List.map_cons, List.map_nil, hx, List.headD_cons, List.length_cons,
      List.length_nil, Nat.zero_add, e1, e2]
    norm_num [chain, move, hprop, hx, e1, e2]
  rw [hsd, hf1]
  unfold levels
  simp only [hmm, List.flatten_cons, List.flatten_nil, List.append_nil, List.map_cons, List.map_nil, h2]
  rw [if_pos (by norm_num), hf2]
  refine ⟨_, hm, rfl, ?_, ?_⟩
  · simp only [finalise]; norm_num
  · simp only [finalise]; norm_num

end Pystra.Props
