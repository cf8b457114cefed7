import Verif.Props.ExactLaw
import Verif.Props.Subset
import Verif.Props.Convergence

/-! C125: subset simulation against crude Monte Carlo: runs of one level, their law, and what the reported numbers can be. -/

namespace Pystra.Props
open MeasureTheory Set Spec Matrix Transformation Form
open ProbabilityTheory hiding cdf

variable {n : ℕ} {σ : Type}

/-- The values of the first level: one for each of the draws a crude Monte Carlo run makes in one block. -/
theorem firstLevel_draws (ω : ℕ → ℝ) (N : ℕ) :
    Subset.randn ω n N 0 = (List.finRange N).map fun j : Fin N => mcDraw ω n N N 0 j := by
  unfold Subset.randn
  rw [← List.map_coe_finRange_eq_range, List.map_map]
  refine List.map_congr_left fun j _ => ?_
  funext r
  have h1 : (j:ℕ) / N = 0 := Nat.div_eq_of_lt j.2
  have h2 : (j:ℕ) % N = j := Nat.mod_eq_of_lt j.2
  simp [mcDraw, h1, h2]

/-- Counting the values at or below a number. -/
theorem countLe_ncard {α : Type} {N : ℕ} (z : Fin N → α) (g : α → ℝ) (y : ℝ) :
    countLe (((List.finRange N).map z).map g) y = Set.ncard {j | g (z j) ≤ y} := by
  classical
  unfold countLe
  rw [List.map_map, List.filter_map, List.length_map]
  have hn : ((List.finRange N).filter ((fun v => decide (v ≤ y)) ∘ g ∘ z)).Nodup := (List.nodup_finRange N).filter _
  have e : {j | g (z j) ≤ y} = (((List.finRange N).filter ((fun v => decide (v ≤ y)) ∘ g ∘ z)).toFinset : Set (Fin N)) := by
    ext j; simp
  rw [e, Set.ncard_coe_finset, List.toFinset_card_of_nodup hn]

/-- When the order statistic number `m` is above `y`, at most `m` values are not. -/
theorem countLe_index {G : List ℝ} {m : ℕ} {y : ℝ} (hm : m < (Subset.srt G).length) (h : y < (Subset.srt G)[m]) : countLe G y ≤ m := by
  classical
  have hp := ((Subset.srt_perm G).filter (fun g => decide (g ≤ y))).length_eq
  have e : countLe G y = (G.filter fun g => decide (g ≤ y)).length := by
    unfold countLe
    congr 1
  rw [e, ← hp]
  have hd : ((Subset.srt G).drop m).filter (fun g => decide (g ≤ y)) = [] := by
    rw [List.filter_eq_nil_iff]
    intro g hg
    obtain ⟨i, hi', rfl⟩ := List.getElem_of_mem hg
    rw [List.getElem_drop, decide_eq_true_eq, not_le]
    have := Subset.srt_mono G (i := m) (j := m + i) (by omega) (by rw [List.length_drop] at hi'; omega)
    linarith
  conv_lhs => rw [← List.take_append_drop m (Subset.srt G), List.filter_append, hd, List.append_nil]
  exact (List.length_filter_le _ _).trans (List.length_take_le _ _)

/-- When at least `p·(N-1) + 1` of the `N` values are at most `y`, so is the percentile. -/
theorem percentile_le_of_count {p : ℝ} (hp : 0 < p) (hp1 : p < 1) {G : List ℝ} (hG : G ≠ []) {y : ℝ}
    (hK : p * ((G.length : ℝ) - 1) + 1 ≤ countLe G y) : Subset.percentile G p ≤ y := by
  by_contra hc
  push Not at hc
  -- the percentile is an interpolation between neighbouring order statistics
  obtain ⟨lo, hi, hlo, hhi, a1, a2, a3, a4, a5, a6⟩ := Subset.percentile_bounds hp hp1 hG
  have hlt := countLe_index hhi (lt_of_lt_of_le hc a6)
  have h3 : (countLe G y:ℝ) ≤ lo + 1 := by exact_mod_cast hlt.trans a4
  have h4 : (lo:ℝ) = p * ((G.length:ℝ) - 1) := by linarith
  -- then `lo` is the exact position, and the percentile is the order statistic number `lo`
  have hKl : lo + 1 ≤ countLe G y := by
    have : (lo:ℝ) + 1 ≤ countLe G y := by rw [h4]; exact hK
    exact_mod_cast this
  have hpe : Subset.percentile G p = (Subset.srt G)[lo] := by
    unfold Subset.percentile
    have hfl : ⌊p * ((G.length : ℝ) - 1)⌋₊ = lo := by rw [← h4, Nat.floor_natCast]
    dsimp only
    rw [hfl, ← h4, sub_self, zero_mul, add_zero]
    exact (List.getElem_eq_getD _).symm
  -- but at most `lo` values lie below it
  rw [hpe] at hc
  have hlt2 := countLe_index hlo hc
  omega

section
variable {t : Mats n} {marg : Fin n → Marginal} {ev : Evaluator σ n} {P : σ → Prop} {f : (Fin n → ℝ) → ℝ}
  {opt : Subset.Options}

/-- C125: when at least `p0·(N-1) + 1` of the `N` draws of the first level fail, the run ends there and reports the fraction that
fails, whatever the uniform draws; and whenever a run ends after one level, it reports that fraction, and more than `p0·(N-1)`
draws have failed. -/
theorem C125_one_level (hev : Values ev P f) (hp : 0 < opt.p0) (hp1 : opt.p0 < 1) (hN : 1 ≤ opt.N) (hb : 1 ≤ opt.block)
    (ω υ : ℕ → ℝ) (fuel : ℕ) (s : σ) (hP : P s) :
    let K := Set.ncard {j : Fin opt.N | f (uToX t marg (mcDraw ω n opt.N opt.N 0 j)) ≤ 0}
    (opt.p0 * ((opt.N : ℝ) - 1) + 1 ≤ K → ∃ r, Subset.run t marg ev opt ω υ fuel s = some (.ok r) ∧ r.nLevels = 1 ∧
      r.Pf = K / opt.N) ∧
    ∀ r, Subset.run t marg ev opt ω υ fuel s = some (.ok r) → r.nLevels = 1 → r.Pf = K / opt.N ∧ opt.p0 * ((opt.N : ℝ) - 1) < K := by
  intro K
  have hN' : (0:ℝ) < opt.N := by exact_mod_cast hN
  have hcount : ∀ y, countLe ((Subset.randn ω n opt.N 0).map fun u => f (uToX t marg u)) y =
      Set.ncard {j : Fin opt.N | f (uToX t marg (mcDraw ω n opt.N opt.N 0 j)) ≤ y} := by
    intro y
    rw [firstLevel_draws]
    exact countLe_ncard (fun j : Fin opt.N => mcDraw ω n opt.N opt.N 0 j) (fun u => f (uToX t marg u)) y
  obtain ⟨us, hus⟩ : ∃ us, us = Subset.randn ω n opt.N 0 := ⟨_, rfl⟩
  have hlu : us.length = opt.N := by simp [hus, Subset.randn]
  constructor
  · intro hK
    obtain ⟨s', h1, h2, -⟩ := Subset.evalBatch_spec (Q := fun _ _ => True) (t := t) (marg := marg) hev (fun _ _ _ _ _ _ _ _ => trivial) hb opt.N us
      hlu.le hP (k := 0) trivial
    have hG : us.map (fun u => f (uToX t marg u)) ≠ [] := by
      intro h
      have := congrArg List.length h
      rw [List.length_map, hlu] at this
      simp at this; omega
    have hz : Subset.percentile (us.map fun u => f (uToX t marg u)) opt.p0 ≤ 0 := by
      refine percentile_le_of_count hp hp1 hG ?_
      rw [List.length_map, hlu, hus, hcount 0]
      exact hK
    unfold Subset.run
    rw [if_neg (not_not.2 ⟨hp, hp1⟩)]
    simp only [← hus, h1, List.length_map, hlu, if_neg (show opt.N ≠ 0 by omega), if_pos hz]
    refine ⟨_, rfl, rfl, ?_⟩
    change Subset.fraction _ 0 opt.N = _
    rw [fraction_eq, hus, hcount 0]
  · intro r h hl
    obtain ⟨r', h1, -, h3, h4, h5, -, ⟨ys, h6, -⟩, h7, h8, h9, -, -, -, -, -, h10⟩ :=
      C40_run (t := t) (marg := marg) hev hp hp1 hN hb ω υ fuel s hP _ h
    cases h1
    obtain ⟨hval, -⟩ := C41_levels (t := t) (marg := marg) hev hp hp1 hN hb ω υ fuel s hP r h
    rw [hl] at h3 h4 h5
    obtain ⟨y, hy⟩ := List.length_eq_one_iff.1 h3
    obtain ⟨p, hpp⟩ := List.length_eq_one_iff.1 h4
    obtain ⟨S, hS⟩ := List.length_eq_one_iff.1 h5
    have hys : y = 0 := by
      rw [hy] at h6
      rcases ys with _ | ⟨a, as⟩
      · simpa using h6
      · simp at h6
    obtain ⟨-, hpc⟩ := h7 0 y p S (by rw [hy]; rfl) (by rw [hpp]; rfl) (by rw [hS]; rfl)
    have hSf : S.map Prod.fst = Subset.randn ω n opt.N 0 := by
      rw [hS] at h10; simpa using h10
    have hSg : S.map Prod.snd = (Subset.randn ω n opt.N 0).map fun u => f (uToX t marg u) := by
      rw [← hSf, List.map_map]
      refine List.map_congr_left fun q hq => ?_
      exact (hval S (by rw [hS]; simp)).2 q hq
    have hpK : p = K / opt.N := by rw [hpc, hSg, hys, hcount 0]
    refine ⟨?_, ?_⟩
    · rw [h9, hpp, List.prod_singleton, hpK]
    · have := (h8 p (by rw [hpp]; simp)).1
      rw [hpK, div_lt_div_iff_of_pos_right hN'] at this
      exact this

/-- The number of failing draws, as a sum. -/
theorem ncard_sum {α : Type} {N : ℕ} (z : Fin N → α) (A : Set α) :
    ((Set.ncard {j | z j ∈ A} : ℕ) : ℝ) = ∑ j, Set.indicator A (fun _ => (1:ℝ)) (z j) := by
  classical
  rw [show {j | z j ∈ A} = ((Finset.univ.filter fun j => z j ∈ A : Finset (Fin N)) : Set _) by ext j; simp,
    Set.ncard_coe_finset, Finset.card_filter]
  push_cast
  refine Finset.sum_congr rfl fun j _ => ?_
  simp only [Set.indicator]

/-- C125: the exact law of runs of one level: they report `Pf = k/N`, for `k` from `p0·(N-1) + 1` on, with the binomial probability
of `k` failures in `N` draws. -/
theorem C125_law (hev : Values ev P f) (hA : MeasurableSet {u : Fin n → ℝ | f (uToX t marg u) ≤ 0}) (hp : 0 < opt.p0) (hp1 : opt.p0 < 1)
    (hN : 1 ≤ opt.N) (hb : 1 ≤ opt.block) (υ : ℕ → ℝ) (fuel : ℕ) (s : σ) (hP : P s) (k : ℕ) (hk : opt.p0 * ((opt.N : ℝ) - 1) + 1 ≤ k) :
    let p := (stdGauss n).real {u | f (uToX t marg u) ≤ 0}
    stream.real {ω | ∃ r, Subset.run t marg ev opt ω υ fuel s = some (.ok r) ∧ r.nLevels = 1 ∧ r.Pf = k / opt.N} =
      opt.N.choose k * p ^ k * (1 - p) ^ (opt.N - k) := by
  intro p
  haveI : IsProbabilityMeasure (stdGauss n) := by unfold stdGauss; infer_instance
  have hN' : (0:ℝ) < opt.N := by exact_mod_cast hN
  rw [← binomial_count (stdGauss n) hA opt.N k, ← MonteCarlo.samples_law (n := n) (N := opt.N) hN 0]
  have hmeas : MeasurableSet {z : Fin opt.N → Fin n → ℝ | Set.ncard {j | z j ∈ {u : Fin n → ℝ | f (uToX t marg u) ≤ 0}} = k} := by
    have e : {z : Fin opt.N → Fin n → ℝ | Set.ncard {j | z j ∈ {u : Fin n → ℝ | f (uToX t marg u) ≤ 0}} = k} =
        {z | ∑ j, Set.indicator {u : Fin n → ℝ | f (uToX t marg u) ≤ 0} (fun _ => (1:ℝ)) (z j) = k} := by
      ext z
      simp only [mem_setOf_eq, ← ncard_sum, Nat.cast_inj]
    rw [e]
    refine measurableSet_eq_fun (Finset.measurable_sum _ fun j _ => ?_) measurable_const
    exact (measurable_const.indicator hA).comp (measurable_pi_apply j)
  rw [map_measureReal_apply (measurable_draw _ _ _) hmeas]
  congr 1
  ext ω
  simp only [mem_setOf_eq, mem_preimage]
  obtain ⟨h1, h2⟩ := C125_one_level (t := t) (marg := marg) hev hp hp1 hN hb ω υ fuel s hP
  constructor
  · rintro ⟨r, hr, hl, hq⟩
    have := (h2 r hr hl).1
    rw [hq, div_left_inj' hN'.ne', Nat.cast_inj] at this
    exact this.symm
  · intro h
    obtain ⟨r, hr, hl, hq⟩ := h1 (by rw [h]; exact hk)
    exact ⟨r, hr, hl, by rw [hq, h]⟩

/-- The fraction of the draws that fail misses its probability by `ε` with a probability of at most `2 exp(-2Nε²)`. -/
theorem fraction_tail (hA : MeasurableSet {u : Fin n → ℝ | f (uToX t marg u) ≤ 0}) {N : ℕ} (hN : 1 ≤ N) {ε : ℝ} (hε : 0 < ε) :
    MeasurableSet {ω : ℕ → ℝ | ε ≤ |((Set.ncard {j : Fin N | f (uToX t marg (mcDraw ω n N N 0 j)) ≤ 0} : ℕ) : ℝ) / N -
      (stdGauss n).real {u | f (uToX t marg u) ≤ 0}|} ∧
    stream.real {ω | ε ≤ |((Set.ncard {j : Fin N | f (uToX t marg (mcDraw ω n N N 0 j)) ≤ 0} : ℕ) : ℝ) / N -
      (stdGauss n).real {u | f (uToX t marg u) ≤ 0}|} ≤ 2 * Real.exp (-2 * N * ε ^ 2) := by
  haveI : IsProbabilityMeasure (stdGauss n) := by unfold stdGauss; infer_instance
  have hX : Measurable (Set.indicator {u : Fin n → ℝ | f (uToX t marg u) ≤ 0} (fun _ => (1:ℝ))) := measurable_const.indicator hA
  have hZ : ∀ j : Fin N, Measurable fun ω => mcDraw ω n N N 0 j := fun j =>
    (measurable_pi_apply j).comp (measurable_draw (n := n) N N 0)
  have hsum : ∀ ω, ((Set.ncard {j : Fin N | f (uToX t marg (mcDraw ω n N N 0 j)) ≤ 0} : ℕ) : ℝ) =
      ∑ j : Fin N, Set.indicator {u : Fin n → ℝ | f (uToX t marg u) ≤ 0} (fun _ => (1:ℝ)) (mcDraw ω n N N 0 j) :=
    fun ω => ncard_sum (fun j : Fin N => mcDraw ω n N N 0 j) {u : Fin n → ℝ | f (uToX t marg u) ≤ 0}
  simp only [hsum]
  constructor
  · refine measurableSet_le measurable_const ?_
    refine Measurable.abs (Measurable.sub_const (Measurable.div_const ?_ _) _)
    exact Finset.measurable_sum _ fun j _ => hX.comp (hZ j)
  · have h := hoeffding_mean hN hZ (MonteCarlo.samples_law hN 0) hX.aemeasurable (fun e => by
      unfold Set.indicator
      split_ifs <;> simp) hε
    rw [integral_indicator_const _ hA, smul_eq_mul, mul_one] at h
    exact h

/-- C125: with a probability of failure `p` above `p0` by a margin, a run of `N` samples ends after one level within `ε` of `p`, with a
probability of at least `1 - 2 exp(-2Nε²)`. -/
theorem C125_frequent (hev : Values ev P f) (hA : MeasurableSet {u : Fin n → ℝ | f (uToX t marg u) ≤ 0}) (hp : 0 < opt.p0)
    (hp1 : opt.p0 < 1) (hN : 1 ≤ opt.N) (hb : 1 ≤ opt.block) (υ : ℕ → ℝ) (fuel : ℕ) (s : σ) (hP : P s) {ε : ℝ} (hε : 0 < ε)
    (h : (opt.p0 * ((opt.N : ℝ) - 1) + 1) / opt.N + ε ≤ (stdGauss n).real {u | f (uToX t marg u) ≤ 0}) :
    1 - 2 * Real.exp (-2 * opt.N * ε ^ 2) ≤ stream.real {ω | ∃ r, Subset.run t marg ev opt ω υ fuel s = some (.ok r) ∧ r.nLevels = 1 ∧
      |r.Pf - (stdGauss n).real {u | f (uToX t marg u) ≤ 0}| < ε} := by
  have hN' : (0:ℝ) < opt.N := by exact_mod_cast hN
  obtain ⟨hm, ht⟩ := fraction_tail (t := t) (marg := marg) (f := f) hA hN hε
  have hc := probReal_compl_eq_one_sub (μ := stream) hm
  refine (sub_le_sub_left ht 1).trans (hc.ge.trans (measureReal_mono fun ω hω => ?_))
  · simp only [mem_compl_iff, mem_setOf_eq, not_le] at hω ⊢
    obtain ⟨h1, -⟩ := C125_one_level (t := t) (marg := marg) hev hp hp1 hN hb ω υ fuel s hP
    obtain ⟨r, hr, hl, hq⟩ := h1 (by
      have := (abs_lt.1 hω).1
      have h3 : (opt.p0 * ((opt.N : ℝ) - 1) + 1) / opt.N < ((Set.ncard {j : Fin opt.N | f (uToX t marg (mcDraw ω n opt.N opt.N 0 j)) ≤ 0} : ℕ) : ℝ) / opt.N := by
        linarith
      rw [div_lt_div_iff_of_pos_right hN'] at h3
      exact h3.le)
    exact ⟨r, hr, hl, by rw [hq]; exact hω⟩

/-- C125: with a probability of failure `p` below `p0` by a margin `ε`, a run ends after one level with a probability of at most
`2 exp(-2Nε²)`. -/
theorem C125_rare (hev : Values ev P f) (hA : MeasurableSet {u : Fin n → ℝ | f (uToX t marg u) ≤ 0}) (hp : 0 < opt.p0)
    (hp1 : opt.p0 < 1) (hN : 1 ≤ opt.N) (hb : 1 ≤ opt.block) (υ : ℕ → ℝ) (fuel : ℕ) (s : σ) (hP : P s) {ε : ℝ} (hε : 0 < ε)
    (h : (stdGauss n).real {u | f (uToX t marg u) ≤ 0} + ε ≤ opt.p0 * ((opt.N : ℝ) - 1) / opt.N) :
    stream.real {ω | ∃ r, Subset.run t marg ev opt ω υ fuel s = some (.ok r) ∧ r.nLevels = 1} ≤ 2 * Real.exp (-2 * opt.N * ε ^ 2) := by
  have hN' : (0:ℝ) < opt.N := by exact_mod_cast hN
  obtain ⟨-, ht⟩ := fraction_tail (t := t) (marg := marg) (f := f) hA hN hε
  refine le_trans (measureReal_mono ?_) ht
  rintro ω ⟨r, hr, hl⟩
  obtain ⟨-, h2⟩ := (C125_one_level (t := t) (marg := marg) hev hp hp1 hN hb ω υ fuel s hP).2 r hr hl
  rw [mem_setOf_eq]
  refine le_trans ?_ (le_abs_self _)
  rw [← div_lt_div_iff_of_pos_right hN'] at h2
  linarith

/-- C125: from the same draws, in one block, a run of one level and crude Monte Carlo differ exactly by the draws with `g = 0`, which only
subset simulation counts as failures; without such draws they report the same probability, and the same index when it is below 1. -/
theorem C125_crude (hev : Values ev P f) (hp : 0 < opt.p0) (hp1 : opt.p0 < 1) (hN : 1 ≤ opt.N) (hb : 1 ≤ opt.block)
    (mopt : MonteCarlo.Options) (hg : mopt.randomGenerator = 0) (hs : mopt.stdv = 1) (hcov : mopt.cov ≤ 0) (hmN : mopt.samples = opt.N)
    (hmb : opt.N ≤ mopt.blockSize) (ω υ : ℕ → ℝ) (fuel fuel' : ℕ) (hf : opt.N ≤ fuel') (s s' : σ) (hP : P s) (hP' : P s')
    (r : Subset.Result σ n) (hr : Subset.run t marg ev opt ω υ fuel s = some (.ok r)) (hl : r.nLevels = 1) :
    ∃ c, MonteCarlo.run t marg ev mopt none ω 0 fuel' s' = some (.ok c) ∧
      r.Pf = c.Pf + Set.ncard {j : Fin opt.N | f (uToX t marg (mcDraw ω n opt.N opt.N 0 j)) = 0} / opt.N ∧
      ((∀ j : Fin opt.N, f (uToX t marg (mcDraw ω n opt.N opt.N 0 j)) ≠ 0) → r.Pf < 1 →
        c.Pf = r.Pf ∧ ∃ b : ℝ, r.beta = (b : EReal) ∧ c.beta = .fin b) := by
  have hN' : (0:ℝ) < opt.N := by exact_mod_cast hN
  have hs0 : 0 < mopt.stdv := by rw [hs]; exact one_pos
  obtain ⟨c, h1, hk, h3⟩ := run_full (t := t) (marg := marg) hev hg (by omega) (by omega) hs0 hcov none ω 0 fuel' (by omega) s' hP'
  obtain ⟨c', h1', -, -, -, -, hcb, -⟩ := C37_run (t := t) (marg := marg) hev hg (by omega) (by omega) hs0 none ω 0 fuel' (by omega) s' hP'
  rw [h1] at h1'; cases h1'
  have hdraw : ∀ j : Fin mopt.samples, mcDraw ω n mopt.blockSize mopt.samples 0 j = mcDraw ω n opt.N opt.N 0 j := by
    intro j
    have hj := j.2
    funext i
    unfold mcDraw
    rw [Nat.div_eq_of_lt (show (j:ℕ) < mopt.blockSize by omega), Nat.div_eq_of_lt (show (j:ℕ) < opt.N by omega),
      Nat.mod_eq_of_lt (show (j:ℕ) < mopt.blockSize by omega), Nat.mod_eq_of_lt (show (j:ℕ) < opt.N by omega)]
    simp only [Nat.mul_zero, Nat.sub_zero, hmN, Nat.min_eq_right hmb, Nat.min_self]
  have hc : c.Pf = ((Set.ncard {j : Fin opt.N | f (uToX t marg (mcDraw ω n opt.N opt.N 0 j)) < 0} : ℕ) : ℝ) / opt.N := by
    have h4 : c.Pf = ((Set.ncard {j : Fin mopt.samples | f (uToX t marg (mcDraw ω n opt.N opt.N 0 j)) < 0} : ℕ) : ℝ) / mopt.samples := by
      have e := ncard_sum (fun j : Fin mopt.samples => mcDraw ω n opt.N opt.N 0 j) {u : Fin n → ℝ | f (uToX t marg u) < 0}
      simp only [mem_setOf_eq] at e
      rw [h3, e]
      congr 1
      refine Finset.sum_congr rfl fun j _ => ?_
      rw [summand_indicator hs0, hs, hdraw]
      simp only [Option.getD_none, zero_add, one_mul]
      unfold Set.indicator
      simp only [C38_unit_weights]
    rw [h4, hmN]
  obtain ⟨hPf, hKp⟩ := (C125_one_level (t := t) (marg := marg) hev hp hp1 hN hb ω υ fuel s hP).2 r hr hl
  have hsplit : Set.ncard {j : Fin opt.N | f (uToX t marg (mcDraw ω n opt.N opt.N 0 j)) ≤ 0} =
      Set.ncard {j : Fin opt.N | f (uToX t marg (mcDraw ω n opt.N opt.N 0 j)) < 0} +
        Set.ncard {j : Fin opt.N | f (uToX t marg (mcDraw ω n opt.N opt.N 0 j)) = 0} := by
    rw [← Set.ncard_union_eq ?_ (Set.toFinite _) (Set.toFinite _)]
    · congr 1
      ext j
      simp only [mem_setOf_eq, mem_union]
      exact le_iff_lt_or_eq
    · rw [Set.disjoint_left]
      intro j h5 h6
      simp only [mem_setOf_eq] at h5 h6
      linarith
  have hsum : r.Pf = c.Pf + Set.ncard {j : Fin opt.N | f (uToX t marg (mcDraw ω n opt.N opt.N 0 j)) = 0} / opt.N := by
    rw [hPf, hc, hsplit]; push_cast; ring
  refine ⟨c, h1, hsum, fun hz hlt => ?_⟩
  have h0 : {j : Fin opt.N | f (uToX t marg (mcDraw ω n opt.N opt.N 0 j)) = 0} = ∅ := by
    ext j; simpa using hz j
  have he : c.Pf = r.Pf := by rw [hsum, h0]; simp
  obtain ⟨r', e1, -, -, -, -, -, -, -, -, -, hpos, -, hb1, -⟩ := C40_run (t := t) (marg := marg) hev hp hp1 hN hb ω υ fuel s hP _ hr
  cases e1
  obtain ⟨b, hb2, hb3⟩ := hb1 hlt
  obtain ⟨b', hb4, hb5⟩ := hcb (by rw [he]; exact hpos) (by rw [he]; exact hlt)
  have hbb : -b = -b' := StdNormal.strictMono_cdf.injective (by rw [hb3, hb5, he])
  refine ⟨he, b, hb2, ?_⟩
  rw [hb4, neg_injective hbb]

/-- C125: what the numbers of a terminating run can be: `Pf` is a whole number of `N^L`-ths, above the `L`-th power of `p0(N-1)/N`, for `L`
levels; the reported coefficient of variation is never above that of crude Monte Carlo with the same `Pf` and `N`, equal to it for one
level, and never below `√(log(1/Pf)/N)`; and its square is at most `L` times `(N/(p0(N-1)) - 1)/N`. -/
theorem C125_numbers (hev : Values ev P f) (hp : 0 < opt.p0) (hp1 : opt.p0 < 1) (hN : 1 ≤ opt.N) (hb : 1 ≤ opt.block)
    (ω υ : ℕ → ℝ) (fuel : ℕ) (s : σ) (hP : P s) (r : Subset.Result σ n) (h : Subset.run t marg ev opt ω υ fuel s = some (.ok r)) :
    (∃ k : ℕ, r.Pf = k / (opt.N : ℝ) ^ r.nLevels) ∧
    (opt.p0 * ((opt.N:ℝ) - 1) / opt.N) ^ r.nLevels < r.Pf ∧
    Real.log (1 / r.Pf) / opt.N ≤ r.cov ^ 2 ∧
    r.cov ^ 2 ≤ (1 - r.Pf) / (opt.N * r.Pf) ∧
    (r.nLevels = 1 → r.cov ^ 2 = (1 - r.Pf) / (opt.N * r.Pf)) ∧
    (2 ≤ opt.N → r.cov ^ 2 ≤ r.nLevels * ((opt.N / (opt.p0 * ((opt.N:ℝ) - 1)) - 1) / opt.N)) := by
  obtain ⟨r', e1, hL, hty, hlp, hls, -, -, h7, h8, h9, -, -, -, -, hcov, -⟩ :=
    C40_run (t := t) (marg := marg) hev hp hp1 hN hb ω υ fuel s hP _ h
  cases e1
  have hN1 : (1:ℝ) ≤ opt.N := by exact_mod_cast hN
  have hN' : (0:ℝ) < opt.N := by linarith
  obtain ⟨c, hc⟩ : ∃ c, c = opt.p0 * ((opt.N:ℝ) - 1) / opt.N := ⟨_, rfl⟩
  have hc0 : 0 ≤ c := by rw [hc]; exact div_nonneg (mul_nonneg hp.le (by linarith)) hN'.le
  rw [← hc] at h8 ⊢
  have hfrac : ∀ p ∈ r.probs, ∃ k : ℕ, p = k / opt.N := by
    intro p hpm
    obtain ⟨j, hj, rfl⟩ := List.getElem_of_mem hpm
    exact ⟨_, (h7 j _ _ _ (List.getElem?_eq_getElem (by omega)) (List.getElem?_eq_getElem hj) (List.getElem?_eq_getElem (by omega))).2⟩
  have hsq : r.cov ^ 2 = (r.probs.map fun p : ℝ => (1 - p) / (opt.N * p)).sum := by
    rw [hcov]
    unfold ssCov
    refine Real.sq_sqrt (List.sum_nonneg fun x hx => ?_)
    obtain ⟨p, hpm, rfl⟩ := List.mem_map.1 hx
    have := h8 p hpm
    exact div_nonneg (by linarith) (mul_nonneg hN'.le (by linarith))
  rw [hsq, h9, ← hlp]
  have hne : r.probs ≠ [] := by
    intro h0
    rw [h0] at hlp
    simp at hlp; omega
  refine ⟨?_, ?_, ?_, ?_, ?_, ?_⟩
  · have : ∀ l : List ℝ, (∀ p ∈ l, ∃ k : ℕ, p = k / opt.N) → ∃ k : ℕ, l.prod = k / (opt.N : ℝ) ^ l.length := by
      intro l
      induction l with
      | nil => intro _; exact ⟨1, by simp⟩
      | cons a l ih =>
        intro h0
        obtain ⟨k, hk⟩ := ih fun p hp => h0 p (by simp [hp])
        obtain ⟨k', hk'⟩ := h0 a (by simp)
        refine ⟨k' * k, ?_⟩
        rw [List.prod_cons, hk, hk', List.length_cons, pow_succ]
        push_cast
        field_simp
    exact this r.probs hfrac
  · have : ∀ l : List ℝ, (∀ p ∈ l, c < p) → c ^ l.length ≤ l.prod ∧ 0 < l.prod ∧ (l ≠ [] → c ^ l.length < l.prod) := by
      intro l
      induction l with
      | nil => intro _; simp
      | cons a l ih =>
        intro h0
        obtain ⟨i1, i2, -⟩ := ih fun p hp => h0 p (by simp [hp])
        have ha := h0 a (by simp)
        rw [List.prod_cons, List.length_cons, pow_succ, mul_comm]
        have i3 : c * c ^ l.length < a * l.prod :=
          lt_of_le_of_lt (mul_le_mul_of_nonneg_left i1 hc0) (mul_lt_mul_of_pos_right ha i2)
        exact ⟨i3.le, mul_pos (by linarith) i2, fun _ => i3⟩
    exact (this r.probs fun p hpm => (h8 p hpm).1).2.2 hne
  · have : ∀ l : List ℝ, (∀ p ∈ l, 0 < p) → 0 < l.prod ∧ Real.log (1 / l.prod) / opt.N ≤ (l.map fun p : ℝ => (1 - p) / (opt.N * p)).sum := by
      intro l
      induction l with
      | nil => intro _; simp
      | cons a l ih =>
        intro h0
        obtain ⟨i1, i2⟩ := ih fun p hp => h0 p (by simp [hp])
        have ha := h0 a (by simp)
        refine ⟨by rw [List.prod_cons]; exact mul_pos ha i1, ?_⟩
        rw [List.prod_cons, List.map_cons, List.sum_cons, one_div, mul_inv, Real.log_mul (inv_ne_zero ha.ne') (inv_ne_zero i1.ne'), add_div]
        rw [one_div] at i2
        refine add_le_add ?_ i2
        have h3 := Real.log_le_sub_one_of_pos (inv_pos.2 ha)
        rw [show (1 - a) / (opt.N * a) = (a⁻¹ - 1) / opt.N by field_simp]
        exact div_le_div_of_nonneg_right h3 hN'.le
    exact (this r.probs fun p hpm => lt_of_le_of_lt hc0 (h8 p hpm).1).2
  · have : ∀ l : List ℝ, (∀ p ∈ l, 0 < p ∧ p ≤ 1) → 0 < l.prod ∧ l.prod ≤ 1 ∧
        (l.map fun p : ℝ => (1 - p) / (opt.N * p)).sum ≤ (1 - l.prod) / (opt.N * l.prod) := by
      intro l
      induction l with
      | nil => intro _; simp
      | cons a l ih =>
        intro h0
        obtain ⟨i1, i2, i3⟩ := ih fun p hp => h0 p (by simp [hp])
        obtain ⟨ha, ha1⟩ := h0 a (by simp)
        refine ⟨by rw [List.prod_cons]; exact mul_pos ha i1, by rw [List.prod_cons]; exact mul_le_one₀ ha1 i1.le i2, ?_⟩
        rw [List.prod_cons, List.map_cons, List.sum_cons]
        refine le_trans (add_le_add le_rfl i3) ?_
        have e : (1 - a * l.prod) / (opt.N * (a * l.prod)) - ((1 - a) / (opt.N * a) + (1 - l.prod) / (opt.N * l.prod)) =
            (1 - a) * (1 - l.prod) / (opt.N * (a * l.prod)) := by
          have := hN'.ne'
          have := ha.ne'
          have := i1.ne'
          field_simp
          ring
        have e2 : 0 ≤ (1 - a) * (1 - l.prod) / (opt.N * (a * l.prod)) :=
          div_nonneg (mul_nonneg (by linarith) (by linarith)) (mul_nonneg hN'.le (mul_nonneg ha.le i1.le))
        linarith
    exact (this r.probs fun p hpm => ⟨lt_of_le_of_lt hc0 (h8 p hpm).1, (h8 p hpm).2⟩).2.2
  · intro h1
    obtain ⟨p, hpp⟩ := List.length_eq_one_iff.1 h1
    rw [hpp]
    simp
  · intro h2
    have hN2 : (2:ℝ) ≤ opt.N := by exact_mod_cast h2
    have hcp : 0 < c := by rw [hc]; exact div_pos (mul_pos hp (by linarith)) hN'
    rw [← nsmul_eq_mul, ← List.length_map (f := fun p : ℝ => (1 - p) / (opt.N * p)) (as := r.probs)]
    refine List.sum_le_card_nsmul _ _ fun x hx => ?_
    obtain ⟨p, hpm, rfl⟩ := List.mem_map.1 hx
    have h3 := (h8 p hpm).1
    have hp0 : 0 < p := by linarith
    rw [show (1 - p) / (opt.N * p) = (1 / p - 1) / opt.N by field_simp,
      show (opt.N:ℝ) / (opt.p0 * ((opt.N:ℝ) - 1)) = 1 / c by rw [hc, one_div_div]]
    refine div_le_div_of_nonneg_right ?_ hN'.le
    linarith [one_div_le_one_div_of_le hcp h3.le]

end

/-- A case of C125: one standard normal variable, `p0 = 1/10`.  For `g = x₀` (`p = 1/2`) a run of 100 samples ends after one level with `Pf = 40/100`
with probability `C(100,40)/2^100`, and within 0.3 of `p` except with probability `2 exp(-18)`; for `g = 3 + x₀` a run of 10000 samples
ends after one level with a probability of at most `2 exp(-50)`; and from the draws `-1, 1, -1, 1`, subset simulation and crude Monte Carlo
both report `Pf = 1/2`, with `cov = 1/2` and the same index. -/
example : ∃ m : Marginal, Normal.new 0 (.fin 1) none = .ok m ∧
    (∀ υ fuel, stream.real {ω | ∃ r, Subset.run ⟨1, 1⟩ (fun _ => m) (gradEv (fun x : Fin 1 → ℝ => x 0) fun _ _ => 1) ⟨100, 1000, 0.1, 1⟩ ω υ
      fuel () = some (.ok r) ∧ r.nLevels = 1 ∧ r.Pf = ((40:ℕ):ℝ) / (100:ℕ)} = (Nat.choose 100 40 : ℕ) * (1/2) ^ 40 * (1 - 1/2) ^ 60) ∧
    (∀ υ fuel, 1 - 2 * Real.exp (-2 * (100:ℕ) * 0.3 ^ 2) ≤ stream.real {ω | ∃ r, Subset.run ⟨1, 1⟩ (fun _ => m)
      (gradEv (fun x : Fin 1 → ℝ => x 0) fun _ _ => 1) ⟨100, 1000, 0.1, 1⟩ ω υ fuel () = some (.ok r) ∧ r.nLevels = 1 ∧
      |r.Pf - 1/2| < 0.3}) ∧
    (∀ υ fuel, stream.real {ω | ∃ r, Subset.run ⟨1, 1⟩ (fun _ => m) (gradEv (fun x : Fin 1 → ℝ => 3 + x 0) fun _ _ => 1)
      ⟨10000, 1000, 0.1, 1⟩ ω υ fuel () = some (.ok r) ∧ r.nLevels = 1} ≤ 2 * Real.exp (-2 * (10000:ℕ) * 0.05 ^ 2)) ∧
    ∃ (ω : ℕ → ℝ) (r : Subset.Result Unit 1) (c : MonteCarlo.Result Unit 1) (b : ℝ),
      Subset.run ⟨1, 1⟩ (fun _ => m) (gradEv (fun x : Fin 1 → ℝ => x 0) fun _ _ => 1) ⟨4, 1000, 0.1, 1⟩ ω (fun _ => 0) 0 () = some (.ok r) ∧
      MonteCarlo.run ⟨1, 1⟩ (fun _ => m) (gradEv (fun x : Fin 1 → ℝ => x 0) fun _ _ => 1) ⟨4, 1000, 1, 0, 0⟩ none ω 0 4 () = some (.ok c) ∧
      r.Pf = 1/2 ∧ c.Pf = 1/2 ∧ r.cov ^ 2 = 1/4 ∧ r.beta = (b : EReal) ∧ c.beta = .fin b := by
  obtain ⟨m, hm, -⟩ := C12_normal 0 (σ := 1) one_pos none
  have hev : ∀ d : ℝ, Values (gradEv (fun x : Fin 1 → ℝ => d + x 0) fun _ _ => 1) (fun _ => True) fun x : Fin 1 → ℝ => d + x 0 :=
    fun d s xs _ => ⟨s, rfl, trivial⟩
  have hev0 : Values (gradEv (fun x : Fin 1 → ℝ => x 0) fun _ _ => 1) (fun _ => True) fun x : Fin 1 → ℝ => x 0 :=
    fun s xs _ => ⟨s, rfl, trivial⟩
  have hA : ∀ d : ℝ, MeasurableSet {u : Fin 1 → ℝ | d + uToX ⟨1, 1⟩ (fun _ => m) u 0 ≤ 0} := fun d => by
    simp only [std_uToX hm]; exact measurableSet_le (by fun_prop) measurable_const
  have hp : ∀ d : ℝ, (stdGauss 1).real {u : Fin 1 → ℝ | d + u 0 ≤ 0} = StdNormal.cdf (-d) := by
    intro d
    haveI : IsProbabilityMeasure (stdGauss 1) := by unfold stdGauss; infer_instance
    have h1 := halfspace_lt (n := 1) (fun _ => -1) (by simp) (-d)
    have e : {u : Fin 1 → ℝ | d + u 0 ≤ 0} = {u : Fin 1 → ℝ | -d + ∑ i, (-1 : ℝ) * u i < 0}ᶜ := by
      ext u
      simp only [mem_setOf_eq, mem_compl_iff, not_lt, Fin.sum_univ_one]
      constructor <;> intro h <;> linarith
    rw [e, probReal_compl_eq_one_sub (measurableSet_lt (by fun_prop) measurable_const), h1]
    simp only [Fin.sum_univ_one]
    norm_num
    rw [StdNormal.cdf_neg]
  have hA0 : MeasurableSet {u : Fin 1 → ℝ | uToX ⟨1, 1⟩ (fun _ => m) u 0 ≤ 0} := by simpa using hA 0
  have hp0 : (stdGauss 1).real {u : Fin 1 → ℝ | uToX ⟨1, 1⟩ (fun _ => m) u 0 ≤ 0} = 1/2 := by
    have := hp 0
    simpa [std_uToX hm, StdNormal.cdf_zero] using this
  refine ⟨m, hm, fun υ fuel => ?_, fun υ fuel => ?_, fun υ fuel => ?_, ?_⟩
  · have h := C125_law (t := ⟨1, 1⟩) (marg := fun _ => m) (opt := ⟨100, 1000, 0.1, 1⟩) hev0 hA0 (by norm_num) (by norm_num) (by norm_num)
      (by norm_num) υ fuel () trivial 40 (by norm_num)
    simp only [hp0] at h
    exact h
  · have h := C125_frequent (t := ⟨1, 1⟩) (marg := fun _ => m) (opt := ⟨100, 1000, 0.1, 1⟩) hev0 hA0 (by norm_num) (by norm_num) (by norm_num)
      (by norm_num) υ fuel () trivial (ε := 0.3) (by norm_num) (by rw [hp0]; norm_num)
    simp only [hp0] at h
    exact h
  · have hle : StdNormal.cdf (-3) ≤ 0.049 := by
      have h1 := cdf_neg_le_half_exp (x := 3) (by norm_num)
      have h2 : (10.5:ℝ) ≤ Real.exp 4.5 := by
        have := Real.quadratic_le_exp_of_nonneg (x := 4.5) (by norm_num)
        norm_num at this ⊢
        linarith
      have h3 : Real.exp (-(3 ^ 2) / 2) ≤ 1 / 10.5 := by
        rw [show (-(3:ℝ) ^ 2) / 2 = -4.5 by norm_num, Real.exp_neg, ← one_div]
        exact one_div_le_one_div_of_le (by norm_num) h2
      norm_num at h3 ⊢
      linarith
    exact C125_rare (t := ⟨1, 1⟩) (marg := fun _ => m) (opt := ⟨10000, 1000, 0.1, 1⟩) (hev 3) (hA 3) (by norm_num) (by norm_num) (by norm_num)
      (by norm_num) υ fuel () trivial (ε := 0.05) (by norm_num) (by
        simp only [std_uToX hm, hp]
        norm_num at hle ⊢
        linarith)
  · obtain ⟨ω, hω⟩ : ∃ ω : ℕ → ℝ, ω = fun k => if k % 2 = 0 then -1 else 1 := ⟨_, rfl⟩
    have hd : ∀ j : Fin 4, uToX ⟨1, 1⟩ (fun _ => m) (mcDraw ω 1 4 4 0 j) 0 = ω j := by
      intro j
      rw [std_uToX hm]
      unfold mcDraw
      rw [Nat.div_eq_of_lt j.2, Nat.mod_eq_of_lt j.2]
      simp
    have hK : Set.ncard {j : Fin 4 | uToX ⟨1, 1⟩ (fun _ => m) (mcDraw ω 1 4 4 0 j) 0 ≤ 0} = 2 := by
      rw [show {j : Fin 4 | uToX ⟨1, 1⟩ (fun _ => m) (mcDraw ω 1 4 4 0 j) 0 ≤ 0} = (({0, 2} : Finset (Fin 4)) : Set (Fin 4)) by
        ext j
        rw [mem_setOf_eq, hd, hω]
        fin_cases j <;> norm_num <;> decide, Set.ncard_coe_finset]
      rfl
    obtain ⟨h1, -⟩ := C125_one_level (t := ⟨1, 1⟩) (marg := fun _ => m) (opt := ⟨4, 1000, 0.1, 1⟩) hev0 (by norm_num) (by norm_num) (by norm_num)
      (by norm_num) ω (fun _ => 0) 0 () trivial
    dsimp only at h1
    rw [hK] at h1
    obtain ⟨r, hr, hl, hq⟩ := h1 (by norm_num)
    norm_num at hq
    obtain ⟨c, hc, -, hcb⟩ := C125_crude (t := ⟨1, 1⟩) (marg := fun _ => m) (opt := ⟨4, 1000, 0.1, 1⟩) hev0 (by norm_num) (by norm_num) (by norm_num)
      (by norm_num) ⟨4, 1000, 1, 0, 0⟩ rfl rfl le_rfl rfl (by norm_num) ω (fun _ => 0) 0 4 le_rfl () () trivial trivial r hr hl
    obtain ⟨e, b, hb1, hb2⟩ := hcb (fun j => by
      rw [hd, hω]
      fin_cases j <;> norm_num) (by rw [hq]; norm_num)
    obtain ⟨-, -, -, -, hcov, -⟩ := C125_numbers (t := ⟨1, 1⟩) (marg := fun _ => m) (opt := ⟨4, 1000, 0.1, 1⟩) hev0 (by norm_num) (by norm_num)
      (by norm_num) (by norm_num) ω (fun _ => 0) 0 () trivial r hr
    refine ⟨ω, r, c, b, hr, hc, hq, by rw [e, hq], ?_, hb1, hb2⟩
    rw [hcov hl, hq]
    norm_num

end Pystra.Props
