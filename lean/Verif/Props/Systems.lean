import Verif.Props.MonteCarlo
import Verif.Props.FormLinear

/-! C101: simulations of several limit states with the same draws. -/

namespace Pystra.Props
open Spec Transformation Form
open MonteCarlo (Result)

variable {σ : Type} {n : ℕ}

theorem summand_mono {t : Mats n} {marg : Fin n → Marginal} {f f' : (Fin n → ℝ) → ℝ} (h : ∀ x, f x < 0 → f' x < 0)
    {opt : MonteCarlo.Options} (hs : 0 < opt.stdv)
    (c : Fin n → ℝ) (ω : ℕ → ℝ) (pos j : ℕ) : summand t marg f opt c ω pos j ≤ summand t marg f' opt c ω pos j := by
  rw [summand_indicator hs, summand_indicator hs]
  exact Set.indicator_le_indicator_of_subset (fun u hu => h _ hu) (fun u => MonteCarlo.weight_nonneg hs c u) _

/-- C101: whatever fails for `f` fails for `f'` (for instance `f' ≤ f`): with the same draws, and a fixed number of samples, the
estimate for `f'` is at least that for `f`, and its index at most that for `f`. -/
theorem C101_monotone {t : Mats n} {marg : Fin n → Marginal} {ev ev' : Evaluator σ n} {P P' : σ → Prop} {f f' : (Fin n → ℝ) → ℝ}
    (hev : Values ev P f) (hev' : Values ev' P' f') (h : ∀ x, f x < 0 → f' x < 0)
    {opt : MonteCarlo.Options} (hg : opt.randomGenerator = 0) (hb : 1 ≤ opt.blockSize)
    (hN : 1 ≤ opt.samples) (hs : 0 < opt.stdv) (hcov : opt.cov ≤ 0) (point : Option (Fin n → ℝ)) (ω : ℕ → ℝ)
    (pos fuel : ℕ) (hf : opt.samples ≤ fuel) {s s' : σ} (hP : P s) (hP' : P' s') :
    ∃ r r', MonteCarlo.run t marg ev opt point ω pos fuel s = some (.ok r) ∧
      MonteCarlo.run t marg ev' opt point ω pos fuel s' = some (.ok r') ∧ r.Pf ≤ r'.Pf ∧
      (0 < r.Pf → r'.Pf < 1 → ∃ b b', r.beta = .fin b ∧ r'.beta = .fin b' ∧ b' ≤ b) := by
  obtain ⟨r, h1, h2, h3⟩ := run_full (t := t) (marg := marg) hev hg hb hN hs hcov point ω pos fuel hf s hP
  obtain ⟨r', h1', h2', h3'⟩ := run_full (t := t) (marg := marg) hev' hg hb hN hs hcov point ω pos fuel hf s' hP'
  have hle : r.Pf ≤ r'.Pf := by
    rw [h3, h3']
    exact div_le_div_of_nonneg_right (Finset.sum_le_sum fun j _ => summand_mono h hs _ _ _ _) (Nat.cast_nonneg _)
  refine ⟨r, r', h1, h1', hle, fun hp hq => ?_⟩
  obtain ⟨q, g1, -, -, -, -, g6, -⟩ := C37_run (t := t) (marg := marg) hev hg hb hN hs point ω pos fuel hf s hP
  obtain ⟨q', g1', -, -, -, -, g6', -⟩ := C37_run (t := t) (marg := marg) hev' hg hb hN hs point ω pos fuel hf s' hP'
  rw [h1] at g1
  rw [h1'] at g1'
  injection g1 with g1; injection g1 with g1; subst g1
  injection g1' with g1'; injection g1' with g1'; subst g1'
  obtain ⟨b, hb1, hb2⟩ := g6 hp (hle.trans_lt hq)
  obtain ⟨b', hb1', hb2'⟩ := g6' (hp.trans_le hle) hq
  refine ⟨b, b', hb1, hb1', ?_⟩
  rw [← hb2, ← hb2'] at hle
  exact neg_le_neg_iff.1 (StdNormal.strictMono_cdf.le_iff_le.1 hle)

/-- C101: with the same draws and a fixed number of samples, the estimates for the series system `min(f, g)` and the parallel system
`max(f, g)` of two limit states add up to those of the two. -/
theorem C101_inclusion_exclusion {t : Mats n} {marg : Fin n → Marginal} {ev ev' evs evp : Evaluator σ n} {P P' Ps Pp : σ → Prop}
    {f g : (Fin n → ℝ) → ℝ} (hev : Values ev P f) (hev' : Values ev' P' g) (hevs : Values evs Ps fun x => min (f x) (g x))
    (hevp : Values evp Pp fun x => max (f x) (g x)) {opt : MonteCarlo.Options} (hg : opt.randomGenerator = 0)
    (hb : 1 ≤ opt.blockSize) (hN : 1 ≤ opt.samples) (hs : 0 < opt.stdv) (hcov : opt.cov ≤ 0) (point : Option (Fin n → ℝ)) (ω : ℕ → ℝ)
    (pos fuel : ℕ) (hf : opt.samples ≤ fuel) {s s' ss sp : σ} (hP : P s) (hP' : P' s') (hPs : Ps ss) (hPp : Pp sp) :
    ∃ r r' rs rp, MonteCarlo.run t marg ev opt point ω pos fuel s = some (.ok r) ∧
      MonteCarlo.run t marg ev' opt point ω pos fuel s' = some (.ok r') ∧
      MonteCarlo.run t marg evs opt point ω pos fuel ss = some (.ok rs) ∧
      MonteCarlo.run t marg evp opt point ω pos fuel sp = some (.ok rp) ∧ rs.Pf + rp.Pf = r.Pf + r'.Pf := by
  obtain ⟨r, h1, h2, h3⟩ := run_full (t := t) (marg := marg) hev hg hb hN hs hcov point ω pos fuel hf s hP
  obtain ⟨r', h1', h2', h3'⟩ := run_full (t := t) (marg := marg) hev' hg hb hN hs hcov point ω pos fuel hf s' hP'
  obtain ⟨rs, i1, i2, i3⟩ := run_full (t := t) (marg := marg) hevs hg hb hN hs hcov point ω pos fuel hf ss hPs
  obtain ⟨rp, j1, j2, j3⟩ := run_full (t := t) (marg := marg) hevp hg hb hN hs hcov point ω pos fuel hf sp hPp
  refine ⟨r, r', rs, rp, h1, h1', i1, j1, ?_⟩
  rw [h3, h3', i3, j3, ← add_div, ← add_div, ← Finset.sum_add_distrib, ← Finset.sum_add_distrib]
  congr 1
  refine Finset.sum_congr rfl fun j _ => ?_
  simp only [summand, min_lt_iff, max_lt_iff]
  by_cases ha : f (uToX t marg (mcSample opt.stdv (point.getD fun _ => 0) ω opt.blockSize opt.samples pos j)) < 0 <;>
    by_cases hb : g (uToX t marg (mcSample opt.stdv (point.getD fun _ => 0) ω opt.blockSize opt.samples pos j)) < 0 <;>
    simp [ha, hb]

/-- C101: a series system fails when one of its components does.  With the same draws and a fixed number of samples its estimate lies
between the largest and the sum of those of the components. -/
theorem C101_series {ι : Type} [Fintype ι] {t : Mats n} {marg : Fin n → Marginal} {ev : ι → Evaluator σ n} {evs : Evaluator σ n}
    {P : ι → σ → Prop} {Ps : σ → Prop} {f : ι → (Fin n → ℝ) → ℝ} {fs : (Fin n → ℝ) → ℝ} (hev : ∀ i, Values (ev i) (P i) (f i))
    (hevs : Values evs Ps fs) (hsys : ∀ x, fs x < 0 ↔ ∃ i, f i x < 0) {opt : MonteCarlo.Options} (hg : opt.randomGenerator = 0)
    (hb : 1 ≤ opt.blockSize) (hN : 1 ≤ opt.samples) (hs : 0 < opt.stdv) (hcov : opt.cov ≤ 0) (point : Option (Fin n → ℝ)) (ω : ℕ → ℝ)
    (pos fuel : ℕ) (hf : opt.samples ≤ fuel) {s : ι → σ} {ss : σ} (hP : ∀ i, P i (s i)) (hPs : Ps ss) :
    ∃ (r : ι → Result σ n) (rs : Result σ n), (∀ i, MonteCarlo.run t marg (ev i) opt point ω pos fuel (s i) = some (.ok (r i))) ∧
      MonteCarlo.run t marg evs opt point ω pos fuel ss = some (.ok rs) ∧
      (∀ i, (r i).Pf ≤ rs.Pf) ∧ rs.Pf ≤ ∑ i, (r i).Pf := by
  choose r h1 h2 h3 using fun i => run_full (t := t) (marg := marg) (hev i) hg hb hN hs hcov point ω pos fuel hf (s i) (hP i)
  obtain ⟨rs, i1, i2, i3⟩ := run_full (t := t) (marg := marg) hevs hg hb hN hs hcov point ω pos fuel hf ss hPs
  refine ⟨r, rs, h1, i1, fun i => ?_, ?_⟩
  · rw [h3, i3]
    exact div_le_div_of_nonneg_right (Finset.sum_le_sum fun j _ => summand_mono (fun x hx => (hsys x).2 ⟨i, hx⟩) hs _ _ _ _)
      (Nat.cast_nonneg _)
  · rw [i3, Finset.sum_congr rfl fun i _ => h3 i, ← Finset.sum_div, Finset.sum_comm]
    refine div_le_div_of_nonneg_right (Finset.sum_le_sum fun j _ => ?_) (Nat.cast_nonneg _)
    by_cases hx : fs (uToX t marg (mcSample opt.stdv (point.getD fun _ => 0) ω opt.blockSize opt.samples pos j)) < 0
    · obtain ⟨i, hi⟩ := (hsys _).1 hx
      refine le_trans (le_of_eq ?_) (Finset.single_le_sum (f := fun i => summand t marg (f i) opt (point.getD fun _ => 0) ω pos j)
        (fun i _ => summand_nonneg hs) (Finset.mem_univ i))
      simp only [summand, hx, hi]
    · have : summand t marg fs opt (point.getD fun _ => 0) ω pos j = 0 := by simp only [summand, hx, if_false]
      rw [this]
      exact Finset.sum_nonneg fun i _ => summand_nonneg hs

/-- C101: a parallel system fails when all of its components do.  With the same draws and a fixed number of samples of a crude Monte
Carlo simulation its estimate is at most the smallest of those of the components, and its complement at most the sum of theirs. -/
theorem C101_parallel {ι : Type} [Fintype ι] {t : Mats n} {marg : Fin n → Marginal} {ev : ι → Evaluator σ n} {evp : Evaluator σ n}
    {P : ι → σ → Prop} {Pp : σ → Prop} {f : ι → (Fin n → ℝ) → ℝ} {fp : (Fin n → ℝ) → ℝ} (hev : ∀ i, Values (ev i) (P i) (f i))
    (hevp : Values evp Pp fp) (hsys : ∀ x, fp x < 0 ↔ ∀ i, f i x < 0) {opt : MonteCarlo.Options} (hg : opt.randomGenerator = 0)
    (hb : 1 ≤ opt.blockSize) (hN : 1 ≤ opt.samples) (hs : opt.stdv = 1) (hcov : opt.cov ≤ 0) (ω : ℕ → ℝ)
    (pos fuel : ℕ) (hf : opt.samples ≤ fuel) {s : ι → σ} {sp : σ} (hP : ∀ i, P i (s i)) (hPp : Pp sp) :
    ∃ (r : ι → Result σ n) (rp : Result σ n), (∀ i, MonteCarlo.run t marg (ev i) opt none ω pos fuel (s i) = some (.ok (r i))) ∧
      MonteCarlo.run t marg evp opt none ω pos fuel sp = some (.ok rp) ∧
      (∀ i, rp.Pf ≤ (r i).Pf) ∧ 1 - rp.Pf ≤ ∑ i, (1 - (r i).Pf) := by
  have hs' : 0 < opt.stdv := by rw [hs]; exact one_pos
  choose r h1 h2 h3 using fun i => run_full (t := t) (marg := marg) (hev i) hg hb hN hs' hcov none ω pos fuel hf (s i) (hP i)
  obtain ⟨rp, i1, i2, i3⟩ := run_full (t := t) (marg := marg) hevp hg hb hN hs' hcov none ω pos fuel hf sp hPp
  have hN0 : (opt.samples : ℝ) ≠ 0 := Nat.cast_ne_zero.2 (by omega)
  have hone : ∀ (f : (Fin n → ℝ) → ℝ) (j : Fin opt.samples), summand t marg f opt ((none : Option (Fin n → ℝ)).getD fun _ => 0) ω pos j =
      Set.indicator {u | f (uToX t marg u) < 0} (fun _ => 1) (mcSample opt.stdv ((none : Option (Fin n → ℝ)).getD fun _ => 0) ω
        opt.blockSize opt.samples pos j) := by
    intro f j
    rw [summand_indicator hs']
    have hw : MonteCarlo.weight (n := n) 1 (fun _ => 0) = fun _ => 1 := funext C38_unit_weights
    simp only [Option.getD_none, hs, hw]
    rfl
  have hcompl : ∀ q : Fin opt.samples → ℝ, 1 - (∑ j, q j) / opt.samples = (∑ j, (1 - q j)) / opt.samples := by
    intro q
    rw [Finset.sum_sub_distrib]
    simp only [Finset.sum_const, Finset.card_univ, Fintype.card_fin, nsmul_eq_mul, mul_one]
    field_simp
  refine ⟨r, rp, h1, i1, fun i => ?_, ?_⟩
  · rw [h3, i3]
    exact div_le_div_of_nonneg_right (Finset.sum_le_sum fun j _ => summand_mono (fun x hx => (hsys x).1 hx i) hs' _ _ _ _)
      (Nat.cast_nonneg _)
  · have he : ∀ i, 1 - (r i).Pf = (∑ j : Fin opt.samples,
        (1 - summand t marg (f i) opt ((none : Option (Fin n → ℝ)).getD fun _ => 0) ω pos j)) / opt.samples := fun i => by
      rw [h3 i, hcompl]
    rw [i3, hcompl, Finset.sum_congr rfl fun i _ => he i, ← Finset.sum_div, Finset.sum_comm]
    refine div_le_div_of_nonneg_right (Finset.sum_le_sum fun j _ => ?_) (Nat.cast_nonneg _)
    have hnn : ∀ i, 0 ≤ 1 - summand t marg (f i) opt ((none : Option (Fin n → ℝ)).getD fun _ => 0) ω pos j := by
      intro i
      rw [hone]
      unfold Set.indicator
      split <;> norm_num
    by_cases hx : fp (uToX t marg (mcSample opt.stdv ((none : Option (Fin n → ℝ)).getD fun _ => 0) ω opt.blockSize opt.samples pos j)) < 0
    · have : summand t marg fp opt ((none : Option (Fin n → ℝ)).getD fun _ => 0) ω pos j = 1 := by
        rw [hone, Set.indicator_of_mem (by exact hx)]
      rw [this, sub_self]
      exact Finset.sum_nonneg fun i _ => hnn i
    · obtain ⟨i, hi⟩ := not_forall.1 (mt (hsys _).2 hx)
      refine le_trans (le_of_eq ?_) (Finset.single_le_sum
        (f := fun i => 1 - summand t marg (f i) opt ((none : Option (Fin n → ℝ)).getD fun _ => 0) ω pos j)
        (fun i _ => hnn i) (Finset.mem_univ i))
      simp only [summand, hx, hi, if_false]

/-- C101, finding: with a positive target the two simulations may stop after different numbers of samples, and the limit state that
fails more often can get the smaller estimate.  Samples in blocks of three, target 0.5, six samples of a standard normal variable:
`x + 1.5` fails in two of the first three samples, and the simulation stops with 2/3; `x` fails in all of the first three, whose
coefficient of variation (0) is taken as 1, and in none of the next three: 1/2. -/
theorem C101_early_stopping : ∃ (m : Marginal) (ω : ℕ → ℝ) (r r' : Result Unit 1), Normal.new 0 (.fin 1) none = .ok m ∧
    MonteCarlo.run (n := 1) ⟨1, 1⟩ (fun _ => m) (⟨fun s _ => (s, .error .typeError), fun s xs => (s, .ok (xs.map fun x => x 0 + 1.5))⟩ :
      Evaluator Unit 1) ⟨6, 3, 1, 0.5, 0⟩ none ω 0 6 () = some (.ok r) ∧
    MonteCarlo.run (n := 1) ⟨1, 1⟩ (fun _ => m) (⟨fun s _ => (s, .error .typeError), fun s xs => (s, .ok (xs.map fun x => x 0))⟩ :
      Evaluator Unit 1) ⟨6, 3, 1, 0.5, 0⟩ none ω 0 6 () = some (.ok r') ∧ r.Pf = 2 / 3 ∧ r'.Pf = 1 / 2 := by
  obtain ⟨m, hm⟩ : ∃ m, Normal.new 0 (.fin (1 : ℝ)) none = .ok m := ⟨_, rfl⟩
  have hu := (normal_ok hm).1
  obtain ⟨ω, hω⟩ : ∃ ω : ℕ → ℝ, ω = fun k => if k ≤ 1 then -2 else if k ≤ 2 then -1 else 1 := ⟨_, rfl⟩
  have hd : ∀ u, normalDensity (fun _ : Fin 1 => (0:ℝ)) 1 u / normalDensity (fun _ => 0) 1 u = 1 := fun u =>
    div_self (MonteCarlo.normalDensity_pos _ one_pos _).ne'
  have hdraw : ∀ j, j < 6 → mcSample 1 (fun _ : Fin 1 => (0:ℝ)) ω 3 6 0 j = fun _ => ω j := by
    intro j hj
    funext r
    have hr : r.val = 0 := by omega
    simp only [mcSample, mcDraw, hr]
    have : 0 + 1 * (3 * (j / 3)) + 0 * min 3 (6 - 3 * (j / 3)) + j % 3 = j := by omega
    rw [this]; ring
  have hsum : ∀ f : (Fin 1 → ℝ) → ℝ, ∀ j, j < 6 →
      summand ⟨1, 1⟩ (fun _ => m) f ⟨6, 3, 1, 0.5, 0⟩ ((none : Option (Fin 1 → ℝ)).getD fun _ => 0) ω 0 j =
        open Classical in if f (fun _ => ω j) < 0 then 1 else 0 := by
    intro f j hj
    simp only [summand, Option.getD_none]
    rw [hdraw j hj]
    have hux : uToX (n := 1) ⟨1, 1⟩ (fun _ => m) (fun _ => ω j) = fun _ => ω j := by
      funext i
      simp [uToX, hu, Normal.uToX]
    rw [hux, hd]
  have h3 : ∀ q : ℕ → ℝ, ∑ j ∈ Finset.range 3, q j = q 0 + q 1 + q 2 := fun q => by simp [Finset.sum_range_succ]
  have h6 : ∀ q : ℕ → ℝ, ∑ j ∈ Finset.range 6, q j = q 0 + q 1 + q 2 + q 3 + q 4 + q 5 := fun q => by simp [Finset.sum_range_succ]
  obtain ⟨r, h1, k1, k2, p1, -, -, -, c1, c2, c3⟩ := C37_run (t := ⟨1, 1⟩) (marg := fun _ => m)
    (ev := (⟨fun s _ => (s, .error .typeError), fun s xs => (s, .ok (xs.map fun x => x 0 + 1.5))⟩ : Evaluator Unit 1))
    (P := fun _ => True) (f := fun x : Fin 1 → ℝ => x 0 + 1.5) (fun s _ xs => ⟨s, rfl, trivial⟩) (opt := ⟨6, 3, 1, 0.5, 0⟩) rfl
    (by norm_num) (by norm_num) (by norm_num) none ω 0 6 le_rfl () trivial
  obtain ⟨r', h1', k1', k2', p1', -, -, -, c1', c2', c3'⟩ := C37_run (t := ⟨1, 1⟩) (marg := fun _ => m)
    (ev := (⟨fun s _ => (s, .error .typeError), fun s xs => (s, .ok (xs.map fun x => x 0))⟩ : Evaluator Unit 1))
    (P := fun _ => True) (f := fun x : Fin 1 → ℝ => x 0) (fun s _ xs => ⟨s, rfl, trivial⟩) (opt := ⟨6, 3, 1, 0.5, 0⟩) rfl
    (by norm_num) (by norm_num) (by norm_num) none ω 0 6 le_rfl () trivial
  have w0 : ω 0 = -2 := by simp [hω]
  have w1 : ω 1 = -2 := by simp [hω]
  have w2 : ω 2 = -1 := by simp [hω]
  have w3 : ω 3 = 1 := by simp [hω]
  have w4 : ω 4 = 1 := by simp [hω]
  have w5 : ω 5 = 1 := by simp [hω]
  have a0 : summand ⟨1, 1⟩ (fun _ => m) (fun x => x 0 + 1.5) ⟨6, 3, 1, 0.5, 0⟩ ((none : Option (Fin 1 → ℝ)).getD fun _ => 0) ω 0 0 = 1 := by
    rw [hsum _ 0 (by norm_num), w0]; norm_num
  have a1 : summand ⟨1, 1⟩ (fun _ => m) (fun x => x 0 + 1.5) ⟨6, 3, 1, 0.5, 0⟩ ((none : Option (Fin 1 → ℝ)).getD fun _ => 0) ω 0 1 = 1 := by
    rw [hsum _ 1 (by norm_num), w1]; norm_num
  have a2 : summand ⟨1, 1⟩ (fun _ => m) (fun x => x 0 + 1.5) ⟨6, 3, 1, 0.5, 0⟩ ((none : Option (Fin 1 → ℝ)).getD fun _ => 0) ω 0 2 = 0 := by
    rw [hsum _ 2 (by norm_num), w2]; norm_num
  have b : ∀ j, j < 6 → summand ⟨1, 1⟩ (fun _ => m) (fun x => x 0) ⟨6, 3, 1, 0.5, 0⟩ ((none : Option (Fin 1 → ℝ)).getD fun _ => 0) ω 0 j =
      if j < 3 then 1 else 0 := by
    intro j hj
    rw [hsum _ j hj]
    interval_cases j <;> simp only [w0, w1, w2, w3, w4, w5] <;> norm_num
  have v1 : cvOfMean 3 2 2 ≤ 0.5 := by
    unfold cvOfMean
    rw [if_pos (by norm_num)]
    have : √((2 / ((3 : ℕ) : ℝ) - (2 / ((3 : ℕ) : ℝ)) ^ 2) / ((3 : ℕ) : ℝ)) / (2 / ((3 : ℕ) : ℝ)) ≤ 0.5 := by
      rw [div_le_iff₀ (by norm_num)]
      apply Real.sqrt_le_iff.2
      norm_num
    have hp : 0 < √((2 / ((3 : ℕ) : ℝ) - (2 / ((3 : ℕ) : ℝ)) ^ 2) / ((3 : ℕ) : ℝ)) / (2 / ((3 : ℕ) : ℝ)) :=
      div_pos (Real.sqrt_pos.2 (by norm_num)) (by norm_num)
    dsimp only
    rw [if_neg hp.ne']
    exact this
  have v2 : cvOfMean 3 3 3 = 1 := by
    unfold cvOfMean
    rw [if_pos (by norm_num)]
    dsimp only
    rw [if_pos (by norm_num)]
  refine ⟨m, ω, r, r', hm, h1, h1', ?_, ?_⟩
  · have hk : r.st.k = 3 := by
      by_contra hne
      have hlt : 3 < r.st.k := by
        rcases c2 with h | ⟨⟨a, ha⟩, -⟩
        · rw [h]; norm_num
        · simp only at ha; omega
      have hc3 := c3 1 le_rfl (by simpa using hlt)
      simp only [one_mul, h3, a0, a1, a2] at hc3
      norm_num at hc3
      have v1' : cvOfMean 3 2 2 ≤ 1 / 2 := by norm_num at v1 ⊢; exact v1
      norm_num at v1'
      linarith
    rw [p1, hk]
    simp only [h3, a0, a1, a2]
    norm_num
  · have hk : r'.st.k = 6 := by
      rcases c2' with h | ⟨⟨a, ha⟩, hc⟩
      · exact h
      · by_contra hne
        have h3k : r'.st.k = 3 := by simp only at ha k2'; omega
        rw [c1', h3k] at hc
        simp only [h3, b 0 (by norm_num), b 1 (by norm_num), b 2 (by norm_num)] at hc
        norm_num [v2] at hc
    rw [p1', hk]
    simp only [h6, b 0 (by norm_num), b 1 (by norm_num), b 2 (by norm_num), b 3 (by norm_num), b 4 (by norm_num), b 5 (by norm_num)]
    norm_num

/-- Two components, `3 - x₀` and `2 + x₁` with the user's function called through `lsEvaluator`: the hypotheses of C101 are met by the
evaluator of the code, for every model of two variables `x₀`, `x₁`. -/
example {D : Type} (d0 d1 : D) (lo : LSOptions) (hbs : 1 ≤ lo.blockSize) (hmp : lo.multiProc ≠ 0) (expr : Bool → Kwargs → GRet)
    (exprs : Kwargs → GRet) (h0 : ∀ i, Pointwise (expr i) fun a => if i then 3 - (a.get? "x0").getD 0 else 2 + (a.get? "x1").getD 0)
    (hs : Pointwise exprs fun a => min (3 - (a.get? "x0").getD 0) (2 + (a.get? "x1").getD 0)) (t : Mats 2) (marg : Fin 2 → Marginal)
    (stdv : Fin 2 → ℝ) (ω : ℕ → ℝ) :
    let m : StochModel D ℝ := StochModel.init.run [.add (.distribution ⟨"x0", d0⟩), .add (.distribution ⟨"x1", d1⟩)]
    ∃ (r : Bool → Result (Ev D) 2) (rs : Result (Ev D) 2),
      (∀ i, MonteCarlo.run t marg (lsEvaluator (expr i) lo stdv) ⟨1000, 100, 1, 0, 0⟩ none ω 0 1000 ⟨m, []⟩ = some (.ok (r i))) ∧
      MonteCarlo.run t marg (lsEvaluator exprs lo stdv) ⟨1000, 100, 1, 0, 0⟩ none ω 0 1000 ⟨m, []⟩ = some (.ok rs) ∧
      (∀ i, (r i).Pf ≤ rs.Pf) ∧ rs.Pf ≤ ∑ i, (r i).Pf := by
  intro m
  have hn : m.nMarg ≤ 2 := by
    simp [m, StochModel.run, StochModel.step, StochModel.addVariable, StochModel.init, StochModel.nMarg]
  have hne : m.getNames ≠ [] := by
    simp [m, StochModel.run, StochModel.step, StochModel.addVariable, StochModel.init, StochModel.getNames]
  refine C101_series (P := fun _ s => ∃ k, s.model = m.addCallFunction k) (Ps := fun s => ∃ k, s.model = m.addCallFunction k)
    (fun i => ls_values (h0 i) lo hbs hmp stdv m ⟨_, rfl⟩ hn hne) (ls_values hs lo hbs hmp stdv m ⟨_, rfl⟩ hn hne)
    (fun x => ?_) rfl (by norm_num) (by norm_num) (by norm_num) (by norm_num) none ω 0 1000 le_rfl (fun _ => ⟨0, rfl⟩) ⟨0, rfl⟩
  rw [min_lt_iff]
  constructor
  · rintro (h | h)
    · exact ⟨true, by simpa using h⟩
    · exact ⟨false, by simpa using h⟩
  · rintro ⟨i, h⟩
    cases i
    · exact Or.inr (by simpa using h)
    · exact Or.inl (by simpa using h)

end Pystra.Props
