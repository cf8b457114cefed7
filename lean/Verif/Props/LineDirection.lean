import Verif.Props.ConvergenceLine
import Verif.Props.LineCost

/-! C130: line sampling along a direction that the limit state ignores. -/

namespace Pystra.Props
open Spec Transformation Form LineSampling Matrix MeasureTheory ProbabilityTheory

variable {σ : Type} {n : ℕ}

section
variable {t : Mats n} {marg : Fin n → Marginal} {ev : Evaluator σ n} {P : σ → Prop}

/-- On a line along which the limit state is constant the far end of the scan is reported. -/
theorem constant_line {f : (Fin n → ℝ) → ℝ} (hev : PointValues ev P (fun x => some (f x))) (v alpha : Fin n → ℝ) (cInit y : ℝ)
    (hy : ∀ c : ℝ, f (uToX t marg (fun i => v i + c * alpha i)) = y) (s : σ) (hs : P s) :
    (findLine t marg ev v alpha cInit s).2 =
      if y ≤ 0 then -max (|cInit| * 3 + 5) 15 else max (|cInit| * 3 + 5) 15 := by
  classical
  obtain ⟨-, -, h1, h2⟩ := C44_location (t := t) (marg := marg) hev v alpha cInit s hs
  set m : ℝ := max (|cInit| * 3 + 5) 15 with hm
  set h := onLine t marg (fun x => some (f x)) v alpha with hh
  have hc : ∀ c, h c = some y := fun c => congrArg some (hy c)
  have hSF : ∀ a b, ¬ SafeToFail h a b := by
    rintro a b ⟨z, z', h3, h4, h5, h6⟩
    rw [hc, Option.some.injEq] at h3 h4
    linarith
  obtain ⟨h3, h4⟩ := h2 fun i _ => hSF _ _
  rcases lt_trichotomy y 0 with hy0 | hy0 | hy0
  · rw [if_pos hy0.le]
    rcases h4 (by
      rintro i _ ⟨z, z', h5, h6, h7⟩
      rw [hc, Option.some.injEq] at h5 h6
      rw [← h5, ← h6] at h7
      linarith [mul_pos_of_neg_of_neg hy0 hy0]) with h5 | h5
    · exact h5.1
    · have := h5.2 0 (by norm_num) y (hc _) (by intro i hi; omega)
      linarith
  · rw [if_pos hy0.le]
    have hf := evalAt_computes (t := t) (marg := marg) hev v alpha
    have hm0 : 0 < m := lt_of_lt_of_le (by norm_num) (le_max_right _ _ : (15:ℝ) ≤ m)
    have hsc : SignChange h (scanPoint m 0) (scanPoint m (0 + 1)) := ⟨y, y, hc _, hc _, by rw [hy0]; simp⟩
    have hbr := bracket_spec h (grid m) none
    rw [pairs_eq, Option.none_or, find_none (F := fun j => (scanPoint m j, scanPoint m (j + 1)))
        (fun i hi => by simpa using hSF (scanPoint m i) (scanPoint m (i + 1))),
      find_first (F := fun j => (scanPoint m j, scanPoint m (j + 1))) (show 0 < 39 by norm_num) (by simpa using hsc)
      (fun i hi => by omega), Option.none_or] at hbr
    have hzero : ∀ s', P s' → (Brent.brentq (evalAt t marg ev v alpha) (scanPoint m 0) (scanPoint m (0 + 1)) xtol rtol 50 s').2 =
        .ok (scanPoint m 0) := by
      intro s' hs'
      unfold Brent.brentq
      rcases Brent.computes_cases hf hs' (scanPoint m 0) with ⟨s1, e, -, -, e3⟩ | ⟨s1, z, e1, e2, e3⟩
      · have e3 : h (scanPoint m 0) = none := e3
        rw [hc] at e3; cases e3
      have e3 : h (scanPoint m 0) = some z := e3
      rw [hc, Option.some.injEq] at e3
      have hz : z = 0 := e3 ▸ hy0
      simp only [e1]
      rcases Brent.computes_cases hf e2 (scanPoint m (0 + 1)) with ⟨s2, e, -, -, d3⟩ | ⟨s2, z', d1, d2, d3⟩
      · have d3 : h (scanPoint m (0 + 1)) = none := d3
        rw [hc] at d3; cases d3
      simp only [d1, if_pos hz]
    obtain ⟨-, s', hs', h5⟩ := findLine_bracket hf cInit (scanPoint_mono hm0 (Nat.le_succ 0)) hbr s hs
    rcases h5 with ⟨c, h6, h7, -⟩ | ⟨⟨e, h6⟩, -⟩
    · rw [h7]
      rw [hzero s' hs'] at h6
      injection h6 with h6
      rw [← h6, scanPoint_zero]
    · rw [hzero s' hs'] at h6
      cases h6
  · rw [if_neg (not_le.2 hy0)]
    rcases h4 (by
      rintro i _ ⟨z, z', h5, h6, h7⟩
      rw [hc, Option.some.injEq] at h5 h6
      rw [← h5, ← h6] at h7
      linarith [mul_pos hy0 hy0]) with ⟨-, j, -, z, hz, h5, -⟩ | h5
    · rw [hc, Option.some.injEq] at h5
      linarith
    · exact h5.1

/-- Mean and variance of the average of a function of the draws. -/
theorem draws_moments {X : (Fin n → ℝ) → ℝ} (hX : MemLp X 2 (stdGauss n)) {N : ℕ} (hN : 1 ≤ N) (pos : ℕ) :
    ∫ ω, (∑ j ∈ Finset.range N, X (lsDraw ω n N pos j)) / N ∂stream = ∫ u, X u ∂(stdGauss n) ∧
    Var[fun ω => (∑ j ∈ Finset.range N, X (lsDraw ω n N pos j)) / N; stream] = Var[X; stdGauss n] / N := by
  have hN' : (0:ℝ) < N := by exact_mod_cast hN
  have hint : Integrable X (stdGauss n) := hX.integrable (by norm_num)
  have hlaw := randn_law (n := n) N pos
  have hmd : Measurable (fun (ω : ℕ → ℝ) (j : Fin N) (r : Fin n) => ω (pos + r.val * N + j.val)) := by fun_prop
  have hone : ∀ j : Fin N, Integrable (fun z : Fin N → Fin n → ℝ => X (z j)) (Measure.pi (fun _ : Fin N => stdGauss n)) :=
    fun j => (measurePreserving_eval (fun _ : Fin N => stdGauss n) j).integrable_comp_of_integrable hint
  have hae : AEMeasurable (fun z : Fin N → Fin n → ℝ => ∑ j, X (z j)) (Measure.pi (fun _ : Fin N => stdGauss n)) :=
    Finset.aemeasurable_fun_sum _ fun j _ => (hone j).aemeasurable
  have hmean : ∫ z : Fin N → Fin n → ℝ, ∑ j, X (z j) ∂(Measure.pi (fun _ : Fin N => stdGauss n)) = N * ∫ u, X u ∂(stdGauss n) := by
    rw [integral_finsetSum _ fun j _ => hone j]
    have : ∀ j : Fin N, ∫ z : Fin N → Fin n → ℝ, X (z j) ∂(Measure.pi (fun _ : Fin N => stdGauss n)) = ∫ u, X u ∂(stdGauss n) := by
      intro j
      have h1 := (measurePreserving_eval (fun _ : Fin N => stdGauss n) j).map_eq
      conv_rhs => rw [← h1]
      rw [integral_map (measurable_pi_apply j).aemeasurable (by rw [h1]; exact hint.aestronglyMeasurable)]
    simp [this]
  have hvar : Var[fun z : Fin N → Fin n → ℝ => ∑ j, X (z j); Measure.pi (fun _ : Fin N => stdGauss n)] = N * Var[X; stdGauss n] := by
    have h1 : Var[∑ j : Fin N, fun z : Fin N → Fin n → ℝ => X (z j);
        Measure.pi (fun _ : Fin N => stdGauss n)] = N * Var[X; stdGauss n] := by
      rw [variance_sum_pi (X := fun _ => X) (fun _ => hX)]
      simp
    rw [← h1]
    congr 1
    funext z
    simp
  rw [← hlaw] at hmean hvar hae
  rw [integral_map hmd.aemeasurable hae.aestronglyMeasurable] at hmean
  rw [variance_map hae hmd.aemeasurable] at hvar
  have e : ∀ ω : ℕ → ℝ, (∑ j ∈ Finset.range N, X (lsDraw ω n N pos j)) / N =
      (N:ℝ)⁻¹ * ∑ j : Fin N, X (fun r => ω (pos + r.val * N + j.val)) := by
    intro ω
    rw [div_eq_inv_mul, ← Fin.sum_univ_eq_sum_range (fun j => X (lsDraw ω n N pos j))]
    rfl
  simp only [e]
  constructor
  · rw [integral_const_mul, hmean]
    field_simp
  · rw [variance_const_mul]
    have h2 : Var[fun ω : ℕ → ℝ => ∑ j : Fin N, X (fun r => ω (pos + r.val * N + j.val)); stream] = N * Var[X; stdGauss n] := hvar
    rw [h2]
    field_simp

/-- The fraction of the `N` draws from position `pos` on at which the limit state is not positive. -/
noncomputable def hitFraction (t : Mats n) (marg : Fin n → Marginal) (f : (Fin n → ℝ) → ℝ) (ω : ℕ → ℝ) (N pos : ℕ) : ℝ :=
  ∑ j ∈ Finset.range N, (if f (uToX t marg (lsDraw ω n N pos j)) ≤ 0 then (1:ℝ) else 0) / N

/-- C130: when the limit state does not change along `alpha`, line sampling is crude Monte Carlo: every line reports an end of
the scan, `-m` when the draw fails and `m` otherwise, so that `Pf` is the fraction of failing draws up to `Φ(-m)`, and the
reported coefficient of variation is that of the fraction. -/
theorem C130_direction {f : (Fin n → ℝ) → ℝ} (hev : PointValues ev P (fun x => some (f x))) (alpha : Fin n → ℝ)
    (hflat : ∀ (u : Fin n → ℝ) (c : ℝ), f (uToX t marg (fun i => u i + c * alpha i)) = f (uToX t marg u)) (betaForm : ℝ) {N : ℕ} (hN : 1 ≤ N)
    (ω : ℕ → ℝ) (pos : ℕ) (s : σ) (hs : P s) :
    let m := max (|betaForm| * 3 + 5) 15
    let r := (sample t marg ev alpha betaForm N ω pos s).2
    let p := hitFraction t marg f ω N pos
    r.c = (List.range N).map (fun j => if f (uToX t marg (lsDraw ω n N pos j)) ≤ 0 then -m else m) ∧
    r.Pf = p + (1 - 2 * p) * StdNormal.cdf (-m) ∧
    |r.Pf - p| ≤ StdNormal.cdf (-m) ∧
    r.cov = ((1 - 2 * StdNormal.cdf (-m)) * √(p * (1 - p)) / (√N * r.Pf) : ℝ) := by
  intro m r p
  obtain ⟨c, hc, hrc, -, hPf, -, -, -, -, -, hcov⟩ := C45_run (t := t) (marg := marg) hev alpha betaForm hN ω pos s hs
  have hN' : (0:ℝ) < N := by exact_mod_cast hN
  have hcj : ∀ j < N, c j = if f (uToX t marg (lsDraw ω n N pos j)) ≤ 0 then -m else m := by
    intro j hj
    obtain ⟨-, s', hs', h1⟩ := hc j hj
    rw [h1]
    refine constant_line hev _ alpha betaForm _ (fun c => ?_) s' hs'
    have h2 := hflat (lsDraw ω n N pos j) (c - ∑ k, alpha k * lsDraw ω n N pos j k)
    rw [← h2]
    congr 2
    funext i
    ring
  have hneg : StdNormal.cdf m = 1 - StdNormal.cdf (-m) := by rw [StdNormal.cdf_neg]; ring
  set q := StdNormal.cdf (-m) with hq
  have hcdf : ∀ j < N, StdNormal.cdf (-(c j)) = q + (1 - 2 * q) * (if f (uToX t marg (lsDraw ω n N pos j)) ≤ 0 then (1:ℝ) else 0) := by
    intro j hj
    rw [hcj j hj]
    split_ifs
    · rw [neg_neg, hneg]; ring
    · ring
  have hp : p * N = ∑ j ∈ Finset.range N, (if f (uToX t marg (lsDraw ω n N pos j)) ≤ 0 then (1:ℝ) else 0) := by
    simp only [p, hitFraction]
    rw [← Finset.sum_div]
    field_simp
  have hPf' : r.Pf = p + (1 - 2 * p) * q := by
    change r.Pf = _ at hPf
    rw [hPf, Finset.sum_congr rfl fun j hj => hcdf j (Finset.mem_range.1 hj), Finset.sum_add_distrib, ← Finset.mul_sum, ← hp]
    simp only [Finset.sum_const, Finset.card_range, nsmul_eq_mul]
    field_simp
    ring
  have hp0 : 0 ≤ p := Finset.sum_nonneg fun j _ => by split_ifs <;> positivity
  have hp1 : p ≤ 1 := by
    have : p * N ≤ 1 * N := by
      rw [hp, one_mul]
      calc _ ≤ ∑ j ∈ Finset.range N, (1:ℝ) := Finset.sum_le_sum fun j _ => by split_ifs <;> norm_num
        _ = N := by simp
    exact le_of_mul_le_mul_right this hN'
  have hm15 : (15:ℝ) ≤ m := le_max_right _ _
  have hq0 : 0 < q := StdNormal.cdf_pos _
  have hq1 : 2 * q ≤ 1 := by
    have h1 : q ≤ StdNormal.cdf 0 := StdNormal.strictMono_cdf.monotone (by linarith)
    rw [StdNormal.cdf_zero] at h1
    linarith
  refine ⟨?_, hPf', ?_, ?_⟩
  · change r.c = _ at hrc
    rw [hrc]
    exact List.map_congr_left fun j hj => hcj j (List.mem_range.1 hj)
  · rw [hPf', show p + (1 - 2 * p) * q - p = (1 - 2 * p) * q by ring, abs_mul, abs_of_pos hq0]
    have : |1 - 2 * p| ≤ 1 := by rw [abs_le]; constructor <;> linarith
    nlinarith
  · change r.cov = _ at hcov
    rw [hcov]
    congr 2
    have h1 : ∑ j ∈ Finset.range N, (StdNormal.cdf (-(c j)) - r.Pf) ^ 2 = (1 - 2 * q) ^ 2 * (p * (1 - p)) * N := by
      have h2 : ∀ j ∈ Finset.range N, (StdNormal.cdf (-(c j)) - r.Pf) ^ 2 =
          (1 - 2 * q) ^ 2 * p ^ 2 + (1 - 2 * q) ^ 2 * (1 - 2 * p) *
            (if f (uToX t marg (lsDraw ω n N pos j)) ≤ 0 then (1:ℝ) else 0) := by
        intro j hj
        rw [hcdf j (Finset.mem_range.1 hj), hPf']
        split_ifs <;> ring
      rw [Finset.sum_congr rfl h2, Finset.sum_add_distrib, ← Finset.mul_sum _ _ ((1 - 2 * q) ^ 2 * (1 - 2 * p)), ← hp]
      simp only [Finset.sum_const, Finset.card_range, nsmul_eq_mul]
      ring
    rw [h1, mul_div_assoc, div_self hN'.ne', mul_one, Real.sqrt_mul (sq_nonneg _), Real.sqrt_sq (by linarith)]

/-- C130: the mean and the variance of the fraction of failing draws are those of crude Monte Carlo with as many samples. -/
theorem C130_moments {f : (Fin n → ℝ) → ℝ} (hev : PointValues ev P (fun x => some (f x)))
    (hfm : Measurable (fun u => f (uToX t marg u))) (alpha : Fin n → ℝ)
    (hflat : ∀ (u : Fin n → ℝ) (c : ℝ), f (uToX t marg (fun i => u i + c * alpha i)) = f (uToX t marg u)) (betaForm : ℝ) {N : ℕ} (hN : 1 ≤ N)
    (pos : ℕ) (s : σ) (hs : P s) :
    let q := StdNormal.cdf (-max (|betaForm| * 3 + 5) 15)
    let p := (stdGauss n).real {u | f (uToX t marg u) ≤ 0}
    ∫ ω, (sample t marg ev alpha betaForm N ω pos s).2.Pf ∂stream = p + (1 - 2 * p) * q ∧
    Var[fun ω => (sample t marg ev alpha betaForm N ω pos s).2.Pf; stream] = (1 - 2 * q) ^ 2 * (p * (1 - p) / N) := by
  intro q p
  have hA : MeasurableSet {u : Fin n → ℝ | f (uToX t marg u) ≤ 0} := measurableSet_le hfm measurable_const
  set A := {u : Fin n → ℝ | f (uToX t marg u) ≤ 0} with hAd
  set I : (Fin n → ℝ) → ℝ := A.indicator (fun _ => (1:ℝ)) with hI
  have hN' : (0:ℝ) < N := by exact_mod_cast hN
  have hIm : Measurable I := measurable_const.indicator hA
  have hIL : MemLp I 2 (stdGauss n) := MemLp.of_bound hIm.aestronglyMeasurable 1 (Filter.Eventually.of_forall fun u => by
    by_cases h : u ∈ A <;> simp [hI, h])
  have hmean : ∫ u, I u ∂(stdGauss n) = p := by
    rw [hI, integral_indicator_const _ hA]; simp [p]; rfl
  have hsq : I ^ 2 = I := by
    funext u
    rw [Pi.pow_apply, hI, Set.indicator_apply]; split_ifs <;> norm_num
  have hvar : Var[I; stdGauss n] = p * (1 - p) := by
    rw [variance_eq_sub hIL, hsq, hmean]; ring
  obtain ⟨h1, h2⟩ := draws_moments hIL hN pos
  have hfrac : ∀ ω, hitFraction t marg f ω N pos = (∑ j ∈ Finset.range N, I (lsDraw ω n N pos j)) / N := by
    intro ω
    unfold hitFraction
    rw [Finset.sum_div]
    refine Finset.sum_congr rfl fun j _ => ?_
    rw [hI, Set.indicator_apply]
    rfl
  have hPf : ∀ ω, (sample t marg ev alpha betaForm N ω pos s).2.Pf =
      q + (1 - 2 * q) * ((∑ j ∈ Finset.range N, I (lsDraw ω n N pos j)) / N) := by
    intro ω
    rw [← hfrac, (C130_direction (t := t) (marg := marg) hev alpha hflat betaForm hN ω pos s hs).2.1]
    ring
  have hint : Integrable (fun ω => (∑ j ∈ Finset.range N, I (lsDraw ω n N pos j)) / N) stream := by
    refine Integrable.of_bound (C := 1) ?_ (Filter.Eventually.of_forall fun ω => ?_)
    · refine Measurable.aestronglyMeasurable ?_
      refine Measurable.div_const (Finset.measurable_sum _ fun j _ => hIm.comp ?_) _
      unfold lsDraw
      fun_prop
    · have h3 : ∀ u, 0 ≤ I u ∧ I u ≤ 1 := fun u => by
        rw [hI, Set.indicator_apply]; split_ifs <;> norm_num
      rw [Real.norm_eq_abs, abs_of_nonneg (div_nonneg (Finset.sum_nonneg fun j _ => (h3 _).1) hN'.le), div_le_one hN']
      calc _ ≤ ∑ j ∈ Finset.range N, (1:ℝ) := Finset.sum_le_sum fun j _ => (h3 _).2
        _ = N := by simp
  constructor
  · simp only [hPf]
    rw [integral_add (integrable_const _) (hint.const_mul _), integral_const_mul, h1, hmean]
    simp
    ring
  · simp only [hPf]
    rw [variance_const_add (hint.aestronglyMeasurable.const_mul _), variance_const_mul, h2, hvar]

end

/-- Two standard normal variables, limit state `2 - x₁`, direction the first axis: 100 lines give on average the probability of
failure up to `Φ(-14)`, with the variance of crude Monte Carlo. -/
example : ∃ m : Marginal, Normal.new 0 (.fin 1) none = .ok m ∧
    let ev : Evaluator Unit 2 := ⟨fun s _ => (s, .error .typeError), fun s xs => (s, .ok (xs.map (fun x => 2 - x 1)))⟩
    let q := StdNormal.cdf (-15)
    let p := (stdGauss 2).real {u | 2 - u 1 ≤ 0}
    ∫ ω, (sample (n := 2) ⟨1, 1⟩ (fun _ => m) ev ![1, 0] 3 100 ω 0 ()).2.Pf ∂stream = p + (1 - 2 * p) * q ∧
    Var[fun ω => (sample (n := 2) ⟨1, 1⟩ (fun _ => m) ev ![1, 0] 3 100 ω 0 ()).2.Pf; stream] =
      (1 - 2 * q) ^ 2 * (p * (1 - p) / (100 : ℕ)) := by
  obtain ⟨m, hm⟩ : ∃ m, Normal.new 0 (.fin (1 : ℝ)) none = .ok m := ⟨_, rfl⟩
  have hu := (normal_ok hm).1
  have hux : ∀ u : Fin 2 → ℝ, uToX (n := 2) ⟨1, 1⟩ (fun _ => m) u = u := by
    intro u; funext i; simp [uToX, hu, Normal.uToX]
  have hmax : max (|(3 : ℝ)| * 3 + 5) 15 = 15 := by rw [abs_of_pos (by norm_num)]; norm_num
  refine ⟨m, hm, ?_⟩
  intro ev q p
  have h := C130_moments (t := ⟨1, 1⟩) (marg := fun _ => m) (ev := ev) (P := fun _ => True) (f := fun x : Fin 2 → ℝ => 2 - x 1)
    (pointValues_of_values fun s xs _ => ⟨s, rfl, trivial⟩) (by simp only [hux]; fun_prop) ![1, 0]
    (by intro u c; simp only [hux]; simp) 3 (N := 100) (by norm_num) 0 () trivial
  simp only [hux, hmax] at h
  exact h

end Pystra.Props
