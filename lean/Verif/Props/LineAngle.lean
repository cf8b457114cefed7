import Verif.Props.LineDirection
import Mathlib.MeasureTheory.Group.IntegralConvolution
import Mathlib.Probability.Distributions.Gaussian.Real

/-! C130: how the angle between the direction and the gradient acts on the variance of line sampling. -/

namespace Pystra.Props
open Spec Transformation Form LineSampling Matrix MeasureTheory
open ProbabilityTheory hiding cdf

variable {n : ℕ}

/-- The distribution function of a centred normal variable of variance `k ^ 2`. -/
theorem gauss_cdf {k : ℝ} (hk : 0 < k) (x : ℝ) :
    (gaussianReal 0 (Real.toNNReal (k ^ 2))).real (Set.Iic x) = StdNormal.cdf (x / k) := by
  have h1 := map_linear_stdGauss (fun _ : Fin 1 => k)
  have h2 := halfspace_prob (fun _ : Fin 1 => k) (by simp; positivity) (-x)
  simp only [Fin.sum_univ_one] at h1 h2
  rw [Real.sqrt_sq hk.le, neg_div, neg_neg] at h2
  rw [← h2, ← h1, map_measureReal_apply (by fun_prop) measurableSet_Iic]
  congr 1
  ext u
  simp only [Set.mem_preimage, Set.mem_Iic, Set.mem_setOf_eq]
  constructor <;> intro h <;> linarith

theorem gauss_smooth {k k' : ℝ} (hk : 0 < k) (hkk : k ≤ k') (x : ℝ) :
    ∫ r, StdNormal.cdf ((x - r) / k) ∂(gaussianReal 0 (Real.toNNReal (k' ^ 2 - k ^ 2))) = StdNormal.cdf (x / k') := by
  have hd : 0 ≤ k' ^ 2 - k ^ 2 := by nlinarith
  have hconv : gaussianReal 0 (Real.toNNReal (k' ^ 2 - k ^ 2)) ∗ gaussianReal 0 (Real.toNNReal (k ^ 2)) =
      gaussianReal 0 (Real.toNNReal (k' ^ 2)) := by
    rw [gaussianReal_conv_gaussianReal, ← Real.toNNReal_add hd (sq_nonneg _), add_zero]
    congr 2
    ring
  rw [← gauss_cdf (hk.trans_le hkk), ← hconv, ← integral_indicator_one measurableSet_Iic, integral_conv]
  · refine integral_congr_ae (Filter.Eventually.of_forall fun r => ?_)
    simp only
    rw [← gauss_cdf hk, ← integral_indicator_one measurableSet_Iic]
    refine integral_congr_ae (Filter.Eventually.of_forall fun y => ?_)
    simp only [Set.indicator_apply, Set.mem_Iic, Pi.one_apply]
    congr 1
    exact propext ⟨fun h => by linarith, fun h => by linarith⟩
  · exact (integrable_const (1:ℝ)).indicator measurableSet_Iic

/-- The second moment of the line probability decreases with the share `k` of the gradient along the direction. -/
theorem second_moment_mono {k k' S b : ℝ} (hk : 0 < k) (hkk : k ≤ k') (hS : k' ^ 2 ≤ S) :
    ∫ y, StdNormal.cdf (-((b + y) / k')) ^ 2 ∂(gaussianReal 0 (Real.toNNReal (S - k' ^ 2))) ≤
    ∫ y, StdNormal.cdf (-((b + y) / k)) ^ 2 ∂(gaussianReal 0 (Real.toNNReal (S - k ^ 2))) := by
  have hd : 0 ≤ k' ^ 2 - k ^ 2 := by nlinarith
  have hS' : 0 ≤ S - k' ^ 2 := by linarith
  have hcdfm : Measurable StdNormal.cdf := StdNormal.strictMono_cdf.monotone.measurable
  have hb : ∀ x : ℝ, 0 ≤ StdNormal.cdf x ∧ StdNormal.cdf x ≤ 1 := fun x => ⟨(StdNormal.cdf_pos _).le, (StdNormal.cdf_lt_one _).le⟩
  have hconv : gaussianReal 0 (Real.toNNReal (S - k' ^ 2)) ∗ gaussianReal 0 (Real.toNNReal (k' ^ 2 - k ^ 2)) =
      gaussianReal 0 (Real.toNNReal (S - k ^ 2)) := by
    rw [gaussianReal_conv_gaussianReal, ← Real.toNNReal_add hS' hd, add_zero]
    congr 2
    ring
  have hbd : ∀ (μ : Measure ℝ) [IsProbabilityMeasure μ] (G : ℝ → ℝ), Measurable G → (∀ x, 0 ≤ G x ∧ G x ≤ 1) → Integrable G μ := by
    intro μ _ G hG h
    exact Integrable.of_bound (C := 1) hG.aestronglyMeasurable (Filter.Eventually.of_forall fun x => by
      rw [Real.norm_eq_abs, abs_of_nonneg (h x).1]; exact (h x).2)
  have hsq : ∀ x : ℝ, 0 ≤ StdNormal.cdf x ^ 2 ∧ StdNormal.cdf x ^ 2 ≤ 1 := fun x =>
    ⟨sq_nonneg _, pow_le_one₀ (hb x).1 (hb x).2⟩
  have hm1 : Measurable fun y : ℝ => StdNormal.cdf (-((b + y) / k)) ^ 2 := by
    exact (hcdfm.comp (by fun_prop)).pow_const 2
  have hint1 := hbd (gaussianReal 0 (Real.toNNReal (S - k' ^ 2)) ∗ gaussianReal 0 (Real.toNNReal (k' ^ 2 - k ^ 2))) _ hm1
    (fun x => hsq _)
  rw [← hconv, integral_conv hint1]
  refine integral_mono (hbd _ _ ((hcdfm.comp (by fun_prop)).pow_const 2) (fun x => hsq _)) ?_ fun y => ?_
  · refine (hbd _ _ ?_ fun x => ⟨integral_nonneg fun _ => (hsq _).1, ?_⟩)
    · refine (StronglyMeasurable.integral_prod_right (f := fun (x : ℝ) (y : ℝ) => StdNormal.cdf (-((b + (x + y)) / k)) ^ 2) ?_).measurable
      exact ((hcdfm.comp (by fun_prop)).pow_const 2).stronglyMeasurable
    · calc _ ≤ ∫ _ : ℝ, (1:ℝ) ∂(gaussianReal 0 (Real.toNNReal (k' ^ 2 - k ^ 2))) :=
            integral_mono (hbd _ _ ((hcdfm.comp (by fun_prop)).pow_const 2) (fun x => hsq _)) (integrable_const _) fun y => (hsq _).2
        _ = 1 := by simp
  · simp only
    set F : ℝ → ℝ := fun r => StdNormal.cdf (-((b + (y + r)) / k)) with hF
    have hFm : Measurable F := hcdfm.comp (by fun_prop)
    have hFi := hbd (gaussianReal 0 (Real.toNNReal (k' ^ 2 - k ^ 2))) F hFm (fun x => hb _)
    have hFL : MemLp F 2 (gaussianReal 0 (Real.toNNReal (k' ^ 2 - k ^ 2))) := MemLp.of_bound hFm.aestronglyMeasurable 1
      (Filter.Eventually.of_forall fun x => by rw [Real.norm_eq_abs, abs_of_nonneg (hb _).1]; exact (hb _).2)
    have hv := variance_nonneg F (gaussianReal 0 (Real.toNNReal (k' ^ 2 - k ^ 2)))
    rw [variance_eq_sub hFL] at hv
    have hsm : ∫ r, F r ∂(gaussianReal 0 (Real.toNNReal (k' ^ 2 - k ^ 2))) = StdNormal.cdf (-((b + y) / k')) := by
      rw [← neg_div, ← gauss_smooth hk hkk (-(b + y))]
      refine integral_congr_ae (Filter.Eventually.of_forall fun r => ?_)
      simp only [hF]
      congr 1
      ring
    rw [hsm] at hv
    have hv' : 0 ≤ ∫ r, F r ^ 2 ∂(gaussianReal 0 (Real.toNNReal (k' ^ 2 - k ^ 2))) - StdNormal.cdf (-((b + y) / k')) ^ 2 := hv
    linarith

/-- Mean and second moment of the exact line probability for a plane `b + w·u = 0` seen along a unit direction `alpha` towards
failure. -/
theorem plane_line {b : ℝ} {w alpha : Fin n → ℝ} (ha : ∑ i, alpha i * alpha i = 1) (hwa : ∑ i, w i * alpha i < 0) :
    MemLp (fun u : Fin n → ℝ => StdNormal.cdf (-((b + ∑ i, w i * project alpha u i) / (-∑ i, w i * alpha i)))) 2 (stdGauss n) ∧
    ∫ u, StdNormal.cdf (-((b + ∑ i, w i * project alpha u i) / (-∑ i, w i * alpha i))) ∂(stdGauss n) =
      (stdGauss n).real {u | b + ∑ i, w i * u i ≤ 0} ∧
    ∫ u, StdNormal.cdf (-((b + ∑ i, w i * project alpha u i) / (-∑ i, w i * alpha i))) ^ 2 ∂(stdGauss n) =
      ∫ y, StdNormal.cdf (-((b + y) / (-∑ i, w i * alpha i))) ^ 2
        ∂(gaussianReal 0 (Real.toNNReal (∑ i, w i ^ 2 - (-∑ i, w i * alpha i) ^ 2))) := by
  set d := ∑ i, w i * alpha i with hd
  have hcdfm : Measurable StdNormal.cdf := StdNormal.strictMono_cdf.monotone.measurable
  have hlin : ∀ u : Fin n → ℝ, ∑ i, w i * project alpha u i = ∑ i, (w i - d * alpha i) * u i := by
    intro u
    have h1 : ∀ i, w i * project alpha u i = w i * u i - w i * alpha i * (∑ k, alpha k * u k) := fun i => by
      simp only [project, dotProduct]; ring
    have h2 : ∀ i, (w i - d * alpha i) * u i = w i * u i - d * (alpha i * u i) := fun i => by ring
    simp only [h1, h2, Finset.sum_sub_distrib, ← Finset.sum_mul, ← Finset.mul_sum, ← hd]
  have hvar : ∑ i, (w i - d * alpha i) ^ 2 = ∑ i, w i ^ 2 - (-d) ^ 2 := by
    have h1 : ∀ i, (w i - d * alpha i) ^ 2 = w i ^ 2 - 2 * d * (w i * alpha i) + d ^ 2 * (alpha i * alpha i) := fun i => by ring
    simp only [h1, Finset.sum_add_distrib, Finset.sum_sub_distrib, ← Finset.mul_sum, ha, ← hd]
    ring
  obtain ⟨hint, hval⟩ := line_fubini (n := n) alpha ha (G := fun u => b + ∑ i, w i * u i) (by fun_prop)
    (C := fun v => (b + ∑ i, w i * v i) / (-d)) (by
      intro v _ c
      have h1 : b + ∑ i, w i * (v i + c * alpha i) = (b + ∑ i, w i * v i) + c * d := by
        have h2 : ∀ i, w i * (v i + c * alpha i) = w i * v i + c * (w i * alpha i) := fun i => by ring
        simp only [h2, Finset.sum_add_distrib, ← Finset.mul_sum, ← hd]
        ring
      rw [h1, lt_div_iff₀ (by linarith), div_lt_iff₀ (by linarith)]
      constructor <;> intro h <;> linarith)
  refine ⟨MemLp.of_bound hint.aestronglyMeasurable 1 (Filter.Eventually.of_forall fun u => ?_), hval, ?_⟩
  · rw [Real.norm_eq_abs, abs_of_nonneg (StdNormal.cdf_pos _).le]
    exact (StdNormal.cdf_lt_one _).le
  · have hm : Measurable fun y : ℝ => StdNormal.cdf (-((b + y) / -d)) ^ 2 := (hcdfm.comp (by fun_prop)).pow_const 2
    have hmap := integral_map (μ := stdGauss n) (φ := fun u : Fin n → ℝ => ∑ i, (w i - d * alpha i) * u i)
      (f := fun y : ℝ => StdNormal.cdf (-((b + y) / -d)) ^ 2) (by fun_prop : Measurable fun u : Fin n → ℝ => ∑ i, (w i - d * alpha i) * u i).aemeasurable hm.aestronglyMeasurable
    rw [← hvar, ← map_linear_stdGauss, hmap]
    simp only [hlin]

section
variable {σ : Type} {t : Mats n} {marg : Fin n → Marginal} {ev : Evaluator σ n} {P : σ → Prop}

/-- C130: a limit state that is affine in standard normal space, `b + w·u`, and two unit directions both pointing to failure, the
second at least as close to the direction of steepest descent.  Up to the cut-off and the tolerance of the root finder, each run reports
the mean of the exact line probabilities along its direction; both means have the failure probability as expected value, and the variance
for the better direction is at most that for the worse. -/
theorem C130_angle {f : (Fin n → ℝ) → ℝ} (hev : PointValues ev P (fun x => some (f x))) {b : ℝ} {w : Fin n → ℝ}
    (hf : ∀ u, f (uToX t marg u) = b + ∑ i, w i * u i) {alpha alpha' : Fin n → ℝ} (ha : ∑ i, alpha i * alpha i = 1)
    (ha' : ∑ i, alpha' i * alpha' i = 1) (hwa : ∑ i, w i * alpha i < 0) (hle : ∑ i, w i * alpha' i ≤ ∑ i, w i * alpha i)
    (betaForm : ℝ) {N : ℕ} (hN : 1 ≤ N) (pos : ℕ) :
    let m := max (|betaForm| * 3 + 5) 15
    let ideal : (Fin n → ℝ) → (ℕ → ℝ) → ℝ := fun a ω => (∑ j ∈ Finset.range N,
      StdNormal.cdf (-((b + ∑ i, w i * (lsDraw ω n N pos j i - (∑ k, a k * lsDraw ω n N pos j k) * a i)) / (-∑ i, w i * a i)))) / N
    let p := (stdGauss n).real {u | f (uToX t marg u) ≤ 0}
    (∀ ω s, P s → |(sample t marg ev alpha betaForm N ω pos s).2.Pf - ideal alpha ω| ≤ max (m / 39 / √(2 * Real.pi)) (StdNormal.cdf (-m))) ∧
    (∀ ω s, P s → |(sample t marg ev alpha' betaForm N ω pos s).2.Pf - ideal alpha' ω| ≤ max (m / 39 / √(2 * Real.pi)) (StdNormal.cdf (-m))) ∧
    ∫ ω, ideal alpha ω ∂stream = p ∧ ∫ ω, ideal alpha' ω ∂stream = p ∧
    Var[ideal alpha'; stream] ≤ Var[ideal alpha; stream] := by
  intro m ideal p
  have hN' : (0:ℝ) < N := by exact_mod_cast hN
  have hwa' : ∑ i, w i * alpha' i < 0 := by linarith
  have hrun : ∀ a : Fin n → ℝ, ∑ i, a i * a i = 1 → ∑ i, w i * a i < 0 → ∀ ω s, P s →
      |(sample t marg ev a betaForm N ω pos s).2.Pf - ideal a ω| ≤ max (m / 39 / √(2 * Real.pi)) (StdNormal.cdf (-m)) := by
    intro a h1 h2 ω s hs
    refine (C45_unbiased (t := t) (marg := marg) hev (by simp only [hf]; fun_prop) a h1
      (fun v => (b + ∑ i, w i * v i) / (-∑ i, w i * a i)) (fun v _ c => ?_) betaForm hN pos).1 ω s hs
    have h3 : b + ∑ i, w i * (v i + c * a i) = (b + ∑ i, w i * v i) + c * ∑ i, w i * a i := by
      have h4 : ∀ i, w i * (v i + c * a i) = w i * v i + c * (w i * a i) := fun i => by ring
      simp only [h4, Finset.sum_add_distrib, ← Finset.mul_sum]
      ring
    rw [hf, h3, lt_div_iff₀ (by linarith), div_lt_iff₀ (by linarith)]
    constructor <;> intro h <;> linarith
  have hp : p = (stdGauss n).real {u | b + ∑ i, w i * u i ≤ 0} := by simp only [p, hf]
  have hide : ∀ a ω, ideal a ω = (∑ j ∈ Finset.range N, (fun u : Fin n → ℝ =>
      StdNormal.cdf (-((b + ∑ i, w i * project a u i) / (-∑ i, w i * a i)))) (lsDraw ω n N pos j)) / N := by
    intro a ω
    have h1 : ∀ (u : Fin n → ℝ) i, u i - (∑ k, a k * u k) * a i = project a u i := by
      intro u i
      simp only [project, dotProduct]
      ring
    simp only [ideal, h1]
  have hmom : ∀ a : Fin n → ℝ, ∑ i, a i * a i = 1 → ∑ i, w i * a i < 0 → ∫ ω, ideal a ω ∂stream = p ∧
      Var[ideal a; stream] = (∫ y, StdNormal.cdf (-((b + y) / (-∑ i, w i * a i))) ^ 2
        ∂(gaussianReal 0 (Real.toNNReal (∑ i, w i ^ 2 - (-∑ i, w i * a i) ^ 2))) - p ^ 2) / N := by
    intro a h1 h2
    obtain ⟨h3, h4, h5⟩ := plane_line (b := b) h1 h2
    obtain ⟨h6, h7⟩ := draws_moments h3 hN pos
    have e : ideal a = fun ω => (∑ j ∈ Finset.range N, (fun u : Fin n → ℝ =>
      StdNormal.cdf (-((b + ∑ i, w i * project a u i) / (-∑ i, w i * a i)))) (lsDraw ω n N pos j)) / N := funext (hide a)
    rw [e]
    refine ⟨by rw [h6, h4, hp], ?_⟩
    rw [h7, variance_eq_sub h3, h4, ← hp, ← h5]
    rfl
  obtain ⟨e1, v1⟩ := hmom alpha ha hwa
  obtain ⟨e2, v2⟩ := hmom alpha' ha' hwa'
  refine ⟨hrun alpha ha hwa, hrun alpha' ha' hwa', e1, e2, ?_⟩
  rw [v1, v2]
  refine div_le_div_of_nonneg_right (sub_le_sub_right ?_ _) hN'.le
  refine second_moment_mono (by linarith) (by linarith) ?_
  have hcs := Finset.sum_mul_sq_le_sq_mul_sq Finset.univ w alpha'
  have h1 : ∑ i, alpha' i ^ 2 = 1 := by rw [← ha']; exact Finset.sum_congr rfl fun i _ => sq _
  rw [h1, mul_one] at hcs
  rw [neg_sq]
  exact hcs

end

/-- Two standard normal variables and the limit state `3 - 4/5 x₀ - 3/5 x₁`: the direction `(4/5, 3/5)` is at least as good as the
first axis. -/
example : ∃ m : Marginal, Normal.new 0 (.fin 1) none = .ok m ∧
    let V : (Fin 2 → ℝ) → ℝ → (ℕ → ℝ) → ℝ := fun a d ω => (∑ j ∈ Finset.range 10,
      StdNormal.cdf (-((3 + ∑ i, ![-4 / 5, -3 / 5] i * (lsDraw ω 2 10 0 j i - (∑ k, a k * lsDraw ω 2 10 0 j k) * a i)) / d))) / (10 : ℕ)
    Var[V ![4 / 5, 3 / 5] 1; stream] ≤ Var[V ![1, 0] (4 / 5); stream] := by
  obtain ⟨m, hm⟩ : ∃ m, Normal.new 0 (.fin (1 : ℝ)) none = .ok m := ⟨_, rfl⟩
  have hu := (normal_ok hm).1
  refine ⟨m, hm, ?_⟩
  intro V
  have hd : -∑ i, (![-4 / 5, -3 / 5] : Fin 2 → ℝ) i * (![1, 0] : Fin 2 → ℝ) i = 4 / 5 := by rw [Fin.sum_univ_two]; simp; norm_num
  have hd' : -∑ i, (![-4 / 5, -3 / 5] : Fin 2 → ℝ) i * (![4 / 5, 3 / 5] : Fin 2 → ℝ) i = 1 := by rw [Fin.sum_univ_two]; simp; norm_num
  obtain ⟨-, -, -, -, h⟩ := C130_angle (t := ⟨1, 1⟩) (marg := fun _ => m)
    (ev := (⟨fun s _ => (s, .error .typeError), fun s xs => (s, .ok (xs.map (fun x => 3 + ∑ i, ![-4 / 5, -3 / 5] i * x i)))⟩ : Evaluator Unit 2))
    (P := fun _ => True) (f := fun x : Fin 2 → ℝ => 3 + ∑ i, ![-4 / 5, -3 / 5] i * x i)
    (pointValues_of_values fun s xs _ => ⟨s, rfl, trivial⟩) (b := 3) (w := ![-4 / 5, -3 / 5])
    (by intro u; congr 1; refine Finset.sum_congr rfl fun i _ => ?_; simp [uToX, hu, Normal.uToX])
    (alpha := ![1, 0]) (alpha' := ![4 / 5, 3 / 5]) (by rw [Fin.sum_univ_two]; simp) (by rw [Fin.sum_univ_two]; simp; norm_num)
    (by linarith) (by linarith) 3 (N := 10) (by norm_num) 0
  beta_reduce at h
  rw [hd, hd'] at h
  exact h

end Pystra.Props
