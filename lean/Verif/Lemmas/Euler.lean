import Mathlib.NumberTheory.Harmonic.EulerMascheroni
import Mathlib.Analysis.SpecialFunctions.Log.Deriv
import Mathlib.Analysis.SpecialFunctions.Trigonometric.DerivHyp
import Mathlib.Analysis.Complex.ExponentialBounds

/-! A numerical enclosure of the Euler–Mascheroni constant: the decimal `0.5772156649` in the source is right to six digits. -/

namespace Pystra.Euler
open Real Filter Topology

/-- `H_n - log n - 1/(2n)`, increasing to the constant. -/
noncomputable def lower (n : ℕ) : ℝ := harmonic n - log n - 1 / (2 * n)
/-- `H_n - log (n + 1/2)`, decreasing to the constant. -/
noncomputable def upper (n : ℕ) : ℝ := harmonic n - log (n + 1 / 2)

theorem log_le_half {y : ℝ} (hy : 1 ≤ y) : log y ≤ (y - 1 / y) / 2 := by
  have h0 : 0 < y := by linarith
  have := self_le_sinh_iff.2 (log_nonneg hy)
  rw [sinh_eq, exp_log h0, exp_neg, exp_log h0] at this
  rw [one_div]; exact this

theorem lower_succ {n : ℕ} (hn : 0 < n) : lower n ≤ lower (n + 1) := by
  have h0 : (0:ℝ) < n := by exact_mod_cast hn
  unfold lower
  rw [harmonic_succ]
  push_cast
  have h : log ((n + 1) / n) ≤ ((n + 1) / n - 1 / ((n + 1) / n)) / 2 :=
    log_le_half (by rw [le_div_iff₀ h0]; linarith)
  rw [log_div (by positivity) h0.ne'] at h
  have e : ((n + 1) / n - 1 / ((n + 1) / n)) / 2 = ((n:ℝ) + 1)⁻¹ - 1 / (2 * (n + 1)) + 1 / (2 * n) := by field_simp; ring
  linarith

theorem upper_succ {n : ℕ} : upper (n + 1) ≤ upper n := by
  unfold upper
  rw [harmonic_succ]
  push_cast
  have h0 : (0:ℝ) ≤ n := by positivity
  have h := le_log_one_add_of_nonneg (x := 1 / ((n:ℝ) + 1 / 2)) (by positivity)
  have e : 1 + 1 / ((n:ℝ) + 1 / 2) = (n + 1 + 1 / 2) / (n + 1 / 2) := by field_simp; ring
  rw [e, log_div (by positivity) (by positivity)] at h
  have e2 : 2 * (1 / ((n:ℝ) + 1 / 2)) / (1 / (n + 1 / 2) + 2) = ((n:ℝ) + 1)⁻¹ := by field_simp; ring
  rw [e2] at h
  linarith

theorem tendsto_harm : Tendsto (fun n : ℕ => (harmonic n : ℝ) - log n) atTop (𝓝 eulerMascheroniConstant) := by
  have := tendsto_eulerMascheroniSeq'
  refine this.congr' ?_
  filter_upwards [eventually_ne_atTop 0] with n hn
  simp [eulerMascheroniSeq', hn]

theorem lower_le {n : ℕ} (hn : 0 < n) : lower n ≤ eulerMascheroniConstant := by
  have ht : Tendsto lower atTop (𝓝 eulerMascheroniConstant) := by
    have h2 : Tendsto (fun n : ℕ => 1 / (2 * (n:ℝ))) atTop (𝓝 0) := by
      have := (tendsto_one_div_atTop_nhds_zero_nat (𝕜 := ℝ)).const_mul (1 / 2)
      rw [mul_zero] at this
      refine this.congr fun n => ?_
      rw [one_div, one_div, one_div, mul_inv]
    have h3 := tendsto_harm.sub h2
    rw [sub_zero] at h3
    exact h3
  refine ge_of_tendsto ht ?_
  filter_upwards [eventually_ge_atTop n] with m hm
  induction m, hm using Nat.le_induction with
  | base => exact le_refl _
  | succ k hk ih => exact ih.trans (lower_succ (by omega))

theorem le_upper (n : ℕ) : eulerMascheroniConstant ≤ upper n := by
  have ht : Tendsto upper atTop (𝓝 eulerMascheroniConstant) := by
    have h2 : Tendsto (fun n : ℕ => log (1 + (1 / 2) * (1 / (n:ℝ)))) atTop (𝓝 0) := by
      have := (tendsto_one_div_atTop_nhds_zero_nat (𝕜 := ℝ)).const_mul (1 / 2)
      rw [mul_zero] at this
      have h1 := this.const_add 1
      rw [add_zero] at h1
      have := h1.log (by norm_num)
      rwa [log_one] at this
    have h3 := tendsto_harm.sub h2
    rw [sub_zero] at h3
    refine h3.congr' ?_
    filter_upwards [eventually_gt_atTop 0] with m hm
    have h0 : (0:ℝ) < m := by exact_mod_cast hm
    have e : (m:ℝ) + 1 / 2 = m * (1 + (1 / 2) * (1 / m)) := by field_simp
    unfold upper
    rw [e, log_mul h0.ne' (by positivity)]
    ring
  refine le_of_tendsto ht ?_
  filter_upwards [eventually_ge_atTop n] with m hm
  induction m, hm using Nat.le_induction with
  | base => exact le_refl _
  | succ k hk ih => exact upper_succ.trans ih

theorem harmonic_512 : (6.8165165345 : ℚ) < harmonic 512 ∧ harmonic 512 < 6.8165165346 := by
  constructor <;> decide +kernel

/-- The truncated constant of gumbel.py 23 and typeismallestvalue.py 24 is right to six decimals. -/
theorem euler_close : |eulerMascheroniConstant - 0.5772156649| < 1e-6 := by
  have h1 := lower_le (n := 512) (by norm_num)
  have h2 := le_upper 512
  unfold lower at h1
  unfold upper at h2
  obtain ⟨q, hq⟩ : ∃ q, q = harmonic 512 := ⟨_, rfl⟩
  have h34 := harmonic_512
  rw [← hq] at h1 h2 h34
  have h3 : ((6.8165165345 : ℚ) : ℝ) < q := (Rat.cast_lt (K := ℝ)).2 h34.1
  have h4 : (q : ℝ) < ((6.8165165346 : ℚ) : ℝ) := (Rat.cast_lt (K := ℝ)).2 h34.2
  clear h34 hq
  push_cast at h1 h2
  have e : log (512:ℝ) = 9 * log 2 := by rw [show (512:ℝ) = 2 ^ 9 by norm_num, log_pow]; norm_num
  have e2 : (512:ℝ) + 1 / 2 = 512 * (1 + 1 / 1024) := by norm_num
  rw [e2, log_mul (by norm_num) (by norm_num)] at h2
  have h5 := le_log_one_add_of_nonneg (x := 1 / 1024) (by norm_num)
  have h6 := log_two_gt_d9
  have h7 := log_two_lt_d9
  rw [e] at h1 h2
  rw [abs_lt]
  norm_num at h1 h2 h3 h4 h5 h6 h7 ⊢
  constructor <;> linarith

end Pystra.Euler
