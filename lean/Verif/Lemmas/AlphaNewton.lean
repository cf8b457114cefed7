import Mathlib.Analysis.SpecialFunctions.Pow.Real
import Mathlib.Topology.Order.IntermediateValue
import Mathlib.Tactic.LinearCombination
import Mathlib.Tactic.Positivity

/-!
The alpha projection of a limit state `z R - S` with jointly normal resistance and load effects is Newton's method on a concave function.

`muR`, `muS` are the means of the two effects, `A`, `B` their standard deviations, `c` their covariance, `b` the target index.
-/

namespace Pystra.AlphaNewton

/-- Standard deviation of `z R - S`. -/
noncomputable def dev (A B c z : ℝ) : ℝ := √(z ^ 2 * A ^ 2 - 2 * z * c + B ^ 2)

/-- The resistance effect at the projected point. -/
noncomputable def resist (muR A B c b z : ℝ) : ℝ := muR - b * ((z * A ^ 2 - c) / dev A B c z)

/-- The load effect at the projected point. -/
noncomputable def load (muS A B c b z : ℝ) : ℝ := muS + b * ((B ^ 2 - z * c) / dev A B c z)

/-- The value of `z R - S` at the worst point at distance `b`. -/
noncomputable def worst (muR muS A B c b z : ℝ) : ℝ := z * muR - muS - b * dev A B c z

/-- What is assumed of the numbers. -/
structure Ok (muR muS A B c b : ℝ) : Prop where
  A0 : 0 ≤ A
  B0 : 0 < B
  c0 : c ≤ 0
  cs : c ^ 2 ≤ A ^ 2 * B ^ 2
  b0 : 0 ≤ b
  S0 : 0 ≤ muS
  reach : b * A < muR

variable {muR muS A B c b : ℝ}

theorem dev_nonneg (z : ℝ) : 0 ≤ dev A B c z := Real.sqrt_nonneg _

theorem dev_sq (hc : c ≤ 0) {z : ℝ} (hz : 0 ≤ z) : dev A B c z ^ 2 = z ^ 2 * A ^ 2 - 2 * z * c + B ^ 2 := by
  unfold dev
  apply Real.sq_sqrt
  nlinarith [mul_nonneg hz (neg_nonneg.2 hc), sq_nonneg (z * A), sq_nonneg B]

theorem dev_ge (hB : 0 < B) (hc : c ≤ 0) {z : ℝ} (hz : 0 ≤ z) : B ≤ dev A B c z := by
  unfold dev
  apply Real.le_sqrt_of_sq_le
  nlinarith [mul_nonneg hz (neg_nonneg.2 hc), sq_nonneg (z * A)]

theorem dev_pos (hB : 0 < B) (hc : c ≤ 0) {z : ℝ} (hz : 0 ≤ z) : 0 < dev A B c z := hB.trans_le (dev_ge hB hc hz)

theorem dev_mono (hc : c ≤ 0) {y z : ℝ} (hy : 0 ≤ y) (hyz : y ≤ z) : dev A B c y ≤ dev A B c z := by
  unfold dev
  apply Real.sqrt_le_sqrt
  have h1 : y ^ 2 ≤ z ^ 2 := pow_le_pow_left₀ hy hyz 2
  nlinarith [mul_nonneg (sub_nonneg.2 hyz) (neg_nonneg.2 hc), mul_le_mul_of_nonneg_right h1 (sq_nonneg A)]

theorem le_of_sq {x y : ℝ} (h : x ^ 2 ≤ y ^ 2) (hy : 0 ≤ y) : x ≤ y := (le_abs_self x).trans (abs_le_of_sq_le_sq h hy)

/-- Cauchy–Schwarz. -/
theorem dev_mul (hA : 0 ≤ A) (hc : c ≤ 0) (hcs : c ^ 2 ≤ A ^ 2 * B ^ 2) {y z : ℝ} (hy : 0 ≤ y) (hz : 0 ≤ z) :
    y * z * A ^ 2 - (y + z) * c + B ^ 2 ≤ dev A B c y * dev A B c z := by
  refine le_of_sq ?_ (mul_nonneg (dev_nonneg _) (dev_nonneg _))
  rw [mul_pow, dev_sq hc hy, dev_sq hc hz]
  nlinarith [mul_nonneg (sq_nonneg (y - z)) (sub_nonneg.2 hcs)]

theorem ratio_le {X K B D Ds : ℝ} (hB : 0 < B) (hD : B ≤ D) (hDs : B ≤ Ds) (hK : 0 ≤ K) (h : X * (Ds * D) ≤ K * B ^ 2) :
    X / D ≤ K / B := by
  have hD0 : 0 < D := hB.trans_le hD
  have hDs0 : 0 < Ds := hB.trans_le hDs
  rw [div_le_div_iff₀ hD0 hB]
  refine le_of_mul_le_mul_right ?_ (mul_pos hDs0 hD0)
  have h1 : B * (B * B) ≤ D * (Ds * D) :=
    mul_le_mul hD (mul_le_mul hDs hD hB.le hDs0.le) (mul_nonneg hB.le hB.le) hD0.le
  calc X * B * (Ds * D) = X * (Ds * D) * B := by ring
    _ ≤ K * B ^ 2 * B := mul_le_mul_of_nonneg_right h hB.le
    _ = K * (B * (B * B)) := by ring
    _ ≤ K * (D * (Ds * D)) := mul_le_mul_of_nonneg_left h1 hK
    _ = K * D * (Ds * D) := by ring

theorem slope_le (hA : 0 ≤ A) (hB : 0 < B) (hc : c ≤ 0) (hcs : c ^ 2 ≤ A ^ 2 * B ^ 2) {z : ℝ} (hz : 0 ≤ z) :
    z * A ^ 2 - c ≤ A * dev A B c z := by
  refine le_of_sq ?_ (mul_nonneg hA (dev_nonneg _))
  rw [mul_pow, dev_sq hc hz]
  nlinarith

theorem dev_lip (hA : 0 ≤ A) (hB : 0 < B) (hc : c ≤ 0) (hcs : c ^ 2 ≤ A ^ 2 * B ^ 2) {y z : ℝ} (hy : 0 ≤ y) (hyz : y ≤ z) :
    dev A B c z ≤ dev A B c y + A * (z - y) := by
  have h0 : 0 ≤ A * (z - y) := mul_nonneg hA (sub_nonneg.2 hyz)
  refine le_of_sq ?_ (add_nonneg (dev_nonneg _) h0)
  have h1 := slope_le hA hB hc hcs hy
  have h2 := mul_le_mul_of_nonneg_right h1 (sub_nonneg.2 hyz)
  rw [dev_sq hc (hy.trans hyz), add_sq, dev_sq hc hy]
  nlinarith

namespace Ok

variable (H : Ok muR muS A B c b)
include H

theorem muR_pos : 0 < muR := lt_of_le_of_lt (mul_nonneg H.b0 H.A0) H.reach

theorem resist_ge {z : ℝ} (hz : 0 ≤ z) : muR - b * A ≤ resist muR A B c b z := by
  have hd := dev_pos (A := A) H.B0 H.c0 hz
  have h1 : (z * A ^ 2 - c) / dev A B c z ≤ A := by
    rw [div_le_iff₀ hd]
    exact slope_le H.A0 H.B0 H.c0 H.cs hz
  unfold resist
  have := mul_le_mul_of_nonneg_left h1 H.b0
  linarith

theorem resist_pos {z : ℝ} (hz : 0 ≤ z) : 0 < resist muR A B c b z := lt_of_lt_of_le (sub_pos.2 H.reach) (H.resist_ge hz)

theorem resist_le {z : ℝ} (hz : 0 ≤ z) : resist muR A B c b z ≤ muR := by
  have h1 : 0 ≤ (z * A ^ 2 - c) / dev A B c z := by
    apply div_nonneg _ (dev_nonneg _)
    have := H.c0
    nlinarith [mul_nonneg hz (sq_nonneg A)]
  unfold resist
  have := mul_nonneg H.b0 h1
  linarith

theorem load_nonneg {z : ℝ} (hz : 0 ≤ z) : 0 ≤ load muS A B c b z := by
  have h1 : 0 ≤ (B ^ 2 - z * c) / dev A B c z := by
    apply div_nonneg _ (dev_nonneg _)
    nlinarith [mul_nonneg hz (neg_nonneg.2 H.c0), sq_nonneg B]
  unfold load
  have := mul_nonneg H.b0 h1
  have := H.S0
  linarith

/-- The tangent at `z` lies above the function. -/
theorem tangent {y z : ℝ} (hy : 0 ≤ y) (hz : 0 ≤ z) :
    worst muR muS A B c b y ≤ y * resist muR A B c b z - load muS A B c b z := by
  have hd := dev_pos (A := A) H.B0 H.c0 hz
  have h1 := dev_mul H.A0 H.c0 H.cs hy hz
  have h2 : (y * z * A ^ 2 - (y + z) * c + B ^ 2) / dev A B c z ≤ dev A B c y := by rwa [div_le_iff₀ hd]
  have e : y * resist muR A B c b z - load muS A B c b z =
      y * muR - muS - b * ((y * z * A ^ 2 - (y + z) * c + B ^ 2) / dev A B c z) := by
    unfold resist load
    field_simp
    ring
  rw [e]
  unfold worst
  have := mul_le_mul_of_nonneg_left h2 H.b0
  linarith

theorem tangent_self {z : ℝ} (hz : 0 ≤ z) :
    z * resist muR A B c b z - load muS A B c b z = worst muR muS A B c b z := by
  have hd := dev_pos (A := A) H.B0 H.c0 hz
  unfold resist load worst
  have h2 := dev_sq (A := A) (B := B) H.c0 hz
  field_simp
  linear_combination b * h2

theorem slope {y z : ℝ} (hy : 0 ≤ y) (hyz : y ≤ z) :
    (muR - b * A) * (z - y) ≤ worst muR muS A B c b z - worst muR muS A B c b y := by
  have h := mul_le_mul_of_nonneg_left (dev_lip H.A0 H.B0 H.c0 H.cs hy hyz) H.b0
  unfold worst
  nlinarith

theorem slope' {y z : ℝ} (hy : 0 ≤ y) (hyz : y ≤ z) :
    worst muR muS A B c b z - worst muR muS A B c b y ≤ muR * (z - y) := by
  have h := mul_le_mul_of_nonneg_left (dev_mono (A := A) (B := B) H.c0 hy hyz) H.b0
  unfold worst
  nlinarith

theorem strict {y z : ℝ} (hy : 0 ≤ y) (hyz : y < z) : worst muR muS A B c b y < worst muR muS A B c b z := by
  have h1 := H.slope hy hyz.le
  have h2 : 0 < (muR - b * A) * (z - y) := mul_pos (sub_pos.2 H.reach) (sub_pos.2 hyz)
  linarith

theorem le_of_worst {y z : ℝ} (hz : 0 ≤ z) (h : worst muR muS A B c b y ≤ worst muR muS A B c b z) : y ≤ z := by
  by_contra hn
  push Not at hn
  exact absurd (H.strict hz hn) (not_lt.2 h)

/-- The design parameter with the target index exists and is unique, and how large it can be. -/
theorem target : ∃ zs, 0 ≤ zs ∧ worst muR muS A B c b zs = 0 ∧ zs ≤ (muS + b * B) / (muR - b * A) ∧
    ∀ z, 0 ≤ z → worst muR muS A B c b z = 0 → z = zs := by
  have hm := sub_pos.2 H.reach
  have hw0 : worst muR muS A B c b 0 = -(muS + b * B) := by
    unfold worst dev
    simp [Real.sqrt_sq H.B0.le]
    ring
  have hT0 : 0 ≤ muS + b * B := add_nonneg H.S0 (mul_nonneg H.b0 H.B0.le)
  have hT : 0 ≤ (muS + b * B) / (muR - b * A) := div_nonneg hT0 hm.le
  have h1 : 0 ≤ worst muR muS A B c b ((muS + b * B) / (muR - b * A)) := by
    have := H.slope le_rfl hT
    rw [hw0, sub_zero, mul_div_cancel₀ _ hm.ne'] at this
    linarith
  have hcont : Continuous (worst muR muS A B c b) := by unfold worst dev; fun_prop
  obtain ⟨zs, hzs, h0⟩ := intermediate_value_Icc hT hcont.continuousOn (show (0 : ℝ) ∈ Set.Icc _ _ from ⟨by rw [hw0]; linarith, h1⟩)
  refine ⟨zs, hzs.1, h0, hzs.2, fun z hz hz0 => ?_⟩
  exact le_antisymm (H.le_of_worst hzs.1 (by rw [h0, hz0])) (H.le_of_worst hz (by rw [h0, hz0]))

/-- One round: never above the target, from below never away from it, and closer by the factor `b A / muR` at least; close to the target
the error is squared. -/
theorem step {zs : ℝ} (hzs : 0 ≤ zs) (h0 : worst muR muS A B c b zs = 0) {z : ℝ} (hz : 0 ≤ z) {z' : ℝ}
    (hz' : z' = load muS A B c b z / resist muR A B c b z) :
    0 ≤ z' ∧ z' ≤ zs ∧ (z ≤ zs → z ≤ z' ∧ zs - z' ≤ b * A / muR * (zs - z) ∧
      zs - z' ≤ b * A ^ 2 / (B * (muR - b * A)) * (zs - z) ^ 2) := by
  have hR := H.resist_pos hz
  have hz'0 : 0 ≤ z' := by rw [hz']; exact div_nonneg (H.load_nonneg hz) hR.le
  have e : z' * resist muR A B c b z = load muS A B c b z := by rw [hz']; field_simp
  have hw : worst muR muS A B c b z' ≤ 0 := by
    have := H.tangent hz'0 hz
    linarith
  refine ⟨hz'0, H.le_of_worst hzs (by rw [h0]; exact hw), fun hle => ?_⟩
  have hs := H.tangent_self hz
  have h1 := H.slope hz hle
  have h2 := H.slope' hz hle
  rw [h0] at h1 h2
  have e2 : (z' - z) * resist muR A B c b z = -worst muR muS A B c b z := by linarith
  have hmu := H.muR_pos
  have hm := sub_pos.2 H.reach
  have hge : (muR - b * A) * (zs - z) ≤ (z' - z) * resist muR A B c b z := by linarith
  have hd0 : 0 ≤ zs - z := sub_nonneg.2 hle
  have hzz : 0 ≤ z' - z := by
    by_contra hn
    push Not at hn
    have := mul_neg_of_neg_of_pos hn hR
    have := mul_nonneg hm.le hd0
    linarith
  refine ⟨by linarith, ?_, ?_⟩
  · have h3 : (muR - b * A) * (zs - z) ≤ (z' - z) * muR := hge.trans (mul_le_mul_of_nonneg_left (H.resist_le hz) hzz)
    rw [div_mul_eq_mul_div, le_div_iff₀ hmu]
    nlinarith
  · -- zs - z' times the resistance is b (dev zs - p), p the projection
    have hd := dev_pos (A := A) H.B0 H.c0 hz
    have hds := dev_pos (A := A) H.B0 H.c0 hzs
    obtain ⟨D, hD⟩ : ∃ D, D = dev A B c z := ⟨_, rfl⟩
    obtain ⟨Ds, hDs⟩ : ∃ D, D = dev A B c zs := ⟨_, rfl⟩
    rw [← hD] at hd
    rw [← hDs] at hds
    have hB' : B ≤ Ds := by rw [hDs]; exact dev_ge H.B0 H.c0 hzs
    have hD2 : D ^ 2 = z ^ 2 * A ^ 2 - 2 * z * c + B ^ 2 := by rw [hD]; exact dev_sq H.c0 hz
    have hDs2 : Ds ^ 2 = zs ^ 2 * A ^ 2 - 2 * zs * c + B ^ 2 := by rw [hDs]; exact dev_sq H.c0 hzs
    obtain ⟨q, hq⟩ : ∃ q, q = zs * z * A ^ 2 - (zs + z) * c + B ^ 2 := ⟨_, rfl⟩
    have hq0 : 0 < q := by
      rw [hq]
      nlinarith [mul_nonneg (mul_nonneg hzs hz) (sq_nonneg A), mul_nonneg (add_nonneg hzs hz) (neg_nonneg.2 H.c0), pow_pos H.B0 2]
    have hqle : q ≤ Ds * D := by rw [hq, hDs, hD]; exact dev_mul H.A0 H.c0 H.cs hzs hz
    have e3 : (zs - z') * resist muR A B c b z = b * (Ds - q / D) := by
      have e4 : zs * resist muR A B c b z - load muS A B c b z = zs * muR - muS - b * (q / D) := by
        unfold resist load
        rw [← hD, hq]
        field_simp
        ring
      have e5 : zs * muR - muS - b * Ds = 0 := by rw [hDs]; exact h0
      linarith
    have h4 : Ds - q / D ≤ A ^ 2 * (zs - z) ^ 2 / B := by
      have hid : (Ds * D - q) * (Ds * D + q) = (zs - z) ^ 2 * (A ^ 2 * B ^ 2 - c ^ 2) := by
        have : (Ds * D - q) * (Ds * D + q) = Ds ^ 2 * D ^ 2 - q ^ 2 := by ring
        rw [this, hD2, hDs2, hq]
        ring
      have hDB : B ≤ D := by rw [hD]; exact dev_ge H.B0 H.c0 hz
      have h6 : (Ds * D - q) * (Ds * D) ≤ (Ds * D - q) * (Ds * D + q) :=
        mul_le_mul_of_nonneg_left (by linarith) (by linarith)
      have h7 : (zs - z) ^ 2 * (A ^ 2 * B ^ 2 - c ^ 2) ≤ (zs - z) ^ 2 * (A ^ 2 * B ^ 2) :=
        mul_le_mul_of_nonneg_left (by have := sq_nonneg c; linarith) (sq_nonneg _)
      have h5 : (Ds * D - q) * (Ds * D) ≤ A ^ 2 * (zs - z) ^ 2 * B ^ 2 := by
        have : A ^ 2 * (zs - z) ^ 2 * B ^ 2 = (zs - z) ^ 2 * (A ^ 2 * B ^ 2) := by ring
        rw [this]; linarith
      have e6 : Ds - q / D = (Ds * D - q) / D := by field_simp
      rw [e6]
      exact ratio_le H.B0 hDB hB' (by positivity) h5
    have hle' : zs - z' ≤ b * (A ^ 2 * (zs - z) ^ 2 / B) / (muR - b * A) := by
      rw [le_div_iff₀ hm]
      have h13 : 0 ≤ zs - z' := sub_nonneg.2 (H.le_of_worst hzs (by rw [h0]; exact hw))
      calc (zs - z') * (muR - b * A) ≤ (zs - z') * resist muR A B c b z := mul_le_mul_of_nonneg_left (H.resist_ge hz) h13
        _ = b * (Ds - q / D) := e3
        _ ≤ _ := mul_le_mul_of_nonneg_left h4 H.b0
    refine hle'.trans (le_of_eq ?_)
    have := H.B0.ne'
    field_simp

/-- The index at a design parameter. -/
theorem index_eq {z : ℝ} (hz : 0 ≤ z) : (z * muR - muS) / dev A B c z = b + worst muR muS A B c b z / dev A B c z := by
  have hd := dev_pos (A := A) H.B0 H.c0 hz
  unfold worst
  field_simp
  ring

theorem index_iff {z : ℝ} (hz : 0 ≤ z) : (z * muR - muS) / dev A B c z = b ↔ worst muR muS A B c b z = 0 := by
  have hd := dev_pos (A := A) H.B0 H.c0 hz
  rw [H.index_eq hz]
  constructor
  · intro h
    have : worst muR muS A B c b z / dev A B c z = 0 := by linarith
    rcases div_eq_zero_iff.1 this with h | h
    · exact h
    · exact absurd h hd.ne'
  · intro h; rw [h]; simp

/-- How far the index is from the target. -/
theorem index_gap {zs : ℝ} (h0 : worst muR muS A B c b zs = 0) {z : ℝ} (hz : 0 ≤ z) (hle : z ≤ zs) :
    0 ≤ b - (z * muR - muS) / dev A B c z ∧ b - (z * muR - muS) / dev A B c z ≤ muR / B * (zs - z) := by
  have hd := dev_pos (A := A) H.B0 H.c0 hz
  have h1 := H.slope' hz hle
  have h2 := H.slope hz hle
  rw [h0] at h1 h2
  have hm := sub_pos.2 H.reach
  have hd0 := sub_nonneg.2 hle
  have h3 : 0 ≤ (muR - b * A) * (zs - z) := mul_nonneg hm.le hd0
  rw [H.index_eq hz]
  have e : b - (b + worst muR muS A B c b z / dev A B c z) = -worst muR muS A B c b z / dev A B c z := by ring
  rw [e]
  refine ⟨div_nonneg (by linarith) hd.le, ?_⟩
  rw [div_le_iff₀ hd]
  have h4 : muR * (zs - z) ≤ muR / B * (zs - z) * dev A B c z := by
    have h5 : 0 ≤ muR / B * (zs - z) := mul_nonneg (div_nonneg H.muR_pos.le H.B0.le) hd0
    calc muR * (zs - z) = muR / B * (zs - z) * B := by have := H.B0.ne'; field_simp
      _ ≤ _ := mul_le_mul_of_nonneg_left (dev_ge H.B0 H.c0 hz) h5
  linarith

end Ok

/-- No design parameter reaches an index of `muR / A` or more. -/
theorem index_lt (hA : 0 < A) (hB : 0 < B) (hc : c ≤ 0) (hR : 0 < muR) (hS : 0 ≤ muS) {z : ℝ} (hz : 0 ≤ z) :
    (z * muR - muS) / dev A B c z < muR / A := by
  have hd := dev_pos (A := A) hB hc hz
  rw [div_lt_div_iff₀ hd hA]
  have h1 : z * A < dev A B c z := by
    unfold dev
    apply Real.lt_sqrt_of_sq_lt
    nlinarith [mul_nonneg hz (neg_nonneg.2 hc), pow_pos hB 2]
  nlinarith [mul_nonneg hS hA.le]

end Pystra.AlphaNewton
