import Verif.Lemmas.Moments
import Mathlib.Analysis.SpecialFunctions.Integrals.Basic

/-! Means and second moments of every frozen family. -/

namespace Pystra
open Real MeasureTheory Set Filter Topology

namespace Frozen

theorem mom_uniform01 : Mom uniform01.pdf (1 / 2) (1 / 3) := by
  have hI : ∀ g : ℝ → ℝ, Continuous g → IntegrableOn g (Icc 0 1) := fun g hg => hg.continuousOn.integrableOn_Icc
  have hE : ∀ g : ℝ → ℝ, ∫ t in Icc (0:ℝ) 1, g t = ∫ t in (0:ℝ)..1, g t := fun g => by
    rw [intervalIntegral.integral_of_le (by norm_num), integral_Icc_eq_integral_Ioc]
  apply mom_push (s := Icc 0 1) (h := fun t => t) (h' := fun _ => 1) (w := fun _ => 1) measurableSet_Icc
  · intro t _; exact hasDerivAt_id t
  · exact fun x _ y _ h => h
  · intro t ht
    have : (0 ≤ t ∧ t ≤ 1) := ht
    simp [uniform01, this]
  · intro x hx
    have : ¬(0 ≤ x ∧ x ≤ 1) := fun h => hx ⟨x, h, rfl⟩
    simp only [uniform01, if_neg this]
  · intro x; simp only [uniform01]; split_ifs <;> norm_num
  · exact hI _ (by fun_prop)
  · rw [hE]; simp
  · exact hI _ (by fun_prop)
  · rw [hE]; simp
  · exact hI _ (by fun_prop)
  · rw [hE]; simp; norm_num

theorem mom_expon : Mom expon.pdf 1 2 := by
  have i1 := integrableOn_rpow_exp (s := 1) (by norm_num)
  have i2 := integrableOn_rpow_exp (s := 2) (by norm_num)
  have e1 := integral_rpow_exp (s := 1) (by norm_num)
  have e2 := integral_rpow_exp (s := 2) (by norm_num)
  have r2 : ∀ t : ℝ, t ^ (2:ℝ) = t ^ 2 := fun t => by exact_mod_cast rpow_natCast t 2
  simp only [rpow_one] at i1 e1
  simp only [r2] at i2 e2
  apply mom_push (s := Ici 0) (h := fun t => t) (h' := fun _ => 1) (w := fun t => exp (-t)) measurableSet_Ici
  · intro t _; exact hasDerivAt_id t
  · exact fun x _ y _ h => h
  · intro t ht
    have : (0 ≤ t) := ht
    simp [expon, this]
  · intro x hx
    have : ¬(0 ≤ x) := fun h => hx ⟨x, h, rfl⟩
    simp only [expon, if_neg this]
  · intro x; simp only [expon]; split_ifs <;> positivity
  · rw [integrableOn_Ici_iff_integrableOn_Ioi]; exact integrableOn_exp_neg
  · rw [integral_Ici_eq_integral_Ioi]; exact integral_exp_neg
  · rw [integrableOn_Ici_iff_integrableOn_Ioi]; exact i1
  · rw [integral_Ici_eq_integral_Ioi, e1]
    rw [show (1:ℝ) + 1 = (1:ℕ) + 1 by norm_num, Gamma_nat_eq_factorial]; simp
  · rw [integrableOn_Ici_iff_integrableOn_Ioi]; exact i2
  · rw [integral_Ici_eq_integral_Ioi, e2]
    rw [show (1:ℝ) + 2 = (2:ℕ) + 1 by norm_num, Gamma_nat_eq_factorial]; simp

theorem rpow_sq_eq {t : ℝ} (ht : 0 < t) (s : ℝ) : (t ^ s) ^ 2 = t ^ (2 * s) := by
  rw [← rpow_natCast, ← rpow_mul ht.le]; congr 1; push_cast; ring

theorem mom_weibullMin {c : ℝ} (hc : 0 < c) :
    Mom (weibullMin c).pdf (Gamma (1 + 1 / c)) (Gamma (1 + 2 / c)) := by
  have hc1 : 0 < 1 / c := by positivity
  have hc2 : 0 < 2 / c := by positivity
  have hp : ∀ x, 0 < x → (weibullMin c).pdf x = c * x ^ (c - 1) * exp (-x ^ c) := fun x hx => if_pos hx
  apply mom_push (s := Ioi 0) (h := fun t => t ^ (1 / c)) (h' := fun t => 1 / c * t ^ (1 / c - 1))
    (w := fun t => exp (-t)) measurableSet_Ioi
  · intro t ht; exact hasDerivAt_rpow_const (Or.inl (ne_of_gt ht))
  · exact (rpow_left_injOn hc1.ne').mono Ioi_subset_Ici_self
  · intro t ht
    have ht : (0:ℝ) < t := ht
    have hx : 0 < t ^ (1 / c) := rpow_pos_of_pos ht _
    rw [hp _ hx, abs_of_pos (mul_pos hc1 (rpow_pos_of_pos ht _)), ← rpow_mul ht.le, ← rpow_mul ht.le,
      one_div_mul_cancel hc.ne', rpow_one]
    have : t ^ (1 / c - 1) * t ^ (1 / c * (c - 1)) = 1 := by
      rw [← rpow_add ht, show 1 / c - 1 + 1 / c * (c - 1) = 0 by field_simp; ring, rpow_zero]
    calc _ = (1 / c * c) * (t ^ (1 / c - 1) * t ^ (1 / c * (c - 1))) * exp (-t) := by ring
      _ = exp (-t) := by rw [this, one_div_mul_cancel hc.ne']; ring
  · intro x hx
    have : ¬(0 < x) := fun h => hx ⟨x ^ c, rpow_pos_of_pos h c, by
      simp only []; rw [← rpow_mul h.le, mul_one_div_cancel hc.ne', rpow_one]⟩
    exact if_neg this
  · intro x
    by_cases h : 0 < x
    · rw [hp x h]; have := rpow_pos_of_pos h (c - 1); positivity
    · exact (if_neg h).ge
  · exact integrableOn_exp_neg
  · exact integral_exp_neg
  · exact integrableOn_rpow_exp (by linarith)
  · exact integral_rpow_exp (by linarith)
  · refine (integrableOn_rpow_exp (s := 2 / c) (by linarith)).congr_fun (fun t ht => ?_) measurableSet_Ioi
    simp only []; rw [rpow_sq_eq ht, show 2 * (1 / c) = 2 / c by ring]
  · rw [← integral_rpow_exp (s := 2 / c) (by linarith)]
    refine setIntegral_congr_fun measurableSet_Ioi (fun t ht => ?_)
    rw [rpow_sq_eq ht, show 2 * (1 / c) = 2 / c by ring]

theorem rayleigh_mom : Mom rayleigh.pdf (√(π / 2)) 2 := by
  have hp : ∀ x, 0 ≤ x → rayleigh.pdf x = x * exp (-x ^ 2 / 2) := fun x hx => if_pos hx
  have hs2 : 0 < √(2:ℝ) := by positivity
  have hsq : ∀ t : ℝ, 0 < t → √(2 * t) = √2 * t ^ ((1:ℝ) / 2) := fun t ht => by
    rw [sqrt_mul (by norm_num), sqrt_eq_rpow t]
  apply mom_push (s := Ioi 0) (h := fun t => √(2 * t)) (h' := fun t => 2 * 1 / (2 * √(2 * t)))
    (w := fun t => exp (-t)) measurableSet_Ioi
  · intro t ht
    have ht : (0:ℝ) < t := ht
    exact ((hasDerivAt_id t).const_mul 2).sqrt (by simp [ht.ne'])
  · intro x hx y hy h
    have hx : (0:ℝ) < x := hx
    have hy : (0:ℝ) < y := hy
    have := (sqrt_inj (by positivity) (by positivity)).1 h
    linarith
  · intro t ht
    have ht : (0:ℝ) < t := ht
    have hx : 0 < √(2 * t) := by positivity
    rw [hp _ hx.le, abs_of_pos (by positivity), sq_sqrt (by positivity)]
    rw [show -(2 * t) / 2 = -t by ring]
    field_simp
  · intro x hx
    by_cases h : 0 < x
    · refine absurd ⟨x ^ 2 / 2, mem_Ioi.2 (by positivity), ?_⟩ hx
      simp only []; rw [show 2 * (x ^ 2 / 2) = x ^ 2 by ring, sqrt_sq h.le]
    · by_cases h0 : x = 0
      · simp [rayleigh, h0]
      · have : ¬0 ≤ x := fun h' => h (lt_of_le_of_ne h' (Ne.symm h0))
        exact if_neg this
  · intro x
    by_cases h : 0 ≤ x
    · rw [hp x h]; positivity
    · exact (if_neg h).ge
  · exact integrableOn_exp_neg
  · exact integral_exp_neg
  · have i := (integrableOn_rpow_exp (s := 1 / 2) (by norm_num)).const_mul (√2)
    refine IntegrableOn.congr_fun i (fun t ht => ?_) measurableSet_Ioi
    rw [hsq t ht]; ring
  · have e : ∫ t in Ioi (0:ℝ), √(2 * t) * exp (-t) = ∫ t in Ioi (0:ℝ), √2 * (t ^ ((1:ℝ) / 2) * exp (-t)) :=
      setIntegral_congr_fun measurableSet_Ioi (fun t ht => by rw [hsq t ht]; ring)
    rw [e, integral_const_mul, integral_rpow_exp (by norm_num), show (1:ℝ) + 1 / 2 = 1 / 2 + 1 by ring,
      Gamma_add_one (by norm_num), Gamma_one_half_eq]
    rw [sqrt_div pi_pos.le]
    field_simp
    rw [sq_sqrt (by norm_num)]
  · have i := (integrableOn_rpow_exp (s := 1) (by norm_num)).const_mul 2
    refine IntegrableOn.congr_fun i (fun t ht => ?_) measurableSet_Ioi
    have ht : (0:ℝ) < t := ht
    simp only [rpow_one]; rw [sq_sqrt (by positivity)]; ring
  · have e : ∫ t in Ioi (0:ℝ), √(2 * t) ^ 2 * exp (-t) = ∫ t in Ioi (0:ℝ), 2 * (t ^ (1:ℝ) * exp (-t)) :=
      setIntegral_congr_fun measurableSet_Ioi (fun t ht => by
        have ht : (0:ℝ) < t := ht
        simp only [rpow_one]; rw [sq_sqrt (by positivity)]; ring)
    rw [e, integral_const_mul, integral_rpow_exp (by norm_num)]
    rw [show (1:ℝ) + 1 = (1:ℕ) + 1 by norm_num, Gamma_nat_eq_factorial]; simp

theorem mom_invweibull {c : ℝ} (hc : 2 < c) :
    Mom (invweibull c).pdf (Gamma (1 - 1 / c)) (Gamma (1 - 2 / c)) := by
  have hc0 : 0 < c := by linarith
  have h1c : 1 / c < 1 := by rw [div_lt_one hc0]; linarith
  have h2c : 2 / c < 1 := by rw [div_lt_one hc0]; linarith
  have hc1 : 0 < 1 / c := by positivity
  have hp : ∀ x, 0 < x → (invweibull c).pdf x = c * x ^ (-c - 1) * exp (-x ^ (-c)) := fun x hx => if_pos hx
  apply mom_push (s := Ioi 0) (h := fun t => t ^ (-(1 / c))) (h' := fun t => -(1 / c) * t ^ (-(1 / c) - 1))
    (w := fun t => exp (-t)) measurableSet_Ioi
  · intro t ht; exact hasDerivAt_rpow_const (Or.inl (ne_of_gt ht))
  · exact (rpow_left_injOn (neg_ne_zero.2 hc1.ne')).mono Ioi_subset_Ici_self
  · intro t ht
    have ht : (0:ℝ) < t := ht
    have hx : 0 < t ^ (-(1 / c)) := rpow_pos_of_pos ht _
    have hcc : -(1 / c) * -c = 1 := by field_simp
    rw [hp _ hx, abs_mul, abs_neg, abs_of_pos hc1, abs_of_pos (rpow_pos_of_pos ht _), ← rpow_mul ht.le,
      ← rpow_mul ht.le, hcc, rpow_one]
    have : t ^ (-(1 / c) - 1) * t ^ (-(1 / c) * (-c - 1)) = 1 := by
      rw [← rpow_add ht, show -(1 / c) - 1 + -(1 / c) * (-c - 1) = 0 by field_simp; ring, rpow_zero]
    calc _ = (1 / c * c) * (t ^ (-(1 / c) - 1) * t ^ (-(1 / c) * (-c - 1))) * exp (-t) := by ring
      _ = exp (-t) := by rw [this, one_div_mul_cancel hc0.ne']; ring
  · intro x hx
    have : ¬(0 < x) := fun h => hx ⟨x ^ (-c), rpow_pos_of_pos h _, by
      simp only []; rw [← rpow_mul h.le, show -c * -(1 / c) = 1 by field_simp, rpow_one]⟩
    exact if_neg this
  · intro x
    by_cases h : 0 < x
    · rw [hp x h]; have := rpow_pos_of_pos h (-c - 1); positivity
    · exact (if_neg h).ge
  · exact integrableOn_exp_neg
  · exact integral_exp_neg
  · exact integrableOn_rpow_exp (by linarith)
  · rw [integral_rpow_exp (by linarith)]; congr 1
  · refine (integrableOn_rpow_exp (s := -(2 / c)) (by linarith)).congr_fun (fun t ht => ?_) measurableSet_Ioi
    simp only []; rw [rpow_sq_eq ht, show 2 * -(1 / c) = -(2 / c) by ring]
  · rw [show 1 - 2 / c = 1 + -(2 / c) by ring, ← integral_rpow_exp (s := -(2 / c)) (by linarith)]
    refine setIntegral_congr_fun measurableSet_Ioi (fun t ht => ?_)
    rw [rpow_sq_eq ht, show 2 * -(1 / c) = -(2 / c) by ring]

theorem mom_gumbelR : Mom gumbelR.pdf eulerMascheroniConstant (π ^ 2 / 6 + eulerMascheroniConstant ^ 2) := by
  apply mom_push (s := Ioi 0) (h := fun t => -log t) (h' := fun t => -t⁻¹)
    (w := fun t => exp (-t)) measurableSet_Ioi
  · intro t ht; exact (hasDerivAt_log (ne_of_gt ht)).neg
  · intro x hx y hy h
    exact log_injOn_pos hx hy (neg_injective h)
  · intro t ht
    have ht : (0:ℝ) < t := ht
    simp only [gumbelR, neg_neg, exp_log ht]
    rw [abs_neg, abs_of_pos (inv_pos.2 ht), show -(-log t + t) = log t + -t by ring, exp_add, exp_log ht]
    field_simp
  · intro x hx
    exact absurd ⟨exp (-x), exp_pos _, by simp⟩ hx
  · intro x; exact (exp_pos _).le
  · exact integrableOn_exp_neg
  · exact integral_exp_neg
  · refine IntegrableOn.congr_fun (integrableOn_log_exp 1).neg (fun t _ => ?_) measurableSet_Ioi
    simp
  · rw [show (fun t => -log t * exp (-t)) = fun t => -(log t * exp (-t)) by funext; ring, integral_neg,
      integral_log_exp, neg_neg]
  · refine IntegrableOn.congr_fun (integrableOn_log_exp 2) (fun t _ => ?_) measurableSet_Ioi
    simp
  · simp only [neg_sq]; exact integral_log_sq_exp

theorem mom_gumbelL : Mom gumbelL.pdf (-eulerMascheroniConstant) (π ^ 2 / 6 + eulerMascheroniConstant ^ 2) := by
  apply mom_push (s := Ioi 0) (h := fun t => log t) (h' := fun t => t⁻¹)
    (w := fun t => exp (-t)) measurableSet_Ioi
  · intro t ht; exact (hasDerivAt_log (ne_of_gt ht))
  · intro x hx y hy h
    exact log_injOn_pos hx hy h
  · intro t ht
    have ht : (0:ℝ) < t := ht
    simp only [gumbelL, exp_log ht]
    rw [abs_of_pos (inv_pos.2 ht), sub_eq_add_neg, exp_add, exp_log ht]
    field_simp
  · intro x hx
    exact absurd ⟨exp x, exp_pos _, by simp⟩ hx
  · intro x; exact (exp_pos _).le
  · exact integrableOn_exp_neg
  · exact integral_exp_neg
  · refine IntegrableOn.congr_fun (integrableOn_log_exp 1) (fun t _ => ?_) measurableSet_Ioi
    simp
  · exact integral_log_exp
  · exact (integrableOn_log_exp 2)
  · exact integral_log_sq_exp

theorem integral_one_sub_rpow {c : ℝ} (hc : -1 < c) :
    IntegrableOn (fun t : ℝ => (1 - t ^ c) / c * exp (-t)) (Ioi 0) ∧
    ∫ t in Ioi (0:ℝ), (1 - t ^ c) / c * exp (-t) = (1 - Gamma (1 + c)) / c := by
  have e : (fun t : ℝ => (1 - t ^ c) / c * exp (-t)) = fun t => c⁻¹ * (exp (-t) - t ^ c * exp (-t)) := by
    funext t; rw [div_eq_inv_mul]; ring
  rw [e]
  have i : IntegrableOn (fun t : ℝ => exp (-t) - t ^ c * exp (-t)) (Ioi 0) :=
    Integrable.sub integrableOn_exp_neg (integrableOn_rpow_exp hc)
  refine ⟨Integrable.const_mul i _, ?_⟩
  rw [integral_const_mul, integral_sub integrableOn_exp_neg (integrableOn_rpow_exp hc), integral_exp_neg,
    integral_rpow_exp hc]
  rw [div_eq_inv_mul]

theorem mom_genextreme {c : ℝ} (hc : -(1 / 2) < c) (h0 : c ≠ 0) :
    Mom (genextreme c).pdf ((1 - Gamma (1 + c)) / c) ((1 - 2 * Gamma (1 + c) + Gamma (1 + 2 * c)) / c ^ 2) := by
  have hp : ∀ x, 0 < 1 - c * x → (genextreme c).pdf x = exp (-(1 - c * x) ^ (1 / c)) * (1 - c * x) ^ (1 / c - 1) :=
    fun x hx => by simp only [genextreme, if_neg h0, if_pos hx]
  have hsq : ∀ t ∈ Ioi (0:ℝ), ((1 - t ^ c) / c) ^ 2 * exp (-t) =
      (c ^ 2)⁻¹ * ((exp (-t) - 2 * (t ^ c * exp (-t))) + t ^ (2 * c) * exp (-t)) := fun t ht => by
    rw [← rpow_sq_eq ht, div_pow, div_eq_inv_mul]; ring
  have i1 : IntegrableOn (fun t : ℝ => exp (-t) - 2 * (t ^ c * exp (-t))) (Ioi 0) :=
    Integrable.sub integrableOn_exp_neg (Integrable.const_mul (integrableOn_rpow_exp (s := c) (by linarith)) 2)
  have i2 : IntegrableOn (fun t : ℝ => (exp (-t) - 2 * (t ^ c * exp (-t))) + t ^ (2 * c) * exp (-t)) (Ioi 0) :=
    Integrable.add i1 (integrableOn_rpow_exp (by linarith))
  apply mom_push (s := Ioi 0) (h := fun t => (1 - t ^ c) / c) (h' := fun t => -(c * t ^ (c - 1)) / c)
    (w := fun t => exp (-t)) measurableSet_Ioi
  · intro t ht; exact ((hasDerivAt_rpow_const (Or.inl (ne_of_gt ht))).const_sub 1).div_const c
  · intro x hx y hy h
    have h' : (1 - x ^ c) / c = (1 - y ^ c) / c := h
    have : x ^ c = y ^ c := by
      have := congrArg (· * c) h'
      simp only [div_mul_cancel₀ _ h0] at this
      linarith
    exact rpow_left_injOn h0 (mem_Ioi.1 hx).le (mem_Ioi.1 hy).le this
  · intro t ht
    have ht : (0:ℝ) < t := ht
    have e : 1 - c * ((1 - t ^ c) / c) = t ^ c := by field_simp; ring
    have hx : 0 < 1 - c * ((1 - t ^ c) / c) := by rw [e]; exact rpow_pos_of_pos ht c
    rw [hp _ hx, e, ← rpow_mul ht.le, ← rpow_mul ht.le, mul_one_div_cancel h0, rpow_one,
      show -(c * t ^ (c - 1)) / c = -(t ^ (c - 1)) by field_simp, abs_neg, abs_of_pos (rpow_pos_of_pos ht _)]
    have : t ^ (c - 1) * t ^ (c * (1 / c - 1)) = 1 := by
      rw [← rpow_add ht, show c - 1 + c * (1 / c - 1) = 0 by field_simp; ring, rpow_zero]
    calc _ = exp (-t) * (t ^ (c - 1) * t ^ (c * (1 / c - 1))) := by ring
      _ = exp (-t) := by rw [this, mul_one]
  · intro x hx
    have : ¬(0 < 1 - c * x) := fun h => hx ⟨(1 - c * x) ^ (1 / c), rpow_pos_of_pos h _, by
      simp only []
      rw [← rpow_mul h.le, one_div_mul_cancel h0, rpow_one]; field_simp; ring⟩
    simp only [genextreme, if_neg h0, if_neg this]
  · intro x
    by_cases h : 0 < 1 - c * x
    · rw [hp x h]; have := rpow_pos_of_pos h (1 / c - 1); positivity
    · simp only [genextreme, if_neg h0, if_neg h]; exact le_rfl
  · exact integrableOn_exp_neg
  · exact integral_exp_neg
  · exact (integral_one_sub_rpow (by linarith)).1
  · exact (integral_one_sub_rpow (by linarith)).2
  · exact IntegrableOn.congr_fun (Integrable.const_mul i2 ((c ^ 2)⁻¹))
      (fun t ht => (hsq t ht).symm) measurableSet_Ioi
  · rw [setIntegral_congr_fun measurableSet_Ioi hsq, integral_const_mul,
      integral_add i1 (integrableOn_rpow_exp (by linarith)),
      integral_sub integrableOn_exp_neg (Integrable.const_mul (integrableOn_rpow_exp (s := c) (by linarith)) 2),
      integral_const_mul, integral_exp_neg, integral_rpow_exp (by linarith), integral_rpow_exp (by linarith)]
    rw [div_eq_inv_mul]

theorem mom_gamma {a : ℝ} (ha : 0 < a) : Mom (gamma a).pdf a (a * (a + 1)) := by
  have hG := Gamma_pos_of_pos ha
  have i : ∀ k : ℝ, 0 ≤ k → IntegrableOn (fun t : ℝ => t ^ k * (t ^ (a - 1) * exp (-t) / Gamma a)) (Ioi 0) ∧
      ∫ t in Ioi (0:ℝ), t ^ k * (t ^ (a - 1) * exp (-t) / Gamma a) = Gamma (a + k) / Gamma a := fun k hk => by
    have e : ∀ t ∈ Ioi (0:ℝ), t ^ k * (t ^ (a - 1) * exp (-t) / Gamma a) =
        (Gamma a)⁻¹ * (t ^ (k + (a - 1)) * exp (-t)) := fun t ht => by
      rw [rpow_add ht, div_eq_inv_mul]; ring
    constructor
    · exact IntegrableOn.congr_fun
        (Integrable.const_mul (integrableOn_rpow_exp (s := k + (a - 1)) (by linarith)) ((Gamma a)⁻¹))
        (fun t ht => (e t ht).symm) measurableSet_Ioi
    · rw [setIntegral_congr_fun measurableSet_Ioi e, integral_const_mul, integral_rpow_exp (by linarith),
        show 1 + (k + (a - 1)) = a + k by ring, div_eq_inv_mul]
  have r2 : ∀ t : ℝ, t ^ (2:ℝ) = t ^ 2 := fun t => by exact_mod_cast rpow_natCast t 2
  have j0 := i 0 le_rfl
  have j1 := i 1 (by norm_num)
  have j2 := i 2 (by norm_num)
  simp only [rpow_zero, one_mul, rpow_one, r2, add_zero] at j0 j1 j2
  apply mom_push (s := Ioi 0) (h := fun t => t) (h' := fun _ => 1)
    (w := fun t => t ^ (a - 1) * exp (-t) / Gamma a) measurableSet_Ioi
  · intro t _; exact hasDerivAt_id t
  · exact fun x _ y _ h => h
  · intro t ht
    rw [gamma_pdf_eq, indicator_of_mem ht]; simp
  · intro x hx
    rw [gamma_pdf_eq, indicator_of_notMem]
    exact fun h => hx ⟨x, h, rfl⟩
  · intro x
    rw [gamma_pdf_eq]
    apply indicator_nonneg
    intro x hx
    have : (0:ℝ) < x ^ (a - 1) := rpow_pos_of_pos hx _
    positivity
  · exact j0.1
  · rw [j0.2, div_self hG.ne']
  · exact j1.1
  · rw [j1.2, Gamma_add_one ha.ne', mul_div_cancel_right₀ _ hG.ne']
  · exact j2.1
  · rw [j2.2, show a + 2 = (a + 1) + 1 by ring, Gamma_add_one (by linarith), Gamma_add_one ha.ne']
    field_simp

theorem mom_betaDist {a b : ℝ} (ha : 0 < a) (hb : 0 < b) :
    Mom (betaDist a b).pdf (a / (a + b)) (a * (a + 1) / ((a + b) * (a + b + 1))) := by
  have hGa := Gamma_pos_of_pos ha
  have hGab := Gamma_pos_of_pos (add_pos ha hb)
  have hGb := Gamma_pos_of_pos hb
  have shift : ∀ a' : ℝ, 0 < a' → ∀ x, x * (betaDist a' b).pdf x = a' / (a' + b) * (betaDist (a' + 1) b).pdf x := by
    intro a' ha' x
    have hGa := Gamma_pos_of_pos ha'
    have hGab := Gamma_pos_of_pos (add_pos ha' hb)
    by_cases h : 0 < x ∧ x < 1
    · simp only [betaDist, if_pos h]
      rw [show a' + 1 + b = a' + b + 1 by ring, Gamma_add_one ha'.ne', Gamma_add_one (add_pos ha' hb).ne',
        show a' + 1 - 1 = (a' - 1) + 1 by ring, rpow_add_one h.1.ne']
      field_simp
    · simp only [betaDist, if_neg h, mul_zero]
  obtain ⟨i0, e0⟩ := integrable_betaDist ha hb
  obtain ⟨i1, e1⟩ := integrable_betaDist (a := a + 1) (by linarith) hb
  obtain ⟨i2, e2⟩ := integrable_betaDist (a := a + 1 + 1) (by linarith) hb
  have f1 : (fun x => x * (betaDist a b).pdf x) = fun x => a / (a + b) * (betaDist (a + 1) b).pdf x :=
    funext (shift a ha)
  have f2 : (fun x => x ^ 2 * (betaDist a b).pdf x) =
      fun x => a / (a + b) * ((a + 1) / (a + 1 + b) * (betaDist (a + 1 + 1) b).pdf x) := by
    funext x
    rw [← shift (a + 1) (by linarith), sq, mul_assoc, shift a ha]; ring
  refine ⟨betaDist_nonneg ha hb, i0, e0, ?_, ?_, ?_, ?_⟩
  · rw [f1]; exact i1.const_mul _
  · rw [f1, integral_const_mul, e1, mul_one]
  · rw [f2]; exact (i2.const_mul _).const_mul _
  · rw [f2, integral_const_mul, integral_const_mul, e2]
    have : a + b ≠ 0 := by positivity
    have : a + 1 + b ≠ 0 := by positivity
    have : a + b + 1 ≠ 0 := by positivity
    field_simp
    ring

/-! log-normal -/

theorem exp_mul_pdf (t y : ℝ) : exp (t * y) * StdNormal.pdf y = exp (t ^ 2 / 2) * StdNormal.pdf (y - t) := by
  unfold StdNormal.pdf
  rw [← mul_div_assoc, ← mul_div_assoc, ← exp_add, ← exp_add]
  congr 2; ring

theorem integrable_exp_mul_pdf (t : ℝ) : Integrable (fun y => exp (t * y) * StdNormal.pdf y) := by
  simp only [exp_mul_pdf]
  exact (StdNormal.integrable_pdf.comp_sub_right t).const_mul _

theorem integral_exp_mul_pdf (t : ℝ) : ∫ y, exp (t * y) * StdNormal.pdf y = exp (t ^ 2 / 2) := by
  simp only [exp_mul_pdf]
  rw [integral_const_mul, integral_sub_right_eq_self StdNormal.pdf t, StdNormal.integral_pdf, mul_one]

theorem lognorm_pdf {s : ℝ} (hs : 0 < s) {x : ℝ} (hx : 0 < x) :
    (lognorm s).pdf x = StdNormal.pdf (log x / s) / (s * x) := by
  simp only [lognorm, if_pos hx, StdNormal.pdf]
  rw [show -0.5 * (log x / s) ^ 2 = -log x ^ 2 / (2 * s ^ 2) by field_simp; norm_num; ring]
  field_simp

theorem mom_lognorm {s : ℝ} (hs : 0 < s) : Mom (lognorm s).pdf (exp (s ^ 2 / 2)) (exp (2 * s ^ 2)) := by
  apply mom_push (s := univ) (h := fun y => exp (s * y)) (h' := fun y => exp (s * y) * (s * 1))
    (w := StdNormal.pdf) MeasurableSet.univ
  · intro y _; exact ((hasDerivAt_id y).const_mul s).exp
  · intro x _ y _ h
    have := exp_injective h
    exact mul_left_cancel₀ hs.ne' this
  · intro y _
    rw [lognorm_pdf hs (exp_pos _), log_exp, mul_div_cancel_left₀ _ hs.ne', abs_of_pos (by positivity)]
    field_simp
  · intro x hx
    have : ¬(0 < x) := fun h => hx ⟨log x / s, trivial, by
      simp only []; rw [mul_div_cancel₀ _ hs.ne', exp_log h]⟩
    exact if_neg this
  · intro x
    by_cases h : 0 < x
    · rw [lognorm_pdf hs h]; have := StdNormal.pdf_pos (log x / s); positivity
    · exact (if_neg h).ge
  · simpa using StdNormal.integrable_pdf
  · simpa using StdNormal.integral_pdf
  · simpa using integrable_exp_mul_pdf s
  · simpa using integral_exp_mul_pdf s
  · have : ∀ y, exp (s * y) ^ 2 * StdNormal.pdf y = exp (2 * s * y) * StdNormal.pdf y := fun y => by
      rw [← exp_nat_mul]; congr 2; push_cast; ring
    simp only [this]
    simpa using integrable_exp_mul_pdf (2 * s)
  · have : ∀ y, exp (s * y) ^ 2 * StdNormal.pdf y = exp (2 * s * y) * StdNormal.pdf y := fun y => by
      rw [← exp_nat_mul]; congr 2; push_cast; ring
    simp only [this]
    rw [setIntegral_univ, integral_exp_mul_pdf]; congr 1; ring

/-! normal -/

theorem integral_id_mul_pdf : Integrable (fun y => y * StdNormal.pdf y) ∧ ∫ y, y * StdNormal.pdf y = 0 ∧
    Integrable (fun y => y ^ 2 * StdNormal.pdf y) ∧ ∫ y, y ^ 2 * StdNormal.pdf y = 1 := by
  have hI : ∀ n : ℕ, Integrable (fun y => y ^ n * StdNormal.pdf y) := fun n => by
    have h := ProbabilityTheory.memLp_id_gaussianReal (μ := 0) (v := 1) (n : NNReal)
    have h2 : Integrable (fun y : ℝ => y ^ n) (ProbabilityTheory.gaussianReal 0 1) := by
      have h3 := (MemLp.integrable_norm_pow' (p := n) (by simpa using h))
      have h4 : Integrable (fun y : ℝ => ‖y ^ n‖) (ProbabilityTheory.gaussianReal 0 1) := by
        simpa [norm_pow] using h3
      exact (integrable_norm_iff (by fun_prop)).1 h4
    rw [ProbabilityTheory.gaussianReal_of_var_ne_zero _ one_ne_zero,
      integrable_withDensity_iff (ProbabilityTheory.measurable_gaussianPDF 0 1)
        (Eventually.of_forall fun x => ProbabilityTheory.gaussianPDF_lt_top)] at h2
    refine h2.congr (Eventually.of_forall fun y => ?_)
    simp only [ProbabilityTheory.toReal_gaussianPDF, StdNormal.pdf_eq_gaussian]
  refine ⟨by simpa using hI 1, ?_, hI 2, ?_⟩
  · have h := ProbabilityTheory.integral_id_gaussianReal (μ := 0) (v := 1)
    rw [ProbabilityTheory.integral_gaussianReal_eq_integral_smul one_ne_zero] at h
    rw [← h]
    apply integral_congr_ae
    filter_upwards with y
    rw [StdNormal.pdf_eq_gaussian, smul_eq_mul, mul_comm]
  · have h := ProbabilityTheory.variance_id_gaussianReal (μ := 0) (v := 1)
    rw [ProbabilityTheory.variance_eq_integral (by fun_prop)] at h
    simp only [id, ProbabilityTheory.integral_id_gaussianReal, sub_zero] at h
    rw [ProbabilityTheory.integral_gaussianReal_eq_integral_smul one_ne_zero] at h
    simp only [NNReal.coe_one] at h
    rw [← h]
    apply integral_congr_ae
    filter_upwards with y
    rw [StdNormal.pdf_eq_gaussian, smul_eq_mul, mul_comm]

/-- The standard normal law as a frozen distribution. -/
noncomputable def norm : Frozen := ⟨StdNormal.pdf, StdNormal.cdf, StdNormal.ppf⟩

theorem mom_norm : Mom norm.pdf 0 1 := by
  obtain ⟨h1, h2, h3, h4⟩ := integral_id_mul_pdf
  exact ⟨fun x => (StdNormal.pdf_pos x).le, StdNormal.integrable_pdf, StdNormal.integral_pdf, h1, h2, h3, h4⟩

theorem regular_norm : Regular norm univ where
  mem01 x _ := ⟨StdNormal.cdf_pos x, StdNormal.cdf_lt_one x⟩
  mono := StdNormal.strictMono_cdf.strictMonoOn _
  inv _ h0 h1 := ⟨trivial, StdNormal.cdf_ppf h0 h1⟩
  deriv x _ := StdNormal.hasDerivAt_cdf x

end Frozen
end Pystra
