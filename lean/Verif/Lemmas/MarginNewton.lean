import Mathlib.Analysis.Calculus.Deriv.MeanValue
import Mathlib.Analysis.Calculus.Deriv.Comp
import Mathlib.Analysis.Calculus.Deriv.Add
import Mathlib.Tactic.Linarith
import Mathlib.Tactic.FieldSimp
import Mathlib.Tactic.Ring

/-! Newton's method for a function of one variable with a positive, monotone derivative. -/

namespace Pystra.Props

/-- A norm of the line that weighs the two sides differently. -/
noncomputable def sided (p q t : ℝ) : ℝ := p * max t 0 + q * max (-t) 0

theorem sided_of_nonneg {p q t : ℝ} (h : 0 ≤ t) : sided p q t = p * t := by
  unfold sided; rw [max_eq_left h, max_eq_right (by linarith), mul_zero, add_zero]

theorem sided_of_nonpos {p q t : ℝ} (h : t ≤ 0) : sided p q t = q * -t := by
  unfold sided; rw [max_eq_right h, max_eq_left (by linarith), mul_zero, zero_add]

theorem sided_neg (p q t : ℝ) : sided p q (-t) = sided q p t := by
  unfold sided; rw [neg_neg, add_comm]

theorem abs_le_sided {p q : ℝ} (hp : 1 ≤ p) (hq : 1 ≤ q) (t : ℝ) : |t| ≤ sided p q t := by
  rcases le_total 0 t with h | h
  · rw [sided_of_nonneg h, abs_of_nonneg h]; nlinarith
  · rw [sided_of_nonpos h, abs_of_nonpos h]; nlinarith

theorem sided_le {p q : ℝ} (t : ℝ) : sided p q t ≤ max p q * |t| := by
  rcases le_total 0 t with h | h
  · rw [sided_of_nonneg h, abs_of_nonneg h]; exact mul_le_mul_of_nonneg_right (le_max_left _ _) h
  · rw [sided_of_nonpos h, abs_of_nonpos h]; exact mul_le_mul_of_nonneg_right (le_max_right _ _) (by linarith)

theorem sided_convex {p q : ℝ} (hp : 1 ≤ p) (hq : 1 ≤ q) {st : ℝ} (h0 : 0 ≤ st) (h1 : st ≤ 1) (x y : ℝ) :
    sided p q ((1 - st) * x + st * y) ≤ (1 - st) * sided p q x + st * sided p q y := by
  unfold sided
  have hs : 0 ≤ 1 - st := by linarith
  have e1 : max ((1 - st) * x + st * y) 0 ≤ (1 - st) * max x 0 + st * max y 0 := by
    refine max_le ?_ ?_
    · have := mul_le_mul_of_nonneg_left (le_max_left x 0) hs
      have := mul_le_mul_of_nonneg_left (le_max_left y 0) h0
      linarith
    · exact add_nonneg (mul_nonneg hs (le_max_right _ _)) (mul_nonneg h0 (le_max_right _ _))
  have e2 : max (-((1 - st) * x + st * y)) 0 ≤ (1 - st) * max (-x) 0 + st * max (-y) 0 := by
    refine max_le ?_ ?_
    · have := mul_le_mul_of_nonneg_left (le_max_left (-x) 0) hs
      have := mul_le_mul_of_nonneg_left (le_max_left (-y) 0) h0
      linarith
    · exact add_nonneg (mul_nonneg hs (le_max_right _ _)) (mul_nonneg h0 (le_max_right _ _))
  have h2 := mul_le_mul_of_nonneg_left e1 (by linarith : 0 ≤ p)
  have h3 := mul_le_mul_of_nonneg_left e2 (by linarith : 0 ≤ q)
  linarith

theorem slope_between {φ φ' : ℝ → ℝ} (h0 : φ 0 = 0) (hd : ∀ t, HasDerivAt φ (φ' t) t) (hm : Monotone φ') :
    (∀ t, 0 ≤ t → ∃ d, φ t = d * t ∧ φ' 0 ≤ d ∧ d ≤ φ' t) ∧ (∀ t, t ≤ 0 → ∃ d, φ t = d * t ∧ φ' t ≤ d ∧ d ≤ φ' 0) := by
  have hc : Continuous φ := continuous_iff_continuousAt.2 fun t => (hd t).continuousAt
  constructor
  · intro t ht
    rcases ht.eq_or_lt with h | h
    · subst h; exact ⟨φ' 0, by rw [h0, mul_zero], le_rfl, le_rfl⟩
    · obtain ⟨c, ⟨h1, h2⟩, h3⟩ := exists_hasDerivAt_eq_slope φ φ' h hc.continuousOn (fun x _ => hd x)
      refine ⟨φ' c, ?_, hm h1.le, hm h2.le⟩
      rw [h3, h0]; field_simp; ring
  · intro t ht
    rcases ht.eq_or_lt with h | h
    · subst h; exact ⟨φ' 0, by rw [h0, mul_zero], le_rfl, le_rfl⟩
    · obtain ⟨c, ⟨h1, h2⟩, h3⟩ := exists_hasDerivAt_eq_slope φ φ' h hc.continuousOn (fun x _ => hd x)
      refine ⟨φ' c, ?_, hm h1.le, hm h2.le⟩
      rw [h3, h0]; have := h.ne; field_simp; ring

theorem newton_monotone {φ φ' : ℝ → ℝ} (h0 : φ 0 = 0) (hd : ∀ t, HasDerivAt φ (φ' t) t) (hpos : ∀ t, 0 < φ' t) (hm : Monotone φ') (T : ℝ)
    (hT : 0 < T) : ∃ q ρ C : ℝ, 1 ≤ q ∧ 0 < ρ ∧ ρ < 1 ∧ 1 ≤ C ∧ ∀ t, sided 1 q t ≤ q * T →
      sided 1 q (t - φ t / φ' t) ≤ ρ * sided 1 q t ∧ |φ t| ≤ C * |t| ∧ |t| ≤ C * |φ t| := by
  obtain ⟨hp, hn⟩ := slope_between h0 hd hm
  obtain ⟨q, hq⟩ : ∃ q, q = φ' 0 / φ' (-T) := ⟨_, rfl⟩
  have hq1 : 1 ≤ q := by rw [hq, le_div_iff₀ (hpos _), one_mul]; exact hm (by linarith)
  obtain ⟨r, hr⟩ : ∃ r, r = φ' 0 / φ' (q * T) := ⟨_, rfl⟩
  have hqT : 0 < q * T := by positivity
  have hr0 : 0 < r := by rw [hr]; exact div_pos (hpos _) (hpos _)
  have hr1 : r ≤ 1 := by rw [hr, div_le_one (hpos _)]; exact hm hqT.le
  have hqi : 0 < 1 / q := by positivity
  have hqi1 : 1 / q ≤ 1 := by rw [div_le_one (by linarith)]; exact hq1
  have hm0 : 0 < min r (1 / q) := lt_min hr0 hqi
  have hm1 : min r (1 / q) ≤ 1 := min_le_of_left_le hr1
  refine ⟨q, 1 - min r (1 / q) / 2, max 1 (max (φ' (q * T)) (1 / φ' (-T))), hq1, by linarith, by linarith, le_max_left _ _, fun t ht => ?_⟩
  have hρ : ∀ x, 0 ≤ x → (1 - min r (1 / q)) * x ≤ (1 - min r (1 / q) / 2) * x := fun x hx =>
    mul_le_mul_of_nonneg_right (by linarith) hx
  have hbounds : ∀ d, φ' (-T) ≤ d → d ≤ φ' (q * T) → φ t = d * t →
      |φ t| ≤ max 1 (max (φ' (q * T)) (1 / φ' (-T))) * |t| ∧ |t| ≤ max 1 (max (φ' (q * T)) (1 / φ' (-T))) * |φ t| := by
    intro d h1 h2 e
    have hd0 : 0 < d := lt_of_lt_of_le (hpos _) h1
    rw [e, abs_mul, abs_of_pos hd0]
    constructor
    · exact mul_le_mul_of_nonneg_right (h2.trans ((le_max_left _ _).trans (le_max_right _ _))) (abs_nonneg _)
    · have h3 : 1 / φ' (-T) ≤ max 1 (max (φ' (q * T)) (1 / φ' (-T))) := (le_max_right _ _).trans (le_max_right _ _)
      have h4 : 1 ≤ 1 / φ' (-T) * d := by rw [div_mul_eq_mul_div, one_mul, le_div_iff₀ (hpos _), one_mul]; exact h1
      have h5 : 1 / φ' (-T) * d ≤ max 1 (max (φ' (q * T)) (1 / φ' (-T))) * d := mul_le_mul_of_nonneg_right h3 hd0.le
      have h6 := mul_le_mul_of_nonneg_right (h4.trans h5) (abs_nonneg t)
      linarith
  rcases le_total 0 t with h | h
  · rw [sided_of_nonneg h, one_mul] at ht
    obtain ⟨d, e, h1, h2⟩ := hp t h
    have ht' := hm ht
    refine ⟨?_, hbounds d ((hm (by linarith)).trans h1) (h2.trans ht') e⟩
    have hφ := hpos t
    have e1 : t - φ t / φ' t = (1 - d / φ' t) * t := by rw [e]; field_simp
    have hd1 : d / φ' t ≤ 1 := by rw [div_le_one hφ]; exact h2
    have hd2 : r ≤ d / φ' t := by
      rw [hr, div_le_div_iff₀ (hpos _) hφ]
      exact mul_le_mul h1 ht' hφ.le ((hpos 0).le.trans h1)
    rw [e1, sided_of_nonneg (mul_nonneg (by linarith) h), sided_of_nonneg h, one_mul, one_mul]
    refine le_trans ?_ (hρ t h)
    exact mul_le_mul_of_nonneg_right (by linarith [min_le_left r (1 / q)]) h
  · rw [sided_of_nonpos h] at ht
    have htT : -T ≤ t := by
      have := le_of_mul_le_mul_left ht (by linarith : 0 < q)
      linarith
    obtain ⟨d, e, h1, h2⟩ := hn t h
    refine ⟨?_, hbounds d ((hm htT).trans h1) (h2.trans (hm hqT.le)) e⟩
    have hφ := hpos t
    have e1 : t - φ t / φ' t = (d / φ' t - 1) * -t := by rw [e]; field_simp; ring
    have hd1 : 1 ≤ d / φ' t := by rw [one_le_div hφ]; exact h1
    have hd2 : d / φ' t ≤ q := by
      rw [hq, div_le_div_iff₀ hφ (hpos _)]
      exact mul_le_mul h2 (hm htT) (hpos _).le (hpos 0).le
    rw [e1, sided_of_nonneg (mul_nonneg (by linarith) (by linarith)), sided_of_nonpos h, one_mul]
    have hx : 0 ≤ q * -t := by apply mul_nonneg <;> linarith
    refine le_trans ?_ (hρ _ hx)
    have h3 : (q - 1) * -t = (1 - 1 / q) * (q * -t) := by field_simp
    calc (d / φ' t - 1) * -t ≤ (q - 1) * -t := mul_le_mul_of_nonneg_right (by linarith) (by linarith)
      _ = (1 - 1 / q) * (q * -t) := h3
      _ ≤ _ := mul_le_mul_of_nonneg_right (by linarith [min_le_right r (1 / q)]) hx

/-- Newton's method for `φ t = 0` contracts in a two-sided norm on a neighbourhood of 0 that contains `[-T, T]`. -/
theorem newton_sided {φ φ' : ℝ → ℝ} (h0 : φ 0 = 0) (hd : ∀ t, HasDerivAt φ (φ' t) t) (hpos : ∀ t, 0 < φ' t)
    (hm : Monotone φ' ∨ Antitone φ') (T : ℝ) (hT : 0 < T) :
    ∃ p q ρ C : ℝ, 1 ≤ p ∧ 1 ≤ q ∧ 0 < ρ ∧ ρ < 1 ∧ 1 ≤ C ∧ ∀ t, sided p q t ≤ max p q * T →
      sided p q (t - φ t / φ' t) ≤ ρ * sided p q t ∧ |φ t| ≤ C * |t| ∧ |t| ≤ C * |φ t| := by
  rcases hm with hm | hm
  · obtain ⟨q, ρ, C, h1, h2, h3, h4, h5⟩ := newton_monotone h0 hd hpos hm T hT
    exact ⟨1, q, ρ, C, le_rfl, h1, h2, h3, h4, fun t ht => h5 t (by rwa [max_eq_right h1] at ht)⟩
  · have hd' : ∀ t, HasDerivAt (fun t => -φ (-t)) (φ' (-t)) t := by
      intro t
      have := ((hd (-t)).comp t (hasDerivAt_neg t)).neg
      refine (this.congr_deriv (by simp)).congr_of_eventuallyEq ?_
      exact Filter.Eventually.of_forall fun x => rfl
    obtain ⟨q, ρ, C, h1, h2, h3, h4, h5⟩ := newton_monotone (φ := fun t => -φ (-t)) (φ' := fun t => φ' (-t)) (by simp [h0]) hd'
      (fun t => hpos _) (fun a b hab => hm (by linarith)) T hT
    refine ⟨q, 1, ρ, C, h1, le_rfl, h2, h3, h4, fun t ht => ?_⟩
    have h6 := h5 (-t) (by rw [max_eq_left h1] at ht; rwa [sided_neg])
    simp only [neg_neg, abs_neg] at h6
    refine ⟨?_, h6.2⟩
    have e : -t - -φ t / φ' t = -(t - φ t / φ' t) := by ring
    rw [e, sided_neg, sided_neg] at h6
    exact h6.1

end Pystra.Props
