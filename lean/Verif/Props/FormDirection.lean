import Verif.Props.Form
import Mathlib.Analysis.Calculus.Deriv.Basic
import Mathlib.Analysis.Calculus.FDeriv.Pi
import Mathlib.Analysis.Calculus.Deriv.Add
import Mathlib.Analysis.Calculus.Deriv.Mul

/-! C32: the search direction. -/

namespace Pystra.Props
open Matrix Spec Transformation Form

variable {n : ℕ}

theorem dot_eq_sum (u v : Fin n → ℝ) : u ⬝ᵥ v = ∑ i, u i * v i := rfl

theorem direction_eq (G : ℝ) (g u : Fin n → ℝ) :
    direction G g (alpha g) u = (G * (norm2 g)⁻¹ + alpha g ⬝ᵥ u) • alpha g - u := by
  funext i; simp [direction]

/-- The linearised limit state vanishes at `u + d`: `∇·d = -G`. -/
theorem grad_dot_direction (G : ℝ) {g : Fin n → ℝ} (hg : g ≠ 0) (u : Fin n → ℝ) :
    g ⬝ᵥ direction G g (alpha g) u = -G := by
  have := norm2_ne hg
  rw [direction_eq, dotProduct_sub, dotProduct_smul, grad_alpha hg, alpha_dot, smul_eq_mul]
  field_simp
  ring

/-- C32: `u + d` lies on the linearised limit-state surface `G + ∇·(w - u) = 0`, and it is the only point of that
surface at minimal distance from the origin. -/
theorem C32_closest_point (G : ℝ) {g : Fin n → ℝ} (hg : g ≠ 0) (u : Fin n → ℝ) :
    let w : Fin n → ℝ := fun i => u i + direction G g (alpha g) u i
    G + ∑ i, g i * (w i - u i) = 0 ∧
    ∀ v : Fin n → ℝ, G + ∑ i, g i * (v i - u i) = 0 → v ≠ w → len w < len v := by
  intro w
  have hd := grad_dot_direction G hg u
  rw [dot_eq_sum] at hd
  refine ⟨by simp only [w, add_sub_cancel_left, hd]; ring, ?_⟩
  intro v hv hne
  set k := G * (norm2 g)⁻¹ + alpha g ⬝ᵥ u with hk
  have hw : w = k • alpha g := by
    funext i; simp only [w, direction_eq, ← hk]; simp
  have hgv : g ⬝ᵥ v = g ⬝ᵥ w := by
    have h1 : g ⬝ᵥ v = g ⬝ᵥ u - G := by
      have : ∑ i, g i * (v i - u i) = g ⬝ᵥ v - g ⬝ᵥ u := by
        simp [dot_eq_sum, mul_sub, Finset.sum_sub_distrib]
      rw [this] at hv; linarith
    have h2 : g ⬝ᵥ w = g ⬝ᵥ u - G := by
      have : g ⬝ᵥ w = g ⬝ᵥ u + g ⬝ᵥ direction G g (alpha g) u := by
        rw [← dotProduct_add]; rfl
      rw [this, grad_dot_direction G hg u]; ring
    rw [h1, h2]
  have hperp : w ⬝ᵥ (v - w) = 0 := by
    have h0 : g ⬝ᵥ (v - w) = 0 := by rw [dotProduct_sub, hgv, sub_self]
    have h1 : w = (k * -(norm2 g)⁻¹) • g := by rw [hw, alpha_eq, smul_smul]
    generalize v - w = z at h0
    rw [h1, smul_dotProduct, h0, smul_zero]
  have hsq : norm2 v ^ 2 = norm2 w ^ 2 + norm2 (v - w) ^ 2 := by
    have e : v = w + (v - w) := by abel
    have := congrArg (fun z => z ⬝ᵥ z) e
    simp only [dot_self] at this
    rw [this, ← dot_self, add_dotProduct, dotProduct_add, dotProduct_add, hperp, dotProduct_comm (v - w) w, hperp,
      dot_self, dot_self]
    ring
  have hpos := norm2_pos (sub_ne_zero.2 hne)
  have h1 : norm2 w ^ 2 < norm2 v ^ 2 := by rw [hsq]; nlinarith
  exact lt_of_pow_lt_pow_left₀ 2 (norm2_nonneg v) h1

/-- C32: the direction vanishes exactly where the limit state is zero and `u` is parallel to the gradient. -/
theorem C32_zero_iff (G : ℝ) {g : Fin n → ℝ} (hg : g ≠ 0) (u : Fin n → ℝ) :
    (∀ i, direction G g (alpha g) u i = 0) ↔ G = 0 ∧ ∃ c : ℝ, ∀ i, u i = c * g i := by
  have hN := norm2_ne hg
  constructor
  · intro h
    have h' : direction G g (alpha g) u = 0 := funext h
    have h1 := grad_dot_direction G hg u
    rw [h', dotProduct_zero] at h1
    refine ⟨by linarith, -((G * (norm2 g)⁻¹ + alpha g ⬝ᵥ u) * (norm2 g)⁻¹), fun i => ?_⟩
    have := h i
    simp only [direction, alpha] at this ⊢
    linarith
  · rintro ⟨rfl, c, hc⟩ i
    have hu : u = c • g := funext hc
    subst hu
    simp only [direction, alpha_dot, dotProduct_smul, dot_self, alpha]
    simp only [Pi.smul_apply, smul_eq_mul]
    field_simp
    ring

theorem abs_dot_le (u v : Fin n → ℝ) : |u ⬝ᵥ v| ≤ norm2 u * norm2 v := by
  apply abs_le_of_sq_le_sq _ (mul_nonneg (norm2_nonneg _) (norm2_nonneg _))
  rw [mul_pow, norm2_sq, norm2_sq]
  exact Finset.sum_mul_sq_le_sq_mul_sq _ _ _

/-- The slope of the merit function along the direction is negative. -/
theorem slope_neg (G : ℝ) {g : Fin n → ℝ} (hg : g ≠ 0) (u : Fin n → ℝ) {c : ℝ} (hc : norm2 u / norm2 g < c)
    (hd : direction G g (alpha g) u ≠ 0) : u ⬝ᵥ direction G g (alpha g) u - c * |G| < 0 := by
  have hN := norm2_pos hg
  have hun := alpha_unit hg
  have e : u ⬝ᵥ direction G g (alpha g) u = (alpha g ⬝ᵥ u) * (G / norm2 g) - err2 u (alpha g) ^ 2 := by
    rw [direction_eq, dotProduct_sub, dotProduct_smul, dot_self, err2_sq hun, dotProduct_comm u, smul_eq_mul]
    ring
  have hau : |alpha g ⬝ᵥ u| ≤ norm2 u := by
    have := abs_dot_le (alpha g) u
    have h1 : norm2 (alpha g) = 1 := by
      have := hun; rw [dot_self] at this
      nlinarith [norm2_nonneg (alpha g)]
    rwa [h1, one_mul] at this
  have hb : (alpha g ⬝ᵥ u) * (G / norm2 g) ≤ norm2 u / norm2 g * |G| := by
    calc (alpha g ⬝ᵥ u) * (G / norm2 g) ≤ |(alpha g ⬝ᵥ u) * (G / norm2 g)| := le_abs_self _
      _ = |alpha g ⬝ᵥ u| * (|G| / norm2 g) := by rw [abs_mul, abs_div, abs_of_pos hN]
      _ ≤ norm2 u * (|G| / norm2 g) := mul_le_mul_of_nonneg_right hau (by positivity)
      _ = _ := by ring
  by_cases hG : G = 0
  · subst hG
    have h1 : err2 u (alpha g) ≠ 0 := by
      intro h0
      apply hd
      have : (fun i => u i - (alpha g ⬝ᵥ u) * alpha g i) = 0 := by
        by_contra hne
        exact norm2_ne hne h0
      funext i
      have := congrFun this i
      simp only [Pi.zero_apply] at this ⊢
      simp only [direction]
      linarith
    have h2 : 0 < err2 u (alpha g) ^ 2 := by positivity
    rw [e]; simp only [zero_div, mul_zero, abs_zero]; linarith
  · have h1 : 0 < |G| := abs_pos.2 hG
    have h2 : norm2 u / norm2 g * |G| < c * |G| := mul_lt_mul_of_pos_right hc h1
    have h3 : 0 ≤ err2 u (alpha g) ^ 2 := sq_nonneg _
    rw [e]; linarith

/-- C32: descent. Let `f` be the limit state as a function of `u`, differentiable at `u` with value `G` and gradient
`∇ ≠ 0`. Whenever the direction is nonzero and `c > |u|/|∇|`, all sufficiently small steps along it strictly reduce the
merit `½|·|² + c|f(·)|`. -/
theorem C32_descent (f : (Fin n → ℝ) → ℝ) (u g : Fin n → ℝ) (hg : g ≠ 0) (hf : HasFDerivAt f (gradMap g) u) {c : ℝ}
    (hc : len u / len g < c) :
    let d := direction (f u) g (alpha g) u
    d ≠ 0 → ∃ δ > 0, ∀ s : ℝ, 0 < s → s < δ →
      len (fun i => u i + s * d i) ^ 2 / 2 + c * |f (fun i => u i + s * d i)| < len u ^ 2 / 2 + c * |f u| := by
  intro d hd
  have hc' : norm2 u / norm2 g < c := hc
  have hslope := slope_neg (f u) hg u hc' hd
  change u ⬝ᵥ d - c * |f u| < 0 at hslope
  have hcpos : 0 < c := lt_of_le_of_lt (div_nonneg (norm2_nonneg _) (norm2_nonneg _)) hc'
  set η := -(u ⬝ᵥ d - c * |f u|) with hη
  have hηpos : 0 < η := by linarith
  -- the limit state along the ray
  have hline : HasDerivAt (fun s : ℝ => u + s • d) d 0 := by
    have := ((hasDerivAt_id (0:ℝ)).smul_const d).const_add u
    simpa using this
  have hf0 : HasFDerivAt f (gradMap g) (u + (0:ℝ) • d) := by simpa using hf
  have hcomp : HasDerivAt (fun s : ℝ => f (u + s • d)) (-(f u)) 0 := by
    have := hf0.comp_hasDerivAt (0:ℝ) hline
    rw [gradMap_apply, ← dot_eq_sum] at this
    have e : g ⬝ᵥ d = -(f u) := grad_dot_direction (f u) hg u
    rw [e] at this
    exact this
  rw [hasDerivAt_iff_isLittleO] at hcomp
  have hsmall := hcomp.bound (c := η / (4 * c)) (by positivity)
  rw [Metric.eventually_nhds_iff] at hsmall
  obtain ⟨ε, hε, hs⟩ := hsmall
  refine ⟨min (min ε 1) (η / (2 * (norm2 d ^ 2 + 1))), by positivity, ?_⟩
  intro s hs0 hsδ
  have h1 : s < ε := lt_of_lt_of_le hsδ ((min_le_left _ _).trans (min_le_left _ _))
  have h2 : s < 1 := lt_of_lt_of_le hsδ ((min_le_left _ _).trans (min_le_right _ _))
  have h3 : s < η / (2 * (norm2 d ^ 2 + 1)) := lt_of_lt_of_le hsδ (min_le_right _ _)
  have hb := hs (y := s) (by rw [Real.dist_eq, sub_zero, abs_of_pos hs0]; exact h1)
  simp only [zero_smul, add_zero, sub_zero, smul_eq_mul, Real.norm_eq_abs, abs_of_pos hs0] at hb
  have efun : (fun i => u i + s * d i) = u + s • d := by funext i; simp
  rw [efun]
  have hval : |f (u + s • d)| ≤ (1 - s) * |f u| + η / (4 * c) * s := by
    have h4 : f (u + s • d) = (f (u + s • d) - f u - s * -f u) + (1 - s) * f u := by ring
    calc |f (u + s • d)| = |(f (u + s • d) - f u - s * -f u) + (1 - s) * f u| := by rw [← h4]
      _ ≤ |f (u + s • d) - f u - s * -f u| + |(1 - s) * f u| := abs_add_le _ _
      _ ≤ η / (4 * c) * s + (1 - s) * |f u| := by
        rw [abs_mul (1 - s), abs_of_pos (by linarith : 0 < 1 - s)]; linarith
      _ = _ := by ring
  have hlen : len (u + s • d) ^ 2 = norm2 u ^ 2 + 2 * s * (u ⬝ᵥ d) + s ^ 2 * norm2 d ^ 2 := by
    change norm2 (u + s • d) ^ 2 = _
    rw [← dot_self, ← dot_self, ← dot_self]
    simp only [add_dotProduct, dotProduct_add, smul_dotProduct, dotProduct_smul, smul_eq_mul, dotProduct_comm d u]
    ring
  rw [hlen]
  change _ < norm2 u ^ 2 / 2 + c * |f u|
  have h5 : c * |f (u + s • d)| ≤ c * ((1 - s) * |f u|) + η / 4 * s := by
    calc c * |f (u + s • d)| ≤ c * ((1 - s) * |f u| + η / (4 * c) * s) := mul_le_mul_of_nonneg_left hval hcpos.le
      _ = _ := by field_simp
  have h6 : s * norm2 d ^ 2 < η := by
    rw [lt_div_iff₀ (by positivity)] at h3
    nlinarith [sq_nonneg (norm2 d)]
  have h7 : s ^ 2 * norm2 d ^ 2 ≤ s * η := by nlinarith
  have h8 : 0 < s * η := by positivity
  have h9 : s ^ 2 * norm2 d ^ 2 / 2 ≤ s * η / 2 := by linarith
  have h10 : u ⬝ᵥ d = c * |f u| - η := by rw [hη]; ring
  rw [h10]
  nlinarith

/-- C32: the constant used by the code always satisfies the condition. -/
theorem C32_code_constant (u : Fin n → ℝ) {g : Fin n → ℝ} (hg : g ≠ 0) : len u / len g < meritC u g := by
  have h1 : 0 < len g := norm2_pos hg
  have h2 : 0 ≤ len u := norm2_nonneg u
  have h3 : 0 ≤ len u / len g := by positivity
  have : meritC u g = len u / len g * 2 + 10 := by simp only [meritC, len, norm2]; ring
  rw [this]; linarith

/-- A concrete case: `f(u) = 2 - u₀ - u₁²` at `(1, 1)`: not yet at the design point, the direction is nonzero. -/
example : direction 0 ![-1, -2] (alpha ![-1, -2]) ![1, 1] ≠ 0 := by
  intro h
  have h' : ∀ i, direction 0 ![-1, -2] (alpha ![-1, -2]) ![1, 1] i = 0 := fun i => congrFun h i
  obtain ⟨-, c, hc⟩ := (C32_zero_iff 0 (by intro h0; have := congrFun h0 0; simp at this) _).1 h'
  have h0 := hc 0
  have h1 := hc 1
  simp at h0 h1
  linarith

end Pystra.Props
