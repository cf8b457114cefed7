import Verif.Lemmas.Hlrf

/-! The full step of the search with an inaccurate gradient. -/

namespace Pystra.Props
open Matrix Spec Transformation Form Filter Topology

variable {n : ℕ}

theorem norm2_sub_comm (v w : Fin n → ℝ) : norm2 (v - w) = norm2 (w - v) := by
  have : v - w = (-1 : ℝ) • (w - v) := by funext i; simp
  rw [this, norm2_smul]; simp

theorem norm2_le_add_sub (v w : Fin n → ℝ) : norm2 v ≤ norm2 w + norm2 (v - w) := by
  have h := norm2_add_le w (v - w)
  rwa [add_sub_cancel] at h

theorem abs_norm2_sub_le (v w : Fin n → ℝ) : |norm2 v - norm2 w| ≤ norm2 (v - w) := by
  have h1 := norm2_le_add_sub v w
  have h2 := norm2_le_add_sub w v
  rw [norm2_sub_comm w v] at h2
  exact abs_le.2 ⟨by linarith, by linarith⟩

theorem alpha_close {w v : Fin n → ℝ} (hw : w ≠ 0) (hv : v ≠ 0) : norm2 (alpha w - alpha v) ≤ 2 * norm2 (w - v) / norm2 w := by
  have hN := norm2_pos hw
  have hM := norm2_pos hv
  have e : alpha w - alpha v = (-(norm2 w)⁻¹) • (w - v) + ((norm2 w - norm2 v) / (norm2 w * norm2 v)) • v := by
    funext i
    simp only [alpha, Pi.sub_apply, Pi.add_apply, Pi.smul_apply, smul_eq_mul]
    field_simp
    ring
  rw [e]
  refine (norm2_add_le _ _).trans ?_
  rw [norm2_smul, norm2_smul, abs_neg, abs_of_pos (inv_pos.2 hN), abs_div, abs_of_pos (mul_pos hN hM)]
  have h1 := abs_norm2_sub_le w v
  have e2 : |norm2 w - norm2 v| / (norm2 w * norm2 v) * norm2 v = |norm2 w - norm2 v| / norm2 w := by field_simp
  rw [e2]
  have h2 : |norm2 w - norm2 v| / norm2 w ≤ norm2 (w - v) / norm2 w := div_le_div_of_nonneg_right h1 hN.le
  have e3 : (norm2 w)⁻¹ * norm2 (w - v) + norm2 (w - v) / norm2 w = 2 * norm2 (w - v) / norm2 w := by field_simp; ring
  linarith

theorem proj_close {a b : Fin n → ℝ} (ha : norm2 a = 1) (hb : norm2 b = 1) (u : Fin n → ℝ) :
    norm2 ((a ⬝ᵥ u) • a - (b ⬝ᵥ u) • b) ≤ 2 * norm2 u * norm2 (a - b) := by
  have e : (a ⬝ᵥ u) • a - (b ⬝ᵥ u) • b = (a ⬝ᵥ u) • (a - b) + ((a - b) ⬝ᵥ u) • b := by
    rw [sub_dotProduct, smul_sub, sub_smul]; abel
  rw [e]
  refine (norm2_add_le _ _).trans ?_
  rw [norm2_smul, norm2_smul, hb, mul_one]
  have h1 := abs_dot_le a u
  have h2 := abs_dot_le (a - b) u
  rw [ha, one_mul] at h1
  have h3 := mul_le_mul_of_nonneg_right h1 (norm2_nonneg (a - b))
  linarith

theorem inv_close {w v : Fin n → ℝ} (hw : w ≠ 0) (hv : v ≠ 0) :
    norm2 ((w ⬝ᵥ w)⁻¹ • w - (v ⬝ᵥ v)⁻¹ • v) = norm2 (w - v) / (norm2 w * norm2 v) := by
  have hN := norm2_pos hw
  have hM := norm2_pos hv
  have h : norm2 ((w ⬝ᵥ w)⁻¹ • w - (v ⬝ᵥ v)⁻¹ • v) ^ 2 = (norm2 (w - v) / (norm2 w * norm2 v)) ^ 2 := by
    rw [div_pow, ← dot_self, ← dot_self (w - v)]
    simp only [sub_dotProduct, dotProduct_sub, smul_dotProduct, dotProduct_smul, smul_eq_mul, dot_self, dotProduct_comm v w]
    field_simp
    ring
  exact (sq_eq_sq₀ (norm2_nonneg _) (by have := norm2_nonneg (w - v); positivity)).1 h

theorem step_split {w : Fin n → ℝ} (hw : w ≠ 0) (q : ℝ) (u : Fin n → ℝ) :
    ((w ⬝ᵥ u - q) / (w ⬝ᵥ w)) • w = (alpha w ⬝ᵥ u) • alpha w + (-q) • ((w ⬝ᵥ w)⁻¹ • w) := by
  have hN := norm2_pos hw
  funext i
  rw [alpha_dot, dot_self]
  simp only [alpha, Pi.add_apply, Pi.smul_apply, smul_eq_mul]
  field_simp
  ring

/-- The full step depends on the gradient in a Lipschitz way. -/
theorem step_close {w v : Fin n → ℝ} {m U Q : ℝ} (hm : 0 < m) (hw : m ≤ norm2 w) (hv : m ≤ norm2 v) {u : Fin n → ℝ} (hu : norm2 u ≤ U)
    {q : ℝ} (hq : |q| ≤ Q) :
    norm2 (((w ⬝ᵥ u - q) / (w ⬝ᵥ w)) • w - ((v ⬝ᵥ u - q) / (v ⬝ᵥ v)) • v) ≤ (4 * U / m + Q / m ^ 2) * norm2 (w - v) := by
  have hw0 : w ≠ 0 := by rintro rfl; rw [norm2_zero] at hw; linarith
  have hv0 : v ≠ 0 := by rintro rfl; rw [norm2_zero] at hv; linarith
  have hd := norm2_nonneg (w - v)
  have hU : 0 ≤ U := (norm2_nonneg u).trans hu
  have hQ : 0 ≤ Q := (abs_nonneg q).trans hq
  rw [step_split hw0, step_split hv0]
  have e : (alpha w ⬝ᵥ u) • alpha w + (-q) • ((w ⬝ᵥ w)⁻¹ • w) - ((alpha v ⬝ᵥ u) • alpha v + (-q) • ((v ⬝ᵥ v)⁻¹ • v)) =
      ((alpha w ⬝ᵥ u) • alpha w - (alpha v ⬝ᵥ u) • alpha v) + (-q) • ((w ⬝ᵥ w)⁻¹ • w - (v ⬝ᵥ v)⁻¹ • v) := by
    rw [smul_sub]; abel
  rw [e]
  refine (norm2_add_le _ _).trans ?_
  have h1 := proj_close (norm2_alpha hw0) (norm2_alpha hv0) u
  have h2 := alpha_close hw0 hv0
  have h3 : 2 * norm2 (w - v) / norm2 w ≤ 2 * norm2 (w - v) / m := div_le_div_of_nonneg_left (by linarith) hm hw
  have h4 : 2 * norm2 u * norm2 (alpha w - alpha v) ≤ 2 * U * (2 * norm2 (w - v) / m) :=
    mul_le_mul (by linarith) (h2.trans h3) (norm2_nonneg _) (by linarith)
  have h5 : norm2 ((-q) • ((w ⬝ᵥ w)⁻¹ • w - (v ⬝ᵥ v)⁻¹ • v)) ≤ Q * (norm2 (w - v) / m ^ 2) := by
    rw [norm2_smul, abs_neg, inv_close hw0 hv0]
    refine mul_le_mul hq (div_le_div_of_nonneg_left hd (by positivity) ?_) (div_nonneg hd (mul_nonneg (norm2_nonneg _) (norm2_nonneg _))) hQ
    rw [sq]
    exact mul_le_mul hw hv hm.le (norm2_nonneg _)
  have e2 : (4 * U / m + Q / m ^ 2) * norm2 (w - v) = 2 * U * (2 * norm2 (w - v) / m) + Q * (norm2 (w - v) / m ^ 2) := by ring
  linarith

theorem err2_close {a b : Fin n → ℝ} (ha : norm2 a = 1) (hb : norm2 b = 1) (u : Fin n → ℝ) :
    err2 u a ≤ err2 u b + 2 * norm2 u * norm2 (a - b) := by
  have e : ∀ a, err2 u a = norm2 (u - (a ⬝ᵥ u) • a) := fun a => rfl
  rw [e, e]
  have h1 := norm2_le_add_sub (u - (a ⬝ᵥ u) • a) (u - (b ⬝ᵥ u) • b)
  have e2 : u - (a ⬝ᵥ u) • a - (u - (b ⬝ᵥ u) • b) = (b ⬝ᵥ u) • b - (a ⬝ᵥ u) • a := by abel
  rw [e2] at h1
  have h2 := proj_close hb ha u
  rw [norm2_sub_comm b a] at h2
  linarith

set_option maxHeartbeats 1000000 in
/-- Everything that holds near a design point at which the curvatures are small, when the gradients have errors of at most `ε`. -/
theorem hlrf_noise {q : (Fin n → ℝ) → ℝ} {Gr : (Fin n → ℝ) → Fin n → ℝ} {us : Fin n → ℝ}
    {H : (Fin n → ℝ) →L[ℝ] (Fin n → ℝ)} (hq : HasFDerivAt q (gradMap (Gr us)) us) (hG : HasFDerivAt Gr H us) (h0 : q us = 0)
    (hne : Gr us ≠ 0) {s : ℝ} (hus : us = s • Gr us) {K : ℝ} (hK0 : 0 ≤ K)
    (hK : ∀ h, Gr us ⬝ᵥ h = 0 → norm2 (tang (Gr us) (H h)) ≤ K * norm2 h) (hs : |s| * K < 1) :
    ∃ E ρ δ C M ε0 : ℝ, 0 < E ∧ 0 < ρ ∧ ρ < 1 ∧ 0 < δ ∧ 1 ≤ C ∧ 1 ≤ M ∧ 0 < ε0 ∧ ∀ (Gt : (Fin n → ℝ) → Fin n → ℝ) (ε : ℝ), 0 ≤ ε → ε ≤ ε0 →
      ∀ u, gauge E (Gr us) (u - us) ≤ δ → norm2 (Gt u - Gr u) ≤ ε →
      Gt u ≠ 0 ∧ gauge E (Gr us) (hlrf q Gt u - us) ≤ ρ * gauge E (Gr us) (u - us) + (1 - ρ) * (M * ε) ∧
      |q u| ≤ C * gauge E (Gr us) (u - us) ∧ err2 u (alpha (Gt u)) ≤ C * (gauge E (Gr us) (u - us) + M * ε) ∧
      gauge E (Gr us) (u - us) ≤ C * (|q u| + err2 u (alpha (Gt u)) + M * ε) ∧
      |alpha (Gt u) ⬝ᵥ u - alpha (Gr us) ⬝ᵥ us| ≤ C * (gauge E (Gr us) (u - us) + M * ε) := by
  obtain ⟨E, ρ, δ, C, hE, hρ0, hρ1, hδ, hC1, hloc⟩ := hlrf_local hq hG h0 hne hus hK0 hK hs
  have hN := norm2_pos hne
  have hcont : ContinuousAt (fun u => norm2 (Gr u)) us := by
    have h1 : ContinuousAt Gr us := hG.continuousAt
    have h2 : Continuous (fun v : Fin n → ℝ => norm2 v) := by unfold norm2; fun_prop
    exact h2.continuousAt.comp h1
  have hev1 : ∀ᶠ u in 𝓝 us, norm2 (Gr us) / 2 < norm2 (Gr u) := hcont.eventually_const_lt (by linarith)
  obtain ⟨δ', hδ', hlow⟩ := eventually_gauge hE hne hev1
  obtain ⟨g, hg⟩ : ∃ g, g = Gr us := ⟨_, rfl⟩
  rw [← hg] at hN hlow hne hloc ⊢
  obtain ⟨c, hc⟩ : ∃ c, c = 1 + 1 / (E * norm2 g) := ⟨_, rfl⟩
  have hc0 : 0 < c := by rw [hc]; positivity
  obtain ⟨A, hA⟩ : ∃ A, A = 1 + E * norm2 g := ⟨_, rfl⟩
  have hA0 : 1 ≤ A := by rw [hA]; have : 0 < E * norm2 g := by positivity
                         linarith
  obtain ⟨m, hm⟩ : ∃ m, m = norm2 g / 4 := ⟨_, rfl⟩
  have hm0 : 0 < m := by rw [hm]; positivity
  obtain ⟨U, hU⟩ : ∃ U, U = norm2 us + c * δ := ⟨_, rfl⟩
  have hU0 : 0 ≤ U := by rw [hU]; have := norm2_nonneg us; positivity
  obtain ⟨L, hL⟩ : ∃ L, L = 4 * U / m + C * δ / m ^ 2 := ⟨_, rfl⟩
  have hL0 : 0 ≤ L := by rw [hL]; positivity
  have hL1 : 4 * U / m ≤ L := by rw [hL]; have : 0 ≤ C * δ / m ^ 2 := by positivity
                                 linarith
  have hr : 0 < 1 - ρ := by linarith
  obtain ⟨M, hM⟩ : ∃ M, M = A * (L + 1) / (1 - ρ) := ⟨_, rfl⟩
  have hAL : L + 1 ≤ A * (L + 1) := le_mul_of_one_le_left (by linarith) hA0
  have hML : (1 - ρ) * M = A * (L + 1) := by rw [hM]; field_simp
  have hM1 : L + 1 ≤ M := by
    rw [hM, le_div_iff₀ hr]
    have : (L + 1) * (1 - ρ) ≤ (L + 1) * 1 := mul_le_mul_of_nonneg_left (by linarith) (by linarith)
    linarith
  refine ⟨E, ρ, min δ δ', C, M, m, hE, hρ0, hρ1, lt_min hδ hδ', hC1, by linarith, hm0, fun Gt ε hε hε0 u hu hGt => ?_⟩
  have hlo := hlow u (hu.trans (min_le_right _ _))
  obtain ⟨l1, l2, l3, l4, l5, l6⟩ := hloc u (hu.trans (min_le_left _ _))
  obtain ⟨γ, hγ⟩ : ∃ γ, γ = gauge E g (u - us) := ⟨_, rfl⟩
  rw [← hγ] at hu l2 l3 l4 l5 l6 ⊢
  have hγ0 : 0 ≤ γ := by rw [hγ]; exact gauge_nonneg hE.le _ _
  have hγδ : γ ≤ δ := hu.trans (min_le_left _ _)
  have hGr : m ≤ norm2 (Gr u) := by rw [hm]; linarith
  have hGtn : m ≤ norm2 (Gt u) := by
    have h1 := norm2_le_add_sub (Gr u) (Gt u)
    rw [norm2_sub_comm] at h1
    rw [hm] at hε0 ⊢
    linarith
  have hGt0 : Gt u ≠ 0 := by
    intro h
    rw [h, norm2_zero] at hGtn
    linarith
  have hun : norm2 u ≤ U := by
    have h1 := norm2_le_add_sub u us
    have h2 := le_gauge hE hne (u - us)
    rw [← hγ, ← hc] at h2
    have h3 := mul_le_mul_of_nonneg_left hγδ hc0.le
    rw [hU]; linarith
  have hqQ : |q u| ≤ C * δ := l3.trans (mul_le_mul_of_nonneg_left hγδ (by linarith))
  have hal : norm2 (alpha (Gt u) - alpha (Gr u)) ≤ 2 * ε / m := by
    refine (alpha_close hGt0 l1).trans ?_
    calc 2 * norm2 (Gt u - Gr u) / norm2 (Gt u) ≤ 2 * norm2 (Gt u - Gr u) / m :=
          div_le_div_of_nonneg_left (by have := norm2_nonneg (Gt u - Gr u); linarith) hm0 hGtn
      _ ≤ 2 * ε / m := div_le_div_of_nonneg_right (by linarith) hm0.le
  have hual : 2 * norm2 u * norm2 (alpha (Gt u) - alpha (Gr u)) ≤ M * ε := by
    calc 2 * norm2 u * norm2 (alpha (Gt u) - alpha (Gr u)) ≤ 2 * U * (2 * ε / m) :=
          mul_le_mul (by linarith) hal (norm2_nonneg _) (by linarith)
      _ = 4 * U / m * ε := by ring
      _ ≤ M * ε := mul_le_mul_of_nonneg_right (by linarith) hε
  have hMε : 0 ≤ M * ε := mul_nonneg (by linarith) hε
  have hCM : M * ε ≤ C * (M * ε) := le_mul_of_one_le_left hMε hC1
  refine ⟨hGt0, ?_, l3, ?_, ?_, ?_⟩
  · have hst := step_close hm0 hGtn hGr hun hqQ
    rw [← hL] at hst
    have h1 : norm2 (hlrf q Gt u - hlrf q Gr u) ≤ L * ε := by
      refine (show norm2 (hlrf q Gt u - hlrf q Gr u) ≤ L * norm2 (Gt u - Gr u) from hst).trans ?_
      exact mul_le_mul_of_nonneg_left hGt hL0
    have e : hlrf q Gt u - us = (hlrf q Gr u - us) + (hlrf q Gt u - hlrf q Gr u) := by abel
    rw [e]
    refine (gauge_add hE.le _ _ _).trans ?_
    have h2 := gauge_le hE.le g (hlrf q Gt u - hlrf q Gr u)
    rw [← hA] at h2
    have h3 := mul_le_mul_of_nonneg_left h1 (by linarith : 0 ≤ A)
    have h4 : (1 - ρ) * (M * ε) = A * (L + 1) * ε := by rw [← mul_assoc, hML]
    have h5 : 0 ≤ A * ε := mul_nonneg (by linarith) hε
    rw [h4]
    linarith
  · have h1 := err2_close (norm2_alpha hGt0) (norm2_alpha l1) u
    rw [mul_add]
    linarith
  · have h1 := err2_close (norm2_alpha l1) (norm2_alpha hGt0) u
    rw [norm2_sub_comm] at h1
    refine l5.trans (mul_le_mul_of_nonneg_left ?_ (by linarith))
    linarith
  · have h1 := abs_dot_le (alpha (Gt u) - alpha (Gr u)) u
    rw [sub_dotProduct] at h1
    have h2 := mul_nonneg (norm2_nonneg u) (norm2_nonneg (alpha (Gt u) - alpha (Gr u)))
    have e : alpha (Gt u) ⬝ᵥ u - alpha g ⬝ᵥ us = (alpha (Gt u) ⬝ᵥ u - alpha (Gr u) ⬝ᵥ u) + (alpha (Gr u) ⬝ᵥ u - alpha g ⬝ᵥ us) := by ring
    rw [e]
    refine (abs_add_le _ _).trans ?_
    rw [mul_add]
    linarith

end Pystra.Props
