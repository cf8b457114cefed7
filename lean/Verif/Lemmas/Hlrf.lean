import Verif.Props.FormArmijo
import Mathlib.Analysis.Calculus.FDeriv.Pi
import Mathlib.Analysis.Calculus.FDeriv.Mul
import Mathlib.Analysis.SpecialFunctions.Sqrt

/-! The full step of the search as a map of standard normal space, its derivative at a design point, and the contraction. -/

namespace Pystra.Props
open Matrix Spec Transformation Form Filter Topology

variable {n : ℕ}

/-- The point reached from `u` by a full step. -/
noncomputable def hlrf (q : (Fin n → ℝ) → ℝ) (Gr : (Fin n → ℝ) → Fin n → ℝ) (u : Fin n → ℝ) : Fin n → ℝ :=
  ((Gr u ⬝ᵥ u - q u) / (Gr u ⬝ᵥ Gr u)) • Gr u

theorem dot_self_pos {w : Fin n → ℝ} (hw : w ≠ 0) : 0 < w ⬝ᵥ w := by
  rw [dot_self]; have := norm2_pos hw; positivity

theorem full_step {w : Fin n → ℝ} (hw : w ≠ 0) (G : ℝ) (u : Fin n → ℝ) :
    (fun k => u k + 1 * direction G w (alpha w) u k) = ((w ⬝ᵥ u - G) / (w ⬝ᵥ w)) • w := by
  have hN := norm2_ne hw
  have h := newton_step (G - w ⬝ᵥ u) hw u
  rw [sub_add_cancel] at h
  rw [h, alpha_eq, dot_self, smul_smul]
  congr 1
  field_simp
  ring

/-- The full step has a component along the gradient and one orthogonal to it. -/
theorem direction_sq (G : ℝ) {w : Fin n → ℝ} (hw : w ≠ 0) (u : Fin n → ℝ) :
    norm2 (direction G w (alpha w) u) ^ 2 = (G / norm2 w) ^ 2 + err2 u (alpha w) ^ 2 := by
  have hun := alpha_unit hw
  rw [← dot_self, direction_eq, err2_sq hun]
  simp only [sub_dotProduct, dotProduct_sub, smul_dotProduct, dotProduct_smul, hun, smul_eq_mul, dotProduct_comm u (alpha w), dot_self u]
  ring

theorem norm2_le_sup (v : Fin n → ℝ) : norm2 v ≤ √(n : ℝ) * ‖v‖ := by
  have h : norm2 v ^ 2 ≤ (√(n : ℝ) * ‖v‖) ^ 2 := by
    rw [norm2_sq, mul_pow, Real.sq_sqrt (Nat.cast_nonneg n)]
    calc ∑ i, v i ^ 2 ≤ ∑ _i : Fin n, ‖v‖ ^ 2 := Finset.sum_le_sum fun i _ => by
          have := norm_le_pi_norm v i
          rw [Real.norm_eq_abs] at this
          rw [← sq_abs]
          exact pow_le_pow_left₀ (abs_nonneg _) this 2
      _ = n * ‖v‖ ^ 2 := by simp
  exact (sq_le_sq₀ (norm2_nonneg _) (by positivity)).1 h

theorem sup_le_norm2 (v : Fin n → ℝ) : ‖v‖ ≤ norm2 v := by
  refine (pi_norm_le_iff_of_nonneg (norm2_nonneg _)).2 fun i => ?_
  rw [Real.norm_eq_abs]
  apply abs_le_of_sq_le_sq _ (norm2_nonneg _)
  rw [norm2_sq]
  exact Finset.single_le_sum (f := fun i => v i ^ 2) (fun i _ => sq_nonneg _) (Finset.mem_univ i)

/-- The component orthogonal to `g`. -/
noncomputable def tang (g v : Fin n → ℝ) : Fin n → ℝ := v - ((g ⬝ᵥ v) / (g ⬝ᵥ g)) • g

theorem tang_add (g v w : Fin n → ℝ) : tang g (v + w) = tang g v + tang g w := by
  unfold tang
  rw [dotProduct_add, add_div, add_smul]; abel

theorem tang_smul (g v : Fin n → ℝ) (c : ℝ) : tang g (c • v) = c • tang g v := by
  unfold tang
  rw [dotProduct_smul, smul_sub, smul_smul, smul_eq_mul, mul_div_assoc]

theorem dot_tang {g : Fin n → ℝ} (hg : g ≠ 0) (v : Fin n → ℝ) : g ⬝ᵥ tang g v = 0 := by
  have := (dot_self_pos hg).ne'
  unfold tang
  rw [dotProduct_sub, dotProduct_smul, smul_eq_mul, div_mul_cancel₀ _ this, sub_self]

theorem tang_of_dot {g v : Fin n → ℝ} (h : g ⬝ᵥ v = 0) : tang g v = v := by
  unfold tang
  rw [h, zero_div, zero_smul, sub_zero]

theorem tang_split (g v : Fin n → ℝ) : v = tang g v + ((g ⬝ᵥ v) / (g ⬝ᵥ g)) • g := by
  unfold tang
  rw [sub_add_cancel]

theorem norm2_tang_le (g : Fin n → ℝ) (v : Fin n → ℝ) : norm2 (tang g v) ≤ norm2 v := by
  by_cases hg : g = 0
  · subst hg; simp [tang]
  have hp := dot_self_pos hg
  have h : norm2 (tang g v) ^ 2 ≤ norm2 v ^ 2 := by
    rw [← dot_self, ← dot_self]
    conv_lhs => rw [show tang g v ⬝ᵥ tang g v = (v - ((g ⬝ᵥ v) / (g ⬝ᵥ g)) • g) ⬝ᵥ tang g v from rfl]
    rw [sub_dotProduct, smul_dotProduct, dot_tang hg, smul_zero, sub_zero]
    unfold tang
    rw [dotProduct_sub, dotProduct_smul, dotProduct_comm v g, smul_eq_mul]
    have : 0 ≤ g ⬝ᵥ v / g ⬝ᵥ g * g ⬝ᵥ v := by
      rw [div_mul_eq_mul_div]; exact div_nonneg (mul_self_nonneg _) hp.le
    linarith
  exact (sq_le_sq₀ (norm2_nonneg _) (norm2_nonneg _)).1 h

/-- The norm in which the search contracts. -/
noncomputable def gauge (E : ℝ) (g v : Fin n → ℝ) : ℝ := norm2 (tang g v) + E * |g ⬝ᵥ v|

theorem gauge_add {E : ℝ} (hE : 0 ≤ E) (g v w : Fin n → ℝ) : gauge E g (v + w) ≤ gauge E g v + gauge E g w := by
  unfold gauge
  rw [tang_add, dotProduct_add]
  have h1 := norm2_add_le (tang g v) (tang g w)
  have h2 := mul_le_mul_of_nonneg_left (abs_add_le (g ⬝ᵥ v) (g ⬝ᵥ w)) hE
  linarith

theorem gauge_nonneg {E : ℝ} (hE : 0 ≤ E) (g v : Fin n → ℝ) : 0 ≤ gauge E g v :=
  add_nonneg (norm2_nonneg _) (mul_nonneg hE (abs_nonneg _))

theorem gauge_le {E : ℝ} (hE : 0 ≤ E) (g v : Fin n → ℝ) : gauge E g v ≤ (1 + E * norm2 g) * norm2 v := by
  unfold gauge
  have h1 := norm2_tang_le g v
  have h2 := mul_le_mul_of_nonneg_left (abs_dot_le g v) hE
  nlinarith

theorem le_gauge {E : ℝ} (hE : 0 < E) {g : Fin n → ℝ} (hg : g ≠ 0) (v : Fin n → ℝ) :
    norm2 v ≤ (1 + 1 / (E * norm2 g)) * gauge E g v := by
  have hN := norm2_pos hg
  have h1 : norm2 v ≤ norm2 (tang g v) + |g ⬝ᵥ v| / norm2 g := by
    conv_lhs => rw [tang_split g v]
    refine (norm2_add_le _ _).trans ?_
    rw [norm2_smul, dot_self, abs_div, abs_of_pos (by positivity : 0 < norm2 g ^ 2)]
    have : |g ⬝ᵥ v| / norm2 g ^ 2 * norm2 g = |g ⬝ᵥ v| / norm2 g := by field_simp
    rw [this]
  have h2 : (1 / (E * norm2 g)) * gauge E g v = norm2 (tang g v) / (E * norm2 g) + |g ⬝ᵥ v| / norm2 g := by
    unfold gauge; field_simp
  have h3 : 0 ≤ norm2 (tang g v) / (E * norm2 g) := div_nonneg (norm2_nonneg _) (by positivity)
  have h4 : 0 ≤ E * |g ⬝ᵥ v| := by positivity
  have h5 : norm2 (tang g v) ≤ gauge E g v := by unfold gauge; linarith
  rw [add_mul, one_mul, h2]
  linarith

/-- The derivative of the full step at a design point. -/
theorem hlrf_deriv {q : (Fin n → ℝ) → ℝ} {Gr : (Fin n → ℝ) → Fin n → ℝ} {us : Fin n → ℝ}
    {H : (Fin n → ℝ) →L[ℝ] (Fin n → ℝ)} (hq : HasFDerivAt q (gradMap (Gr us)) us) (hG : HasFDerivAt Gr H us) (h0 : q us = 0)
    (hne : Gr us ≠ 0) {s : ℝ} (hus : us = s • Gr us) :
    ∃ L : (Fin n → ℝ) →L[ℝ] (Fin n → ℝ), HasFDerivAt (hlrf q Gr) L us ∧ ∀ h, L h = s • tang (Gr us) (H h) := by
  have hp := (dot_self_pos hne).ne'
  have e1 : HasFDerivAt (fun u => Gr u ⬝ᵥ u - q u)
      (∑ i, (Gr us i • ContinuousLinearMap.proj i + us i • (ContinuousLinearMap.proj i).comp H) - gradMap (Gr us)) us :=
    (HasFDerivAt.fun_sum (u := Finset.univ) (fun i _ => ((hasFDerivAt_pi'.1 hG i).mul (hasFDerivAt_apply i us)))).sub hq
  have e2 : HasFDerivAt (fun u => Gr u ⬝ᵥ Gr u)
      (∑ i, (Gr us i • (ContinuousLinearMap.proj i).comp H + Gr us i • (ContinuousLinearMap.proj i).comp H)) us :=
    (HasFDerivAt.fun_sum (u := Finset.univ) (fun i _ => ((hasFDerivAt_pi'.1 hG i).mul (hasFDerivAt_pi'.1 hG i))))
  have e3 : HasFDerivAt (fun u => (Gr u ⬝ᵥ Gr u)⁻¹) _ us := (hasDerivAt_inv hp).comp_hasFDerivAt us e2
  have e4 : HasFDerivAt (fun u => (Gr u ⬝ᵥ u - q u) * (Gr u ⬝ᵥ Gr u)⁻¹) _ us := e1.mul e3
  have e5 : HasFDerivAt (hlrf q Gr) _ us := e4.smul hG
  refine ⟨_, e5, fun h => ?_⟩
  have hdus : Gr us ⬝ᵥ us = s * (Gr us ⬝ᵥ Gr us) := by
    conv_lhs => rw [hus]
    rw [dotProduct_smul, smul_eq_mul, ← hus]
  have hsum1 : ∑ i, us i * H h i = s * (Gr us ⬝ᵥ H h) := by
    have : ∑ i, us i * H h i = us ⬝ᵥ H h := rfl
    rw [this]
    conv_lhs => rw [hus]
    rw [smul_dotProduct, smul_eq_mul]
  have hsum2 : ∑ i, Gr us i * H h i = Gr us ⬝ᵥ H h := rfl
  funext k
  simp only [ContinuousLinearMap.add_apply, ContinuousLinearMap.smul_apply, ContinuousLinearMap.sub_apply,
    ContinuousLinearMap.sum_apply, ContinuousLinearMap.comp_apply, ContinuousLinearMap.proj_apply, ContinuousLinearMap.smulRight_apply,
    gradMap_apply, Pi.add_apply, Pi.smul_apply, smul_eq_mul, Finset.sum_add_distrib, hsum1, hsum2, h0, hdus, tang, Pi.sub_apply]
  field_simp
  ring

/-- The step contracts towards a design point at which the curvatures are small. -/
theorem hlrf_contracts {q : (Fin n → ℝ) → ℝ} {Gr : (Fin n → ℝ) → Fin n → ℝ} {us : Fin n → ℝ}
    {H : (Fin n → ℝ) →L[ℝ] (Fin n → ℝ)} (hq : HasFDerivAt q (gradMap (Gr us)) us) (hG : HasFDerivAt Gr H us) (h0 : q us = 0)
    (hne : Gr us ≠ 0) {s : ℝ} (hus : us = s • Gr us) {K : ℝ} (hK0 : 0 ≤ K)
    (hK : ∀ h, Gr us ⬝ᵥ h = 0 → norm2 (tang (Gr us) (H h)) ≤ K * norm2 h) (hs : |s| * K < 1) :
    ∃ E ρ δ : ℝ, 0 < E ∧ 0 < ρ ∧ ρ < 1 ∧ 0 < δ ∧ ∀ u, gauge E (Gr us) (u - us) ≤ δ →
      gauge E (Gr us) (hlrf q Gr u - us) ≤ ρ * gauge E (Gr us) (u - us) := by
  set g := Gr us with hg
  obtain ⟨L, hL, hLs⟩ := hlrf_deriv hq hG h0 hne hus
  have hp := dot_self_pos hne
  have hfix : hlrf q Gr us = us := by
    unfold hlrf
    rw [h0, sub_zero]
    have : Gr us ⬝ᵥ us = s * (Gr us ⬝ᵥ Gr us) := by
      rw [← hg]
      conv_lhs => rw [hus]
      rw [dotProduct_smul, smul_eq_mul]
    rw [this, mul_div_cancel_right₀ _ hp.ne']
    exact hus.symm
  obtain ⟨k, hk1, hk2⟩ := exists_between hs
  have hk0 : 0 < k := lt_of_le_of_lt (mul_nonneg (abs_nonneg _) hK0) hk1
  obtain ⟨ρ, hρ1, hρ2⟩ := exists_between hk2
  set M := norm2 (tang g (H g)) with hM
  have hM0 : 0 ≤ M := norm2_nonneg _
  set E := 1 + |s| * M / (g ⬝ᵥ g) / k with hE
  have hE0 : 0 < E := by
    have : 0 ≤ |s| * M / (g ⬝ᵥ g) / k := by positivity
    linarith
  have hEk : |s| * M / (g ⬝ᵥ g) ≤ k * E := by
    have : k * E = k + |s| * M / (g ⬝ᵥ g) := by rw [hE]; field_simp
    linarith
  have hLg : ∀ h, gauge E g (L h) ≤ k * gauge E g h := by
    intro h
    have e1 : gauge E g (L h) = |s| * norm2 (tang g (H h)) := by
      unfold gauge
      rw [hLs, dotProduct_smul, dot_tang hne, smul_zero, abs_zero, mul_zero, add_zero, tang_smul,
        tang_of_dot (dot_tang hne _), norm2_smul]
    have e2 : norm2 (tang g (H h)) ≤ K * norm2 (tang g h) + |g ⬝ᵥ h| / (g ⬝ᵥ g) * M := by
      conv_lhs => rw [tang_split g h]
      rw [map_add, map_smul, tang_add, tang_smul]
      refine (norm2_add_le _ _).trans ?_
      rw [norm2_smul, abs_div, abs_of_pos hp]
      exact add_le_add_left (hK _ (dot_tang hne _)) _
    rw [e1]
    have h1 := norm2_nonneg (tang g h)
    have h2 := abs_nonneg (g ⬝ᵥ h)
    calc |s| * norm2 (tang g (H h)) ≤ |s| * (K * norm2 (tang g h) + |g ⬝ᵥ h| / (g ⬝ᵥ g) * M) :=
          mul_le_mul_of_nonneg_left e2 (abs_nonneg _)
      _ = (|s| * K) * norm2 (tang g h) + (|s| * M / (g ⬝ᵥ g)) * |g ⬝ᵥ h| := by ring
      _ ≤ k * norm2 (tang g h) + (k * E) * |g ⬝ᵥ h| :=
          add_le_add (mul_le_mul_of_nonneg_right hk1.le h1) (mul_le_mul_of_nonneg_right hEk h2)
      _ = k * gauge E g h := by unfold gauge; ring
  set C := (1 + E * norm2 g) * √(n : ℝ) + 1 with hC
  have hN := norm2_pos hne
  have hC0 : 0 < C := by have := Real.sqrt_nonneg (n : ℝ); positivity
  have hgC : ∀ v, gauge E g v ≤ C * ‖v‖ := by
    intro v
    refine (gauge_le hE0.le g v).trans ?_
    calc (1 + E * norm2 g) * norm2 v ≤ (1 + E * norm2 g) * (√(n : ℝ) * ‖v‖) :=
          mul_le_mul_of_nonneg_left (norm2_le_sup v) (by positivity)
      _ ≤ C * ‖v‖ := by rw [hC]; nlinarith [norm_nonneg v]
  set c := 1 + 1 / (E * norm2 g) with hc
  have hc0 : 0 < c := by positivity
  have hcg : ∀ v, ‖v‖ ≤ c * gauge E g v := fun v => (sup_le_norm2 v).trans (le_gauge hE0 hne v)
  have hε : 0 < (ρ - k) / (C * c) := div_pos (by linarith) (by positivity)
  have hlo := (hasFDerivAt_iff_isLittleO.1 hL).def hε
  obtain ⟨δ, hδ, hball⟩ := Metric.eventually_nhds_iff.1 hlo
  refine ⟨E, ρ, δ / (2 * c), hE0, by linarith, hρ2, by positivity, fun u hu => ?_⟩
  have hdist : dist u us < δ := by
    rw [dist_eq_norm]
    refine (hcg _).trans_lt ?_
    calc c * gauge E g (u - us) ≤ c * (δ / (2 * c)) := mul_le_mul_of_nonneg_left hu hc0.le
      _ = δ / 2 := by field_simp
      _ < δ := by linarith
  have h1 := hball hdist
  rw [hfix] at h1
  have hsplit : hlrf q Gr u - us = (hlrf q Gr u - us - L (u - us)) + L (u - us) := by abel
  rw [hsplit]
  refine (gauge_add hE0.le g _ _).trans ?_
  have h2 := hLg (u - us)
  have h3 : gauge E g (hlrf q Gr u - us - L (u - us)) ≤ (ρ - k) * gauge E g (u - us) := by
    refine (hgC _).trans ?_
    calc C * ‖hlrf q Gr u - us - L (u - us)‖ ≤ C * ((ρ - k) / (C * c) * ‖u - us‖) := mul_le_mul_of_nonneg_left h1 hC0.le
      _ ≤ C * ((ρ - k) / (C * c) * (c * gauge E g (u - us))) :=
          mul_le_mul_of_nonneg_left (mul_le_mul_of_nonneg_left (hcg _) hε.le) hC0.le
      _ = (ρ - k) * gauge E g (u - us) := by field_simp
  linarith

theorem eventually_gauge {E : ℝ} (hE : 0 < E) {g : Fin n → ℝ} (hg : g ≠ 0) {us : Fin n → ℝ} {p : (Fin n → ℝ) → Prop}
    (h : ∀ᶠ u in 𝓝 us, p u) : ∃ δ > 0, ∀ u, gauge E g (u - us) ≤ δ → p u := by
  obtain ⟨δ, hδ, hball⟩ := Metric.eventually_nhds_iff.1 h
  have hN := norm2_pos hg
  have hc0 : 0 < 1 + 1 / (E * norm2 g) := by positivity
  refine ⟨δ / (2 * (1 + 1 / (E * norm2 g))), by positivity, fun u hu => hball ?_⟩
  rw [dist_eq_norm]
  refine ((sup_le_norm2 _).trans (le_gauge hE hg _)).trans_lt ?_
  calc (1 + 1 / (E * norm2 g)) * gauge E g (u - us) ≤ (1 + 1 / (E * norm2 g)) * (δ / (2 * (1 + 1 / (E * norm2 g)))) :=
        mul_le_mul_of_nonneg_left hu hc0.le
    _ = δ / 2 := by field_simp
    _ < δ := by linarith

set_option maxHeartbeats 1000000 in
/-- Everything that holds near a design point at which the curvatures are small. -/
theorem hlrf_local {q : (Fin n → ℝ) → ℝ} {Gr : (Fin n → ℝ) → Fin n → ℝ} {us : Fin n → ℝ}
    {H : (Fin n → ℝ) →L[ℝ] (Fin n → ℝ)} (hq : HasFDerivAt q (gradMap (Gr us)) us) (hG : HasFDerivAt Gr H us) (h0 : q us = 0)
    (hne : Gr us ≠ 0) {s : ℝ} (hus : us = s • Gr us) {K : ℝ} (hK0 : 0 ≤ K)
    (hK : ∀ h, Gr us ⬝ᵥ h = 0 → norm2 (tang (Gr us) (H h)) ≤ K * norm2 h) (hs : |s| * K < 1) :
    ∃ E ρ δ C : ℝ, 0 < E ∧ 0 < ρ ∧ ρ < 1 ∧ 0 < δ ∧ 1 ≤ C ∧ ∀ u, gauge E (Gr us) (u - us) ≤ δ →
      Gr u ≠ 0 ∧ gauge E (Gr us) (hlrf q Gr u - us) ≤ ρ * gauge E (Gr us) (u - us) ∧
      |q u| ≤ C * gauge E (Gr us) (u - us) ∧ err2 u (alpha (Gr u)) ≤ C * gauge E (Gr us) (u - us) ∧
      gauge E (Gr us) (u - us) ≤ C * (|q u| + err2 u (alpha (Gr u))) ∧
      |alpha (Gr u) ⬝ᵥ u - alpha (Gr us) ⬝ᵥ us| ≤ C * gauge E (Gr us) (u - us) := by
  obtain ⟨E, ρ, δ, hE, hρ0, hρ1, hδ, hcon⟩ := hlrf_contracts hq hG h0 hne hus hK0 hK hs
  have hN := norm2_pos hne
  have hcont : ContinuousAt (fun u => norm2 (Gr u)) us := by
    have h1 : ContinuousAt Gr us := hG.continuousAt
    have h2 : Continuous (fun v : Fin n → ℝ => norm2 v) := by unfold norm2; fun_prop
    exact h2.continuousAt.comp h1
  have hev1 : ∀ᶠ u in 𝓝 us, norm2 (Gr us) / 2 < norm2 (Gr u) := hcont.eventually_const_lt (by linarith)
  have hev2 : ∀ᶠ u in 𝓝 us, norm2 (Gr u) < 2 * norm2 (Gr us) := hcont.eventually_lt_const (by linarith)
  have hb : DifferentiableAt ℝ (fun u => alpha (Gr u) ⬝ᵥ u) us := by
    have hd : ∀ i, DifferentiableAt ℝ (fun u => Gr u i) us := fun i => (hasFDerivAt_pi'.1 hG i).differentiableAt
    have hnd : DifferentiableAt ℝ (fun u => norm2 (Gr u)) us := by
      unfold norm2
      refine DifferentiableAt.sqrt ?_ ?_
      · exact DifferentiableAt.fun_sum fun i _ => (hd i).pow 2
      · rw [← norm2_sq]; positivity
    simp only [alpha, dotProduct]
    refine DifferentiableAt.fun_sum fun i _ => ?_
    exact (((hd i).neg).mul (hnd.inv hN.ne')).mul (differentiableAt_apply i us)
  obtain ⟨B, hB0, hB⟩ := hb.hasFDerivAt.isBigO_sub.exists_pos
  have hev3 := hB.bound
  obtain ⟨δ', hδ', hloc⟩ := eventually_gauge hE hne ((hev1.and hev2).and hev3)
  set g := Gr us with hg
  set c := 1 + 1 / (E * norm2 g) with hc
  have hc0 : 0 < c := by positivity
  set A := 1 + E * norm2 g with hA
  have hA0 : 0 < A := by positivity
  -- one constant
  set C := 1 + 2 * norm2 g * (c * 2) + c * 2 + A / (1 - ρ) * (2 / norm2 g + 1) + B * c with hC
  have hr : 0 < 1 - ρ := by linarith
  have t1 : 0 ≤ 2 * norm2 g * (c * 2) := by positivity
  have t2 : 0 ≤ c * 2 := by positivity
  have t3 : 0 ≤ A / (1 - ρ) * (2 / norm2 g + 1) := by positivity
  have t4 : 0 ≤ B * c := by positivity
  refine ⟨E, ρ, min δ δ', C, hE, hρ0, hρ1, lt_min hδ hδ', by linarith, fun u hu => ?_⟩
  obtain ⟨⟨l1, l2⟩, l3⟩ := hloc u (hu.trans (min_le_right _ _))
  have hk := hcon u (hu.trans (min_le_left _ _))
  have hgn : Gr u ≠ 0 := by
    intro h
    rw [h, norm2_zero] at l1
    linarith
  set γ := gauge E g (u - us) with hγ
  have hγ0 : 0 ≤ γ := gauge_nonneg hE.le _ _
  have hNu := norm2_pos hgn
  set d := direction (q u) (Gr u) (alpha (Gr u)) u with hd
  have hdT : d = hlrf q Gr u - u := by
    have := full_step hgn (q u) u
    unfold hlrf
    rw [← this]
    funext k; simp [hd]
  have hsq := direction_sq (q u) hgn u
  rw [← hd] at hsq
  have he0 : 0 ≤ err2 u (alpha (Gr u)) := norm2_nonneg _
  have hd1 : |q u| / norm2 (Gr u) ≤ norm2 d := by
    have : |q u| / norm2 (Gr u) = |q u / norm2 (Gr u)| := by rw [abs_div, abs_of_pos hNu]
    rw [this]
    apply abs_le_of_sq_le_sq _ (norm2_nonneg _)
    nlinarith
  have hd2 : err2 u (alpha (Gr u)) ≤ norm2 d := by
    apply le_of_sq_le_sq _ (norm2_nonneg _)
    nlinarith [sq_nonneg (q u / norm2 (Gr u))]
  have hd3 : norm2 d ≤ |q u| / norm2 (Gr u) + err2 u (alpha (Gr u)) := by
    have h1 : 0 ≤ |q u| / norm2 (Gr u) := by positivity
    apply le_of_sq_le_sq _ (by positivity)
    rw [hsq]
    have : (q u / norm2 (Gr u)) ^ 2 = (|q u| / norm2 (Gr u)) ^ 2 := by rw [div_pow, div_pow, sq_abs]
    nlinarith
  have hd4 : norm2 d ≤ c * 2 * γ := by
    have e : d = (hlrf q Gr u - us) + (-1 : ℝ) • (u - us) := by rw [hdT]; funext k; simp
    rw [e]
    refine (norm2_add_le _ _).trans ?_
    rw [norm2_smul]
    have h1 := le_gauge hE hne (hlrf q Gr u - us)
    have h2 := le_gauge hE hne (u - us)
    have h3 : gauge E g (hlrf q Gr u - us) ≤ γ := hk.trans (by nlinarith)
    have h4 := mul_le_mul_of_nonneg_left h3 hc0.le
    simp only [abs_neg, abs_one, one_mul]
    linarith
  refine ⟨hgn, hk, ?_, ?_, ?_, ?_⟩
  · have h1 : |q u| ≤ norm2 (Gr u) * norm2 d := by
      rw [div_le_iff₀ hNu] at hd1; linarith
    have h2 : norm2 (Gr u) * norm2 d ≤ 2 * norm2 g * (c * 2 * γ) := mul_le_mul l2.le hd4 (norm2_nonneg _) (by positivity)
    have h3 : 2 * norm2 g * (c * 2) * γ ≤ C * γ := mul_le_mul_of_nonneg_right (by linarith) hγ0
    linarith
  · have h3 : c * 2 * γ ≤ C * γ := mul_le_mul_of_nonneg_right (by linarith) hγ0
    linarith
  · have e : u - us = (hlrf q Gr u - us) + (-1 : ℝ) • d := by rw [hdT]; funext k; simp
    have h1 : γ ≤ ρ * γ + A * norm2 d := by
      have h2 := gauge_add hE.le g (hlrf q Gr u - us) ((-1 : ℝ) • d)
      rw [← e] at h2
      have h3 := gauge_le hE.le g ((-1 : ℝ) • d)
      rw [norm2_smul] at h3
      simp only [abs_neg, abs_one, one_mul] at h3
      linarith
    have h2 : γ ≤ A / (1 - ρ) * norm2 d := by
      rw [div_mul_eq_mul_div, le_div_iff₀ hr]; linarith
    have h3 : |q u| / norm2 (Gr u) ≤ 2 / norm2 g * |q u| := by
      rw [div_le_iff₀ hNu]
      have : 2 / norm2 g * |q u| * norm2 (Gr u) ≥ 2 / norm2 g * |q u| * (norm2 g / 2) :=
        mul_le_mul_of_nonneg_left l1.le (by positivity)
      have e : 2 / norm2 g * |q u| * (norm2 g / 2) = |q u| := by field_simp
      linarith
    have h4 : norm2 d ≤ (2 / norm2 g + 1) * (|q u| + err2 u (alpha (Gr u))) := by
      have h5 : 0 ≤ 2 / norm2 g * err2 u (alpha (Gr u)) := by positivity
      have := abs_nonneg (q u)
      nlinarith
    calc γ ≤ A / (1 - ρ) * norm2 d := h2
      _ ≤ A / (1 - ρ) * ((2 / norm2 g + 1) * (|q u| + err2 u (alpha (Gr u)))) := mul_le_mul_of_nonneg_left h4 (by positivity)
      _ = A / (1 - ρ) * (2 / norm2 g + 1) * (|q u| + err2 u (alpha (Gr u))) := by ring
      _ ≤ C * (|q u| + err2 u (alpha (Gr u))) := mul_le_mul_of_nonneg_right (by linarith) (add_nonneg (abs_nonneg _) he0)
  · have h1 : ‖u - us‖ ≤ c * γ := (sup_le_norm2 _).trans (le_gauge hE hne _)
    rw [Real.norm_eq_abs] at l3
    calc |alpha (Gr u) ⬝ᵥ u - alpha g ⬝ᵥ us| ≤ B * ‖u - us‖ := l3
      _ ≤ B * (c * γ) := mul_le_mul_of_nonneg_left h1 hB0.le
      _ = B * c * γ := by ring
      _ ≤ C * γ := mul_le_mul_of_nonneg_right (by linarith) hγ0

end Pystra.Props
