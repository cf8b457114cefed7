import Verif.Props.FormLocal
import Verif.Props.SormCurvature
import Verif.Props.FormTransform

/-! C103, globally: FORM on paraboloids converges from every starting point. -/

namespace Pystra.Props
open Matrix Spec Transformation Form Set

variable {σ : Type} {m : ℕ}

/-- The gradient of a paraboloid, in the rotated coordinates. -/
noncomputable def parGrad (κ : Fin m → ℝ) (c : ℝ) (v : Fin (m + 1) → ℝ) : Fin (m + 1) → ℝ :=
  Fin.snoc (fun i => c * (κ i * v i.castSucc)) (-c)

/-- The paraboloid, in the rotated coordinates. -/
noncomputable def parVal (κ : Fin m → ℝ) (c β : ℝ) (v : Fin (m + 1) → ℝ) : ℝ :=
  c * (β - v (Fin.last m) + 1 / 2 * ∑ i : Fin m, κ i * v i.castSucc ^ 2)

theorem par_hasFDerivAt {Q : Matrix (Fin (m + 1)) (Fin (m + 1)) ℝ} (κ : Fin m → ℝ) (c β : ℝ) (u : Fin (m + 1) → ℝ) :
    HasFDerivAt (fun u => parVal κ c β (Q *ᵥ u)) (gradMap (Qᵀ *ᵥ parGrad κ c (Q *ᵥ u))) u := by
  have hK : (c • (Qᵀ * diagonal (Fin.snoc κ 0 : Fin (m + 1) → ℝ) * Q)).IsSymm := by
    unfold IsSymm
    rw [transpose_smul, transpose_mul, transpose_mul, transpose_transpose, diagonal_transpose, Matrix.mul_assoc]
  have h := quad_hasFDerivAt (c * β) (fun j => -c * Q (Fin.last m) j) hK u
  have e : (fun u => parVal κ c β (Q *ᵥ u)) = quad (c * β) (fun j => -c * Q (Fin.last m) j)
      (c • (Qᵀ * diagonal (Fin.snoc κ 0 : Fin (m + 1) → ℝ) * Q)) := funext fun u => paraboloid_quad Q κ c β u
  rw [e]
  convert h using 2
  rw [smul_mulVec, ← mulVec_mulVec, ← mulVec_mulVec]
  have e2 : parGrad κ c (Q *ᵥ u) = Pi.single (Fin.last m) (-c) + c • (diagonal (Fin.snoc κ 0 : Fin (m + 1) → ℝ)).mulVec (Q *ᵥ u) := by
    funext i
    refine Fin.lastCases ?_ (fun i => ?_) i
    · simp [parGrad, mulVec_diagonal, -mulVec_mulVec]
    · simp [parGrad, mulVec_diagonal, -mulVec_mulVec, (Fin.castSucc_lt_last i).ne]
  rw [e2, mulVec_add, mulVec_smul]
  congr 1
  funext j
  simp [mulVec, dotProduct_single, mul_comm]

/-- What is used of the contraction, in terms of the curved part. -/
theorem par_bounds {κ : Fin m → ℝ} {K β ϱ : ℝ} (hK : ∀ i, |κ i| ≤ K) (hK0 : 0 ≤ K) (hβ : |β| * K ≤ 1) (hϱ : 0 ≤ ϱ)
    (hr : ∀ i j, κ j ≠ 0 → |κ i| ≤ ϱ * |κ j|) (v : Fin m → ℝ) :
    let A := ∑ i, κ i * v i ^ 2
    let b := norm2 (fun i => κ i * v i)
    b ≤ K * norm2 v ∧ |A| ≤ K * norm2 v ^ 2 ∧
    (∀ i, |(1 / 2 * A - β) / (1 + b ^ 2)| * |κ i| ≤ max (ϱ / 2) (|β| * K)) ∧
    |-((1 / 2 * A - β) / (1 + b ^ 2)) - β| ≤ 3 / 4 * norm2 v := by
  intro A b
  have hv := norm2_nonneg v
  have hb0 : 0 ≤ b := norm2_nonneg _
  have hb2 : b ^ 2 = ∑ i, (κ i * v i) ^ 2 := norm2_sq _
  have hv2 : norm2 v ^ 2 = ∑ i, v i ^ 2 := norm2_sq _
  have h1 : b ≤ K * norm2 v := by
    apply le_of_sq_le_sq _ (by positivity)
    rw [hb2, mul_pow, hv2, Finset.mul_sum]
    refine Finset.sum_le_sum fun i _ => ?_
    rw [mul_pow]
    refine mul_le_mul_of_nonneg_right ?_ (sq_nonneg _)
    rw [← sq_abs]
    exact pow_le_pow_left₀ (abs_nonneg _) (hK i) 2
  have hAb : |A| ≤ b * norm2 v := by
    have : A = (fun i => κ i * v i) ⬝ᵥ v := Finset.sum_congr rfl fun i _ => by ring
    rw [this]
    exact abs_dot_le _ _
  have hpos : 0 < 1 + b ^ 2 := by positivity
  refine ⟨h1, ?_, fun i => ?_, ?_⟩
  · calc |A| ≤ b * norm2 v := hAb
      _ ≤ K * norm2 v * norm2 v := mul_le_mul_of_nonneg_right h1 hv
      _ = K * norm2 v ^ 2 := by ring
  · have hi : |κ i| * |A| ≤ ϱ * b ^ 2 := by
      calc |κ i| * |A| ≤ |κ i| * ∑ j, |κ j * v j ^ 2| :=
            mul_le_mul_of_nonneg_left (Finset.abs_sum_le_sum_abs _ _) (abs_nonneg _)
        _ = ∑ j, |κ i| * |κ j| * v j ^ 2 := by
            rw [Finset.mul_sum]
            refine Finset.sum_congr rfl fun j _ => ?_
            rw [abs_mul, abs_of_nonneg (sq_nonneg (v j))]; ring
        _ ≤ ∑ j, ϱ * (κ j * v j) ^ 2 := by
            refine Finset.sum_le_sum fun j _ => ?_
            by_cases hj : κ j = 0
            · simp [hj]
            · have := mul_le_mul_of_nonneg_right (hr i j hj) (abs_nonneg (κ j))
              have e : |κ j| * |κ j| = κ j ^ 2 := by rw [← sq, sq_abs]
              have h2 := mul_le_mul_of_nonneg_right this (sq_nonneg (v j))
              rw [mul_assoc ϱ, e] at h2
              rw [mul_pow]
              linarith
        _ = ϱ * b ^ 2 := by rw [hb2, Finset.mul_sum]
    rw [abs_div, abs_of_pos hpos, div_mul_eq_mul_div, div_le_iff₀ hpos]
    have h2 : |1 / 2 * A - β| ≤ 1 / 2 * |A| + |β| := by
      refine (abs_sub _ _).trans ?_
      rw [abs_mul]; norm_num
    have h3 := mul_le_mul_of_nonneg_right h2 (abs_nonneg (κ i))
    have h4 := mul_le_mul_of_nonneg_left (hK i) (abs_nonneg β)
    have m1 := le_max_left (ϱ / 2) (|β| * K)
    have m2 := le_max_right (ϱ / 2) (|β| * K)
    have m3 := mul_le_mul_of_nonneg_right m1 (sq_nonneg b)
    nlinarith
  · have e : -((1 / 2 * A - β) / (1 + b ^ 2)) - β = -(1 / 2 * A + β * b ^ 2) / (1 + b ^ 2) := by
      field_simp; ring
    rw [e, abs_div, abs_of_pos hpos, abs_neg, div_le_iff₀ hpos]
    have h2 : |1 / 2 * A + β * b ^ 2| ≤ 1 / 2 * |A| + |β| * b ^ 2 := by
      refine (abs_add_le _ _).trans ?_
      rw [abs_mul, abs_mul, abs_of_nonneg (sq_nonneg b)]; norm_num
    have h3 : |β| * b ^ 2 ≤ b * norm2 v := by
      have h4 : |β| * b ≤ norm2 v := by
        have := mul_le_mul_of_nonneg_left h1 (abs_nonneg β)
        have h5 := mul_le_mul_of_nonneg_right hβ hv
        linarith
      have := mul_le_mul_of_nonneg_left h4 hb0
      linarith
    have h6 : b * norm2 v ≤ 1 / 2 * (1 + b ^ 2) * norm2 v := by
      have : b ≤ 1 / 2 * (1 + b ^ 2) := by nlinarith [sq_nonneg (b - 1)]
      exact mul_le_mul_of_nonneg_right this hv
    linarith

theorem norm2_snoc_sq (v : Fin (m + 1) → ℝ) : norm2 v ^ 2 = norm2 (fun i : Fin m => v i.castSucc) ^ 2 + v (Fin.last m) ^ 2 := by
  rw [norm2_sq, norm2_sq, Fin.sum_univ_castSucc]

theorem parGrad_sq (κ : Fin m → ℝ) (c : ℝ) (v : Fin (m + 1) → ℝ) :
    norm2 (parGrad κ c v) ^ 2 = c ^ 2 * (1 + norm2 (fun i : Fin m => κ i * v i.castSucc) ^ 2) := by
  rw [norm2_snoc_sq]
  simp only [parGrad, Fin.snoc_castSucc, Fin.snoc_last]
  have : (fun i : Fin m => c * (κ i * v i.castSucc)) = c • (fun i : Fin m => κ i * v i.castSucc) := rfl
  rw [this, norm2_smul, mul_pow, sq_abs]
  ring

theorem parGrad_dot (κ : Fin m → ℝ) (c : ℝ) (v : Fin (m + 1) → ℝ) :
    parGrad κ c v ⬝ᵥ v = c * ((∑ i : Fin m, κ i * v i.castSucc ^ 2) - v (Fin.last m)) := by
  simp only [dotProduct, Fin.sum_univ_castSucc, parGrad, Fin.snoc_castSucc, Fin.snoc_last]
  rw [mul_sub, Finset.mul_sum]
  have : ∀ i : Fin m, c * (κ i * v i.castSucc) * v i.castSucc = c * (κ i * v i.castSucc ^ 2) := fun i => by ring
  simp only [this]
  ring

set_option maxHeartbeats 1000000 in
/-- The search on a paraboloid, in the norm in which it contracts. -/
theorem par_contracts {Q : Matrix (Fin (m + 1)) (Fin (m + 1)) ℝ} (hQ : Q * Qᵀ = 1) {κ : Fin m → ℝ} {c β K ϱ : ℝ} (hc : 0 < c)
    (hK : ∀ i, |κ i| ≤ K) (hK0 : 0 ≤ K) (hβ : |β| * K < 1) (hϱ : 0 ≤ ϱ) (hϱ2 : ϱ < 2) (hr : ∀ i j, κ j ≠ 0 → |κ i| ≤ ϱ * |κ j|) (δ : ℝ) (hδ : 0 ≤ δ) :
    ∃ C, 1 ≤ C ∧ ∀ u,
      gauge ((1 - max (ϱ / 2) (|β| * K)) * (2 / 3)) (Q (Fin.last m)) (u - β • Q (Fin.last m)) ≤ δ →
      Qᵀ *ᵥ parGrad κ c (Q *ᵥ u) ≠ 0 ∧
      gauge ((1 - max (ϱ / 2) (|β| * K)) * (2 / 3)) (Q (Fin.last m))
          (hlrf (fun u => parVal κ c β (Q *ᵥ u)) (fun u => Qᵀ *ᵥ parGrad κ c (Q *ᵥ u)) u - β • Q (Fin.last m)) ≤
        (1 + max (ϱ / 2) (|β| * K)) / 2 *
          gauge ((1 - max (ϱ / 2) (|β| * K)) * (2 / 3)) (Q (Fin.last m)) (u - β • Q (Fin.last m)) ∧
      |parVal κ c β (Q *ᵥ u)| ≤ C * gauge ((1 - max (ϱ / 2) (|β| * K)) * (2 / 3)) (Q (Fin.last m)) (u - β • Q (Fin.last m)) ∧
      err2 u (alpha (Qᵀ *ᵥ parGrad κ c (Q *ᵥ u))) ≤
        C * gauge ((1 - max (ϱ / 2) (|β| * K)) * (2 / 3)) (Q (Fin.last m)) (u - β • Q (Fin.last m)) ∧
      gauge ((1 - max (ϱ / 2) (|β| * K)) * (2 / 3)) (Q (Fin.last m)) (u - β • Q (Fin.last m)) ≤
        C * (|parVal κ c β (Q *ᵥ u)| + err2 u (alpha (Qᵀ *ᵥ parGrad κ c (Q *ᵥ u)))) ∧
      |alpha (Qᵀ *ᵥ parGrad κ c (Q *ᵥ u)) ⬝ᵥ u - β| ≤
        C * gauge ((1 - max (ϱ / 2) (|β| * K)) * (2 / 3)) (Q (Fin.last m)) (u - β • Q (Fin.last m)) := by
  have hQ' : Qᵀ * Q = 1 := mul_eq_one_comm.1 hQ
  have hQt : (Qᵀ)ᵀ * Qᵀ = 1 := by rw [transpose_transpose]; exact hQ
  set a := Q (Fin.last m) with ha
  obtain ⟨k, hk⟩ : ∃ k, k = max (ϱ / 2) (|β| * K) := ⟨_, rfl⟩
  rw [← hk]
  have hk0 : 0 ≤ k := by rw [hk]; exact le_max_of_le_left (by linarith)
  have hk1 : k < 1 := by rw [hk]; exact max_lt (by linarith) hβ
  obtain ⟨E, hE⟩ : ∃ E, E = (1 - k) * (2 / 3) := ⟨_, rfl⟩
  rw [← hE]
  have hE0 : 0 < E := by rw [hE]; linarith
  obtain ⟨us, hus⟩ : ∃ us, us = β • a := ⟨_, rfl⟩
  rw [← hus]
  -- the unit vector
  have haa : a ⬝ᵥ a = 1 := by
    have := congrFun (congrFun hQ (Fin.last m)) (Fin.last m)
    rw [mul_apply, one_apply_eq] at this
    exact this
  have hna : norm2 a = 1 := by
    have h := dot_self a
    rw [haa] at h
    nlinarith [norm2_nonneg a]
  have hane : a ≠ 0 := by
    intro h
    rw [h] at haa
    simp at haa
  have hdotQ : ∀ h, a ⬝ᵥ h = (Q *ᵥ h) (Fin.last m) := fun h => rfl
  have htang : ∀ h, norm2 (tang a h) = norm2 (fun i : Fin m => (Q *ᵥ h) i.castSucc) := by
    intro h
    apply (sq_eq_sq₀ (norm2_nonneg _) (norm2_nonneg _)).1
    have h1 := norm2_snoc_sq (Q *ᵥ h)
    rw [rot_norm hQ'] at h1
    have h2 : norm2 (tang a h) ^ 2 = norm2 h ^ 2 - (a ⬝ᵥ h) ^ 2 := by
      rw [← dot_self, ← dot_self]
      have : tang a h ⬝ᵥ tang a h = h ⬝ᵥ tang a h := by
        conv_lhs => rw [show tang a h ⬝ᵥ tang a h = (h - ((a ⬝ᵥ h) / (a ⬝ᵥ a)) • a) ⬝ᵥ tang a h from rfl]
        rw [sub_dotProduct, smul_dotProduct, dot_tang hane, smul_zero, sub_zero]
      rw [this]
      unfold tang
      rw [dotProduct_sub, dotProduct_smul, haa, dotProduct_comm h a, smul_eq_mul]
      ring
    rw [h2, hdotQ]
    linarith
  have hQus : Q *ᵥ us = Pi.single (Fin.last m) β := by
    have : us = Qᵀ *ᵥ Pi.single (Fin.last m) β := by
      rw [hus]; funext j; simp [ha]; ring
    rw [this, mulVec_mulVec, hQ, one_mulVec]
  have hg : ∀ u, gauge E a (u - us) = norm2 (fun i : Fin m => (Q *ᵥ u) i.castSucc) + E * |(Q *ᵥ u) (Fin.last m) - β| := by
    intro u
    unfold gauge
    rw [htang, hdotQ, mulVec_sub, hQus]
    congr 2
    · funext i
      simp [(Fin.castSucc_lt_last i).ne]
    · simp
  obtain ⟨C, hC⟩ : ∃ C, C = 1 + c * (1 / E + 1 / 2 * K * δ) + (1 + 1 / E) * 2 + (1 + E) / ((1 - k) / 2) * (1 / c + 1) +
      (1 / E + K * δ + 1) := ⟨_, rfl⟩
  have hr0 : 0 < (1 - k) / 2 := by linarith
  have t1 : 0 ≤ c * (1 / E + 1 / 2 * K * δ) := by positivity
  have t2 : 0 ≤ (1 + 1 / E) * 2 := by positivity
  have t3 : 0 ≤ (1 + E) / ((1 - k) / 2) * (1 / c + 1) := by positivity
  have t4 : 0 ≤ 1 / E + K * δ + 1 := by positivity
  refine ⟨C, by linarith, fun u hu => ?_⟩
  obtain ⟨w, hw⟩ : ∃ w, w = Qᵀ *ᵥ parGrad κ c (Q *ᵥ u) := ⟨_, rfl⟩
  obtain ⟨v, hv⟩ : ∃ v, v = Q *ᵥ u := ⟨_, rfl⟩
  obtain ⟨vt, hvt⟩ : ∃ vt, vt = fun i : Fin m => v i.castSucc := ⟨_, rfl⟩
  obtain ⟨A, hA⟩ : ∃ A, A = ∑ i, κ i * vt i ^ 2 := ⟨_, rfl⟩
  obtain ⟨b, hb⟩ : ∃ b, b = norm2 (fun i => κ i * vt i) := ⟨_, rfl⟩
  obtain ⟨p1, p2, p3, p4⟩ := par_bounds hK hK0 hβ.le hϱ hr vt
  rw [← hb] at p1 p3 p4
  rw [← hA] at p2 p3 p4
  rw [← hk] at p3
  have hγe := hg u
  rw [← hv, ← hvt] at hγe
  obtain ⟨γ, hγ⟩ : ∃ γ, γ = gauge E a (u - us) := ⟨_, rfl⟩
  rw [← hγ] at hγe hu ⊢
  have hN0 := norm2_nonneg vt
  have hz0 := abs_nonneg (v (Fin.last m) - β)
  have hEz : 0 ≤ E * |v (Fin.last m) - β| := by positivity
  have hγ0 : 0 ≤ γ := by rw [hγe]; linarith
  have hvγ : norm2 vt ≤ γ := by linarith
  have hzγ : |v (Fin.last m) - β| ≤ 1 / E * γ := by
    rw [hγe, div_mul_eq_mul_div, one_mul, le_div_iff₀ hE0]; linarith
  have hwn : norm2 w ^ 2 = c ^ 2 * (1 + b ^ 2) := by
    rw [hw, rot_norm hQt, parGrad_sq, hb, hvt, hv]
  have hwdot : w ⬝ᵥ u = c * (A - v (Fin.last m)) := by
    rw [hw, dotProduct_comm, dotProduct_mulVec, vecMul_transpose, dotProduct_comm, parGrad_dot, hA, hvt, hv]
  have hq : parVal κ c β (Q *ᵥ u) = c * (β - v (Fin.last m) + 1 / 2 * A) := by
    unfold parVal
    rw [hA, hvt, hv]
  have hb0 : 0 ≤ b := by rw [hb]; exact norm2_nonneg _
  have hwc : c ≤ norm2 w := by
    apply le_of_sq_le_sq _ (norm2_nonneg _)
    rw [hwn]; nlinarith [sq_nonneg b, sq_nonneg c, mul_nonneg (sq_nonneg c) (sq_nonneg b)]
  have hwne : w ≠ 0 := by
    intro h
    rw [h, norm2_zero] at hwc
    linarith
  rw [← hw]
  have hT : hlrf (fun u => parVal κ c β (Q *ᵥ u)) (fun u => Qᵀ *ᵥ parGrad κ c (Q *ᵥ u)) u =
      (((1 / 2 * A - β) / (1 + b ^ 2)) / c) • w := by
    unfold hlrf
    dsimp only
    rw [← hw, dot_self, hwn, hq, hwdot]
    congr 1
    field_simp
    ring
  obtain ⟨st, hst⟩ : ∃ st, st = (1 / 2 * A - β) / (1 + b ^ 2) := ⟨_, rfl⟩
  rw [← hst] at hT p3 p4
  obtain ⟨T, hTd⟩ : ∃ T, T = hlrf (fun u => parVal κ c β (Q *ᵥ u)) (fun u => Qᵀ *ᵥ parGrad κ c (Q *ᵥ u)) u := ⟨_, rfl⟩
  rw [← hTd] at hT ⊢
  have hQT : Q *ᵥ T = (st / c) • parGrad κ c v := by
    rw [hT, hw, mulVec_smul, mulVec_mulVec, hQ, one_mulVec, hv]
  have hk' : gauge E a (T - us) ≤ (1 + k) / 2 * γ := by
    rw [hg T, hQT]
    have e1 : norm2 (fun i : Fin m => ((st / c) • parGrad κ c v) i.castSucc) ≤ k * norm2 vt := by
      apply le_of_sq_le_sq _ (by positivity)
      rw [norm2_sq, mul_pow, norm2_sq, Finset.mul_sum]
      refine Finset.sum_le_sum fun i _ => ?_
      have e : ((st / c) • parGrad κ c v) i.castSucc = (st * κ i) * vt i := by
        simp only [Pi.smul_apply, smul_eq_mul, parGrad, Fin.snoc_castSucc, hvt]
        field_simp
      rw [e, mul_pow]
      refine mul_le_mul_of_nonneg_right ?_ (sq_nonneg _)
      rw [← sq_abs, abs_mul]
      exact pow_le_pow_left₀ (by positivity) (p3 i) 2
    have e2 : ((st / c) • parGrad κ c v) (Fin.last m) - β = -st - β := by
      simp only [Pi.smul_apply, smul_eq_mul, parGrad, Fin.snoc_last]
      field_simp
    rw [e2]
    have e3 := mul_le_mul_of_nonneg_left p4 hE0.le
    have e4 : k * norm2 vt + E * (3 / 4 * norm2 vt) = (1 + k) / 2 * norm2 vt := by rw [hE]; ring
    have e5 : (1 + k) / 2 * norm2 vt ≤ (1 + k) / 2 * γ := mul_le_mul_of_nonneg_left hvγ (by linarith)
    linarith
  obtain ⟨d, hd⟩ : ∃ d, d = direction (parVal κ c β (Q *ᵥ u)) w (alpha w) u := ⟨_, rfl⟩
  have hdT : d = T - u := by
    have := full_step hwne (parVal κ c β (Q *ᵥ u)) u
    rw [hTd]
    unfold hlrf
    dsimp only
    rw [← hw, ← this, hd]
    funext k; simp
  have hsq := direction_sq (parVal κ c β (Q *ᵥ u)) hwne u
  rw [← hd] at hsq
  have hNu := norm2_pos hwne
  have he0 : 0 ≤ err2 u (alpha w) := norm2_nonneg _
  obtain ⟨qu, hqu⟩ : ∃ qu, qu = parVal κ c β (Q *ᵥ u) := ⟨_, rfl⟩
  rw [← hqu] at hsq hq ⊢
  have hd2 : err2 u (alpha w) ≤ norm2 d := by
    apply le_of_sq_le_sq _ (norm2_nonneg _)
    rw [hsq]
    exact le_add_of_nonneg_left (sq_nonneg _)
  have hd3 : norm2 d ≤ |qu| / norm2 w + err2 u (alpha w) := by
    have h1 : 0 ≤ |qu| / norm2 w := by positivity
    apply le_of_sq_le_sq _ (by positivity)
    rw [hsq]
    have : (qu / norm2 w) ^ 2 = (|qu| / norm2 w) ^ 2 := by rw [div_pow, div_pow, sq_abs]
    rw [this, add_sq]
    have := mul_nonneg h1 he0
    linarith
  have hle1 := le_gauge hE0 hane (T - us)
  have hle2 := le_gauge hE0 hane (u - us)
  rw [hna, mul_one] at hle1 hle2
  rw [← hγ] at hle2
  have hAb : |A| ≤ K * δ * γ := by
    calc |A| ≤ K * norm2 vt ^ 2 := p2
      _ = K * norm2 vt * norm2 vt := by ring
      _ ≤ K * δ * γ := mul_le_mul (mul_le_mul_of_nonneg_left (hvγ.trans hu) hK0) hvγ hN0 (by positivity)
  refine ⟨hwne, hk', ?_, ?_, ?_, ?_⟩
  · have h1 : |qu| ≤ c * (|v (Fin.last m) - β| + 1 / 2 * |A|) := by
      rw [hq, abs_mul, abs_of_pos hc]
      refine mul_le_mul_of_nonneg_left ?_ hc.le
      have : β - v (Fin.last m) + 1 / 2 * A = -(v (Fin.last m) - β) + 1 / 2 * A := by ring
      rw [this]
      refine (abs_add_le _ _).trans ?_
      rw [abs_neg, abs_mul]; norm_num
    calc |qu| ≤ c * (|v (Fin.last m) - β| + 1 / 2 * |A|) := h1
      _ ≤ c * (1 / E * γ + 1 / 2 * (K * δ * γ)) := mul_le_mul_of_nonneg_left (by linarith) hc.le
      _ = c * (1 / E + 1 / 2 * K * δ) * γ := by ring
      _ ≤ C * γ := mul_le_mul_of_nonneg_right (by linarith) hγ0
  · have h1 : norm2 d ≤ (1 + 1 / E) * 2 * γ := by
      have e : d = (T - us) + (-1 : ℝ) • (u - us) := by rw [hdT]; funext k; simp
      rw [e]
      refine (norm2_add_le _ _).trans ?_
      rw [norm2_smul]
      have h3 : gauge E a (T - us) ≤ γ := hk'.trans (by
        have := mul_le_mul_of_nonneg_right (by linarith : (1 + k) / 2 ≤ 1) hγ0
        linarith)
      have h4 := mul_le_mul_of_nonneg_left h3 (by positivity : 0 ≤ 1 + 1 / E)
      simp only [abs_neg, abs_one, one_mul]
      linarith
    have h3 : (1 + 1 / E) * 2 * γ ≤ C * γ := mul_le_mul_of_nonneg_right (by linarith) hγ0
    linarith
  · have e : u - us = (T - us) + (-1 : ℝ) • d := by rw [hdT]; funext k; simp
    have h1 : γ ≤ (1 + k) / 2 * γ + (1 + E) * norm2 d := by
      have h2 := gauge_add hE0.le a (T - us) ((-1 : ℝ) • d)
      rw [← e, ← hγ] at h2
      have h3 := gauge_le hE0.le a ((-1 : ℝ) • d)
      rw [norm2_smul, hna] at h3
      simp only [abs_neg, abs_one, one_mul, mul_one] at h3
      linarith
    have h2 : γ ≤ (1 + E) / ((1 - k) / 2) * norm2 d := by
      rw [div_mul_eq_mul_div, le_div_iff₀ hr0]; linarith
    have h3 : |qu| / norm2 w ≤ 1 / c * |qu| := by
      rw [div_eq_mul_one_div, mul_comm]
      exact mul_le_mul_of_nonneg_right (one_div_le_one_div_of_le hc hwc) (abs_nonneg _)
    have h4 : norm2 d ≤ (1 / c + 1) * (|qu| + err2 u (alpha w)) := by
      have h5 : 0 ≤ 1 / c * err2 u (alpha w) := by positivity
      have := abs_nonneg qu
      have e : (1 / c + 1) * (|qu| + err2 u (alpha w)) = 1 / c * |qu| + 1 / c * err2 u (alpha w) + |qu| + err2 u (alpha w) := by ring
      rw [e]
      linarith
    calc γ ≤ (1 + E) / ((1 - k) / 2) * norm2 d := h2
      _ ≤ (1 + E) / ((1 - k) / 2) * ((1 / c + 1) * (|qu| + err2 u (alpha w))) := mul_le_mul_of_nonneg_left h4 (by positivity)
      _ = (1 + E) / ((1 - k) / 2) * (1 / c + 1) * (|qu| + err2 u (alpha w)) := by ring
      _ ≤ C * (|qu| + err2 u (alpha w)) := mul_le_mul_of_nonneg_right (by linarith) (add_nonneg (abs_nonneg _) he0)
  · obtain ⟨R, hR⟩ : ∃ R, R = norm2 w / c := ⟨_, rfl⟩
    have hR2 : R ^ 2 = 1 + b ^ 2 := by rw [hR, div_pow, hwn]; field_simp
    have hR1 : 1 ≤ R := by rw [hR, le_div_iff₀ hc]; linarith
    have hRb : R ≤ 1 + b := by
      apply le_of_sq_le_sq _ (by linarith)
      rw [hR2]; nlinarith
    have hal : alpha w ⬝ᵥ u - β = ((v (Fin.last m) - β) - A - β * (R - 1)) / R := by
      rw [alpha_dot, hwdot]
      have : norm2 w = c * R := by rw [hR]; field_simp
      rw [this]
      field_simp
      ring
    have hβb : |β| * b ≤ norm2 vt := by
      have h1 := mul_le_mul_of_nonneg_left p1 (abs_nonneg β)
      have h2 := mul_le_mul_of_nonneg_right hβ.le hN0
      linarith
    have h1 : |(v (Fin.last m) - β) - A - β * (R - 1)| ≤ |v (Fin.last m) - β| + |A| + |β| * (R - 1) := by
      refine (abs_sub _ _).trans ?_
      rw [abs_mul, abs_of_nonneg (by linarith : 0 ≤ R - 1)]
      have := abs_sub (v (Fin.last m) - β) A
      linarith
    rw [hal, abs_div, abs_of_pos (by linarith : 0 < R)]
    have h2 : |β| * (R - 1) ≤ |β| * b := mul_le_mul_of_nonneg_left (by linarith) (abs_nonneg _)
    have h3 : |(v (Fin.last m) - β) - A - β * (R - 1)| / R ≤ |(v (Fin.last m) - β) - A - β * (R - 1)| :=
      div_le_self (abs_nonneg _) hR1
    calc |(v (Fin.last m) - β) - A - β * (R - 1)| / R ≤ |v (Fin.last m) - β| + |A| + |β| * (R - 1) := h3.trans h1
      _ ≤ 1 / E * γ + K * δ * γ + γ := by linarith
      _ = (1 / E + K * δ + 1) * γ := by ring
      _ ≤ C * γ := mul_le_mul_of_nonneg_right (by linarith) hγ0

/-- C103: convergence from every starting point.  The limit state is a paraboloid of the standard normal variables,
`c (β - v_n + ½ Σ κᵢ vᵢ²)` in coordinates `v = Q u` (`Q` orthogonal, `c > 0`), any marginals, any dependence, exact gradients.  If
`|β| |κᵢ| < 1` for all curvatures (`K` bounds them) and no curvature is more than `ϱ < 2` times another one in size, the zero ones apart,
then FORM converges from every starting point, however far away, to the design point `β` times the last row of `Q`, at
the rate `ρ = (1 + max(ϱ/2, |β| K))/2`, which does not depend on the starting point. -/
theorem C103_global {la : LinAlg} {ty : TransformType} {Ro : Matrix (Fin (m + 1)) (Fin (m + 1)) ℝ} {t : Mats (m + 1)}
    (ht : Transformation.compute la ty Ro = .ok t) {marg : Fin (m + 1) → Marginal} {S : Fin (m + 1) → Set ℝ}
    (hmarg : ∀ i, RoundTrip (marg i) (S i)) (hS : ∀ i, IsOpen (S i)) (hj : ∀ i, JacobianCorrect (marg i) (S i))
    (hdiff : ∀ i, Differentiable ℝ (marg i).uToX)
    {f : (Fin (m + 1) → ℝ) → ℝ} {grad : (Fin (m + 1) → ℝ) → Fin (m + 1) → ℝ}
    (hf : ∀ x, (∀ i, x i ∈ S i) → HasFDerivAt f (gradMap (grad x)) x)
    {ev : Evaluator σ (m + 1)} {P : σ → Prop} (hex : Exact ev P f grad)
    {Q : Matrix (Fin (m + 1)) (Fin (m + 1)) ℝ} (hQ : Q * Qᵀ = 1) {κ : Fin m → ℝ} {c β K ϱ : ℝ} (hc : 0 < c)
    (hq : ∀ u, f (uToX t marg u) = c * (β - Q.mulVec u (Fin.last m) + 1 / 2 * ∑ i : Fin m, κ i * Q.mulVec u i.castSucc ^ 2))
    (hK : ∀ i, |κ i| ≤ K) (hK0 : 0 ≤ K) (hβ : |β| * K < 1) (hϱ : 0 ≤ ϱ) (hϱ2 : ϱ < 2)
    (hr : ∀ i j, κ j ≠ 0 → |κ i| ≤ ϱ * |κ j|) (x0 : Fin (m + 1) → ℝ) :
    ∃ C > 0, ConvergesFrom t marg ev P f (fun i => β * Q (Fin.last m) i) β x0 ((1 + max (ϱ / 2) (|β| * K)) / 2) C 0 := by
  have hk1 : max (ϱ / 2) (|β| * K) < 1 := max_lt (by linarith) hβ
  have hk0 : 0 ≤ max (ϱ / 2) (|β| * K) := le_max_of_le_left (by linarith)
  have hE : 0 < (1 - max (ϱ / 2) (|β| * K)) * (2 / 3) := by linarith
  have hfun : (fun u => f (uToX t marg u)) = fun u => parVal κ c β (Q *ᵥ u) := funext hq
  have hane : Q (Fin.last m) ≠ 0 := by
    intro h
    have := congrFun (congrFun hQ (Fin.last m)) (Fin.last m)
    rw [mul_apply, one_apply_eq] at this
    rw [h] at this
    simp at this
  obtain ⟨C, hC, hloc⟩ := par_contracts hQ hc hK hK0 hβ hϱ hϱ2 hr
    (gauge ((1 - max (ϱ / 2) (|β| * K)) * (2 / 3)) (Q (Fin.last m)) (xToU t marg x0 - β • Q (Fin.last m))) (gauge_nonneg hE.le _ _)
  have hN := norm2_pos hane
  have hA1 : 1 ≤ 1 + (1 - max (ϱ / 2) (|β| * K)) * (2 / 3) * norm2 (Q (Fin.last m)) := by
    have : 0 ≤ (1 - max (ϱ / 2) (|β| * K)) * (2 / 3) * norm2 (Q (Fin.last m)) := by positivity
    linarith
  have hc1 : 1 ≤ 1 + 1 / ((1 - max (ϱ / 2) (|β| * K)) * (2 / 3) * norm2 (Q (Fin.last m))) := by
    have : 0 ≤ 1 / ((1 - max (ϱ / 2) (|β| * K)) * (2 / 3) * norm2 (Q (Fin.last m))) := by positivity
    linarith
  refine ⟨2 * (C ^ 2 * _ * _), ?_, converges_from ht hmarg hS hj hdiff hf hex (Gr := fun u => Qᵀ *ᵥ parGrad κ c (Q *ᵥ u)) ?_ hA1 hc1
    (N := fun u => gauge ((1 - max (ϱ / 2) (|β| * K)) * (2 / 3)) (Q (Fin.last m)) (u - β • Q (Fin.last m)))
    (fun u => gauge_nonneg hE.le _ _) (gauge_convex hE.le _ _) (fun u => gauge_le hE.le _ _) (fun u => le_gauge hE hane _) (by linarith) (by linarith) hC
    (δ := gauge ((1 - max (ϱ / 2) (|β| * K)) * (2 / 3)) (Q (Fin.last m)) (xToU t marg x0 - β • Q (Fin.last m)))
    (fun u hu => ?_) x0 le_rfl⟩
  · positivity
  · intro u
    rw [hfun]
    exact par_hasFDerivAt κ c β u
  · have := hloc u hu
    rw [hfun]
    have e : f (uToX t marg u) = parVal κ c β (Q *ᵥ u) := hq u
    rw [e]
    exact this

end Pystra.Props
