import Verif.Lemmas.MarginNewton
import Verif.Props.FormLocal
import Verif.Props.EndToEnd

/-! C104: a limit state that is a function of one linear (or log-linear) margin, in several formulations. -/

namespace Pystra.Props
open Matrix Spec Transformation Form Set MeasureTheory

variable {σ : Type} {n : ℕ}

theorem tang_smul_left {c : ℝ} (hc : c ≠ 0) (g v : Fin n → ℝ) : tang (c • g) v = tang g v := by
  unfold tang
  rw [smul_dotProduct, dotProduct_smul, smul_dotProduct, smul_smul, smul_eq_mul, smul_eq_mul, smul_eq_mul]
  congr 2
  by_cases h : g ⬝ᵥ g = 0
  · simp [h]
  · field_simp

theorem tang_self {g : Fin n → ℝ} (hg : g ≠ 0) (c : ℝ) : tang g (c • g) = 0 := by
  have := (dot_self_pos hg).ne'
  unfold tang
  rw [dotProduct_smul, smul_eq_mul, mul_div_assoc, div_self this, mul_one, sub_self]

theorem err2_tang (u : Fin n → ℝ) {g : Fin n → ℝ} (hg : g ≠ 0) : err2 u (alpha g) = norm2 (tang g u) := by
  rw [err2_alpha u hg]
  have : (fun i => u i - (∑ j, g j * u j) / (∑ j, g j ^ 2) * g i) = tang g u := by
    funext i
    simp only [tang, Pi.sub_apply, Pi.smul_apply, smul_eq_mul, dotProduct, sq]
  rw [this]; rfl

/-- **C104 (a margin under any formulation).**  In standard normal space the limit state is `φ(b + Σ wᵢ uᵢ)`, with `φ(0) = 0` and `φ`
convex or concave with a positive derivative.  FORM converges linearly from every starting point to the design point and the
index of the margin itself, `β = b / ‖w‖`, and the probability of failure is exactly `Φ(-β)`, whatever `φ`. -/
theorem C104_margin {la : LinAlg} {ty : TransformType} {Ro : Matrix (Fin n) (Fin n) ℝ} {t : Mats n}
    (ht : Transformation.compute la ty Ro = .ok t) {marg : Fin n → Marginal} {S : Fin n → Set ℝ}
    (hmarg : ∀ i, RoundTrip (marg i) (S i)) (hS : ∀ i, IsOpen (S i)) (hj : ∀ i, JacobianCorrect (marg i) (S i))
    (hdiff : ∀ i, Differentiable ℝ (marg i).uToX)
    {f : (Fin n → ℝ) → ℝ} {grad : (Fin n → ℝ) → Fin n → ℝ}
    (hf : ∀ x, (∀ i, x i ∈ S i) → HasFDerivAt f (gradMap (grad x)) x)
    {ev : Evaluator σ n} {P : σ → Prop} (hex : Exact ev P f grad)
    {φ φ' : ℝ → ℝ} (h0 : φ 0 = 0) (hd : ∀ y, HasDerivAt φ (φ' y) y) (hpos : ∀ y, 0 < φ' y) (hm : Monotone φ' ∨ Antitone φ')
    {b : ℝ} {w : Fin n → ℝ} (hw : w ≠ 0) (hq : ∀ u, f (uToX t marg u) = φ (b + ∑ i, w i * u i)) :
    (∀ x0, ∃ ρ C : ℝ, 0 < ρ ∧ ρ < 1 ∧ 0 < C ∧
      ConvergesFrom t marg ev P f (fun i => -(b / len w) * w i / len w) (b / len w) x0 ρ C 0) ∧
    (stdGauss n).real {u | f (uToX t marg u) < 0} = StdNormal.cdf (-(b / len w)) := by
  have hN := norm2_pos hw
  have hww := dot_self_pos hw
  have hinc : StrictMono φ := strictMono_of_hasDerivAt_pos hd hpos
  constructor
  · intro x0
    obtain ⟨us, hus⟩ : ∃ us : Fin n → ℝ, us = fun i => -(b / len w) * w i / len w := ⟨_, rfl⟩
    have hus' : us = (-b / w ⬝ᵥ w) • w := by
      rw [hus, dot_self]; funext i
      change -(b / norm2 w) * w i / norm2 w = -b / norm2 w ^ 2 * w i
      field_simp
    have hwus : w ⬝ᵥ us = -b := by
      rw [hus', dotProduct_smul, smul_eq_mul, div_mul_cancel₀ _ hww.ne']
    rw [← hus]
    obtain ⟨u0, hu0⟩ : ∃ u0, u0 = xToU t marg x0 := ⟨_, rfl⟩
    obtain ⟨T, hT⟩ : ∃ T, T = |w ⬝ᵥ (u0 - us)| + norm2 (tang w (u0 - us)) + 1 := ⟨_, rfl⟩
    have hT0 : 0 < T := by have := abs_nonneg (w ⬝ᵥ (u0 - us)); have := norm2_nonneg (tang w (u0 - us)); linarith
    obtain ⟨p, q, ρ, C, hp, hq1, hρ0, hρ1, hC, hnew⟩ := newton_sided h0 hd hpos hm T hT0
    have hM : 1 ≤ max p q := le_max_of_le_left hp
    have hMC : 0 ≤ max p q * C := by apply mul_nonneg <;> linarith
    have hc1 : 1 ≤ 1 + 1 / norm2 w := by have : 0 < 1 / norm2 w := by positivity
                                         linarith
    refine ⟨ρ, 2 * ((max p q * C + 1 / norm2 w) ^ 2 * (1 + max p q * norm2 w) * (1 + 1 / norm2 w)), hρ0, hρ1, by positivity, ?_⟩
    have hK : 1 ≤ max p q * C + 1 / norm2 w := by
      have h1 : 1 * 1 ≤ max p q * C := mul_le_mul hM hC zero_le_one (by linarith)
      have : 0 < 1 / norm2 w := by positivity
      linarith
    have hKC : C ≤ max p q * C + 1 / norm2 w := by
      have h1 : 1 * C ≤ max p q * C := mul_le_mul_of_nonneg_right hM (by linarith)
      have : 0 < 1 / norm2 w := by positivity
      linarith
    have hfun : ∀ u, f (uToX t marg u) = φ (w ⬝ᵥ (u - us)) := by
      intro u
      rw [hq, dotProduct_sub, hwus]
      congr 1
      simp only [dotProduct]; ring
    have hGr : ∀ u, HasFDerivAt (fun u => f (uToX t marg u)) (gradMap (φ' (w ⬝ᵥ (u - us)) • w)) u := by
      intro u
      have e : (fun u => f (uToX t marg u)) = φ ∘ fun u => w ⬝ᵥ (u - us) := funext hfun
      rw [e]
      have h1 : HasFDerivAt (fun u : Fin n → ℝ => w ⬝ᵥ (u - us)) (gradMap w) u := by
        have : (fun u : Fin n → ℝ => w ⬝ᵥ (u - us)) = fun u => gradMap w u - w ⬝ᵥ us := by
          funext u; rw [dotProduct_sub, gradMap_apply]; rfl
        rw [this]
        exact (gradMap w).hasFDerivAt.sub_const _
      refine ((hd _).comp_hasFDerivAt u h1).congr_fderiv ?_
      ext v
      simp [gradMap_apply, Finset.mul_sum, mul_assoc]
    refine converges_from ht hmarg hS hj hdiff hf hex hGr (N := fun u => norm2 (tang w (u - us)) + sided p q (w ⬝ᵥ (u - us)))
      (A := 1 + max p q * norm2 w) (c := 1 + 1 / norm2 w)
      (δ := norm2 (tang w (u0 - us)) + sided p q (w ⬝ᵥ (u0 - us))) ?_ hc1 ?_ ?_ ?_ ?_ hρ0 hρ1 hK ?_ x0 (by rw [hu0])
    · have : 0 ≤ max p q * norm2 w := by apply mul_nonneg <;> linarith
      linarith
    · intro u
      exact add_nonneg (norm2_nonneg _) ((abs_nonneg _).trans (abs_le_sided hp hq1 _))
    · intro st u v h0 h1
      have e : (1 - st) • u + st • v - us = (1 - st) • (u - us) + st • (v - us) := by
        rw [smul_sub, smul_sub, sub_smul 1 st us, one_smul]; abel
      have h2 := norm2_add_le (tang w ((1 - st) • (u - us))) (tang w (st • (v - us)))
      have h3 := sided_convex hp hq1 h0 h1 (w ⬝ᵥ (u - us)) (w ⬝ᵥ (v - us))
      rw [tang_smul, tang_smul, norm2_smul, norm2_smul, abs_of_nonneg h0, abs_of_nonneg (by linarith : 0 ≤ 1 - st)] at h2
      rw [e, tang_add, tang_smul, tang_smul, dotProduct_add, dotProduct_smul, dotProduct_smul, smul_eq_mul, smul_eq_mul]
      linarith
    · intro u
      have h1 := norm2_tang_le w (u - us)
      have h2 := (sided_le (p := p) (q := q) (w ⬝ᵥ (u - us))).trans
        (mul_le_mul_of_nonneg_left (abs_dot_le w (u - us)) (by linarith))
      calc _ ≤ norm2 (u - us) + max p q * (norm2 w * norm2 (u - us)) := add_le_add h1 h2
        _ = _ := by ring
    · intro u
      have h1 := le_gauge one_pos hw (u - us)
      rw [one_mul] at h1
      refine h1.trans (mul_le_mul_of_nonneg_left ?_ (by linarith))
      unfold gauge
      have := abs_le_sided hp hq1 (w ⬝ᵥ (u - us))
      linarith
    · intro u hu
      obtain ⟨y, hy⟩ : ∃ y, y = w ⬝ᵥ (u - us) := ⟨_, rfl⟩
      rw [hfun u, ← hy]
      rw [← hy] at hu
      have hyT : sided p q y ≤ max p q * T := by
        have h1 := sided_le (p := p) (q := q) (w ⬝ᵥ (u0 - us))
        have h2 : norm2 (tang w (u0 - us)) ≤ max p q * norm2 (tang w (u0 - us)) := by
          have := mul_le_mul_of_nonneg_right hM (norm2_nonneg (tang w (u0 - us))); linarith
        have h3 := norm2_nonneg (tang w (u - us))
        rw [hT, mul_add, mul_add]
        linarith
      obtain ⟨c1, c2, c3⟩ := hnew y hyT
      have hφ := hpos y
      have hg : φ' y • w ≠ 0 := smul_ne_zero hφ.ne' hw
      have hst : hlrf (fun u => f (uToX t marg u)) (fun u => φ' (w ⬝ᵥ (u - us)) • w) u - us = ((y - φ y / φ' y) / w ⬝ᵥ w) • w := by
        unfold hlrf
        dsimp only
        rw [hfun u, ← hy, hus', smul_smul, ← sub_smul]
        congr 1
        have e1 : w ⬝ᵥ u = y - b := by rw [hy, dotProduct_sub, hwus]; ring
        rw [smul_dotProduct, smul_dotProduct, dotProduct_smul, e1]
        simp only [smul_eq_mul]
        field_simp
        ring
      have htu : tang (φ' y • w) u = tang w (u - us) := by
        rw [tang_smul_left hφ.ne']
        have : u = (u - us) + (-b / w ⬝ᵥ w) • w := by rw [← hus']; abel
        conv_lhs => rw [this]
        rw [tang_add, tang_self hw, add_zero]
      have herr : err2 u (alpha (φ' y • w)) = norm2 (tang w (u - us)) := by rw [err2_tang u hg, htu]
      have htn := norm2_nonneg (tang w (u - us))
      have hsn := (abs_nonneg _).trans (abs_le_sided hp hq1 y)
      have hys := abs_le_sided hp hq1 y
      obtain ⟨K, hKd⟩ : ∃ K, K = max p q * C + 1 / norm2 w := ⟨_, rfl⟩
      rw [← hKd] at hK hKC ⊢
      refine ⟨hg, ?_, ?_, ?_, ?_, ?_⟩
      · rw [hst, tang_self hw, norm2_zero, dotProduct_smul, smul_eq_mul, div_mul_cancel₀ _ hww.ne', zero_add]
        refine c1.trans ?_
        exact mul_le_mul_of_nonneg_left (by linarith) hρ0.le
      · calc |φ y| ≤ C * |y| := c2
          _ ≤ K * (norm2 (tang w (u - us)) + sided p q y) := mul_le_mul hKC (by linarith) (abs_nonneg _) (by linarith)
      · rw [herr]
        calc norm2 (tang w (u - us)) ≤ norm2 (tang w (u - us)) + sided p q y := by linarith
          _ ≤ _ := le_mul_of_one_le_left (by linarith) hK
      · rw [herr]
        have h1 : sided p q y ≤ max p q * C * |φ y| := by
          refine (sided_le y).trans ?_
          rw [mul_assoc]
          exact mul_le_mul_of_nonneg_left c3 (by linarith)
        have h2 : max p q * C * |φ y| ≤ K * |φ y| := by
          refine mul_le_mul_of_nonneg_right ?_ (abs_nonneg _)
          rw [hKd]; have : 0 < 1 / norm2 w := by positivity
          linarith
        have h3 : norm2 (tang w (u - us)) ≤ K * norm2 (tang w (u - us)) := le_mul_of_one_le_left htn hK
        rw [mul_add]; linarith
      · have e : alpha (φ' y • w) ⬝ᵥ u - b / len w = -(y / norm2 w) := by
          rw [alpha_dot, norm2_smul, abs_of_pos hφ, smul_dotProduct, smul_eq_mul]
          have e1 : w ⬝ᵥ u = y - b := by rw [hy, dotProduct_sub, hwus]; ring
          rw [e1]
          change _ - b / norm2 w = _
          field_simp
          ring
        rw [e, abs_neg, abs_div, abs_of_pos hN]
        calc |y| / norm2 w = 1 / norm2 w * |y| := by ring
          _ ≤ K * (norm2 (tang w (u - us)) + sided p q y) := by
            refine mul_le_mul ?_ (by linarith) (abs_nonneg _) (by linarith)
            rw [hKd]; linarith
  · have hset : {u : Fin n → ℝ | f (uToX t marg u) < 0} = {u | b + ∑ i, w i * u i < 0} := by
      ext u
      rw [mem_setOf_eq, mem_setOf_eq, hq]
      conv_lhs => rw [← h0]
      exact hinc.lt_iff_lt
    have hsum : ∑ i, w i ^ 2 = norm2 w ^ 2 := (norm2_sq w).symm
    rw [hset, halfspace_lt w (by rw [hsum]; positivity) b]
    rfl

end Pystra.Props
