import Verif.Props.FormLinear
import Verif.Props.FormDirection
import Verif.Props.MonteCarlo

/-! C30 with the default step size rule (Armijo). -/

namespace Pystra.Props
open Matrix Spec Transformation Form

variable {σ : Type} {n : ℕ}

theorem armijo_accept {m : ℝ} {trial mNew : ℕ → ℝ} (h : mNew 0 ≤ m) : armijoLoop m trial mNew 6 0 (trial 0) (mNew 0) = trial 0 := by
  unfold armijoLoop
  rw [if_neg (not_lt.2 h)]

theorem armijo_reduce {m : ℝ} {mNew : ℕ → ℝ} (h : m < mNew 0) :
    ∃ s, armijoLoop m (fun j => 0.5 ^ j) mNew 6 0 ((fun j => 0.5 ^ j) 0) (mNew 0) = s ∧ 1 / 32 ≤ s ∧ s ≤ 1 / 2 := by
  refine ⟨_, rfl, ?_⟩
  have e : armijoLoop m (fun j => 0.5 ^ j) mNew 6 0 ((fun j => 0.5 ^ j) 0) (mNew 0) =
      armijoLoop m (fun j => 0.5 ^ j) mNew 4 2 (0.5 ^ 1) (mNew 1) := by
    unfold armijoLoop
    rw [if_pos h]
    unfold armijoLoop
    rw [if_pos h]
    rfl
  rw [e]
  have key : ∀ (k j : ℕ) (v : ℝ), 1 ≤ j → k + j = 5 →
      1 / 32 ≤ armijoLoop m (fun j => (0.5 : ℝ) ^ j) mNew k (j + 1) (0.5 ^ j) v ∧
      armijoLoop m (fun j => (0.5 : ℝ) ^ j) mNew k (j + 1) (0.5 ^ j) v ≤ 1 / 2 := by
    intro k
    induction k with
    | zero =>
      intro j v h1 h2
      obtain rfl : j = 5 := by omega
      simp only [armijoLoop]
      norm_num
    | succ k ih =>
      intro j v h1 h2
      unfold armijoLoop
      split_ifs
      · exact ih (j + 1) _ (by omega) (by omega)
      · constructor
        · calc (1 / 32 : ℝ) = 0.5 ^ 5 := by norm_num
            _ ≤ 0.5 ^ j := pow_le_pow_of_le_one (by norm_num) (by norm_num) (by omega)
        · calc (0.5 : ℝ) ^ j ≤ 0.5 ^ 1 := pow_le_pow_of_le_one (by norm_num) (by norm_num) h1
            _ = 1 / 2 := by norm_num
  exact key 4 1 _ le_rfl rfl

theorem norm2_smul (c : ℝ) (v : Fin n → ℝ) : norm2 (c • v) = |c| * norm2 v := by
  have h : norm2 (c • v) ^ 2 = (|c| * norm2 v) ^ 2 := by
    rw [← dot_self, smul_dotProduct, dotProduct_smul, dot_self, mul_pow, sq_abs, smul_eq_mul, smul_eq_mul]; ring
  exact (sq_eq_sq₀ (norm2_nonneg _) (mul_nonneg (abs_nonneg _) (norm2_nonneg _))).1 h

theorem norm2_alpha {w : Fin n → ℝ} (hw : w ≠ 0) : norm2 (alpha w) = 1 := by
  have := alpha_unit hw
  rw [dot_self] at this
  have h0 := norm2_nonneg (alpha w)
  nlinarith

theorem norm2_add_le (u v : Fin n → ℝ) : norm2 (u + v) ≤ norm2 u + norm2 v := by
  have h : norm2 (u + v) ^ 2 ≤ (norm2 u + norm2 v) ^ 2 := by
    rw [← dot_self, add_dotProduct, dotProduct_add, dotProduct_add, dot_self, dot_self, dotProduct_comm v u]
    have := (abs_le.1 (abs_dot_le u v)).2
    nlinarith
  exact (sq_le_sq₀ (norm2_nonneg _) (add_nonneg (norm2_nonneg _) (norm2_nonneg _))).1 h

/-- The full step is accepted whenever the distance to the plane is at most twice the distance from the origin. -/
theorem full_step_accepted (b : ℝ) {w : Fin n → ℝ} (hw : w ≠ 0) (u : Fin n → ℝ) (h : |b + w ⬝ᵥ u| / norm2 w ≤ 2 * norm2 u) :
    merit (meritC u w) ((b / norm2 w) • alpha w) 0 ≤ merit (meritC u w) u (b + w ⬝ᵥ u) := by
  have hN := norm2_pos hw
  set D := |b + w ⬝ᵥ u| / norm2 w with hD
  have hD0 : 0 ≤ D := div_nonneg (abs_nonneg _) hN.le
  have hG : |b + w ⬝ᵥ u| = D * norm2 w := by rw [hD]; field_simp
  have hB : |b / norm2 w| ≤ norm2 u + D := by
    have e : b / norm2 w = (b + w ⬝ᵥ u) / norm2 w + alpha w ⬝ᵥ u := by rw [alpha_dot]; ring
    rw [e]
    refine (abs_add_le _ _).trans ?_
    have h1 : |(b + w ⬝ᵥ u) / norm2 w| = D := by rw [abs_div, abs_of_pos hN]
    have h2 : |alpha w ⬝ᵥ u| ≤ norm2 u := by
      have := abs_dot_le (alpha w) u
      rwa [norm2_alpha hw, one_mul] at this
    linarith
  have hu := norm2_nonneg u
  unfold merit meritC
  rw [norm2_smul, norm2_alpha hw, mul_one, abs_zero, mul_zero, add_zero, hG]
  have e : (norm2 u * (norm2 w)⁻¹ * 2 + 10) * (D * norm2 w) = 2 * norm2 u * D + 10 * D * norm2 w := by field_simp
  rw [e]
  have hb0 := abs_nonneg (b / norm2 w)
  have : |b / norm2 w| ^ 2 ≤ (norm2 u + D) ^ 2 := pow_le_pow_left₀ hb0 hB 2
  nlinarith [mul_nonneg hD0 hN.le]

section
variable {t : Mats n} {marg : Fin n → Marginal}

/-- An exact linearisation of an affine function of `u`. -/
def LinOK (t : Mats n) (marg : Fin n → Marginal) (ev : Evaluator σ n) (P : σ → Prop) (b : ℝ) (w : Fin n → ℝ) : Prop :=
  ∀ u s, P s → ∃ s' p, linearise t marg ev u s = (s', .ok p) ∧ P s' ∧ p.u = u ∧ p.x = uToX t marg u ∧
      p.gradient = w ∧ p.G = b + w ⬝ᵥ u

/-- The values of the same affine function, without gradients. -/
def ValOK (t : Mats n) (marg : Fin n → Marginal) (ev : Evaluator σ n) (P : σ → Prop) (b : ℝ) (w : Fin n → ℝ) : Prop :=
  ∀ (us : List (Fin n → ℝ)) s, P s → ∃ s', ev.values s (us.map (uToX t marg)) = (s', .ok (us.map (fun u => b + w ⬝ᵥ u))) ∧ P s'

/-- The step rule: full step when acceptable, otherwise a step between 1/32 and 1/2. -/
theorem step_spec {ev : Evaluator σ n} {P : σ → Prop} {opt : Form.Options} {b : ℝ} {w : Fin n → ℝ} (hw : w ≠ 0)
    (hval : ValOK t marg ev P b w) (hst : opt.stepSize = 0) (hmp : opt.multiProc = 1) (u : Fin n → ℝ) (s : σ) (hs : P s) :
    ∃ s' st, getStepSize t marg ev opt (b + w ⬝ᵥ u) w u (direction (b + w ⬝ᵥ u) w (alpha w) u) s = (s', .ok st) ∧ P s' ∧
      (|b + w ⬝ᵥ u| / norm2 w ≤ 2 * norm2 u → st = 1) ∧ (st = 1 ∨ (1 / 32 ≤ st ∧ st ≤ 1 / 2)) := by
  set d := direction (b + w ⬝ᵥ u) w (alpha w) u with hd
  set tU : ℕ → Fin n → ℝ := fun j i => u i * 1 + d i * 0.5 ^ j with htU
  obtain ⟨s', hv, hP⟩ := hval ((List.range 6).map tU) s hs
  have h0 : tU 0 = (b / norm2 w) • alpha w := by
    rw [← newton_step b hw u, htU]
    funext i
    simp [hd]
  have hstep : getStepSize t marg ev opt (b + w ⬝ᵥ u) w u d s = (s', .ok (armijoLoop (merit (meritC u w) u (b + w ⬝ᵥ u))
      (fun j => 0.5 ^ j) (fun j => merit (meritC u w) (tU j) ((((List.range 6).map tU).map (fun u => b + w ⬝ᵥ u)).getD j 0))
      6 0 ((fun j => 0.5 ^ j) 0) ((fun j => merit (meritC u w) (tU j) ((((List.range 6).map tU).map (fun u => b + w ⬝ᵥ u)).getD j 0)) 0))) := by
    unfold getStepSize computeStepSize
    rw [if_pos hst]
    simp only [if_pos hmp]
    rw [List.map_map] at hv
    have : (List.range 6).map (fun j => uToX t marg (tU j)) = (List.range 6).map (uToX t marg ∘ tU) := rfl
    simp only [htU] at this hv ⊢
    rw [this, hv]
  refine ⟨s', _, hstep, hP, ?_, ?_⟩
  · intro h
    have := full_step_accepted b hw u h
    rw [armijo_accept]
    · norm_num
    · change merit (meritC u w) (tU 0) (b + w ⬝ᵥ tU 0) ≤ _
      rw [h0, (at_solution b hw).1]
      exact this
  · by_cases hle : merit (meritC u w) (tU 0) (b + w ⬝ᵥ tU 0) ≤ merit (meritC u w) u (b + w ⬝ᵥ u)
    · left
      rw [armijo_accept hle]; norm_num
    · right
      obtain ⟨st, h1, h2⟩ := armijo_reduce (m := merit (meritC u w) u (b + w ⬝ᵥ u))
        (mNew := fun j => merit (meritC u w) (tU j) ((((List.range 6).map tU).map (fun u => b + w ⬝ᵥ u)).getD j 0))
        (not_le.1 hle)
      rw [h1]; exact h2

/-- At the solution the loop stays there. -/
theorem armijo_at_solution {ev : Evaluator σ n} {P : σ → Prop} {opt : Form.Options} {b : ℝ} {w : Fin n → ℝ} (hw : w ≠ 0)
    (hlin : LinOK t marg ev P b w) (hval : ValOK t marg ev P b w) (hst : opt.stepSize = 0) (hmp : opt.multiProc = 1)
    (he1 : 0 < opt.e1) (he2 : 0 < opt.e2) (Go : ℝ) (fuel : ℕ) :
    ∀ (i : ℕ) (s : σ), 2 ≤ i → i ≤ opt.iMax → opt.iMax + 1 ≤ fuel + i → P s →
    ∃ r s', loop t marg ev opt fuel i Go ((b / norm2 w) • alpha w) s = some (.done r s') ∧ P s' ∧
      r.i = (if Go = 0 then opt.iMax else i) ∧ r.beta = b / norm2 w ∧ r.Pf = StdNormal.cdf (-(b / norm2 w)) ∧
      r.alpha = alpha w ∧ r.point.u = (b / norm2 w) • alpha w ∧ r.point.x = uToX t marg r.point.u := by
  induction fuel with
  | zero => intro i s h1 h2 h3; omega
  | succ k ih =>
    intro i s h1 h2 h3 hP
    obtain ⟨s', p, hl, hP', hu, hx, hg, hG⟩ := hlin ((b / norm2 w) • alpha w) s hP
    obtain ⟨z1, z2, z3⟩ := at_solution b hw
    obtain ⟨s2, st, hstep, hP2, hfull, -⟩ := step_spec (t := t) (marg := marg) hw hval hst hmp ((b / norm2 w) • alpha w) s' hP'
    have hst1 : st = 1 := hfull (by rw [z1]; simp [norm2_nonneg])
    subst hst1
    rw [z1] at hG hstep
    have hi1 : i ≠ 1 := by omega
    by_cases hstop : Go = 0 ∧ i ≠ opt.iMax
    · have hit : iteration t marg ev opt i Go ((b / norm2 w) • alpha w) s =
          .next Go ((b / norm2 w) • alpha w) s2 := by
        unfold iteration
        rw [hl]
        simp only [hg, if_neg hw, if_neg hi1, hG]
        have c1 : cond1 opt 0 Go = false := by simp [cond1, hstop.1]
        have c2 : decide (i = opt.iMax) = false := by simpa using hstop.2
        rw [c1, c2]
        simp only [Bool.false_and, Bool.or_false, Bool.false_eq_true, if_false, hstep]
        have := newton_step b hw ((b / norm2 w) • alpha w)
        rw [z1] at this
        rw [this]
      obtain ⟨r, s'', hr, rest⟩ := ih (i + 1) s2 (by omega) (by omega) (by omega) hP2
      refine ⟨r, s'', ?_, ?_⟩
      · unfold loop; rw [hit]; exact hr
      · rw [if_pos hstop.1] at rest ⊢; exact rest
    · have hit : iteration t marg ev opt i Go ((b / norm2 w) • alpha w) s =
          .done ⟨i, p, Go, alpha w, b / norm2 w, StdNormal.cdf (-(b / norm2 w))⟩ s' := by
        unfold iteration
        rw [hl]
        simp only [hg, if_neg hw, if_neg hi1, hG]
        have c : (cond1 opt 0 Go && cond2 opt ((b / norm2 w) • alpha w) (alpha w) || decide (i = opt.iMax)) = true := by
          by_cases hi : i = opt.iMax
          · simp [hi]
          · have hGo : Go ≠ 0 := fun h => hstop ⟨h, hi⟩
            simp [cond1, cond2, hGo, he1, z3, he2]
        rw [if_pos c, z2]
      refine ⟨_, s', by unfold loop; rw [hit], hP', ?_, rfl, rfl, rfl, hu, by rw [hx, hu]⟩
      by_cases hGo : Go = 0
      · rw [if_pos hGo]
        by_contra hne
        exact hstop ⟨hGo, hne⟩
      · rw [if_neg hGo]

theorem dot_line (b : ℝ) {w : Fin n → ℝ} (hw : w ≠ 0) (r : ℝ) (u0 : Fin n → ℝ) :
    b + w ⬝ᵥ ((b / norm2 w) • alpha w + r • (u0 - (b / norm2 w) • alpha w)) = r * (b + w ⬝ᵥ u0) := by
  have h := (at_solution b hw).1
  have e : w ⬝ᵥ ((b / norm2 w) • alpha w) = -b := by linarith
  rw [dotProduct_add, dotProduct_smul r w, dotProduct_sub, smul_eq_mul, e]; ring

/-- A point that is still far: what its not being accepted says. -/
theorem accepted_near (b : ℝ) {w : Fin n → ℝ} (hw : w ≠ 0) (u0 : Fin n → ℝ)
    (h0 : 2 * norm2 u0 < |b + w ⬝ᵥ u0| / norm2 w) {r : ℝ} (hr0 : 0 ≤ r) (hr : r ≤ 1 / 3) :
    |b + w ⬝ᵥ ((b / norm2 w) • alpha w + r • (u0 - (b / norm2 w) • alpha w))| / norm2 w ≤
      2 * norm2 ((b / norm2 w) • alpha w + r • (u0 - (b / norm2 w) • alpha w)) := by
  have hN := norm2_pos hw
  rw [dot_line b hw, abs_mul, abs_of_nonneg hr0, mul_div_assoc]
  set D := |b + w ⬝ᵥ u0| / norm2 w with hD
  set B := |b / norm2 w| with hB
  set us := (b / norm2 w) • alpha w with hus
  have hnus : norm2 us = B := by rw [hus, norm2_smul, norm2_alpha hw, mul_one]
  have hDB : D ≤ B + norm2 u0 := by
    have e : (b + w ⬝ᵥ u0) / norm2 w = b / norm2 w - alpha w ⬝ᵥ u0 := by rw [alpha_dot]; ring
    have h2 : |alpha w ⬝ᵥ u0| ≤ norm2 u0 := by
      have := abs_dot_le (alpha w) u0
      rwa [norm2_alpha hw, one_mul] at this
    have : D = |(b + w ⬝ᵥ u0) / norm2 w| := by rw [hD, abs_div, abs_of_pos hN]
    rw [this, e]
    refine (abs_sub _ _).trans ?_
    linarith
  have hu0 := norm2_nonneg u0
  have hdist : norm2 (u0 - us) ≤ norm2 u0 + B := by
    have h1 : u0 - us = u0 + (-1 : ℝ) • us := by funext i; simp [sub_eq_add_neg]
    rw [h1]
    refine (norm2_add_le _ _).trans ?_
    rw [norm2_smul, hnus]; simp
  have hlow : B ≤ norm2 (us + r • (u0 - us)) + r * (norm2 u0 + B) := by
    have h1 : us = (us + r • (u0 - us)) + (-r) • (u0 - us) := by funext i; simp
    have h2 : norm2 us ≤ norm2 (us + r • (u0 - us)) + norm2 ((-r) • (u0 - us)) := by
      conv_lhs => rw [h1]
      exact norm2_add_le _ _
    rw [hnus, norm2_smul, abs_neg, abs_of_nonneg hr0] at h2
    have := mul_le_mul_of_nonneg_left hdist hr0
    linarith
  have hB0 : norm2 u0 < B := by linarith
  have : D < 2 * B := by linarith
  nlinarith

theorem armijo_loop {ev : Evaluator σ n} {P : σ → Prop} {opt : Form.Options} {b : ℝ} {w : Fin n → ℝ} (hw : w ≠ 0)
    (hlin : LinOK t marg ev P b w) (hval : ValOK t marg ev P b w) (hst : opt.stepSize = 0) (hmp : opt.multiProc = 1)
    (he1 : 0 < opt.e1) (he1' : opt.e1 ≤ 1 / 6) (he2 : 0 < opt.e2) (hi : 37 ≤ opt.iMax) (u0 : Fin n → ℝ)
    (h0 : 2 * norm2 u0 < |b + w ⬝ᵥ u0| / norm2 w) (k : ℕ) :
    ∀ (i fuel : ℕ) (r : ℝ) (s : σ), i + k = 36 → 2 ≤ i → 1 / 6 ≤ r → r ≤ (31 / 32) ^ (i - 1) → opt.iMax + 1 ≤ fuel + i → P s →
    ∃ res s', loop t marg ev opt fuel i (b + w ⬝ᵥ u0) ((b / norm2 w) • alpha w + r • (u0 - (b / norm2 w) • alpha w)) s =
        some (.done res s') ∧ P s' ∧ res.i ≤ 37 ∧ res.beta = b / norm2 w ∧ res.Pf = StdNormal.cdf (-(b / norm2 w)) ∧
      res.alpha = alpha w ∧ res.point.u = (b / norm2 w) • alpha w ∧ res.point.x = uToX t marg res.point.u := by
  have hG0 : b + w ⬝ᵥ u0 ≠ 0 := by
    intro h
    rw [h] at h0
    have := norm2_nonneg u0
    simp at h0
    linarith
  induction k with
  | zero =>
    intro i fuel r s hik hi2 hr6 hrp hf hs
    obtain rfl : i = 36 := by omega
    have hr3 : r ≤ 1 / 3 := hrp.trans (by norm_num)
    obtain ⟨fuel, rfl⟩ : ∃ f, fuel = f + 1 := ⟨fuel - 1, by omega⟩
    set u := (b / norm2 w) • alpha w + r • (u0 - (b / norm2 w) • alpha w) with hu
    obtain ⟨s1, p, hl, hP1, hpu, hpx, hg, hG⟩ := hlin u s hs
    obtain ⟨s2, st, hstep, hP2, hfull, -⟩ := step_spec (t := t) (marg := marg) hw hval hst hmp u s1 hP1
    have hst1 : st = 1 := hfull (accepted_near b hw u0 h0 (by linarith) hr3)
    subst hst1
    have hit : iteration t marg ev opt 36 (b + w ⬝ᵥ u0) u s = .next (b + w ⬝ᵥ u0) ((b / norm2 w) • alpha w) s2 := by
      unfold iteration
      rw [hl]
      simp only [hg, if_neg hw, hG, hstep, newton_step b hw u]
      have c1 : cond1 opt (b + w ⬝ᵥ u) (b + w ⬝ᵥ u0) = false := by
        simp only [cond1, decide_eq_false_iff_not, not_and, not_lt]
        intro _
        rw [hu, dot_line b hw, mul_inv_cancel_right₀ hG0, abs_of_nonneg (by linarith)]
        linarith
      have c2 : decide (36 = opt.iMax) = false := by rw [decide_eq_false_iff_not]; omega
      simp [c1, c2]
    obtain ⟨res, s', h1, h2, h3, h4⟩ := armijo_at_solution (t := t) (marg := marg) hw hlin hval hst hmp he1 he2 (b + w ⬝ᵥ u0) fuel 37 s2
      (by omega) hi (by omega) hP2
    refine ⟨res, s', ?_, h2, ?_, h4⟩
    · unfold loop; rw [hit]; exact h1
    · rw [h3, if_neg hG0]
  | succ k ih =>
    intro i fuel r s hik hi2 hr6 hrp hf hs
    obtain ⟨fuel, rfl⟩ : ∃ f, fuel = f + 1 := ⟨fuel - 1, by omega⟩
    set us := (b / norm2 w) • alpha w with hus
    set u := us + r • (u0 - us) with hu
    obtain ⟨s1, p, hl, hP1, hpu, hpx, hg, hG⟩ := hlin u s hs
    obtain ⟨s2, st, hstep, hP2, hfull, hcases⟩ := step_spec (t := t) (marg := marg) hw hval hst hmp u s1 hP1
    have hnew : (fun j => u j + st * direction (b + w ⬝ᵥ u) w (alpha w) u j) = us + ((1 - st) * r) • (u0 - us) := by
      have h1 := newton_step b hw u
      rw [← hus] at h1
      funext j
      have h2 := congrFun h1 j
      simp only [one_mul] at h2
      have h3 : direction (b + w ⬝ᵥ u) w (alpha w) u j = us j - u j := by linarith
      rw [h3, hu]
      simp only [Pi.add_apply, Pi.smul_apply, Pi.sub_apply, smul_eq_mul]
      ring
    have hit : iteration t marg ev opt i (b + w ⬝ᵥ u0) u s = .next (b + w ⬝ᵥ u0) (us + ((1 - st) * r) • (u0 - us)) s2 := by
      unfold iteration
      rw [hl]
      have hi1 : i ≠ 1 := by omega
      simp only [hg, if_neg hw, if_neg hi1, hG, hstep, hnew]
      have c1 : cond1 opt (b + w ⬝ᵥ u) (b + w ⬝ᵥ u0) = false := by
        simp only [cond1, decide_eq_false_iff_not, not_and, not_lt]
        intro _
        rw [hu, hus, dot_line b hw, mul_inv_cancel_right₀ hG0, abs_of_nonneg (by linarith)]
        linarith
      have c2 : decide (i = opt.iMax) = false := by rw [decide_eq_false_iff_not]; omega
      simp [c1, c2]
    by_cases h1 : st = 1
    · subst h1
      simp only [sub_self, zero_mul, zero_smul, add_zero] at hit
      obtain ⟨res, s', h1, h2, h3, h4⟩ := armijo_at_solution (t := t) (marg := marg) hw hlin hval hst hmp he1 he2 (b + w ⬝ᵥ u0) fuel
        (i + 1) s2 (by omega) (by omega) (by omega) hP2
      refine ⟨res, s', ?_, h2, ?_, h4⟩
      · unfold loop; rw [hit]; exact h1
      · rw [h3, if_neg hG0]; omega
    · have hst2 := hcases.resolve_left h1
      have hr3 : 1 / 3 < r := by
        by_contra hle
        exact h1 (hfull (accepted_near b hw u0 h0 (by linarith) (not_lt.1 hle)))
      obtain ⟨res, s', h1, h2⟩ := ih (i + 1) fuel ((1 - st) * r) s2 (by omega) (by omega) (by nlinarith)
        (by
          have h5 : (31 / 32 : ℝ) ^ (i + 1 - 1) = 31 / 32 * (31 / 32) ^ (i - 1) := by
            rw [← pow_succ']
            congr 1; omega
          rw [h5]
          exact mul_le_mul (by linarith) hrp (by linarith) (by norm_num)) (by omega) hP2
      exact ⟨res, s', by unfold loop; rw [hit]; exact h1, h2⟩

/-- The whole run from any start `u0`. -/
theorem armijo_run {ev : Evaluator σ n} {P : σ → Prop} {opt : Form.Options} {b : ℝ} {w : Fin n → ℝ} (hw : w ≠ 0)
    (hlin : LinOK t marg ev P b w) (hval : ValOK t marg ev P b w) (hst : opt.stepSize = 0) (hmp : opt.multiProc = 1)
    (he1 : 0 < opt.e1) (he1' : opt.e1 ≤ 1 / 6) (he2 : 0 < opt.e2) (hi : 37 ≤ opt.iMax) (u0 : Fin n → ℝ) (fuel : ℕ)
    (hf : opt.iMax ≤ fuel) (s : σ) (hs : P s) :
    ∃ res s', loop t marg ev opt fuel 1 0 u0 s = some (.done res s') ∧ P s' ∧
      (if b + w ⬝ᵥ u0 = 0 then res.i = opt.iMax else res.i ≤ 37) ∧ res.beta = b / norm2 w ∧
      res.Pf = StdNormal.cdf (-(b / norm2 w)) ∧
      res.alpha = alpha w ∧ res.point.u = (b / norm2 w) • alpha w ∧ res.point.x = uToX t marg res.point.u := by
  obtain ⟨fuel, rfl⟩ : ∃ f, fuel = f + 1 := ⟨fuel - 1, by omega⟩
  set us := (b / norm2 w) • alpha w with hus
  obtain ⟨s1, p, hl, hP1, hpu, hpx, hg, hG⟩ := hlin u0 s hs
  obtain ⟨s2, st, hstep, hP2, hfull, hcases⟩ := step_spec (t := t) (marg := marg) hw hval hst hmp u0 s1 hP1
  have hnew : (fun j => u0 j + st * direction (b + w ⬝ᵥ u0) w (alpha w) u0 j) = us + (1 - st) • (u0 - us) := by
    have h1 := newton_step b hw u0
    rw [← hus] at h1
    funext j
    have h2 := congrFun h1 j
    simp only [one_mul] at h2
    have h3 : direction (b + w ⬝ᵥ u0) w (alpha w) u0 j = us j - u0 j := by linarith
    rw [h3]
    simp only [Pi.add_apply, Pi.smul_apply, Pi.sub_apply, smul_eq_mul]
    ring
  have hit : iteration t marg ev opt 1 0 u0 s = .next (b + w ⬝ᵥ u0) (us + (1 - st) • (u0 - us)) s2 := by
    unfold iteration
    rw [hl]
    simp only [hg, if_neg hw, if_true, hG, hstep, hnew]
    have c1 : cond1 opt (b + w ⬝ᵥ u0) (b + w ⬝ᵥ u0) = false := by
      simp only [cond1, decide_eq_false_iff_not, not_and, not_lt]
      intro h0
      rw [mul_inv_cancel₀ h0, abs_one]; linarith
    have c2 : decide (1 = opt.iMax) = false := by rw [decide_eq_false_iff_not]; omega
    simp [c1, c2]
  by_cases h1 : st = 1
  · subst h1
    simp only [sub_self, zero_smul, add_zero] at hit
    obtain ⟨res, s', h1, h2, h3, h4⟩ := armijo_at_solution (t := t) (marg := marg) hw hlin hval hst hmp he1 he2 (b + w ⬝ᵥ u0) fuel
      2 s2 (by omega) (by omega) (by omega) hP2
    refine ⟨res, s', ?_, h2, ?_, h4⟩
    · unfold loop; rw [hit]; exact h1
    · split_ifs at h3 ⊢ with hz
      · exact h3
      · omega
  · have hst2 := hcases.resolve_left h1
    have h0 : 2 * norm2 u0 < |b + w ⬝ᵥ u0| / norm2 w := by
      by_contra hle
      exact h1 (hfull (not_lt.1 hle))
    have hG0 : b + w ⬝ᵥ u0 ≠ 0 := by
      intro h
      rw [h] at h0
      have := norm2_nonneg u0
      simp at h0
      linarith
    obtain ⟨res, s', h3, h4, h5, h6⟩ := armijo_loop (t := t) (marg := marg) hw hlin hval hst hmp he1 he1' he2 hi u0 h0 34 2 fuel (1 - st) s2
      (by omega) le_rfl (by linarith) (by norm_num; linarith) (by omega) hP2
    exact ⟨res, s', by unfold loop; rw [hit]; exact h3, h4, by rw [if_neg hG0]; exact h5, h6⟩

end

/-- C30 with the code's default step rule (`step_size = 0`, the Armijo-type rule; one process): `g(x) = a0 + a·x` with
`a ≠ 0`, normal marginals, any positive definite `Ro`, either factorisation, exact gradients and values (see
`C30_default` for the code's own evaluator), `0 < e1 ≤ 1/6`, `0 < e2`, `i_max ≥ 37`: the same exact result as
`C30_exact`, from any start, after at most 37 iterations unless the start lies on the surface. -/
theorem C30_armijo {la : LinAlg} (hla : LinAlgOK la) {ty : TransformType} {Ro : Matrix (Fin n) (Fin n) ℝ} (hR : Ro.PosDef)
    {t : Mats n} (ht : Transformation.compute la ty Ro = .ok t) {μ sd : Fin n → ℝ} {sp : Fin n → Option ℝ}
    (hsd : ∀ i, 0 < sd i) {marg : Fin n → Marginal}
    (hm : ∀ i, Normal.new (μ i) (.fin (sd i)) (sp i) = .ok (marg i)) (a0 : ℝ) (a : Fin n → ℝ) (ha : a ≠ 0)
    {ev : Evaluator σ n} {P : σ → Prop} (hev : Exact ev P (fun x => a0 + ∑ i, a i * x i) (fun _ => a))
    (hval : Values ev P (fun x => a0 + ∑ i, a i * x i))
    (opt : Form.Options) (hst : opt.stepSize = 0) (hmp : opt.multiProc = 1) (he1 : 0 < opt.e1) (he1' : opt.e1 ≤ 1 / 6)
    (he2 : 0 < opt.e2) (hi : 37 ≤ opt.iMax) (s : σ) (hs : P s) (fuel : ℕ) (hf : opt.iMax ≤ fuel) :
    ∃ r s', runFrom t marg ev opt fuel s = some (.done r s') ∧
      r.beta = (a0 + ∑ i, a i * μ i) / √(∑ i, ∑ j, a i * sd i * Ro i j * (a j * sd j)) ∧
      r.Pf = (stdGauss n).real {u | a0 + ∑ i, a i * uToX t marg u i ≤ 0} ∧
      r.point.u = r.beta • r.alpha ∧ a0 + ∑ i, a i * r.point.x i = 0 ∧
      (if a0 + ∑ i, a i * (sp i).getD (μ i) = 0 then r.i = opt.iMax else r.i ≤ 37) ∧
      r.alpha = alpha (vecMul (fun i => a i * sd i) t.invT) := by
  obtain ⟨m', hm', hfac, h1, h2⟩ := C22_posdef hla ty hR
  rw [ht] at hm'; injection hm' with hm'; subst hm'
  set w := vecMul (fun i => a i * sd i) t.invT with hwdef
  set b := a0 + ∑ i, a i * μ i with hb
  have hw : w ≠ 0 := by
    intro h0
    apply ha
    have : vecMul w t.T = fun i => a i * sd i := by
      rw [hwdef, vecMul_vecMul, h2, vecMul_one]
    rw [h0, zero_vecMul] at this
    funext i
    have := congrFun this i
    simp only [Pi.zero_apply] at this ⊢
    rcases mul_eq_zero.1 this.symm with h | h
    · exact h
    · exact absurd h (hsd i).ne'
  have hnorm : norm2 w = √(∑ i, ∑ j, a i * sd i * Ro i j * (a j * sd j)) := by
    have e : norm2 w ^ 2 = ∑ i, ∑ j, a i * sd i * Ro i j * (a j * sd j) := by
      rw [← dot_self, hwdef]
      rw [← dotProduct_mulVec, ← mulVec_transpose, mulVec_mulVec, hfac]
      simp only [dotProduct, mulVec, Finset.mul_sum]
      exact Finset.sum_congr rfl fun i _ => Finset.sum_congr rfl fun j _ => by ring
    rw [← e, Real.sqrt_sq (norm2_nonneg _)]
  have hgu : ∀ u, a0 + ∑ i, a i * uToX t marg u i = b + w ⬝ᵥ u := by
    intro u
    rw [hwdef, ← dotProduct_mulVec, hb, add_assoc, dotProduct, ← Finset.sum_add_distrib]
    congr 1
    refine Finset.sum_congr rfl fun i _ => ?_
    simp only [uToX, (normal_ok (hm i)).1, Normal.uToX]
    ring
  have hlin : LinOK t marg ev P b w := fun u s hs => normal_linearise (sp := sp) hm hsd h1 h2 a0 a hev u s hs
  have hvalw : ValOK t marg ev P b w := by
    intro us s hs
    obtain ⟨s', h, hP⟩ := hval s hs (us.map (uToX t marg))
    refine ⟨s', ?_, hP⟩
    rw [h, List.map_map]
    congr 2
    exact List.map_congr_left fun u _ => hgu u
  have hstart : uToX t marg (startingPoint t marg) = fun i => (sp i).getD (μ i) := by
    have hz : t.invT *ᵥ startingPoint t marg = fun i => ((sp i).getD (μ i) - μ i) / sd i := by
      unfold startingPoint xToU
      rw [mulVec_mulVec, h2, one_mulVec]
      funext i
      obtain ⟨-, -, e1, -, -, e2⟩ := normal_ok (hm i)
      change (marg i).xToU ((marg i).startpoint) = _
      rw [e1, e2]; rfl
    funext i
    simp only [uToX, (normal_ok (hm i)).1, Normal.uToX, hz]
    have := (hsd i).ne'
    field_simp
    ring
  obtain ⟨r, s', hloop, hP', hri, hbeta, hPf, halpha, hu, hx⟩ :=
    armijo_run (t := t) (marg := marg) hw hlin hvalw hst hmp he1 he1' he2 hi (startingPoint t marg) fuel hf s hs
  refine ⟨r, s', hloop, by rw [hbeta, hnorm], ?_, by rw [hu, hbeta, halpha], ?_, ?_, halpha⟩
  · have hgu' : ∀ u, a0 + ∑ i, a i * uToX t marg u i = b + ∑ i, w i * u i := hgu
    simp only [hgu']
    rw [halfspace_prob w (by rw [← norm2_sq]; have := norm2_pos hw; positivity), hPf]
    rfl
  · rw [hx, hgu, hu, (at_solution b hw).1]
  · have e := hgu (startingPoint t marg)
    rw [hstart] at e
    rw [e]
    exact hri

/-- C30 for the code's default options: Armijo step rule and finite-difference gradients, with the code's evaluator of a
vectorised user function that is affine in the model's random variables (constants may enter in any way). The default
values of the options (`i_max = 100`, `e1 = e2 = 0.001`, `ffdpara = 1000`, `block_size = 1000`) meet the hypotheses. -/
theorem C30_default {D : Type} {la : LinAlg} (hla : LinAlgOK la) {ty : TransformType} {Ro : Matrix (Fin n) (Fin n) ℝ}
    (hR : Ro.PosDef) {t : Mats n} (ht : Transformation.compute la ty Ro = .ok t) {μ sd : Fin n → ℝ}
    {sp : Fin n → Option ℝ} (hsd : ∀ i, 0 < sd i) {marg : Fin n → Marginal}
    (hm : ∀ i, Normal.new (μ i) (.fin (sd i)) (sp i) = .ok (marg i)) {expr : Kwargs → GRet} {g : Dict String ℝ → ℝ}
    (hp : Pointwise expr g) (lo : LSOptions) (hbs : 1 ≤ lo.blockSize) (hpara : lo.ffdpara ≠ 0) (hmp : lo.multiProc ≠ 0)
    (hd1 : lo.diffMode ≠ "no") (hd2 : lo.diffMode ≠ "ddm") (ev : Ev D) (hmod : Reachable ev.model)
    (hn : ev.model.nMarg ≤ n) (hne : ev.model.getNames ≠ []) (a0 : ℝ) (a : Fin n → ℝ) (ha : a ≠ 0)
    (haff : ∀ p : Fin n → ℝ, g (pointArgs ev.model p) = a0 + ∑ i, a i * p i)
    (opt : Form.Options) (hst : opt.stepSize = 0) (hmp1 : opt.multiProc = 1) (he1 : 0 < opt.e1) (he1' : opt.e1 ≤ 1 / 6)
    (he2 : 0 < opt.e2) (hi : 37 ≤ opt.iMax) (fuel : ℕ) (hf : opt.iMax ≤ fuel) :
    ∃ r ev', runFrom t marg (lsEvaluator expr lo (fun i => (marg i).stdv)) opt fuel ev = some (.done r ev') ∧
      r.beta = (a0 + ∑ i, a i * μ i) / √(∑ i, ∑ j, a i * sd i * Ro i j * (a j * sd j)) ∧
      r.Pf = (stdGauss n).real {u | g (pointArgs ev.model (uToX t marg u)) ≤ 0} ∧
      r.point.u = r.beta • r.alpha ∧ g (pointArgs ev.model r.point.x) = 0 ∧
      (if g (pointArgs ev.model (fun i => (sp i).getD (μ i))) = 0 then r.i = opt.iMax else r.i ≤ 37) ∧
      r.alpha = alpha (vecMul (fun i => a i * sd i) t.invT) := by
  have hs : ∀ j, (marg j).stdv ≠ 0 := fun j => by rw [(normal_ok (hm j)).2.2.2.2.1]; exact (hsd j).ne'
  have hex := ffd_exact hp lo hbs hpara hmp hd1 hd2 (fun i => (marg i).stdv) hs ev.model hmod hn hne a0 a haff
  have hval : Values (lsEvaluator expr lo (fun i => (marg i).stdv)) (fun ev' : Ev D => ∃ k, ev'.model = ev.model.addCallFunction k)
      (fun x => a0 + ∑ i, a i * x i) := by
    have := ls_values hp lo hbs hmp (fun i => (marg i).stdv) ev.model hmod hn hne
    simpa only [haff] using this
  obtain ⟨r, s', h1, h2, h3, h4, h5, h6, h7⟩ := C30_armijo hla hR ht hsd hm a0 a ha hex hval opt hst hmp1 he1 he1' he2 hi ev
    ⟨0, rfl⟩ fuel hf
  exact ⟨r, s', h1, h2, by simp only [haff]; exact h3, h4, by rw [haff]; exact h5, by rw [haff]; exact h6, h7⟩

/-- A concrete run meeting the hypotheses of `C30_armijo` with the default option values: two correlated normal variables,
`g = 7 - x₀ - 2x₁`. -/
example {la : LinAlg} (hla : LinAlgOK la) (fuel : ℕ) (hf : 100 ≤ fuel) : ∃ t marg r,
    Transformation.compute la .cholesky !![1, 1/2; 1/2, 1] = .ok t ∧
    runFrom t marg (⟨fun _ x => ((), .ok (7 + ∑ i, ![-1, -2] i * x i, ![-1, -2], x)),
      fun _ xs => ((), .ok (xs.map fun x => 7 + ∑ i, ![-1, -2] i * x i))⟩ : Evaluator Unit 2)
      ⟨100, 0.001, 0.001, 0, 1⟩ fuel () = some (.done r ()) ∧ r.i ≤ 37 ∧ r.beta = 2 / √7 := by
  have hR : (!![1, 1/2; 1/2, 1] : Matrix (Fin 2) (Fin 2) ℝ).PosDef := by
    rw [posDef_iff_dotProduct_mulVec]
    refine ⟨by ext i j; fin_cases i <;> fin_cases j <;> simp, fun x hx => ?_⟩
    simp only [star_trivial, dotProduct, mulVec, Fin.sum_univ_two]
    simp
    have h0 : x 0 ≠ 0 ∨ x 1 ≠ 0 := by
      by_contra h
      push Not at h
      apply hx
      funext i; fin_cases i <;> simp [h.1, h.2]
    rcases h0 with h | h <;> nlinarith [sq_nonneg (x 0 + x 1), sq_pos_of_ne_zero h, sq_nonneg (x 0), sq_nonneg (x 1)]
  obtain ⟨t, ht, -⟩ := C22_posdef hla .cholesky hR
  have hm : ∀ i : Fin 2, ∃ m, Normal.new (![1, 2] i) (.fin (1 : ℝ)) none = .ok m := fun i => ⟨_, rfl⟩
  choose marg hmarg using hm
  obtain ⟨r, s', h1, h2, -, -, -, h6, -⟩ := C30_armijo hla hR ht (μ := ![1, 2]) (sd := fun _ => 1) (sp := fun _ => none)
    (fun _ => one_pos) hmarg 7 ![-1, -2] (by intro h; simpa using congrFun h 0)
    (ev := (⟨fun _ x => ((), .ok (7 + ∑ i, ![-1, -2] i * x i, ![-1, -2], x)),
      fun _ xs => ((), .ok (xs.map fun x => 7 + ∑ i, ![-1, -2] i * x i))⟩ : Evaluator Unit 2))
    (P := fun _ => True) (fun _ _ x => ⟨(), x, rfl, trivial⟩) (fun _ _ xs => ⟨(), rfl, trivial⟩)
    ⟨100, 0.001, 0.001, 0, 1⟩ rfl rfl (by norm_num) (by norm_num) (by norm_num) (by norm_num) () trivial fuel hf
  refine ⟨t, marg, r, ht, h1, ?_, ?_⟩
  · rwa [if_neg] at h6
    simp [Fin.sum_univ_two]; norm_num
  · rw [h2]
    congr 1
    · simp [Fin.sum_univ_two]; norm_num
    · congr 1
      simp [Fin.sum_univ_two]; norm_num

end Pystra.Props
