import Verif.Spec.Form
import Verif.Lemmas.Transformation
import Mathlib.Tactic.FieldSimp
import Mathlib.Tactic.Positivity
import Mathlib.Tactic.Linarith

namespace Pystra.Form
open Transformation Matrix Spec

variable {σ : Type} {n : ℕ}

theorem norm2_sq (v : Fin n → ℝ) : norm2 v ^ 2 = ∑ i, v i ^ 2 :=
  Real.sq_sqrt (Finset.sum_nonneg fun i _ => sq_nonneg _)

theorem norm2_nonneg (v : Fin n → ℝ) : 0 ≤ norm2 v := Real.sqrt_nonneg _

theorem norm2_pos {v : Fin n → ℝ} (h : v ≠ 0) : 0 < norm2 v := by
  apply Real.sqrt_pos.2
  obtain ⟨i, hi⟩ := Function.ne_iff.1 h
  exact Finset.sum_pos' (fun i _ => sq_nonneg _) ⟨i, Finset.mem_univ _, by have : v i ≠ 0 := hi; positivity⟩

theorem norm2_zero : norm2 (0 : Fin n → ℝ) = 0 := by simp [norm2]

theorem norm2_ne {v : Fin n → ℝ} (h : v ≠ 0) : norm2 v ≠ 0 := (norm2_pos h).ne'

theorem dot_self (v : Fin n → ℝ) : v ⬝ᵥ v = norm2 v ^ 2 := by
  rw [norm2_sq]; simp [dotProduct, pow_two]

theorem alpha_eq (g : Fin n → ℝ) : alpha g = (-(norm2 g)⁻¹) • g := by
  funext i; simp [alpha, mul_comm]

theorem alpha_unit {g : Fin n → ℝ} (h : g ≠ 0) : alpha g ⬝ᵥ alpha g = 1 := by
  have := norm2_ne h
  rw [alpha_eq, smul_dotProduct, dotProduct_smul, dot_self]
  simp only [smul_eq_mul]
  field_simp

theorem alpha_dot (g u : Fin n → ℝ) : alpha g ⬝ᵥ u = -(g ⬝ᵥ u) / norm2 g := by
  rw [alpha_eq, smul_dotProduct, smul_eq_mul]; ring

theorem grad_alpha {g : Fin n → ℝ} (h : g ≠ 0) : g ⬝ᵥ alpha g = -norm2 g := by
  have := norm2_ne h
  rw [alpha_eq, dotProduct_smul, dot_self, smul_eq_mul]; field_simp

theorem err2_sq {u al : Fin n → ℝ} (h : al ⬝ᵥ al = 1) : err2 u al ^ 2 = norm2 u ^ 2 - (al ⬝ᵥ u) ^ 2 := by
  have e : (fun i => u i - (al ⬝ᵥ u) * al i) = u - (al ⬝ᵥ u) • al := by funext i; simp
  unfold err2
  rw [e, ← dot_self, ← dot_self]
  simp only [sub_dotProduct, dotProduct_sub, smul_dotProduct, dotProduct_smul, h, smul_eq_mul,
    dotProduct_comm u al]
  ring

theorem err2_alpha (u : Fin n → ℝ) {g : Fin n → ℝ} (h : g ≠ 0) :
    err2 u (alpha g) = len (fun i => u i - (∑ j, g j * u j) / (∑ j, g j ^ 2) * g i) := by
  have h0 := norm2_ne h
  unfold err2 len norm2
  congr 1
  apply Finset.sum_congr rfl
  intro i _
  congr 2
  rw [alpha_dot, ← norm2_sq]
  simp only [alpha, dotProduct]
  field_simp

/-- The stopping test of the code is the specified one. -/
theorem conv_iff (opt : Options) (G Go : ℝ) (u : Fin n → ℝ) {g : Fin n → ℝ} (h : g ≠ 0) :
    (cond1 opt G Go && cond2 opt u (alpha g)) = true ↔ Converged opt.e1 opt.e2 G Go u g := by
  unfold cond1 cond2 Converged
  rw [← err2_alpha u h]
  simp only [Bool.and_eq_true, decide_eq_true_eq, and_assoc]
  refine and_congr_right fun h0 => and_congr_left' ?_
  rw [abs_mul, abs_inv, ← div_eq_mul_inv, div_lt_iff₀ (abs_pos.2 h0)]

/-- Everything about a pass that stops. -/
theorem iteration_done {t : Mats n} {marg : Fin n → Marginal} {ev : Evaluator σ n} {opt : Options} {i : ℕ}
    {Go : ℝ} {u : Fin n → ℝ} {s s' : σ} {r : Result n} (h : iteration t marg ev opt i Go u s = .done r s') :
    linearise t marg ev u s = (s', .ok r.point) ∧ r.i = i ∧ r.Go = (if i = 1 then r.point.G else Go) ∧
    r.point.gradient ≠ 0 ∧ r.alpha = alpha r.point.gradient ∧ r.beta = r.alpha ⬝ᵥ r.point.u ∧
    r.Pf = StdNormal.cdf (-r.beta) ∧ r.point.u = u ∧
    (Converged opt.e1 opt.e2 r.point.G r.Go r.point.u r.point.gradient ∨ r.i = opt.iMax) := by
  unfold iteration at h
  have hu : ∀ s1 p, linearise t marg ev u s = (s1, .ok p) → p.u = u := by
    intro s1 p hl
    unfold linearise at hl
    simp only at hl
    split at hl
    · cases hl
    · split at hl
      · cases hl
      · cases hl; rfl
  split at h
  · cases h
  · next s1 p hl =>
    have hp := hu _ _ hl
    by_cases hg : p.gradient = 0
    · simp only [if_pos hg] at h; cases h
    · simp only [if_neg hg] at h
      generalize hgo : (if i = 1 then p.G else Go) = G1 at h
      split at h
      · next hc =>
        injection h with h1 h2
        subst h1 h2
        refine ⟨hl, rfl, hgo.symm, hg, rfl, by simp only [hp], rfl, hp, ?_⟩
        simp only
        rw [Bool.or_eq_true] at hc
        rcases hc with hc | hc
        · left; rw [hp]; exact (conv_iff _ _ _ _ hg).1 hc
        · right; simpa using hc
      · split at h <;> cases h

/-- Everything about a pass that does not stop. -/
theorem iteration_next {t : Mats n} {marg : Fin n → Marginal} {ev : Evaluator σ n} {opt : Options} {i : ℕ}
    {Go Go' : ℝ} {u u' : Fin n → ℝ} {s s' : σ} (h : iteration t marg ev opt i Go u s = .next Go' u' s') :
    ∃ s1 p step, linearise t marg ev u s = (s1, .ok p) ∧ Go' = (if i = 1 then p.G else Go) ∧ p.gradient ≠ 0 ∧
      ¬ Converged opt.e1 opt.e2 p.G Go' u p.gradient ∧ i ≠ opt.iMax ∧
      getStepSize t marg ev opt p.G p.gradient u (direction p.G p.gradient (alpha p.gradient) u) s1 = (s', .ok step) ∧
      u' = fun k => u k + step * direction p.G p.gradient (alpha p.gradient) u k := by
  unfold iteration at h
  split at h
  · cases h
  · next s1 p hl =>
    by_cases hg : p.gradient = 0
    · simp only [if_pos hg] at h; cases h
    · simp only [if_neg hg] at h
      generalize hgo : (if i = 1 then p.G else Go) = G1 at h
      split at h
      · cases h
      · next hc =>
        rw [Bool.or_eq_true, not_or] at hc
        split at h
        · cases h
        · next s2 step hst =>
          injection h with h1 h2 h3
          subst h1 h2 h3
          refine ⟨s1, p, step, hl, hgo.symm, hg, ?_, by simpa using hc.2, hst, rfl⟩
          rw [← conv_iff _ _ _ _ hg]; exact hc.1

variable {t : Mats n} {marg : Fin n → Marginal} {ev : Evaluator σ n} {opt : Options}

/-- The loop ends in the outcome of a pass that the run reaches. -/
theorem loop_reaches {u0 : Fin n → ℝ} {s0 : σ} (fuel : ℕ) {i : ℕ} {Go : ℝ} {u : Fin n → ℝ} {s : σ} {o : Outcome σ n}
    (hr : Reaches t marg ev opt u0 s0 i Go u s) (h : loop t marg ev opt fuel i Go u s = some o) :
    ∃ i' Go' u' s', Reaches t marg ev opt u0 s0 i' Go' u' s' ∧ iteration t marg ev opt i' Go' u' s' = o ∧
      (∀ a b c, o ≠ .next a b c) := by
  induction fuel generalizing i Go u s with
  | zero => cases h
  | succ k ih =>
    unfold loop at h
    split at h
    · next G1 u1 s1 hit => exact ih (.next hr hit) h
    · next hno =>
      injection h with h
      subst h
      exact ⟨i, Go, u, s, hr, rfl, hno⟩

theorem reaches_le (h : ∃ m, opt.iMax = m ∧ 1 ≤ m) {u0 : Fin n → ℝ} {s0 : σ} {i : ℕ} {Go : ℝ} {u : Fin n → ℝ} {s : σ}
    (hr : Reaches t marg ev opt u0 s0 i Go u s) : 1 ≤ i ∧ i ≤ opt.iMax := by
  obtain ⟨m, rfl, hm⟩ := h
  induction hr with
  | start => exact ⟨le_rfl, hm⟩
  | next _ hit ih =>
    obtain ⟨_, _, _, _, _, _, _, hne, _⟩ := iteration_next hit
    omega

theorem reaches_one_le {u0 : Fin n → ℝ} {s0 : σ} {i : ℕ} {Go : ℝ} {u : Fin n → ℝ} {s : σ}
    (hr : Reaches t marg ev opt u0 s0 i Go u s) : 1 ≤ i := by
  cases hr <;> omega

/-- With `i ≤ i_max`, `i_max - i + 1` passes suffice. -/
theorem loop_total (fuel : ℕ) {i : ℕ} (Go : ℝ) (u : Fin n → ℝ) (s : σ) (hi : i ≤ opt.iMax)
    (hf : opt.iMax + 1 ≤ fuel + i) : ∃ o, loop t marg ev opt fuel i Go u s = some o := by
  induction fuel generalizing i Go u s with
  | zero => omega
  | succ k ih =>
    unfold loop
    split
    · next hit =>
      obtain ⟨_, _, _, _, _, _, _, hne, _⟩ := iteration_next hit
      exact ih _ _ _ (by omega) (by omega)
    · exact ⟨_, rfl⟩

/-- The value at the start is remembered. -/
theorem reaches_Go {u0 : Fin n → ℝ} {s0 : σ} {i : ℕ} {Go : ℝ} {u : Fin n → ℝ} {s : σ}
    (hr : Reaches t marg ev opt u0 s0 i Go u s) (hi : i ≠ 1) :
    ∃ s1 p, linearise t marg ev u0 s0 = (s1, .ok p) ∧ Go = p.G := by
  induction hr with
  | start => exact absurd rfl hi
  | @next i Go u s Go' u' s' hr hit ih =>
    obtain ⟨s1, p, _, hl, hgo, _⟩ := iteration_next hit
    by_cases h1 : i = 1
    · subst h1
      cases hr with
      | start => exact ⟨s1, p, hl, by simpa using hgo⟩
      | next hr _ => have := reaches_one_le hr; omega
    · rw [if_neg h1] at hgo; rw [hgo]; exact ih h1

end Pystra.Form
