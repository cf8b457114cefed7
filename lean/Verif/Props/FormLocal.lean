import Verif.Lemmas.Hlrf
import Verif.Props.FormBound
import Verif.Spec.FormConvergence

/-! C103: when the search of FORM converges, how fast, and how far from the design point it may stop. -/

namespace Pystra.Props
open Matrix Spec Transformation Form Set

variable {σ : Type} {n : ℕ}

/-- The step sizes the code uses. -/
theorem step_rule {t : Mats n} {marg : Fin n → Marginal} {ev : Evaluator σ n} {P : σ → Prop} {opt : Form.Options}
    {f : (Fin n → ℝ) → ℝ} (h : StepRule opt ev P f) (G : ℝ) (w u d : Fin n → ℝ) (s : σ) (hs : P s) :
    ∃ s' st, getStepSize t marg ev opt G w u d s = (s', .ok st) ∧ P s' ∧ minStep opt ≤ st ∧ st ≤ 1 := by
  unfold getStepSize minStep
  rcases h with ⟨h0, h1⟩ | ⟨h0, hm, hv⟩
  · rw [if_neg h0.ne', if_neg h0.ne']
    exact ⟨s, _, rfl, hs, le_rfl, h1⟩
  · rw [if_pos h0, if_pos h0]
    obtain ⟨s', he, hP⟩ := hv s hs ((List.range 6).map (fun j => uToX t marg (fun i => u i * 1 + d i * (0.5 : ℝ) ^ j)))
    unfold computeStepSize
    simp only [if_pos hm]
    rw [he]
    refine ⟨s', _, rfl, hP, ?_⟩
    generalize hM : (fun j : ℕ => merit (meritC u w) (fun i => u i * 1 + d i * (0.5 : ℝ) ^ j)
      ((List.map f (List.map (fun j => uToX t marg fun i => u i * 1 + d i * (0.5 : ℝ) ^ j) (List.range 6))).getD j 0)) = mNew
    have e : merit (meritC u w) (fun i => u i * 1 + d i * (0.5 : ℝ) ^ 0)
      ((List.map f (List.map (fun j => uToX t marg fun i => u i * 1 + d i * (0.5 : ℝ) ^ j) (List.range 6))).getD 0 0) = mNew 0 :=
      congrFun hM 0
    rw [e]
    by_cases hle : mNew 0 ≤ merit (meritC u w) u G
    · rw [armijo_accept (trial := fun j => (0.5 : ℝ) ^ j) hle]
      norm_num
    · obtain ⟨st, h1, h2, h3⟩ := armijo_reduce (not_le.1 hle)
      rw [h1]
      exact ⟨h2, h3.trans (by norm_num)⟩

theorem minStep_pos {ev : Evaluator σ n} {P : σ → Prop} {opt : Form.Options} {f : (Fin n → ℝ) → ℝ} (h : StepRule opt ev P f) :
    0 < minStep opt ∧ minStep opt ≤ 1 := by
  unfold minStep
  rcases h with ⟨h0, h1⟩ | ⟨h0, -⟩
  · rw [if_neg h0.ne']; exact ⟨h0, h1⟩
  · rw [if_pos h0]; norm_num

/-- A step of any length is a convex combination of the current point and the full step. -/
theorem part_step {w : Fin n → ℝ} (hw : w ≠ 0) (G st : ℝ) (u : Fin n → ℝ) :
    (fun k => u k + st * direction G w (alpha w) u k) = (1 - st) • u + st • (((w ⬝ᵥ u - G) / (w ⬝ᵥ w)) • w) := by
  rw [← full_step hw G u]
  funext k
  simp only [Pi.add_apply, Pi.smul_apply, smul_eq_mul]
  ring

/-- The passes of the loop near a design point. -/
theorem local_loop {t : Mats n} {marg : Fin n → Marginal} {ev : Evaluator σ n} {P : σ → Prop} {opt : Form.Options}
    {f q : (Fin n → ℝ) → ℝ} {Gr : (Fin n → ℝ) → Fin n → ℝ} {N : (Fin n → ℝ) → ℝ} {u0 : Fin n → ℝ} {ρ δ C γ E θ : ℝ} (hρ0 : 0 < ρ) (hρ1 : ρ < 1)
    (hC : 1 ≤ C) (hE : 0 ≤ E) (hN0 : ∀ u, 0 ≤ N u)
    (hconv : ∀ (st : ℝ) (u v : Fin n → ℝ), 0 ≤ st → st ≤ 1 → N ((1 - st) • u + st • v) ≤ (1 - st) * N u + st * N v)
    (hlin : ∀ u s, P s → ∃ s' p, linearise t marg ev u s = (s', .ok p) ∧ P s' ∧ p.gradient = Gr u ∧ p.G = q u)
    (hloc : ∀ u, N u ≤ δ → Gr u ≠ 0 ∧ N (hlrf q Gr u) ≤ ρ * N u + (1 - ρ) * E ∧
      |q u| ≤ C * N u ∧ err2 u (alpha (Gr u)) ≤ C * (N u + E))
    (hγ : γ + E ≤ δ) (hγ0 : 0 ≤ γ) (hst : StepRule opt ev P f) (hθ : θ = 1 - minStep opt * (1 - ρ)) (fuel : ℕ) :
    ∀ (i : ℕ) (Go : ℝ) (u : Fin n → ℝ) (s : σ), 1 ≤ i → i ≤ opt.iMax → opt.iMax + 1 ≤ fuel + i → P s →
      N u ≤ θ ^ (i - 1) * γ + E → (i = 1 → u = u0) → (i ≠ 1 → Go = q u0) →
    ∃ r s', loop t marg ev opt fuel i Go u s = some (.done r s') ∧ i ≤ r.i ∧ r.i ≤ opt.iMax ∧
      N r.point.u ≤ θ ^ (r.i - 1) * γ + E ∧ r.point.G = q r.point.u ∧
      r.beta = alpha (Gr r.point.u) ⬝ᵥ r.point.u ∧
      (r.i ≠ opt.iMax → |q r.point.u| < opt.e1 * |q u0| ∧ err2 r.point.u (alpha (Gr r.point.u)) < opt.e2) ∧
      (q u0 ≠ 0 → ∀ j, i ≤ j → j < r.i → C * (θ ^ (j - 1) * γ + 2 * E) < opt.e1 * |q u0| →
        C * (θ ^ (j - 1) * γ + 2 * E) < opt.e2 → False) := by
  obtain ⟨hm0, hm1⟩ := minStep_pos hst
  have hθ1 : θ ≤ 1 := by rw [hθ]; have := mul_pos hm0 (sub_pos.2 hρ1); linarith
  have hθ0 : 0 < θ := by
    rw [hθ]; have := mul_le_mul_of_nonneg_right hm1 (sub_pos.2 hρ1).le; linarith
  induction fuel with
  | zero => intro i Go u s h1 h2 h3; omega
  | succ k ih =>
    intro i Go u s h1 h2 h3 hP hu hi1 hi2
    have hpi : 0 ≤ θ ^ (i - 1) * γ := by positivity
    have hle : θ ^ (i - 1) * γ ≤ γ := by
      have := pow_le_one₀ (n := i - 1) hθ0.le hθ1
      nlinarith
    obtain ⟨hgn, hcon, hq, he⟩ := hloc u (hu.trans ((add_le_add_left hle E).trans hγ))
    obtain ⟨s', p, hl, hP', hg, hG⟩ := hlin u s hP
    obtain ⟨s4, st, hs1, hs2, hs3, hs4⟩ := step_rule (t := t) (marg := marg) hst (q u) (Gr u) u
      (direction (q u) (Gr u) (alpha (Gr u)) u) s' hP'
    have hgo : (if i = 1 then p.G else Go) = q u0 := by
      by_cases hi : i = 1
      · rw [if_pos hi, hG, hi1 hi]
      · rw [if_neg hi, hi2 hi]
    cases hit : iteration t marg ev opt i Go u s with
    | done r s1 =>
      obtain ⟨d1, d2, d3, d4, d5, d6, d7, d8, d9⟩ := iteration_done hit
      rw [hl] at d1
      injection d1 with d1 d1'
      injection d1' with d1'
      rw [d1'] at hg hG hgo
      refine ⟨r, s1, by unfold Form.loop; rw [hit], d2.ge, d2.le.trans h2, by rw [d8, d2]; exact hu, by rw [d8]; exact hG, ?_, ?_, ?_⟩
      · rw [d6, d5, hg, d8]
      · intro hne
        rcases d9 with hc | hc
        · have := hc.2
          rw [hG, d3, hgo, d8, hg] at this
          rw [d8, err2_alpha _ hgn]
          exact this
        · exact absurd hc hne
      · intro _ j hj1 hj2
        omega
    | raised e s1 =>
      exfalso
      unfold iteration at hit
      rw [hl] at hit
      simp only [hgo] at hit
      simp only [hg, hG, if_neg hgn] at hit
      split at hit
      · cases hit
      · rw [hs1] at hit
        cases hit
    | nan s1 =>
      exfalso
      unfold iteration at hit
      rw [hl] at hit
      simp only [hgo] at hit
      simp only [hg, hG, if_neg hgn] at hit
      split at hit
      · cases hit
      · rw [hs1] at hit
        cases hit
    | next Go' u' s1 =>
      obtain ⟨s2, p2, step, c1, c2, c3, c4, c5, c6, c7⟩ := iteration_next hit
      rw [hl] at c1
      injection c1 with c1 c1'
      injection c1' with c1'
      subst c1' c1
      rw [hg, hG, hs1] at c6
      injection c6 with c6 c6'
      injection c6' with c6'
      subst c6' c6
      rw [hgo] at c2
      have hst0 : 0 ≤ st := hm0.le.trans hs3
      have hu' : u' = (1 - st) • u + st • hlrf q Gr u := by
        rw [c7, hg, hG]
        exact part_step hgn (q u) st u
      have hpow : θ * (θ ^ (i - 1) * γ) = θ ^ (i + 1 - 1) * γ := by
        have : i + 1 - 1 = (i - 1) + 1 := by omega
        rw [this, pow_succ]; ring
      have hNu' : N u' ≤ θ ^ (i + 1 - 1) * γ + E := by
        rw [hu', ← hpow]
        refine (hconv st u _ hst0 hs4).trans ?_
        have hr : 0 ≤ 1 - st * (1 - ρ) := by
          have := mul_le_mul_of_nonneg_right hs4 (sub_pos.2 hρ1).le; linarith
        calc (1 - st) * N u + st * N (hlrf q Gr u) ≤ (1 - st) * N u + st * (ρ * N u + (1 - ρ) * E) := by
              have := mul_le_mul_of_nonneg_left hcon hst0; linarith
          _ = (1 - st * (1 - ρ)) * N u + st * (1 - ρ) * E := by ring
          _ ≤ (1 - st * (1 - ρ)) * (θ ^ (i - 1) * γ + E) + st * (1 - ρ) * E := by
              have := mul_le_mul_of_nonneg_left hu hr; linarith
          _ = (1 - st * (1 - ρ)) * (θ ^ (i - 1) * γ) + E := by ring
          _ ≤ θ * (θ ^ (i - 1) * γ) + E := by
              have h5 : 1 - st * (1 - ρ) ≤ θ := by
                rw [hθ]; have := mul_le_mul_of_nonneg_right hs3 (sub_pos.2 hρ1).le; linarith
              have := mul_le_mul_of_nonneg_right h5 hpi; linarith
      obtain ⟨r, s3, r1, r2, r3, r4, r5, r6, r7, r8⟩ := ih (i + 1) Go' u' s4 (by omega) (by omega) (by omega) hs2
        hNu' (fun h => by omega) (fun _ => c2)
      refine ⟨r, s3, by unfold Form.loop; rw [hit]; exact r1, by omega, r3, r4, r5, r6, r7, ?_⟩
      intro h0 j hj1 hj2 hj3 hj4
      by_cases hj : i + 1 ≤ j
      · exact r8 h0 j hj hj2 hj3 hj4
      · obtain rfl : j = i := by omega
        have hC0 : 0 ≤ C := by linarith
        have hCE : 0 ≤ C * E := mul_nonneg hC0 hE
        have hCu := mul_le_mul_of_nonneg_left hu hC0
        apply c4
        refine ⟨by rw [c2]; exact h0, ?_, ?_⟩
        · rw [c2, hG]
          linarith
        · rw [hg, ← err2_alpha _ hgn]
          linarith

/-- The run, for a starting point in a region in which the full step contracts up to an error.  `Gt` is the gradient the code works with. -/
theorem converges_approx {t : Mats n} {marg : Fin n → Marginal} {f : (Fin n → ℝ) → ℝ}
    {ev : Evaluator σ n} {P : σ → Prop} {Gt : (Fin n → ℝ) → Fin n → ℝ}
    (hlin : ∀ u s, P s → ∃ s' p, linearise t marg ev u s = (s', .ok p) ∧ P s' ∧ p.gradient = Gt u ∧ p.G = f (uToX t marg u))
    {us : Fin n → ℝ} {β : ℝ} {N : (Fin n → ℝ) → ℝ} {A c : ℝ} (hA1 : 1 ≤ A) (hc1 : 1 ≤ c)
    (hN0 : ∀ u, 0 ≤ N u)
    (hconv : ∀ (st : ℝ) (u v : Fin n → ℝ), 0 ≤ st → st ≤ 1 → N ((1 - st) • u + st • v) ≤ (1 - st) * N u + st * N v)
    (hNA : ∀ u, N u ≤ A * norm2 (u - us)) (hNc : ∀ u, norm2 (u - us) ≤ c * N u)
    {ρ δ C E κ η : ℝ} (hρ0 : 0 < ρ) (hρ1 : ρ < 1) (hC1 : 1 ≤ C) (hκ : 1 ≤ κ) (hη : 0 ≤ η) (hEη : E = κ * η)
    (hloc : ∀ u, N u ≤ δ → Gt u ≠ 0 ∧ N (hlrf (fun u => f (uToX t marg u)) Gt u) ≤ ρ * N u + (1 - ρ) * E ∧
      |f (uToX t marg u)| ≤ C * N u ∧ err2 u (alpha (Gt u)) ≤ C * (N u + E) ∧
      N u ≤ C * (|f (uToX t marg u)| + err2 u (alpha (Gt u)) + E) ∧ |alpha (Gt u) ⬝ᵥ u - β| ≤ C * (N u + E))
    (x0 : Fin n → ℝ) (hγδ : N (xToU t marg x0) + E ≤ δ) :
    ConvergesFrom t marg ev P f us β x0 ρ (2 * (C ^ 2 * A * c) * κ) η := by
  have hE : 0 ≤ E := by rw [hEη]; exact mul_nonneg (by linarith) hη
  set q : (Fin n → ℝ) → ℝ := fun u => f (uToX t marg u) with hq
  intro opt hst hi fuel hf s hs
  obtain ⟨θ, hθ⟩ : ∃ θ, θ = 1 - minStep opt * (1 - ρ) := ⟨_, rfl⟩
  rw [← hθ]
  obtain ⟨hm0, hm1⟩ := minStep_pos hst
  have hθ1 : θ ≤ 1 := by rw [hθ]; have := mul_pos hm0 (sub_pos.2 hρ1); linarith
  have hθ0 : 0 < θ := by
    rw [hθ]; have := mul_le_mul_of_nonneg_right hm1 (sub_pos.2 hρ1).le; linarith
  set u0 := xToU t marg x0 with hu0
  set D := norm2 (u0 - us) with hD
  have hD0 : 0 ≤ D := norm2_nonneg _
  have hDlen : len (fun i => u0 i - us i) = D := rfl
  rw [hDlen]
  have hγle : N u0 ≤ A * D := hNA _
  have hlin' : ∀ u s, P s → ∃ s' p, linearise t (fun i => { marg i with startpoint := x0 i }) ev u s = (s', .ok p) ∧ P s' ∧
      p.gradient = Gt u ∧ p.G = q u := hlin
  obtain ⟨r, s', r1, r2, r3, r4, r5, r6, r7, r8⟩ := local_loop (t := t) (marg := fun i => { marg i with startpoint := x0 i }) (ev := ev)
    (opt := opt) hρ0 hρ1 hC1 hE hN0 hconv hlin'
    (fun u hu => ⟨(hloc u hu).1, (hloc u hu).2.1, (hloc u hu).2.2.1, (hloc u hu).2.2.2.1⟩) hγδ
    (hN0 _) hst hθ fuel 1 0 u0 s le_rfl hi (by omega) hs (by simpa using hE) (fun _ => rfl) (fun h => absurd rfl h)
  have hpow0 : 0 < θ ^ (r.i - 1) := by positivity
  have hgr : N r.point.u ≤ θ ^ (r.i - 1) * (A * D) + E := by
    have := mul_le_mul_of_nonneg_left hγle hpow0.le; linarith
  have hgδ : N r.point.u ≤ δ := by
    refine r4.trans (le_trans ?_ hγδ)
    have := pow_le_one₀ (n := r.i - 1) hθ0.le hθ1
    have h0 := hN0 u0
    nlinarith
  obtain ⟨-, -, -, -, hback, hb⟩ := hloc _ hgδ
  rw [← r6] at hb
  have hlen : len (fun i => r.point.u i - us i) ≤ c * N r.point.u := hNc _
  have hg0 := hN0 r.point.u
  have hCC : C ≤ C ^ 2 := by nlinarith
  obtain ⟨K, hK⟩ : ∃ K, K = C ^ 2 * A * c := ⟨_, rfl⟩
  rw [← hK]
  have hCA : C * A ≤ K := by
    have h1 : C * A ≤ C ^ 2 * A := mul_le_mul_of_nonneg_right hCC (by linarith)
    have h2 : C ^ 2 * A * 1 ≤ C ^ 2 * A * c := mul_le_mul_of_nonneg_left hc1 (by positivity)
    linarith
  have hcA : c * A ≤ K := by
    have h1 : 1 ≤ C ^ 2 := by nlinarith
    have h2 : 1 * (c * A) ≤ C ^ 2 * (c * A) := mul_le_mul_of_nonneg_right h1 (by positivity)
    have h3 : C ^ 2 * (c * A) = C ^ 2 * A * c := by ring
    linarith
  have hcC : c * C ≤ K := by
    have h1 : C * 1 ≤ C ^ 2 * A := mul_le_mul hCC hA1 zero_le_one (by positivity)
    have h2 : C * 1 * c ≤ C ^ 2 * A * c := mul_le_mul_of_nonneg_right h1 (by linarith)
    have h3 : C * 1 * c = c * C := by ring
    linarith
  have hC2 : C * C ≤ K := by
    have h1 : C ^ 2 * 1 * 1 ≤ C ^ 2 * A * c :=
      mul_le_mul (mul_le_mul_of_nonneg_left hA1 (by positivity)) hc1 zero_le_one (by positivity)
    have h3 : C ^ 2 * 1 * 1 = C * C := by ring
    linarith
  have hCK : C ≤ K := by nlinarith
  have hcK : c ≤ K := by nlinarith
  have hK0 : 0 ≤ K := by linarith
  have hCE : C * E ≤ K * E := mul_le_mul_of_nonneg_right hCK hE
  have hcE : c * E ≤ K * E := mul_le_mul_of_nonneg_right hcK hE
  have hpD : 0 ≤ θ ^ (r.i - 1) * D := by positivity
  have hKp : 0 ≤ K * (θ ^ (r.i - 1) * D) := mul_nonneg hK0 hpD
  have hKE : 0 ≤ K * E := mul_nonneg hK0 hE
  have hX : ∀ X, 0 ≤ X → 2 * K * (X + E) ≤ 2 * K * κ * (X + η) := by
    intro X hX
    have h1 : X ≤ κ * X := le_mul_of_one_le_left hX hκ
    have h2 : X + E ≤ κ * (X + η) := by rw [hEη]; linarith
    have h3 := mul_le_mul_of_nonneg_left h2 (by linarith : 0 ≤ 2 * K)
    linarith
  refine ⟨r, s', r1, ⟨r2, r3⟩, ⟨le_trans ?_ (hX _ hpD), le_trans ?_ (hX _ hpD)⟩, fun hne => ?_, fun hq0 k hN1 hNa hNb => ?_⟩
  · have h1 := mul_le_mul_of_nonneg_left hgr (by linarith : 0 ≤ c)
    have h2 := mul_le_mul_of_nonneg_right hcA hpD
    calc len (fun i => r.point.u i - us i) ≤ c * N r.point.u := hlen
      _ ≤ c * A * (θ ^ (r.i - 1) * D) + c * E := by linarith
      _ ≤ 2 * K * (θ ^ (r.i - 1) * D + E) := by linarith
  · have h1 := mul_le_mul_of_nonneg_left hgr (by linarith : 0 ≤ C)
    have h2 := mul_le_mul_of_nonneg_right hCA hpD
    calc |r.beta - β| ≤ C * (N r.point.u + E) := hb
      _ ≤ C * A * (θ ^ (r.i - 1) * D) + 2 * (C * E) := by linarith
      _ ≤ 2 * K * (θ ^ (r.i - 1) * D + E) := by linarith
  · obtain ⟨ha, hb'⟩ := r7 hne
    have hsum : N r.point.u ≤ C * (opt.e1 * |q u0| + opt.e2 + E) :=
      hback.trans (mul_le_mul_of_nonneg_left (by linarith) (by linarith))
    have hpos : 0 ≤ opt.e1 * |q u0| + opt.e2 + E := by
      have h1 := abs_nonneg (q r.point.u)
      have h2 : 0 ≤ err2 r.point.u (alpha (Gt r.point.u)) := norm2_nonneg _
      linarith
    have hKs := mul_nonneg hK0 hpos
    have hpos' : 0 ≤ opt.e1 * |q u0| + opt.e2 := by
      have h1 := abs_nonneg (q r.point.u)
      have h2 : 0 ≤ err2 r.point.u (alpha (Gt r.point.u)) := norm2_nonneg _
      linarith
    refine ⟨le_trans ?_ (hX _ hpos'), le_trans ?_ (hX _ hpos')⟩
    · have h1 := mul_le_mul_of_nonneg_left hsum (by linarith : 0 ≤ c)
      have h2 := mul_le_mul_of_nonneg_right hcC hpos
      calc len (fun i => r.point.u i - us i) ≤ c * N r.point.u := hlen
        _ ≤ (c * C) * (opt.e1 * |q u0| + opt.e2 + E) := by linarith
        _ ≤ 2 * K * (opt.e1 * |q u0| + opt.e2 + E) := by linarith
    · have h1 := mul_le_mul_of_nonneg_left hsum (by linarith : 0 ≤ C)
      have h2 := mul_le_mul_of_nonneg_right hC2 hpos
      have h3 : K * E ≤ K * (opt.e1 * |q u0| + opt.e2 + E) := by
        refine mul_le_mul_of_nonneg_left ?_ hK0
        have h1 := abs_nonneg (q r.point.u)
        have h2 : 0 ≤ err2 r.point.u (alpha (Gt r.point.u)) := norm2_nonneg _
        linarith
      calc |r.beta - β| ≤ C * (N r.point.u + E) := hb
        _ ≤ (C * C) * (opt.e1 * |q u0| + opt.e2 + E) + C * E := by linarith
        _ ≤ 2 * K * (opt.e1 * |q u0| + opt.e2 + E) := by linarith
  · by_contra hlt
    have hle : C * (θ ^ (k - 1) * N u0 + 2 * E) ≤ 2 * K * κ * (θ ^ (k - 1) * D + η) := by
      have hpk : 0 ≤ θ ^ (k - 1) := by positivity
      have h1 := mul_le_mul_of_nonneg_left (mul_le_mul_of_nonneg_left hγle hpk) (by linarith : 0 ≤ C)
      have h2 := mul_le_mul_of_nonneg_right hCA (mul_nonneg hpk hD0)
      have h3 := mul_nonneg hK0 (mul_nonneg hpk hD0)
      calc C * (θ ^ (k - 1) * N u0 + 2 * E) ≤ C * A * (θ ^ (k - 1) * D) + 2 * (C * E) := by linarith
        _ ≤ 2 * K * (θ ^ (k - 1) * D + E) := by linarith
        _ ≤ _ := hX _ (mul_nonneg hpk hD0)
    exact r8 hq0 k hN1 (by omega) (hle.trans_lt hNa) (hle.trans_lt hNb)

/-- What the code works with when the limit state delivers exact gradients. -/
theorem linearise_exact {la : LinAlg} {ty : TransformType} {Ro : Matrix (Fin n) (Fin n) ℝ} {t : Mats n}
    (ht : Transformation.compute la ty Ro = .ok t) {marg : Fin n → Marginal} {S : Fin n → Set ℝ}
    (hmarg : ∀ i, RoundTrip (marg i) (S i)) (hS : ∀ i, IsOpen (S i)) (hj : ∀ i, JacobianCorrect (marg i) (S i))
    (hdiff : ∀ i, Differentiable ℝ (marg i).uToX)
    {f : (Fin n → ℝ) → ℝ} {grad : (Fin n → ℝ) → Fin n → ℝ}
    (hf : ∀ x, (∀ i, x i ∈ S i) → HasFDerivAt f (gradMap (grad x)) x)
    {ev : Evaluator σ n} {P : σ → Prop} (hex : Exact ev P f grad)
    {Gr : (Fin n → ℝ) → Fin n → ℝ} (hGr : ∀ u, HasFDerivAt (fun u => f (uToX t marg u)) (gradMap (Gr u)) u) (u : Fin n → ℝ) (s : σ)
    (hs : P s) : ∃ s' p, linearise t marg ev u s = (s', .ok p) ∧ P s' ∧ p.gradient = Gr u ∧ p.G = f (uToX t marg u) := by
  have hch := C23_chain_rule ht marg S hmarg hS hj u
  obtain ⟨Ji, hJ⟩ := hch.1.2 (fun i => jac_ne_zero (hmarg i) (hj i) (hdiff i _))
  obtain ⟨s1, xa, he, hP⟩ := hex s hs (uToX t marg u)
  refine ⟨s1, _, by unfold linearise; dsimp only; rw [hJ, he], hP, ?_, rfl⟩
  have h1 := (hch.2 Ji hJ).2 f (grad _) (hf _ fun i => (hmarg i).mem _)
  have h2 := h1.unique (hGr u)
  funext i
  have := congrArg (fun (L : (Fin n → ℝ) →L[ℝ] ℝ) => L (Pi.single i 1)) h2
  simp only [gradMap_apply] at this
  simpa [Pi.single_apply] using this

/-- The run, for a starting point in a region in which the full step contracts. -/
theorem converges_from {la : LinAlg} {ty : TransformType} {Ro : Matrix (Fin n) (Fin n) ℝ} {t : Mats n}
    (ht : Transformation.compute la ty Ro = .ok t) {marg : Fin n → Marginal} {S : Fin n → Set ℝ}
    (hmarg : ∀ i, RoundTrip (marg i) (S i)) (hS : ∀ i, IsOpen (S i)) (hj : ∀ i, JacobianCorrect (marg i) (S i))
    (hdiff : ∀ i, Differentiable ℝ (marg i).uToX)
    {f : (Fin n → ℝ) → ℝ} {grad : (Fin n → ℝ) → Fin n → ℝ}
    (hf : ∀ x, (∀ i, x i ∈ S i) → HasFDerivAt f (gradMap (grad x)) x)
    {ev : Evaluator σ n} {P : σ → Prop} (hex : Exact ev P f grad)
    {Gr : (Fin n → ℝ) → Fin n → ℝ} (hGr : ∀ u, HasFDerivAt (fun u => f (uToX t marg u)) (gradMap (Gr u)) u)
    {us : Fin n → ℝ} {β : ℝ} {N : (Fin n → ℝ) → ℝ} {A c : ℝ} (hA1 : 1 ≤ A) (hc1 : 1 ≤ c)
    (hN0 : ∀ u, 0 ≤ N u)
    (hconv : ∀ (st : ℝ) (u v : Fin n → ℝ), 0 ≤ st → st ≤ 1 → N ((1 - st) • u + st • v) ≤ (1 - st) * N u + st * N v)
    (hNA : ∀ u, N u ≤ A * norm2 (u - us)) (hNc : ∀ u, norm2 (u - us) ≤ c * N u)
    {ρ δ C : ℝ} (hρ0 : 0 < ρ) (hρ1 : ρ < 1) (hC1 : 1 ≤ C)
    (hloc : ∀ u, N u ≤ δ → Gr u ≠ 0 ∧ N (hlrf (fun u => f (uToX t marg u)) Gr u) ≤ ρ * N u ∧
      |f (uToX t marg u)| ≤ C * N u ∧ err2 u (alpha (Gr u)) ≤ C * N u ∧
      N u ≤ C * (|f (uToX t marg u)| + err2 u (alpha (Gr u))) ∧ |alpha (Gr u) ⬝ᵥ u - β| ≤ C * N u)
    (x0 : Fin n → ℝ) (hγδ : N (xToU t marg x0) ≤ δ) :
    ConvergesFrom t marg ev P f us β x0 ρ (2 * (C ^ 2 * A * c)) 0 := by
  have h := converges_approx (fun u s hs => linearise_exact ht hmarg hS hj hdiff hf hex hGr u s hs) hA1 hc1 hN0 hconv hNA hNc hρ0 hρ1 hC1
    (E := 0) (κ := 1) (η := 0) (β := β) le_rfl le_rfl (by simp) (δ := δ) (fun u hu => by simpa using hloc u hu) x0 (by linarith)
  rwa [mul_one] at h

/-- The gauge is convex. -/
theorem gauge_convex {E : ℝ} (hE : 0 ≤ E) (g us : Fin n → ℝ) (st : ℝ) (u v : Fin n → ℝ) (h0 : 0 ≤ st) (h1 : st ≤ 1) :
    gauge E g ((1 - st) • u + st • v - us) ≤ (1 - st) * gauge E g (u - us) + st * gauge E g (v - us) := by
  have hs : ∀ (c : ℝ) (w : Fin n → ℝ), 0 ≤ c → gauge E g (c • w) = c * gauge E g w := by
    intro c w hc
    unfold gauge
    rw [tang_smul, norm2_smul, dotProduct_smul, smul_eq_mul, abs_mul, abs_of_nonneg hc]
    ring
  have e : (1 - st) • u + st • v - us = (1 - st) • (u - us) + st • (v - us) := by
    rw [smul_sub, smul_sub, sub_smul 1 st us, one_smul]; abel
  rw [e, ← hs _ _ (by linarith), ← hs _ _ h0]
  exact gauge_add hE _ _ _

/-- C103: local convergence of FORM with exact gradients, for the default step rule and any fixed step size in `(0, 1]`,, for any marginals and any dependence.  Let `us` be a
design point in standard normal space: the limit state vanishes there and its gradient `∇` — the limit state as a function of the
standard normal variables — is nonzero and parallel to `us`, at the signed distance `β`.  Suppose the gradient is differentiable at
`us` with derivative `H` (the Hessian), and that the curvature of the limit-state surface there is at most `κ`: `H` maps a vector `h`
tangent to the surface to a vector whose tangential part is no longer than `κ ‖∇‖ ‖h‖`.  If `|β| κ < 1` then there are a radius `δ > 0`,
a rate `ρ < 1` and a constant `C` such that FORM converges, at that rate and with that constant, from every starting point within `δ`
of the design point. -/
theorem C103_local {la : LinAlg} {ty : TransformType} {Ro : Matrix (Fin n) (Fin n) ℝ} {t : Mats n}
    (ht : Transformation.compute la ty Ro = .ok t) {marg : Fin n → Marginal} {S : Fin n → Set ℝ}
    (hmarg : ∀ i, RoundTrip (marg i) (S i)) (hS : ∀ i, IsOpen (S i)) (hj : ∀ i, JacobianCorrect (marg i) (S i))
    (hdiff : ∀ i, Differentiable ℝ (marg i).uToX)
    {f : (Fin n → ℝ) → ℝ} {grad : (Fin n → ℝ) → Fin n → ℝ}
    (hf : ∀ x, (∀ i, x i ∈ S i) → HasFDerivAt f (gradMap (grad x)) x)
    {ev : Evaluator σ n} {P : σ → Prop} (hex : Exact ev P f grad)
    {Gr : (Fin n → ℝ) → Fin n → ℝ} (hGr : ∀ u, HasFDerivAt (fun u => f (uToX t marg u)) (gradMap (Gr u)) u)
    {us : Fin n → ℝ} {H : (Fin n → ℝ) →L[ℝ] (Fin n → ℝ)} (hH : HasFDerivAt Gr H us)
    (h0 : f (uToX t marg us) = 0) (hne : Gr us ≠ 0) {β κ : ℝ} (hus : ∀ i, us i = -β * Gr us i / len (Gr us))
    (hκ : ∀ h : Fin n → ℝ, ∑ i, Gr us i * h i = 0 →
      len (fun i => H h i - (∑ j, Gr us j * H h j) / (∑ j, Gr us j ^ 2) * Gr us i) ≤ κ * len (Gr us) * len h)
    (hκ0 : 0 ≤ κ) (hβ : |β| * κ < 1) :
    ∃ δ ρ C : ℝ, 0 < δ ∧ 0 < ρ ∧ ρ < 1 ∧ 0 < C ∧
    ∀ (x0 : Fin n → ℝ), len (fun i => xToU t marg x0 i - us i) ≤ δ → ConvergesFrom t marg ev P f us β x0 ρ C 0 := by
  have hN := norm2_pos hne
  have hus' : us = (-β / norm2 (Gr us)) • Gr us := by
    funext i
    rw [Pi.smul_apply, smul_eq_mul, div_mul_eq_mul_div]
    exact hus i
  have hbeta : alpha (Gr us) ⬝ᵥ us = β := by
    have : alpha (Gr us) ⬝ᵥ ((-β / norm2 (Gr us)) • Gr us) = β := by
      rw [dotProduct_smul, dotProduct_comm, grad_alpha hne, smul_eq_mul]
      field_simp
    rwa [← hus'] at this
  obtain ⟨E, ρ, δ, C, hE, hρ0, hρ1, hδ, hC1, hloc⟩ := hlrf_local (hGr us) hH h0 hne hus' (K := κ * norm2 (Gr us)) (by positivity)
    (fun h hh => by
      have := hκ h hh
      have e : tang (Gr us) (H h) = (fun i => H h i - (∑ j, Gr us j * H h j) / (∑ j, Gr us j ^ 2) * Gr us i) := by
        funext i
        simp only [tang, Pi.sub_apply, Pi.smul_apply, smul_eq_mul, dotProduct, sq]
      rw [e]
      exact this)
    (by
      rw [abs_div, abs_neg, abs_of_pos hN]
      have : |β| / norm2 (Gr us) * (κ * norm2 (Gr us)) = |β| * κ := by field_simp
      rw [this]; exact hβ)
  set g := Gr us with hg
  set q : (Fin n → ℝ) → ℝ := fun u => f (uToX t marg u) with hq
  set A := 1 + E * norm2 g with hA
  set c := 1 + 1 / (E * norm2 g) with hc
  have hA1 : 1 ≤ A := by have : 0 ≤ E * norm2 g := by positivity
                         linarith
  have hc1 : 1 ≤ c := by have : 0 ≤ 1 / (E * norm2 g) := by positivity
                         linarith
  refine ⟨δ / A, ρ, 2 * (C ^ 2 * A * c), by positivity, hρ0, hρ1, by positivity, fun x0 hx0 => ?_⟩
  refine converges_from ht hmarg hS hj hdiff hf hex hGr hA1 hc1 (N := fun u => gauge E g (u - us)) (δ := δ)
    (fun u => gauge_nonneg hE.le _ _) (gauge_convex hE.le g us) (fun u => gauge_le hE.le _ _) (fun u => le_gauge hE hne _) hρ0 hρ1 hC1
    (fun u hu => ?_) x0 ((gauge_le hE.le g _).trans ?_)
  · have := hloc u hu
    rw [hbeta] at this
    exact this
  · rw [le_div_iff₀ (by linarith)] at hx0
    have e : len (fun i => xToU t marg x0 i - us i) = norm2 (xToU t marg x0 - us) := rfl
    rw [e] at hx0
    linarith

end Pystra.Props
