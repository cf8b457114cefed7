import Verif.Lemmas.Form
import Verif.Lemmas.StdNormal
import Verif.Props.Transformation
import Verif.Props.LimitState

/-! C28, C29, C31, C32: the FORM iteration. -/

namespace Pystra.Props
open Matrix Spec Transformation Form

variable {σ : Type} {n : ℕ}

/-- C28: with `i_max ≥ 1` the loop returns within `i_max` passes, and when it reports a result the iteration count
is between 1 and `i_max`, and either both tolerances hold at the reported point or the count is `i_max`. -/
theorem C28_stops (t : Mats n) (marg : Fin n → Marginal) (ev : Evaluator σ n) (opt : Form.Options) (h : 1 ≤ opt.iMax)
    (s : σ) (fuel : ℕ) (hf : opt.iMax ≤ fuel) :
    ∃ o, runFrom t marg ev opt fuel s = some o ∧ (∀ a b c, o ≠ .next a b c) ∧
      ∀ r s', o = .done r s' → 1 ≤ r.i ∧ r.i ≤ opt.iMax ∧
        (Converged opt.e1 opt.e2 r.point.G r.Go r.point.u r.point.gradient ∨ r.i = opt.iMax) := by
  obtain ⟨o, ho⟩ := loop_total (t := t) (marg := marg) (ev := ev) fuel (i := 1) 0 (startingPoint t marg) s h (by omega)
  obtain ⟨i, Go, u, s1, hr, hit, hno⟩ := loop_reaches fuel .start ho
  refine ⟨o, ho, hno, ?_⟩
  rintro r s' rfl
  obtain ⟨-, hi, -, -, -, -, -, -, hc⟩ := iteration_done hit
  have := reaches_le ⟨_, rfl, h⟩ hr
  exact ⟨hi ▸ this.1, hi ▸ this.2, hc⟩

/-- Every earlier pass of a run. -/
theorem reaches_prefix {t : Mats n} {marg : Fin n → Marginal} {ev : Evaluator σ n} {opt : Form.Options}
    {u0 : Fin n → ℝ} {s0 : σ} {i : ℕ} {Go : ℝ} {u : Fin n → ℝ} {s : σ}
    (hr : Reaches t marg ev opt u0 s0 i Go u s) (j : ℕ) (hj : 1 ≤ j) (hji : j < i) :
    ∃ Gj uj sj G' u' s', Reaches t marg ev opt u0 s0 j Gj uj sj ∧ iteration t marg ev opt j Gj uj sj = .next G' u' s' := by
  induction hr with
  | start => omega
  | @next i Go u s Go' u' s' hr hit ih =>
    by_cases h : j = i
    · subst h; exact ⟨_, _, _, _, _, _, hr, hit⟩
    · exact ih (by omega)

/-- C28: the loop does not stop late: at every earlier pass the count was not `i_max` and the tolerances failed
(with respect to the value at the starting point). -/
theorem C28_not_late {t : Mats n} {marg : Fin n → Marginal} {ev : Evaluator σ n} {opt : Form.Options} {fuel : ℕ}
    {s s' : σ} {r : Result n} (h : runFrom t marg ev opt fuel s = some (.done r s')) (j : ℕ) (hj : 1 ≤ j)
    (hji : j < r.i) :
    j ≠ opt.iMax ∧ ∃ Gj uj sj s1 p, Reaches t marg ev opt (startingPoint t marg) s j Gj uj sj ∧
      linearise t marg ev uj sj = (s1, .ok p) ∧ ¬ Converged opt.e1 opt.e2 p.G r.Go uj p.gradient := by
  obtain ⟨i, Go, u, s2, hr, hit, -⟩ := loop_reaches fuel .start h
  obtain ⟨-, hi, hgo, -⟩ := iteration_done hit
  subst hi
  obtain ⟨Gj, uj, sj, G', u', s3, hrj, hitj⟩ := reaches_prefix hr j hj hji
  obtain ⟨s1, p, st, hl, hG, _, hconv, hne, _⟩ := iteration_next hitj
  refine ⟨hne, Gj, uj, sj, s1, p, hrj, hl, ?_⟩
  have e1 : r.Go = Go := by rw [hgo, if_neg (by omega)]
  obtain ⟨_, p0, hl0, e0⟩ := reaches_Go hr (by omega)
  obtain ⟨_, p1, hl1, e3⟩ := reaches_Go (.next hrj hitj) (by omega)
  rw [hl0] at hl1
  injection hl1 with _ hl1
  injection hl1 with hl1
  subst hl1
  rw [e1, e0, ← e3]; exact hconv

/-- C28: a start exactly on the limit-state surface (`G = 0` there) can only be stopped by the iteration limit. -/
theorem C28_start_on_surface {t : Mats n} {marg : Fin n → Marginal} {ev : Evaluator σ n} {opt : Form.Options}
    {fuel : ℕ} {s s' s1 : σ} {r : Result n} {p : Point n} (h : runFrom t marg ev opt fuel s = some (.done r s'))
    (hl : linearise t marg ev (startingPoint t marg) s = (s1, .ok p)) (h0 : p.G = 0) : r.i = opt.iMax := by
  obtain ⟨i, Go, u, s2, hr, hit, -⟩ := loop_reaches fuel .start h
  obtain ⟨hl2, hi, hgo, -, -, -, -, hu, hc⟩ := iteration_done hit
  rcases hc with hc | hc
  · exfalso
    apply hc.1
    by_cases h1 : i = 1
    · subst h1
      cases hr with
      | start =>
        rw [hl] at hl2
        injection hl2 with _ hl2
        injection hl2 with hl2
        rw [hgo, if_pos rfl, ← hl2, h0]
      | next hr _ => have := reaches_one_le hr; omega
    · obtain ⟨_, p0, hl0, e0⟩ := reaches_Go hr h1
      rw [hl] at hl0
      injection hl0 with _ hl0
      injection hl0 with hl0
      rw [hgo, if_neg h1, e0, ← hl0, h0]
  · exact hc

/-- C28: with `i_max = 0` nothing but the tolerances can stop the loop: if they never hold, no result is ever
reported, and if moreover no evaluation fails, the loop runs for ever. -/
theorem C28_imax_zero (t : Mats n) (marg : Fin n → Marginal) (ev : Evaluator σ n) (opt : Form.Options)
    (h : opt.iMax = 0) (hc : ∀ G Go u g, ¬ Converged (n := n) opt.e1 opt.e2 G Go u g) (s : σ) :
    (∀ fuel r s', runFrom t marg ev opt fuel s ≠ some (.done r s')) ∧
    (opt.stepSize ≠ 0 → (∀ u s, ∃ s1 p, linearise t marg ev u s = (s1, .ok p) ∧ p.gradient ≠ 0) →
      ∀ fuel, runFrom t marg ev opt fuel s = none) := by
  constructor
  · intro fuel r s' hd
    obtain ⟨i, Go, u, s2, hr, hit, -⟩ := loop_reaches fuel .start hd
    obtain ⟨-, hi, -, -, -, -, -, -, hcv⟩ := iteration_done hit
    have := reaches_one_le hr
    rcases hcv with hcv | hcv
    · exact hc _ _ _ _ hcv
    · omega
  · intro hst hl fuel
    have key : ∀ fuel i Go u s, 1 ≤ i → loop t marg ev opt fuel i Go u s = none := by
      intro fuel
      induction fuel with
      | zero => intros; rfl
      | succ k ih =>
        intro i Go u s hi
        unfold loop
        obtain ⟨s1, p, hp, hg⟩ := hl u s
        have e : ∃ a b c, iteration t marg ev opt i Go u s = .next a b c := by
          unfold iteration
          rw [hp]
          simp only [if_neg hg]
          have e1 : (cond1 opt p.G (if i = 1 then p.G else Go) && cond2 opt u (alpha p.gradient)) = false := by
            rw [Bool.eq_false_iff]
            intro hh
            exact hc _ _ _ _ ((conv_iff _ _ _ _ hg).1 hh)
          have e2 : decide (i = opt.iMax) = false := by
            rw [decide_eq_false_iff_not]; omega
          rw [e1, e2]
          simp only [Bool.or_false, Bool.false_eq_true, if_false, getStepSize, if_neg hst]
          exact ⟨_, _, _, rfl⟩
        obtain ⟨a, b, c, e⟩ := e
        rw [e]
        exact ih _ _ _ _ (by omega)
    exact key fuel 1 0 _ s le_rfl

/-- C29: the identities between the reported quantities: the design point's `x`, value and gradient are those of the
limit state at the reported `u`, `alpha` is the negative normalised gradient (unit length), `beta = alpha·u`,
`Pf = Φ(-beta)` lies strictly between 0 and 1; and if the iteration limit was not hit, `|G| < e1 |G0|` and
`0 ≤ |u|² - beta² < e2²`. -/
theorem C29_identities {t : Mats n} {marg : Fin n → Marginal} {ev : Evaluator σ n} {opt : Form.Options} {fuel : ℕ}
    {s s' : σ} {r : Result n} (h : runFrom t marg ev opt fuel s = some (.done r s')) :
    r.point.x = uToX t marg r.point.u ∧
    (∃ s1 gx xa, ev.withGrad s1 r.point.x = (s', .ok (r.point.G, gx, xa)) ∧
      r.point.gradient = vecMul gx (jacobian t marg r.point.u r.point.x)⁻¹) ∧
    (∀ i, r.alpha i = -r.point.gradient i / √(∑ j, r.point.gradient j ^ 2)) ∧
    ∑ i, r.alpha i ^ 2 = 1 ∧ r.beta = ∑ i, r.alpha i * r.point.u i ∧
    r.Pf = StdNormal.cdf (-r.beta) ∧ 0 < r.Pf ∧ r.Pf < 1 ∧
    (r.i ≠ opt.iMax → |r.point.G| < opt.e1 * |r.Go| ∧ 0 ≤ ∑ i, r.point.u i ^ 2 - r.beta ^ 2 ∧
      ∑ i, r.point.u i ^ 2 - r.beta ^ 2 < opt.e2 ^ 2) := by
  obtain ⟨i, Go, u, s2, hr, hit, -⟩ := loop_reaches fuel .start h
  obtain ⟨hl, hi, hgo, hg, ha, hb, hp, hu, hc⟩ := iteration_done hit
  have hun : r.alpha ⬝ᵥ r.alpha = 1 := ha ▸ alpha_unit hg
  have hl' := hl
  unfold linearise at hl'
  simp only at hl'
  split at hl'
  · cases hl'
  · next J hJ =>
    split at hl'
    · cases hl'
    · next s3 G gx xa hev =>
      injection hl' with e1 e2
      injection e2 with e2
      subst e1
      have hJ' : J = (jacobian t marg u (uToX t marg u))⁻¹ := by
        unfold npInv at hJ
        split at hJ
        · injection hJ with hJ; exact hJ.symm
        · cases hJ
      have hx : r.point.x = uToX t marg u := by rw [← e2]
      have hG : r.point.G = G := by rw [← e2]
      have hgr : r.point.gradient = vecMul gx J := by rw [← e2]
      refine ⟨by rw [hx, hu], ⟨s2, gx, xa, by rw [hx, hG]; exact hev, by rw [hgr, hJ', hu, hx]⟩, ?_, ?_, ?_, hp, ?_, ?_, ?_⟩
      · intro k; rw [ha, div_eq_mul_inv]; rfl
      · rw [← hun]; simp [dotProduct, pow_two]
      · rw [hb]; rfl
      · rw [hp]; exact StdNormal.cdf_pos _
      · rw [hp]; exact StdNormal.cdf_lt_one _
      · intro hne
        obtain ⟨h0, h1, h2⟩ := hc.resolve_right hne
        rw [← err2_alpha _ hg, ← ha] at h2
        have h3 := err2_sq (u := r.point.u) hun
        rw [norm2_sq, ← hb] at h3
        have h4 : 0 ≤ err2 r.point.u r.alpha := norm2_nonneg _
        refine ⟨h1, ?_, ?_⟩
        · rw [← h3]; positivity
        · rw [← h3]; nlinarith

/-- The loop of the step-size rule picks the first acceptable trial. -/
theorem armijo_first (m : ℝ) (trial mNew : ℕ → ℝ) (k : ℕ) : ∀ (j : ℕ) (p : ℕ), p ≤ k → (∀ q < p, m < mNew (j + q)) →
    mNew (j + p) ≤ m → ∀ (st cur : ℝ), cur > m →
    (p < k → armijoLoop m trial mNew k j st cur = trial (j + p)) := by
  induction k with
  | zero => intro j p hp _ _ st cur _ h; omega
  | succ k ih =>
    intro j p hp hq hle st cur hcur hlt
    unfold armijoLoop
    rw [if_pos hcur]
    cases p with
    | zero =>
      simp only [Nat.add_zero] at hle ⊢
      cases k with
      | zero => rfl
      | succ k => unfold armijoLoop; rw [if_neg (not_lt.2 hle)]
    | succ p =>
      have h0 := hq 0 (by omega)
      simp only [Nat.add_zero] at h0
      rw [ih (j + 1) p (by omega) (fun q hq' => by
        have := hq (q + 1) (by omega); rwa [show j + 1 + q = j + (q + 1) by omega])
        (by rwa [show j + 1 + p = j + (p + 1) by omega]) _ _ h0 (by omega)]
      congr 1; omega

theorem armijo_none (m : ℝ) (trial mNew : ℕ → ℝ) (k : ℕ) : ∀ (j : ℕ), (∀ q < k + 1, m < mNew (j + q)) →
    ∀ (st cur : ℝ), cur > m → armijoLoop m trial mNew (k + 1) j st cur = trial (j + k) := by
  induction k with
  | zero => intro j hq st cur hcur; unfold armijoLoop; rw [if_pos hcur]; rfl
  | succ k ih =>
    intro j hq st cur hcur
    unfold armijoLoop
    rw [if_pos hcur, ih (j + 1) (fun q hq' => by
      have := hq (q + 1) (by omega); rwa [show j + 1 + q = j + (q + 1) by omega]) _ _ (by simpa using hq 0 (by omega))]
    congr 1; omega

/-- C31: with `step_size = 0` (and `multi_proc = 1`) the limit state is evaluated at the six trial points
`u + 2⁻ʲ d`, and the step is the first `2⁻ʲ`, `j = 0, …, 5`, whose merit `½|u|² + c|G|`, `c = 2|u|/|∇| + 10`, does not
exceed the current merit; if none qualifies it is `1/32`. -/
theorem C31_armijo (t : Mats n) (marg : Fin n → Marginal) (ev : Evaluator σ n) (opt : Form.Options)
    (h : opt.stepSize = 0) (hm : opt.multiProc = 1) (G : ℝ) (grad u d : Fin n → ℝ) (s s' : σ) (Gs : List ℝ)
    (hev : ev.values s ((List.range 6).map fun j : ℕ => uToX t marg (fun i => u i + (1 / 2) ^ j * d i)) = (s', .ok Gs)) :
    let c := 2 * len u / len grad + 10
    let m : ℕ → ℝ := fun j => len (fun i => u i + (1 / 2) ^ j * d i) ^ 2 / 2 + c * |Gs.getD j 0|
    let m0 := len u ^ 2 / 2 + c * |G|
    (∀ j < 6, m j ≤ m0 → (∀ k < j, m0 < m k) → getStepSize t marg ev opt G grad u d s = (s', .ok ((1 / 2) ^ j))) ∧
    ((∀ j < 6, m0 < m j) → getStepSize t marg ev opt G grad u d s = (s', .ok (1 / 32))) := by
  intro c m m0
  have hu : ∀ j : ℕ, (fun i => u i * 1 + d i * (0.5:ℝ) ^ j) = fun i => u i + (1 / 2) ^ j * d i := by
    intro j; funext i; rw [show (0.5:ℝ) = 1 / 2 by norm_num]; ring
  have hc : meritC u grad = c := by
    simp only [meritC, c, len, norm2]; ring
  have key : getStepSize t marg ev opt G grad u d s =
      (s', .ok (armijoLoop m0 (fun j => (1 / 2) ^ j) m 6 0 1 (m 0))) := by
    unfold getStepSize computeStepSize
    rw [if_pos h]
    simp only [if_pos hm, hu, hev, hc]
    have e1 : merit c u G = m0 := by simp only [merit, m0, len, norm2]; ring
    have e2 : (fun j => merit c (fun i => u i + (1 / 2) ^ j * d i) (Gs.getD j 0)) = m := by
      funext j; simp only [merit, m, len, norm2]; ring
    rw [e1]
    have e3 : ∀ j, merit c (fun i => u i + (1 / 2) ^ j * d i) (Gs.getD j 0) = m j := congrFun e2
    simp only [e3]
    norm_num
  rw [key]
  constructor
  · intro j hj hle hlt
    cases j with
    | zero => unfold armijoLoop; rw [if_neg (not_lt.2 hle)]; simp
    | succ j =>
      have := armijo_first m0 (fun j => (1 / 2) ^ j) m 6 0 (j + 1) (by omega) (fun q hq => by simpa using hlt q hq)
        (by simpa using hle) 1 (m 0) (hlt 0 (by omega)) hj
      rw [this]; simp
  · intro hlt
    rw [armijo_none m0 _ m 5 0 (fun q hq => by simpa using hlt q hq) 1 (m 0) (hlt 0 (by omega))]
    norm_num

/-- C31: any other `step_size` is used as it is, without evaluations; `multi_proc` other than 1 makes the automatic
step fail. -/
theorem C31_fixed (t : Mats n) (marg : Fin n → Marginal) (ev : Evaluator σ n) (opt : Form.Options)
    (G : ℝ) (grad u d : Fin n → ℝ) (s : σ) :
    (opt.stepSize ≠ 0 → getStepSize t marg ev opt G grad u d s = (s, .ok opt.stepSize)) ∧
    (opt.stepSize = 0 → opt.multiProc ≠ 1 → getStepSize t marg ev opt G grad u d s = (s, .error .nameError)) := by
  constructor
  · intro h; unfold getStepSize; rw [if_neg h]
  · intro h h1; unfold getStepSize computeStepSize; rw [if_pos h]; simp only [if_neg h1]

end Pystra.Props
