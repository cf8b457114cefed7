import Verif.Props.MonteCarloError
import Verif.Props.FormDistanceExample
import Verif.Props.EndToEnd
import Verif.Lemmas.Mills

/-! C122: when importance sampling at FORM's design point pays, and when it does harm. -/

namespace Pystra.Props
open MeasureTheory Set Spec Matrix Transformation MonteCarlo Form
open ProbabilityTheory hiding cdf

variable {n : ℕ} {σ : Type}

/-- The failure domain lies beyond the plane through `c` orthogonal to `c`. -/
def Beyond (c : Fin n → ℝ) (A : Set (Fin n → ℝ)) : Prop := ∀ u ∈ A, ∑ i, c i ^ 2 ≤ ∑ i, c i * u i

theorem weight_unit (c u : Fin n → ℝ) : weight 1 c u = Real.exp ((∑ i, c i ^ 2) / 2 - ∑ i, c i * u i) := by
  unfold weight
  simp only [one_pow, inv_one, one_smul, one_mul]
  congr 1
  simp only [dotProduct, Finset.mul_sum, ← Finset.sum_add_distrib, Finset.sum_div, ← Finset.sum_sub_distrib]
  refine Finset.sum_congr rfl fun i _ => ?_
  simp only [Pi.sub_apply]
  ring

theorem weight_beyond {c : Fin n → ℝ} {A : Set (Fin n → ℝ)} (h : Beyond c A) {u : Fin n → ℝ} (hu : u ∈ A) :
    weight 1 c u ≤ Real.exp (-(∑ i, c i ^ 2) / 2) := by
  rw [weight_unit]
  refine Real.exp_le_exp.2 ?_
  have := h u hu
  linarith

section general
variable {t : Mats n} {marg : Fin n → Marginal} {ev : Evaluator σ n} {P : σ → Prop} {f : (Fin n → ℝ) → ℝ}

/-- C122: if the failure domain lies beyond the plane through the centre `c` of the sampling, every run of importance sampling
with sampling standard deviation 1, whatever the draws and wherever it stops, reports a probability of at most `exp(-|c|²/2)`. -/
theorem C122_ceiling {opt : MonteCarlo.Options} (hev : Values ev P f) (hg : opt.randomGenerator = 0) (hb : 1 ≤ opt.blockSize)
    (hN : 1 ≤ opt.samples) (hs : opt.stdv = 1) {c : Fin n → ℝ}
    (hc : ∀ u, f (uToX t marg u) < 0 → ∑ i, c i ^ 2 ≤ ∑ i, c i * u i) (ω : ℕ → ℝ) (pos fuel : ℕ) (hf : opt.samples ≤ fuel)
    (s : σ) (hP : P s) :
    ∃ r, MonteCarlo.run t marg ev opt (some c) ω pos fuel s = some (.ok r) ∧ 0 ≤ r.Pf ∧
      r.Pf ≤ Real.exp (-(∑ i, c i ^ 2) / 2) := by
  have hs0 : 0 < opt.stdv := by rw [hs]; exact one_pos
  obtain ⟨r, hr, hk, -, hPf, -⟩ := C37_run (t := t) (marg := marg) hev hg hb hN hs0 (some c) ω pos fuel hf s hP
  have hq : ∀ j, 0 ≤ summand t marg f opt c ω pos j ∧ summand t marg f opt c ω pos j ≤ Real.exp (-(∑ i, c i ^ 2) / 2) := by
    intro j
    rw [summand_indicator hs0, hs]
    by_cases h : (fun r => c r + 1 * mcDraw ω n opt.blockSize opt.samples pos j r) ∈ {u | f (uToX t marg u) < 0}
    · rw [indicator_of_mem h]
      exact ⟨weight_nonneg one_pos _ _, weight_beyond (A := {u | f (uToX t marg u) < 0}) hc h⟩
    · rw [indicator_of_notMem h]
      exact ⟨le_rfl, (Real.exp_pos _).le⟩
  have hk' : (0:ℝ) < r.st.k := by exact_mod_cast hk
  refine ⟨r, hr, ?_, ?_⟩
  · rw [hPf]
    exact div_nonneg (Finset.sum_nonneg fun j _ => (hq j).1) hk'.le
  · rw [hPf, div_le_iff₀ hk']
    refine (Finset.sum_le_sum fun j _ => (hq j).2).trans ?_
    rw [Finset.sum_const, Finset.card_range, nsmul_eq_mul, mul_comm]

/-- C122: under the same condition the variance of the reported `Pf` (simulation of fixed length) is at most
`(exp(-|c|²/2) p - p²)/N`: at most `exp(-|c|²/2)` times the variance `p(1-p)/N` of crude Monte Carlo with as many samples. -/
theorem C122_gain {opt : MonteCarlo.Options} (hev : Values ev P f) (hA : MeasurableSet {u : Fin n → ℝ | f (uToX t marg u) < 0})
    (hg : opt.randomGenerator = 0) (hb : 1 ≤ opt.blockSize) (hN : 1 ≤ opt.samples) (hs : opt.stdv = 1) (hcov : opt.cov ≤ 0)
    {c : Fin n → ℝ} (hc : ∀ u, f (uToX t marg u) < 0 → ∑ i, c i ^ 2 ≤ ∑ i, c i * u i) (pos fuel : ℕ) (hf : opt.samples ≤ fuel)
    (s : σ) (hP : P s) :
    ∃ crude importance : (ℕ → ℝ) → ℝ,
      (∀ ω, ∃ r, MonteCarlo.run t marg ev opt none ω pos fuel s = some (.ok r) ∧ r.Pf = crude ω) ∧
      (∀ ω, ∃ r, MonteCarlo.run t marg ev opt (some c) ω pos fuel s = some (.ok r) ∧ r.Pf = importance ω) ∧
      ∫ ω, crude ω ∂stream = ∫ ω, importance ω ∂stream ∧
      (let p := (stdGauss n).real {u | f (uToX t marg u) < 0}
       Var[crude; stream] = p * (1 - p) / opt.samples ∧
       Var[importance; stream] ≤ (Real.exp (-(∑ i, c i ^ 2) / 2) * p - p ^ 2) / opt.samples) ∧
      Var[importance; stream] ≤ Real.exp (-(∑ i, c i ^ 2) / 2) * Var[crude; stream] := by
  have hs0 : 0 < opt.stdv := by rw [hs]; exact one_pos
  have hs2 : 1 / 2 < opt.stdv ^ 2 := by rw [hs]; norm_num
  obtain ⟨C, c1, -, c3, -⟩ := C75_variance hev hA hg hb hN hs0 hs2 hcov none pos fuel hf s hP
  obtain ⟨C', c1', c4⟩ := C75_variance_unit hev hA hg hb hN hs hcov none pos fuel hf s hP
  obtain ⟨I, i1, -, i3, i4⟩ := C75_variance hev hA hg hb hN hs0 hs2 hcov (some c) pos fuel hf s hP
  have hCC : C = C' := by
    funext ω
    obtain ⟨r, h1, -, h2⟩ := c1 ω
    obtain ⟨r', h1', -, h2'⟩ := c1' ω
    rw [h1] at h1'; cases h1'
    rw [← h2, h2']
  subst hCC
  haveI : IsProbabilityMeasure (stdGauss n) := by unfold stdGauss; infer_instance
  obtain ⟨p, hp⟩ : ∃ p, p = (stdGauss n).real {u | f (uToX t marg u) < 0} := ⟨_, rfl⟩
  obtain ⟨ε, hε⟩ : ∃ ε, ε = Real.exp (-(∑ i, c i ^ 2) / 2) := ⟨_, rfl⟩
  have hε1 : ε ≤ 1 := by
    rw [hε]
    refine Real.exp_le_one_iff.2 ?_
    have : 0 ≤ ∑ i, c i ^ 2 := Finset.sum_nonneg fun i _ => sq_nonneg _
    linarith
  have hN' : (0:ℝ) < opt.samples := by exact_mod_cast hN
  have e0 : (fun _ : Fin n => (0:ℝ)) ⬝ᵥ (fun _ => 0) = 0 := by simp [dotProduct]
  have e1 : ∀ u : Fin n → ℝ, (u - fun _ => (0:ℝ)) = u := fun u => by funext i; simp
  simp only [Option.getD_none, e0, Real.exp_zero, one_mul, e1, ← hp] at c4
  simp only [Option.getD_some, ← hp, hs, ← weight_eq one_pos] at i4
  have hint : ∫ u in {u | f (uToX t marg u) < 0}, weight 1 c u ∂(stdGauss n) ≤ ε * p := by
    have h1 : ∫ u in {u | f (uToX t marg u) < 0}, weight 1 c u ∂(stdGauss n) ≤
        ∫ _u in {u | f (uToX t marg u) < 0}, ε ∂(stdGauss n) :=
      setIntegral_mono_on ((integrable_weight one_pos (by norm_num) c).integrableOn) (integrable_const _) hA
        fun u hu => hε ▸ weight_beyond (A := {u | f (uToX t marg u) < 0}) hc hu
    refine h1.trans (le_of_eq ?_)
    rw [setIntegral_const, smul_eq_mul, ← hp, mul_comm]
  have hI : Var[I; stream] ≤ (ε * p - p ^ 2) / opt.samples := by
    rw [i4]
    exact div_le_div_of_nonneg_right (by linarith) hN'.le
  refine ⟨C, I, fun ω => ?_, fun ω => ?_, c3.trans i3.symm, ⟨?_, ?_⟩, ?_⟩
  · obtain ⟨r, h1, -, h2⟩ := c1 ω; exact ⟨r, h1, h2⟩
  · obtain ⟨r, h1, -, h2⟩ := i1 ω; exact ⟨r, h1, h2⟩
  · rw [c4, ← hp]; ring
  · rw [← hp, ← hε]; exact hI
  · rw [c4, ← hε]
    refine hI.trans ?_
    rw [← mul_div_assoc]
    refine div_le_div_of_nonneg_right ?_ hN'.le
    nlinarith [sq_nonneg p, mul_nonneg (sub_nonneg.2 hε1) (sq_nonneg p)]

/-- The second moment of a failure domain inside a half-space. -/
theorem second_moment_halfspace {A : Set (Fin n → ℝ)} (hA : MeasurableSet A) {al c : Fin n → ℝ} {b : ℝ} (hal : ∑ i, al i ^ 2 = 1)
    (hc : ∑ i, al i * c i = b) (h : ∀ u ∈ A, b ≤ ∑ i, al i * u i) :
    ∫ u in A, weight 1 c u ∂(stdGauss n) ≤ Real.exp (∑ i, c i ^ 2) * StdNormal.cdf (-(2 * b)) := by
  haveI : IsProbabilityMeasure (stdGauss n) := by unfold stdGauss; infer_instance
  have e : c ⬝ᵥ c = ∑ i, c i ^ 2 := Finset.sum_congr rfl fun i _ => (sq _).symm
  rw [setIntegral_weight_unit c hA, e]
  refine mul_le_mul_of_nonneg_left ?_ (Real.exp_pos _).le
  have h1 := halfspace_prob (n := n) (fun i => -al i) (by simp [hal]) (2 * b)
  have h2 : ∑ i, (-al i) ^ 2 = 1 := by simp [hal]
  rw [h2, Real.sqrt_one, div_one] at h1
  rw [← h1]
  refine measureReal_mono fun u hu => ?_
  have h3 := h _ hu
  simp only [Pi.sub_apply, mul_sub, Finset.sum_sub_distrib, hc] at h3
  simp only [mem_setOf_eq, neg_mul, Finset.sum_neg_distrib]
  linarith

/-- `Φ(-x) ≤ exp(-x²/2)/2`. -/
theorem cdf_neg_le_half_exp {x : ℝ} (hx : 0 ≤ x) : StdNormal.cdf (-x) ≤ Real.exp (-(x ^ 2) / 2) / 2 := by
  have hd : ∀ y, HasDerivAt (fun y : ℝ => Real.exp (y ^ 2 / 2) * StdNormal.cdf (-y))
      (Real.exp (y ^ 2 / 2) * (y * StdNormal.cdf (-y) - StdNormal.pdf y)) y := by
    intro y
    have h1 : HasDerivAt (fun y : ℝ => y ^ 2 / 2) y y := by
      simpa using (hasDerivAt_pow 2 y).div_const 2
    have h := h1.exp.mul (StdNormal.hasDerivAt_cdf_neg y)
    refine h.congr_deriv ?_
    ring
  have hanti : Antitone (fun y : ℝ => Real.exp (y ^ 2 / 2) * StdNormal.cdf (-y)) :=
    antitone_of_deriv_nonpos (fun y => (hd y).differentiableAt) fun y => by
      rw [(hd y).deriv]
      have := StdNormal.mul_cdf_neg_lt y
      exact mul_nonpos_of_nonneg_of_nonpos (Real.exp_pos _).le (by linarith)
  have h := hanti hx
  simp only [neg_zero, ne_eq, OfNat.ofNat_ne_zero, not_false_eq_true, zero_pow, zero_div, Real.exp_zero, one_mul] at h
  have h0 : StdNormal.cdf 0 = 1 / 2 := StdNormal.cdf_zero
  rw [h0] at h
  have e : Real.exp (-(x ^ 2) / 2) = (Real.exp (x ^ 2 / 2))⁻¹ := by rw [← Real.exp_neg]; congr 1; ring
  rw [e, div_eq_mul_inv, ← div_eq_inv_mul, le_div_iff₀ (Real.exp_pos _)]
  linarith

/-- C122, FORM and importance sampling together: FORM has ended (its point need not be exact) on a limit state that is convex in
standard space, at a point that does not fail.  Then importance sampling centred there, with sampling standard deviation 1, has a
variance of at most `(exp(|u*|²) Φ(-2β) - p²)/N`; if FORM stopped before the last allowed iteration and `β ≥ 0`, the variance is
below `exp(e2² - β²)/(2N)`.  If the point is exactly parallel to its gradient the variance is at most `exp(-β²/2)` times that of
crude Monte Carlo. -/
theorem C122_form {la : LinAlg} {ty : TransformType} {Ro : Matrix (Fin n) (Fin n) ℝ}
    (ht : Transformation.compute la ty Ro = .ok t) {S : Fin n → Set ℝ}
    (hmarg : ∀ i, RoundTrip (marg i) (S i)) (hS : ∀ i, IsOpen (S i)) (hj : ∀ i, JacobianCorrect (marg i) (S i))
    {grad : (Fin n → ℝ) → Fin n → ℝ} (hf : ∀ x, (∀ i, x i ∈ S i) → HasFDerivAt f (gradMap (grad x)) x)
    (hconv : ConvexOn ℝ univ (fun u => f (uToX t marg u)))
    (hA : MeasurableSet {u : Fin n → ℝ | f (uToX t marg u) < 0})
    (hex : Exact ev P f grad) (hv : ∀ s xs s' Gs, P s → ev.values s xs = (s', .ok Gs) → P s') {fopt : Form.Options} {ffuel : ℕ}
    {s s' : σ} {r : Form.Result n} (hs : P s) (h : runFrom t marg ev fopt ffuel s = some (.done r s')) (h0 : 0 ≤ f r.point.x)
    (hev : Values ev P f) {opt : MonteCarlo.Options}
    (hg : opt.randomGenerator = 0) (hb : 1 ≤ opt.blockSize) (hN : 1 ≤ opt.samples) (hst : opt.stdv = 1) (hcov : opt.cov ≤ 0)
    (pos fuel : ℕ) (hfu : opt.samples ≤ fuel) (s2 : σ) (hP : P s2) :
    ∃ crude importance : (ℕ → ℝ) → ℝ,
      (∀ ω, ∃ q, MonteCarlo.run t marg ev opt none ω pos fuel s2 = some (.ok q) ∧ q.Pf = crude ω) ∧
      (∀ ω, ∃ q, MonteCarlo.run t marg ev opt (some r.point.u) ω pos fuel s2 = some (.ok q) ∧ q.Pf = importance ω) ∧
      (let p := (stdGauss n).real {u | f (uToX t marg u) < 0}
       Var[importance; stream] ≤
        (Real.exp (∑ i, r.point.u i ^ 2) * StdNormal.cdf (-(2 * r.beta)) - p ^ 2) / opt.samples) ∧
      (r.i ≠ fopt.iMax → 0 ≤ r.beta → Var[importance; stream] < Real.exp (fopt.e2 ^ 2 - r.beta ^ 2) / (2 * opt.samples)) ∧
      (0 ≤ r.beta → (∀ i, r.point.u i = r.beta * r.alpha i) →
        Var[importance; stream] ≤ Real.exp (-(r.beta ^ 2) / 2) * Var[crude; stream] ∧
        ∀ ω, importance ω ≤ Real.exp (-(r.beta ^ 2) / 2)) := by
  obtain ⟨hd, hG, hgr, -⟩ := result_exact ht hmarg hS hj hf hex hv hs h
  obtain ⟨hxu, -, hal, hal1, hbe, -, -, -, hcon⟩ := C29_identities h
  have hbl := beta_mul_len hgr h
  have hp := len_pos hgr
  have hs0 : 0 < opt.stdv := by rw [hst]; exact one_pos
  have hs2 : 1 / 2 < opt.stdv ^ 2 := by rw [hst]; norm_num
  have hN' : (0:ℝ) < opt.samples := by exact_mod_cast hN
  have hhalf : ∀ u, f (uToX t marg u) < 0 → r.beta ≤ ∑ i, r.alpha i * u i := by
    intro u hu
    have h1 := convex_above hconv hd u
    rw [← hxu] at h1
    simp only [mul_sub, Finset.sum_sub_distrib] at h1
    have h2 : ∑ i, r.alpha i * u i = -(∑ i, r.point.gradient i * u i) / len r.point.gradient := by
      rw [neg_div, Finset.sum_div, ← Finset.sum_neg_distrib]
      refine Finset.sum_congr rfl fun i _ => ?_
      rw [hal]
      change -r.point.gradient i / len r.point.gradient * u i = _
      ring
    rw [h2, le_div_iff₀ hp]
    linarith
  obtain ⟨I, i1, -, -, i4⟩ := C75_variance hev hA hg hb hN hs0 hs2 hcov (some r.point.u) pos fuel hfu s2 hP
  obtain ⟨C, c1, -, -, -⟩ := C75_variance hev hA hg hb hN hs0 hs2 hcov none pos fuel hfu s2 hP
  have i1' : ∀ ω, ∃ q, MonteCarlo.run t marg ev opt (some r.point.u) ω pos fuel s2 = some (.ok q) ∧ q.Pf = I ω := fun ω => by
    obtain ⟨q, h1, -, h2⟩ := i1 ω; exact ⟨q, h1, h2⟩
  have c1' : ∀ ω, ∃ q, MonteCarlo.run t marg ev opt none ω pos fuel s2 = some (.ok q) ∧ q.Pf = C ω := fun ω => by
    obtain ⟨q, h1, -, h2⟩ := c1 ω; exact ⟨q, h1, h2⟩
  obtain ⟨p, hpp⟩ : ∃ p, p = (stdGauss n).real {u | f (uToX t marg u) < 0} := ⟨_, rfl⟩
  simp only [Option.getD_some, ← hpp, hst, ← weight_eq one_pos] at i4
  have hm := second_moment_halfspace hA (al := r.alpha) (c := r.point.u) (b := r.beta) hal1 hbe.symm fun u hu => hhalf u hu
  have hI : Var[I; stream] ≤ (Real.exp (∑ i, r.point.u i ^ 2) * StdNormal.cdf (-(2 * r.beta)) - p ^ 2) / opt.samples := by
    rw [i4]
    exact div_le_div_of_nonneg_right (by linarith) hN'.le
  refine ⟨C, I, c1', i1', ?_, fun hi hb0 => ?_, fun hb0 hpar => ?_⟩
  · rw [← hpp]; exact hI
  · obtain ⟨-, -, h3⟩ := hcon hi
    refine hI.trans_lt ?_
    have h4 := cdf_neg_le_half_exp (x := 2 * r.beta) (by linarith)
    have h5 : Real.exp (∑ i, r.point.u i ^ 2) * StdNormal.cdf (-(2 * r.beta)) < Real.exp (fopt.e2 ^ 2 - r.beta ^ 2) / 2 := by
      have h6 : Real.exp (∑ i, r.point.u i ^ 2) < Real.exp (r.beta ^ 2 + fopt.e2 ^ 2) := Real.exp_lt_exp.2 (by linarith)
      calc Real.exp (∑ i, r.point.u i ^ 2) * StdNormal.cdf (-(2 * r.beta))
          < Real.exp (r.beta ^ 2 + fopt.e2 ^ 2) * StdNormal.cdf (-(2 * r.beta)) :=
            mul_lt_mul_of_pos_right h6 (StdNormal.cdf_pos _)
        _ ≤ Real.exp (r.beta ^ 2 + fopt.e2 ^ 2) * (Real.exp (-((2 * r.beta) ^ 2) / 2) / 2) :=
            mul_le_mul_of_nonneg_left h4 (Real.exp_pos _).le
        _ = Real.exp (fopt.e2 ^ 2 - r.beta ^ 2) / 2 := by
            rw [← mul_div_assoc, ← Real.exp_add]
            congr 2
            ring
    rw [div_lt_div_iff₀ hN' (by linarith)]
    nlinarith [sq_nonneg p]
  · have hc2 : ∑ i, r.point.u i ^ 2 = r.beta ^ 2 := by
      simp only [hpar, mul_pow, ← Finset.mul_sum, hal1, mul_one]
    have hc : ∀ u, f (uToX t marg u) < 0 → ∑ i, r.point.u i ^ 2 ≤ ∑ i, r.point.u i * u i := by
      intro u hu
      have h1 := hhalf u hu
      rw [hc2]
      have e : ∑ i, r.point.u i * u i = r.beta * ∑ i, r.alpha i * u i := by
        rw [Finset.mul_sum]
        refine Finset.sum_congr rfl fun i _ => ?_
        rw [hpar, mul_assoc]
      rw [e, sq]
      exact mul_le_mul_of_nonneg_left h1 hb0
    obtain ⟨C2, I2, c2, i2, -, -, hg2⟩ := C122_gain hev hA hg hb hN hst hcov hc pos fuel hfu s2 hP
    have hC : C2 = C := by
      funext ω
      obtain ⟨q, h1, h2⟩ := c2 ω
      obtain ⟨q', h1', h2'⟩ := c1' ω
      rw [h1] at h1'; cases h1'
      rw [← h2, h2']
    have hII : I2 = I := by
      funext ω
      obtain ⟨q, h1, h2⟩ := i2 ω
      obtain ⟨q', h1', h2'⟩ := i1' ω
      rw [h1] at h1'; cases h1'
      rw [← h2, h2']
    subst hC hII
    rw [hc2] at hg2
    refine ⟨hg2, fun ω => ?_⟩
    obtain ⟨q, h1, -, h2⟩ := C122_ceiling (t := t) (marg := marg) hev hg hb hN hst hc ω pos fuel hfu s2 hP
    obtain ⟨q', h1', h2'⟩ := i1' ω
    rw [h1] at h1'; cases h1'
    rw [← h2', ← hc2]
    exact h2

end general

/-- C122, affine limit states in standard space: with the design point as centre the variance is exactly
`(exp(β²) Φ(-2β) - Φ(-β)²)/N`. -/
theorem C122_affine {t : Mats n} {marg : Fin n → Marginal} {ev : Evaluator σ n} {P : σ → Prop} {f : (Fin n → ℝ) → ℝ}
    (hev : Values ev P f) {k b : ℝ} (hk : 0 < k) {al : Fin n → ℝ} (hal : ∑ i, al i ^ 2 = 1)
    (hf : ∀ u, f (uToX t marg u) = k * (b - ∑ i, al i * u i)) {opt : MonteCarlo.Options}
    (hg : opt.randomGenerator = 0) (hb : 1 ≤ opt.blockSize) (hN : 1 ≤ opt.samples) (hst : opt.stdv = 1) (hcov : opt.cov ≤ 0)
    (pos fuel : ℕ) (hfu : opt.samples ≤ fuel) (s : σ) (hP : P s) :
    ∃ importance : (ℕ → ℝ) → ℝ,
      (∀ ω, ∃ q, MonteCarlo.run t marg ev opt (some fun i => b * al i) ω pos fuel s = some (.ok q) ∧ q.Pf = importance ω) ∧
      Var[importance; stream] = (Real.exp (b ^ 2) * StdNormal.cdf (-(2 * b)) - StdNormal.cdf (-b) ^ 2) / opt.samples := by
  have hset : ∀ d : ℝ, (stdGauss n).real {u : Fin n → ℝ | d + ∑ i, -al i * u i < 0} = StdNormal.cdf (-d) := by
    intro d
    have h2 : ∑ i, (-al i) ^ 2 = 1 := by simp [hal]
    have h1 := halfspace_lt (n := n) (fun i => -al i) (by rw [h2]; exact one_pos) d
    rw [h2, Real.sqrt_one, div_one] at h1
    exact h1
  have hneg : ∀ u, f (uToX t marg u) < 0 ↔ b + ∑ i, -al i * u i < 0 := by
    intro u
    rw [hf]
    simp only [neg_mul, Finset.sum_neg_distrib]
    constructor
    · intro h
      by_contra h'
      have := mul_nonneg hk.le (show 0 ≤ b - ∑ i, al i * u i by linarith)
      linarith
    · intro h
      exact mul_neg_of_pos_of_neg hk (by linarith)
  have hA : MeasurableSet {u : Fin n → ℝ | f (uToX t marg u) < 0} := by
    simp only [hneg]
    exact measurableSet_lt (by fun_prop) measurable_const
  obtain ⟨I, i1, i2⟩ := C75_variance_unit hev hA hg hb hN hst hcov (some fun i => b * al i) pos fuel hfu s hP
  refine ⟨I, fun ω => ?_, i2.trans ?_⟩
  · obtain ⟨q, h1, -, h2⟩ := i1 ω; exact ⟨q, h1, h2⟩
  · have e1 : (fun i => b * al i) ⬝ᵥ (fun i => b * al i) = b ^ 2 := by
      have : (fun i => b * al i) ⬝ᵥ (fun i => b * al i) = b ^ 2 * ∑ i, al i ^ 2 := by
        rw [Finset.mul_sum]
        exact Finset.sum_congr rfl fun i _ => by ring
      rw [this, hal, mul_one]
    have e2 : ∀ u : Fin n → ℝ, f (uToX t marg (u - fun i => b * al i)) < 0 ↔ 2 * b + ∑ i, -al i * u i < 0 := by
      intro u
      rw [hneg]
      have : ∑ i, -al i * (u - fun i => b * al i) i = ∑ i, -al i * u i + b * ∑ i, al i ^ 2 := by
        rw [Finset.mul_sum, ← Finset.sum_add_distrib]
        refine Finset.sum_congr rfl fun i _ => ?_
        simp only [Pi.sub_apply]
        ring
      rw [this, hal]
      constructor <;> intro h <;> linarith
    simp only [Option.getD_some, e1, e2, hneg, hset]

/-- C122, the harm: on the two-sided limit state of `C99_local` FORM stops at its far design point, and importance sampling
centred there has more than 16000 times the variance of crude Monte Carlo with as many samples. -/
theorem C122_harm {m : Marginal} (hm : Normal.new 0 (.fin 1) none = .ok m) {iMax : ℕ} (hi : 3 ≤ iMax) {e1 e2 : ℝ} (he1 : 0 < e1)
    (he1' : e1 ≤ 1) (he2 : 0 < e2) (ffuel k : ℕ) {opt : MonteCarlo.Options}
    (hg : opt.randomGenerator = 0) (hb : 1 ≤ opt.blockSize) (hN : 1 ≤ opt.samples) (hst : opt.stdv = 1) (hcov : opt.cov ≤ 0)
    (pos fuel : ℕ) (hfu : opt.samples ≤ fuel) :
    ∃ (r : Form.Result 1) (crude importance : (ℕ → ℝ) → ℝ),
      runFrom ⟨1, 1⟩ (fun _ => m) (gradEv twoSided twoSidedGrad) ⟨iMax, e1, e2, 1, k⟩ (ffuel + 2) () = some (.done r ()) ∧
      (∀ ω, ∃ q, MonteCarlo.run ⟨1, 1⟩ (fun _ => m) (gradEv twoSided twoSidedGrad) opt none ω pos fuel () = some (.ok q) ∧
        q.Pf = crude ω) ∧
      (∀ ω, ∃ q, MonteCarlo.run ⟨1, 1⟩ (fun _ => m) (gradEv twoSided twoSidedGrad) opt (some r.point.u) ω pos fuel () =
        some (.ok q) ∧ q.Pf = importance ω) ∧
      ∫ ω, crude ω ∂stream = ∫ ω, importance ω ∂stream ∧
      16000 * Var[crude; stream] < Var[importance; stream] := by
  obtain ⟨r, hr, -, -, -, hpar, hbeta, -⟩ := C99_local hm hi he1 he1' he2 ffuel k
  obtain ⟨-, -, -, hal1, -⟩ := C29_identities hr
  have hev : Values (gradEv twoSided twoSidedGrad) (fun _ => True) twoSided := fun s xs _ => ⟨s, rfl, trivial⟩
  have hdot : r.point.u ⬝ᵥ r.point.u = 9 := by
    rw [Fin.sum_univ_one] at hal1
    simp only [dotProduct, Fin.sum_univ_one, hpar, hbeta]
    nlinarith
  have hlt : ∀ x : Fin 1 → ℝ, (3 < x 0 ∨ x 0 < -1) → twoSided x < 0 := by
    intro x hx
    have hq : 0 < 1 - x 0 + x 0 ^ 2 := by nlinarith [sq_nonneg (x 0 - 1 / 2)]
    unfold twoSided
    refine mul_neg_of_neg_of_pos ?_ hq
    rcases hx with h | h <;> nlinarith
  have hmeas : Measurable twoSided := by unfold twoSided; fun_prop
  have hA : MeasurableSet {u : Fin 1 → ℝ | twoSided (uToX ⟨1, 1⟩ (fun _ => m) u) < 0} := by
    simp only [std_uToX hm]
    exact measurableSet_lt hmeas measurable_const
  have hs0 : 0 < opt.stdv := by rw [hst]; exact one_pos
  have hs2 : 1 / 2 < opt.stdv ^ 2 := by rw [hst]; norm_num
  have hN' : (0:ℝ) < opt.samples := by exact_mod_cast hN
  haveI : IsProbabilityMeasure (stdGauss 1) := by unfold stdGauss; infer_instance
  obtain ⟨C, c1, -, c3, -⟩ := C75_variance hev hA hg hb hN hs0 hs2 hcov none pos fuel hfu () trivial
  obtain ⟨C', c1', c4⟩ := C75_variance_unit hev hA hg hb hN hst hcov none pos fuel hfu () trivial
  obtain ⟨I, i1, -, i3, -⟩ := C75_variance hev hA hg hb hN hs0 hs2 hcov (some r.point.u) pos fuel hfu () trivial
  obtain ⟨I', i1', i4⟩ := C75_variance_unit hev hA hg hb hN hst hcov (some r.point.u) pos fuel hfu () trivial
  have hC : C' = C := by
    funext ω
    obtain ⟨q, h1, -, h2⟩ := c1 ω
    obtain ⟨q', h1', -, h2'⟩ := c1' ω
    rw [h1] at h1'; cases h1'
    rw [← h2, h2']
  have hI : I' = I := by
    funext ω
    obtain ⟨q, h1, -, h2⟩ := i1 ω
    obtain ⟨q', h1', -, h2'⟩ := i1' ω
    rw [h1] at h1'; cases h1'
    rw [← h2, h2']
  subst hC hI
  obtain ⟨p, hp⟩ : ∃ p, p = (stdGauss 1).real {u | twoSided (uToX ⟨1, 1⟩ (fun _ => m) u) < 0} := ⟨_, rfl⟩
  have hp0 : 0 ≤ p := hp ▸ measureReal_nonneg
  have hp1 : p ≤ 1 := hp ▸ measureReal_le_one
  have e0 : (fun _ : Fin 1 => (0:ℝ)) ⬝ᵥ (fun _ => 0) = 0 := by simp [dotProduct]
  have e1 : ∀ u : Fin 1 → ℝ, (u - fun _ => (0:ℝ)) = u := fun u => by funext i; simp
  simp only [Option.getD_none, e0, Real.exp_zero, one_mul, e1, ← hp] at c4
  simp only [Option.getD_some, hdot, ← hp] at i4
  have hhalf : 1 / 2 ≤ (stdGauss 1).real {u | twoSided (uToX ⟨1, 1⟩ (fun _ => m) (u - r.point.u)) < 0} := by
    simp only [std_uToX hm]
    rw [Fin.sum_univ_one] at hal1
    have hsg : r.alpha 0 = 1 ∨ r.alpha 0 = -1 := by
      have : (r.alpha 0 - 1) * (r.alpha 0 + 1) = 0 := by linarith
      rcases mul_eq_zero.1 this with h | h
      · left; linarith
      · right; linarith
    rcases hsg with h | h
    · have h1 := halfspace_lt (n := 1) (fun _ => 1) (by simp) 0
      simp only [zero_div, neg_zero, StdNormal.cdf_zero] at h1
      rw [← h1]
      refine measureReal_mono fun u hu => hlt _ (Or.inr ?_)
      simp only [mem_setOf_eq, Fin.sum_univ_one] at hu
      simp only [Pi.sub_apply, hpar, hbeta, h]
      linarith
    · have h1 := halfspace_lt (n := 1) (fun _ => -1) (by simp) 0
      simp only [zero_div, neg_zero, StdNormal.cdf_zero] at h1
      rw [← h1]
      refine measureReal_mono fun u hu => hlt _ (Or.inl ?_)
      simp only [mem_setOf_eq, Fin.sum_univ_one] at hu
      simp only [Pi.sub_apply, hpar, hbeta, h]
      linarith
  have hexp : 8010 < Real.exp 9 := by
    have h1 : Real.exp 9 = Real.exp 1 ^ 9 := by rw [← Real.exp_nat_mul]; norm_num
    rw [h1]
    calc (8010 : ℝ) < 2.718 ^ 9 := by norm_num
      _ ≤ Real.exp 1 ^ 9 := pow_le_pow_left₀ (by norm_num) (by linarith [Real.exp_one_gt_d9]) 9
  refine ⟨r, C', I', hr, fun ω => ?_, fun ω => ?_, c3.trans i3.symm, ?_⟩
  · obtain ⟨q, h1, -, h2⟩ := c1 ω; exact ⟨q, h1, h2⟩
  · obtain ⟨q, h1, -, h2⟩ := i1 ω; exact ⟨q, h1, h2⟩
  · rw [c4, i4, ← mul_div_assoc]
    refine div_lt_div_of_pos_right ?_ hN'
    have h1 : 8010 * (1 / 2) ≤ Real.exp 9 *
        (stdGauss 1).real {u | twoSided (uToX ⟨1, 1⟩ (fun _ => m) (u - r.point.u)) < 0} :=
      mul_le_mul hexp.le hhalf (by norm_num) (Real.exp_pos _).le
    nlinarith [sq_nonneg (p - 1 / 2)]

/-- A case of `C122_harm`. -/
example : ∃ (m : Marginal) (r : Form.Result 1) (crude importance : (ℕ → ℝ) → ℝ), Normal.new 0 (.fin 1) none = .ok m ∧
    runFrom ⟨1, 1⟩ (fun _ => m) (gradEv twoSided twoSidedGrad) ⟨100, 0.001, 0.001, 1, 1⟩ 100 () = some (.done r ()) ∧
    (∀ ω, ∃ q, MonteCarlo.run ⟨1, 1⟩ (fun _ => m) (gradEv twoSided twoSidedGrad) ⟨100000, 1000, 1, 0, 0⟩ none ω 0 100000 () =
      some (.ok q) ∧ q.Pf = crude ω) ∧
    (∀ ω, ∃ q, MonteCarlo.run ⟨1, 1⟩ (fun _ => m) (gradEv twoSided twoSidedGrad) ⟨100000, 1000, 1, 0, 0⟩ (some r.point.u) ω 0
      100000 () = some (.ok q) ∧ q.Pf = importance ω) ∧
    16000 * Var[crude; stream] < Var[importance; stream] := by
  obtain ⟨m, hm, -⟩ := C12_normal 0 (σ := 1) one_pos none
  obtain ⟨r, C, I, h1, h2, h3, -, h5⟩ := C122_harm hm (iMax := 100) (by norm_num) (e1 := 0.001) (e2 := 0.001) (by norm_num) (by norm_num)
    (by norm_num) 98 1 (opt := ⟨100000, 1000, 1, 0, 0⟩) rfl (by norm_num) (by norm_num) rfl le_rfl 0 100000 le_rfl
  exact ⟨m, r, C, I, hm, h1, h2, h3, h5⟩

/-- The run of `C99_convex`'s example. -/
theorem bowl_run {m : Marginal} (hm : Normal.new 0 (.fin 1) none = .ok m) : ∃ r : Form.Result 2,
    runFrom ⟨1, 1⟩ (fun _ => m) (gradEv bowl bowlGrad) ⟨100, 0.001, 0.001, 1, 1⟩ 100 () = some (.done r ()) ∧ r.beta = 3 ∧
    (∀ i, r.point.u i = r.beta * r.alpha i) ∧ bowl r.point.x = 0 ∧ r.i ≠ 100 := by
  have hg0 : bowlGrad 0 = ![-1, 0] := by funext i; fin_cases i <;> simp [bowlGrad]
  have hg3 : bowlGrad ![3, 0] = ![-1, 0] := by funext i; fin_cases i <;> simp [bowlGrad]
  have hn : norm2 ![(-1 : ℝ), 0] = 1 := by unfold norm2; rw [Fin.sum_univ_two]; simp
  have ha : alpha ![(-1 : ℝ), 0] = ![1, 0] := by funext i; fin_cases i <;> simp [alpha, hn]
  have hne : (![-1, 0] : Fin 2 → ℝ) ≠ 0 := fun h => by have := congrFun h 0; norm_num at this
  have hrun := two_steps hm (f := bowl) (grad := bowlGrad) (by simp [bowl]) (by rw [hg0]; exact hne) (u1 := ![3, 0])
    (fun i => by rw [hg0, hn, ha]; fin_cases i <;> simp [bowl]) (by simp [bowl]) (by rw [hg3]; exact hne) (b := 3)
    (by rw [hg3, ha]; simp) (fun i => by rw [hg3, ha]; fin_cases i <;> simp) (iMax := 100) (by norm_num)
    (e1 := 0.001) (e2 := 0.001) (by norm_num) (by norm_num) (by norm_num) 98 1
  refine ⟨_, hrun, rfl, fun i => ?_, by simp [bowl], by norm_num⟩
  change (![3, 0] : Fin 2 → ℝ) i = 3 * alpha (bowlGrad ![3, 0]) i
  rw [hg3, ha]; fin_cases i <;> simp

/-- A case of `C122_form`: the curved limit state `3 - x₀ + x₁²/4`; importance sampling at FORM's design point has at most `exp(-9/2)`
(about 1/90) of the variance of crude Monte Carlo. -/
example {la : LinAlg} (hla : LinAlgOK la) : ∃ (m : Marginal) (r : Form.Result 2) (crude importance : (ℕ → ℝ) → ℝ),
    Normal.new 0 (.fin 1) none = .ok m ∧
    runFrom ⟨1, 1⟩ (fun _ => m) (gradEv bowl bowlGrad) ⟨100, 0.001, 0.001, 1, 1⟩ 100 () = some (.done r ()) ∧
    (∀ ω, ∃ q, MonteCarlo.run ⟨1, 1⟩ (fun _ => m) (gradEv bowl bowlGrad) ⟨100000, 1000, 1, 0, 0⟩ none ω 0 100000 () =
      some (.ok q) ∧ q.Pf = crude ω) ∧
    (∀ ω, ∃ q, MonteCarlo.run ⟨1, 1⟩ (fun _ => m) (gradEv bowl bowlGrad) ⟨100000, 1000, 1, 0, 0⟩ (some r.point.u) ω 0
      100000 () = some (.ok q) ∧ q.Pf = importance ω) ∧
    Var[importance; stream] ≤ Real.exp (-(9 / 2)) * Var[crude; stream] := by
  obtain ⟨m, hm, -⟩ := C12_normal 0 (σ := 1) one_pos none
  obtain ⟨r, hr, hb, hpar, h0, hi⟩ := bowl_run hm
  have hconv : ConvexOn ℝ univ (fun u => bowl (uToX ⟨1, 1⟩ (fun _ => m) u)) := by
    simp only [std_uToX hm]
    refine ⟨convex_univ, fun x _ y _ a b ha hb hab => ?_⟩
    simp only [bowl, Pi.add_apply, Pi.smul_apply, smul_eq_mul]
    obtain rfl : b = 1 - a := by linarith
    nlinarith [mul_nonneg (mul_nonneg ha hb) (sq_nonneg (x 1 - y 1))]
  have hA : MeasurableSet {u : Fin 2 → ℝ | bowl (uToX ⟨1, 1⟩ (fun _ => m) u) < 0} := by
    simp only [std_uToX hm]
    exact measurableSet_lt (by unfold bowl; fun_prop) measurable_const
  have hd : ∀ x, HasFDerivAt bowl (gradMap (bowlGrad x)) x := by
    intro x
    have hp : ∀ i : Fin 2, HasFDerivAt (fun x : Fin 2 → ℝ => x i) (ContinuousLinearMap.proj (R := ℝ) (φ := fun _ : Fin 2 => ℝ) i) x :=
      fun i => (ContinuousLinearMap.proj (R := ℝ) (φ := fun _ : Fin 2 => ℝ) i).hasFDerivAt
    have h := ((hp 0).const_sub 3).add (((hp 1).pow 2).mul_const (4 : ℝ)⁻¹)
    refine h.congr_fderiv ?_
    ext v
    simp [gradMap_apply, bowlGrad]
    ring
  obtain ⟨C, I, h1, h2, -, -, h5⟩ := C122_form (t := ⟨1, 1⟩) (marg := fun _ => m) (S := fun _ => univ) (compute_one hla)
    (fun _ => (std_ok hm).1) (fun _ => isOpen_univ) (fun _ => (std_ok hm).2) (f := bowl) (grad := bowlGrad) (fun x _ => hd x) hconv hA
    (gradEv_exact bowl bowlGrad) (fun _ _ _ _ _ _ => trivial) (s := ()) trivial hr h0.ge (fun s xs _ => ⟨s, rfl, trivial⟩)
    (opt := ⟨100000, 1000, 1, 0, 0⟩) rfl (by norm_num) (by norm_num) rfl le_rfl 0 100000 le_rfl () trivial
  have h6 := (h5 (by rw [hb]; norm_num) hpar).1
  rw [hb] at h6
  norm_num at h6
  refine ⟨m, r, C, I, hm, hr, h1, h2, ?_⟩
  convert h6 using 3
  all_goals norm_num

/-- A case of `C122_affine`: `3 - x₀` of one standard normal variable. -/
example : ∃ (m : Marginal) (importance : (ℕ → ℝ) → ℝ), Normal.new 0 (.fin 1) none = .ok m ∧
    (∀ ω, ∃ q, MonteCarlo.run ⟨1, 1⟩ (fun _ => m) (gradEv (fun x : Fin 1 → ℝ => 3 - x 0) fun _ _ => -1) ⟨100000, 1000, 1, 0, 0⟩
      (some fun _ => 3) ω 0 100000 () = some (.ok q) ∧ q.Pf = importance ω) ∧
    Var[importance; stream] = (Real.exp 9 * StdNormal.cdf (-6) - StdNormal.cdf (-3) ^ 2) / 100000 := by
  obtain ⟨m, hm, -⟩ := C12_normal 0 (σ := 1) one_pos none
  obtain ⟨I, h1, h2⟩ := C122_affine (t := ⟨1, 1⟩) (marg := fun _ => m) (f := fun x : Fin 1 → ℝ => 3 - x 0)
    (ev := gradEv (fun x : Fin 1 → ℝ => 3 - x 0) fun _ _ => -1) (P := fun _ => True) (fun s xs _ => ⟨s, rfl, trivial⟩)
    (k := 1) (b := 3) one_pos (al := fun _ => 1) (by simp) (fun u => by rw [std_uToX hm]; simp)
    (opt := ⟨100000, 1000, 1, 0, 0⟩) rfl (by norm_num) (by norm_num) rfl le_rfl 0 100000 le_rfl () trivial
  refine ⟨m, I, hm, ?_, ?_⟩
  · simpa using h1
  · rw [h2]; norm_num

end Pystra.Props
