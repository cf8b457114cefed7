import Verif.Props.ImportanceGain

/-! C122: the best centre of importance sampling for an affine limit state. -/

namespace Pystra.Props
open MeasureTheory Set Spec Matrix Transformation MonteCarlo Form
open ProbabilityTheory hiding cdf

variable {n : ℕ} {σ : Type}

/-- `x² + log Φ(-(b + x))`: logarithm of the second moment of a sampling density centred at distance `x` on the axis of the
half-space at distance `b`. -/
noncomputable def logMoment (b x : ℝ) : ℝ := x ^ 2 + Real.log (StdNormal.cdf (-(b + x)))

theorem exp_logMoment (b x : ℝ) : Real.exp (logMoment b x) = Real.exp (x ^ 2) * StdNormal.cdf (-(b + x)) := by
  unfold logMoment
  rw [Real.exp_add, Real.exp_log (StdNormal.cdf_pos _)]

theorem hasDerivAt_logMoment (b x : ℝ) : HasDerivAt (logMoment b) (2 * x - Sorm.psi (b + x)) x := by
  have h1 : HasDerivAt (fun x : ℝ => b + x) 1 x := (hasDerivAt_id x).const_add b
  have h2 := ((StdNormal.hasDerivAt_cdf_neg (b + x)).comp x h1).log (StdNormal.cdf_pos _).ne'
  have h3 := (hasDerivAt_pow 2 x).add h2
  refine h3.congr_deriv ?_
  simp only [Function.comp, Sorm.psi]
  norm_num
  ring

/-- The best distance lies strictly between `b` and `b + 1/(2b)`. -/
theorem logMoment_min {b : ℝ} (hb : 0 < b) : ∃ l, b < l ∧ l < b + 1 / (2 * b) ∧ (∀ x, logMoment b l ≤ logMoment b x) ∧
    logMoment b b ≤ 1 / (4 * b ^ 2) + logMoment b l := by
  have hcont : Continuous (logMoment b) := continuous_iff_continuousAt.2 fun x => (hasDerivAt_logMoment b x).continuousAt
  have hq : 0 < 1 / (2 * b) := by positivity
  -- decreasing up to `b`
  have hdec : StrictAntiOn (logMoment b) (Iic b) := strictAntiOn_of_deriv_neg (convex_Iic b) hcont.continuousOn fun x hx => by
    rw [interior_Iic] at hx
    rw [(hasDerivAt_logMoment b x).deriv]
    have := Pystra.lt_psi (b + x)
    linarith [mem_Iio.1 hx]
  have hlow : ∀ x, b ≤ x → x - b - 1 / (b + x) < 2 * x - Sorm.psi (b + x) := by
    intro x hx
    have := Pystra.psi_lt (x := b + x) (by linarith)
    linarith
  have hinv : ∀ x, b ≤ x → 1 / (b + x) ≤ 1 / (2 * b) := fun x hx => one_div_le_one_div_of_le (by linarith) (by linarith)
  have hinc : StrictMonoOn (logMoment b) (Ici (b + 1 / (2 * b))) :=
    strictMonoOn_of_deriv_pos (convex_Ici _) hcont.continuousOn fun x hx => by
      rw [interior_Ici] at hx
      rw [(hasDerivAt_logMoment b x).deriv]
      have hx' := mem_Ioi.1 hx
      have h1 := hlow x (by linarith)
      have h2 := hinv x (by linarith)
      linarith
  obtain ⟨l, hl, hmin⟩ := isCompact_Icc.exists_isMinOn (nonempty_Icc.2 (by linarith : b ≤ b + 1 / (2 * b))) hcont.continuousOn
  have hall : ∀ x, logMoment b l ≤ logMoment b x := by
    intro x
    rcases lt_or_ge x b with hx | hx
    · exact (hmin (left_mem_Icc.2 (by linarith))).trans (hdec (mem_Iic.2 hx.le) (mem_Iic.2 le_rfl) hx).le
    · rcases le_or_gt x (b + 1 / (2 * b)) with hx' | hx'
      · exact hmin ⟨hx, hx'⟩
      · exact (hmin (right_mem_Icc.2 (by linarith))).trans (hinc (mem_Ici.2 le_rfl) (mem_Ici.2 hx'.le) hx').le
  have hloc : IsLocalMin (logMoment b) l := Filter.Eventually.of_forall hall
  have hz := hloc.hasDerivAt_eq_zero (hasDerivAt_logMoment b l)
  have h1 : b < l := by
    have := Pystra.lt_psi (b + l)
    linarith
  have h2 : l < b + 1 / (2 * b) := by
    have h3 := hlow l h1.le
    have h4 : 1 / (b + l) ≤ 1 / (2 * b) := hinv l h1.le
    linarith
  refine ⟨l, h1, h2, hall, ?_⟩
  obtain ⟨ξ, hξ, he⟩ := exists_hasDerivAt_eq_slope (logMoment b) (fun x => 2 * x - Sorm.psi (b + x)) h1 hcont.continuousOn
    fun x _ => hasDerivAt_logMoment b x
  have h5 := hlow ξ hξ.1.le
  have h6 := hinv ξ hξ.1.le
  have hd : 0 < l - b := by linarith
  rw [eq_div_iff hd.ne'] at he
  have h7 : -(1 / (2 * b)) * (l - b) ≤ logMoment b l - logMoment b b := by
    rw [← he]
    exact mul_le_mul_of_nonneg_right (by linarith [hξ.1]) hd.le
  have h8 : 1 / (2 * b) * (l - b) ≤ 1 / (2 * b) * (1 / (2 * b)) := mul_le_mul_of_nonneg_left (by linarith) hq.le
  have h9 : 1 / (2 * b) * (1 / (2 * b)) = 1 / (4 * b ^ 2) := by field_simp; ring
  linarith

/-- C122, the best centre for an affine limit state with `β > 0`: it lies on the axis through the design point, strictly beyond it and
closer than `1/(2β)` to it; no centre whatever gives importance sampling a smaller variance; and the design point itself is nearly
best: its second moment is within a factor `exp(1/(4β²))` of the least. -/
theorem C122_optimal {t : Mats n} {marg : Fin n → Marginal} {ev : Evaluator σ n} {P : σ → Prop} {f : (Fin n → ℝ) → ℝ}
    (hev : Values ev P f) {k b : ℝ} (hk : 0 < k) (hb0 : 0 < b) {al : Fin n → ℝ} (hal : ∑ i, al i ^ 2 = 1)
    (hf : ∀ u, f (uToX t marg u) = k * (b - ∑ i, al i * u i)) {opt : MonteCarlo.Options}
    (hg : opt.randomGenerator = 0) (hb : 1 ≤ opt.blockSize) (hN : 1 ≤ opt.samples) (hst : opt.stdv = 1) (hcov : opt.cov ≤ 0)
    (pos fuel : ℕ) (hfu : opt.samples ≤ fuel) (s : σ) (hP : P s) :
    ∃ (importance : (Fin n → ℝ) → (ℕ → ℝ) → ℝ) (l : ℝ),
      (∀ c ω, ∃ q, MonteCarlo.run t marg ev opt (some c) ω pos fuel s = some (.ok q) ∧ q.Pf = importance c ω) ∧
      b < l ∧ l < b + 1 / (2 * b) ∧
      (∀ c, Var[importance (fun i => l * al i); stream] ≤ Var[importance c; stream]) ∧
      ∫ ω, importance (fun i => b * al i) ω ^ 2 ∂stream ≤
        (1 - 1 / opt.samples) * StdNormal.cdf (-b) ^ 2 + Real.exp (1 / (4 * b ^ 2)) *
          (∫ ω, importance (fun i => l * al i) ω ^ 2 ∂stream - (1 - 1 / opt.samples) * StdNormal.cdf (-b) ^ 2) := by
  have hs0 : 0 < opt.stdv := by rw [hst]; exact one_pos
  have hs2 : 1 / 2 < opt.stdv ^ 2 := by rw [hst]; norm_num
  have hN' : (0:ℝ) < opt.samples := by exact_mod_cast hN
  have hset : ∀ d : ℝ, (stdGauss n).real {u : Fin n → ℝ | d + ∑ i, -al i * u i < 0} = StdNormal.cdf (-d) := by
    intro d
    have h2 : ∑ i, (-al i) ^ 2 = 1 := by simp [hal]
    have h1 := halfspace_lt (n := n) (fun i => -al i) (by rw [h2]; exact one_pos) d
    rw [h2, Real.sqrt_one, div_one] at h1
    exact h1
  have hneg : ∀ u, f (uToX t marg u) < 0 ↔ b + ∑ i, -al i * u i < 0 := by
    intro u
    rw [hf]
    simp only [neg_mul, Finset.sum_neg_distrib]
    constructor
    · intro h
      by_contra h'
      have := mul_nonneg hk.le (show 0 ≤ b - ∑ i, al i * u i by linarith)
      linarith
    · intro h
      exact mul_neg_of_pos_of_neg hk (by linarith)
  have hA : MeasurableSet {u : Fin n → ℝ | f (uToX t marg u) < 0} := by
    simp only [hneg]
    exact measurableSet_lt (by fun_prop) measurable_const
  have key : ∀ c : Fin n → ℝ, ∃ I : (ℕ → ℝ) → ℝ,
      (∀ ω, ∃ q, MonteCarlo.run t marg ev opt (some c) ω pos fuel s = some (.ok q) ∧ q.Pf = I ω) ∧
      MemLp I 2 stream ∧ ∫ ω, I ω ∂stream = StdNormal.cdf (-b) ∧
      Var[I; stream] = (Real.exp (∑ i, c i ^ 2) * StdNormal.cdf (-(b + ∑ i, al i * c i)) - StdNormal.cdf (-b) ^ 2) / opt.samples := by
    intro c
    obtain ⟨I, i1, i2⟩ := C75_variance_unit hev hA hg hb hN hst hcov (some c) pos fuel hfu s hP
    obtain ⟨I', i1', i2', i3', -⟩ := C75_variance hev hA hg hb hN hs0 hs2 hcov (some c) pos fuel hfu s hP
    have hII : I' = I := by
      funext ω
      obtain ⟨q, h1, -, h2⟩ := i1 ω
      obtain ⟨q', h1', -, h2'⟩ := i1' ω
      rw [h1] at h1'; cases h1'
      rw [← h2, h2']
    subst hII
    refine ⟨I', fun ω => ?_, i2', ?_, i2.trans ?_⟩
    · obtain ⟨q, h1, -, h2⟩ := i1 ω; exact ⟨q, h1, h2⟩
    · rw [i3']; simp only [hneg, hset]
    · have e1 : c ⬝ᵥ c = ∑ i, c i ^ 2 := Finset.sum_congr rfl fun i _ => (sq _).symm
      have e2 : ∀ u : Fin n → ℝ, f (uToX t marg (u - c)) < 0 ↔ (b + ∑ i, al i * c i) + ∑ i, -al i * u i < 0 := by
        intro u
        rw [hneg]
        have : ∑ i, -al i * (u - c) i = ∑ i, -al i * u i + ∑ i, al i * c i := by
          rw [← Finset.sum_add_distrib]
          refine Finset.sum_congr rfl fun i _ => ?_
          simp only [Pi.sub_apply]
          ring
        rw [this]
        constructor <;> intro h <;> linarith
      simp only [Option.getD_some, e1, e2, hneg, hset]
  choose I h1 h2 h3 h4 using key
  obtain ⟨l, l1, l2, l3, l4⟩ := logMoment_min hb0
  have haxis : ∀ x : ℝ, Real.exp (∑ i, (x * al i) ^ 2) * StdNormal.cdf (-(b + ∑ i, al i * (x * al i))) =
      Real.exp (logMoment b x) := by
    intro x
    have e1 : ∑ i, (x * al i) ^ 2 = x ^ 2 := by simp only [mul_pow, ← Finset.mul_sum, hal, mul_one]
    have e2 : ∑ i, al i * (x * al i) = x := by
      have : ∑ i, al i * (x * al i) = x * ∑ i, al i ^ 2 := by
        rw [Finset.mul_sum]; exact Finset.sum_congr rfl fun i _ => by ring
      rw [this, hal, mul_one]
    rw [e1, e2, exp_logMoment]
  refine ⟨I, l, h1, l1, l2, fun c => ?_, ?_⟩
  · rw [h4, h4, haxis]
    refine div_le_div_of_nonneg_right (sub_le_sub_right ?_ _) hN'.le
    have hcs : (∑ i, al i * c i) ^ 2 ≤ ∑ i, c i ^ 2 := by
      have := Finset.sum_mul_sq_le_sq_mul_sq Finset.univ al c
      rwa [hal, one_mul] at this
    calc Real.exp (logMoment b l) ≤ Real.exp (logMoment b (∑ i, al i * c i)) := Real.exp_le_exp.2 (l3 _)
      _ = Real.exp ((∑ i, al i * c i) ^ 2) * StdNormal.cdf (-(b + ∑ i, al i * c i)) := exp_logMoment _ _
      _ ≤ _ := mul_le_mul_of_nonneg_right (Real.exp_le_exp.2 hcs) (StdNormal.cdf_pos _).le
  · have hm : ∀ x : ℝ, ∫ ω, I (fun i => x * al i) ω ^ 2 ∂stream =
        (1 - 1 / opt.samples) * StdNormal.cdf (-b) ^ 2 + Real.exp (logMoment b x) / opt.samples := by
      intro x
      haveI : IsProbabilityMeasure stream := by unfold stream; infer_instance
      have hv := variance_eq_sub (h2 fun i => x * al i)
      rw [h3, h4, haxis] at hv
      simp only [Pi.pow_apply] at hv
      have : ∫ ω, I (fun i => x * al i) ω ^ 2 ∂stream =
          (Real.exp (logMoment b x) - StdNormal.cdf (-b) ^ 2) / opt.samples + StdNormal.cdf (-b) ^ 2 := by linarith
      rw [this]
      field_simp
      ring
    rw [hm, hm]
    have h5 : Real.exp (logMoment b b) ≤ Real.exp (1 / (4 * b ^ 2)) * Real.exp (logMoment b l) := by
      rw [← Real.exp_add]; exact Real.exp_le_exp.2 l4
    have h6 := div_le_div_of_nonneg_right h5 hN'.le
    rw [mul_div_assoc] at h6
    linarith

/-- A case of `C122_optimal`: `3 - x₀` of one standard normal variable; the best centre lies between 3 and `3 + 1/6`. -/
example : ∃ (m : Marginal) (importance : (Fin 1 → ℝ) → (ℕ → ℝ) → ℝ) (l : ℝ), Normal.new 0 (.fin 1) none = .ok m ∧
    (∀ c ω, ∃ q, MonteCarlo.run ⟨1, 1⟩ (fun _ => m) (gradEv (fun x : Fin 1 → ℝ => 3 - x 0) fun _ _ => -1) ⟨100000, 1000, 1, 0, 0⟩
      (some c) ω 0 100000 () = some (.ok q) ∧ q.Pf = importance c ω) ∧
    3 < l ∧ l < 3 + 1 / 6 ∧ ∀ c, Var[importance (fun _ => l); stream] ≤ Var[importance c; stream] := by
  obtain ⟨m, hm, -⟩ := C12_normal 0 (σ := 1) one_pos none
  obtain ⟨I, l, h1, h2, h3, h4, -⟩ := C122_optimal (t := ⟨1, 1⟩) (marg := fun _ => m) (f := fun x : Fin 1 → ℝ => 3 - x 0)
    (ev := gradEv (fun x : Fin 1 → ℝ => 3 - x 0) fun _ _ => -1) (P := fun _ => True) (fun s xs _ => ⟨s, rfl, trivial⟩)
    (k := 1) (b := 3) one_pos (by norm_num) (al := fun _ => 1) (by simp) (fun u => by rw [std_uToX hm]; simp)
    (opt := ⟨100000, 1000, 1, 0, 0⟩) rfl (by norm_num) (by norm_num) rfl le_rfl 0 100000 le_rfl () trivial
  refine ⟨m, I, l, hm, h1, h2, by norm_num at h3 ⊢; linarith, ?_⟩
  simpa using h4

end Pystra.Props
