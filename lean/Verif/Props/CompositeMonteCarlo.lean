import Verif.Props.CompositeLaw
import Verif.Props.SensNormal
import Verif.Props.MonteCarloExample

/-! Property C93, continued: independent variables together, the Monte Carlo estimate, and the atom of a zero-inflated variable. -/

namespace Pystra.Props
open Real MeasureTheory Set Distribution ProbabilityTheory Spec Transformation Form MonteCarlo Matrix

variable {n : ℕ} {σ : Type}

/-- C93: a `Normal` variable describes (and draws from) the normal law. -/
theorem C93_normal {μ s : ℝ} (hs : 0 < s) {sp : Option ℝ} {m : Marginal} (hm : Normal.new μ (.fin s) sp = .ok m) :
    Describes m (gaussianReal μ (s ^ 2).toNNReal) ∧ Continuously m.cdf := by
  simp only [Normal.new, initMoments, updateMoments, Except.ok.injEq] at hm
  subst hm
  have hq : ∀ t, 0 < t → t < 1 → ∀ x, t ≤ Normal.cdf μ s x ↔ Normal.ppf μ s t ≤ x := by
    intro t h0 h1 x
    unfold Normal.cdf Normal.ppf
    conv_lhs => rw [← StdNormal.cdf_ppf h0 h1]
    rw [StdNormal.strictMono_cdf.le_iff_le, le_div_iff₀ hs]
    constructor <;> intro h <;> linarith
  have hu : ∀ u, Normal.uToX μ s u = Normal.ppf μ s (StdNormal.cdf u) := fun u => by
    unfold Normal.uToX Normal.ppf
    rw [StdNormal.ppf_cdf]; ring
  obtain ⟨ν, hP, hD⟩ := law_exists (m := ⟨μ, s, startPoint μ sp, Normal.pdf μ s, Normal.cdf μ s, Normal.ppf μ s, Normal.uToX μ s,
    Normal.xToU μ s, Normal.jac s⟩) (fun x => ⟨(StdNormal.cdf_pos _).le, (StdNormal.cdf_lt_one _).le⟩) hu hq
  have hlaw := (C93_describes hD).law
  have e : (gaussianReal 0 1).map (Normal.uToX μ s) = gaussianReal μ (s ^ 2).toNNReal := by
    have e1 : Normal.uToX μ s = (fun x => x + μ) ∘ (fun x => s * x) := by
      funext u; simp only [Normal.uToX, Function.comp]; ring
    rw [e1, ← Measure.map_map (measurable_add_const μ) (measurable_const_mul s), gaussianReal_map_const_mul,
      gaussianReal_map_add_const]
    congr 1
    · ring
    · ext; simp [sq_nonneg]
  have hν : ν = gaussianReal μ (s ^ 2).toNNReal := by rw [← hlaw]; exact e
  rw [← hν]
  refine ⟨hD, fun p h0 h1 => ⟨Normal.ppf μ s p, ?_⟩, fun x y _ _ he => ?_⟩
  · show StdNormal.cdf ((s * StdNormal.ppf p + μ - μ) / s) = p
    rw [add_sub_cancel_right, mul_div_cancel_left₀ _ hs.ne', StdNormal.cdf_ppf h0 h1]
  · have h := StdNormal.strictMono_cdf.injective (show StdNormal.cdf ((x - μ) / s) = StdNormal.cdf ((y - μ) / s) from he)
    have := (div_left_inj' hs.ne').1 h
    linarith

/-- C93: with no correlation (the identity matrix, either decomposition) the transformed point has independent components, each with the
law its own variable draws from. -/
theorem C93_independent {la : LinAlg} (hla : LinAlgOK la) {ty : TransformType} {t : Mats n}
    (ht : Transformation.compute la ty (1 : Matrix (Fin n) (Fin n) ℝ) = .ok t) {marg : Fin n → Marginal} {μ : Fin n → Measure ℝ}
    [∀ i, IsProbabilityMeasure (μ i)] (hm : ∀ i, Draws (marg i) (μ i)) :
    Measurable (uToX t marg) ∧ (stdGauss n).map (uToX t marg) = Measure.pi μ := by
  obtain ⟨t', ht', hf, -⟩ := C22_posdef hla ty (PosDef.one (n := Fin n) (R := ℝ))
  rw [ht] at ht'
  injection ht' with ht'
  subst ht'
  have hme : ∀ i, Measurable (marg i).uToX := fun i => (hm i).measurable
  refine ⟨?_, ?_⟩
  · have hd : Measurable (fun (z : Fin n → ℝ) i => (marg i).uToX (z i)) :=
      measurable_pi_iff.2 fun i => (hme i).comp (measurable_pi_apply i)
    exact hd.comp (Continuous.matrix_mulVec continuous_const continuous_id).measurable
  rw [map_uToX_congr (m' := ⟨1, 1⟩) hme (by rw [hf]; simp)]
  have e2 : uToX (⟨1, 1⟩ : Mats n) marg = fun u i => (marg i).uToX (u i) := by
    funext u i
    simp only [uToX, one_mulVec]
  rw [e2, stdGauss, Measure.pi_map_pi (fun i => (hme i).aemeasurable)]
  congr 1
  funext i
  exact (hm i).law

/-- **C93 (crude and importance-sampling Monte Carlo).**  With independent variables that draw from the laws `μ i` (standard, `Maximum`,
`MaxParent` or `ZeroInflated`), the expected reported failure probability is the probability that `g(x) < 0` for `x` with those laws. -/
theorem C93_monte_carlo {la : LinAlg} (hla : LinAlgOK la) {ty : TransformType} {t : Mats n}
    (ht : Transformation.compute la ty (1 : Matrix (Fin n) (Fin n) ℝ) = .ok t) {marg : Fin n → Marginal} {μ : Fin n → Measure ℝ}
    [∀ i, IsProbabilityMeasure (μ i)] (hm : ∀ i, Draws (marg i) (μ i))
    {ev : Evaluator σ n} {P : σ → Prop} {f : (Fin n → ℝ) → ℝ} (hev : Values ev P f) (hA : MeasurableSet {x : Fin n → ℝ | f x < 0})
    {opt : MonteCarlo.Options} (hg : opt.randomGenerator = 0) (hb : 1 ≤ opt.blockSize)
    (hN : 1 ≤ opt.samples) (hs : 0 < opt.stdv) (hcov : opt.cov ≤ 0) (point : Option (Fin n → ℝ))
    (pos fuel : ℕ) (hf : opt.samples ≤ fuel) (s : σ) (hP : P s) :
    ∃ Pf : (ℕ → ℝ) → ℝ,
      (∀ ω, ∃ r, MonteCarlo.run t marg ev opt point ω pos fuel s = some (.ok r) ∧ r.st.k = opt.samples ∧ r.Pf = Pf ω) ∧
      Integrable Pf stream ∧ ∫ ω, Pf ω ∂stream = (Measure.pi μ).real {x | f x < 0} := by
  obtain ⟨hmeas, hlaw⟩ := C93_independent hla ht hm
  obtain ⟨Pf, h1, h2, h3⟩ := C38_unbiased (t := t) (marg := marg) hev (hmeas hA) hg hb hN hs hcov point pos fuel hf s hP
  refine ⟨Pf, h1, h2, ?_⟩
  rw [h3, ← hlaw, measureReal_def, measureReal_def, Measure.map_apply hmeas hA]
  rfl

/-- C93 (finding): the atom of a zero-inflated variable.  Every point of standard normal space whose probability lies strictly inside the
jump is sent to `x = 0`, and `x_to_u` sends `x = 0` to the upper end of the jump, which is none of them: the round trip of C21 fails on the
whole interval. -/
theorem C93_atom {d : Marginal} {p : ℝ} {sp : Option ℝ} {m : Marginal} (hm : ZeroInflated.new d p sp = .ok m) (h0 : 0 ≤ d.cdf 0)
    (h1 : d.cdf 0 < 1) {u : ℝ} (hl : (1 - p) * d.cdf 0 < StdNormal.cdf u) (hr : StdNormal.cdf u < (1 - p) * d.cdf 0 + p) :
    m.uToX u = 0 ∧ m.xToU (m.uToX u) = StdNormal.ppf ((1 - p) * d.cdf 0 + p) ∧ u < m.xToU (m.uToX u) := by
  obtain ⟨hp0, hp1⟩ := (C18_ctor d p sp).1 ⟨m, hm⟩
  unfold ZeroInflated.new at hm
  rw [if_neg (not_lt.2 hp0), if_neg (not_le.2 hp1)] at hm
  injection hm with hm; subst hm
  have e0 : (ZeroInflated.obj d p (startPoint (ZeroInflated.stats d p).1 sp)).uToX u = 0 := by
    show ZeroInflated.ppf d p (StdNormal.cdf u) = 0
    unfold ZeroInflated.ppf
    simp only
    rw [if_neg (not_le.2 hr), if_pos ⟨hl, hr⟩]
  have e1 : (ZeroInflated.obj d p (startPoint (ZeroInflated.stats d p).1 sp)).xToU 0 = StdNormal.ppf ((1 - p) * d.cdf 0 + p) := by
    show StdNormal.ppf (ZeroInflated.cdf d p 0) = _
    unfold ZeroInflated.cdf ZeroInflated.zeroTol
    rw [if_pos (by norm_num), mul_comm]
  refine ⟨e0, by rw [e0, e1], ?_⟩
  have hlt : (1 - p) * d.cdf 0 + p < 1 := by nlinarith
  rw [e0, e1, ← StdNormal.strictMono_cdf.lt_iff_lt, StdNormal.cdf_ppf (by linarith [StdNormal.cdf_pos u]) hlt]
  exact hr

/-- C93 (concrete): a zero-inflated yearly maximum of normals, next to a normal variable. -/
example {fmin : Minimiser} (hf : Minimises fmin) {la : LinAlg} (hla : LinAlgOK la) (stats : ℝ × ℝ) :
    ∃ (load mx wind res : Marginal) (t : Mats 2), Normal.new 10 (.fin 2) none = .ok load ∧ Maximum.new fmin stats load 50 none = .ok mx ∧
      ZeroInflated.new mx (1 / 4) none = .ok wind ∧ Normal.new 30 (.fin 3) none = .ok res ∧
      Transformation.compute la .cholesky (1 : Matrix (Fin 2) (Fin 2) ℝ) = .ok t ∧
      (stdGauss 2).map (uToX t ![res, wind]) =
        Measure.pi ![gaussianReal 30 ((3:ℝ) ^ 2).toNNReal, zeroInflate (largestOf 49 (gaussianReal 10 ((2:ℝ) ^ 2).toNNReal)) (1 / 4)] := by
  obtain ⟨load, hl⟩ : ∃ m, Normal.new 10 (.fin 2) none = .ok m := ⟨_, rfl⟩
  obtain ⟨res, hr⟩ : ∃ m, Normal.new 30 (.fin 3) none = .ok m := ⟨_, rfl⟩
  obtain ⟨mx, hx⟩ : ∃ m, Maximum.new fmin stats load 50 none = .ok m := by
    unfold Maximum.new; rw [if_neg (by norm_num)]; exact ⟨_, rfl⟩
  obtain ⟨wind, hw⟩ := (C18_ctor mx (1 / 4) none).2 ⟨by norm_num, by norm_num⟩
  obtain ⟨dl, cl⟩ := C93_normal (by norm_num) hl
  obtain ⟨dr, -⟩ := C93_normal (by norm_num) hr
  obtain ⟨ν, hP, -, dν, -, -, hν⟩ := C93_maximum hf dl cl hx
  have e := hν 49 (by norm_num)
  subst e
  obtain ⟨hQ, dw⟩ := C93_zeroInflated dν hw
  haveI : ∀ i : Fin 2, IsProbabilityMeasure ((![gaussianReal 30 ((3:ℝ) ^ 2).toNNReal,
      zeroInflate (largestOf 49 (gaussianReal 10 ((2:ℝ) ^ 2).toNNReal)) (1 / 4)] : Fin 2 → Measure ℝ) i) := by
    intro i; fin_cases i
    · exact inferInstanceAs (IsProbabilityMeasure (gaussianReal 30 ((3:ℝ) ^ 2).toNNReal))
    · exact hQ
  refine ⟨load, mx, wind, res, ⟨1, 1⟩, hl, hx, hw, hr, compute_one hla, (C93_independent hla (compute_one hla) fun i => ?_).2⟩
  fin_cases i
  · exact C93_describes dr
  · exact dw

end Pystra.Props
