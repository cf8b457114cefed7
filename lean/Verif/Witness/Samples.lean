import Verif.Witness.Analyses
import Verif.Props.OneLaw
import Verif.Props.CompositeMonteCarlo
import Verif.Props.CdfDifferencesMore
import Verif.Props.LineSamplingRun
import Verif.Props.SormSmoothExample
import Verif.Props.FormConvergenceExample

/-! Concrete cases for theorems of C45, C73, C74, C86, C87, C93, C103 and C108 that have no example beside them. -/

namespace Pystra.Props
open MeasureTheory ProbabilityTheory Spec Matrix Set Transformation Form Distribution Mutable

/-- C45: line sampling runs the FORM analysis it is not given, here the one of `witness_form` with `g = 3 - x₀ - 2x₁`. -/
example {la : LinAlg} (hla : LinAlgOK la) (ω : ℕ → ℝ) : ∃ t marg s' res,
    Transformation.compute la .cholesky !![1, 1/2; 1/2, 1] = .ok t ∧
    LineSampling.run t marg (witnessEv 3) ⟨100, 0.001, 0.001, 1, 1⟩ none 50 ω 100 () = some (.ok (s', res)) ∧ res.nSamples = 50 ∧
      0 < res.Pf ∧ res.Pf < 1 := by
  obtain ⟨t, marg, ht, -, h⟩ := witness_form hla .cholesky
  obtain ⟨⟨r, hr, -⟩, -⟩ := h 3
  obtain ⟨s', res, h1, c, -, -, h2, -, h3, h4, -⟩ := (C45_whole (t := t) (marg := marg)
    (pointValues_of_values (gradEv_values (fun x => 3 + ∑ i, ![-1, -2] i * x i) (fun _ => ![-1, -2])))
    ⟨100, 0.001, 0.001, 1, 1⟩ none (N := 50) (by norm_num) ω 100 ()).1 r () (Or.inr ⟨rfl, hr⟩) trivial
  exact ⟨t, marg, s', res, ht, h1, h2, h3, h4⟩

/-- C73: three draws of one variable and five of another take consecutive numbers of the generator. -/
example (E : Mutable.Env) : ∃ m, view E (twoObjects E).objs 0 = some m ∧ ∃ xs ys, (sample E 3 (twoObjects E) 0).1 = some xs ∧
    (sample E 5 (sample E 3 (twoObjects E) 0).2 0).1 = some ys ∧ (∀ k (h : k < xs.length), xs[k] = m.ppf (E.υ k)) ∧
    ∀ k (h : k < ys.length), ys[k] = m.ppf (E.υ (3 + k)) := by
  obtain ⟨d, h1, -⟩ := normal_view E 0 1 0 [⟨.zeroInflated 0 0.5, some (0.5 * 0, √(0.5 * 1 ^ 2 + 0.5 * 0.5 * 0 ^ 2)), some (0.5 * 0)⟩]
  obtain ⟨xs, ys, h2, h3, h4, h5⟩ := C73_consecutive E (twoObjects E) 0 0 3 5 d d h1 h1
  refine ⟨d, h1, xs, ys, h2, h3, ?_, ?_⟩
  · intro k h; rw [h4 k h]; simp [twoObjects]
  · intro k h; rw [h5 k h]; simp [twoObjects]

/-- C73: the probability that two draws of a standard normal variable are both at most 0 is `Φ(0)²`. -/
example : ∃ m, Normal.new 0 (.fin 1) none = .ok m ∧ (Measure.pi fun _ : Fin 2 => unif) {p | ∀ k, m.ppf (p k) ≤ 0} =
    ENNReal.ofReal (StdNormal.cdf 0) ^ 2 := by
  obtain ⟨m, hm, -⟩ := witness_normal
  refine ⟨m, hm, (C73_normal 0 1 one_pos none m hm 2 fun _ => 0).trans ?_⟩
  simp

/-- C74: a normal and a log-normal variable with the correlation 1/2 in standard normal space. -/
theorem witness_nataf {la : LinAlg} (hla : LinAlgOK la) : ∃ marg : Fin 2 → Marginal, ∃ S : Fin 2 → Set ℝ,
    Normal.new 10 (.fin 2) none = .ok (marg 0) ∧ Lognormal.new 5 1 false none = .ok (marg 1) ∧
    (∀ ty, ∃ t, NatafSetting la ty !![1, 1/2; 1/2, 1] t marg S) ∧ ∀ ty, ∃ t, NatafSetting la ty 1 t marg S := by
  obtain ⟨a, ha, fa⟩ := faithful_of_good (good_normal 10 (σ := 2) (by norm_num) none) isOpen_univ (fun m h => ratio_normal _ _ _ _ m h)
  obtain ⟨b, hb, fb⟩ := faithful_of_good (good_lognormal (μ := 5) (σ := 1) (by norm_num) one_pos none) isOpen_Ioi
    (fun m h => ratio_lognormal _ _ _ _ _ m h)
  have hf : ∀ i : Fin 2, Faithful (![a, b] i) (![univ, Ioi 0] i) := by intro i; fin_cases i; exacts [fa, fb]
  refine ⟨![a, b], ![univ, Ioi 0], ha, hb, fun ty => ?_, fun ty => ?_⟩
  · obtain ⟨t, ht, -⟩ := C22_posdef hla ty witness_corr
    exact ⟨t, hla, witness_corr, by intro i; fin_cases i <;> rfl, ht, hf⟩
  · obtain ⟨t, ht, -⟩ := C22_posdef hla ty (Ro := (1 : Matrix (Fin 2) (Fin 2) ℝ)) PosDef.one
    exact ⟨t, hla, PosDef.one, by simp, ht, hf⟩

example {la : LinAlg} (hla : LinAlgOK la) : ∃ marg : Fin 2 → Marginal, ∃ t t' t1 : Mats 2, ∃ S : Fin 2 → Set ℝ,
    Normal.new 10 (.fin 2) none = .ok (marg 0) ∧ Lognormal.new 5 1 false none = .ok (marg 1) ∧
    Transformation.compute la .cholesky !![1, 1/2; 1/2, 1] = .ok t ∧ Transformation.compute la .svd !![1, 1/2; 1/2, 1] = .ok t' ∧
    ∫ u, uToX t marg u 1 ∂(stdGauss 2) = (marg 1).mean ∧
    (stdGauss 2).map (uToX t marg) = (stdGauss 2).map (uToX t' marg) ∧
    (∫ u, (uToX t marg u 0 - (marg 0).mean) / (marg 0).stdv * ((uToX t marg u 1 - (marg 1).mean) / (marg 1).stdv) ∂(stdGauss 2) =
      ∫ z1, ∫ z2, ((marg 0).uToX z1 - (marg 0).mean) / (marg 0).stdv * (((marg 1).uToX z2 - (marg 1).mean) / (marg 1).stdv) *
        Integration.phi2 z1 z2 (1 / 2)) ∧
    (stdGauss 2).map (uToX t1 marg) = Measure.pi fun i => densityLaw ((S i).indicator (marg i).pdf) := by
  obtain ⟨marg, S, h1, h2, h3, h4⟩ := witness_nataf hla
  obtain ⟨t, ht⟩ := h3 .cholesky
  obtain ⟨t', ht'⟩ := h3 .svd
  obtain ⟨t1, ht1⟩ := h4 .cholesky
  exact ⟨marg, t, t', t1, S, h1, h2, ht.mats, ht'.mats, (C74_moments ht 1).1, C74_type ht ht',
    C74_correlation ht (i := 0) (j := 1) (by decide), C74_independent ht1⟩

/-- C86, C87: a Gumbel variable given by its moments, a chi-squared variable with four degrees of freedom, and a beta variable. -/
example := C86_typeI fixedSolvers .gumbel (.inl rfl) false 10 (q := 2) (by norm_num) none
example := C86_chisquare fixedSolvers true 4 0 none (by simp [Reproducible])
example := C87_draws fixedSolvers .beta true 2 3 [] [("a", 0), ("b", 1)] (some 0.3)
  (by simp [Family.bind, Family.keywords, Family.bindAll, Dict.get?]) (by simp [Accepted, Family.arg, Dict.get?])

/-- C93: the parent whose largest of 50 is a given normal law, in a Monte Carlo analysis with a zero-inflated load. -/
example {fmin : Minimiser} (hf : Minimises fmin) {la : LinAlg} (hla : LinAlgOK la) (stats : ℝ × ℝ) :
    ∃ (mx parent wind : Marginal) (ν : Measure ℝ), Normal.new 10 (.fin 2) none = .ok mx ∧ MaxParent.new fmin stats mx 50 none = .ok parent ∧
      ZeroInflated.new parent (1 / 4) none = .ok wind ∧ largestOf 49 ν = gaussianReal 10 ((2:ℝ) ^ 2).toNNReal ∧
      ∃ Pf : (ℕ → ℝ) → ℝ,
        (∀ ω, ∃ r, MonteCarlo.run (n := 1) ⟨1, 1⟩ (fun _ => wind) (plainEv fun x => 12 - x 0) ⟨1000, 10, 1, 0, 0⟩ none ω 0 1000 () =
          some (.ok r) ∧ r.st.k = 1000 ∧ r.Pf = Pf ω) ∧
        Integrable Pf stream ∧ ∫ ω, Pf ω ∂stream = (Measure.pi fun _ : Fin 1 => zeroInflate ν (1 / 4)).real {x | 12 - x 0 < 0} := by
  obtain ⟨mx, hl⟩ : ∃ m, Normal.new 10 (.fin 2) none = .ok m := ⟨_, rfl⟩
  obtain ⟨parent, hx, -⟩ := (C17_ctor fmin stats mx 50 none).2 (by norm_num)
  obtain ⟨wind, hw⟩ := (C18_ctor parent (1 / 4) none).2 ⟨by norm_num, by norm_num⟩
  obtain ⟨dl, cl⟩ := C93_normal (by norm_num) hl
  obtain ⟨ν, hP, -, dν, -, -, hν⟩ := C93_maxParent hf dl cl hx
  obtain ⟨hQ, dw⟩ := C93_zeroInflated dν hw
  exact ⟨mx, parent, wind, ν, hl, hx, hw, hν 49 (by norm_num),
    C93_monte_carlo hla (compute_one hla) (marg := fun _ => wind) (μ := fun _ => zeroInflate ν (1 / 4)) (fun _ => dw)
      (plainEv_values fun x : Fin 1 → ℝ => 12 - x 0) (measurableSet_lt (by fun_prop) measurable_const) (opt := ⟨1000, 10, 1, 0, 0⟩)
      rfl (by norm_num) (by norm_num) one_pos le_rfl none 0 1000 le_rfl () trivial⟩

/-- C103: curvatures 1/4 and -1/3 at the distance 2. -/
example {la : LinAlg} (hla : LinAlgOK la) : ∃ (t : Mats 3) (marg : Fin 3 → Marginal) (f : (Fin 3 → ℝ) → ℝ)
    (grad : (Fin 3 → ℝ) → Fin 3 → ℝ) (δ ρ C : ℝ), 0 < δ ∧ ρ < 1 ∧
    ∀ x0, len (fun i => xToU t marg x0 i - 2 * (1 : Matrix (Fin 3) (Fin 3) ℝ) (Fin.last 2) i) ≤ δ →
      ConvergesFrom t marg (gradEv f grad) (fun _ => True) f (fun i => 2 * (1 : Matrix (Fin 3) (Fin 3) ℝ) (Fin.last 2) i) 2 x0 ρ C 0 := by
  obtain ⟨t, marg, f, grad, -, ht, h1, h2, h3, h4, h5⟩ := hlrf_setting hla .cholesky (1 : Matrix (Fin (2 + 1)) (Fin (2 + 1)) ℝ)
    ![1 / 4, -1 / 3] 1 2
  obtain ⟨δ, ρ, C, h6, -, h7, -, h8⟩ := C103_paraboloid ht h1 (fun _ => isOpen_univ) h2 h3 h4 (gradEv_exact f grad) (Q := 1) (by simp)
    (κ := ![1 / 4, -1 / 3]) (c := 1) (β := 2) (K := 1 / 3) one_pos h5 (by intro i; fin_cases i <;> simp [abs_of_neg] <;> norm_num [abs_le])
    (by norm_num) (by norm_num)
  exact ⟨t, marg, f, grad, δ, ρ, C, h6, h7, h8⟩

/-- C108: both curvatures 1, with the cubic term 1: at `h = 0.1` the fitted matrix has no real eigenvalue. -/
example {m : Marginal} (hm : Normal.new 0 (.fin 1) none = .ok m) :=
  C108_complex hm 1 (a := 1) (b := 2) one_ne_zero (by norm_num) (iMax := 100) (by norm_num) (e1 := 0.001) (e2 := 0.001) (by norm_num)
    (by norm_num) (by norm_num) 100 1 (para := 0.1) (by norm_num)

end Pystra.Props
