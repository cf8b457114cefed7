import Verif.Props.StdNormal
import Verif.Props.Wrappers
import Verif.Props.CdfSens
import Verif.Props.Gev
import Verif.Props.Transformation
import Verif.Props.Correlation
import Verif.Props.Cholesky
import Verif.Props.Marginal
import Verif.Lemmas.Gauss

/-! Concrete cases for theorems of C12–C27 that have no example beside them. -/

namespace Pystra.Props
open MeasureTheory Set ProbabilityTheory Distribution Transformation Correlation

/-- A standard normal variable, as the constructor makes it. -/
theorem witness_normal : ∃ m, Normal.new 0 (.fin 1) none = .ok m ∧ m.cdf = StdNormal.cdf ∧ m.pdf = StdNormal.pdf ∧ m.mean = 0 ∧
    m.stdv = 1 ∧ Spec.RoundTrip m univ ∧ Spec.JacobianCorrect m univ := by
  obtain ⟨m, h, h1, h2, _, h3, h4, _⟩ := (good_normal 0 (σ := 1) one_pos none).ex
  refine ⟨m, h, ?_, ?_, h1, h2, h3, h4⟩
  · injection h with h; subst h; funext x; simp [Normal.cdf]
  · injection h with h; subst h; funext x; simp [Normal.pdf]

/-- Two standard normal variables with correlation 1/2. -/
theorem witness_corr : (!![1, (1/2 : ℝ); 1/2, 1] : Matrix (Fin 2) (Fin 2) ℝ).PosDef := by
  rw [Matrix.posDef_iff_dotProduct_mulVec]
  refine ⟨by ext i j; fin_cases i <;> fin_cases j <;> simp, fun {x} hx => ?_⟩
  have hx' : x 0 ≠ 0 ∨ x 1 ≠ 0 := by
    by_contra h
    push Not at h
    apply hx; funext i; fin_cases i
    · exact h.1
    · exact h.2
  simp [dotProduct, Matrix.mulVec, Fin.sum_univ_two]
  rcases hx' with h | h
  · nlinarith [sq_nonneg (x 0 + 2 * x 1), mul_self_pos.2 h]
  · nlinarith [sq_nonneg (2 * x 0 + x 1), mul_self_pos.2 h]

/-- The coordinates of a standard Gaussian vector have mean 0 and unit covariance. -/
theorem witness_gauss (n : ℕ) : (∀ i, Integrable (fun u : Fin n → ℝ => u i) (Spec.stdGauss n)) ∧
    (∀ i j, Integrable (fun u : Fin n → ℝ => u i * u j) (Spec.stdGauss n)) ∧ (∀ i, ∫ u, u i ∂(Spec.stdGauss n) = 0) ∧
    ∀ i j, ∫ u, u i * u j ∂(Spec.stdGauss n) = if i = j then 1 else 0 := by
  have hmp : ∀ i, MeasurePreserving (fun u : Fin n → ℝ => u i) (Spec.stdGauss n) (gaussianReal 0 1) := fun i =>
    measurePreserving_eval (fun _ : Fin n => gaussianReal 0 1) i
  have hL : ∀ i, MemLp (fun u : Fin n → ℝ => u i) 2 (Spec.stdGauss n) := fun i =>
    (memLp_id_gaussianReal 2).comp_measurePreserving (hmp i)
  have h0 : ∀ i, ∫ u, u i ∂(Spec.stdGauss n) = 0 := fun i => by
    have h := integral_map (φ := fun u : Fin n → ℝ => u i) (μ := Spec.stdGauss n) (f := fun x : ℝ => x) (hmp i).measurable.aemeasurable
      (by fun_prop)
    rw [← h, (hmp i).map_eq]
    simpa using integral_id_gaussianReal (μ := 0) (v := 1)
  refine ⟨fun i => (hL i).integrable (by norm_num), fun i j => (hL i).integrable_mul (hL j), h0, fun i j => ?_⟩
  split_ifs with h
  · subst h
    have h := integral_map (φ := fun u : Fin n → ℝ => u i) (μ := Spec.stdGauss n) (f := fun x : ℝ => x * x) (hmp i).measurable.aemeasurable
      (by fun_prop)
    rw [← h, (hmp i).map_eq]
    have := variance_id_gaussianReal (μ := 0) (v := 1)
    rw [variance_eq_integral (by fun_prop)] at this
    simpa [pow_two] using this
  · have hi : iIndepFun (fun (i : Fin n) (u : Fin n → ℝ) => u i) (Spec.stdGauss n) :=
      iIndepFun_pi (X := fun _ => id) (fun _ => aemeasurable_id)
    rw [(hi.indepFun h).integral_fun_mul_eq_mul_integral (hL i).1 (hL j).1, h0, zero_mul]

/-! C12, C13 in general: a standard normal law from scipy. -/

example : ∃ m, ScipyDist.new Frozen.norm none = .ok m ∧ Spec.RoundTrip m univ ∧
    HasDerivAt m.xToU (m.jac (m.xToU 1) 1) 1 := by
  obtain ⟨m, hm⟩ : ∃ m, ScipyDist.new Frozen.norm none = .ok m := by
    have h := (C15_frozen Frozen.norm none none none).1 Frozen.mom_norm.int2
    unfold ScipyDist.new ofFrozen
    rw [h]
    exact ⟨_, rfl⟩
  refine ⟨m, hm, C12_general _ univ none m hm ?_ ?_ ?_, (C13_general _ none m hm 1 ?_ ?_ ?_).1⟩
  · exact fun x _ => ⟨StdNormal.cdf_pos x, StdNormal.cdf_lt_one x⟩
  · exact StdNormal.strictMono_cdf.strictMonoOn _
  · exact fun p h0 h1 => ⟨trivial, StdNormal.cdf_ppf h0 h1⟩
  · exact StdNormal.cdf_pos 1
  · exact StdNormal.cdf_lt_one 1
  · exact StdNormal.hasDerivAt_cdf 1

/-! C16–C18: the standard normal and its copies. -/

/-- The cdf of `Maximum(N(0,1), 50)` is that of the largest of 50 independent standard normal variables. -/
example (fmin : Minimiser) : ∃ parent m, Normal.new 0 (.fin 1) none = .ok parent ∧
    Maximum.new fmin (0, 1) parent (50 : ℕ) none = .ok m ∧
    m.cdf 2 = (Measure.pi (fun _ : Fin 50 => gaussianReal 0 1)).real {v | ∀ i, v i ≤ 2} := by
  obtain ⟨parent, hp, hc, -⟩ := witness_normal
  obtain ⟨m, hm, -⟩ := (C16_ctor fmin (0, 1) parent (50 : ℕ) none).2 (by norm_num)
  exact ⟨parent, m, hp, hm, C16_max_of_copies fmin (0, 1) parent 50 none m hm _ (fun x => by rw [hc, C11_measure]) 2⟩

/-- `MaxParent(N(0,1), 50)`, and the maximum of 50 copies of it. -/
example (fmin : Minimiser) (hf : Spec.Minimises fmin) : ∃ mx m b, Normal.new 0 (.fin 1) none = .ok mx ∧
    MaxParent.new fmin (0, 1) mx 50 none = .ok m ∧ Spec.RoundTrip m univ ∧ Spec.JacobianCorrect m univ ∧
    Maximum.new fmin (0, 1) m 50 none = .ok b ∧ b.cdf 2 = StdNormal.cdf 2 ∧ b.pdf 2 = StdNormal.pdf 2 := by
  obtain ⟨mx, hp, hc, hd, -⟩ := witness_normal
  obtain ⟨m, hm, -⟩ := (C17_ctor fmin (0, 1) mx 50 none).2 (by norm_num)
  obtain ⟨b, hb, -⟩ := (C16_ctor fmin (0, 1) m 50 none).2 (by norm_num)
  obtain ⟨-, h1, h2⟩ := C17_inverse fmin hf (0, 1) mx 50 none m hm univ isOpen_univ
    (fun x _ => by rw [hc]; exact ⟨StdNormal.cdf_pos x, StdNormal.cdf_lt_one x⟩) (by rw [hc]; exact StdNormal.strictMono_cdf.strictMonoOn _)
    (by simp) (fun p h0 h1 => ⟨_, by rw [hc]; exact StdNormal.cdf_ppf h0 h1⟩)
    (fun x _ => by rw [hc, hd]; exact StdNormal.hasDerivAt_cdf x)
  obtain ⟨h3, h4⟩ := (C17_undo fmin (0, 1) (0, 1) mx 50 none none m b).1 hm hb 2 (by rw [hc]; exact (StdNormal.cdf_pos 2).le)
  exact ⟨mx, m, b, hp, hm, h1, h2, hb, by rw [h3, hc], by rw [h4 (by rw [hc]; exact StdNormal.cdf_pos 2), hd]⟩

/-- A standard normal load that is absent with probability 1/4. -/
example : ∃ d m, Normal.new 0 (.fin 1) none = .ok d ∧ ZeroInflated.new d (1/4) none = .ok m ∧
    ∫ x, x ∂(Spec.zeroInflate (gaussianReal 0 1) (1/4)) = m.mean ∧
    √(∫ x, (x - m.mean) ^ 2 ∂(Spec.zeroInflate (gaussianReal 0 1) (1/4))) = m.stdv ∧
    ∫ x, m.pdf x ≠ 1 ∧ 1 < (ZeroInflated.setZeroProbability m d 2).cdf 1 := by
  obtain ⟨d, hp, hc, hd, h1, h2, -⟩ := witness_normal
  obtain ⟨m, hm⟩ : ∃ m, ZeroInflated.new d (1/4) none = .ok m := (C18_ctor d (1/4) none).2 (by norm_num)
  have h3 := C18_moments d (1/4) none m hm (gaussianReal 0 1) (memLp_id_gaussianReal 1 |>.integrable (by norm_num))
    ((memLp_id_gaussianReal 2).integrable_sq) (by rw [h1]; simpa using integral_id_gaussianReal (μ := 0) (v := 1)) (by
      rw [h1, h2]
      have := variance_id_gaussianReal (μ := 0) (v := 1)
      rw [variance_eq_integral (by fun_prop)] at this
      simpa using this)
  refine ⟨d, m, hp, hm, h3.1, h3.2, (C18_pdf_not_density d (1/4) none m hm ?_ ?_).2 (by norm_num),
    C18_set_unchecked m d 1 one_pos.le (by rw [hc]; exact StdNormal.cdf_lt_one 1)⟩
  · rw [hd]; exact StdNormal.integrable_pdf
  · rw [hd]; exact StdNormal.integral_pdf

/-! C19, C20. -/

example := C19_normal (σ := 2) 10 (by norm_num) none 12
example := C19_shiftedLognormal_zero (μ := 10) (σ := 2) (x := 9) (by norm_num) (by norm_num) none (by norm_num)
example := C20_rejects 10 2 (3 / 4) (by norm_num) false none
example := C20_min_mean_wrong (σ := 2) 10 (by norm_num) none
example := C20_min_ppf (σ := 2) (s := -(1 / 10)) 10 (by norm_num) (by norm_num) (.inr (by norm_num)) none
example := C20_min_density (σ := 2) (s := 1 / 5) 10 (by norm_num) (by norm_num) (.inr (by norm_num [abs_of_pos])) none

/-! C21–C26: two correlated standard normal variables. -/

example : ∃ (la : LinAlg) (m : Mats 2) (d : Marginal), Spec.LinAlgOK la ∧ compute la .cholesky !![1, 1/2; 1/2, 1] = .ok m ∧
    (∀ u, xToU m (fun _ => d) (uToX m (fun _ => d) u) = u) ∧
    ∀ i j, ∫ ω, (m.invT.mulVec ω) i * (m.invT.mulVec ω) j ∂(Spec.stdGauss 2) = (!![1, 1/2; 1/2, 1] : Matrix (Fin 2) (Fin 2) ℝ) i j := by
  obtain ⟨la, hla⟩ := linAlgOK_exists
  obtain ⟨d, -, -, -, -, -, hrt, -⟩ := witness_normal
  obtain ⟨m, hm, -, h2, -⟩ := C21_posdef hla .cholesky witness_corr (fun _ => d) (fun _ => univ) (fun _ => hrt)
  exact ⟨la, m, d, hla, hm, h2, (C22_covariance hla .cholesky witness_corr hm (Spec.stdGauss 2) (fun ω => ω) (witness_gauss 2).1
    (witness_gauss 2).2.1 (witness_gauss 2).2.2.1 (witness_gauss 2).2.2.2).2⟩

/-- An analysis object keeps the transformation chosen when it was created. -/
example := C24_frozen (Analysis.run Analysis.init [.newAnalysis, .setTransform (some "svd")]) [.newAnalysis, .setTransform none]

/-- Only the lower triangle is read. -/
example (fmin : Fmin) (marg : ℕ → Marginal) : computeSquare fmin 2 marg !![1, 0.9; 0.4, 1] = computeSquare fmin 2 marg !![1, 0.4; 0.4, 1] :=
  C25_lower_only fmin marg _ _ (by intro i j h; fin_cases i <;> fin_cases j <;> simp at h ⊢)

/-- A minimiser that returns the given value is never worse than the start. -/
example (m0 m1 : Marginal) : ∃ Ro, computeSquare (fun _ x => x) 2 (fun i => if i = 0 then m0 else m1) !![1, 0.3; 0.4, 1] = .ok Ro ∧
    |Integration.rhoIntegral (Ro 1 0) m1 m0 (gridOf 0.4 m1 m0) - 0.4| ≤ |Integration.rhoIntegral 0.4 m1 m0 (gridOf 0.4 m1 m0) - 0.4| := by
  obtain ⟨Ro, h1, -⟩ := C25_entries (fun _ x => x) (fun i => if i = 0 then m0 else m1) !![1, 0.3; 0.4, (1:ℝ)]
  refine ⟨Ro, h1, ?_⟩
  simpa using (C25_reproduces _ _ _ _ h1 1 0 (by decide) (by norm_num)).1 (fun f x => le_refl _)

example (fmin : Fmin) (marg : ℕ → Marginal) := C25_too_many fmin marg (!![1, 0.3; 0.3, (1:ℝ)]) 3 (by norm_num) (by norm_num)

end Pystra.Props
