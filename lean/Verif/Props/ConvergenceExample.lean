import Verif.Props.ConvergenceLine

/-! The hypotheses of C97 are met. -/

namespace Pystra.Props
open MeasureTheory ProbabilityTheory Spec Matrix Transformation Form Filter Topology

/-- An evaluator of `f`. -/
def plainEv {n : ℕ} (f : (Fin n → ℝ) → ℝ) : Evaluator Unit n :=
  ⟨fun s _ => (s, .error .valueError), fun s xs => (s, .ok (xs.map f))⟩

theorem plainEv_values {n : ℕ} (f : (Fin n → ℝ) → ℝ) : Values (plainEv f) (fun _ => True) f := fun s _ _ => ⟨s, rfl, trivial⟩

theorem half_prob : ∃ m : Marginal, Normal.new 0 (.fin 1) none = .ok m ∧
    (∀ u : Fin 1 → ℝ, uToX (n := 1) ⟨1, 1⟩ (fun _ => m) u = u) ∧
    MeasurableSet {u : Fin 1 → ℝ | 1 + u 0 < 0} ∧ (stdGauss 1).real {u | 1 + u 0 < 0} = StdNormal.cdf (-1) := by
  obtain ⟨m, hm, hr⟩ := C12_normal 0 (σ := 1) one_pos none
  have hu : m.uToX = fun u => u := by
    injection hm with hm; subst hm
    funext u
    simp [Normal.uToX]
  refine ⟨m, hm, ?_, measurableSet_lt (by fun_prop) measurable_const, ?_⟩
  · intro u; funext i; simp [uToX, hu]
  · have h := halfspace_prob (n := 1) (fun _ => -1) (by simp) (-1)
    simp only [Finset.univ_unique, Fin.default_eq_zero, Finset.sum_singleton] at h
    have hm : MeasurableSet {u : Fin 1 → ℝ | -1 + -1 * u 0 ≤ 0} := measurableSet_le (by fun_prop) measurable_const
    have e : {u : Fin 1 → ℝ | 1 + u 0 < 0} = {u : Fin 1 → ℝ | -1 + -1 * u 0 ≤ 0}ᶜ := by
      ext u
      simp only [Set.mem_compl_iff, Set.mem_setOf_eq, not_le]
      constructor <;> intro h <;> linarith
    rw [e, probReal_compl_eq_one_sub hm, h, StdNormal.cdf_neg]
    congr 2
    norm_num

/-- Crude Monte Carlo on the limit state `1 + x` of one standard normal variable, in blocks of 10: it converges, also the
index, with the expected coefficient of variation; with a target of 0.05 it stops. -/
example : ∃ m : Marginal, Normal.new 0 (.fin 1) none = .ok m ∧
    (∀ᵐ ω ∂stream, ∀ ε > 0, ∃ c0 > 0, ∃ N0 : ℕ, ∀ (N fuel : ℕ) (cov : ℝ), N0 ≤ N → N ≤ fuel → cov ≤ c0 →
      ∃ r b, MonteCarlo.run (n := 1) ⟨1, 1⟩ (fun _ => m) (plainEv fun x => 1 + x 0) ⟨N, 10, 1, cov, 0⟩ none ω 0 fuel () =
        some (.ok r) ∧ r.beta = .fin b ∧ |b - 1| < ε) ∧
    (∀ᵐ ω ∂stream, ∃ K, ∀ N fuel, 1 ≤ N → N ≤ fuel →
      ∃ r, MonteCarlo.run (n := 1) ⟨1, 1⟩ (fun _ => m) (plainEv fun x => 1 + x 0) ⟨N, 10, 1, 0.05, 0⟩ none ω 0 fuel () =
        some (.ok r) ∧ r.st.k ≤ K) := by
  obtain ⟨m, hm, hux, hA, hp⟩ := half_prob
  have hA' : MeasurableSet {u : Fin 1 → ℝ | (fun x : Fin 1 → ℝ => 1 + x 0) (uToX (n := 1) ⟨1, 1⟩ (fun _ => m) u) < 0} := by
    simp only [hux]; exact hA
  refine ⟨m, hm, C97_beta (plainEv_values _) hA' 10 (by norm_num) 1 one_pos none 0 () trivial 1 ?_, ?_⟩
  · simp only [hux, hp]
  · have h := C97_stops (t := ⟨1, 1⟩) (marg := fun _ => m) (plainEv_values fun x : Fin 1 → ℝ => 1 + x 0) hA' 10 (by norm_num) 1 one_pos (by norm_num) 0.05 (by norm_num) none 0 () trivial
    simp only [hux, hp] at h
    refine h (StdNormal.cdf_pos _) ?_
    have h2 := setIntegral_weight_unit (fun _ => 0) hA
    simp only [MonteCarlo.weight_eq one_pos] at h2
    have e0 : ∀ u : Fin 1 → ℝ, u - (fun _ => 0) = u := fun u => by funext i; simp
    simp only [Option.getD_none]
    rw [h2]
    simp only [e0, Set.setOf_mem_eq, hp, dotProduct, mul_zero, Finset.sum_const_zero, Real.exp_zero, one_mul]
    nlinarith [StdNormal.cdf_pos (-1), StdNormal.cdf_lt_one (-1)]

/-- A limit state that always fails: every run with a target below 1 evaluates all its samples. -/
example (N : ℕ) (hN : 1 ≤ N) : ∃ m : Marginal, Normal.new 0 (.fin 1) none = .ok m ∧ ∀ᵐ ω ∂stream,
    ∃ r, MonteCarlo.run (n := 1) ⟨1, 1⟩ (fun _ => m) (plainEv fun _ => -1) ⟨N, 10, 1, 0.05, 0⟩ none ω 0 N () =
      some (.ok r) ∧ r.st.k = N := by
  obtain ⟨m, hm, -⟩ := half_prob
  refine ⟨m, hm, ?_⟩
  have h1 : {u : Fin 1 → ℝ | (fun _ : Fin 1 → ℝ => (-1:ℝ)) (uToX (n := 1) ⟨1, 1⟩ (fun _ => m) u) < 0} = Set.univ := by
    ext u; simp
  filter_upwards [C97_never (t := ⟨1, 1⟩) (marg := fun _ => m) (plainEv_values fun _ => (-1:ℝ)) (by rw [h1]; exact MeasurableSet.univ) 10 (by norm_num)
    1 one_pos 0.05 (by norm_num) none 0 () trivial (Or.inr ⟨by rw [h1]; exact probReal_univ, rfl, rfl⟩)] with ω h
  exact h N N hN le_rfl

/-- Line sampling on the curved limit state `2 + x₁² - x₀`: the error of the mean of 1000 lines exceeds 0.05 plus the error
of single lines with probability at most `2 exp(-5)`. -/
example : ∃ m : Marginal, Normal.new 0 (.fin 1) none = .ok m ∧
    stream.real {ω | ∃ s : Unit, True ∧ max (15 / 39 / √(2 * Real.pi)) (StdNormal.cdf (-15)) + 0.05 ≤
      |(LineSampling.sample (n := 2) ⟨1, 1⟩ (fun _ => m) (plainEv fun x => 2 + x 1 ^ 2 - x 0) ![1, 0] 2 1000 ω 0 s).2.Pf -
        (stdGauss 2).real {u | 2 + u 1 ^ 2 - u 0 ≤ 0}|} ≤ 2 * Real.exp (-5) := by
  obtain ⟨m, hm⟩ : ∃ m, Normal.new 0 (.fin (1 : ℝ)) none = .ok m := ⟨_, rfl⟩
  have hu := (normal_ok hm).1
  have hux : ∀ u : Fin 2 → ℝ, uToX (n := 2) ⟨1, 1⟩ (fun _ => m) u = u := by
    intro u; funext i; simp [uToX, hu, Normal.uToX]
  refine ⟨m, hm, ?_⟩
  obtain ⟨h, -⟩ := C97_line (t := ⟨1, 1⟩) (marg := fun _ => m) (ev := plainEv fun x : Fin 2 → ℝ => 2 + x 1 ^ 2 - x 0)
    (P := fun _ => True) (f := fun x : Fin 2 → ℝ => 2 + x 1 ^ 2 - x 0) (pointValues_of_values (plainEv_values _))
    (by simp only [hux]; fun_prop) ![1, 0] (by rw [Fin.sum_univ_two]; simp) (fun v => 2 + v 1 ^ 2) (by
      intro v hv c
      rw [Fin.sum_univ_two] at hv
      simp at hv
      rw [hux]
      simp [hv]) 2 0 _ (Or.inl rfl)
  have h1 := h 1000 (by norm_num) 0.05 (by norm_num)
  have h2 : max (|(2:ℝ)| * 3 + 5) 15 = 15 := by rw [abs_of_pos (by norm_num)]; norm_num
  simp only [hux, h2] at h1
  refine h1.trans (le_of_eq ?_)
  congr 2
  norm_num

end Pystra.Props
