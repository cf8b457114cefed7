import Verif.Witness.Analyses
import Verif.Props.Systems
import Verif.Props.MonteCarloError
import Verif.Props.NarrowSampling

/-! Concrete cases for theorems of C75, C97, C101 and C106 that have no example beside them: the limit state `1 + x` of one
standard normal variable, of failure probability `Φ(-1)`. -/

namespace Pystra.Props
open MeasureTheory ProbabilityTheory Spec Matrix Transformation Form Filter Topology

theorem witness_half : ∃ m : Marginal, Normal.new 0 (.fin 1) none = .ok m ∧
    (∀ u : Fin 1 → ℝ, uToX (n := 1) ⟨1, 1⟩ (fun _ => m) u = u) ∧
    MeasurableSet {u : Fin 1 → ℝ | (fun x : Fin 1 → ℝ => 1 + x 0) (uToX (n := 1) ⟨1, 1⟩ (fun _ => m) u) < 0} ∧
    (stdGauss 1).real {u | (fun x : Fin 1 → ℝ => 1 + x 0) (uToX (n := 1) ⟨1, 1⟩ (fun _ => m) u) < 0} = StdNormal.cdf (-1) ∧
    volume {u : Fin 1 → ℝ | (fun x : Fin 1 → ℝ => 1 + x 0) (uToX (n := 1) ⟨1, 1⟩ (fun _ => m) u) < 0} = ⊤ := by
  obtain ⟨m, hm, hux, hA, hp⟩ := half_prob
  refine ⟨m, hm, hux, by simp only [hux]; exact hA, by simp only [hux, hp], ?_⟩
  have h := halfspace_volume (w := fun _ : Fin 1 => (-1:ℝ)) (fun h => by simpa using congrFun h 0) 1
  convert h using 2
  ext u
  simp only [hux, Set.mem_setOf_eq, dotProduct, Finset.univ_unique, Fin.default_eq_zero, Finset.sum_singleton]
  constructor <;> intro h <;> linarith

/-- C75: the standard error of 1000 crude samples, and the error bound at 0.05. -/
example : ∃ m : Marginal, Normal.new 0 (.fin 1) none = .ok m ∧
    (∃ Pf : (ℕ → ℝ) → ℝ, (∀ ω, ∃ r, MonteCarlo.run (n := 1) ⟨1, 1⟩ (fun _ => m) (plainEv fun x => 1 + x 0) ⟨1000, 10, 1, 0, 0⟩
        none ω 0 1000 () = some (.ok r) ∧ r.st.k = 1000 ∧ r.Pf = Pf ω) ∧
      Var[Pf; stream] = (StdNormal.cdf (-1) - StdNormal.cdf (-1) ^ 2) / 1000) ∧
    stream.real {ω | ∃ r, MonteCarlo.run (n := 1) ⟨1, 1⟩ (fun _ => m) (plainEv fun x => 1 + x 0) ⟨1000, 10, 1, 0, 0⟩
        none ω 0 1000 () = some (.ok r) ∧ (0.05 : ℝ) ≤ |r.Pf - StdNormal.cdf (-1)|} ≤
      StdNormal.cdf (-1) * (1 - StdNormal.cdf (-1)) / (1000 * 0.05 ^ 2) ∧
    stream.real {ω | ∃ r, MonteCarlo.run (n := 1) ⟨1, 1⟩ (fun _ => m) (plainEv fun x => 1 + x 0) ⟨1000, 10, 1, 0, 0⟩
        none ω 0 1000 () = some (.ok r) ∧ (0.05 : ℝ) ≤ |r.Pf - StdNormal.cdf (-1)|} ≤ 2 * Real.exp (-5) := by
  obtain ⟨m, hm, hux, hA, hp, -⟩ := witness_half
  refine ⟨m, hm, ?_, ?_, ?_⟩
  · obtain ⟨Pf, h1, h2⟩ := C75_variance_unit (t := ⟨1, 1⟩) (marg := fun _ => m) (opt := ⟨1000, 10, 1, 0, 0⟩)
      (plainEv_values fun x : Fin 1 → ℝ => 1 + x 0) hA rfl (by norm_num) (by norm_num) rfl le_rfl none 0 1000 le_rfl () trivial
    refine ⟨Pf, h1, h2.trans ?_⟩
    have e0 : ∀ u : Fin 1 → ℝ, u - (fun _ => (0:ℝ)) = u := fun u => by funext i; simp
    simp only [Option.getD_none, e0, hp, dotProduct, mul_zero, Finset.sum_const_zero, Real.exp_zero, one_mul]
    norm_num
  · have h := (C75_crude_error (t := ⟨1, 1⟩) (marg := fun _ => m) (opt := ⟨1000, 10, 1, 0, 0⟩)
      (plainEv_values fun x : Fin 1 → ℝ => 1 + x 0) hA rfl (by norm_num) (by norm_num) rfl le_rfl 0 1000 le_rfl () trivial
      (ε := 0.05) (by norm_num)).1
    simp only [hp] at h
    refine h.trans (le_of_eq ?_)
    norm_num
  · have h := C97_exponential (t := ⟨1, 1⟩) (marg := fun _ => m) (opt := ⟨1000, 10, 1, 0, 0⟩)
      (plainEv_values fun x : Fin 1 → ℝ => 1 + x 0) hA rfl (by norm_num) (by norm_num) rfl le_rfl 0 1000 le_rfl () trivial
      (ε := 0.05) (by norm_num)
    simp only [hp] at h
    refine h.trans (le_of_eq ?_)
    congr 2
    norm_num

/-- C97 and C106 on the same limit state: `√N` times the reported coefficient of variation tends to `√(p - p²)/p` with the
default sampling density, and to infinity with `stdv = 0.5`; the samples of a `DistributionAnalysis` are eventually below 0.3 with
frequency `Φ(-0.7)`. -/
example : ∃ m : Marginal, Normal.new 0 (.fin 1) none = .ok m ∧
    (∃ cv : (ℕ → ℝ) → ℕ → ℝ,
      (∀ ω N fuel, 1 ≤ N → N ≤ fuel → ∃ r, MonteCarlo.run (n := 1) ⟨1, 1⟩ (fun _ => m) (plainEv fun x => 1 + x 0) ⟨N, 10, 1, 0, 0⟩
        none ω 0 fuel () = some (.ok r) ∧ r.st.covQBar = cv ω N) ∧
      ∀ᵐ ω ∂stream, Tendsto (fun N : ℕ => √N * cv ω N) atTop
        (𝓝 (√(StdNormal.cdf (-1) - StdNormal.cdf (-1) ^ 2) / StdNormal.cdf (-1)))) ∧
    ∃ cv : (ℕ → ℝ) → ℕ → ℝ,
      (∀ ω N fuel, 1 ≤ N → N ≤ fuel → ∃ r, MonteCarlo.run (n := 1) ⟨1, 1⟩ (fun _ => m) (plainEv fun x => 1 + x 0) ⟨N, 10, 0.5, 0, 0⟩
        none ω 0 fuel () = some (.ok r) ∧ r.st.covQBar = cv ω N) ∧
      ∀ᵐ ω ∂stream, Tendsto (fun N : ℕ => √N * cv ω N) atTop atTop := by
  obtain ⟨m, hm, hux, hA, hp, hv⟩ := witness_half
  refine ⟨m, hm, ?_, ?_⟩
  · have h := C97_cov (t := ⟨1, 1⟩) (marg := fun _ => m) (plainEv_values fun x : Fin 1 → ℝ => 1 + x 0) hA 10 (by norm_num) 1 one_pos
      (by norm_num) 0 le_rfl none 0 () trivial
    have h2 := setIntegral_weight_unit (fun _ => 0) hA
    simp only [MonteCarlo.weight_eq one_pos] at h2
    have e0 : ∀ u : Fin 1 → ℝ, u - (fun _ => (0:ℝ)) = u := fun u => by funext i; simp
    simp only [Option.getD_none] at h
    rw [h2] at h
    simp only [e0, Set.setOf_mem_eq, hp, dotProduct, mul_zero, Finset.sum_const_zero, Real.exp_zero, one_mul] at h
    exact h (StdNormal.cdf_pos _) (by nlinarith [StdNormal.cdf_pos (-1), StdNormal.cdf_lt_one (-1)])
  · exact C106_cov (t := ⟨1, 1⟩) (marg := fun _ => m) (plainEv_values fun x : Fin 1 → ℝ => 1 + x 0) hA hv 10 (by norm_num) 0.5
      (by norm_num) 0 le_rfl none (Or.inl (by norm_num)) 0 () trivial

/-- C97: the empirical distributions of a `DistributionAnalysis`, at the point 0.3 and the set of negative values. -/
example : ∃ m : Marginal, Normal.new 0 (.fin 1) none = .ok m ∧
    ∃ X : (ℕ → ℝ) → ℕ → List (Fin 1 → ℝ), ∃ G : (ℕ → ℝ) → ℕ → List ℝ, ∀ᵐ ω ∂stream,
      Tendsto (fun N : ℕ => (((X ω N).countP (fun x => decide (x ∈ {x : Fin 1 → ℝ | x 0 < 0})) : ℕ) : ℝ) / N) atTop
          (𝓝 ((stdGauss 1).real {u | u 0 < 0})) ∧
        Tendsto (fun N : ℕ => (((G ω N).countP (fun g => decide (g ≤ (0.3:ℝ))) : ℕ) : ℝ) / N) atTop
          (𝓝 ((stdGauss 1).real {u | 1 + u 0 ≤ 0.3})) := by
  obtain ⟨m, hm, hux, -⟩ := witness_half
  obtain ⟨X, G, -, h⟩ := C97_distribution (t := ⟨1, 1⟩) (marg := fun _ => m) (plainEv_values fun x : Fin 1 → ℝ => 1 + x 0) 10 (by norm_num) 0 0 ()
    trivial (fun _ => {x : Fin 1 → ℝ | x 0 < 0}) (fun _ => by
      simp only [hux, Set.mem_setOf_eq]; exact measurableSet_lt (by fun_prop) measurable_const) (fun _ => 0.3) (fun _ => by
      simp only [hux]; exact measurableSet_le (by fun_prop) measurable_const)
  refine ⟨m, hm, X, G, ?_⟩
  filter_upwards [h] with ω hω
  have := hω 0
  simp only [hux, Set.mem_setOf_eq] at this ⊢
  exact this

/-- C97: 1000 lines on `2 + x₁² - x₀`. -/
example (ω0 : ℕ) : ∃ m : Marginal, Normal.new 0 (.fin 1) none = .ok m ∧
    (let p := (stdGauss 2).real {u | 2 + u 1 ^ 2 - u 0 ≤ 0}
     let V : (ℕ → ℝ) → ℕ → Fin 2 → ℝ := fun ω j i => lsDraw ω 2 1000 ω0 j i - (∑ k, ![1, 0] k * lsDraw ω 2 1000 ω0 j k) * ![1, 0] i
     Var[fun ω => (∑ j ∈ Finset.range 1000, StdNormal.cdf (-(2 + V ω j 1 ^ 2))) / (1000:ℕ); stream] ≤ p * (1 - p) / (1000:ℕ)) := by
  obtain ⟨m, hm⟩ : ∃ m, Normal.new 0 (.fin (1 : ℝ)) none = .ok m := ⟨_, rfl⟩
  have hu := (normal_ok hm).1
  have hux : ∀ u : Fin 2 → ℝ, uToX (n := 2) ⟨1, 1⟩ (fun _ => m) u = u := by
    intro u; funext i; simp [uToX, hu, Normal.uToX]
  refine ⟨m, hm, ?_⟩
  have h := C97_line_variance (t := ⟨1, 1⟩) (marg := fun _ => m) (f := fun x : Fin 2 → ℝ => 2 + x 1 ^ 2 - x 0)
    (by simp only [hux]; fun_prop) ![1, 0] (by rw [Fin.sum_univ_two]; simp) (fun v => 2 + v 1 ^ 2) (by
      intro v hv c
      rw [Fin.sum_univ_two] at hv
      simp at hv
      rw [hux]
      simp [hv]) (N := 1000) (by norm_num) ω0
  simp only [hux] at h
  exact h

/-- C101: two limit states, their series and their parallel system, on the same draws. -/
example (m : Marginal) (ω : ℕ → ℝ) :=
  C101_inclusion_exclusion (t := ⟨1, 1⟩) (marg := fun _ : Fin 2 => m) (plainEv_values fun x => 2 - x 0) (plainEv_values fun x => 3 - x 1)
    (plainEv_values fun x => min (2 - x 0) (3 - x 1)) (plainEv_values fun x => max (2 - x 0) (3 - x 1)) (opt := ⟨1000, 10, 2, 0, 0⟩) rfl
    (by norm_num) (by norm_num) (by norm_num) le_rfl (some ![2, 3]) ω 0 1000 le_rfl (s := ()) (s' := ()) (ss := ()) (sp := ()) trivial
    trivial trivial trivial

example (m : Marginal) (ω : ℕ → ℝ) :=
  C101_monotone (t := ⟨1, 1⟩) (marg := fun _ : Fin 2 => m) (plainEv_values fun x => 3 - x 0) (plainEv_values fun x => 2 - x 0)
    (fun x h => by linarith) (opt := ⟨1000, 10, 2, 0, 0⟩) rfl (by norm_num) (by norm_num) (by norm_num) le_rfl (some ![2, 3]) ω 0 1000
    le_rfl (s := ()) (s' := ()) trivial trivial

example (m : Marginal) (ω : ℕ → ℝ) :=
  C101_parallel (t := ⟨1, 1⟩) (marg := fun _ : Fin 2 => m) (ι := Fin 2) (ev := fun i => plainEv fun x => 2 - x i)
    (P := fun _ _ => True) (f := fun i x => 2 - x i) (fun i => plainEv_values _)
    (plainEv_values fun x => max (2 - x 0) (2 - x 1)) (fun x => by simp) (opt := ⟨1000, 10, 1, 0, 0⟩) rfl
    (by norm_num) (by norm_num) rfl le_rfl ω 0 1000 le_rfl (s := fun _ => ()) (sp := ()) (fun _ => trivial) trivial

end Pystra.Props
