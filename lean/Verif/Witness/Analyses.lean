import Verif.Witness.Laws
import Verif.Props.Form
import Verif.Props.FormTransform
import Verif.Props.FormDistanceExample
import Verif.Props.ConvergenceExample
import Verif.Props.MonteCarlo
import Verif.Props.Subset
import Verif.Props.SormFormula

/-! Concrete cases for theorems of C28–C46 that have no example beside them. -/

namespace Pystra.Props
open Matrix Spec Transformation Form MeasureTheory

/-! FORM: two correlated standard normal variables with `g = c - x₀ - 2 x₁`; for `c = 0` it is 0 at the means. -/

/-- The evaluator of `c - x₀ - 2 x₁`. -/
noncomputable def witnessEv (c : ℝ) : Evaluator Unit 2 := gradEv (fun x => c + ∑ i, ![-1, -2] i * x i) (fun _ => ![-1, -2])

theorem witness_form {la : LinAlg} (hla : LinAlgOK la) (ty : TransformType) : ∃ t marg,
    Transformation.compute la ty !![1, 1/2; 1/2, 1] = .ok t ∧ (∀ i : Fin 2, Normal.new 0 (.fin 1) none = .ok (marg i)) ∧
    ∀ c, (∃ r, runFrom t marg (witnessEv c) ⟨100, 0.001, 0.001, 1, 1⟩ 100 () = some (.done r ()) ∧ r.i = if c = 0 then 100 else 2) ∧
      ∃ p, linearise t marg (witnessEv c) (startingPoint t marg) () = ((), .ok p) ∧ p.G = c := by
  obtain ⟨t, ht, -, h1, h2⟩ := C22_posdef hla ty witness_corr
  have hm : ∀ i : Fin 2, ∃ m, Normal.new 0 (.fin (1 : ℝ)) none = .ok m := fun i => ⟨_, rfl⟩
  choose marg hmarg using hm
  refine ⟨t, marg, ht, hmarg, fun c => ⟨?_, ?_⟩⟩
  · obtain ⟨r, s', h1, -, -, -, -, h6, -⟩ := C30_exact hla witness_corr ht (μ := fun _ => 0) (sd := fun _ => 1) (sp := fun _ => none)
      (fun _ => one_pos) hmarg c ![-1, -2] (by intro h; simpa using congrFun h 0)
      (ev := witnessEv c) (P := fun _ => True) (gradEv_exact _ _)
      ⟨100, 0.001, 0.001, 1, 1⟩ rfl (by norm_num) (by norm_num) (by norm_num) (by norm_num) () trivial 100 le_rfl
    refine ⟨r, h1, ?_⟩
    rw [h6]
    simp
  · obtain ⟨s', p, h3, -, -, -, -, h4⟩ := normal_linearise (t := t) (sp := fun _ => none) (μ := fun _ => 0) (sd := fun _ => 1) hmarg
      (fun _ => one_pos) h1 h2 c ![-1, -2] (ev := witnessEv c) (P := fun _ => True) (gradEv_exact _ _) (startingPoint t marg) () trivial
    refine ⟨p, h3, ?_⟩
    have hs : startingPoint t marg = 0 := by
      unfold startingPoint xToU
      rw [show (fun i => (marg i).xToU ((fun i => (marg i).startpoint) i)) = 0 from ?_, mulVec_zero]
      funext i
      obtain ⟨-, -, e1, -, -, e2⟩ := normal_ok (hmarg i)
      simp [e1, e2, Normal.xToU]
    rw [h4, hs]
    simp

/-- C28: the run stops in pass 2, hence not in pass 1. -/
example {la : LinAlg} (hla : LinAlgOK la) : ∃ t marg r, runFrom t marg (witnessEv 7) ⟨100, 0.001, 0.001, 1, 1⟩ 100 () = some (.done r ()) ∧
    ∃ Gj uj sj s1 p, Reaches t marg (witnessEv 7) ⟨100, 0.001, 0.001, 1, 1⟩ (startingPoint t marg) () 1 Gj uj sj ∧
      linearise t marg (witnessEv 7) uj sj = (s1, .ok p) ∧ ¬ Converged 0.001 0.001 p.G r.Go uj p.gradient := by
  obtain ⟨t, marg, -, -, h⟩ := witness_form hla .cholesky
  obtain ⟨⟨r, h1, h2⟩, -⟩ := h 7
  rw [if_neg (by norm_num)] at h2
  exact ⟨t, marg, r, h1, (C28_not_late h1 1 le_rfl (by rw [h2]; norm_num)).2⟩

/-- C28: started on the surface (here the means), FORM uses all its passes. -/
example {la : LinAlg} (hla : LinAlgOK la) : ∃ t marg, ∃ r : Result 2,
    runFrom t marg (witnessEv 0) ⟨100, 0.001, 0.001, 1, 1⟩ 100 () = some (.done r ()) ∧ r.i = 100 := by
  obtain ⟨t, marg, ht, hm, h⟩ := witness_form hla .cholesky
  obtain ⟨⟨r, h1, -⟩, p, h3, h4⟩ := h 0
  exact ⟨t, marg, r, h1, C28_start_on_surface h1 h3 h4⟩

/-- C28: with `i_max = 0` and a limit state of which no point meets the tolerances 0, FORM does not end. -/
example {la : LinAlg} (hla : LinAlgOK la) : ∃ t marg, ∀ fuel, runFrom t marg (witnessEv 7) ⟨0, 0, 0, 1, 1⟩ fuel () = none := by
  obtain ⟨t, ht, -, h1, h2⟩ := C22_posdef hla .cholesky witness_corr
  have hm : ∀ i : Fin 2, ∃ m, Normal.new 0 (.fin (1 : ℝ)) none = .ok m := fun i => ⟨_, rfl⟩
  choose marg hmarg using hm
  refine ⟨t, marg, (C28_imax_zero t marg (witnessEv 7) ⟨0, 0, 0, 1, 1⟩ rfl ?_ ()).2 (by norm_num) fun u s => ?_⟩
  · intro G Go u g h
    have h1 := h.2.1
    simp only [zero_mul] at h1
    exact absurd h1 (abs_nonneg G).not_gt
  · obtain ⟨s', p, h3, -, -, -, h5, -⟩ := normal_linearise (t := t) (sp := fun _ => none) (μ := fun _ => 0) (sd := fun _ => 1) hmarg
      (fun _ => one_pos) h1 h2 7 ![-1, -2] (ev := witnessEv 7) (P := fun _ => True) (gradEv_exact _ _) u s trivial
    refine ⟨s', p, h3, fun h0 => ?_⟩
    rw [h5] at h0
    have := congrArg (fun v => vecMul v t.T) h0
    simp only [vecMul_vecMul, h2, vecMul_one, zero_vecMul] at this
    simpa using congrFun this 0

/-- C31: the six trial steps of the line search, for a limit state `3 - u` of one standard normal variable at `u = 0`. -/
example {m : Marginal} (hm : Normal.new 0 (.fin 1) none = .ok m) :=
  C31_armijo (n := 1) ⟨1, 1⟩ (fun _ => m) (gradEv (fun x => 3 - x 0) (fun _ => ![-1])) ⟨100, 0.001, 0.001, 0, 1⟩ rfl rfl 3 ![-1] ![0] ![3] ()
    () _ rfl

/-- C32: the tangent plane `3 - u₀ - 2 u₁ = 0` seen from `(1, 0)`; its nearest point. -/
example := C32_closest_point 2 (g := ![-1, -2]) (by intro h; simpa using congrFun h 0) ![1, 0]

/-- C32: `f = 3 - u₀ - 2 u₁` at `(1, 0)`; every penalty above `1/√5` gives descent. -/
example : ∃ δ > 0, ∀ s : ℝ, 0 < s → s < δ →
    len (fun i => ![(1 : ℝ), 0] i + s * direction 2 ![-1, -2] (alpha ![-1, -2]) ![1, 0] i) ^ 2 / 2 +
        1 * |3 + ∑ k, ![(-1 : ℝ), -2] k * (![(1 : ℝ), 0] k + s * direction 2 ![-1, -2] (alpha ![-1, -2]) ![1, 0] k)| <
      len ![(1 : ℝ), 0] ^ 2 / 2 + 1 * |2| := by
  have hg : (![-1, -2] : Fin 2 → ℝ) ≠ 0 := by intro h; simpa using congrFun h 0
  have e : (3 : ℝ) + ∑ k, ![(-1 : ℝ), -2] k * ![(1 : ℝ), 0] k = 2 := by simp [Fin.sum_univ_two]; norm_num
  have h := C32_descent (fun v : Fin 2 → ℝ => 3 + ∑ k, ![(-1 : ℝ), -2] k * v k) ![1, 0] ![-1, -2] hg (by
    have := (gradMap ![(-1 : ℝ), -2]).hasFDerivAt (x := ![1, 0])
    refine (this.const_add 3).congr_of_eventuallyEq (Filter.Eventually.of_forall fun v => ?_)
    simp [gradMap_apply]) (c := 1) (by
      rw [div_lt_one (len_pos hg)]
      unfold len
      exact Real.sqrt_lt_sqrt (by simp [Fin.sum_univ_two]) (by simp [Fin.sum_univ_two]))
  rw [e] at h
  refine h fun h0 => ?_
  obtain ⟨h1, -⟩ := (C32_zero_iff 2 hg ![1, 0]).1 (fun i => congrFun h0 i)
  norm_num at h1

/-- C33. -/
example {la : LinAlg} (hla : LinAlgOK la) : ∃ t1 t2 marg, Transformation.compute la .cholesky !![1, 1/2; 1/2, 1] = .ok t1 ∧
    Transformation.compute la .svd !![1, 1/2; 1/2, 1] = .ok t2 ∧ ∃ Q : Matrix (Fin 2) (Fin 2) ℝ, Q * Qᵀ = 1 ∧
      SameUpTo Q (runFrom t1 marg (witnessEv 7) ⟨100, 0.001, 0.001, 1, 1⟩ 100 ()) (runFrom t2 marg (witnessEv 7) ⟨100, 0.001, 0.001, 1, 1⟩ 100 ()) := by
  obtain ⟨t1, marg, h1, -⟩ := witness_form hla .cholesky
  obtain ⟨t2, -, h2, -⟩ := witness_form hla .svd
  obtain ⟨Q, hQ, -, h3, -⟩ := C33_same_results hla witness_corr h1 h2 marg (witnessEv 7) ⟨100, 0.001, 0.001, 1, 1⟩ ()
  exact ⟨t1, t2, marg, h1, h2, Q, hQ, h3 100⟩

/-! Monte Carlo: `1 + x` for one standard normal variable. -/

example {m : Marginal} (hm : Normal.new 0 (.fin 1) none = .ok m) (ω : ℕ → ℝ) :=
  C36_crude (t := ⟨1, 1⟩) (marg := fun _ => m) (plainEv_values fun x : Fin 1 → ℝ => 1 + x 0) (opt := ⟨1000, 64, 1, 0.05, 0⟩) rfl
    (by norm_num) (by norm_num) rfl ω 0 1000 le_rfl () trivial

example : ∃ m : Marginal, Normal.new 0 (.fin 1) none = .ok m ∧ ∃ Pf : (ℕ → ℝ) → ℝ,
    (∀ ω, ∃ r, MonteCarlo.run (n := 1) ⟨1, 1⟩ (fun _ => m) (plainEv fun x => 1 + x 0) ⟨1000, 64, 1, 0, 0⟩ none ω 0 1000 () = some (.ok r) ∧
      r.Pf = Pf ω) ∧
    ProbabilityTheory.variance Pf stream = StdNormal.cdf (-1) * (1 - StdNormal.cdf (-1)) / 1000 := by
  obtain ⟨m, hm, hux, hA, hp⟩ := half_prob
  have hA' : MeasurableSet {u : Fin 1 → ℝ | (fun x : Fin 1 → ℝ => 1 + x 0) (uToX (n := 1) ⟨1, 1⟩ (fun _ => m) u) < 0} := by
    simp only [hux]; exact hA
  obtain ⟨Pf, h1, h2⟩ := C36_variance (plainEv_values fun x : Fin 1 → ℝ => 1 + x 0) hA' (opt := ⟨1000, 64, 1, 0, 0⟩) rfl
    (by norm_num) (by norm_num) rfl le_rfl 0 1000 le_rfl () trivial
  refine ⟨m, hm, Pf, fun ω => ?_, ?_⟩
  · obtain ⟨r, h3, -, h4⟩ := h1 ω
    exact ⟨r, h3, h4⟩
  · rw [h2]
    simp only [hux, hp]
    norm_num

example {m : Marginal} (ω : ℕ → ℝ) (fuel : ℕ) := C37_block_size_zero (t := ⟨1, 1⟩) (marg := fun _ => m)
  (plainEv_values fun x : Fin 1 → ℝ => 1 + x 0) (opt := ⟨1000, 0, 1, 0.05, 0⟩) rfl rfl (by norm_num) (by norm_num) (by norm_num) none ω 0 fuel
  () trivial

/-! Subset simulation of `x` and, never failing, of `1 + x²`, for one standard normal variable; Markov chains from the seed `-1`. -/

example {m : Marginal} (ω υ : ℕ → ℝ) (fuel : ℕ) (res) := C40_run (t := ⟨1, 1⟩) (marg := fun _ => m)
  (plainEv_values fun x : Fin 1 → ℝ => x 0) (opt := ⟨1000, 100, 1 / 10, 1⟩) (by norm_num) (by norm_num) (by norm_num) (by norm_num) ω υ fuel ()
  trivial res

example {m : Marginal} (ω υ : ℕ → ℝ) (fuel : ℕ) (r) := C41_levels (t := ⟨1, 1⟩) (marg := fun _ => m)
  (plainEv_values fun x : Fin 1 → ℝ => x 0) (opt := ⟨1000, 100, 1 / 10, 1⟩) (by norm_num) (by norm_num) (by norm_num) (by norm_num) ω υ fuel ()
  trivial r

example : ∃ m, Normal.new 0 (.fin 1) none = .ok m ∧ ∀ υ : ℕ → ℝ, ∃ ls pos' s', Subset.mmhStep (n := 1) ⟨1, 1⟩ (fun _ => m) (plainEv fun x => x 0) 1 0 υ 7
    [(![-1], -1), (![-2], -2)] 0 () = .ok (ls, pos', s') ∧ ls.flatten.length = 7 := by
  obtain ⟨m, hm⟩ : ∃ m, Normal.new 0 (.fin (1 : ℝ)) none = .ok m := ⟨_, rfl⟩
  refine ⟨m, hm, fun υ => ?_⟩
  obtain ⟨ls, p, s', h1, -, -, h4, -⟩ := C41_chains (t := ⟨1, 1⟩) (marg := fun _ => m) (plainEv_values fun x : Fin 1 → ℝ => x 0) (υ := υ)
    1 0 7 [(![-1], -1), (![-2], -2)] (by simp) (by
      intro q hq
      simp only [List.mem_cons, List.not_mem_nil, or_false] at hq
      rcases hq with rfl | rfl <;> simp [std_uToX hm]) 0 () trivial
  exact ⟨ls, p, s', h1, h4⟩

example {m : Marginal} (ω υ : ℕ → ℝ) (fuel : ℕ) := C43_no_failure (t := ⟨1, 1⟩) (marg := fun _ => m)
  (plainEv_values fun x : Fin 1 → ℝ => 1 + x 0 ^ 2) (fun x => by positivity) (opt := ⟨1000, 100, 1 / 10, 1⟩) (by norm_num) (by norm_num)
  (by norm_num) (by norm_num) ω υ () trivial fuel

/-! C46: larger curvatures, smaller probability. -/

example := C46_monotone (b := 2) (beta := 2) (by norm_num) (k1 := [-(1 / 10), 1 / 5]) (k2 := [0, 1 / 5])
  (.cons (by norm_num) (.cons (le_refl _) .nil)) (by intro k hk; simp at hk; rcases hk with rfl | rfl <;> norm_num)

end Pystra.Props
