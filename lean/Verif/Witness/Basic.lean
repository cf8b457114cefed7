import Verif.Props.LimitState
import Verif.Props.Stochastic
import Verif.Props.Marginal

/-! Concrete cases for theorems of C01–C15 that have no example beside them: each line applies a theorem to data that meet all its
hypotheses.  (The histories, the model and the limit state used are defined in `Props/Stochastic` and `Props/LimitState`.) -/

namespace Pystra.Props
open StochModel Spec LimitState

/-! C01–C03: the history `sampleHistory` (constant `c`, variables `x`, `y`, a duplicate and a foreign object). -/

example : (init.run sampleHistory).getNames.Nodup := C01_names_nodup sampleHistory

/-- Accepted: a new name.  Rejected: the name of a constant used for a variable. -/
example : (∃ n, objName (D := Unit) (V := ℚ) (.distribution ⟨"z", ()⟩) = some n ∧
      ((init.run sampleHistory).addVariable (.distribution ⟨"z", ()⟩)).1.getNames = (init.run sampleHistory).getNames ++ [n]) ∧
    ∃ e, ((init.run sampleHistory).addVariable (.distribution ⟨"c", ()⟩)).2 = .error e :=
  ⟨C02_accepted_registered _ _ (by simp [sampleHistory, run, step, addVariable, init, addCallFunction]),
    (C02_rejects_iff _ _).2 (.inr ⟨"c", rfl, by simp [sampleHistory, run, step, addVariable, init, addCallFunction, getNames]⟩)⟩

example : (init.run (sampleHistory ++ [.add (.distribution ⟨"z", ()⟩)])).getCorrelation = some (NDArray2.eye 3) := by
  have h := C03_distribution_resets sampleHistory ⟨"z", ()⟩ (by simp [sampleHistory, run, step, addVariable, init, addCallFunction])
  have e : (init.run sampleHistory).nMarg = 2 := by
    simp [sampleHistory, run, step, addVariable, init, addCallFunction, nMarg]
  rw [e] at h
  exact h

/-- A correlation set by the user, kept when a constant is added, lost when a variable is added. -/
example (m : NDArray2) : (init.run (sampleHistory ++ [.setCorr m])).getCorrelation = some m ∧
    (init.run ((sampleHistory ++ [.setCorr m]) ++ [.add (.constant "k" 1)])).getCorrelation = some m ∧
    (init.run (sampleHistory ++ [.setCorr m, .add (.distribution ⟨"z", ()⟩)])).getCorrelation =
      some (NDArray2.eye ((init.run sampleHistory).nMarg + 1)) :=
  ⟨C03_setCorrelation _ m, (C03_otherwise_kept _ _ (.inl ⟨"k", 1, rfl⟩)).trans (C03_setCorrelation _ m),
    C03_setCorrelation_lost sampleHistory m ⟨"z", ()⟩
      (by simp [sampleHistory, run, step, addVariable, init, addCallFunction, getNames])⟩

/-! C05–C10: `sampleModel` (constant `c = 3`, variables `x`, `y`) and the sum of all arguments. -/

example (opt : LSOptions) (h0 : opt.blockSize = 0) (fuel : ℕ) :
    evaluateNogradient (n := 2) fuel sampleExpr opt [![1, 2]] ⟨sampleModel, []⟩ = none :=
  C05_block_size_zero_diverges sample_pointwise opt h0 _ (by simp) _ sample_reachable (by rw [sample_vars.2.2.1])
    (by rw [sample_vars.2.2.2]; simp) fuel

/-- The finite difference of the sum of the arguments is within 0 of the derivative 1. -/
example (opt : LSOptions) (hbs : opt.blockSize = 1000) (hp : opt.ffdpara = 1000) : ∃ ev' out grad,
    evaluateFfd (n := 2) 3 sampleExpr opt ![2, 5] [![1, 2]] ⟨sampleModel, []⟩ = some (ev', .ok out) ∧ out.grad = [grad] ∧
      |grad 0 - 1| ≤ 0 * (2 / 1000) / 2 := by
  obtain ⟨ev', out, grad, h1, h2, h3⟩ := C06_ffd_error (n := 2) sample_pointwise opt (by omega) ![2, 5] ![1, 2] ⟨sampleModel, []⟩
    sample_reachable (by rw [sample_vars.2.2.1]) (by rw [sample_vars.2.2.2]; simp) 3 (by simp) 0 (by rw [hp]; norm_num)
    (fun _ => 1) 0 (fun t _ => by
      have : (fun s : ℝ => ((pointArgs sampleModel (Function.update ![(1 : ℝ), 2] 0 (![(1 : ℝ), 2] 0 + s))).map Prod.snd).sum) =
          fun s => s + 6 := by
        funext s
        simp [pointArgs, getVariables, getConstants, sample_vars.1, sample_vars.2.1, Dict.keys, Function.update]
        ring
      show HasDerivAt (fun s : ℝ => ((pointArgs sampleModel (Function.update ![(1 : ℝ), 2] 0 (![(1 : ℝ), 2] 0 + s))).map
        Prod.snd).sum) 1 t
      rw [this]
      exact (hasDerivAt_id t).add_const 6) (fun t _ => by simp)
  refine ⟨ev', out, grad, h1, h2, ?_⟩
  simpa [hp] using h3

example (opt : LSOptions) (h0 : opt.multiProc = 0) := C08_multiproc_zero (n := 2) 9 sampleExpr opt h0 ![1, 1] none [![1, 2]]
  ⟨sampleModel, []⟩

/-- The gradients reported when none is asked for are zero: three columns of zeros for three points. -/
example (opt : LSOptions) (hbs : opt.blockSize = 2) : ∃ ev' out,
    evaluateNogradient (n := 2) 5 sampleExpr opt [![1, 2], ![10, 20], ![0, 0]] ⟨sampleModel, []⟩ = some (ev', .ok out) ∧
    out.grad.length = 3 ∧ ∀ col ∈ out.grad, ∀ i, col i = 0 := by
  obtain ⟨ev', out, h1, h2, _⟩ := C05_block_size_invisible (n := 2) sample_pointwise opt (by omega)
    [![1, 2], ![10, 20], ![0, 0]] ⟨sampleModel, []⟩ sample_reachable (by rw [sample_vars.2.2.1])
    (by rw [sample_vars.2.2.2]; simp) 5 (by simp)
  exact ⟨ev', out, h1, C08_zero_gradient 5 sampleExpr opt _ _ _ _ h1⟩

/-- Two points for two variables and a constant: the keywords `x`, `y`, `c` with the rows, and the constant repeated. -/
example : ∃ kw, inpdict (n := 2) sampleModel [![1, 2], ![10, 20]] = .ok kw ∧ kw.keys = ["x", "y", "c"] ∧
    kw.get? "x" = some [1, 10] ∧ kw.get? "y" = some [2, 20] ∧ kw.get? "c" = some [3, 3] := by
  obtain ⟨kw, h1, h2, _, h4, h5⟩ := C09_binding (n := 2) sampleModel sample_reachable (by rw [sample_vars.2.2.1])
    [![1, 2], ![10, 20]]
  have hm : sampleModel.getMarginalDistributions = [⟨"x", ()⟩, ⟨"y", ()⟩] := by
    simp [sampleModel, run, step, addVariable, init, getMarginalDistributions]
  refine ⟨kw, h1, ?_, ?_, ?_, ?_⟩
  · rw [h2]; simp [getVariables, getConstants, sample_vars.1, sample_vars.2.1, Dict.keys]
  · simpa using h4 0 ⟨"x", ()⟩ (by rw [hm]; rfl)
  · simpa using h4 1 ⟨"y", ()⟩ (by rw [hm]; rfl)
  · simpa using h5 "c" 3 (by simp [getConstants, sample_vars.2.1])

/-- A point with one coordinate for a model of two variables. -/
example (ddm : Bool) := C09_too_few_rows (n := 1) sampleExpr [![1]] ddm ⟨sampleModel, []⟩ sample_reachable
  (by rw [sample_vars.2.2.1]; norm_num)

/-! C10: the two return shapes. -/

example := C10_no_gradient (.val (.arr [1, 2])) (.arr [1, 2])

/-! C12–C14: one concrete variable of every class and parametrisation. -/

example := And.intro (C12_lognormal_params (zeta := 1 / 5) 2 (by norm_num) none) <|
  And.intro (C13_lognormal_params (zeta := 1 / 5) 2 (by norm_num) none) (C14_lognormal_params (zeta := 1 / 5) 2 (by norm_num) none)
example := And.intro (C12_shiftedLognormal (μ := 10) (σ := 2) (lower := 3) (by norm_num) (by norm_num) none) <|
  And.intro (C13_shiftedLognormal (μ := 10) (σ := 2) (lower := 3) (by norm_num) (by norm_num) none)
    (C14_shiftedLognormal (μ := 10) (σ := 2) (lower := 3) (by norm_num) (by norm_num) none)
example := And.intro (C12_uniform (σ := 2) 10 (by norm_num) none) <|
  And.intro (C13_uniform (σ := 2) 10 (by norm_num) none) (C14_uniform (σ := 2) 10 (by norm_num) none)
example := And.intro (C12_uniform_params (a := -1) (b := 3) (by norm_num) none) <|
  And.intro (C13_uniform_params (a := -1) (b := 3) (by norm_num) none) (C14_uniform_params (a := -1) (b := 3) (by norm_num) none)
example := And.intro (C12_gamma (μ := 10) (σ := 2) (by norm_num) (by norm_num) none) <|
  And.intro (C13_gamma (μ := 10) (σ := 2) (by norm_num) (by norm_num) none) (C14_gamma (μ := 10) (σ := 2) (by norm_num) (by norm_num) none)
example := And.intro (C12_gamma_params (beta := 3) (alpha := 2) (by norm_num) (by norm_num) none) <|
  And.intro (C13_gamma_params (beta := 3) (alpha := 2) (by norm_num) (by norm_num) none)
    (C14_gamma_params (beta := 3) (alpha := 2) (by norm_num) (by norm_num) none)
example := And.intro (C12_shiftedExponential (σ := 2) 10 (by norm_num) none) <|
  And.intro (C13_shiftedExponential (σ := 2) 10 (by norm_num) none) (C14_shiftedExponential (σ := 2) 10 (by norm_num) none)
example := And.intro (C12_shiftedRayleigh (σ := 2) 10 (by norm_num) none) <|
  And.intro (C13_shiftedRayleigh (σ := 2) 10 (by norm_num) none) (C14_shiftedRayleigh (σ := 2) 10 (by norm_num) none)
example := And.intro (C12_gumbel (σ := 2) 10 (by norm_num) none) <|
  And.intro (C13_gumbel (σ := 2) 10 (by norm_num) none) (C14_gumbel (σ := 2) 10 (by norm_num) none)
example := And.intro (C12_gumbel_params (scale := 2) 10 (by norm_num) none) <|
  And.intro (C13_gumbel_params (scale := 2) 10 (by norm_num) none) (C14_gumbel_params (scale := 2) 10 (by norm_num) none)
example := And.intro (C12_typeIsmallest (σ := 2) 10 (by norm_num) none) <|
  And.intro (C13_typeIsmallest (σ := 2) 10 (by norm_num) none) (C14_typeIsmallest (σ := 2) 10 (by norm_num) none)
example := And.intro (C12_chiSquare (μ := 10) (σ := 2) (by norm_num) (by norm_num) none) <|
  And.intro (C13_chiSquare (μ := 10) (σ := 2) (by norm_num) (by norm_num) none)
    (C14_chiSquare (μ := 10) (σ := 2) (by norm_num) (by norm_num) none)
example := And.intro (C12_weibull (μ := 10) (σ := 2) (eps := 1) (k := 5 / 2) (by norm_num) (by norm_num) none) <|
  And.intro (C13_weibull (μ := 10) (σ := 2) (eps := 1) (k := 5 / 2) (by norm_num) (by norm_num) none)
    (C14_weibull (μ := 10) (σ := 2) (eps := 1) (k := 5 / 2) (by norm_num) (by norm_num) none)
example := And.intro (C12_typeIIlargest (μ := 10) (σ := 2) (k := 5 / 2) (by norm_num) (by norm_num) none) <|
  And.intro (C13_typeIIlargest (μ := 10) (σ := 2) (k := 5 / 2) (by norm_num) (by norm_num) none)
    (C14_typeIIlargest (μ := 10) (σ := 2) (k := 5 / 2) (by norm_num) (by norm_num) none)
example := C14_beta (μ := 4) (σ := 1) (a := 0) (b := 10) (q := 3) (by norm_num) (by norm_num) (by norm_num) none
example := And.intro (C14_normal (σ := 2) 10 (by norm_num) none) (C14_lognormal (μ := 10) (σ := 2) (by norm_num) (by norm_num) none)

end Pystra.Props
