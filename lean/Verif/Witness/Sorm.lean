import Verif.Witness.Analyses
import Verif.Props.SormMixed
import Verif.Props.SormShift
import Verif.Props.SormExample
import Verif.Props.SormSmoothExample
import Verif.Props.SensDistanceExample
import Verif.Props.SensFDAffine
import Verif.Props.Integration
import Verif.Props.Quadrature
import Verif.Props.OrderExample

/-! Concrete cases for theorems of C48–C55 that have no example beside them. -/

namespace Pystra.Props
open Matrix Spec Transformation Form Sorm Sensitivity LimitState StochModel Filter Topology

/-- C48: `1 + u₀ + 2 u₁ + u₀² + u₀ u₁ + 2 u₁²` of two standard normal variables; the Hessian is found. -/
example {m : Marginal} (hm : Normal.new 0 (.fin 1) none = .ok m) :
    computeHessianMixed (n := 2) ⟨1, 1⟩ (fun _ => m) (fun s xs => (s, .ok (xs.map (quad 1 ![1, 2] !![2, 1; 1, 4]))))
      ⟨2, ⟨0, 0, 0, 1, 1, ![1, 2]⟩, 0, ![1, 0], 1, 0⟩ 1000 () = ((), .ok !![2, 1; 1, 4]) :=
  C48_mixed (f := quad 1 ![1, 2] !![2, 1; 1, 4]) (fun _ => rfl) 1 ![1, 2] (by ext i j; fin_cases i <;> fin_cases j <;> rfl)
    (fun u => by rw [std_uToX hm]) _ (by rw [std_uToX hm]; simp [quad]) (by norm_num)

/-- C48: the same Hessian with `diff_mode = "ffd"` is a `ValueError`. -/
example (m : Marginal) (form : Result 2) :
    computeHessianMixed (n := 2) ⟨1, 1⟩ (fun _ => m) (lsMany sampleExpr ⟨"ffd", 1, 1000, 1000⟩ (fun _ => 1)) form 1000 ⟨sampleModel, []⟩ =
      (⟨sampleModel, []⟩, .error .valueError) :=
  C48_mixed_raises_ffd _ _ _ _ (by decide) (by decide) (by decide) _ (by norm_num) _ (by norm_num) _

/-- C48: with `diff_mode = "ddm"` and a function that returns a value and a gradient it is an `IndexError`. -/
example (m : Marginal) (form : Result 2) :
    (computeHessianMixed (n := 2) ⟨1, 1⟩ (fun _ => m) (lsMany (fun _ => .tuple [.scalar 3, .arr [1, 2]]) ⟨"ddm", 1, 1000, 1000⟩ (fun _ => 1))
      form 1000 ⟨sampleModel, []⟩).2 = .error .indexError :=
  C48_mixed_raises_ddm _ _ _ _ (by decide) rfl _ (by norm_num) _ (by norm_num) _ sample_reachable (by rw [sample_vars.2.2.1])
    (fun _ => ⟨3, [1, 2], rfl, .inl rfl⟩)

/-- C49: point fitting of the plane `2 - v₁` seen in a rotated frame reaches an end. -/
example {m : Marginal} (hm : Normal.new 0 (.fin 1) none = .ok m) : ∃ r : SResult,
    runPointfit (m := 1) ⟨1, 1⟩ (fun _ => m) (gradEv (fun x => 1 * (2 - ![3/5, 4/5] ⬝ᵥ x)) (fun _ => ![-3/5, -4/5])) exForm false () = ((), .ok r) ∧
    ∃ (R : Matrix (Fin (1 + 1)) (Fin (1 + 1)) ℝ) (km kp : Fin 1 → ℝ), R * Rᵀ = 1 ∧ R (Fin.last 1) = ![3/5, 4/5] ∧
      (∀ i, Fitted (m := 1) ⟨1, 1⟩ (fun _ => m) (fun x => 1 * (2 - ![3/5, 4/5] ⬝ᵥ x)) R 2 i (-1) (km i) ∧
        Fitted (m := 1) ⟨1, 1⟩ (fun _ => m) (fun x => 1 * (2 - ![3/5, 4/5] ⬝ᵥ x)) R 2 i 1 (kp i)) := by
  have ha : exForm.alpha ⬝ᵥ exForm.alpha = 1 := by
    show (![3/5, 4/5] : Fin 2 → ℝ) ⬝ᵥ ![3/5, 4/5] = 1
    simp [dotProduct, Fin.sum_univ_two]; norm_num
  obtain ⟨s', r, h, -⟩ := C49_plane (m := 1) (t := ⟨1, 1⟩) (marg := fun _ => m) (P := fun _ => True) (c0 := 1)
    (std_gives hm (fun x => 1 * (2 - ![3/5, 4/5] ⬝ᵥ x)) (fun _ => ![-3/5, -4/5])) (fun u => by
      have h := (gradMap (![-3/5, -4/5] : Fin (1 + 1) → ℝ)).hasFDerivAt (x := u)
      refine (h.const_add 2).congr_of_eventuallyEq (Eventually.of_forall fun v => ?_)
      simp only [gradMap_apply]
      show 1 * (2 - (![3/5, 4/5] : Fin 2 → ℝ) ⬝ᵥ v) = _
      simp [dotProduct, Fin.sum_univ_two]; ring) (form := exForm) ha one_ne_zero
    (by show 1e-8 < |(4/5 : ℝ)|; rw [abs_of_pos] <;> norm_num) (by norm_num) (by show (2 : ℝ) ≠ 0; norm_num) (fun u => rfl) false () trivial
  obtain ⟨R, km, kp, h1, h2, h3, -⟩ := C49_run (f := fun x => 1 * (2 - ![3/5, 4/5] ⬝ᵥ x)) (fun s x s' G grad xa h => by
    simp only [gradEv] at h
    injection h with _ h; injection h with h; injection h with h
    exact h.symm) ha h
  exact ⟨r, h, R, km, kp, h1, h2, h3⟩

/-- One lognormal variable `x`. -/
noncomputable def witnessLog : StochModel Unit ℝ := init.run [.add (.distribution ⟨"x", ()⟩)]

theorem witnessLog_spec : Reachable witnessLog ∧ witnessLog.nMarg = 1 ∧ witnessLog.getNames = ["x"] ∧
    ∀ p : Fin 1 → ℝ, pointArgs witnessLog p = [("x", p 0)] := by
  refine ⟨⟨_, rfl⟩, ?_, ?_, fun p => ?_⟩ <;>
    simp [witnessLog, StochModel.run, StochModel.step, addVariable, init, addCallFunction, nMarg, getNames, pointArgs, getVariables, getConstants, Dict.keys, Dict.set]

/-- C48: `log x` for one lognormal variable of mean 2 and standard deviation 1 is affine in standard space, yet the differences at
`ffdpara = 1000` give a negative second derivative; and the gradient the Hessian uses is that at a shifted point. -/
example {m : Marginal} (hm : Lognormal.new 2 1 false none = .ok m) (form : Result 1) : ∃ ev' H,
    computeHessian ⟨1, 1⟩ (fun _ => m) (lsEvaluator (vectorise fun a => Real.log ((a "x").getD 0)) ⟨"ffd", 1, 1000, 1000⟩ (fun _ => m.stdv))
      form 1000 ⟨witnessLog, []⟩ = (ev', .ok H) ∧ H 0 0 < 0 :=
  (C48_ffd_inexact (by norm_num) one_pos hm (pointwise_of_byName (vectorise_byName fun a => Real.log ((a "x").getD 0)))
    ⟨"ffd", 1, 1000, 1000⟩ (by norm_num) (by norm_num) (by norm_num) (by decide) (by decide) ⟨witnessLog, []⟩ witnessLog_spec.1
    witnessLog_spec.2.1.le (by rw [witnessLog_spec.2.2.1]; simp) (fun p => by rw [witnessLog_spec.2.2.2]; simp [Dict.get?]) form
    (by norm_num)).2

/-- C52. -/
example := C52_affine_limit (n := 2) 5 (a := ![-3, -4]) (by intro h; simpa using congrFun h 0) ![1, 2] (sd := ![1, 2])
  (fun i => by fin_cases i <;> norm_num) 1

/-- C53. -/
example := C53_correlation (rho := -9/10) (by rw [abs_lt]; constructor <;> norm_num)

/-- C55: the rule with 16 points, and one pass of its refinement from `x = 1/2`. -/
example : ∃ x w, Quadrature.quadratureRule 16 = .ok (x, w) ∧ x.getD 3 0 = -x.getD 12 0 ∧ w.getD 3 0 = w.getD 12 0 := by
  obtain ⟨x, w, h⟩ : ∃ x w, Quadrature.quadratureRule 16 = .ok (x, w) := by
    obtain ⟨x, w, h, -⟩ := (C55_length 16).2 (by norm_num)
    exact ⟨x, w, h⟩
  exact ⟨x, w, h, C55_symmetry h 3 (by norm_num)⟩

example := C55_residual 15 (x := 1/2) (by norm_num)

/-- C50: independent standard normal variables, `g = 5 - 3 x₀ - 4 x₁`; the index `1 - 3 s / 5` as a function of the first mean `s`. -/
example {la : LinAlg} (hla : LinAlgOK la) : ∃ t v, Transformation.compute la .cholesky (1 : Matrix (Fin 2) (Fin 2) ℝ) = .ok t ∧
    marginalOne flatDist 1 1 t ![3/5, 4/5] ((1 : ℝ) • ![3/5, 4/5]) 0 "mean" = .ok v ∧ HasDerivAt (fun s : ℝ => 1 - 3 * s / 5) v 0 := by
  have ht := compute_one (n := 2) hla
  obtain ⟨v, h1, h2⟩ := C50_derivative hla flatDist 0 "mean" (dmu := 1) (dsig := 0) (S := fun _ => Set.univ) (m := fun s => normalOf none s 1)
    (θ := 0) (R := 1) (Ro := fun _ => 1) (t := fun _ => ⟨1, 1⟩) (g := fun x => 5 - 3 * x 0 - 4 * x 1)
    (x := fun s => ![s + 3/5 * (1 - 3 * s / 5), 4/5 * (1 - 3 * s / 5)]) (β := fun s => 1 - 3 * s / 5) (α := fun _ => ![3/5, 4/5])
    (normals_dF (n := 2) (fun _ => none) (fun _ => 0) (fun _ => 1) 0).1 (by simp [Dist.dmoments]) (fun _ => isOpen_univ) flat_round.1
    flat_round.2 rfl (normal_mean_path none 0 one_pos) one_ne_zero (Eventually.of_forall fun _ => PosDef.one)
    (Eventually.of_forall fun _ => ht) (nataf_independent _ _ _ _) (fun _ => trivial)
    ⟨fun i => by fin_cases i <;> simp <;> fun_prop, Eventually.of_forall fun s => by simp; ring, Eventually.of_forall fun s => ⟨by
      funext i
      unfold xToU
      rw [one_mulVec]
      fin_cases i
      · show (s + 3/5 * (1 - 3 * s / 5) - s) / 1 = (1 - 3 * s / 5) * (3/5); ring
      · show (4/5 * (1 - 3 * s / 5) - 0) / 1 = (1 - 3 * s / 5) * (4/5); ring, by
      simp [dotProduct, Fin.sum_univ_two]; norm_num⟩, fun i => continuousAt_const⟩
    ⟨![-3, -4], 1, by
      have h := (gradMap (![-3, -4] : Fin 2 → ℝ)).hasFDerivAt (x := (![0 + 3/5 * (1 - 3 * 0 / 5), 4/5 * (1 - 3 * 0 / 5)] : Fin 2 → ℝ))
      refine (h.const_add 5).congr_of_eventuallyEq (Eventually.of_forall fun v => ?_)
      simp only [gradMap_apply]
      simp [dotProduct, Fin.sum_univ_two]; ring, by
      have hJ : jacobian (n := 2) ⟨1, 1⟩ (fun i => (flatDist i).marg) (xToU ⟨1, 1⟩ (fun i => (flatDist i).marg)
          ![0 + 3/5 * (1 - 3 * 0 / 5), 4/5 * (1 - 3 * 0 / 5)]) ![0 + 3/5 * (1 - 3 * 0 / 5), 4/5 * (1 - 3 * 0 / 5)] = 1 := by
        unfold jacobian
        rw [Matrix.one_mul]
        have : (fun i => ((fun i => (flatDist i).marg) i).jac (((⟨1, 1⟩ : Mats 2).invT *ᵥ xToU ⟨1, 1⟩ (fun i => (flatDist i).marg)
            ![0 + 3/5 * (1 - 3 * 0 / 5), 4/5 * (1 - 3 * 0 / 5)]) i) ((![0 + 3/5 * (1 - 3 * 0 / 5), 4/5 * (1 - 3 * 0 / 5)] : Fin 2 → ℝ) i)) =
            fun _ => (1:ℝ) := by
          funext i
          simp only [flatDist_eq]
          simp [normalOf, Normal.jac]
        rw [this, diagonal_one]
      rw [hJ, npInv_of_unit (by simp)]
      simp, by
      rw [vecMul_one]
      have : norm2 (![-3, -4] : Fin 2 → ℝ) = 5 := by
        simp [norm2, Fin.sum_univ_two]
        rw [show (3 ^ 2 + 4 ^ 2 : ℝ) = 5 ^ 2 by norm_num, Real.sqrt_sq (by norm_num)]
      funext i
      unfold Form.alpha
      rw [this]
      fin_cases i <;> norm_num⟩
    (by
      show 1e-300 < StdNormal.pdf ((0 + 3/5 * (1 - 3 * 0 / 5) - 0) / 1)
      apply pdf_not_tiny; norm_num [abs_le])
  refine ⟨⟨1, 1⟩, v, ht, ?_, h2⟩
  simpa using h1

end Pystra.Props
