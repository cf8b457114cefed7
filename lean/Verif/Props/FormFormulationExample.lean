import Verif.Props.FormFormulation
import Verif.Props.FormBoundExample
import Verif.Props.FormConvergenceExample

/-! C104: concrete cases. -/

namespace Pystra.Props
open Matrix Spec Transformation Form MeasureTheory StochModel

/-- `return R / S - 1, (1 / S, -R / S**2)`. -/
noncomputable def ratioG (kw : Kwargs) : GRet :=
  .tuple [.arr [((kw.get? "R").getD []).headD 0 / ((kw.get? "S").getD []).headD 0 - 1],
    .arr [1 / ((kw.get? "S").getD []).headD 0, -((kw.get? "R").getD []).headD 0 / ((kw.get? "S").getD []).headD 0 ^ 2]]

/-- A case of `C104_factor`: independent lognormal resistance (200, 20) and load (100, 10), `g = R/S - 1` with the gradient returned by the
user's function.  FORM converges from every starting point to `β = ln 2 / √(2 ln 1.01)`, which belongs to the exact
probability that `R < S`. -/
example {la : LinAlg} (hla : LinAlgOK la) : ∃ t R S, Lognormal.new 200 20 false none = .ok R ∧ Lognormal.new 100 10 false none = .ok S ∧
    Transformation.compute la .cholesky (1 : Matrix (Fin 2) (Fin 2) ℝ) = .ok t ∧
    (∃ us, ∀ x0, ∃ ρ C : ℝ, 0 < ρ ∧ ρ < 1 ∧ 0 < C ∧ ConvergesFrom t ![R, S] (lsEvaluator ratioG ⟨"ddm", 1, 1000, 1000⟩ fun i => (![R, S] i).stdv)
      (fun e : Ev Unit => ∃ k, e.model = sideModel.addCallFunction k) (fun x => x 0 / x 1 - 1) us
      (Real.log 2 / √(2 * Real.log (1 + (1 / 10) ^ 2))) x0 ρ C 0) ∧
    (stdGauss 2).real {u | uToX t ![R, S] u 0 / uToX t ![R, S] u 1 < 1} = StdNormal.cdf (-(Real.log 2 / √(2 * Real.log (1 + (1 / 10) ^ 2)))) := by
  obtain ⟨R, hRn, -⟩ := C12_lognormal (μ := 200) (σ := 20) (by norm_num) (by norm_num) none
  obtain ⟨S, hSn, -⟩ := C12_lognormal (μ := 100) (σ := 10) (by norm_num) (by norm_num) none
  obtain ⟨t, ht, -⟩ := C22_posdef hla .cholesky (Ro := (1 : Matrix (Fin 2) (Fin 2) ℝ)) PosDef.one
  have hm : ∀ i, Lognormal.new ((![200, 100] : Fin 2 → ℝ) i) ((![20, 10] : Fin 2 → ℝ) i) false none = .ok (![R, S] i) := by
    intro i; fin_cases i
    · exact hRn
    · exact hSn
  have hr : ∀ x : Fin 2 → ℝ, ∃ kw, LimitState.inpdict sideModel [x] = .ok kw ∧
      ratioG kw = .tuple [.arr [x 0 / x 1 - 1], .arr (List.ofFn ![1 / x 1, -x 0 / x 1 ^ 2])] := by
    intro x
    have hre : Reachable sideModel := ⟨_, rfl⟩
    refine ⟨_, LimitState.inpdict_spec (LimitState.wf_of_reachable hre) (by rw [sideModel_eq]; simp) [x], ?_⟩
    rw [sideModel_eq]
    simp [ratioG, Dict.keys, Dict.get?, StochModel.vars, rowOf]
  have hex := ddm_exact (expr := ratioG) ⟨"ddm", 1, 1000, 1000⟩ (by norm_num) rfl (fun i => (![R, S] i).stdv) (⟨sideModel, []⟩ : Ev Unit)
    (fun x : Fin 2 → ℝ => x 0 / x 1 - 1) (fun x => ![1 / x 1, -x 0 / x 1 ^ 2]) hr
  have hprod : ∀ x : Fin 2 → ℝ, (∀ i, 0 < x i) → 1 * ∏ i, x i ^ (![1, -1] : Fin 2 → ℝ) i = x 0 / x 1 := by
    intro x hx
    rw [Fin.prod_univ_two]
    simp [Real.rpow_neg (hx 1).le, div_eq_mul_inv]
  have hfd : ∀ x : Fin 2 → ℝ, (∀ i, 0 < x i) → HasFDerivAt (fun x : Fin 2 → ℝ => x 0 / x 1 - 1) (gradMap ![1 / x 1, -x 0 / x 1 ^ 2]) x := by
    intro x hx
    have h0 : HasFDerivAt (fun x : Fin 2 → ℝ => x 0) (ContinuousLinearMap.proj (R := ℝ) (φ := fun _ : Fin 2 => ℝ) 0) x :=
      (ContinuousLinearMap.proj (R := ℝ) (φ := fun _ : Fin 2 => ℝ) 0).hasFDerivAt
    have h1 : HasFDerivAt (fun x : Fin 2 → ℝ => x 1) (ContinuousLinearMap.proj (R := ℝ) (φ := fun _ : Fin 2 => ℝ) 1) x :=
      (ContinuousLinearMap.proj (R := ℝ) (φ := fun _ : Fin 2 => ℝ) 1).hasFDerivAt
    have hne := (hx 1).ne'
    have h2 : HasFDerivAt (fun x : Fin 2 → ℝ => (x 1)⁻¹) (-(x 1 ^ 2)⁻¹ • ContinuousLinearMap.proj (R := ℝ) (φ := fun _ : Fin 2 => ℝ) 1) x :=
      (hasDerivAt_inv hne).comp_hasFDerivAt x h1
    have h3 := (h0.mul h2).sub_const 1
    have e : (fun x : Fin 2 → ℝ => x 0 / x 1 - 1) = fun x => x 0 * (x 1)⁻¹ - 1 := by funext x; rw [div_eq_mul_inv]
    rw [e]
    refine h3.congr_fderiv ?_
    ext v
    simp [gradMap_apply, Fin.sum_univ_two]
    field_simp
    ring
  obtain ⟨us, -, h1, h2⟩ := C104_factor hla PosDef.one ht (μ := ![200, 100]) (sd := ![20, 10]) (sp := fun _ => none)
    (by intro i; fin_cases i <;> norm_num) (by intro i; fin_cases i <;> norm_num) hm (c := 1) one_pos (a := ![1, -1])
    (fun h => by simpa using congrFun h 0) (f := fun x => x 0 / x 1 - 1) (grad := fun x => ![1 / x 1, -x 0 / x 1 ^ 2])
    (Or.inl fun x hx => by rw [hprod x hx]) hfd hex
  have e1 : ((20 : ℝ) / 200) = 1 / 10 := by norm_num
  have e2 : ((10 : ℝ) / 100) = 1 / 10 := by norm_num
  have hl : 0 < Real.log (1 + (1 / 10 : ℝ) ^ 2) := Real.log_pos (by norm_num)
  have hlog : Real.log 200 = Real.log 2 + Real.log 100 := by
    rw [← Real.log_mul (by norm_num) (by norm_num)]; norm_num
  have eb : ∀ i : Fin 2, (![20, 10] : Fin 2 → ℝ) i / (![200, 100] : Fin 2 → ℝ) i = 1 / 10 := by
    intro i; fin_cases i <;> norm_num
  simp only [eb, Fin.sum_univ_two, Real.log_one] at h1 h2
  have hsq : √(Real.log (1 + (1 / 10 : ℝ) ^ 2)) * √(Real.log (1 + (1 / 10 : ℝ) ^ 2)) = Real.log (1 + (1 / 10 : ℝ) ^ 2) :=
    Real.mul_self_sqrt hl.le
  have hβ : (0 + ((![1, -1] : Fin 2 → ℝ) 0 * (Real.log ((![200, 100] : Fin 2 → ℝ) 0) - √(Real.log (1 + (1 / 10 : ℝ) ^ 2)) ^ 2 / 2) +
      (![1, -1] : Fin 2 → ℝ) 1 * (Real.log ((![200, 100] : Fin 2 → ℝ) 1) - √(Real.log (1 + (1 / 10 : ℝ) ^ 2)) ^ 2 / 2))) = Real.log 2 := by
    simp
    rw [hlog]; ring
  have hs : (![1, -1] : Fin 2 → ℝ) 0 * √(Real.log (1 + (1 / 10 : ℝ) ^ 2)) * (1 : Matrix (Fin 2) (Fin 2) ℝ) 0 0 *
        ((![1, -1] : Fin 2 → ℝ) 0 * √(Real.log (1 + (1 / 10 : ℝ) ^ 2))) +
      (![1, -1] : Fin 2 → ℝ) 0 * √(Real.log (1 + (1 / 10 : ℝ) ^ 2)) * (1 : Matrix (Fin 2) (Fin 2) ℝ) 0 1 *
        ((![1, -1] : Fin 2 → ℝ) 1 * √(Real.log (1 + (1 / 10 : ℝ) ^ 2))) +
      ((![1, -1] : Fin 2 → ℝ) 1 * √(Real.log (1 + (1 / 10 : ℝ) ^ 2)) * (1 : Matrix (Fin 2) (Fin 2) ℝ) 1 0 *
        ((![1, -1] : Fin 2 → ℝ) 0 * √(Real.log (1 + (1 / 10 : ℝ) ^ 2))) +
      (![1, -1] : Fin 2 → ℝ) 1 * √(Real.log (1 + (1 / 10 : ℝ) ^ 2)) * (1 : Matrix (Fin 2) (Fin 2) ℝ) 1 1 *
        ((![1, -1] : Fin 2 → ℝ) 1 * √(Real.log (1 + (1 / 10 : ℝ) ^ 2)))) = 2 * Real.log (1 + (1 / 10 : ℝ) ^ 2) := by
    simp only [cons_val_zero, cons_val_one, one_apply, zero_ne_one, one_ne_zero, if_true, if_false]
    linear_combination 2 * hsq
  rw [hβ, hs] at h2
  simp only [hβ, hs] at h1
  refine ⟨t, R, S, hRn, hSn, ht, ⟨us, h1⟩, ?_⟩
  rw [← h2]
  congr 1
  ext u
  have hx : ∀ i, 0 < uToX t ![R, S] u i := by
    intro i
    obtain ⟨S', -, h3, -, -, h4, -⟩ := normalOrLogOf_ok (k := true) (sp := none) (m := ![R, S] i)
      (μ := (![200, 100] : Fin 2 → ℝ) i) (s := (![20, 10] : Fin 2 → ℝ) i) (by fin_cases i <;> norm_num)
      ⟨by fin_cases i <;> norm_num, hm i⟩
    have := h3.mem (t.invT.mulVec u i)
    rw [h4 rfl] at this
    exact this
  have e := hprod (uToX t ![R, S] u) hx
  rw [Fin.prod_univ_two] at e
  simp only [Set.mem_setOf_eq, Fin.prod_univ_two]
  rw [e]

/-- A case of `C104_exact`: `X₀` lognormal (1, 1), `X₁` normal (0, 1), `g = 1 + ln X₀ - X₁`, default options: FORM reports
`β = (1 - ln 2 / 2) / √(1 + ln 2)`, exactly. -/
example {la : LinAlg} (hla : LinAlgOK la) : ∃ t X0 X1 r s', Lognormal.new 1 1 false none = .ok X0 ∧ Normal.new 0 (.fin 1) none = .ok X1 ∧
    Transformation.compute la .cholesky (1 : Matrix (Fin 2) (Fin 2) ℝ) = .ok t ∧
    runFrom t ![X0, X1] (gradEv (fun x : Fin 2 → ℝ => 1 + Real.log (x 0) - x 1) fun x => ![1 / x 0, -1]) ⟨100, 0.001, 0.001, 0, 1⟩ 100 () =
      some (.done r s') ∧ r.beta = (1 - Real.log 2 / 2) / √(Real.log 2 + 1) ∧
    r.Pf = (stdGauss 2).real {u | 1 + Real.log (uToX t ![X0, X1] u 0) - uToX t ![X0, X1] u 1 < 0} := by
  obtain ⟨X0, h0, -⟩ := C12_lognormal (μ := 1) (σ := 1) (by norm_num) (by norm_num) none
  obtain ⟨X1, h1, -⟩ := C12_normal 0 (σ := 1) (by norm_num) none
  obtain ⟨t, ht, -⟩ := C22_posdef hla .cholesky (Ro := (1 : Matrix (Fin 2) (Fin 2) ℝ)) PosDef.one
  have hm : ∀ i, NormalOrLogOf ((![true, false] : Fin 2 → Bool) i) ((![1, 0] : Fin 2 → ℝ) i) ((fun _ => 1 : Fin 2 → ℝ) i) none (![X0, X1] i) := by
    intro i; fin_cases i
    · exact ⟨one_pos, h0⟩
    · exact h1
  have hfd : ∀ x : Fin 2 → ℝ, (∀ i, (![true, false] : Fin 2 → Bool) i = true → 0 < x i) →
      HasFDerivAt (fun x : Fin 2 → ℝ => 1 + Real.log (x 0) - x 1) (gradMap ![1 / x 0, -1]) x := by
    intro x hx
    have p0 : HasFDerivAt (fun x : Fin 2 → ℝ => x 0) (ContinuousLinearMap.proj (R := ℝ) (φ := fun _ : Fin 2 => ℝ) 0) x :=
      (ContinuousLinearMap.proj (R := ℝ) (φ := fun _ : Fin 2 => ℝ) 0).hasFDerivAt
    have p1 : HasFDerivAt (fun x : Fin 2 → ℝ => x 1) (ContinuousLinearMap.proj (R := ℝ) (φ := fun _ : Fin 2 => ℝ) 1) x :=
      (ContinuousLinearMap.proj (R := ℝ) (φ := fun _ : Fin 2 => ℝ) 1).hasFDerivAt
    refine (((p0.log (hx 0 rfl).ne').const_add 1).sub p1).congr_fderiv ?_
    ext v
    simp [gradMap_apply, Fin.sum_univ_two]
    ring
  obtain ⟨r, s', hr, hb, hp, -⟩ := C104_exact hla PosDef.one ht (k := ![true, false]) (μ := ![1, 0]) (sd := fun _ => 1) (sp := fun _ => none)
    (fun _ => one_pos) hm (a0 := 1) (a := ![1, -1]) (fun h => by simpa using congrFun h 0)
    (fun x _ => by simp [Fin.sum_univ_two, scoreOf]; ring) hfd (gradEv_exact _ _) (gradEv_values _ _) ⟨100, 0.001, 0.001, 0, 1⟩ (by norm_num)
    (by norm_num) (by norm_num) (by norm_num) (Or.inr ⟨rfl, rfl⟩) () trivial 100 le_rfl
  refine ⟨t, X0, X1, r, s', h0, h1, ht, hr, ?_, hp⟩
  rw [hb]
  have e : (1 : ℝ) + 1 = 2 := by norm_num
  have hl : 0 ≤ Real.log 2 := Real.log_nonneg (by norm_num)
  simp only [Fin.sum_univ_two, cons_val_zero, cons_val_one, scoreMean, scoreStd, one_apply, if_true, Bool.false_eq_true, if_false, div_one,
    one_pow, e, Real.log_one, zero_ne_one, one_ne_zero]
  congr 1
  · ring
  · congr 1
    have := Real.mul_self_sqrt hl
    linear_combination this

end Pystra.Props
