import Verif.Props.FormBound
import Verif.Props.OrderExample
import Verif.Props.SensNormal

/-! C96: a concrete case. -/

namespace Pystra.Props
open Matrix Spec Transformation Form MeasureTheory StochModel

/-- A resistance `R` and a load `S`. -/
noncomputable def sideModel : StochModel Unit ℝ :=
  StochModel.init.run [.add (.distribution ⟨"R", ()⟩), .add (.distribution ⟨"S", ()⟩)]

theorem sideModel_eq : sideModel = ⟨[("R", ⟨"R", ()⟩), ("S", ⟨"S", ()⟩)], ["R", "S"], [⟨"R", ()⟩, ⟨"S", ()⟩],
    some (NDArray2.eye 2), none, 0, []⟩ := by
  simp [sideModel, StochModel.run, StochModel.step, StochModel.init, addVariable, Dict.set]

/-- `g = R - S`. -/
noncomputable def sideG : Kwargs → GRet := vectorise fun a => (a "R").getD 0 - (a "S").getD 0

/-- A concrete case of `C96_affine`, with the default options: a normal resistance and a lognormal load of correlation 0.3.  FORM
ends with a result, and its failure probability is too small whenever the limit state at the design point is not positive. -/
example {la : LinAlg} (hla : LinAlgOK la) (ty : TransformType) (fuel : ℕ) (hf : 100 ≤ fuel) : ∃ t R S r ev',
    Normal.new 200 (.fin 20) none = .ok R ∧ Lognormal.new 100 30 false none = .ok S ∧
    Transformation.compute la ty !![1, 0.3; 0.3, 1] = .ok t ∧
    runFrom t ![R, S] (lsEvaluator sideG ⟨"ffd", 1, 1000, 1000⟩ (fun i => (![R, S] i).stdv)) ⟨100, 0.001, 0.001, 0, 1⟩ fuel
      (⟨sideModel, []⟩ : Ev Unit) = some (.done r ev') ∧
    (r.point.G ≤ 0 → r.Pf ≤ (stdGauss 2).real {u | uToX t ![R, S] u 0 - uToX t ![R, S] u 1 ≤ 0}) ∧
    StdNormal.cdf (-(r.beta + r.point.G / len r.point.gradient)) ≤
      (stdGauss 2).real {u | uToX t ![R, S] u 0 - uToX t ![R, S] u 1 ≤ 0} := by
  have hR : (!![1, 0.3; 0.3, 1] : Matrix (Fin 2) (Fin 2) ℝ).PosDef := by
    rw [posDef_iff_dotProduct_mulVec]
    refine ⟨by ext i j; fin_cases i <;> fin_cases j <;> simp, fun x hx => ?_⟩
    simp only [star_trivial, dotProduct, mulVec, Fin.sum_univ_two]
    simp
    have h0 : x 0 ≠ 0 ∨ x 1 ≠ 0 := by
      by_contra h
      push Not at h
      apply hx
      funext i; fin_cases i <;> simp [h.1, h.2]
    rcases h0 with h | h <;> nlinarith [sq_nonneg (x 0 + x 1), sq_pos_of_ne_zero h, sq_nonneg (x 0), sq_nonneg (x 1)]
  obtain ⟨t, ht, -⟩ := C22_posdef hla ty hR
  obtain ⟨R, hRn, -⟩ := C12_normal 200 (σ := 20) (by norm_num) none
  obtain ⟨S, hSn, -⟩ := C12_lognormal (μ := 100) (σ := 30) (by norm_num) (by norm_num) none
  have hk : ∀ i, NormalOrLog (![false, true] i) (![R, S] i) := by
    intro i; fin_cases i
    · exact .normal 200 20 none (by norm_num) hRn
    · exact .lognormal 100 30 none (by norm_num) (by norm_num) hSn
  have haff : ∀ p : Fin 2 → ℝ, (fun d : Dict String ℝ => (d.get? "R").getD 0 - (d.get? "S").getD 0) (pointArgs sideModel p) =
      0 + ∑ i, (![1, -1] : Fin 2 → ℝ) i * p i := by
    intro p
    rw [sideModel_eq]
    simp [pointArgs, getVariables, getConstants, Dict.keys, Dict.get?, Fin.sum_univ_two]
    ring
  obtain ⟨r, ev', h1, -, -, -, h2⟩ := C96_affine hla hR ht hk
    (pointwise_of_byName (vectorise_byName fun a => (a "R").getD 0 - (a "S").getD 0)) ⟨"ffd", 1, 1000, 1000⟩ (by norm_num) (by norm_num)
    (by norm_num) (by simp) (by simp) (⟨sideModel, []⟩ : Ev Unit) ⟨_, rfl⟩ (by rw [sideModel_eq]; simp [nMarg]) (by rw [sideModel_eq]; simp [getNames]) 0
    ![1, -1] (fun h => by simpa using congrFun h 0) haff ⟨100, 0.001, 0.001, 0, 1⟩ (Or.inr rfl) (by norm_num) fuel hf
  obtain ⟨h3, h4⟩ := h2 (by intro i; fin_cases i <;> simp)
  have e : ∀ u, (fun d : Dict String ℝ => (d.get? "R").getD 0 - (d.get? "S").getD 0) (pointArgs sideModel (uToX t ![R, S] u)) =
      uToX t ![R, S] u 0 - uToX t ![R, S] u 1 := by
    intro u
    rw [haff]
    simp [Fin.sum_univ_two]
    ring
  simp only at e
  simp only [e] at h3 h4
  exact ⟨t, R, S, r, ev', hRn, hSn, ht, h1, h4, h3⟩

/-- One variable. -/
noncomputable def curveModel : StochModel Unit ℝ := StochModel.init.run [.add (.distribution ⟨"x", ()⟩)]

theorem curveModel_eq : curveModel = ⟨[("x", ⟨"x", ()⟩)], ["x"], [⟨"x", ()⟩], some (NDArray2.eye 1), none, 0, []⟩ := by
  simp [curveModel, StochModel.run, StochModel.step, StochModel.init, addVariable, Dict.set]

/-- `return np.exp(x) - 1, np.exp(x)`. -/
noncomputable def curveG (kw : Kwargs) : GRet :=
  .tuple [.arr [Real.exp (((kw.get? "x").getD []).headD 0) - 1], .arr [Real.exp (((kw.get? "x").getD []).headD 0)]]

/-- A concrete case of `C96_ddm`: `g = exp(x) - 1` of a variable with mean 1 and standard deviation 1.  FORM ends with a result, which
bounds the probability of failure from above. -/
example {la : LinAlg} (hla : LinAlgOK la) (fuel : ℕ) (hf : 100 ≤ fuel) : ∃ t m r ev',
    Normal.new 1 (.fin 1) none = .ok m ∧ Transformation.compute la .cholesky (1 : Matrix (Fin 1) (Fin 1) ℝ) = .ok t ∧
    runFrom t (fun _ => m) (lsEvaluator curveG ⟨"ddm", 1, 1000, 1000⟩ (fun _ => m.stdv)) ⟨100, 0.001, 0.001, 1, 1⟩ fuel
      (⟨curveModel, []⟩ : Ev Unit) = some (.done r ev') ∧
    (stdGauss 1).real {u | Real.exp (uToX t (fun _ => m) u 0) - 1 ≤ 0} ≤
      StdNormal.cdf (-(r.beta + r.point.G / len r.point.gradient)) := by
  obtain ⟨m, hm, -⟩ := C12_normal 1 (σ := 1) (by norm_num) none
  have ht := compute_one (n := 1) hla
  have hk : ∀ i : Fin 1, NormalOrLog false ((fun _ => m) i) := fun _ => .normal 1 1 none (by norm_num) hm
  have hfd : ∀ x : Fin 1 → ℝ, HasFDerivAt (fun x : Fin 1 → ℝ => Real.exp (x 0) - 1) (gradMap (fun _ => Real.exp (x 0))) x := by
    intro x
    have h1 : HasFDerivAt (fun x : Fin 1 → ℝ => x 0) (ContinuousLinearMap.proj (R := ℝ) (φ := fun _ : Fin 1 => ℝ) 0) x :=
      (ContinuousLinearMap.proj (R := ℝ) (φ := fun _ : Fin 1 => ℝ) 0).hasFDerivAt
    refine ((h1.exp).sub_const 1).congr_fderiv ?_
    ext v
    simp [gradMap_apply]
  have hr : ∀ x : Fin 1 → ℝ, ∃ kw, LimitState.inpdict curveModel [x] = .ok kw ∧
      curveG kw = .tuple [.arr [Real.exp (x 0) - 1], .arr (List.ofFn fun _ : Fin 1 => Real.exp (x 0))] := by
    intro x
    have hre : Reachable curveModel := ⟨_, rfl⟩
    refine ⟨_, LimitState.inpdict_spec (LimitState.wf_of_reachable hre) (by rw [curveModel_eq]; simp) [x], ?_⟩
    rw [curveModel_eq]
    simp [curveG, Dict.keys, Dict.get?, StochModel.vars, rowOf]
  have hex : Exact (lsEvaluator curveG ⟨"ddm", 1, 1000, 1000⟩ (fun _ => m.stdv))
      (fun e : Ev Unit => ∃ k, e.model = curveModel.addCallFunction k) (fun x : Fin 1 → ℝ => Real.exp (x 0) - 1) (fun x _ => Real.exp (x 0)) := by
    intro s hs x
    obtain ⟨s', h1, h2⟩ := C48_ddm ⟨"ddm", 1, 1000, 1000⟩ (by norm_num) rfl (fun _ => m.stdv) curveModel (fun x : Fin 1 → ℝ => Real.exp (x 0) - 1)
      (fun x _ => Real.exp (x 0)) hr s hs x
    exact ⟨s', x, h1, h2⟩
  obtain ⟨S, hS, h1, h2, h3, -⟩ := normalOrLog_ok (hk 0)
  obtain ⟨r, ev', hrun⟩ : ∃ r ev', runFrom (⟨1, 1⟩ : Mats 1) (fun _ => m) (lsEvaluator curveG ⟨"ddm", 1, 1000, 1000⟩ (fun _ => m.stdv))
      ⟨100, 0.001, 0.001, 1, 1⟩ fuel (⟨curveModel, []⟩ : Ev Unit) = some (.done r ev') := by
    refine run_finishes (P := fun e : Ev Unit => ∃ k, e.model = curveModel.addCallFunction k) ?_ ?_ (by norm_num) hf ⟨0, rfl⟩
    · intro s hs u
      obtain ⟨Ji, hJ⟩ := (C23_chain_rule ht (fun _ => m) (fun _ => S) (fun _ => h1) (fun _ => hS) (fun _ => h2) u).1.2
        (fun i => jac_ne_zero h1 h2 (h3 _))
      obtain ⟨s1, xa, he, hP⟩ := hex s hs (uToX ⟨1, 1⟩ (fun _ => m) u)
      refine ⟨s1, _, by unfold linearise; dsimp only; rw [hJ, he], ?_, hP⟩
      dsimp only
      intro h0
      have hu := (npInv_ok hJ).1
      have : vecMul (vecMul (fun _ => Real.exp (uToX ⟨1, 1⟩ (fun _ => m) u 0)) Ji)
          (jacobian ⟨1, 1⟩ (fun _ => m) u (uToX ⟨1, 1⟩ (fun _ => m) u)) = fun _ => Real.exp (uToX ⟨1, 1⟩ (fun _ => m) u 0) := by
        rw [vecMul_vecMul, hu, vecMul_one]
      rw [h0, zero_vecMul] at this
      exact (Real.exp_pos _).ne (congrFun this 0)
    · intro s hs G gr u d
      unfold getStepSize
      rw [if_neg (by norm_num)]
      exact ⟨_, _, rfl, hs⟩
  have hconv : ConvexOn ℝ Set.univ (fun x : Fin 1 → ℝ => Real.exp (x 0) - 1) := by
    refine ⟨convex_univ, fun x _ y _ p q hp hq hpq => ?_⟩
    have := convexOn_exp.2 (Set.mem_univ (x 0)) (Set.mem_univ (y 0)) hp hq hpq
    simp only [Pi.add_apply, Pi.smul_apply, smul_eq_mul] at this ⊢
    nlinarith
  have hres := (C96_ddm ht hk ⟨"ddm", 1, 1000, 1000⟩ (by norm_num) rfl (fun _ => m.stdv) (⟨curveModel, []⟩ : Ev Unit)
    (fun x : Fin 1 → ℝ => Real.exp (x 0) - 1) (fun x _ => Real.exp (x 0)) hfd hr _ hrun).2.1 hconv
  exact ⟨⟨1, 1⟩, m, r, ev', hm, ht, hrun, hres.1⟩

end Pystra.Props
