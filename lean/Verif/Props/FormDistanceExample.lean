import Verif.Props.FormDistance
import Verif.Props.SensNormal

/-! C99: concrete cases, and a limit state for which FORM converges to a design point that is not the nearest failure point. -/

namespace Pystra.Props
open Matrix Spec Transformation Form MeasureTheory Set

variable {n : ℕ}

/-- The evaluator of `f` with gradient `grad`. -/
def gradEv (f : (Fin n → ℝ) → ℝ) (grad : (Fin n → ℝ) → Fin n → ℝ) : Evaluator Unit n :=
  ⟨fun s x => (s, .ok (f x, grad x, x)), fun s xs => (s, .ok (xs.map f))⟩

theorem gradEv_exact (f : (Fin n → ℝ) → ℝ) (grad : (Fin n → ℝ) → Fin n → ℝ) : Exact (gradEv f grad) (fun _ => True) f grad :=
  fun s _ x => ⟨s, x, rfl, trivial⟩

theorem std_uToX {m : Marginal} (hm : Normal.new 0 (.fin 1) none = .ok m) (u : Fin n → ℝ) : uToX ⟨1, 1⟩ (fun _ => m) u = u := by
  funext i
  simp [uToX, (normal_ok hm).1, Normal.uToX]

theorem std_linearise {m : Marginal} (hm : Normal.new 0 (.fin 1) none = .ok m) (f : (Fin n → ℝ) → ℝ)
    (grad : (Fin n → ℝ) → Fin n → ℝ) (u : Fin n → ℝ) (s : Unit) :
    linearise ⟨1, 1⟩ (fun _ => m) (gradEv f grad) u s = (s, .ok ⟨u, u, u, 1, f u, grad u⟩) := by
  unfold linearise
  dsimp only
  rw [std_uToX hm]
  have hj : jacobian (n := n) ⟨1, 1⟩ (fun _ => m) u u = 1 := by
    unfold jacobian
    simp [(normal_ok hm).2.1, Normal.jac]
  have hi : npInv (1 : Matrix (Fin n) (Fin n) ℝ) = .ok 1 := by
    unfold npInv
    rw [if_pos (by simp)]
    simp
  rw [hj, hi]
  simp [gradEv]

/-- A run of two passes with step one: the tangent plane at the mean touches the limit state surface at a stationary point. -/
theorem two_steps {m : Marginal} (hm : Normal.new 0 (.fin 1) none = .ok m) {f : (Fin n → ℝ) → ℝ}
    {grad : (Fin n → ℝ) → Fin n → ℝ} (h0 : f 0 ≠ 0) (hg0 : grad 0 ≠ 0) {u1 : Fin n → ℝ}
    (hu1 : ∀ i, u1 i = f 0 * (norm2 (grad 0))⁻¹ * alpha (grad 0) i) (h1 : f u1 = 0) (hg1 : grad u1 ≠ 0) {b : ℝ}
    (hb : alpha (grad u1) ⬝ᵥ u1 = b) (hpar : ∀ i, u1 i = b * alpha (grad u1) i) {iMax : ℕ} (hi : 3 ≤ iMax) {e1 e2 : ℝ} (he1 : 0 < e1)
    (he1' : e1 ≤ 1) (he2 : 0 < e2) (fuel : ℕ) (k : ℕ) :
    runFrom ⟨1, 1⟩ (fun _ => m) (gradEv f grad) ⟨iMax, e1, e2, 1, k⟩ (fuel + 2) () =
      some (.done ⟨2, ⟨u1, u1, u1, 1, 0, grad u1⟩, f 0, alpha (grad u1), b, StdNormal.cdf (-b)⟩ ()) := by
  have hst : startingPoint (n := n) ⟨1, 1⟩ (fun _ => m) = 0 := by
    unfold startingPoint xToU
    funext i
    simp [(normal_ok hm).2.2.1, (normal_ok hm).2.2.2.2.2, Normal.xToU]
  have it1 : iteration ⟨1, 1⟩ (fun _ => m) (gradEv f grad) ⟨iMax, e1, e2, 1, k⟩ 1 0 0 () = .next (f 0) u1 () := by
    unfold iteration
    rw [std_linearise hm]
    simp only [if_true, if_neg hg0]
    have hc : cond1 ⟨iMax, e1, e2, 1, k⟩ (f 0) (f 0) = false := by
      unfold cond1
      rw [mul_inv_cancel₀ h0]
      simp only [abs_one, decide_eq_false_iff_not, not_and, not_lt]
      exact fun _ => he1'
    have hi1 : decide (1 = iMax) = false := by rw [decide_eq_false_iff_not]; omega
    rw [hc]
    simp only [Bool.false_and, Bool.false_or, hi1, Bool.false_eq_true, if_false]
    simp only [getStepSize, one_ne_zero, if_false]
    congr 1
    funext i
    rw [hu1]
    simp [direction]
  have it2 : iteration ⟨1, 1⟩ (fun _ => m) (gradEv f grad) ⟨iMax, e1, e2, 1, k⟩ 2 (f 0) u1 () =
      .done ⟨2, ⟨u1, u1, u1, 1, 0, grad u1⟩, f 0, alpha (grad u1), b, StdNormal.cdf (-b)⟩ () := by
    unfold iteration
    rw [std_linearise hm]
    have h21 : (2 : ℕ) ≠ 1 := by norm_num
    simp only [if_neg h21, if_neg hg1]
    have hc1 : cond1 ⟨iMax, e1, e2, 1, k⟩ (f u1) (f 0) = true := by
      unfold cond1
      rw [h1, zero_mul, abs_zero]
      simp only [decide_eq_true_eq]
      exact ⟨h0, he1⟩
    have hc2 : cond2 ⟨iMax, e1, e2, 1, k⟩ u1 (alpha (grad u1)) = true := by
      unfold cond2 err2
      rw [hb]
      have e : (fun i => u1 i - b * alpha (grad u1) i) = fun _ => 0 := by funext i; rw [hpar i]; ring
      rw [e]
      simp only [decide_eq_true_eq, norm2]
      simpa using he2
    rw [hc1, hc2]
    simp only [Bool.true_and, Bool.true_or, if_true, hb, h1]
  unfold runFrom
  rw [hst]
  unfold loop
  rw [it1]
  dsimp only
  unfold loop
  rw [it2]

theorem std_ok {m : Marginal} (hm : Normal.new 0 (.fin 1) none = .ok m) : RoundTrip m univ ∧ JacobianCorrect m univ := by
  obtain ⟨m', h', -, -, -, h1, h2, -⟩ := (good_normal 0 one_pos none).ex
  rw [hm] at h'; injection h' with h'; subst h'
  exact ⟨h1, h2⟩

/-- The failure probability and the least distance of the two-sided failure set of `C99_local`. -/
noncomputable def twoSided (x : Fin 1 → ℝ) : ℝ := (3 - x 0) * (1 + x 0) * (1 - x 0 + x 0 ^ 2)

noncomputable def twoSidedGrad (x : Fin 1 → ℝ) : Fin 1 → ℝ := fun _ =>
  -((1 + x 0) * (1 - x 0 + x 0 ^ 2)) + (3 - x 0) * (1 - x 0 + x 0 ^ 2) + (3 - x 0) * (1 + x 0) * (-1 + 2 * x 0)

theorem twoSided_hasFDerivAt (x : Fin 1 → ℝ) : HasFDerivAt twoSided (gradMap (twoSidedGrad x)) x := by
  have hp : HasFDerivAt (fun x : Fin 1 → ℝ => x 0) (ContinuousLinearMap.proj (R := ℝ) (φ := fun _ : Fin 1 => ℝ) 0) x :=
    (ContinuousLinearMap.proj (R := ℝ) (φ := fun _ : Fin 1 => ℝ) 0).hasFDerivAt
  have h := ((hp.const_sub 3).mul (hp.const_add 1)).mul ((hp.const_sub 1).add (hp.pow 2))
  refine h.congr_fderiv ?_
  ext v
  simp [gradMap_apply, twoSidedGrad]
  ring

theorem twoSided_neg (x : Fin 1 → ℝ) : twoSided x ≤ 0 ↔ 3 ≤ x 0 ∨ x 0 ≤ -1 := by
  have hq : 0 < 1 - x 0 + x 0 ^ 2 := by nlinarith [sq_nonneg (x 0 - 1 / 2)]
  unfold twoSided
  constructor
  · intro h
    by_contra h'
    push Not at h'
    exact absurd h (not_le.2 (mul_pos (mul_pos (sub_pos.2 h'.1) (by linarith [h'.2])) hq))
  · intro h
    refine mul_nonpos_of_nonpos_of_nonneg ?_ hq.le
    rcases h with h | h <;> nlinarith

theorem len_one (u : Fin 1 → ℝ) : len u = |u 0| := by
  unfold len
  rw [Fin.sum_univ_one, Real.sqrt_sq_eq_abs]

/-- C99: without convexity FORM can be wrong about the distance even when it has converged exactly.  For the limit state
`(3 - x)(1 + x)(1 - x + x²)` of one standard normal variable (failure for `x ≥ 3` and for `x ≤ -1`), with the exact gradient, unit steps and any
tolerances, FORM stops after two passes at the stationary point `u = 3` on the limit state surface and reports `β = 3`, `Pf = Φ(-3)`.  The failure
set has distance 1 and probability `Φ(-3) + Φ(-1)`. -/
theorem C99_local {m : Marginal} (hm : Normal.new 0 (.fin 1) none = .ok m) {iMax : ℕ} (hi : 3 ≤ iMax) {e1 e2 : ℝ} (he1 : 0 < e1)
    (he1' : e1 ≤ 1) (he2 : 0 < e2) (fuel k : ℕ) : ∃ r : Result 1,
    runFrom ⟨1, 1⟩ (fun _ => m) (gradEv twoSided twoSidedGrad) ⟨iMax, e1, e2, 1, k⟩ (fuel + 2) () = some (.done r ()) ∧
    (∀ x, HasFDerivAt twoSided (gradMap (twoSidedGrad x)) x) ∧
    r.i = 2 ∧ r.point.G = 0 ∧ (∀ i, r.point.u i = r.beta * r.alpha i) ∧ r.beta = 3 ∧ r.Pf = StdNormal.cdf (-3) ∧
    IsLeast (len '' {u | twoSided (uToX ⟨1, 1⟩ (fun _ => m) u) ≤ 0}) 1 ∧
    (stdGauss 1).real {u | twoSided (uToX ⟨1, 1⟩ (fun _ => m) u) ≤ 0} = StdNormal.cdf (-3) + StdNormal.cdf (-1) := by
  have hg0 : twoSidedGrad 0 = fun _ => -1 := by funext i; simp [twoSidedGrad]
  have hg3 : twoSidedGrad (fun _ => 3) = fun _ => -28 := by funext i; simp [twoSidedGrad]; norm_num
  have hn : ∀ c : ℝ, norm2 (fun _ : Fin 1 => c) = |c| := fun c => len_one _
  have ha0 : alpha (twoSidedGrad 0) = fun _ => 1 := by
    funext i; rw [hg0]; simp [alpha, hn]
  have ha3 : alpha (twoSidedGrad (fun _ => 3)) = fun _ => 1 := by
    funext i; rw [hg3]; simp [alpha, hn]
  have h0 : twoSided 0 = 3 := by simp [twoSided]
  have hrun := two_steps hm (f := twoSided) (grad := twoSidedGrad) (by rw [h0]; norm_num)
    (by rw [hg0]; intro h; have := congrFun h 0; norm_num at this) (u1 := fun _ => 3)
    (fun i => by rw [ha0, h0, hg0, hn]; norm_num) (by simp [twoSided])
    (by rw [hg3]; intro h; have := congrFun h 0; norm_num at this) (b := 3) (by rw [ha3]; simp [dotProduct])
    (fun i => by rw [ha3]; norm_num) hi he1 he1' he2 fuel k
  refine ⟨_, hrun, twoSided_hasFDerivAt, rfl, rfl, fun i => by simp [ha3], rfl, rfl, ?_, ?_⟩
  · simp only [std_uToX hm]
    refine ⟨⟨fun _ => -1, (twoSided_neg _).2 (Or.inr le_rfl), by rw [len_one]; norm_num⟩, ?_⟩
    rintro _ ⟨u, hu, rfl⟩
    rw [len_one]
    rcases (twoSided_neg u).1 hu with h | h
    · exact le_trans (by linarith) (le_abs_self _)
    · exact le_trans (by linarith) (neg_le_abs _)
  · simp only [std_uToX hm]
    have e : {u : Fin 1 → ℝ | twoSided u ≤ 0} = {u : Fin 1 → ℝ | 3 + ∑ i, (fun _ => (-1 : ℝ)) i * u i ≤ 0} ∪
        {u : Fin 1 → ℝ | 1 + ∑ i, (fun _ => (1 : ℝ)) i * u i ≤ 0} := by
      ext u
      simp only [mem_setOf_eq, mem_union, twoSided_neg, Fin.sum_univ_one]
      constructor
      · rintro (h | h)
        · left; linarith
        · right; linarith
      · rintro (h | h)
        · left; linarith
        · right; linarith
    haveI : IsProbabilityMeasure (stdGauss 1) := by unfold stdGauss; infer_instance
    rw [e, measureReal_union]
    · rw [halfspace_prob _ (by simp), halfspace_prob _ (by simp)]
      simp
    · rw [disjoint_left]
      intro u h1 h2
      simp only [mem_setOf_eq, Fin.sum_univ_one] at h1 h2
      linarith
    · exact measurableSet_le (by fun_prop) measurable_const

/-- A convex limit state of two variables. -/
noncomputable def bowl (x : Fin 2 → ℝ) : ℝ := 3 - x 0 + x 1 ^ 2 / 4

noncomputable def bowlGrad (x : Fin 2 → ℝ) : Fin 2 → ℝ := ![-1, x 1 / 2]

/-- A case of `C99_convex`: the curved limit state `3 - x₀ + x₁²/4` of two standard normal variables; FORM finds the distance 3, which is the
least distance of a failure point. -/
example {la : LinAlg} (hla : LinAlgOK la) : ∃ m r, Normal.new 0 (.fin 1) none = .ok m ∧
    runFrom ⟨1, 1⟩ (fun _ => m) (gradEv bowl bowlGrad) ⟨100, 0.001, 0.001, 1, 1⟩ 100 () = some (.done r ()) ∧ r.beta = 3 ∧
    IsLeast (len '' {u | bowl (uToX ⟨1, 1⟩ (fun _ => m) u) ≤ 0}) 3 := by
  obtain ⟨m, hm, -⟩ := C12_normal 0 (σ := 1) one_pos none
  have hg0 : bowlGrad 0 = ![-1, 0] := by funext i; fin_cases i <;> simp [bowlGrad]
  have hg3 : bowlGrad ![3, 0] = ![-1, 0] := by funext i; fin_cases i <;> simp [bowlGrad]
  have hn : norm2 ![(-1 : ℝ), 0] = 1 := by unfold norm2; rw [Fin.sum_univ_two]; simp
  have ha : alpha ![(-1 : ℝ), 0] = ![1, 0] := by funext i; fin_cases i <;> simp [alpha, hn]
  have hne : (![-1, 0] : Fin 2 → ℝ) ≠ 0 := fun h => by have := congrFun h 0; norm_num at this
  have hrun := two_steps hm (f := bowl) (grad := bowlGrad) (by simp [bowl]) (by rw [hg0]; exact hne) (u1 := ![3, 0])
    (fun i => by rw [hg0, hn, ha]; fin_cases i <;> simp [bowl]) (by simp [bowl]) (by rw [hg3]; exact hne) (b := 3)
    (by rw [hg3, ha]; simp) (fun i => by rw [hg3, ha]; fin_cases i <;> simp) (iMax := 100) (by norm_num)
    (e1 := 0.001) (e2 := 0.001) (by norm_num) (by norm_num) (by norm_num) 98 1
  have hconv : ConvexOn ℝ univ (fun u => bowl (uToX ⟨1, 1⟩ (fun _ => m) u)) := by
    simp only [std_uToX hm]
    refine ⟨convex_univ, fun x _ y _ a b ha hb hab => ?_⟩
    simp only [bowl, Pi.add_apply, Pi.smul_apply, smul_eq_mul]
    obtain rfl : b = 1 - a := by linarith
    nlinarith [mul_nonneg (mul_nonneg ha hb) (sq_nonneg (x 1 - y 1))]
  have h := (C99_convex (t := ⟨1, 1⟩) (marg := fun _ => m) (S := fun _ => univ) (compute_one hla) (fun _ => (std_ok hm).1) (fun _ => isOpen_univ)
    (fun _ => (std_ok hm).2) (f := bowl) (grad := bowlGrad) (fun x _ => ?_) hconv (gradEv_exact bowl bowlGrad) (fun _ _ _ _ _ _ => trivial)
    (s := ()) trivial hrun).2.2 (by simp [bowl]) (by norm_num) (fun i => by
      change (![3, 0] : Fin 2 → ℝ) i = 3 * alpha (bowlGrad ![3, 0]) i
      rw [hg3, ha]; fin_cases i <;> simp)
  · exact ⟨m, _, hm, hrun, rfl, h⟩
  · have hp : ∀ i : Fin 2, HasFDerivAt (fun x : Fin 2 → ℝ => x i) (ContinuousLinearMap.proj (R := ℝ) (φ := fun _ : Fin 2 => ℝ) i) x :=
      fun i => (ContinuousLinearMap.proj (R := ℝ) (φ := fun _ : Fin 2 => ℝ) i).hasFDerivAt
    have h := ((hp 0).const_sub 3).add (((hp 1).pow 2).mul_const (4 : ℝ)⁻¹)
    refine h.congr_fderiv ?_
    ext v
    simp [gradMap_apply, bowlGrad]
    ring

/-- A concave limit state of two variables. -/
noncomputable def dome (x : Fin 2 → ℝ) : ℝ := 3 - x 0 - x 1 ^ 2 / 4

noncomputable def domeGrad (x : Fin 2 → ℝ) : Fin 2 → ℝ := ![-1, -x 1 / 2]

/-- A case of `C99_concave`: the curved limit state `3 - x₀ - x₁²/4` of two standard normal variables; FORM reports 3, and there is a failure
point at that distance. -/
example {la : LinAlg} (hla : LinAlgOK la) : ∃ m r, Normal.new 0 (.fin 1) none = .ok m ∧
    runFrom ⟨1, 1⟩ (fun _ => m) (gradEv dome domeGrad) ⟨100, 0.001, 0.001, 1, 1⟩ 100 () = some (.done r ()) ∧ r.beta = 3 ∧
    ∃ u, dome (uToX ⟨1, 1⟩ (fun _ => m) u) ≤ 0 ∧ len u = 3 := by
  obtain ⟨m, hm, -⟩ := C12_normal 0 (σ := 1) one_pos none
  have hg0 : domeGrad 0 = ![-1, 0] := by funext i; fin_cases i <;> simp [domeGrad]
  have hg3 : domeGrad ![3, 0] = ![-1, 0] := by funext i; fin_cases i <;> simp [domeGrad]
  have hn : norm2 ![(-1 : ℝ), 0] = 1 := by unfold norm2; rw [Fin.sum_univ_two]; simp
  have ha : alpha ![(-1 : ℝ), 0] = ![1, 0] := by funext i; fin_cases i <;> simp [alpha, hn]
  have hne : (![-1, 0] : Fin 2 → ℝ) ≠ 0 := fun h => by have := congrFun h 0; norm_num at this
  have hrun := two_steps hm (f := dome) (grad := domeGrad) (by simp [dome]) (by rw [hg0]; exact hne) (u1 := ![3, 0])
    (fun i => by rw [hg0, hn, ha]; fin_cases i <;> simp [dome]) (by simp [dome]) (by rw [hg3]; exact hne) (b := 3)
    (by rw [hg3, ha]; simp) (fun i => by rw [hg3, ha]; fin_cases i <;> simp) (iMax := 100) (by norm_num)
    (e1 := 0.001) (e2 := 0.001) (by norm_num) (by norm_num) (by norm_num) 98 1
  have hconv : ConcaveOn ℝ univ (fun u => dome (uToX ⟨1, 1⟩ (fun _ => m) u)) := by
    simp only [std_uToX hm]
    refine ⟨convex_univ, fun x _ y _ a b ha hb hab => ?_⟩
    simp only [dome, Pi.add_apply, Pi.smul_apply, smul_eq_mul]
    obtain rfl : b = 1 - a := by linarith
    nlinarith [mul_nonneg (mul_nonneg ha hb) (sq_nonneg (x 1 - y 1))]
  have h := C99_concave (t := ⟨1, 1⟩) (marg := fun _ => m) (S := fun _ => univ) (compute_one hla) (fun _ => (std_ok hm).1) (fun _ => isOpen_univ)
    (fun _ => (std_ok hm).2) (f := dome) (grad := domeGrad) (fun x _ => ?_) hconv (gradEv_exact dome domeGrad) (fun _ _ _ _ _ _ => trivial)
    (s := ()) trivial hrun
  · refine ⟨m, _, hm, hrun, rfl, ?_⟩
    simpa using h
  · have hp : ∀ i : Fin 2, HasFDerivAt (fun x : Fin 2 → ℝ => x i) (ContinuousLinearMap.proj (R := ℝ) (φ := fun _ : Fin 2 => ℝ) i) x :=
      fun i => (ContinuousLinearMap.proj (R := ℝ) (φ := fun _ : Fin 2 => ℝ) i).hasFDerivAt
    have h := ((hp 0).const_sub 3).sub (((hp 1).pow 2).mul_const (4 : ℝ)⁻¹)
    refine h.congr_fderiv ?_
    ext v
    simp [gradMap_apply, domeGrad]
    ring

end Pystra.Props
