import Verif.Props.ScalingForm
import Verif.Model.Sorm

/-! C89: SORM and the unit of the limit-state function. -/

namespace Pystra.Props
open Matrix Spec Transformation Form LimitState

variable {σ : Type} {n m : ℕ} {c : ℝ}

theorem sormEval_scaled {ev ev' : Evaluator σ n} {t : Mats n} {marg : Fin n → Marginal} (he : ScaledEval c ev ev') (x : Fin n → ℝ)
    (s : σ) : Sorm.evaluateLSF t marg ev' x s = ((Sorm.evaluateLSF t marg ev x s).1,
      mapOk (fun p => (c * p.1, fun k => c * p.2 k)) (Sorm.evaluateLSF t marg ev x s).2) := by
  unfold Sorm.evaluateLSF
  rw [he.withGrad]
  rcases ev.withGrad s x with ⟨s1, e | ⟨G, g, xa⟩⟩
  · rfl
  simp only [mapOk]
  rcases npInv (jacobian t marg (xToU t marg xa) xa) with e | J
  · rfl
  simp only [mapOk]
  congr 3
  funext k
  simp only [vecMul, dot_scaled]

theorem hessianColumns_scaled {ev ev' : Evaluator σ n} {t : Mats n} {marg : Fin n → Marginal} (he : ScaledEval c ev ev')
    (u0 grad0 : Fin n → ℝ) (h : ℝ) : ∀ (is : List (Fin n)) (s : σ),
    Sorm.hessianColumns t marg ev' u0 (fun k => c * grad0 k) h is s = ((Sorm.hessianColumns t marg ev u0 grad0 h is s).1,
      mapOk (List.map (fun (v : Fin n → ℝ) k => c * v k)) (Sorm.hessianColumns t marg ev u0 grad0 h is s).2)
  | [], _ => rfl
  | i :: is, s => by
    unfold Sorm.hessianColumns
    rw [sormEval_scaled he]
    rcases Sorm.evaluateLSF t marg ev (uToX t marg (Function.update u0 i (u0 i + h))) s with ⟨s1, e | ⟨G, g⟩⟩
    · rfl
    simp only [mapOk]
    rw [hessianColumns_scaled he u0 grad0 h is]
    rcases Sorm.hessianColumns t marg ev u0 grad0 h is s1 with ⟨s2, e | cols⟩
    · rfl
    simp only [mapOk, List.map_cons]
    congr 3
    funext k
    ring

theorem hessian_scaled {ev ev' : Evaluator σ n} {t : Mats n} {marg : Fin n → Marginal} (he : ScaledEval c ev ev') (x0 u0 : Fin n → ℝ)
    (ffdpara : ℝ) (s : σ) : Sorm.computeHessianAt t marg ev' x0 u0 ffdpara s = ((Sorm.computeHessianAt t marg ev x0 u0 ffdpara s).1,
      mapOk (fun H => c • H) (Sorm.computeHessianAt t marg ev x0 u0 ffdpara s).2) := by
  unfold Sorm.computeHessianAt
  by_cases h0 : ffdpara = 0
  · rw [if_pos h0, if_pos h0]; rfl
  rw [if_neg h0, if_neg h0]
  dsimp only
  rw [sormEval_scaled he]
  rcases Sorm.evaluateLSF t marg ev x0 s with ⟨s1, e | ⟨G, g⟩⟩
  · rfl
  simp only [mapOk]
  rw [hessianColumns_scaled he]
  rcases Sorm.hessianColumns t marg ev u0 g (1 / ffdpara) (List.finRange n) s1 with ⟨s2, e | cols⟩
  · rfl
  simp only [mapOk]
  congr 2
  funext i j
  show _ = c * cols.getD j.val 0 i
  rw [List.getD_eq_getElem?_getD, List.getD_eq_getElem?_getD, List.getElem?_map]
  rcases cols[j.val]? with _ | v <;> simp

variable {ev ev' : Evaluator σ (m + 1)} {t : Mats (m + 1)} {marg : Fin (m + 1) → Marginal}

/-- **C89** (SORM, curve fitting).  Multiplying the limit-state function by `c > 0` -- the FORM result supplied being that of the
multiplied function -- changes nothing in the results of curve-fitting SORM: same curvatures, failure probabilities, indices, state and
exceptions, for any eigenvalue routine. -/
theorem C89_curvefit (hc : 0 < c) (he : ScaledEval c ev ev') (eig : Matrix (Fin m) (Fin m) ℝ → List ℝ) (form : Result (m + 1))
    (ffdpara : ℝ) (print : Bool) (s : σ) :
    Sorm.runCurvefit eig t marg ev' (scaledResult c form) ffdpara print s = Sorm.runCurvefit eig t marg ev form ffdpara print s := by
  unfold Sorm.runCurvefit Sorm.fitCurvatures designPoint
  have ha : (scaledResult c form).alpha = form.alpha := by simp [scaledResult, sign_pos hc]
  have hb : (scaledResult c form).beta = form.beta := by simp [scaledResult, sign_pos hc]
  have hu : (scaledResult c form).point.u = form.point.u := rfl
  have hg : (scaledResult c form).point.gradient = fun k => c * form.point.gradient k := rfl
  rw [ha, hb, hu, hg, hessian_scaled he]
  rcases Sorm.computeHessianAt t marg ev (if false = true then form.point.u else uToX t marg form.point.u)
    (if true = true then form.point.u else uToX t marg form.point.u) ffdpara s with ⟨s1, e | H⟩
  · rfl
  simp only [mapOk]
  rcases Sorm.orthonormalMatrix form.alpha with e | R
  · rfl
  have hA : (norm2 fun k => c * form.point.gradient k)⁻¹ • (R * (c • H) * Rᵀ) = (norm2 form.point.gradient)⁻¹ • (R * H * Rᵀ) := by
    rw [norm2_scaled, abs_of_pos hc, Matrix.mul_smul, Matrix.smul_mul, smul_smul, mul_inv]
    congr 1
    field_simp
  simp only [hA]

theorem newton_flat {R : Matrix (Fin (m + 1)) (Fin (m + 1)) ℝ} {axis : Fin m} {a v G : ℝ} {g : Fin (m + 1) → ℝ} {s s' : σ}
    (h : Sorm.evaluateLSF t marg ev (uToX t marg (Rᵀ.mulVec (Sorm.trialPoint axis a v))) s = (s', .ok (G, g))) (hG : |G| < 1e-6) :
    Sorm.newton t marg ev R axis a 50 v s = (s', .ok v) := by
  unfold Sorm.newton
  rw [h]
  dsimp only
  rw [if_pos hG]

/-- The point fit when the limit-state function is everywhere smaller than the code's tolerance. -/
theorem fitAxes_flat (R : Matrix (Fin (m + 1)) (Fin (m + 1)) ℝ) (beta k : ℝ) {P : σ → Prop}
    (hev : ∀ s x, P s → ∃ s' G g, Sorm.evaluateLSF t marg ev x s = (s', .ok (G, g)) ∧ |G| < 1e-6 ∧ P s') :
    ∀ (is : List (Fin m)) (s : σ), P s → ∃ s', Sorm.fitAxes t marg ev R beta k is s = (s', .ok (is.map fun _ => (0, 0))) ∧ P s'
  | [], s, hs => ⟨s, rfl, hs⟩
  | i :: is, s, hs => by
    have key : ∀ sign s, P s → ∃ s', Sorm.findFittingPoint t marg ev R i sign beta k s = (s', .ok 0) ∧ P s' := by
      intro sign s hs
      obtain ⟨s', G, g, h1, h2, h3⟩ := hev s (uToX t marg (Rᵀ.mulVec (Sorm.trialPoint i (sign * k * beta) beta))) hs
      refine ⟨s', ?_, h3⟩
      unfold Sorm.findFittingPoint
      rw [newton_flat h1 h2]
      simp
    obtain ⟨s1, h1, p1⟩ := key (-1) s hs
    obtain ⟨s2, h2, p2⟩ := key 1 s1 p1
    obtain ⟨s3, h3, p3⟩ := fitAxes_flat R beta k hev is s2 p2
    refine ⟨s3, ?_, p3⟩
    unfold Sorm.fitAxes
    rw [h1]
    dsimp only
    rw [h2]
    dsimp only
    rw [h3]
    rfl

theorem pfAsym_flat (b beta : ℝ) (k : ℕ) :
    (Sorm.pfAsym b beta (List.replicate k 0) (List.replicate k 0)).pf = .fin (StdNormal.cdf (-beta)) := by
  unfold Sorm.pfAsym
  rw [if_neg]
  · dsimp only
    congr 1
    have : (List.zipWith (fun kp km : ℝ => 0.5 * ((1 + b * kp) ^ (-0.5 : ℝ) + (1 + b * km) ^ (-0.5 : ℝ))) (List.replicate k 0)
        (List.replicate k 0)) = List.replicate k 1 := by
      rw [List.zipWith_replicate']
      congr 1
      norm_num
    rw [this]
    simp
  · rintro (⟨x, hx, h⟩ | ⟨x, hx, h⟩) <;> rw [List.eq_of_mem_replicate hx] at h <;> norm_num at h

theorem flat_rows (k : ℕ) : (List.map Prod.fst (List.map (fun _ : Fin k => ((0:ℝ), (0:ℝ))) (List.finRange k)) = List.replicate k 0) ∧
    (List.map Prod.snd (List.map (fun _ : Fin k => ((0:ℝ), (0:ℝ))) (List.finRange k)) = List.replicate k 0) := by
  constructor <;> simp [List.map_map, Function.comp_def]

/-- **C89** (SORM, point fitting).  Point-fitting SORM does depend on the unit: its test for convergence compares the value of the
limit-state function with `1e-6`.  In a unit so large that all values are below that (any function bounded by `B`, times a small `c`),
every trial point is accepted where it is: all curvatures are reported as `0` and the second-order probability is the FORM one, whatever
the function. -/
theorem C89_pointfit (he : ScaledEval c ev ev') {B : ℝ} (hB : |c| * B < 1e-6) {P : σ → Prop}
    (hev : ∀ s x, P s → ∃ s' G g, Sorm.evaluateLSF t marg ev x s = (s', .ok (G, g)) ∧ |G| ≤ B ∧ P s')
    {R : Matrix (Fin (m + 1)) (Fin (m + 1)) ℝ} {form : Result (m + 1)} (hR : Sorm.orthonormalMatrix form.alpha = .ok R)
    (hb : form.beta ≠ 0) (s : σ) (hs : P s) :
    ∃ s' r, Sorm.runPointfit t marg ev' form false s = (s', .ok r) ∧ r.kappa = List.replicate m 0 ∧ r.betaHL = form.beta ∧
      r.breitung.pf = .fin (StdNormal.cdf (-form.beta)) ∧ r.breitungM.pf = .fin (StdNormal.cdf (-form.beta)) := by
  obtain ⟨s', h, -⟩ := fitAxes_flat (t := t) (marg := marg) (ev := ev') (P := P) R form.beta (Sorm.stepCoeff form.beta) (by
    intro s x hs
    obtain ⟨s', G, g, h1, h2, h3⟩ := hev s x hs
    refine ⟨s', c * G, fun k => c * g k, ?_, ?_, h3⟩
    · rw [sormEval_scaled he, h1]; rfl
    · rw [abs_mul]
      exact (mul_le_mul_of_nonneg_left h2 (abs_nonneg c)).trans_lt hB) (List.finRange m) s hs
  refine ⟨s', ?_⟩
  unfold Sorm.runPointfit Sorm.fitPoints
  rw [hR]
  dsimp only
  rw [if_neg hb, h]
  dsimp only
  refine ⟨_, rfl, ?_, rfl, ?_, ?_⟩
  · unfold Sorm.sort
    have : (List.map (fun p : ℝ × ℝ => 0.5 * (p.1 + p.2)) (List.map (fun _ : Fin m => ((0:ℝ), (0:ℝ))) (List.finRange m))) = List.replicate m 0 := by
      rw [List.map_map]
      refine List.eq_replicate_iff.2 ⟨by simp, ?_⟩
      intro b hb
      obtain ⟨a, -, rfl⟩ := List.mem_map.1 hb
      simp
    rw [this]
    exact List.perm_replicate.1 (List.perm_insertionSort _ _)
  · simp only [flat_rows]; exact pfAsym_flat _ _ _
  · simp only [flat_rows]; exact pfAsym_flat _ _ _

end Pystra.Props
