import Verif.Props.SormCurvature
import Verif.Props.SormPointfit
import Verif.Lemmas.Families

/-! Concrete cases that meet the hypotheses of C48 and C49. -/

namespace Pystra.Props
open Matrix Spec Transformation Form Sorm

/-- A rotation of the plane. -/
noncomputable def exQ : Matrix (Fin (1 + 1)) (Fin (1 + 1)) ℝ := !![4/5, -3/5; 3/5, 4/5]

theorem exQ_mul : exQ * exQᵀ = 1 := by
  ext i j
  fin_cases i <;> fin_cases j <;> simp [exQ, Matrix.mul_apply, Fin.sum_univ_two] <;> norm_num

/-- A curved limit state `2 - v₁ + ¼ v₀²` (`v = exQ u`) as a quadratic of the standard normal variables. -/
noncomputable def exK : Matrix (Fin (1 + 1)) (Fin (1 + 1)) ℝ :=
  (1 : ℝ) • (exQᵀ * diagonal (Fin.snoc (fun _ : Fin 1 => (1/2 : ℝ)) 0 : Fin (1 + 1) → ℝ) * exQ)

theorem exK_symm : exK.IsSymm := by
  unfold exK IsSymm
  rw [transpose_smul, transpose_mul, transpose_mul, transpose_transpose, diagonal_transpose, Matrix.mul_assoc]

/-- The linear part of the same limit state. -/
noncomputable def exB : Fin (1 + 1) → ℝ := fun j => -1 * exQ (Fin.last 1) j

theorem ex_quad (u : Fin (1 + 1) → ℝ) :
    (1 : ℝ) * (2 - exQ.mulVec u (Fin.last 1) + 1 / 2 * ∑ i : Fin 1, (fun _ => (1/2 : ℝ)) i * exQ.mulVec u i.castSucc ^ 2) =
      quad 2 exB exK u := by
  rw [paraboloid_quad, one_mul]
  rfl

/-- the FORM result at the apex -/
noncomputable def exForm : Result (1 + 1) :=
  ⟨2, ⟨![6/5, 8/5], ![6/5, 8/5], ![6/5, 8/5], 1, 0, ![-3/5, -4/5]⟩, 2, ![3/5, 4/5], 2, StdNormal.cdf (-2)⟩

/-- An instance of the hypotheses of `C48_curvatures`: two standard normal variables, a parabola of curvature 1/2 at distance 2 in a
rotated frame; the curvature is found and Breitung's formula gives `Φ(-2)/√2`. -/
example {la : LinAlg} (hla : LinAlgOK la) {eig : Matrix (Fin 1) (Fin 1) ℝ → List ℝ} (heig : EigOK eig) :
    ∃ t marg r, Transformation.compute la .svd (1 : Matrix (Fin (1 + 1)) (Fin (1 + 1)) ℝ) = .ok t ∧
    runCurvefit eig t marg (⟨fun _ x => ((), .ok (quad 2 exB exK (t.T.mulVec x), vecMul (exB + exK.mulVec (t.T.mulVec x)) t.T, x)),
      fun _ _ => ((), .ok [])⟩ : Evaluator Unit (1 + 1)) exForm 1000 false () = ((), .ok r) ∧
    r.kappa = [1/2] ∧ r.breitung.pf = .fin (StdNormal.cdf (-2) * (1 / √2)) := by
  obtain ⟨t, ht, -, hT, hT'⟩ := C22_posdef hla .svd (Ro := (1 : Matrix (Fin (1 + 1)) (Fin (1 + 1)) ℝ)) PosDef.one
  have hm : ∀ i : Fin (1 + 1), ∃ m, Normal.new 0 (.fin (1 : ℝ)) none = .ok m := fun i => ⟨_, rfl⟩
  choose marg hmarg using hm
  have hgood : ∀ i, RoundTrip (marg i) Set.univ ∧ JacobianCorrect (marg i) Set.univ := by
    intro i
    obtain ⟨m', h', -, -, -, h1, h2, -⟩ := (good_normal 0 one_pos none).ex
    rw [hmarg i] at h'; injection h' with h'; subst h'
    exact ⟨h1, h2⟩
  have hx : ∀ u, uToX t marg u = t.invT.mulVec u := by
    intro u
    funext i
    simp [uToX, (normal_ok (hmarg i)).1, Normal.uToX]
  obtain ⟨s', r, h1, -, -, h4, -, h6⟩ := C48_curvatures heig ht marg (fun _ => Set.univ) (fun i => (hgood i).1)
    (fun _ => isOpen_univ) (fun i => (hgood i).2) (fun i z => by simp [(normal_ok (hmarg i)).2.1, Normal.jac])
    (ev := (⟨fun _ x => ((), .ok (quad 2 exB exK (t.T.mulVec x), vecMul (exB + exK.mulVec (t.T.mulVec x)) t.T, x)),
      fun _ _ => ((), .ok [])⟩ : Evaluator Unit (1 + 1))) (P := fun _ => True)
    (f := fun x => quad 2 exB exK (t.T.mulVec x)) (grad := fun x => vecMul (exB + exK.mulVec (t.T.mulVec x)) t.T)
    (fun u => by
      have h := (quad_hasFDerivAt 2 exB exK_symm (t.T.mulVec (uToX t marg u))).comp (uToX t marg u) (linMap t.T).hasFDerivAt
      refine h.congr_fderiv ?_
      ext v
      simp only [ContinuousLinearMap.comp_apply, gradMap_apply, linMap_apply]
      change (exB + exK.mulVec (t.T.mulVec (uToX t marg u))) ⬝ᵥ t.T.mulVec v = vecMul _ t.T ⬝ᵥ v
      rw [dotProduct_mulVec])
    (fun _ _ u => ⟨(), rfl, trivial⟩) exQ_mul (fun _ => 1/2) (c := 1) (β := 2) one_pos
    (fun u => by
      change quad 2 exB exK (t.T.mulVec (uToX t marg u)) = _
      rw [ex_quad, hx, mulVec_mulVec, hT, one_mulVec])
    (form := exForm) (by funext i; fin_cases i <;> simp [exForm, exQ, Fin.last]) rfl
    (by
      simp only [exForm, norm2]
      rw [Real.sqrt_eq_one]
      rw [show (∑ i : Fin (1 + 1), ![(-3/5 : ℝ), -4/5] i ^ 2) = ∑ i : Fin 2, ![(-3/5 : ℝ), -4/5] i ^ 2 from rfl, Fin.sum_univ_two]
      norm_num)
    one_ne_zero (by simp [exForm, Fin.last]; norm_num) (para := 1000) (by norm_num) () trivial
  refine ⟨t, marg, r, ht, h1, ?_, ?_⟩
  · simpa using h4
  · rw [h6 (by norm_num) (fun _ => by norm_num)]
    norm_num

/-- An instance of `C49_point` and `C49_parabola`: the same limit state by point fitting finds the curvature 1/2 on both sides. -/
example {la : LinAlg} (hla : LinAlgOK la) : ∃ t marg,
    Transformation.compute la .svd (1 : Matrix (Fin (1 + 1)) (Fin (1 + 1)) ℝ) = .ok t ∧
    ∀ sign : ℝ, sign = 1 ∨ sign = -1 →
      findFittingPoint t marg (⟨fun _ x => ((), .ok (quad 2 exB exK (t.T.mulVec x), vecMul (exB + exK.mulVec (t.T.mulVec x)) t.T, x)),
        fun _ _ => ((), .ok [])⟩ : Evaluator Unit (1 + 1)) exQ 0 sign 2 (stepCoeff 2) () = ((), .ok (1 / 2)) := by
  obtain ⟨t, ht, -, hT, hT'⟩ := C22_posdef hla .svd (Ro := (1 : Matrix (Fin (1 + 1)) (Fin (1 + 1)) ℝ)) PosDef.one
  have hm : ∀ i : Fin (1 + 1), ∃ m, Normal.new 0 (.fin (1 : ℝ)) none = .ok m := fun i => ⟨_, rfl⟩
  choose marg hmarg using hm
  have hx : ∀ u, uToX t marg u = t.invT.mulVec u := by
    intro u
    funext i
    simp [uToX, (normal_ok (hmarg i)).1, Normal.uToX]
  refine ⟨t, marg, ht, fun sign hs => ?_⟩
  obtain ⟨s', -, h⟩ := C49_parabola (t := t) (marg := marg)
    (ev := (⟨fun _ x => ((), .ok (quad 2 exB exK (t.T.mulVec x), vecMul (exB + exK.mulVec (t.T.mulVec x)) t.T, x)),
        fun _ _ => ((), .ok [])⟩ : Evaluator Unit (1 + 1))) (P := fun _ => True) (q := quad 2 exB exK)
    (G := fun u => exB + exK.mulVec u)
    (fun _ _ u => ⟨(), by
      unfold evaluateLSF
      dsimp only
      rw [normal_jacobian_inv hT' (μ := fun _ => 0) (sd := fun _ => 1) (fun _ => one_pos) hmarg]
      dsimp only
      rw [hx, mulVec_mulVec, hT, one_mulVec]
      refine Prod.ext rfl (congrArg Except.ok (Prod.ext rfl ?_))
      dsimp only
      rw [vecMul_vecMul, diagonal_one, Matrix.one_mul, hT, vecMul_one], trivial⟩)
    (fun u => quad_hasFDerivAt 2 exB exK_symm u) exQ_mul (c0 := 1) (by norm_num) (β := 2) (by norm_num) (fun _ => 1/2)
    (fun u => by
      rw [ex_quad]) 0 hs () trivial
  rw [h, if_neg]
  norm_num [fitDistance]

end Pystra.Props
