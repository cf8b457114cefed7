import Verif.Props.SormParaboloid
import Verif.Props.SormExample

/-! C98: concrete cases. -/

namespace Pystra.Props
open Matrix Spec Transformation Form Sorm MeasureTheory

/-- The parabola of curvature `κ` at distance `β` in the frame `exQ`, as a quadratic of the standard normal variables. -/
noncomputable def parK (κ : ℝ) : Matrix (Fin (1 + 1)) (Fin (1 + 1)) ℝ :=
  (1 : ℝ) • (exQᵀ * diagonal (Fin.snoc (fun _ : Fin 1 => κ) 0 : Fin (1 + 1) → ℝ) * exQ)

noncomputable def parB : Fin (1 + 1) → ℝ := fun j => -1 * exQ (Fin.last 1) j

theorem parK_symm (κ : ℝ) : (parK κ).IsSymm := by
  unfold parK IsSymm
  rw [transpose_smul, transpose_mul, transpose_mul, transpose_transpose, diagonal_transpose, Matrix.mul_assoc]

/-- The limit state function with its exact gradient. -/
noncomputable def parEv (T : Matrix (Fin (1 + 1)) (Fin (1 + 1)) ℝ) (β κ : ℝ) : Evaluator Unit (1 + 1) :=
  ⟨fun _ x => ((), .ok (quad (1 * β) parB (parK κ) (T.mulVec x), vecMul (parB + (parK κ).mulVec (T.mulVec x)) T, x)),
    fun _ _ => ((), .ok [])⟩

/-- The design point found by FORM. -/
noncomputable def parForm (β : ℝ) : Result (1 + 1) := { exForm with beta := β }

/-- A parabola of two standard normal variables, in any position: all the hypotheses of C98 hold. -/
theorem par_setting {la : LinAlg} (hla : LinAlgOK la) : ∃ t marg,
    Transformation.compute la .svd (1 : Matrix (Fin (1 + 1)) (Fin (1 + 1)) ℝ) = .ok t ∧
    (∀ i, RoundTrip (marg i) Set.univ ∧ JacobianCorrect (marg i) Set.univ) ∧ (∀ i z, (marg i).jac z ((marg i).uToX z) ≠ 0) ∧
    (∀ β κ u, HasFDerivAt (fun x => quad (1 * β) parB (parK κ) (t.T.mulVec x))
      (gradMap (vecMul (parB + (parK κ).mulVec (t.T.mulVec (uToX t marg u))) t.T)) (uToX t marg u)) ∧
    (∀ β κ u, quad (1 * β) parB (parK κ) (t.T.mulVec (uToX t marg u)) =
      1 * (β - exQ.mulVec u (Fin.last 1) + 1 / 2 * ∑ i : Fin 1, κ * exQ.mulVec u i.castSucc ^ 2)) := by
  obtain ⟨t, ht, -, hT, hT'⟩ := C22_posdef hla .svd (Ro := (1 : Matrix (Fin (1 + 1)) (Fin (1 + 1)) ℝ)) PosDef.one
  have hm : ∀ i : Fin (1 + 1), ∃ m, Normal.new 0 (.fin (1 : ℝ)) none = .ok m := fun i => ⟨_, rfl⟩
  choose marg hmarg using hm
  have hgood : ∀ i, RoundTrip (marg i) Set.univ ∧ JacobianCorrect (marg i) Set.univ := by
    intro i
    obtain ⟨m', h', -, -, -, h1, h2, -⟩ := (good_normal 0 one_pos none).ex
    rw [hmarg i] at h'; injection h' with h'; subst h'
    exact ⟨h1, h2⟩
  have hx : ∀ u, uToX t marg u = t.invT.mulVec u := by
    intro u
    funext i
    simp [uToX, (normal_ok (hmarg i)).1, Normal.uToX]
  refine ⟨t, marg, ht, hgood, fun i z => by simp [(normal_ok (hmarg i)).2.1, Normal.jac], fun β κ u => ?_, fun β κ u => ?_⟩
  · have h := (quad_hasFDerivAt (1 * β) parB (parK_symm κ) (t.T.mulVec (uToX t marg u))).comp (uToX t marg u) (linMap t.T).hasFDerivAt
    refine h.congr_fderiv ?_
    ext v
    simp only [ContinuousLinearMap.comp_apply, gradMap_apply, linMap_apply]
    change (parB + (parK κ).mulVec (t.T.mulVec (uToX t marg u))) ⬝ᵥ t.T.mulVec v = vecMul _ t.T ⬝ᵥ v
    rw [dotProduct_mulVec]
  · rw [paraboloid_quad exQ (fun _ => κ) 1 β u, hx, mulVec_mulVec, hT, one_mulVec]
    rfl

theorem parForm_grad (β : ℝ) : norm2 (parForm β).point.gradient = 1 := by
  simp only [parForm, exForm, norm2]
  rw [Real.sqrt_eq_one]
  rw [show (∑ i : Fin (1 + 1), ![(-3/5 : ℝ), -4/5] i ^ 2) = ∑ i : Fin 2, ![(-3/5 : ℝ), -4/5] i ^ 2 from rfl, Fin.sum_univ_two]
  norm_num

theorem parForm_alpha (β : ℝ) : (parForm β).alpha = exQ (Fin.last 1) := by
  funext i; fin_cases i <;> simp [parForm, exForm, exQ, Fin.last]

/-- A case of `C98_bounds`: a parabola of curvature 1/2 at distance 2, and its mirror image of curvature -1/5, with all the bounds. -/
example {la : LinAlg} (hla : LinAlgOK la) {eig : Matrix (Fin 1) (Fin 1) ℝ → List ℝ} (heig : EigOK eig) : ∃ t marg r r' p p' q q',
    runCurvefit eig t marg (parEv t.T 2 (1 / 2)) (parForm 2) 1000 false () = ((), .ok r) ∧
    runCurvefit eig t marg (parEv t.T 2 (-1 / 5)) (parForm 2) 1000 false () = ((), .ok r') ∧
    r.breitungM.pf = .fin p ∧ r.breitung.pf = .fin q ∧ r'.breitungM.pf = .fin p' ∧ r'.breitung.pf = .fin q' ∧
    (stdGauss (1 + 1)).real {u | quad (1 * 2) parB (parK (1 / 2)) (t.T.mulVec (uToX t marg u)) ≤ 0} ≤ p ∧ p ≤ q ∧
    q ≤ StdNormal.cdf (-2) ∧
    StdNormal.cdf (-2) ≤ (stdGauss (1 + 1)).real {u | quad (1 * 2) parB (parK (-1 / 5)) (t.T.mulVec (uToX t marg u)) ≤ 0} ∧
    (stdGauss (1 + 1)).real {u | quad (1 * 2) parB (parK (-1 / 5)) (t.T.mulVec (uToX t marg u)) ≤ 0} ≤ p' ∧
    StdNormal.cdf (-2) ≤ q' ∧ q' ≤ p' := by
  obtain ⟨t, marg, ht, hg, hne, hf, hq⟩ := par_setting hla
  have run := fun κ : ℝ => C98_bounds heig ht marg (fun _ => Set.univ) (fun i => (hg i).1) (fun _ => isOpen_univ) (fun i => (hg i).2) hne
    (ev := parEv t.T 2 κ) (P := fun _ => True) (f := fun x => quad (1 * 2) parB (parK κ) (t.T.mulVec x))
    (grad := fun x => vecMul (parB + (parK κ).mulVec (t.T.mulVec x)) t.T) (hf 2 κ) (fun _ _ u => ⟨(), rfl, trivial⟩) exQ_mul
    (fun _ => κ) (c := 1) (β := 2) one_pos (hq 2 κ) (form := parForm 2) (parForm_alpha 2) rfl (parForm_grad 2) one_ne_zero
    (by simp [parForm, exForm, Fin.last]; norm_num) (para := 1000) (by norm_num) () trivial
  obtain ⟨s1, r, h1, -, -, h2, -, -⟩ := run (1 / 2)
  obtain ⟨s2, r', k1, -, k2, -, k3, k4⟩ := run (-1 / 5)
  obtain ⟨p, q, a1, a2, a3, a4, a5⟩ := h2 (by norm_num) (fun _ => by norm_num)
  have hpsi : psi 2 < 5 := lt_trans (Pystra.psi_lt (x := 2) (by norm_num)) (by norm_num)
  have hv : ∀ _i : Fin 1, -1 / (StdNormal.pdf 2 / StdNormal.cdf (-2)) < (-1 / 5 : ℝ) := fun _ => by
    change -1 / psi 2 < _
    rw [div_lt_iff₀ (Pystra.psi_pos' 2)]
    linarith
  obtain ⟨p', b1, b2⟩ := k2 hv
  obtain ⟨p'', q', c1, c2, c3, c4⟩ := k4 (by norm_num) hv (fun _ => by norm_num)
  rw [b1] at c1
  injection c1 with c1
  exact ⟨t, marg, r, r', p, p', q, q', h1, k1, a1, a2, b1, c2, a3, a4, a5, k3 (fun _ => by norm_num), b2, c3, c1 ▸ c4⟩

/-- A case of `C98_asymptotic`: parabolas with `β κ = -1/2`; far enough out, both results are accurate to one per cent. -/
example {la : LinAlg} (hla : LinAlgOK la) {eig : Matrix (Fin 1) (Fin 1) ℝ → List ℝ} (heig : EigOK eig) : ∃ t marg B, ∀ β : ℝ, B ≤ β →
    ∃ r p q, runCurvefit eig t marg (parEv t.T β (-1 / 2 / β)) (parForm β) 1000 false () = ((), .ok r) ∧
      r.breitung.pf = .fin q ∧ r.breitungM.pf = .fin p ∧ 0 < p ∧ 0 < q ∧
      |(stdGauss (1 + 1)).real {u | quad (1 * β) parB (parK (-1 / 2 / β)) (t.T.mulVec (uToX t marg u)) ≤ 0} - q| ≤ 0.01 * q ∧
      |(stdGauss (1 + 1)).real {u | quad (1 * β) parB (parK (-1 / 2 / β)) (t.T.mulVec (uToX t marg u)) ≤ 0} - p| ≤ 0.01 * p := by
  obtain ⟨t, marg, ht, hg, hne, hf, hq⟩ := par_setting hla
  obtain ⟨B, -, hB⟩ := C98_asymptotic (m := 1) (fun _ => (-1 / 2 : ℝ)) (fun _ => by norm_num) (ε := 0.01) (by norm_num)
  refine ⟨t, marg, B, fun β hβ => ?_⟩
  obtain ⟨s', r, p, q, h1, -, h2⟩ := hB β hβ heig ht marg (fun _ => Set.univ) (fun i => (hg i).1) (fun _ => isOpen_univ)
    (fun i => (hg i).2) hne
    (ev := parEv t.T β (-1 / 2 / β)) (P := fun _ => True) (f := fun x => quad (1 * β) parB (parK (-1 / 2 / β)) (t.T.mulVec x))
    (grad := fun x => vecMul (parB + (parK (-1 / 2 / β)).mulVec (t.T.mulVec x)) t.T) (hf β _) (fun _ _ u => ⟨(), rfl, trivial⟩) exQ_mul
    (c := 1) one_pos (hq β _) (form := parForm β) (parForm_alpha β) rfl (parForm_grad β) one_ne_zero
    (by simp [parForm, exForm, Fin.last]; norm_num) (para := 1000) (by norm_num) () trivial
  exact ⟨r, p, q, h1, h2⟩

end Pystra.Props
