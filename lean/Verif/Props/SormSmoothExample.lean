import Verif.Props.SormSmooth
import Verif.Props.FormDistanceExample

/-! C108: a limit state for which the Hessian by differences has complex eigenvalues, and concrete cases. -/

namespace Pystra.Props
open Matrix Spec Transformation Form Sorm Polynomial

/-- A limit state that is not quadratic: at `(0, 0, b)` it has the principal curvatures `k₁` and `k₂`. -/
noncomputable def twistG (k₁ k₂ a b : ℝ) : (Fin (2 + 1) → ℝ) → ℝ := fun u =>
  b - u 2 + k₁ / 2 * u 0 ^ 2 + k₂ / 2 * u 1 ^ 2 + a / 2 * (u 1 ^ 2 * u 0 - u 0 ^ 2 * u 1)

noncomputable def twistGrad (k₁ k₂ a : ℝ) : (Fin (2 + 1) → ℝ) → Fin (2 + 1) → ℝ := fun u =>
  ![k₁ * u 0 + a / 2 * u 1 ^ 2 - a * u 0 * u 1, k₂ * u 1 + a * u 0 * u 1 - a / 2 * u 0 ^ 2, -1]

noncomputable def twistH (k₁ k₂ a : ℝ) : (Fin (2 + 1) → ℝ) → Matrix (Fin (2 + 1)) (Fin (2 + 1)) ℝ := fun u =>
  !![k₁ - a * u 1, a * u 1 - a * u 0, 0; a * u 1 - a * u 0, k₂ + a * u 0, 0; 0, 0, 0]

theorem coord_hasFDerivAt (i : Fin (2 + 1)) (u : Fin (2 + 1) → ℝ) :
    HasFDerivAt (fun v : Fin (2 + 1) → ℝ => v i) (ContinuousLinearMap.proj (R := ℝ) (φ := fun _ : Fin (2 + 1) => ℝ) i) u :=
  (ContinuousLinearMap.proj (R := ℝ) (φ := fun _ : Fin (2 + 1) => ℝ) i).hasFDerivAt

theorem twistG_hasFDerivAt (k₁ k₂ a b : ℝ) (u : Fin (2 + 1) → ℝ) :
    HasFDerivAt (twistG k₁ k₂ a b) (gradMap (twistGrad k₁ k₂ a u)) u := by
  have h0 := coord_hasFDerivAt 0 u
  have h1 := coord_hasFDerivAt 1 u
  have h2 := coord_hasFDerivAt 2 u
  have h := (((h2.const_sub b).add ((h0.pow 2).const_mul (k₁ / 2))).add ((h1.pow 2).const_mul (k₂ / 2))).add
    ((((h1.pow 2).mul h0).sub ((h0.pow 2).mul h1)).const_mul (a / 2))
  refine h.congr_fderiv ?_
  ext v
  rw [gradMap_apply, Fin.sum_univ_three]
  simp [twistGrad]
  ring

theorem twistGrad_hasFDerivAt (k₁ k₂ a : ℝ) (u : Fin (2 + 1) → ℝ) (i : Fin (2 + 1)) :
    HasFDerivAt (fun v => twistGrad k₁ k₂ a v i) (gradMap (twistH k₁ k₂ a u i)) u := by
  have h0 := coord_hasFDerivAt 0 u
  have h1 := coord_hasFDerivAt 1 u
  fin_cases i
  · have h := ((h0.const_mul k₁).add ((h1.pow 2).const_mul (a / 2))).sub ((h0.const_mul a).mul h1)
    refine h.congr_fderiv ?_
    ext v
    rw [gradMap_apply, Fin.sum_univ_three]
    simp [twistH]
    ring
  · have h := ((h1.const_mul k₂).add ((h0.const_mul a).mul h1)).sub ((h0.pow 2).const_mul (a / 2))
    refine h.congr_fderiv ?_
    ext v
    rw [gradMap_apply, Fin.sum_univ_three]
    simp [twistH]
    ring
  · refine (hasFDerivAt_const (-1 : ℝ) u).congr_fderiv ?_
    ext v
    rw [gradMap_apply, Fin.sum_univ_three]
    simp [twistH]

theorem std_gives {n : ℕ} {m : Marginal} (hm : Normal.new 0 (.fin 1) none = .ok m) (f : (Fin n → ℝ) → ℝ)
    (grad : (Fin n → ℝ) → Fin n → ℝ) : Gives ⟨1, 1⟩ (fun _ => m) (gradEv f grad) (fun _ => True) f grad := by
  intro s _ u
  refine ⟨s, ?_, trivial⟩
  have h := std_linearise hm f grad u s
  unfold evaluateLSF
  rw [std_uToX hm]
  have hj : jacobian (n := n) ⟨1, 1⟩ (fun _ => m) (xToU ⟨1, 1⟩ (fun _ => m) u) u = 1 := by
    unfold jacobian
    simp [(normal_ok hm).2.1, Normal.jac]
  have hi : npInv (1 : Matrix (Fin n) (Fin n) ℝ) = .ok 1 := by
    unfold npInv
    rw [if_pos (by simp)]
    simp
  simp [gradEv, hj, hi]

/-- The point at which the axis pierces the limit state surface. -/
def twistPoint (b : ℝ) : Fin (2 + 1) → ℝ := ![0, 0, b]

theorem twistGrad_axis (k₁ k₂ a b : ℝ) : twistGrad k₁ k₂ a (twistPoint b) = ![0, 0, -1] := by
  simp [twistGrad, twistPoint]

theorem axis_norm : norm2 (![0, 0, -1] : Fin (2 + 1) → ℝ) = 1 := by
  unfold norm2
  rw [Fin.sum_univ_three]
  simp

theorem axis_alpha : alpha (![0, 0, -1] : Fin (2 + 1) → ℝ) = ![0, 0, 1] := by
  funext i
  unfold alpha
  rw [axis_norm]
  fin_cases i <;> simp

/-- FORM finds the axis of the limit state `twistG`. -/
theorem twist_form {m : Marginal} (hm : Normal.new 0 (.fin 1) none = .ok m) (k₁ k₂ a : ℝ) {b : ℝ} (hb : 0 < b) {iMax : ℕ} (hi : 3 ≤ iMax)
    {e1 e2 : ℝ} (he1 : 0 < e1) (he1' : e1 ≤ 1) (he2 : 0 < e2) (fuel k : ℕ) :
    runFrom ⟨1, 1⟩ (fun _ => m) (gradEv (twistG k₁ k₂ a b) (twistGrad k₁ k₂ a)) ⟨iMax, e1, e2, 1, k⟩ (fuel + 2) () =
      some (.done ⟨2, ⟨twistPoint b, twistPoint b, twistPoint b, 1, 0, ![0, 0, -1]⟩, b, ![0, 0, 1], b, StdNormal.cdf (-b)⟩ ()) := by
  have h0 : twistG k₁ k₂ a b 0 = b := by simp [twistG]
  have hg0 : twistGrad k₁ k₂ a 0 = ![0, 0, -1] := by simp [twistGrad]
  have hne : (![0, 0, -1] : Fin (2 + 1) → ℝ) ≠ 0 := fun h => by
    have := congrFun h 2
    simp at this
  have hrun := two_steps hm (f := twistG k₁ k₂ a b) (grad := twistGrad k₁ k₂ a) (by rw [h0]; exact hb.ne') (by rw [hg0]; exact hne)
    (u1 := twistPoint b) (fun i => by rw [h0, hg0, axis_norm, axis_alpha]; fin_cases i <;> simp [twistPoint])
    (by simp [twistG, twistPoint]) (by rw [twistGrad_axis]; exact hne) (b := b)
    (by rw [twistGrad_axis, axis_alpha]; simp [twistPoint, dotProduct, Fin.sum_univ_three])
    (fun i => by rw [twistGrad_axis, axis_alpha]; fin_cases i <;> simp [twistPoint]) hi he1 he1' he2 fuel k
  rw [twistGrad_axis, axis_alpha, h0] at hrun
  exact hrun

/-- **C108** (complex eigenvalues).  The limit state `b - u₂ + k/2 (u₀² + u₁²) + a/2 (u₁² u₀ - u₀² u₁)` of three standard normal variables is
smooth; FORM, with the exact gradient, finds its design point `(0, 0, b)` in two passes, and both principal curvatures there are `k`.  But the matrix
whose eigenvalues SORM asks for has, for every `ffdpara`, the eigenvalues `k ± i a/(2 ffdpara)`: if `a ≠ 0`, none is real. -/
theorem C108_complex {m : Marginal} (hm : Normal.new 0 (.fin 1) none = .ok m) (k : ℝ) {a b : ℝ} (ha : a ≠ 0) (hb : 0 < b)
    {iMax : ℕ} (hi : 3 ≤ iMax) {e1 e2 : ℝ} (he1 : 0 < e1) (he1' : e1 ≤ 1) (he2 : 0 < e2) (fuel q : ℕ) {para : ℝ} (hp : 0 < para) :
    ∃ form : Form.Result (2 + 1), runFrom ⟨1, 1⟩ (fun _ => m) (gradEv (twistG k k a b) (twistGrad k k a)) ⟨iMax, e1, e2, 1, q⟩ (fuel + 2) () =
        some (.done form ()) ∧
      form.beta = b ∧ form.alpha = ![0, 0, 1] ∧ norm2 form.point.gradient = 1 ∧
      (∀ i, HasFDerivAt (fun v => twistGrad k k a v i) (gradMap ((diagonal ![k, k, 0] : Matrix (Fin (2 + 1)) (Fin (2 + 1)) ℝ) i))
        form.point.u) ∧
      ∃ A : Matrix (Fin 2) (Fin 2) ℝ, A.charpoly = (X - C k) ^ 2 + C ((a / (2 * para)) ^ 2) ∧ (∀ x, ¬A.charpoly.IsRoot x) ∧
        ∀ eig : Matrix (Fin 2) (Fin 2) ℝ → List ℝ, ∃ r,
          runCurvefit eig ⟨1, 1⟩ (fun _ => m) (gradEv (twistG k k a b) (twistGrad k k a)) form para false () = ((), .ok r) ∧
          r.kappa = Sorm.sort (eig A) := by
  refine ⟨_, twist_form hm k k a hb hi he1 he1' he2 fuel q, rfl, rfl, axis_norm, fun i => ?_, ?_⟩
  · refine (twistGrad_hasFDerivAt k k a (twistPoint b) i).congr_fderiv ?_
    congr 1
    fin_cases i <;> funext j <;> fin_cases j <;> simp [twistH, twistPoint]
  obtain ⟨form, hform⟩ : ∃ form : Form.Result (2 + 1), form =
      ⟨2, ⟨twistPoint b, twistPoint b, twistPoint b, 1, 0, ![0, 0, -1]⟩, b, ![0, 0, 1], b, StdNormal.cdf (-b)⟩ := ⟨_, rfl⟩
  rw [← hform]
  have hal : form.alpha = ![0, 0, 1] := by rw [hform]
  have hu : form.point.u = twistPoint b := by rw [hform]
  have hgr : norm2 form.point.gradient = 1 := by rw [hform]; exact axis_norm
  obtain ⟨s', hM, -⟩ := hessian_of_gives (std_gives hm (twistG k k a b) (twistGrad k k a)) form hp.ne' () trivial
  obtain ⟨K, hK⟩ : ∃ K : Matrix (Fin (2 + 1)) (Fin (2 + 1)) ℝ, K = !![k, a / (2 * para), 0; -(a / (2 * para)), k, 0; 0, 0, 0] := ⟨_, rfl⟩
  have e : (fun i j => (twistGrad k k a (Function.update form.point.u j (form.point.u j + 1 / para)) i - twistGrad k k a form.point.u i) /
      (1 / para)) = K := by
    rw [hu, twistGrad_axis, hK]
    funext i j
    fin_cases i <;> fin_cases j <;> simp [twistGrad, twistPoint, Function.update] <;> field_simp
  rw [e] at hM
  have hal1 : form.alpha ⬝ᵥ form.alpha = 1 := by rw [hal]; simp [dotProduct, Fin.sum_univ_three]
  obtain ⟨R, hRot⟩ := (C47_defined form.alpha hal1).2.1 (by norm_num) (by rw [hal]; simp [Fin.last]; norm_num)
  obtain ⟨hR, hR', hRl, -⟩ := C47_rotation hal1 hRot
  obtain ⟨W, hW, hblock⟩ := block_any (m := 2) hR hR' (Q := 1) (by simp) (by simp) (by
    rw [hRl, hal]
    funext j
    fin_cases j <;> simp [Fin.last, one_apply])
  have hA : ((1:ℝ)⁻¹ • (R * K * Rᵀ)).submatrix Fin.castSucc Fin.castSucc =
      W * (!![k, a / (2 * para); -(a / (2 * para)), k] * Wᵀ) := by
    rw [inv_one, one_smul, hblock, hK]
    congr 2
    ext i j
    fin_cases i <;> fin_cases j <;> simp
  have hch : (((1:ℝ)⁻¹ • (R * K * Rᵀ)).submatrix Fin.castSucc Fin.castSucc).charpoly = (X - C k) ^ 2 + C ((a / (2 * para)) ^ 2) := by
    rw [hA, charpoly_mul_comm, Matrix.mul_assoc, hW, Matrix.mul_one, charpoly_fin_two]
    simp [trace_fin_two, det_fin_two]
    ring
  refine ⟨_, hch, fun x hx => ?_, fun eig => ⟨_, runCurvefit_ok eig hM hRot, by rw [hgr]⟩⟩
  rw [hch] at hx
  simp only [IsRoot, eval_add, eval_pow, eval_sub, eval_X, eval_C] at hx
  have : 0 < (a / (2 * para)) ^ 2 := by positivity
  nlinarith [sq_nonneg (x - k)]

/-! ### Concrete cases -/

/-- The result of FORM (see `twist_form`). -/
noncomputable def twistForm (b : ℝ) : Form.Result (2 + 1) :=
  ⟨2, ⟨twistPoint b, twistPoint b, twistPoint b, 1, 0, ![0, 0, -1]⟩, b, ![0, 0, 1], b, StdNormal.cdf (-b)⟩

/-- The limit state as a function of the physical variables, with its exact gradient. -/
noncomputable def twistEv (T : Matrix (Fin (2 + 1)) (Fin (2 + 1)) ℝ) (k₁ k₂ a b : ℝ) : Evaluator Unit (2 + 1) :=
  ⟨fun _ x => ((), .ok (twistG k₁ k₂ a b (T.mulVec x), vecMul (twistGrad k₁ k₂ a (T.mulVec x)) T, x)), fun _ _ => ((), .ok [])⟩

theorem twist_setting {la : LinAlg} (hla : LinAlgOK la) : ∃ t marg,
    Transformation.compute la .svd (1 : Matrix (Fin (2 + 1)) (Fin (2 + 1)) ℝ) = .ok t ∧
    (∀ i, RoundTrip (marg i) Set.univ ∧ JacobianCorrect (marg i) Set.univ) ∧ (∀ i z, (marg i).jac z ((marg i).uToX z) ≠ 0) ∧
    (∀ k₁ k₂ a b u, HasFDerivAt (fun x => twistG k₁ k₂ a b (t.T.mulVec x))
      (gradMap (vecMul (twistGrad k₁ k₂ a (t.T.mulVec (uToX t marg u))) t.T)) (uToX t marg u)) ∧
    (∀ u, t.T.mulVec (uToX t marg u) = u) := by
  obtain ⟨t, ht, -, hT, hT'⟩ := C22_posdef hla .svd (Ro := (1 : Matrix (Fin (2 + 1)) (Fin (2 + 1)) ℝ)) PosDef.one
  have hm : ∀ i : Fin (2 + 1), ∃ m, Normal.new 0 (.fin (1 : ℝ)) none = .ok m := fun i => ⟨_, rfl⟩
  choose marg hmarg using hm
  have hgood : ∀ i, RoundTrip (marg i) Set.univ ∧ JacobianCorrect (marg i) Set.univ := by
    intro i
    obtain ⟨m', h', -, -, -, h1, h2, -⟩ := (good_normal 0 one_pos none).ex
    rw [hmarg i] at h'; injection h' with h'; subst h'
    exact ⟨h1, h2⟩
  have hx : ∀ u, uToX t marg u = t.invT.mulVec u := by
    intro u
    funext i
    simp [uToX, (normal_ok (hmarg i)).1, Normal.uToX]
  refine ⟨t, marg, ht, hgood, fun i z => by simp [(normal_ok (hmarg i)).2.1, Normal.jac], fun k₁ k₂ a b u => ?_, fun u => ?_⟩
  · have h := (twistG_hasFDerivAt k₁ k₂ a b (t.T.mulVec (uToX t marg u))).comp (uToX t marg u) (linMap t.T).hasFDerivAt
    refine h.congr_fderiv ?_
    ext v
    simp only [ContinuousLinearMap.comp_apply, gradMap_apply, linMap_apply]
    change twistGrad k₁ k₂ a (t.T.mulVec (uToX t marg u)) ⬝ᵥ t.T.mulVec v = vecMul _ t.T ⬝ᵥ v
    rw [dotProduct_mulVec]
  · rw [hx, mulVec_mulVec, hT, one_mulVec]

theorem twist_lipschitz (k₁ k₂ a : ℝ) (u v : Fin (2 + 1) → ℝ) (i j : Fin (2 + 1)) :
    |twistH k₁ k₂ a u i j - twistH k₁ k₂ a v i j| ≤ 2 * |a| * len (u - v) := by
  have hc : ∀ l : Fin (2 + 1), |u l - v l| ≤ len (u - v) := by
    intro l
    unfold len
    rw [← Real.sqrt_sq_eq_abs]
    exact Real.sqrt_le_sqrt (Finset.single_le_sum (f := fun l => (u - v) l ^ 2) (fun _ _ => sq_nonneg _) (Finset.mem_univ l))
  have h0 := hc 0
  have h1 := hc 1
  have hl : 0 ≤ len (u - v) := Real.sqrt_nonneg _
  have ha := abs_nonneg a
  have b1 : |a| * |u 0 - v 0| ≤ |a| * len (u - v) := mul_le_mul_of_nonneg_left h0 ha
  have b2 : |a| * |u 1 - v 1| ≤ |a| * len (u - v) := mul_le_mul_of_nonneg_left h1 ha
  have b3 : 0 ≤ |a| * len (u - v) := mul_nonneg ha hl
  have c1 : |k₁ - a * u 1 - (k₁ - a * v 1)| ≤ 2 * |a| * len (u - v) := by
    rw [show k₁ - a * u 1 - (k₁ - a * v 1) = -(a * (u 1 - v 1)) by ring, abs_neg, abs_mul]; linarith
  have c2 : |a * u 1 - a * u 0 - (a * v 1 - a * v 0)| ≤ 2 * |a| * len (u - v) := by
    rw [show a * u 1 - a * u 0 - (a * v 1 - a * v 0) = a * (u 1 - v 1) - a * (u 0 - v 0) by ring]
    refine (abs_sub _ _).trans ?_
    rw [abs_mul, abs_mul]; linarith
  have c3 : |k₂ + a * u 0 - (k₂ + a * v 0)| ≤ 2 * |a| * len (u - v) := by
    rw [show k₂ + a * u 0 - (k₂ + a * v 0) = a * (u 0 - v 0) by ring, abs_mul]; linarith
  have c4 : |(0:ℝ) - 0| ≤ 2 * |a| * len (u - v) := by rw [sub_zero, abs_zero]; positivity
  fin_cases i <;> fin_cases j <;> first | exact c1 | exact c2 | exact c3 | exact c4

theorem twist_frame (k₁ k₂ a b : ℝ) : ((1 : Matrix (Fin (2 + 1)) (Fin (2 + 1)) ℝ) * twistH k₁ k₂ a (twistPoint b) *
    (1 : Matrix (Fin (2 + 1)) (Fin (2 + 1)) ℝ)ᵀ).submatrix Fin.castSucc Fin.castSucc =
    norm2 (twistForm b).point.gradient • diagonal ![k₁, k₂] := by
  have : norm2 (twistForm b).point.gradient = 1 := axis_norm
  rw [this, one_smul, transpose_one, Matrix.one_mul, Matrix.mul_one]
  ext i j
  fin_cases i <;> fin_cases j <;> simp [twistH, twistPoint]

/-- A case of `C108_curvatures`: the accuracy of the curvatures for the limit state `twistG`, with the default `ffdpara = 1000`:
`3/1000 |a|`. -/
example {la : LinAlg} (hla : LinAlgOK la) (k₁ k₂ a b : ℝ) : ∃ t marg r,
    runCurvefit (m := 2) (fun M => M.charpoly.roots.toList) t marg (twistEv t.T k₁ k₂ a b) (twistForm b) 1000 false () = ((), .ok r) ∧
    ∀ k ∈ r.kappa, |k - k₁| ≤ 3 / 1000 * |a| ∨ |k - k₂| ≤ 3 / 1000 * |a| := by
  obtain ⟨t, marg, ht, hg, hne, hf, hx⟩ := twist_setting hla
  obtain ⟨s', r, h1, -, h2⟩ := C108_curvatures ht marg (fun _ => Set.univ) (fun i => (hg i).1) (fun _ => isOpen_univ) (fun i => (hg i).2) hne
    (ev := twistEv t.T k₁ k₂ a b) (P := fun _ => True) (f := fun x => twistG k₁ k₂ a b (t.T.mulVec x))
    (grad := fun x => vecMul (twistGrad k₁ k₂ a (t.T.mulVec x)) t.T) (hf k₁ k₂ a b) (fun _ _ u => ⟨(), rfl, trivial⟩)
    (G := twistGrad k₁ k₂ a) (fun u => by simp only [hx]; exact twistG_hasFDerivAt k₁ k₂ a b u)
    (eig := fun M => M.charpoly.roots.toList) (fun M l hl => isRoot_of_mem_roots (Multiset.mem_toList.1 hl))
    (H := twistH k₁ k₂ a) (twistGrad_hasFDerivAt k₁ k₂ a) (twistForm b) (para := 1000) (L := 2 * |a|) (by norm_num) (by positivity)
    (fun u _ i j => twist_lipschitz k₁ k₂ a u _ i j) (Q := 1) (by simp)
    (by funext j; fin_cases j <;> simp [twistForm, Fin.last, one_apply]) ![k₁, k₂] (twist_frame k₁ k₂ a b)
    (by rw [show norm2 (twistForm b).point.gradient = 1 from axis_norm]; exact one_pos) two_ne_zero
    (by simp [twistForm, Fin.last]; norm_num) () trivial
  refine ⟨t, marg, r, h1, fun k hk => ?_⟩
  obtain ⟨i, hi⟩ := h2 k hk
  rw [show norm2 (twistForm b).point.gradient = 1 from axis_norm] at hi
  have e : (((2 : ℕ) : ℝ) + 1) * (2 * |a|) * (1 / 1000) / (2 * 1) = 3 / 1000 * |a| := by push_cast; ring
  rw [e] at hi
  fin_cases i
  · exact .inl hi
  · exact .inr hi

/-- A case of `C108_limit`: curvatures -1/10 and 1/5 at distance 2: for `ffdpara` large enough the probability by Breitung's formula
is as near as required to `Φ(-2) / √(0.8 · 1.4)`. -/
example {la : LinAlg} (hla : LinAlgOK la) {eig : Matrix (Fin 2) (Fin 2) ℝ → List ℝ} (heig : EigReal eig) (a : ℝ) : ∃ t marg,
    ∀ δ > 0, ∃ B : ℝ, ∀ para ≥ B, ∃ r p,
      runCurvefit eig t marg (twistEv t.T (-1 / 10) (1 / 5) a 2) (twistForm 2) para false () = ((), .ok r) ∧ r.breitung.pf = .fin p ∧
      |p - StdNormal.cdf (-2) * (1 / √0.8 * (1 / √1.4))| ≤ δ := by
  obtain ⟨t, marg, ht, hg, hne, hf, hx⟩ := twist_setting hla
  refine ⟨t, marg, fun δ hδ => ?_⟩
  obtain ⟨B, -, h⟩ := C108_limit ht marg (fun _ => Set.univ) (fun i => (hg i).1) (fun _ => isOpen_univ) (fun i => (hg i).2) hne
    (ev := twistEv t.T (-1 / 10) (1 / 5) a 2) (P := fun _ => True) (f := fun x => twistG (-1 / 10) (1 / 5) a 2 (t.T.mulVec x))
    (grad := fun x => vecMul (twistGrad (-1 / 10) (1 / 5) a (t.T.mulVec x)) t.T) (hf _ _ a 2) (fun _ _ u => ⟨(), rfl, trivial⟩)
    (G := twistGrad (-1 / 10) (1 / 5) a) (fun u => by simp only [hx]; exact twistG_hasFDerivAt _ _ a 2 u) heig (twistForm 2)
    (H := twistH (-1 / 10) (1 / 5) a (twistPoint 2)) (twistGrad_hasFDerivAt _ _ a (twistPoint 2)) (Q := 1) (by simp)
    (by funext j; fin_cases j <;> simp [twistForm, Fin.last, one_apply]) (κ := ![-1 / 10, 1 / 5])
    (by
      intro i j hij
      fin_cases i <;> fin_cases j <;> simp at hij ⊢
      norm_num)
    (twist_frame _ _ a 2)
    (by rw [show norm2 (twistForm 2).point.gradient = 1 from axis_norm]; exact one_pos) two_ne_zero
    (by simp [twistForm, Fin.last]; norm_num) hδ
  refine ⟨B, fun para hp => ?_⟩
  obtain ⟨s', r, ρ, h1, -, -, -, -, h2, -⟩ := h para hp () trivial
  obtain ⟨p, h3, h4⟩ := h2 (by norm_num [twistForm]) (fun i => by fin_cases i <;> norm_num [twistForm])
  refine ⟨r, p, h1, h3, ?_⟩
  have e : StdNormal.cdf (-(twistForm 2).beta) * ∏ i, 1 / √(1 + (twistForm 2).beta * (![-1 / 10, 1 / 5] : Fin 2 → ℝ) i) =
      StdNormal.cdf (-2) * (1 / √0.8 * (1 / √1.4)) := by
    rw [Fin.prod_univ_two]
    norm_num [twistForm]
  rw [e] at h4
  exact h4

end Pystra.Props
