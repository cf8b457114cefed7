import Verif.Lemmas.SormRun
import Verif.Model.Sorm
import Verif.Props.FormLinear
import Verif.Props.FormCalls
import Verif.Props.SormRotation
import Mathlib.Analysis.Calculus.FDeriv.Mul
import Mathlib.Data.Nat.Choose.Basic
import Mathlib.Data.Nat.Choose.Sum
import Mathlib.Data.List.GetD

/-! C48: the finite-difference Hessian of curve-fitted SORM. -/

namespace Pystra.Props
open Matrix Spec Transformation Form Sorm

variable {σ : Type} {n m : ℕ}

/-- The quadratic function `c + b·u + ½ uᵀ K u`. -/
noncomputable def quad (c : ℝ) (b : Fin n → ℝ) (K : Matrix (Fin n) (Fin n) ℝ) (u : Fin n → ℝ) : ℝ :=
  c + b ⬝ᵥ u + 1 / 2 * (u ⬝ᵥ K.mulVec u)

theorem quad_add (c : ℝ) (b : Fin n → ℝ) {K : Matrix (Fin n) (Fin n) ℝ} (hK : K.IsSymm) (u v : Fin n → ℝ) :
    quad c b K (u + v) = quad c b K u + (b + K.mulVec u) ⬝ᵥ v + 1 / 2 * (v ⬝ᵥ K.mulVec v) := by
  have h : u ⬝ᵥ K.mulVec v = K.mulVec u ⬝ᵥ v := by
    rw [dotProduct_mulVec, ← mulVec_transpose, hK.eq]
  have h' : v ⬝ᵥ K.mulVec u = K.mulVec u ⬝ᵥ v := dotProduct_comm _ _
  unfold quad
  rw [mulVec_add, dotProduct_add, add_dotProduct, add_dotProduct, dotProduct_add, dotProduct_add, h, h']
  ring

theorem quad_hasFDerivAt (c : ℝ) (b : Fin n → ℝ) {K : Matrix (Fin n) (Fin n) ℝ} (hK : K.IsSymm) (u : Fin n → ℝ) :
    HasFDerivAt (quad c b K) (gradMap (b + K.mulVec u)) u := by
  have hl : HasFDerivAt (fun v => K.mulVec v) (linMap K) u := (linMap K).hasFDerivAt
  have hli : ∀ i, HasFDerivAt (fun v => K.mulVec v i) ((ContinuousLinearMap.proj i).comp (linMap K)) u := fun i =>
    (ContinuousLinearMap.proj (R := ℝ) (φ := fun _ : Fin n => ℝ) i).hasFDerivAt.comp u hl
  have hpi : ∀ i, HasFDerivAt (fun v : Fin n → ℝ => v i) (ContinuousLinearMap.proj (R := ℝ) (φ := fun _ : Fin n => ℝ) i) u :=
    fun i => (ContinuousLinearMap.proj (R := ℝ) (φ := fun _ : Fin n => ℝ) i).hasFDerivAt
  have h1 : HasFDerivAt (fun v : Fin n → ℝ => ∑ i, b i * v i) (∑ i, b i • ContinuousLinearMap.proj (R := ℝ) (φ := fun _ : Fin n => ℝ) i) u :=
    HasFDerivAt.fun_sum fun i _ => (hpi i).const_mul (b i)
  have h2 := HasFDerivAt.fun_sum (u := Finset.univ) fun i _ => (hpi i).mul (hli i)
  have h3 := (h1.const_add c).add (h2.const_mul (1 / 2))
  refine (h3.congr_fderiv ?_ : HasFDerivAt (quad c b K) _ u)
  ext v
  rw [gradMap_apply]
  have hv : ∑ i, v i * K.mulVec u i = ∑ i, u i * K.mulVec v i := by
    change v ⬝ᵥ K.mulVec u = u ⬝ᵥ K.mulVec v
    rw [dotProduct_comm v, dotProduct_mulVec, ← mulVec_transpose, hK.eq]
  simp only [ContinuousLinearMap.add_apply, ContinuousLinearMap.sum_apply, ContinuousLinearMap.smul_apply,
    ContinuousLinearMap.proj_apply, ContinuousLinearMap.comp_apply, linMap_apply, smul_eq_mul, Pi.add_apply, add_mul,
    Finset.sum_add_distrib]
  have hv' : ∑ i, K.mulVec u i * v i = ∑ i, u i * K.mulVec v i := by rw [← hv]; exact Finset.sum_congr rfl fun _ _ => mul_comm _ _
  rw [← hv, hv']
  simp only [← hv]
  ring

theorem gradMap_inj {a b : Fin n → ℝ} (h : gradMap a = gradMap b) : a = b := by
  funext i
  have := congrArg (fun L => L (Pi.single i 1)) h
  simpa [gradMap_apply, Pi.single_apply] using this

/-! ### The core -/

/-- What `evaluateLSF` gives at the points `u_to_x(u)`, as long as the state satisfies `P`. -/
def Gives (t : Mats n) (marg : Fin n → Marginal) (ev : Evaluator σ n) (P : σ → Prop) (q : (Fin n → ℝ) → ℝ)
    (G : (Fin n → ℝ) → Fin n → ℝ) : Prop :=
  ∀ s, P s → ∀ u, ∃ s', evaluateLSF t marg ev (uToX t marg u) s = (s', .ok (q u, G u)) ∧ P s'

theorem columns_of_gives {t : Mats n} {marg : Fin n → Marginal} {ev : Evaluator σ n} {P : σ → Prop}
    {q : (Fin n → ℝ) → ℝ} {G : (Fin n → ℝ) → Fin n → ℝ} (h : Gives t marg ev P q G) (u0 grad0 : Fin n → ℝ) (hh : ℝ)
    (is : List (Fin n)) (s : σ) (hs : P s) :
    ∃ s', hessianColumns t marg ev u0 grad0 hh is s =
      (s', .ok (is.map (fun j k => (G (Function.update u0 j (u0 j + hh)) k - grad0 k) / hh))) ∧ P s' := by
  induction is generalizing s with
  | nil => exact ⟨s, rfl, hs⟩
  | cons i is ih =>
    obtain ⟨s1, h1, hP1⟩ := h s hs (Function.update u0 i (u0 i + hh))
    obtain ⟨s2, h2, hP2⟩ := ih s1 hP1
    refine ⟨s2, ?_, hP2⟩
    unfold hessianColumns
    simp only [h1, h2, List.map_cons]

theorem hessian_of_gives {t : Mats n} {marg : Fin n → Marginal} {ev : Evaluator σ n} {P : σ → Prop}
    {q : (Fin n → ℝ) → ℝ} {G : (Fin n → ℝ) → Fin n → ℝ} (h : Gives t marg ev P q G) (form : Result n) {para : ℝ}
    (hp : para ≠ 0) (s : σ) (hs : P s) :
    ∃ s', computeHessian t marg ev form para s = (s', .ok (fun i j =>
      (G (Function.update form.point.u j (form.point.u j + 1 / para)) i - G form.point.u i) / (1 / para))) ∧ P s' := by
  obtain ⟨s1, h1, hP1⟩ := h s hs form.point.u
  obtain ⟨s2, h2, hP2⟩ := columns_of_gives h form.point.u (G form.point.u) (1 / para) (List.finRange n) s1 hP1
  refine ⟨s2, ?_, hP2⟩
  unfold computeHessian computeHessianAt
  rw [if_neg hp]
  simp only [designPoint, Bool.false_eq_true, if_false, if_true, h1, h2]
  congr 2
  funext i j
  rw [List.getD_eq_getElem _ _ (by simp)]
  simp

/-- With an affine gradient `b + K u` the Hessian is `K`. -/
theorem hessian_affine {t : Mats n} {marg : Fin n → Marginal} {ev : Evaluator σ n} {P : σ → Prop}
    {q : (Fin n → ℝ) → ℝ} {b : Fin n → ℝ} {K : Matrix (Fin n) (Fin n) ℝ}
    (h : Gives t marg ev P q (fun u => b + K.mulVec u)) (form : Result n) {para : ℝ}
    (hp : para ≠ 0) (s : σ) (hs : P s) : ∃ s', computeHessian t marg ev form para s = (s', .ok K) ∧ P s' := by
  obtain ⟨s', h1, h2⟩ := hessian_of_gives h form hp s hs
  refine ⟨s', ?_, h2⟩
  rw [h1]
  congr 2
  funext i j
  have hu : Function.update form.point.u j (form.point.u j + 1 / para) = form.point.u + (1 / para) • Pi.single j 1 := by
    funext k
    by_cases hk : k = j
    · subst hk; simp
    · simp [hk]
  rw [hu, mulVec_add, mulVec_smul, mulVec_single_one]
  simp only [Pi.add_apply, Pi.smul_apply, smul_eq_mul, col_apply]
  field_simp
  ring

/-- C48: a limit state `f` (with exact gradients, the array left unchanged: see `C48_ddm`) that is a quadratic
`c + b·u + ½uᵀKu` of the standard normal variables; any marginals with continuously invertible maps, any dependence,
either factorisation, any FORM result: `computeHessian` returns exactly `K`, for every step `1/ffdpara`. -/
theorem C48_exact {la : LinAlg} {ty : TransformType} {Ro : Matrix (Fin n) (Fin n) ℝ} {t : Mats n}
    (ht : Transformation.compute la ty Ro = .ok t) (marg : Fin n → Marginal) (S : Fin n → Set ℝ)
    (hmarg : ∀ i, RoundTrip (marg i) (S i)) (hS : ∀ i, IsOpen (S i)) (hj : ∀ i, JacobianCorrect (marg i) (S i))
    (hne : ∀ i z, (marg i).jac z ((marg i).uToX z) ≠ 0) {ev : Evaluator σ n} {P : σ → Prop} {f : (Fin n → ℝ) → ℝ}
    {grad : (Fin n → ℝ) → Fin n → ℝ} (hf : ∀ u, HasFDerivAt f (gradMap (grad (uToX t marg u))) (uToX t marg u))
    (hev : ∀ s, P s → ∀ u, ∃ s', ev.withGrad s (uToX t marg u) =
      (s', .ok (f (uToX t marg u), grad (uToX t marg u), uToX t marg u)) ∧ P s')
    (c : ℝ) (b : Fin n → ℝ) {K : Matrix (Fin n) (Fin n) ℝ} (hK : K.IsSymm)
    (hq : ∀ u, f (uToX t marg u) = quad c b K u) (form : Result n) {para : ℝ} (hp : para ≠ 0) (s : σ) (hs : P s) :
    ∃ s', computeHessian t marg ev form para s = (s', .ok K) ∧ P s' := by
  refine hessian_affine (q := quad c b K) (b := b) (K := K) ?_ form hp s hs
  intro s hs u
  obtain ⟨s', he, hP⟩ := hev s hs u
  obtain ⟨hex, hch⟩ := C23_chain_rule ht marg S hmarg hS hj u
  obtain ⟨Ji, hJi⟩ := hex.2 (fun i => hne i _)
  obtain ⟨-, hgr⟩ := hch Ji hJi
  have h1 := hgr f _ (hf u)
  have h2 : HasFDerivAt (fun v => f (uToX t marg v)) (gradMap (b + K.mulVec u)) u := by
    have : (fun v => f (uToX t marg v)) = quad c b K := funext hq
    rw [this]; exact quad_hasFDerivAt c b hK u
  refine ⟨s', ?_, hP⟩
  unfold evaluateLSF
  rw [he]
  simp only [(C21_round_trip ht marg S hmarg).2.1 u, hJi, hq, gradMap_inj (h1.unique h2)]

/-- The evaluator of the code in mode `ddm` meets the hypothesis of `C48_exact`: the user's function returns its value and its
gradient, the array stays as it was. -/
theorem C48_ddm {D : Type} {expr : Kwargs → GRet} (lo : LSOptions) (hmp : lo.multiProc ≠ 0) (hd : lo.diffMode = "ddm")
    (stdv : Fin n → ℝ) (m : StochModel D ℝ) (f : (Fin n → ℝ) → ℝ) (grad : (Fin n → ℝ) → Fin n → ℝ)
    (hr : ∀ x, ∃ kw, LimitState.inpdict m [x] = .ok kw ∧ expr kw = .tuple [.arr [f x], .arr (List.ofFn (grad x))])
    (ev : Ev D) (hev : ∃ k, ev.model = m.addCallFunction k) (x : Fin n → ℝ) :
    ∃ ev', (lsEvaluator expr lo stdv).withGrad ev x = (ev', .ok (f x, grad x, x)) ∧ ∃ k, ev'.model = m.addCallFunction k := by
  obtain ⟨k, hk⟩ := hev
  obtain ⟨kw, h1, h2⟩ := hr x
  have h1' : LimitState.inpdict ev.model [x] = .ok kw := by rw [hk, ← h1]; rfl
  obtain ⟨ev', out, h3, h4, h5, -⟩ := C08_ddm_single expr x ev kw h1' (f x) (List.ofFn (grad x)) (by simp) h2
  have he : LimitState.evaluateLsf (7 + n) expr lo stdv none [x] ev = some (ev', .ok out) := by
    rw [(C08_modes (7 + n) expr lo hmp stdv [x] ev).1 hd, h3]
  have hx := (C07_caller_array (7 + n) expr lo stdv [x] ev ev' out).2.1 h3
  refine ⟨ev', ?_, ?_⟩
  · have hg : out.grad = [grad x] := by
      match hgr : out.grad, h5 with
      | [], h5 => simp at h5
      | [a], h5 =>
        simp only [List.map_cons, List.map_nil, List.cons.injEq, and_true] at h5
        rw [List.ofFn_injective h5]
      | _ :: _ :: _, h5 => simp at h5
    simp only [lsEvaluator, he, h4, hg, hx]; rfl
  · have := (C04_counts _ _ _ _ _ _ _ _ _ he).2 out rfl
    rw [this, hk]
    exact ⟨_, addCall_addCall m k _⟩

theorem evaluateLSF_calls {D : Type} {t : Mats n} {marg : Fin n → Marginal} {expr : Kwargs → GRet} {lo : LSOptions}
    {stdv x : Fin n → ℝ} {ev ev' : Ev D} {r : ℝ × (Fin n → ℝ)}
    (h : evaluateLSF t marg (lsEvaluator expr lo stdv) x ev = (ev', .ok r)) :
    ev'.model = ev.model.addCallFunction (if lo.diffMode ≠ "no" ∧ lo.diffMode ≠ "ddm" then 1 + n else 1) := by
  unfold evaluateLSF at h
  split at h
  · cases h
  · next hev =>
    split at h
    · cases h
    · injection h with h1 h2
      subst h1
      exact withGrad_calls hev

theorem addCall_zero {D : Type} (m : StochModel D ℝ) : m.addCallFunction 0 = m := by
  simp [StochModel.addCallFunction]

theorem columns_calls {D : Type} {t : Mats n} {marg : Fin n → Marginal} {expr : Kwargs → GRet} {lo : LSOptions}
    {stdv u0 g0 : Fin n → ℝ} {hh : ℝ} (is : List (Fin n)) {ev ev' : Ev D} {cols : List (Fin n → ℝ)}
    (h : hessianColumns t marg (lsEvaluator expr lo stdv) u0 g0 hh is ev = (ev', .ok cols)) :
    ev'.model = ev.model.addCallFunction
      (is.length * (if lo.diffMode ≠ "no" ∧ lo.diffMode ≠ "ddm" then 1 + n else 1)) := by
  induction is generalizing ev ev' cols with
  | nil =>
    injection h with h1 h2
    subst h1
    simp [addCall_zero]
  | cons i is ih =>
    unfold hessianColumns at h
    split at h
    · cases h
    · next h1 =>
      split at h
      · cases h
      · next h2 =>
        injection h with h3 h4
        subst h3
        rw [ih h2, evaluateLSF_calls h1, addCall_addCall, List.length_cons]
        congr 1
        ring

/-- C48: whatever the limit state, a successful `computeHessian` costs `n + 1` gradient evaluations: `(n+1)²` evaluations of
the limit state with finite differences, `n + 1` otherwise; nothing else of the model changes. -/
theorem C48_calls {D : Type} {t : Mats n} {marg : Fin n → Marginal} {expr : Kwargs → GRet} {lo : LSOptions}
    {stdv : Fin n → ℝ} {form : Result n} {para : ℝ} {ev ev' : Ev D} {H : Matrix (Fin n) (Fin n) ℝ}
    (h : computeHessian t marg (lsEvaluator expr lo stdv) form para ev = (ev', .ok H)) :
    ev'.model = ev.model.addCallFunction
      (if lo.diffMode ≠ "no" ∧ lo.diffMode ≠ "ddm" then (n + 1) ^ 2 else n + 1) := by
  unfold computeHessian computeHessianAt at h
  split_ifs at h
  · cases h
  split at h
  · cases h
  · next h1 =>
    dsimp only at h
    split at h
    · cases h
    · next h2 =>
      injection h with h3 h4
      subst h3
      rw [columns_calls _ h2, evaluateLSF_calls h1, addCall_addCall, List.length_finRange]
      congr 1
      split_ifs <;> ring

/-! ### Finite-difference gradients -/

theorem normal_jacobian_inv {t : Mats n} (h2 : t.invT * t.T = 1) {marg : Fin n → Marginal} {μ sd : Fin n → ℝ}
    {sp : Fin n → Option ℝ} (hsd : ∀ i, 0 < sd i) (hm : ∀ i, Normal.new (μ i) (.fin (sd i)) (sp i) = .ok (marg i))
    (u x : Fin n → ℝ) : npInv (jacobian t marg u x) = .ok (diagonal sd * t.invT) := by
  have hjac : jacobian t marg u x = t.T * diagonal (fun i => 1 / sd i) := by
    unfold jacobian
    simp only [(normal_ok (hm _)).2.1, Normal.jac]
  have hmul : (diagonal sd * t.invT) * jacobian t marg u x = 1 := by
    rw [hjac, Matrix.mul_assoc, ← Matrix.mul_assoc t.invT, h2, Matrix.one_mul, diagonal_mul_diagonal]
    rw [← diagonal_one]
    congr 1
    funext i
    rw [mul_one_div, div_self (hsd i).ne']
  have hu : IsUnit (jacobian t marg u x).det := by
    have := congrArg det hmul
    rw [det_mul, det_one, mul_comm] at this
    exact IsUnit.of_mul_eq_one _ this
  rw [npInv_of_unit hu, inv_eq_left_inv hmul]

theorem quad_comp (c : ℝ) (b μ : Fin n → ℝ) {K : Matrix (Fin n) (Fin n) ℝ} (hK : K.IsSymm) (B : Matrix (Fin n) (Fin n) ℝ)
    (u : Fin n → ℝ) : quad c b K (μ + B.mulVec u) =
      quad (quad c b K μ) (vecMul (b + K.mulVec μ) B) (Bᵀ * K * B) u := by
  rw [quad_add c b hK]
  conv_rhs => unfold quad
  rw [← dotProduct_mulVec]
  congr 2
  rw [← mulVec_mulVec, ← mulVec_mulVec, dotProduct_mulVec u, vecMul_transpose]

/-- C48 with the finite-difference gradients of the code: for normal marginals (any positive definite `Ro`, either
factorisation) and a limit state quadratic in the variables, the Hessian is exact — the errors of the finite-difference
gradients cancel — symmetric, the same for every `ffdpara`, and costs `(n+1)²` evaluations. -/
theorem C48_ffd {D : Type} {la : LinAlg} {ty : TransformType} {Ro : Matrix (Fin n) (Fin n) ℝ} {t : Mats n}
    (ht : Transformation.compute la ty Ro = .ok t) {μ sd : Fin n → ℝ}
    {sp : Fin n → Option ℝ} (hsd : ∀ i, 0 < sd i) {marg : Fin n → Marginal}
    (hm : ∀ i, Normal.new (μ i) (.fin (sd i)) (sp i) = .ok (marg i)) {expr : Kwargs → GRet} {g : Dict String ℝ → ℝ}
    (hp : Pointwise expr g) (lo : LSOptions) (hbs : 1 ≤ lo.blockSize) (hpara : lo.ffdpara ≠ 0) (hmp : lo.multiProc ≠ 0)
    (hd1 : lo.diffMode ≠ "no") (hd2 : lo.diffMode ≠ "ddm") (ev : Ev D) (hmod : Reachable ev.model)
    (hn : ev.model.nMarg ≤ n) (hne : ev.model.getNames ≠ []) (c : ℝ) (b : Fin n → ℝ) {K : Matrix (Fin n) (Fin n) ℝ}
    (hK : K.IsSymm) (hq : ∀ p : Fin n → ℝ, g (pointArgs ev.model p) = quad c b K p) (form : Result n) {para : ℝ}
    (hpa : para ≠ 0) :
    ∃ ev' H c' b', computeHessian t marg (lsEvaluator expr lo (fun i => (marg i).stdv)) form para ev = (ev', .ok H) ∧
      H.IsSymm ∧ (∀ u, g (pointArgs ev.model (uToX t marg u)) = quad c' b' H u) ∧
      (∀ i j, H i j = ∑ k, ∑ l, t.invT k i * sd k * K k l * (sd l * t.invT l j)) ∧
      ev'.model = ev.model.addCallFunction ((n + 1) ^ 2) := by
  obtain ⟨-, h2⟩ := compute_inverse ht
  set B := diagonal sd * t.invT with hB
  have hx : ∀ u, uToX t marg u = μ + B.mulVec u := by
    intro u
    funext i
    simp only [uToX, (normal_ok (hm i)).1, Normal.uToX, Pi.add_apply, hB]
    rw [← mulVec_mulVec, mulVec_diagonal]
    ring
  set hst : Fin n → ℝ := fun j => (marg j).stdv / lo.ffdpara with hhst
  have hst0 : ∀ j, hst j ≠ 0 := fun j => by
    rw [hhst]
    simp only [(normal_ok (hm j)).2.2.2.2.1]
    exact div_ne_zero (hsd j).ne' hpara
  set bias : Fin n → ℝ := fun j => 1 / 2 * K j j * hst j with hbias
  have hgiv : Gives t marg (lsEvaluator expr lo (fun i => (marg i).stdv))
      (fun e : Ev D => ∃ k, e.model = ev.model.addCallFunction k) (fun u => quad c b K (uToX t marg u))
      (fun u => vecMul (b + K.mulVec μ + bias) B + (Bᵀ * K * B).mulVec u) := by
    rintro e ⟨k, hk⟩ u
    have hm' : Reachable e.model := hk ▸ reachable_calls hmod k
    have hargs : ∀ p : Fin n → ℝ, pointArgs e.model p = pointArgs ev.model p := fun p => by rw [hk]; rfl
    obtain ⟨e', out, h3, h4, h5, -⟩ := C06_ffd hp lo hbs (fun i => (marg i).stdv) (uToX t marg u) e hm' (hk ▸ hn)
      (hk ▸ hne) (7 + n) (by omega)
    have he : LimitState.evaluateLsf (7 + n) expr lo (fun i => (marg i).stdv) none [uToX t marg u] e =
        some (e', .ok out) := by
      rw [(C08_modes (7 + n) expr lo hmp _ [uToX t marg u] e).2 hd2 hd1, h3]
    refine ⟨e', ?_, ?_⟩
    · unfold evaluateLSF
      simp only [lsEvaluator, he, h4, h5, List.getD_cons_zero, normal_jacobian_inv h2 hsd hm, hargs, hq]
      refine Prod.ext rfl (congrArg Except.ok (Prod.ext rfl ?_))
      have : (fun j => (quad c b K (Function.update (uToX t marg u) j (uToX t marg u j + hst j)) -
          quad c b K (uToX t marg u)) / hst j) = (b + K.mulVec μ + bias) + K.mulVec (B.mulVec u) := by
        funext j
        have hu : Function.update (uToX t marg u) j (uToX t marg u j + hst j) = uToX t marg u + hst j • Pi.single j 1 := by
          funext k
          by_cases hk : k = j
          · subst hk; simp
          · simp [hk]
        rw [hu, quad_add c b hK, hx, mulVec_add, mulVec_smul, mulVec_single_one, smul_dotProduct, dotProduct_smul,
          dotProduct_smul, dotProduct_single_one, single_one_dotProduct]
        simp only [Pi.add_apply, smul_eq_mul, col_apply, hbias]
        have := hst0 j
        field_simp
        ring
      rw [← hB]
      refine (congrArg (fun w => vecMul w B) this).trans ?_
      rw [add_vecMul]
      congr 1
      rw [← mulVec_transpose, mulVec_mulVec _ K B, mulVec_mulVec _ Bᵀ, Matrix.mul_assoc]
    · have := (C04_counts _ _ _ _ _ _ _ _ _ he).2 out rfl
      change ∃ k, e'.model = ev.model.addCallFunction k
      rw [this, hk]
      exact ⟨_, addCall_addCall _ k _⟩
  obtain ⟨ev', hH, -⟩ := hessian_affine hgiv form hpa ev ⟨0, (addCall_zero _).symm⟩
  refine ⟨ev', Bᵀ * K * B, quad c b K μ, vecMul (b + K.mulVec μ) B, hH, ?_, ?_, ?_, ?_⟩
  · unfold IsSymm
    clear_value B
    rw [transpose_mul, transpose_mul, transpose_transpose, hK.eq, Matrix.mul_assoc]
  · intro u
    rw [hq, hx, quad_comp c b μ hK]
  · intro i j
    have hBe : ∀ a d, B a d = sd a * t.invT a d := fun a d => by rw [hB, diagonal_mul]
    simp only [mul_apply, transpose_apply, hBe, Finset.sum_mul]
    rw [Finset.sum_comm]
    exact Finset.sum_congr rfl fun k _ => Finset.sum_congr rfl fun l _ => by ring
  · rw [C48_calls hH, if_pos ⟨hd1, hd2⟩]

end Pystra.Props
