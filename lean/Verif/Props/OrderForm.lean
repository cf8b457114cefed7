import Verif.Spec.Order
import Verif.Props.FormTransform
import Verif.Lemmas.AnalysisSim

/-! C91: the order of the variables and the iterations of FORM. -/

namespace Pystra.Props
open Matrix Spec Transformation Form

variable {σ : Type} {n : ℕ} {π : Equiv.Perm (Fin n)} {Q : Matrix (Fin n) (Fin n) ℝ} {t t' : Mats n} {marg marg' : Fin n → Marginal}

/-- The two transformations, for the variables in the two orders. -/
structure Turned (π : Equiv.Perm (Fin n)) (Q : Matrix (Fin n) (Fin n) ℝ) (t t' : Mats n) : Prop where
  orth : Qᵀ * Q = 1
  inv : t'.invT * Q = t.invT.submatrix π id
  fwd : t'.T = (Q * t.T).submatrix id π

/-- The evaluator of the reordered model, seen from the first order. -/
def pullOrder {τ : Type} (π : Equiv.Perm (Fin n)) (ev : Evaluator τ n) : Evaluator τ n where
  withGrad := fun s x => ((ev.withGrad s (x ∘ π)).1, (ev.withGrad s (x ∘ π)).2.map fun o => (o.1, o.2.1 ∘ π.symm, o.2.2 ∘ π.symm))
  values := fun s xs => ev.values s (xs.map (· ∘ π))

/-- A linearisation in the new order. -/
def orderPoint (π : Equiv.Perm (Fin n)) (Q : Matrix (Fin n) (Fin n) ℝ) (p : Point n) : Point n :=
  { p with u := Q *ᵥ p.u, x := p.x ∘ π, xAttr := p.xAttr ∘ π, J := (p.J * Qᵀ).submatrix π id, gradient := Q *ᵥ p.gradient }

/-- An outcome in the new order. -/
def orderOutcome (π : Equiv.Perm (Fin n)) (Q : Matrix (Fin n) (Fin n) ℝ) : Outcome σ n → Outcome σ n
  | .done r s => .done { r with point := orderPoint π Q r.point, alpha := Q *ᵥ r.alpha } s
  | .raised e s => .raised e s
  | .nan s => .nan s
  | .next Go u s => .next Go (Q *ᵥ u) s

theorem order_z (h : Turned π Q t t') (u : Fin n → ℝ) (i : Fin n) : (t'.invT *ᵥ (Q *ᵥ u)) i = (t.invT *ᵥ u) (π i) := by
  rw [mulVec_mulVec, h.inv]; rfl

theorem order_uToX (h : Turned π Q t t') (hm : ∀ i, marg' i = marg (π i)) (u : Fin n → ℝ) :
    uToX t' marg' (Q *ᵥ u) = uToX t marg u ∘ π := by
  funext i
  simp only [uToX, Function.comp, order_z h, hm]

theorem order_jacobian (h : Turned π Q t t') (hm : ∀ i, marg' i = marg (π i)) (u x : Fin n → ℝ) :
    jacobian t' marg' (Q *ᵥ u) (x ∘ π) = (Q * jacobian t marg u x).submatrix id π := by
  unfold jacobian
  ext i j
  simp only [order_z h, hm, Function.comp]
  rw [← Matrix.mul_assoc, h.fwd, submatrix_apply, mul_diagonal, mul_diagonal]
  rfl

theorem npInv_order (hQ : Qᵀ * Q = 1) (J : Matrix (Fin n) (Fin n) ℝ) :
    npInv ((Q * J).submatrix id π) = (npInv J).map fun A => (A * Qᵀ).submatrix π id := by
  have e : (Q * J).submatrix id π = (Q * J).submatrix (Equiv.refl _) π := rfl
  have hu : IsUnit ((Q * J).submatrix id π).det ↔ IsUnit J.det := by
    rw [← isUnit_iff_isUnit_det, e, isUnit_submatrix_equiv, isUnit_iff_isUnit_det, det_mul, IsUnit.mul_iff]
    have hdet : IsUnit Q.det := by
      have := congrArg det hQ
      rw [det_mul, det_one, mul_comm] at this
      exact IsUnit.of_mul_eq_one _ this
    exact ⟨fun h => h.2, fun h => ⟨hdet, h⟩⟩
  by_cases hJ : IsUnit J.det
  · rw [npInv_of_unit hJ, npInv_of_unit (hu.2 hJ), e, inv_submatrix_equiv, Matrix.mul_inv_rev, inv_eq_left_inv hQ]
    rfl
  · rw [npInv_singular hJ, npInv_singular (fun h => hJ (hu.1 h))]
    rfl

theorem order_grad (g : Fin n → ℝ) (A : Matrix (Fin n) (Fin n) ℝ) :
    g ᵥ* (A * Qᵀ).submatrix π id = Q *ᵥ ((g ∘ π.symm) ᵥ* A) := by
  rw [← vecMul_transpose Q, vecMul_vecMul]
  funext j
  simp only [vecMul, dotProduct, submatrix_apply, id, Function.comp]
  exact Fintype.sum_equiv π _ _ (fun i => by rw [Equiv.symm_apply_apply])

theorem order_linearise (h : Turned π Q t t') (hm : ∀ i, marg' i = marg (π i)) (ev : Evaluator σ n) (u : Fin n → ℝ) (s : σ) :
    linearise t' marg' ev (Q *ᵥ u) s =
      ((linearise t marg (pullOrder π ev) u s).1, (linearise t marg (pullOrder π ev) u s).2.map (orderPoint π Q)) := by
  unfold linearise
  simp only [order_uToX h hm, order_jacobian h hm, npInv_order h.orth]
  cases npInv (jacobian t marg u (uToX t marg u)) with
  | error e => rfl
  | ok A =>
    dsimp only [Except.map, pullOrder]
    obtain ⟨⟨s', o⟩, ho⟩ : ∃ y, ev.withGrad s (uToX t marg u ∘ π) = y := ⟨_, rfl⟩
    rcases o with e | ⟨G, g, xa⟩
    · simp only [ho]
    · simp only [ho, orderPoint, order_grad]
      congr 3
      funext i
      simp

theorem order_step (h : Turned π Q t t') (hm : ∀ i, marg' i = marg (π i)) (ev : Evaluator σ n) (opt : Form.Options) (G : ℝ)
    (g u d : Fin n → ℝ) (s : σ) :
    getStepSize t' marg' ev opt G (Q *ᵥ g) (Q *ᵥ u) (Q *ᵥ d) s = getStepSize t marg (pullOrder π ev) opt G g u d s := by
  have hu : ∀ c : ℝ, (fun i => (Q *ᵥ u) i * 1 + (Q *ᵥ d) i * c) = Q *ᵥ (fun i => u i * 1 + d i * c) := by
    intro c
    have e1 : (fun i => u i * 1 + d i * c) = u + c • d := by funext i; simp [mul_comm]
    rw [e1, mulVec_add, mulVec_smul]
    funext i; simp [mul_comm]
  unfold getStepSize computeStepSize
  simp only [hu, order_uToX h hm, meritC, merit, rot_norm h.orth, pullOrder, List.map_map, Function.comp_def]

theorem order_iteration (h : Turned π Q t t') (hm : ∀ i, marg' i = marg (π i)) (ev : Evaluator σ n) (opt : Form.Options) (i : ℕ)
    (Go : ℝ) (u : Fin n → ℝ) (s : σ) :
    iteration t' marg' ev opt i Go (Q *ᵥ u) s = orderOutcome π Q (iteration t marg (pullOrder π ev) opt i Go u s) := by
  unfold iteration
  rw [order_linearise h hm]
  obtain ⟨⟨s1, o⟩, ho⟩ : ∃ y, linearise t marg (pullOrder π ev) u s = y := ⟨_, rfl⟩
  rcases o with e | p
  · simp only [ho, Except.map]; rfl
  · simp only [ho, Except.map, orderPoint, rot_inj h.orth]
    by_cases hg : p.gradient = 0
    · simp only [if_pos hg]; rfl
    · simp only [if_neg hg, rot_alpha h.orth, rot_cond2 h.orth, rot_direction h.orth, order_step h hm, rot_dot h.orth]
      by_cases hb : (cond1 opt p.G (if i = 1 then p.G else Go) && cond2 opt u (alpha p.gradient) ||
        decide (i = opt.iMax)) = true
      · rw [if_pos hb, if_pos hb]; rfl
      · rw [if_neg hb, if_neg hb]
        rcases getStepSize t marg (pullOrder π ev) opt p.G p.gradient u (direction p.G p.gradient (alpha p.gradient) u) s1 with ⟨s2, r⟩
        cases r with
        | error e => rfl
        | ok st =>
          simp only [orderOutcome]
          congr 1
          have e1 : (fun k => u k + st * direction p.G p.gradient (alpha p.gradient) u k) =
            u + st • direction p.G p.gradient (alpha p.gradient) u := by funext k; simp
          rw [e1, mulVec_add, mulVec_smul]
          funext k; simp

theorem order_loop (h : Turned π Q t t') (hm : ∀ i, marg' i = marg (π i)) (ev : Evaluator σ n) (opt : Form.Options) (fuel : ℕ) :
    ∀ (i : ℕ) (Go : ℝ) (u : Fin n → ℝ) (s : σ),
    loop t' marg' ev opt fuel i Go (Q *ᵥ u) s = (loop t marg (pullOrder π ev) opt fuel i Go u s).map (orderOutcome π Q) := by
  induction fuel with
  | zero => intros; rfl
  | succ k ih =>
    intro i Go u s
    unfold loop
    rw [order_iteration h hm]
    cases iteration t marg (pullOrder π ev) opt i Go u s with
    | next Go' u' s' => exact ih _ _ _ _
    | done r s => rfl
    | raised e s => rfl
    | nan s => rfl

theorem order_start (h : Turned π Q t t') (hm : ∀ i, marg' i = marg (π i)) :
    startingPoint t' marg' = Q *ᵥ startingPoint t marg := by
  unfold startingPoint xToU
  rw [mulVec_mulVec, h.fwd]
  funext k
  simp only [mulVec, dotProduct, submatrix_apply, id, hm]
  exact Fintype.sum_equiv π _ _ (fun i => rfl)

theorem order_run (h : Turned π Q t t') (hm : ∀ i, marg' i = marg (π i)) (ev : Evaluator σ n) (opt : Form.Options) (fuel : ℕ) (s : σ) :
    runFrom t' marg' ev opt fuel s = (runFrom t marg (pullOrder π ev) opt fuel s).map (orderOutcome π Q) := by
  unfold runFrom
  rw [order_start h hm, order_loop h hm]

open Classical in
/-- What `compute` gives for a symmetric matrix: a factor of the positive semidefinite matrix with the same square, or
`LinAlgError`. -/
theorem compute_symm {la : LinAlg} (hla : LinAlgOK la) (ty : TransformType) {Ro : Matrix (Fin n) (Fin n) ℝ} (hs : Ro.IsSymm) :
    if (ty = .cholesky → Ro.PosDef) ∧ Ro.det ≠ 0 then
      ∃ m, compute la ty Ro = .ok m ∧ (m.invT * m.invTᵀ).PosSemidef ∧ (m.invT * m.invTᵀ) * (m.invT * m.invTᵀ) = Ro * Ro
    else compute la ty Ro = .error .linAlgError := by
  by_cases hd : Ro.det = 0
  · rw [if_neg (fun h => h.2 hd)]
    exact (C22_rejects hla hs).2 hd ty
  · by_cases hp : Ro.PosDef
    · rw [if_pos ⟨fun _ => hp, hd⟩]
      obtain ⟨m, h1, h2, -⟩ := C22_posdef hla ty hp
      exact ⟨m, h1, by rw [h2]; exact hp.posSemidef, by rw [h2]⟩
    · cases ty with
      | cholesky =>
        rw [if_neg (fun h => hp (h.1 rfl))]
        exact (C22_rejects hla hs).1 hp
      | svd =>
        rw [if_pos ⟨fun h => (nomatch h), hd⟩]
        obtain ⟨m, h1, h2, -, h3⟩ := C22_svd_indefinite hla hs hd hp
        exact ⟨m, h1, h2.posSemidef, h3⟩

theorem turned_of {t t' : Mats n} (a2 : t'.T * t'.invT = 1) (b2 : t'.invT * t'.T = 1) (b1 : t.invT * t.T = 1)
    (hL : t'.invT * t'.invTᵀ = (t.invT * t.invTᵀ).submatrix π π) : Turned π (t'.T * t.invT.submatrix π id) t t' := by
  have hL : t.invT.submatrix π id * (t.invT.submatrix π id)ᵀ = t'.invT * t'.invTᵀ := by
    rw [hL, transpose_submatrix]
    ext i j
    simp [mul_apply]
  refine ⟨?_, ?_, ?_⟩
  · apply mul_eq_one_comm.1
    rw [transpose_mul, Matrix.mul_assoc, ← Matrix.mul_assoc (t.invT.submatrix π id), hL, Matrix.mul_assoc t'.invT, ← Matrix.mul_assoc t'.T,
      a2, Matrix.one_mul, ← transpose_mul, a2, transpose_one]
  · rw [← Matrix.mul_assoc, b2, Matrix.one_mul]
  · have : t.invT.submatrix π id * t.T = (1 : Matrix (Fin n) (Fin n) ℝ).submatrix π id := by
      rw [← b1]; rfl
    rw [Matrix.mul_assoc, this]
    ext i j
    simp [mul_apply, one_apply]

/-- The transformations of the two models: both raise, or they differ by an orthogonal matrix. -/
theorem compute_turned {la : LinAlg} (hla : LinAlgOK la) (ty : TransformType) {Ro : Matrix (Fin n) (Fin n) ℝ} (hs : Ro.IsSymm)
    (π : Equiv.Perm (Fin n)) :
    (compute la ty Ro = .error .linAlgError ∧ compute la ty (Ro.submatrix π π) = .error .linAlgError) ∨
    ∃ t t' Q, compute la ty Ro = .ok t ∧ compute la ty (Ro.submatrix π π) = .ok t' ∧ Turned π Q t t' := by
  have h1 := compute_symm hla ty hs
  have hs' : (Ro.submatrix π π).IsSymm := hs.submatrix π
  have h2 := compute_symm hla ty hs'
  have hdet : (Ro.submatrix π π).det = Ro.det := det_submatrix_equiv_self π Ro
  have hpd : (Ro.submatrix π π).PosDef ↔ Ro.PosDef := by
    refine ⟨fun h => ?_, fun h => h.submatrix π.injective⟩
    have := h.submatrix π.symm.injective
    simpa using this
  by_cases hc : (ty = .cholesky → Ro.PosDef) ∧ Ro.det ≠ 0
  · rw [if_pos hc] at h1
    rw [if_pos (by rw [hpd, hdet]; exact hc)] at h2
    obtain ⟨t, e1, p1, q1⟩ := h1
    obtain ⟨t', e2, p2, q2⟩ := h2
    refine Or.inr ⟨t, t', _, e1, e2, turned_of (compute_inverse e2).1 (compute_inverse e2).2 (compute_inverse e1).2 ?_⟩
    refine psd_sq_unique p2 (p1.submatrix π) ?_
    rw [q2, submatrix_mul_equiv, submatrix_mul_equiv, q1]
  · rw [if_neg hc] at h1
    rw [if_neg (by rw [hpd, hdet]; exact hc)] at h2
    exact Or.inl ⟨h1, h2⟩

end Pystra.Props
