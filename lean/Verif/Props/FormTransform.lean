import Verif.Props.Form

/-! C33: Cholesky and SVD give the same FORM. -/

namespace Pystra.Props
open Matrix Spec Transformation Form

variable {σ : Type} {n : ℕ}

section
variable {Q : Matrix (Fin n) (Fin n) ℝ}

theorem rot_dot (hQ : Qᵀ * Q = 1) (v w : Fin n → ℝ) : (Q *ᵥ v) ⬝ᵥ (Q *ᵥ w) = v ⬝ᵥ w := by
  rw [dotProduct_mulVec, ← mulVec_transpose, mulVec_mulVec, hQ, one_mulVec]

theorem rot_norm (hQ : Qᵀ * Q = 1) (v : Fin n → ℝ) : norm2 (Q *ᵥ v) = norm2 v := by
  have := rot_dot hQ v v
  rw [dot_self, dot_self] at this
  exact (pow_left_inj₀ (norm2_nonneg _) (norm2_nonneg _) two_ne_zero).1 this

theorem rot_inj (hQ : Qᵀ * Q = 1) (v : Fin n → ℝ) : Q *ᵥ v = 0 ↔ v = 0 := by
  constructor
  · intro h
    have := congrArg (fun w => Qᵀ *ᵥ w) h
    simpa [mulVec_mulVec, hQ] using this
  · rintro rfl; simp

theorem rot_alpha (hQ : Qᵀ * Q = 1) (g : Fin n → ℝ) : alpha (Q *ᵥ g) = Q *ᵥ alpha g := by
  rw [alpha_eq, alpha_eq, rot_norm hQ, mulVec_smul]

theorem rot_direction (hQ : Qᵀ * Q = 1) (G : ℝ) (g al u : Fin n → ℝ) :
    direction G (Q *ᵥ g) (Q *ᵥ al) (Q *ᵥ u) = Q *ᵥ direction G g al u := by
  have e : ∀ (g al u : Fin n → ℝ), direction G g al u = (G * (norm2 g)⁻¹ + al ⬝ᵥ u) • al - u := by
    intro g al u; funext i; simp [direction]
  rw [e, e, rot_norm hQ, rot_dot hQ, mulVec_sub, mulVec_smul]

theorem rot_err2 (hQ : Qᵀ * Q = 1) (u al : Fin n → ℝ) : err2 (Q *ᵥ u) (Q *ᵥ al) = err2 u al := by
  have e : ∀ (u al : Fin n → ℝ), err2 u al = norm2 (u - (al ⬝ᵥ u) • al) := by
    intro u al; unfold err2; congr 1
  rw [e, e, rot_dot hQ, ← mulVec_smul, ← mulVec_sub, rot_norm hQ]

theorem rot_cond2 (hQ : Qᵀ * Q = 1) (opt : Form.Options) (u al : Fin n → ℝ) :
    cond2 opt (Q *ᵥ u) (Q *ᵥ al) = cond2 opt u al := by
  unfold cond2; rw [rot_err2 hQ]

/-- The relation between the two transformations. -/
structure Rotated (t1 t2 : Mats n) (Q : Matrix (Fin n) (Fin n) ℝ) : Prop where
  orth : Qᵀ * Q = 1
  inv : t1.invT * Q = t2.invT
  fwd : Q * t2.T = t1.T

variable {t1 t2 : Mats n}

theorem rot_uToX (h : Rotated t1 t2 Q) (marg : Fin n → Marginal) (u : Fin n → ℝ) :
    uToX t1 marg (Q *ᵥ u) = uToX t2 marg u := by
  unfold uToX; rw [mulVec_mulVec, h.inv]

theorem rot_jacobian (h : Rotated t1 t2 Q) (marg : Fin n → Marginal) (u x : Fin n → ℝ) :
    jacobian t1 marg (Q *ᵥ u) x = Q * jacobian t2 marg u x := by
  unfold jacobian
  simp only [mulVec_mulVec, h.inv]
  rw [← Matrix.mul_assoc, h.fwd]

/-- A linearisation seen in the rotated space. -/
def rotPoint (Q : Matrix (Fin n) (Fin n) ℝ) (p : Point n) : Point n :=
  { p with u := Q *ᵥ p.u, J := p.J * Qᵀ, gradient := Q *ᵥ p.gradient }

def rotResult (Q : Matrix (Fin n) (Fin n) ℝ) (r : Result n) : Result n :=
  { r with point := rotPoint Q r.point, alpha := Q *ᵥ r.alpha }

def rotOutcome (Q : Matrix (Fin n) (Fin n) ℝ) : Outcome σ n → Outcome σ n
  | .done r s => .done (rotResult Q r) s
  | .raised e s => .raised e s
  | .nan s => .nan s
  | .next Go u s => .next Go (Q *ᵥ u) s

theorem npInv_rot (hQ : Qᵀ * Q = 1) (J : Matrix (Fin n) (Fin n) ℝ) :
    npInv (Q * J) = (match npInv J with | .ok A => .ok (A * Qᵀ) | .error e => .error e) := by
  have hdet : IsUnit Q.det := by
    have := congrArg det hQ
    rw [det_mul, det_one, mul_comm] at this
    exact IsUnit.of_mul_eq_one _ this
  by_cases hJ : IsUnit J.det
  · rw [npInv_of_unit hJ, npInv_of_unit (by rw [det_mul]; exact hdet.mul hJ)]
    simp only
    rw [Matrix.mul_inv_rev, inv_eq_left_inv hQ]
  · rw [npInv_singular hJ, npInv_singular (by rw [det_mul, IsUnit.mul_iff]; exact fun h => hJ h.2)]

theorem rot_linearise (h : Rotated t1 t2 Q) (marg : Fin n → Marginal) (ev : Evaluator σ n) (u : Fin n → ℝ) (s : σ) :
    linearise t1 marg ev (Q *ᵥ u) s =
      (match linearise t2 marg ev u s with
        | (s, .ok p) => (s, .ok (rotPoint Q p))
        | (s, .error e) => (s, .error e)) := by
  unfold linearise
  simp only [rot_uToX h, rot_jacobian h, npInv_rot h.orth]
  cases hJ : npInv (jacobian t2 marg u (uToX t2 marg u)) with
  | error e => simp
  | ok A =>
    simp only
    rcases hev : ev.withGrad s (uToX t2 marg u) with ⟨s', r⟩
    cases r with
    | error e => simp
    | ok p =>
      obtain ⟨G, gx, xa⟩ := p
      simp only [rotPoint]
      congr 3
      rw [← vecMul_vecMul, vecMul_transpose]

theorem rot_step (h : Rotated t1 t2 Q) (marg : Fin n → Marginal) (ev : Evaluator σ n) (opt : Form.Options) (G : ℝ)
    (g u d : Fin n → ℝ) (s : σ) :
    getStepSize t1 marg ev opt G (Q *ᵥ g) (Q *ᵥ u) (Q *ᵥ d) s = getStepSize t2 marg ev opt G g u d s := by
  have hu : ∀ c : ℝ, (fun i => (Q *ᵥ u) i * 1 + (Q *ᵥ d) i * c) = Q *ᵥ (fun i => u i * 1 + d i * c) := by
    intro c
    have e1 : (fun i => u i * 1 + d i * c) = u + c • d := by funext i; simp [mul_comm]
    rw [e1, mulVec_add, mulVec_smul]
    funext i; simp [mul_comm]
  unfold getStepSize computeStepSize
  simp only [hu, rot_uToX h, meritC, merit, rot_norm h.orth]

theorem rot_iteration (h : Rotated t1 t2 Q) (marg : Fin n → Marginal) (ev : Evaluator σ n) (opt : Form.Options) (i : ℕ)
    (Go : ℝ) (u : Fin n → ℝ) (s : σ) :
    iteration t1 marg ev opt i Go (Q *ᵥ u) s = rotOutcome Q (iteration t2 marg ev opt i Go u s) := by
  unfold iteration
  rw [rot_linearise h]
  rcases hl : linearise t2 marg ev u s with ⟨s1, r⟩
  cases r with
  | error e => rfl
  | ok p =>
    simp only [rotPoint, rot_inj h.orth]
    by_cases hg : p.gradient = 0
    · simp only [if_pos hg]; rfl
    · simp only [if_neg hg, rot_alpha h.orth, rot_cond2 h.orth, rot_direction h.orth, rot_step h, rot_dot h.orth]
      by_cases hb : (cond1 opt p.G (if i = 1 then p.G else Go) && cond2 opt u (alpha p.gradient) ||
        decide (i = opt.iMax)) = true
      · rw [if_pos hb, if_pos hb]; rfl
      · rw [if_neg hb, if_neg hb]
        rcases getStepSize t2 marg ev opt p.G p.gradient u (direction p.G p.gradient (alpha p.gradient) u) s1 with ⟨s2, r⟩
        cases r with
        | error e => rfl
        | ok st =>
          simp only [rotOutcome]
          congr 1
          have e1 : (fun k => u k + st * direction p.G p.gradient (alpha p.gradient) u k) =
            u + st • direction p.G p.gradient (alpha p.gradient) u := by funext k; simp
          rw [e1, mulVec_add, mulVec_smul]
          funext k; simp

theorem rot_loop (h : Rotated t1 t2 Q) (marg : Fin n → Marginal) (ev : Evaluator σ n) (opt : Form.Options) (fuel : ℕ) :
    ∀ (i : ℕ) (Go : ℝ) (u : Fin n → ℝ) (s : σ),
    loop t1 marg ev opt fuel i Go (Q *ᵥ u) s = (loop t2 marg ev opt fuel i Go u s).map (rotOutcome Q) := by
  induction fuel with
  | zero => intros; rfl
  | succ k ih =>
    intro i Go u s
    unfold loop
    rw [rot_iteration h]
    cases iteration t2 marg ev opt i Go u s with
    | next Go' u' s' => exact ih _ _ _ _
    | done r s => rfl
    | raised e s => rfl
    | nan s => rfl

theorem rot_reaches (h : Rotated t1 t2 Q) (marg : Fin n → Marginal) (ev : Evaluator σ n) (opt : Form.Options)
    (u0 : Fin n → ℝ) (s0 : σ) {i : ℕ} {Go : ℝ} {u : Fin n → ℝ} {s : σ} (hr : Reaches t2 marg ev opt u0 s0 i Go u s) :
    Reaches t1 marg ev opt (Q *ᵥ u0) s0 i Go (Q *ᵥ u) s := by
  induction hr with
  | start => exact .start
  | next _ hit ih => exact .next ih (by rw [rot_iteration h, hit]; rfl)

theorem rot_start (h : Rotated t1 t2 Q) (marg : Fin n → Marginal) :
    startingPoint t1 marg = Q *ᵥ startingPoint t2 marg := by
  unfold startingPoint xToU
  rw [mulVec_mulVec, h.fwd]

end

/-- C33: for a positive definite `Ro`, FORM with Cholesky (`t1`) and with SVD (`t2`) end in the same outcome, up to one
fixed orthogonal matrix acting on the `u`-vectors: same exceptions, same number of iterations, same design point in
`x`-space, `G`, `beta`, `Pf`; all intermediate points are related by the same matrix and have the same `x`. (`s` collects
everything an evaluation changes, so the limit-state calls are the same.) -/
theorem C33_same_results {la : LinAlg} (hla : LinAlgOK la) {Ro : Matrix (Fin n) (Fin n) ℝ} (hR : Ro.PosDef)
    {t1 t2 : Mats n} (h1 : compute la .cholesky Ro = .ok t1) (h2 : compute la .svd Ro = .ok t2)
    (marg : Fin n → Marginal) (ev : Evaluator σ n) (opt : Form.Options) (s : σ) :
    ∃ Q : Matrix (Fin n) (Fin n) ℝ, Q * Qᵀ = 1 ∧ Qᵀ * Q = 1 ∧
      (∀ fuel, SameUpTo Q (runFrom t1 marg ev opt fuel s) (runFrom t2 marg ev opt fuel s)) ∧
      ∀ i Go u s', Reaches t2 marg ev opt (startingPoint t2 marg) s i Go u s' →
        Reaches t1 marg ev opt (startingPoint t1 marg) s i Go (Q *ᵥ u) s' ∧ uToX t1 marg (Q *ᵥ u) = uToX t2 marg u := by
  obtain ⟨m1, e1, f1, a1, b1⟩ := C22_posdef hla .cholesky hR
  obtain ⟨m2, e2, f2, a2, b2⟩ := C22_posdef hla .svd hR
  rw [h1] at e1; injection e1 with e1; subst e1
  rw [h2] at e2; injection e2 with e2; subst e2
  have hQ : (t1.T * t2.invT) * (t1.T * t2.invT)ᵀ = 1 := by
    rw [transpose_mul, Matrix.mul_assoc, ← Matrix.mul_assoc t2.invT, f2, ← f1, Matrix.mul_assoc t1.invT,
      ← Matrix.mul_assoc t1.T, a1, Matrix.one_mul, ← transpose_mul, a1, transpose_one]
  have hQ' := mul_eq_one_comm.1 hQ
  have hrot : Rotated t1 t2 (t1.T * t2.invT) := by
    refine ⟨hQ', ?_, ?_⟩
    · rw [← Matrix.mul_assoc, b1, Matrix.one_mul]
    · rw [Matrix.mul_assoc, b2, Matrix.mul_one]
  refine ⟨t1.T * t2.invT, hQ, hQ', ?_, ?_⟩
  · intro fuel
    have e := rot_loop hrot marg ev opt fuel 1 0 (startingPoint t2 marg) s
    unfold runFrom
    rw [rot_start hrot, e]
    rcases ho : loop t2 marg ev opt fuel 1 0 (startingPoint t2 marg) s with _ | o
    · exact .running
    · obtain ⟨i', G', u', s', hr, hit, hno⟩ := loop_reaches fuel .start ho
      cases o with
      | done r s => exact .done _ _ _ rfl rfl rfl rfl rfl rfl rfl rfl rfl
      | raised e s => exact .raised e s
      | nan s => exact .nan s
      | next a b c => exact absurd rfl (hno a b c)
  · intro i Go u s' hr
    refine ⟨?_, rot_uToX hrot marg u⟩
    rw [rot_start hrot]
    exact rot_reaches hrot marg ev opt _ _ hr

end Pystra.Props
