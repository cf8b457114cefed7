import Verif.Spec.Order
import Verif.Props.FormTransform
import Verif.Lemmas.AnalysisSim

/-! C92: variables that the limit state ignores, and the iterations of FORM. -/

namespace Pystra.Props
open Matrix Spec Transformation Form

variable {σ : Type} {n k : ℕ}

section
variable {Q : Matrix (Fin k) (Fin n) ℝ}

theorem iso_dot (hQ : Qᵀ * Q = 1) (v w : Fin n → ℝ) : (Q *ᵥ v) ⬝ᵥ (Q *ᵥ w) = v ⬝ᵥ w := by
  rw [dotProduct_mulVec, ← mulVec_transpose, mulVec_mulVec, hQ, one_mulVec]

theorem iso_norm (hQ : Qᵀ * Q = 1) (v : Fin n → ℝ) : norm2 (Q *ᵥ v) = norm2 v := by
  have := iso_dot hQ v v
  rw [dot_self, dot_self] at this
  exact (pow_left_inj₀ (norm2_nonneg _) (norm2_nonneg _) two_ne_zero).1 this

theorem iso_inj (hQ : Qᵀ * Q = 1) (v : Fin n → ℝ) : Q *ᵥ v = 0 ↔ v = 0 := by
  constructor
  · intro h
    have := congrArg (fun w => Qᵀ *ᵥ w) h
    simpa [mulVec_mulVec, hQ] using this
  · rintro rfl; simp

theorem iso_alpha (hQ : Qᵀ * Q = 1) (g : Fin n → ℝ) : alpha (Q *ᵥ g) = Q *ᵥ alpha g := by
  rw [alpha_eq, alpha_eq, iso_norm hQ, mulVec_smul]

theorem iso_direction (hQ : Qᵀ * Q = 1) (G : ℝ) (g al u : Fin n → ℝ) :
    direction G (Q *ᵥ g) (Q *ᵥ al) (Q *ᵥ u) = Q *ᵥ direction G g al u := by
  have e : ∀ {n : ℕ} (g al u : Fin n → ℝ), direction G g al u = (G * (norm2 g)⁻¹ + al ⬝ᵥ u) • al - u := by
    intro n g al u; funext i; simp [direction]
  rw [e, e, iso_norm hQ, iso_dot hQ, mulVec_sub, mulVec_smul]

theorem iso_err2 (hQ : Qᵀ * Q = 1) (u al : Fin n → ℝ) : err2 (Q *ᵥ u) (Q *ᵥ al) = err2 u al := by
  have e : ∀ {n : ℕ} (u al : Fin n → ℝ), err2 u al = norm2 (u - (al ⬝ᵥ u) • al) := by
    intro n u al; unfold err2; congr 1
  rw [e, e, iso_dot hQ, ← mulVec_smul, ← mulVec_sub, iso_norm hQ]

theorem iso_cond2 (hQ : Qᵀ * Q = 1) (opt : Form.Options) (u al : Fin n → ℝ) :
    cond2 opt (Q *ᵥ u) (Q *ᵥ al) = cond2 opt u al := by
  unfold cond2; rw [iso_err2 hQ]
end

variable {ι : Fin n ↪ Fin k} {Q : Matrix (Fin k) (Fin n) ℝ} {t : Mats n} {t' : Mats k} {marg : Fin n → Marginal} {marg' : Fin k → Marginal}

open Classical in
/-- A vector of the small model with the components of the extra variables filled in. -/
noncomputable def extend (ι : Fin n ↪ Fin k) (e : Fin k → ℝ) (x : Fin n → ℝ) : Fin k → ℝ :=
  fun j => if h : ∃ i, ι i = j then x h.choose else e j

theorem extend_apply (e : Fin k → ℝ) (x : Fin n → ℝ) (i : Fin n) : extend ι e x (ι i) = x i := by
  have h : ∃ i', ι i' = ι i := ⟨i, rfl⟩
  unfold extend
  rw [dif_pos h]
  exact congrArg x (ι.injective h.choose_spec)

theorem extend_extra (e : Fin k → ℝ) (x : Fin n → ℝ) {j : Fin k} (hj : ∀ i, ι i ≠ j) : extend ι e x j = e j := by
  unfold extend
  rw [dif_neg (fun ⟨i, h⟩ => hj i h)]

/-- The matrix that puts the components of the small model into their places. -/
def embed (ι : Fin n ↪ Fin k) : Matrix (Fin k) (Fin n) ℝ := (1 : Matrix (Fin k) (Fin k) ℝ).submatrix id ι

theorem embed_mulVec (x : Fin n → ℝ) : embed ι *ᵥ x = extend ι 0 x := by
  funext j
  by_cases h : ∃ i, ι i = j
  · obtain ⟨i, rfl⟩ := h
    rw [extend_apply]
    simp [embed, mulVec, dotProduct, one_apply, ι.injective.eq_iff]
  · push Not at h
    rw [extend_extra _ _ h]
    simp only [embed, mulVec, dotProduct, submatrix_apply, id, Pi.zero_apply]
    exact Finset.sum_eq_zero fun i _ => by
      show (1 : Matrix (Fin k) (Fin k) ℝ) j (ι i) * x i = 0
      rw [one_apply_ne (h i).symm, zero_mul]

theorem embed_transpose_mul {l : ℕ} (M : Matrix (Fin k) (Fin l) ℝ) : (embed ι)ᵀ * M = M.submatrix ι id := by
  ext i j
  simp [embed, mul_apply, one_apply]

theorem mul_embed {l : ℕ} (M : Matrix (Fin l) (Fin k) ℝ) : M * embed ι = M.submatrix id ι := by
  ext i j
  simp [embed, mul_apply, one_apply]

theorem embed_orth : (embed ι)ᵀ * embed ι = 1 := by
  rw [embed_transpose_mul, embed, submatrix_submatrix]
  ext i j
  simp [one_apply, ι.injective.eq_iff]

/-- The two transformations. -/
structure Embedded (ι : Fin n ↪ Fin k) (Q : Matrix (Fin k) (Fin n) ℝ) (t : Mats n) (t' : Mats k) : Prop where
  inverse : t.T * t.invT = 1
  inverse' : t'.T * t'.invT = 1
  orth : Qᵀ * Q = 1
  inv : t'.invT * Q = embed ι * t.invT
  row : (embed ι)ᵀ * t'.invT = t.invT * Qᵀ

/-- The marginals of the large model: those of the small one in their places; every extra variable starts at the value whose image is 0,
and its transformation has a derivative there. -/
structure Fits (ι : Fin n ↪ Fin k) (marg : Fin n → Marginal) (marg' : Fin k → Marginal) : Prop where
  same : ∀ i, marg' (ι i) = marg i
  start : ∀ j, (∀ i, ι i ≠ j) → (marg' j).xToU (marg' j).startpoint = 0
  jac : ∀ j, (∀ i, ι i ≠ j) → (marg' j).jac 0 ((marg' j).uToX 0) ≠ 0

/-- The values of the extra variables during the run. -/
noncomputable def restX (marg' : Fin k → Marginal) : Fin k → ℝ := fun j => (marg' j).uToX 0

/-- The evaluator of the large model, seen from the small one. -/
noncomputable def pullExtra {τ : Type} (ι : Fin n ↪ Fin k) (marg' : Fin k → Marginal) (ev : Evaluator τ k) : Evaluator τ n where
  withGrad := fun s x => ((ev.withGrad s (extend ι (restX marg') x)).1,
    (ev.withGrad s (extend ι (restX marg') x)).2.map fun o => (o.1, o.2.1 ∘ ι, o.2.2 ∘ ι))
  values := fun s xs => ev.values s (xs.map (extend ι (restX marg')))

/-- The gradient of the evaluator vanishes in the extra variables. -/
def Ignores {τ : Type} (ι : Fin n ↪ Fin k) (ev : Evaluator τ k) (P : τ → Prop) : Prop :=
  (∀ s x, P s → P (ev.withGrad s x).1) ∧ (∀ s xs, P s → P (ev.values s xs).1) ∧
  ∀ s x, P s → ∀ G g xa, (ev.withGrad s x).2 = .ok (G, g, xa) → ∀ j, (∀ i, ι i ≠ j) → g j = 0

theorem extra_z (h : Embedded ι Q t t') (u : Fin n → ℝ) : t'.invT *ᵥ (Q *ᵥ u) = extend ι 0 (t.invT *ᵥ u) := by
  rw [mulVec_mulVec, h.inv, ← mulVec_mulVec, embed_mulVec]

theorem extra_uToX (h : Embedded ι Q t t') (hm : Fits ι marg marg') (u : Fin n → ℝ) :
    uToX t' marg' (Q *ᵥ u) = extend ι (restX marg') (uToX t marg u) := by
  funext j
  simp only [uToX, extra_z h]
  by_cases hj : ∃ i, ι i = j
  · obtain ⟨i, rfl⟩ := hj
    rw [extend_apply, extend_apply, hm.same]
  · push Not at hj
    rw [extend_extra _ _ hj, extend_extra _ _ hj]; rfl

/-- The entries of the diagonal factor of the Jacobian. -/
theorem extra_diag (h : Embedded ι Q t t') (hm : Fits ι marg marg') (u : Fin n → ℝ) (j : Fin k) :
    (marg' j).jac ((t'.invT *ᵥ (Q *ᵥ u)) j) (uToX t' marg' (Q *ᵥ u) j) =
      extend ι (fun j => (marg' j).jac 0 ((marg' j).uToX 0)) (fun i => (marg i).jac ((t.invT *ᵥ u) i) (uToX t marg u i)) j := by
  rw [extra_z h, extra_uToX h hm]
  by_cases hj : ∃ i, ι i = j
  · obtain ⟨i, rfl⟩ := hj
    rw [extend_apply, extend_apply, extend_apply, hm.same]
  · push Not at hj
    rw [extend_extra _ _ hj, extend_extra _ _ hj, extend_extra _ _ hj]; rfl

theorem npInv_diag {t : Mats n} (h : t.T * t.invT = 1) (d : Fin n → ℝ) (hd : ∀ i, d i ≠ 0) :
    npInv (t.T * diagonal d) = .ok (diagonal (fun i => (d i)⁻¹) * t.invT) := by
  have e : (diagonal (fun i => (d i)⁻¹) * t.invT) * (t.T * diagonal d) = 1 := by
    rw [Matrix.mul_assoc, ← Matrix.mul_assoc t.invT, mul_eq_one_comm.1 h, Matrix.one_mul, diagonal_mul_diagonal]
    rw [← diagonal_one]
    congr 1
    funext i
    exact inv_mul_cancel₀ (hd i)
  have hu : IsUnit (t.T * diagonal d).det := by
    have := congrArg det e
    rw [det_mul, det_one, mul_comm] at this
    exact IsUnit.of_mul_eq_one _ this
  rw [npInv_of_unit hu, inv_eq_left_inv e]

theorem npInv_diag_zero {t : Mats n} (d : Fin n → ℝ) (hd : ∃ i, d i = 0) : npInv (t.T * diagonal d) = .error .linAlgError := by
  apply npInv_singular
  rw [det_mul, det_diagonal]
  obtain ⟨i, hi⟩ := hd
  rw [Finset.prod_eq_zero (Finset.mem_univ i) hi]
  simp

/-- A linearisation of the large model. -/
noncomputable def extraPoint (ι : Fin n ↪ Fin k) (Q : Matrix (Fin k) (Fin n) ℝ) (e : Fin k → ℝ) (p : Point n) (q : Point k) : Prop :=
  q.u = Q *ᵥ p.u ∧ q.x = extend ι e p.x ∧ q.xAttr ∘ ι = p.xAttr ∧ q.G = p.G ∧ q.gradient = Q *ᵥ p.gradient

theorem extra_grad (h : Embedded ι Q t t') (d : Fin n → ℝ) (d' : Fin k → ℝ) (hd : ∀ i, d' (ι i) = d i) (g : Fin k → ℝ)
    (hg : ∀ j, (∀ i, ι i ≠ j) → g j = 0) :
    g ᵥ* (diagonal d' * t'.invT) = Q *ᵥ ((g ∘ ι) ᵥ* (diagonal d * t.invT)) := by
  rw [← vecMul_vecMul, ← vecMul_vecMul, ← vecMul_transpose Q, vecMul_vecMul _ t.invT Qᵀ, ← h.row, ← vecMul_vecMul _ (embed ι)ᵀ]
  congr 1
  rw [vecMul_transpose, embed_mulVec]
  funext j
  rw [vecMul_diagonal]
  by_cases hj : ∃ i, ι i = j
  · obtain ⟨i, rfl⟩ := hj
    rw [extend_apply, vecMul_diagonal, hd]; rfl
  · push Not at hj
    rw [extend_extra _ _ hj, hg j hj]; simp

/-- Two linearisations: the same exception, or related points; the evaluator of the large model reaches the same state. -/
inductive LinRel (ι : Fin n ↪ Fin k) (Q : Matrix (Fin k) (Fin n) ℝ) (e : Fin k → ℝ) : σ × Except PyErr (Point n) → σ × Except PyErr (Point k) → Prop
  | error (s : σ) (x : PyErr) : LinRel ι Q e (s, .error x) (s, .error x)
  | ok (s : σ) {p : Point n} {q : Point k} (h : extraPoint ι Q e p q) : LinRel ι Q e (s, .ok p) (s, .ok q)

theorem extra_linearise (h : Embedded ι Q t t') (hm : Fits ι marg marg') {ev : Evaluator σ k} {P : σ → Prop} (hi : Ignores ι ev P)
    (u : Fin n → ℝ) {s : σ} (hs : P s) :
    LinRel ι Q (restX marg') (linearise t marg (pullExtra ι marg' ev) u s) (linearise t' marg' ev (Q *ᵥ u) s) := by
  unfold linearise
  dsimp only
  have hd := extra_diag h hm u
  have e1 : jacobian t marg u (uToX t marg u) = t.T * diagonal (fun i => (marg i).jac ((t.invT *ᵥ u) i) (uToX t marg u i)) := rfl
  have e2 : jacobian t' marg' (Q *ᵥ u) (uToX t' marg' (Q *ᵥ u)) =
      t'.T * diagonal (fun j => (marg' j).jac ((t'.invT *ᵥ (Q *ᵥ u)) j) (uToX t' marg' (Q *ᵥ u) j)) := rfl
  rw [e1, e2]
  simp only [hd]
  by_cases h0 : ∃ i, (marg i).jac ((t.invT *ᵥ u) i) (uToX t marg u i) = 0
  · rw [npInv_diag_zero _ h0, npInv_diag_zero _ (by obtain ⟨i, h0⟩ := h0; exact ⟨ι i, by rw [extend_apply]; exact h0⟩)]
    exact .error _ _
  push Not at h0
  rw [npInv_diag h.inverse _ h0, npInv_diag h.inverse' _ (by
    intro j
    by_cases hj : ∃ i, ι i = j
    · obtain ⟨i, rfl⟩ := hj
      rw [extend_apply]; exact h0 i
    · push Not at hj
      rw [extend_extra _ _ hj]; exact hm.jac j hj)]
  dsimp only [pullExtra]
  rw [extra_uToX h hm]
  obtain ⟨⟨s', o⟩, ho⟩ : ∃ y, ev.withGrad s (extend ι (restX marg') (uToX t marg u)) = y := ⟨_, rfl⟩
  rcases o with e | ⟨G, g, xa⟩
  · simp only [ho, Except.map]
    exact .error _ _
  · have hg := hi.2.2 s _ hs G g xa (by rw [ho])
    simp only [ho, Except.map]
    refine .ok _ ⟨rfl, rfl, rfl, rfl, ?_⟩
    exact extra_grad h _ _ (fun i => by rw [extend_apply]) g hg

theorem extra_step (h : Embedded ι Q t t') (hm : Fits ι marg marg') (ev : Evaluator σ k) (opt : Form.Options) (G : ℝ)
    (g u d : Fin n → ℝ) (s : σ) :
    getStepSize t' marg' ev opt G (Q *ᵥ g) (Q *ᵥ u) (Q *ᵥ d) s = getStepSize t marg (pullExtra ι marg' ev) opt G g u d s := by
  have hu : ∀ c : ℝ, (fun i => (Q *ᵥ u) i * 1 + (Q *ᵥ d) i * c) = Q *ᵥ (fun i => u i * 1 + d i * c) := by
    intro c
    have e1 : (fun i => u i * 1 + d i * c) = u + c • d := by funext i; simp [mul_comm]
    rw [e1, mulVec_add, mulVec_smul]
    funext i; simp [mul_comm]
  unfold getStepSize computeStepSize
  simp only [hu, extra_uToX h hm, meritC, merit, iso_norm h.orth, pullExtra, List.map_map, Function.comp_def]

/-- Two outcomes: the same kind, the same state. -/
inductive ExtraOutcome (ι : Fin n ↪ Fin k) (Q : Matrix (Fin k) (Fin n) ℝ) (e : Fin k → ℝ) : Outcome σ n → Outcome σ k → Prop
  | done {r : Result n} {r' : Result k} (s : σ) (h : extraPoint ι Q e r.point r'.point) (hi : r'.i = r.i) (hGo : r'.Go = r.Go)
      (ha : r'.alpha = Q *ᵥ r.alpha) (hb : r'.beta = r.beta) (hP : r'.Pf = r.Pf) : ExtraOutcome ι Q e (.done r s) (.done r' s)
  | raised (x : PyErr) (s : σ) : ExtraOutcome ι Q e (.raised x s) (.raised x s)
  | nan (s : σ) : ExtraOutcome ι Q e (.nan s) (.nan s)
  | next (Go : ℝ) (u : Fin n → ℝ) (s : σ) : ExtraOutcome ι Q e (.next Go u s) (.next Go (Q *ᵥ u) s)

theorem extra_iteration (h : Embedded ι Q t t') (hm : Fits ι marg marg') {ev : Evaluator σ k} {P : σ → Prop} (hi : Ignores ι ev P)
    (opt : Form.Options) (i : ℕ) (Go : ℝ) (u : Fin n → ℝ) {s : σ} (hs : P s) :
    ExtraOutcome ι Q (restX marg') (iteration t marg (pullExtra ι marg' ev) opt i Go u s) (iteration t' marg' ev opt i Go (Q *ᵥ u) s) ∧
    ∀ Go' u' s', iteration t marg (pullExtra ι marg' ev) opt i Go u s = .next Go' u' s' → P s' := by
  have hl := extra_linearise h hm hi u hs
  have hP : P (linearise t marg (pullExtra ι marg' ev) u s).1 := by
    unfold linearise
    dsimp only
    cases npInv (jacobian t marg u (uToX t marg u)) with
    | error e => exact hs
    | ok A =>
      dsimp only [pullExtra]
      have := hi.1 s (extend ι (restX marg') (uToX t marg u)) hs
      rcases hx : (ev.withGrad s (extend ι (restX marg') (uToX t marg u))) with ⟨s', e | o⟩ <;> rw [hx] at this <;> simpa only [hx, Except.map] using this
  have hlu : ∀ s1 p, linearise t marg (pullExtra ι marg' ev) u s = (s1, .ok p) → p.u = u := by
    intro s1 p e
    unfold linearise at e
    dsimp only at e
    rcases hx : npInv (jacobian t marg u (uToX t marg u)) with _ | A <;> rw [hx] at e <;> dsimp only at e
    · cases e
    · rcases hy : (pullExtra ι marg' ev).withGrad s (uToX t marg u) with ⟨s', _ | o⟩ <;> rw [hy] at e <;> dsimp only at e <;> cases e
      rfl
  unfold iteration
  generalize linearise t marg (pullExtra ι marg' ev) u s = X at hl hP hlu
  generalize linearise t' marg' ev (Q *ᵥ u) s = Y at hl
  cases hl with
  | error s1 e => exact ⟨.raised _ _, by intro _ _ _ e; cases e⟩
  | @ok s1 p q hp =>
    obtain ⟨p1, p2, p3, p4, p5⟩ := hp
    simp only [p5, p4, iso_inj h.orth]
    by_cases hg : p.gradient = 0
    · simp only [if_pos hg]; exact ⟨.nan _, by intro _ _ _ e; cases e⟩
    · simp only [if_neg hg, iso_alpha h.orth, iso_cond2 h.orth, iso_direction h.orth, extra_step h hm, iso_dot h.orth]
      by_cases hb : (cond1 opt p.G (if i = 1 then p.G else Go) && cond2 opt u (alpha p.gradient) ||
        decide (i = opt.iMax)) = true
      · rw [if_pos hb, if_pos hb]
        exact ⟨.done _ ⟨p1, p2, p3, p4, p5⟩ rfl rfl rfl rfl rfl, by intro _ _ _ e; cases e⟩
      · rw [if_neg hb, if_neg hb]
        have hPs : P (getStepSize t marg (pullExtra ι marg' ev) opt p.G p.gradient u (direction p.G p.gradient (alpha p.gradient) u) s1).1 := by
          unfold getStepSize computeStepSize
          dsimp only
          by_cases hst : opt.stepSize = 0
          · rw [if_pos hst]
            by_cases hmp : opt.multiProc = 1
            · rw [if_pos hmp]
              dsimp only [pullExtra]
              generalize (List.map (extend ι (restX marg')) _) = xs
              have := hi.2.1 s1 xs hP
              rcases hx : (ev.values s1 xs) with ⟨s', e | o⟩ <;> rw [hx] at this <;> simpa only [hx] using this
            · rw [if_neg hmp]; exact hP
          · rw [if_neg hst]; exact hP
        generalize getStepSize t marg (pullExtra ι marg' ev) opt p.G p.gradient u (direction p.G p.gradient (alpha p.gradient) u) s1 = Z at hPs
        obtain ⟨s2, r⟩ := Z
        cases r with
        | error e => exact ⟨.raised _ _, by intro _ _ _ e; cases e⟩
        | ok st =>
          dsimp only
          have e0 : (fun j => (Q *ᵥ u) j + st * (Q *ᵥ direction p.G p.gradient (alpha p.gradient) u) j) =
              Q *ᵥ (fun l => u l + st * direction p.G p.gradient (alpha p.gradient) u l) := by
            have e1 : (fun l => u l + st * direction p.G p.gradient (alpha p.gradient) u l) =
              u + st • direction p.G p.gradient (alpha p.gradient) u := by funext l; simp
            rw [e1, mulVec_add, mulVec_smul]
            funext l; simp
          rw [e0]
          exact ⟨.next _ _ _, by intro _ _ _ e; cases e; exact hPs⟩

/-- Two runs that may still be going on. -/
inductive ExtraRun (ι : Fin n ↪ Fin k) (Q : Matrix (Fin k) (Fin n) ℝ) (e : Fin k → ℝ) : Option (Outcome σ n) → Option (Outcome σ k) → Prop
  | none : ExtraRun ι Q e none none
  | some {o : Outcome σ n} {o' : Outcome σ k} (h : ExtraOutcome ι Q e o o') : ExtraRun ι Q e (some o) (some o')

theorem extra_loop (h : Embedded ι Q t t') (hm : Fits ι marg marg') {ev : Evaluator σ k} {P : σ → Prop} (hi : Ignores ι ev P)
    (opt : Form.Options) (fuel : ℕ) : ∀ (i : ℕ) (Go : ℝ) (u : Fin n → ℝ) (s : σ), P s →
    ExtraRun ι Q (restX marg') (loop t marg (pullExtra ι marg' ev) opt fuel i Go u s) (loop t' marg' ev opt fuel i Go (Q *ᵥ u) s) := by
  induction fuel with
  | zero => intros; exact .none
  | succ f ih =>
    intro i Go u s hs
    unfold loop
    obtain ⟨h1, h2⟩ := extra_iteration h hm hi opt i Go u hs
    generalize iteration t marg (pullExtra ι marg' ev) opt i Go u s = X at h1 h2
    generalize iteration t' marg' ev opt i Go (Q *ᵥ u) s = Y at h1
    cases h1 with
    | done s1 a b c d e f => exact .some (.done s1 a b c d e f)
    | raised x s1 => exact .some (.raised x s1)
    | nan s1 => exact .some (.nan s1)
    | next Go' u' s1 => exact ih _ _ _ _ (h2 _ _ _ rfl)

theorem extra_start (h : Embedded ι Q t t') (hm : Fits ι marg marg') : startingPoint t' marg' = Q *ᵥ startingPoint t marg := by
  unfold startingPoint xToU
  have e : (fun j => (marg' j).xToU (marg' j).startpoint) = embed ι *ᵥ (fun i => (marg i).xToU (marg i).startpoint) := by
    rw [embed_mulVec]
    funext j
    by_cases hj : ∃ i, ι i = j
    · obtain ⟨i, rfl⟩ := hj
      rw [extend_apply, hm.same]
    · push Not at hj
      rw [extend_extra _ _ hj]; exact hm.start j hj
  have e2 : t'.T * embed ι = Q * t.T := by
    have : t'.T * (t'.invT * Q) * t.T = t'.T * (embed ι * t.invT) * t.T := by rw [h.inv]
    rw [← Matrix.mul_assoc t'.T, h.inverse', Matrix.one_mul, Matrix.mul_assoc, Matrix.mul_assoc (embed ι), mul_eq_one_comm.1 h.inverse,
      Matrix.mul_one] at this
    exact this.symm
  rw [e, mulVec_mulVec, mulVec_mulVec, e2]

theorem extra_run (h : Embedded ι Q t t') (hm : Fits ι marg marg') {ev : Evaluator σ k} {P : σ → Prop} (hi : Ignores ι ev P)
    (opt : Form.Options) (fuel : ℕ) {s : σ} (hs : P s) :
    ExtraRun ι Q (restX marg') (runFrom t marg (pullExtra ι marg' ev) opt fuel s) (runFrom t' marg' ev opt fuel s) := by
  unfold runFrom
  rw [extra_start h hm]
  exact extra_loop h hm hi opt fuel 1 0 _ s hs

/-- The transformations of a positive definite matrix in which the extra variables are independent of the others. -/
theorem embedded_exists {la : LinAlg} (hla : LinAlgOK la) (ty : TransformType) {Ro : Matrix (Fin k) (Fin k) ℝ} (hR : Ro.PosDef)
    (ι : Fin n ↪ Fin k) (hc : ∀ i j, (∀ l, ι l ≠ j) → Ro (ι i) j = 0) :
    ∃ t t' Q, compute la ty (Ro.submatrix ι ι) = .ok t ∧ compute la ty Ro = .ok t' ∧ Embedded ι Q t t' := by
  obtain ⟨t, e1, f1, a1, b1⟩ := C22_posdef hla ty (hR.submatrix ι.injective)
  obtain ⟨t', e2, f2, a2, b2⟩ := C22_posdef hla ty hR
  have hs : Roᵀ = Ro := by
    have := hR.1
    unfold IsHermitian at this
    rwa [conjTranspose_eq_transpose_of_trivial] at this
  have hE : Ro.submatrix ι ι * (embed ι)ᵀ = (embed ι)ᵀ * Ro := by
    rw [embed_transpose_mul]
    ext i j
    have e := congrFun (embed_mulVec (ι := ι) (fun l => Ro (ι i) (ι l))) j
    have e2 : (Ro.submatrix ι ι * (embed ι)ᵀ) i j = (embed ι *ᵥ (fun l => Ro (ι i) (ι l))) j := by
      simp only [mul_apply, mulVec, dotProduct, transpose_apply, submatrix_apply]
      exact Finset.sum_congr rfl fun l _ => mul_comm _ _
    rw [e2, e]
    by_cases hj : ∃ l, ι l = j
    · obtain ⟨l, rfl⟩ := hj
      rw [extend_apply]; rfl
    · push Not at hj
      rw [extend_extra _ _ hj]
      exact (hc i j hj).symm
  have hrow : (embed ι)ᵀ * t'.invT = t.invT * (t'.T * embed ι * t.invT)ᵀ := by
    rw [transpose_mul, transpose_mul, ← Matrix.mul_assoc, f1, ← Matrix.mul_assoc, hE, Matrix.mul_assoc, ← f2, Matrix.mul_assoc t'.invT,
      ← transpose_mul, a2, transpose_one, Matrix.mul_one]
  refine ⟨t, t', t'.T * embed ι * t.invT, e1, e2, a1, a2, ?_, ?_, hrow⟩
  · have : t.T * (embed ι)ᵀ * t'.invT = (t'.T * embed ι * t.invT)ᵀ := by
      rw [Matrix.mul_assoc, hrow, ← Matrix.mul_assoc, a1, Matrix.one_mul]
    rw [← this, ← Matrix.mul_assoc, ← Matrix.mul_assoc, Matrix.mul_assoc (t.T * (embed ι)ᵀ), b2, Matrix.mul_one, Matrix.mul_assoc t.T, embed_orth,
      Matrix.mul_one, a1]
  · rw [← Matrix.mul_assoc, ← Matrix.mul_assoc, b2, Matrix.one_mul]

end Pystra.Props
