import Verif.Lemmas.Units

/-! C90: FORM of a model written down in other units. -/

namespace Pystra.Props
open LimitState Spec Form Matrix Transformation

variable {n : ℕ} {σ : Type} {U : Units} {names : Fin n → String} {D : Fin n → Set ℝ} {marg marg' : Fin n → Marginal}

/-- The marginals of the model in the new units. -/
def MargInUnits (U : Units) (names : Fin n → String) (D : Fin n → Set ℝ) (marg marg' : Fin n → Marginal) : Prop :=
  ∀ i, U.fac (names i) ≠ 0 ∧ Rescaled (U.off (names i)) (U.fac (names i)) (D i) (marg i) (marg' i)

theorem uToX_units (h : MargInUnits U names D marg marg') (t : Mats n) (u : Fin n → ℝ) :
    uToX t marg' u = U.point names (uToX t marg u) := by
  funext i
  exact (h i).2.uToX _

theorem xToU_units (h : MargInUnits U names D marg marg') (t : Mats n) (x : Fin n → ℝ) (hx : ∀ i, x i ∈ D i) :
    xToU t marg' (U.point names x) = xToU t marg x := by
  unfold xToU
  congr 1
  funext i
  exact (h i).2.xToU _ (hx i)

theorem jacobian_units (h : MargInUnits U names D marg marg') (t : Mats n) (u x : Fin n → ℝ) (hx : ∀ i, x i ∈ D i) :
    jacobian t marg' u (U.point names x) = jacobian t marg u x * diagonal (fun i => (U.fac (names i))⁻¹) := by
  unfold jacobian
  dsimp only
  rw [Matrix.mul_assoc, diagonal_mul_diagonal]
  congr 2
  funext i
  rw [← div_eq_mul_inv]
  exact (h i).2.jac _ _ (hx i)

theorem npInv_units (hU : ∀ i, U.fac (names i) ≠ 0) (A : Matrix (Fin n) (Fin n) ℝ) :
    npInv (A * diagonal (fun i => (U.fac (names i))⁻¹)) = (npInv A).map (fun J i j => U.fac (names i) * J i j) := by
  have hd : IsUnit (diagonal (fun i => (U.fac (names i))⁻¹)).det := by
    rw [det_diagonal]
    exact (Finset.prod_ne_zero_iff.2 fun i _ => inv_ne_zero (hU i)).isUnit
  unfold npInv
  by_cases hA : IsUnit A.det
  · rw [if_pos hA, if_pos (by rw [det_mul]; exact hA.mul hd)]
    show Except.ok _ = Except.ok _
    congr 1
    rw [Matrix.mul_inv_rev, inv_diagonal]
    ext i j
    rw [diagonal_mul]
    congr 1
    have hu : IsUnit (fun i => (U.fac (names i))⁻¹) := by
      rw [Pi.isUnit_iff]; exact fun i => (inv_ne_zero (hU i)).isUnit
    have := congrFun (Ring.inverse_mul_cancel _ hu) i
    simp only [Pi.mul_apply, Pi.one_apply] at this
    exact (mul_inv_eq_one₀ (hU i)).1 this
  · rw [if_neg hA, if_neg (by rw [det_mul]; exact fun h => hA (isUnit_of_mul_isUnit_left h))]
    rfl

/-- A point of FORM, in the new units. -/
def pointInUnits (U : Units) (names : Fin n → String) (p : Point n) : Point n :=
  { p with
      x := U.point names p.x
      xAttr := U.point names p.xAttr
      J := fun i j => U.fac (names i) * p.J i j }

theorem linearise_units (h : MargInUnits U names D marg marg') (t : Mats n) (ev : Evaluator σ n) (u : Fin n → ℝ) (s : σ) :
    linearise t marg' ev u s =
      ((linearise t marg (Units.pull U names ev) u s).1,
        (linearise t marg (Units.pull U names ev) u s).2.map (pointInUnits U names)) := by
  have hU : ∀ i, U.fac (names i) ≠ 0 := fun i => (h i).1
  unfold linearise
  dsimp only
  rw [uToX_units h, jacobian_units h t u (uToX t marg u) (fun i => (h i).2.support _), npInv_units hU]
  cases npInv (jacobian t marg u (uToX t marg u)) with
  | error e => rfl
  | ok J =>
    dsimp only [Except.map, Units.pull]
    obtain ⟨⟨s', o⟩, ho⟩ : ∃ y, ev.withGrad s (U.point names (uToX t marg u)) = y := ⟨_, rfl⟩
    rcases o with e | ⟨G, grad, xa⟩ <;> simp only [ho]
    have e1 : (U.point names fun i => (xa i - U.off (names i)) / U.fac (names i)) = xa := by
      funext i
      have := hU i
      simp only [Units.point, Units.conv]
      field_simp
      ring
    have e2 : (grad ᵥ* fun i j => U.fac (names i) * J i j) = Units.grad U names grad ᵥ* J := by
      funext j
      simp only [vecMul, dotProduct, Units.grad]
      exact Finset.sum_congr rfl fun i _ => by ring
    simp only [pointInUnits, e1, e2]

theorem computeStepSize_units (h : MargInUnits U names D marg marg') (t : Mats n) (ev : Evaluator σ n) (opt : Options) (G : ℝ)
    (gradient u d : Fin n → ℝ) (s : σ) :
    computeStepSize t marg' ev opt G gradient u d s = computeStepSize t marg (Units.pull U names ev) opt G gradient u d s := by
  unfold computeStepSize
  dsimp only [Units.pull]
  rw [List.map_map]
  simp only [uToX_units h, Function.comp_def]

theorem getStepSize_units (h : MargInUnits U names D marg marg') (t : Mats n) (ev : Evaluator σ n) (opt : Options) (G : ℝ)
    (gradient u d : Fin n → ℝ) (s : σ) :
    getStepSize t marg' ev opt G gradient u d s = getStepSize t marg (Units.pull U names ev) opt G gradient u d s := by
  unfold getStepSize
  rw [computeStepSize_units h]

/-- An outcome of FORM, in the new units. -/
def outcomeInUnits (U : Units) (names : Fin n → String) : Form.Outcome σ n → Form.Outcome σ n
  | .done r s => .done (U.result names r) s
  | .raised e s => .raised e s
  | .nan s => .nan s
  | .next Go u s => .next Go u s

theorem iteration_units (h : MargInUnits U names D marg marg') (t : Mats n) (ev : Evaluator σ n) (opt : Options) (i : ℕ) (Go : ℝ)
    (u : Fin n → ℝ) (s : σ) :
    iteration t marg' ev opt i Go u s = outcomeInUnits U names (iteration t marg (Units.pull U names ev) opt i Go u s) := by
  unfold iteration
  rw [linearise_units h]
  obtain ⟨⟨s', o⟩, ho⟩ : ∃ y, linearise t marg (Units.pull U names ev) u s = y := ⟨_, rfl⟩
  rw [ho]
  cases o with
  | error e => rfl
  | ok p =>
    simp only [Except.map, pointInUnits, getStepSize_units h]
    by_cases hg : p.gradient = 0
    · rw [if_pos hg, if_pos hg]; rfl
    · rw [if_neg hg, if_neg hg]
      by_cases hc : (cond1 opt p.G (if i = 1 then p.G else Go) && cond2 opt u (alpha p.gradient) || decide (i = opt.iMax)) = true
      · rw [if_pos hc, if_pos hc]; rfl
      · rw [if_neg hc, if_neg hc]
        obtain ⟨⟨s'', o⟩, ho⟩ : ∃ y, getStepSize t marg (Units.pull U names ev) opt p.G p.gradient u
          (direction p.G p.gradient (alpha p.gradient) u) s' = y := ⟨_, rfl⟩
        rw [ho]
        cases o <;> rfl

theorem loop_units (h : MargInUnits U names D marg marg') (t : Mats n) (ev : Evaluator σ n) (opt : Options) (fuel : ℕ) :
    ∀ (i : ℕ) (Go : ℝ) (u : Fin n → ℝ) (s : σ),
    loop t marg' ev opt fuel i Go u s = (loop t marg (Units.pull U names ev) opt fuel i Go u s).map (outcomeInUnits U names) := by
  induction fuel with
  | zero => intro i Go u s; rfl
  | succ fuel ih =>
    intro i Go u s
    unfold loop
    rw [iteration_units h]
    cases iteration t marg (Units.pull U names ev) opt i Go u s with
    | next Go u s => exact ih _ _ _ _
    | _ => rfl

theorem startingPoint_units (h : MargInUnits U names D marg marg') (t : Mats n) :
    startingPoint t marg' = startingPoint t marg := by
  unfold startingPoint
  rw [show (fun i => (marg' i).startpoint) = U.point names (fun i => (marg i).startpoint) from
    funext fun i => (h i).2.startpoint]
  exact xToU_units h t _ fun i => (h i).2.start

theorem runFrom_units (h : MargInUnits U names D marg marg') (t : Mats n) (ev : Evaluator σ n) (opt : Options) (fuel : ℕ) (s : σ) :
    runFrom t marg' ev opt fuel s = (runFrom t marg (Units.pull U names ev) opt fuel s).map (outcomeInUnits U names) := by
  unfold runFrom
  rw [startingPoint_units h]
  exact loop_units h t ev opt fuel _ _ _ _

/-- The standard deviations that the finite differences read. -/
theorem stdv_units (h : MargInUnits U names D marg marg') :
    (fun i => (marg' i).stdv) = Units.grad U names (fun i => (marg i).stdv) := funext fun i => (h i).2.stdv

/-- **C90 (FORM).** -/
theorem C90_form (h : MargInUnits U names D marg marg') (t : Mats n) {expr expr' : Kwargs → GRet} (lsopt : LSOptions)
    (hf : SameFunction U names lsopt.diffMode expr expr') (opt : Options) (fuel : ℕ) (a b : Ev Marginal)
    (hv : VarsInUnits U names a.model b.model) :
    RelOpt (Units.Outcome U names (Units.Advance U a b))
      (runFrom t marg (lsEvaluator expr lsopt fun i => (marg i).stdv) opt fuel a)
      (runFrom t marg' (lsEvaluator expr' lsopt fun i => (marg' i).stdv) opt fuel b) := by
  rw [runFrom_units h, stdv_units h]
  rcases runFrom_sim (ls_units lsopt (fun i => (marg i).stdv) (fun i => (h i).1) hf hv) t marg opt fuel
    (a := a) (b := b) ⟨0, [], a.advance_zero.symm, by rw [List.map_nil, b.advance_zero]⟩ with ⟨h1, h2⟩ | ⟨p, q, h1, h2, hq⟩
  · rw [h1, h2]; exact trivial
  · rw [h1, h2]
    cases hq with
    | done r hR => exact ⟨rfl, hR⟩
    | raised r hR => exact ⟨rfl, hR⟩
    | nan hR => exact hR
    | next Go u hR => exact ⟨rfl, rfl, hR⟩

end Pystra.Props
