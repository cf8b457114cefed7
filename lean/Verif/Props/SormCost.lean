import Verif.Props.FormCalls
import Verif.Props.SormObject
import Verif.Props.EndToEnd

/-! C131: the number of limit-state calls of SORM. -/

namespace Pystra.Props
open Matrix Spec Transformation Form Sorm StochModel

variable {n m : ℕ}

section
variable {D : Type} {expr : Kwargs → GRet} {lo : LSOptions} {stdv : Fin n → ℝ}

/-- The calls counted for one gradient. -/
def gradCalls (lo : LSOptions) (n : ℕ) : ℕ := if lo.diffMode ≠ "no" ∧ lo.diffMode ≠ "ddm" then 1 + n else 1

theorem withGrad_fails {x : Fin n → ℝ} {ev ev' : Ev D} {e : PyErr}
    (h : (lsEvaluator expr lo stdv).withGrad ev x = (ev', .error e)) : ev'.model = ev.model := by
  simp only [lsEvaluator] at h
  split at h
  · injection h with h1 h2; rw [← h1]
  · next ev1 e1 he =>
    injection h with h1 h2
    rw [← h1]
    exact (C04_counts _ _ _ _ _ _ _ _ _ he).1 _ rfl
  · injection h with h1 h2; cases h2

/-- The counter has grown by `j` gradients. -/
def Grew (lo : LSOptions) (n : ℕ) (ev ev' : Ev D) (j : ℕ) : Prop :=
  ev'.model.callFunction = ev.model.callFunction + j * gradCalls lo n

theorem Grew.refl (lo : LSOptions) (n : ℕ) (ev : Ev D) : Grew lo n ev ev 0 := by simp [Grew]

theorem Grew.trans {a b c : Ev D} {j k : ℕ} (h1 : Grew lo n a b j) (h2 : Grew lo n b c k) : Grew lo n a c (j + k) := by
  unfold Grew at *
  rw [h2, h1, Nat.add_mul, Nat.add_assoc]

theorem evaluateLSF_grew (t : Mats n) (marg : Fin n → Marginal) (x : Fin n → ℝ) (ev : Ev D) :
    ∃ j ≤ 1, Grew lo n ev (evaluateLSF t marg (lsEvaluator expr lo stdv) x ev).1 j ∧
      ((evaluateLSF t marg (lsEvaluator expr lo stdv) x ev).2.isOk → j = 1) := by
  unfold evaluateLSF
  rcases h : (lsEvaluator expr lo stdv).withGrad ev x with ⟨ev', e | ⟨G, g, x0⟩⟩
  · refine ⟨0, Nat.zero_le _, ?_, fun h => by cases h⟩
    simp only [Grew, withGrad_fails h, zero_mul, add_zero]
  · refine ⟨1, le_rfl, ?_, fun _ => rfl⟩
    have h1 : Grew lo n ev ev' 1 := by
      unfold Grew
      rw [withGrad_calls h]
      simp [addCallFunction, gradCalls]
    simp only
    split <;> exact h1

theorem hessianColumns_grew (t : Mats n) (marg : Fin n → Marginal) (u0 g0 : Fin n → ℝ) (h : ℝ) : ∀ (is : List (Fin n)) (ev : Ev D),
    ∃ j ≤ is.length, Grew lo n ev (hessianColumns t marg (lsEvaluator expr lo stdv) u0 g0 h is ev).1 j ∧
      ((hessianColumns t marg (lsEvaluator expr lo stdv) u0 g0 h is ev).2.isOk → j = is.length)
  | [], ev => ⟨0, le_rfl, Grew.refl _ _ _, fun _ => rfl⟩
  | i :: is, ev => by
    unfold hessianColumns
    obtain ⟨j, hj, h1, h2⟩ := evaluateLSF_grew (expr := expr) (lo := lo) (stdv := stdv) t marg (uToX t marg (Function.update u0 i (u0 i + h))) ev
    rcases h3 : evaluateLSF t marg (lsEvaluator expr lo stdv) (uToX t marg (Function.update u0 i (u0 i + h))) ev with ⟨ev1, e | ⟨G, g⟩⟩
    · rw [h3] at h1
      exact ⟨j, by simp; omega, h1, fun h => by cases h⟩
    · rw [h3] at h1 h2
      have hj1 : j = 1 := h2 rfl
      obtain ⟨k, hk, h4, h5⟩ := hessianColumns_grew t marg u0 g0 h is ev1
      simp only
      rcases h6 : hessianColumns t marg (lsEvaluator expr lo stdv) u0 g0 h is ev1 with ⟨ev2, e | cols⟩
      · rw [h6] at h4
        exact ⟨j + k, by simp; omega, h1.trans h4, fun h => by cases h⟩
      · rw [h6] at h4 h5
        have := h5 rfl
        exact ⟨j + k, by simp; omega, h1.trans h4, fun _ => by simp; omega⟩

theorem computeHessianAt_grew (t : Mats n) (marg : Fin n → Marginal) (x0 u0 : Fin n → ℝ) (p : ℝ) (ev : Ev D) :
    ∃ j ≤ n + 1, Grew lo n ev (computeHessianAt t marg (lsEvaluator expr lo stdv) x0 u0 p ev).1 j ∧
      ((computeHessianAt t marg (lsEvaluator expr lo stdv) x0 u0 p ev).2.isOk → j = n + 1) := by
  unfold computeHessianAt
  split_ifs with hp
  · exact ⟨0, by omega, Grew.refl _ _ _, fun h => by cases h⟩
  obtain ⟨j, hj, h1, h2⟩ := evaluateLSF_grew (expr := expr) (lo := lo) (stdv := stdv) t marg x0 ev
  simp only
  rcases h3 : evaluateLSF t marg (lsEvaluator expr lo stdv) x0 ev with ⟨ev1, e | ⟨G, g⟩⟩
  · rw [h3] at h1
    exact ⟨j, by omega, h1, fun h => by cases h⟩
  · rw [h3] at h1 h2
    have hj1 : j = 1 := h2 rfl
    obtain ⟨k, hk, h4, h5⟩ := hessianColumns_grew (expr := expr) (lo := lo) (stdv := stdv) t marg u0 g (1 / p) (List.finRange n) ev1
    rw [List.length_finRange] at hk h5
    simp only
    rcases h6 : hessianColumns t marg (lsEvaluator expr lo stdv) u0 g (1 / p) (List.finRange n) ev1 with ⟨ev2, e | cols⟩
    · rw [h6] at h4
      exact ⟨j + k, by omega, h1.trans h4, fun h => by cases h⟩
    · rw [h6] at h4 h5
      have := h5 rfl
      exact ⟨j + k, by omega, h1.trans h4, fun _ => by omega⟩

end

section
variable {D : Type} {expr : Kwargs → GRet} {lo : LSOptions} {stdv : Fin (m + 1) → ℝ}

theorem newton_grew (t : Mats (m + 1)) (marg : Fin (m + 1) → Marginal) (R : Matrix (Fin (m + 1)) (Fin (m + 1)) ℝ) (axis : Fin m) (c : ℝ) :
    ∀ (iter : ℕ) (v : ℝ) (ev : Ev D), ∃ j ≤ iter, Grew lo (m + 1) ev (newton t marg (lsEvaluator expr lo stdv) R axis c iter v ev).1 j ∧
      ∀ v', (newton t marg (lsEvaluator expr lo stdv) R axis c iter v ev).2 = .ok v' → 1 ≤ j ∧ (j = 1 → v' = v)
  | 0, v, ev => ⟨0, le_rfl, Grew.refl _ _ _, fun _ h => by cases h⟩
  | iter + 1, v, ev => by
    unfold newton
    obtain ⟨j, hj, h1, h2⟩ := evaluateLSF_grew (expr := expr) (lo := lo) (stdv := stdv) t marg
      (uToX t marg (Rᵀ.mulVec (trialPoint axis c v))) ev
    rcases h3 : evaluateLSF t marg (lsEvaluator expr lo stdv) (uToX t marg (Rᵀ.mulVec (trialPoint axis c v))) ev with ⟨ev1, e | ⟨G, g⟩⟩
    · rw [h3] at h1
      exact ⟨j, by omega, h1, fun _ h => by cases h⟩
    · rw [h3] at h1 h2
      have hj1 : j = 1 := h2 rfl
      simp only
      split_ifs with c1 c2
      · exact ⟨j, by omega, h1, fun v' h => by injection h with h; exact ⟨by omega, fun _ => h.symm⟩⟩
      · exact ⟨j, by omega, h1, fun _ h => by cases h⟩
      · obtain ⟨k, hk, h4, h5⟩ := newton_grew t marg R axis c iter (v - G / R.mulVec g (Fin.last m)) ev1
        exact ⟨j + k, by omega, h1.trans h4, fun v' h => by have := (h5 v' h).1; exact ⟨by omega, fun h => by omega⟩⟩

theorem findFittingPoint_grew (t : Mats (m + 1)) (marg : Fin (m + 1) → Marginal) (R : Matrix (Fin (m + 1)) (Fin (m + 1)) ℝ) (axis : Fin m)
    (sign beta k : ℝ) (ev : Ev D) :
    ∃ j ≤ 50, Grew lo (m + 1) ev (findFittingPoint t marg (lsEvaluator expr lo stdv) R axis sign beta k ev).1 j ∧
      ∀ κ, (findFittingPoint t marg (lsEvaluator expr lo stdv) R axis sign beta k ev).2 = .ok κ → 1 ≤ j ∧ (j = 1 → κ = 0) := by
  unfold findFittingPoint
  obtain ⟨j, hj, h1, h2⟩ := newton_grew (expr := expr) (lo := lo) (stdv := stdv) t marg R axis (sign * k * beta) 50 beta ev
  rcases h3 : newton t marg (lsEvaluator expr lo stdv) R axis (sign * k * beta) 50 beta ev with ⟨ev1, e | v⟩
  · rw [h3] at h1
    exact ⟨j, hj, h1, fun _ h => by cases h⟩
  · rw [h3] at h1 h2
    have h4 := h2 v rfl
    simp only
    split_ifs
    · exact ⟨j, hj, h1, fun κ h => by injection h with h; exact ⟨h4.1, fun _ => h.symm⟩⟩
    · refine ⟨j, hj, h1, fun κ h => ?_⟩
      injection h with h
      refine ⟨h4.1, fun h5 => ?_⟩
      rw [← h, h4.2 h5]
      simp

theorem fitAxes_grew (t : Mats (m + 1)) (marg : Fin (m + 1) → Marginal) (R : Matrix (Fin (m + 1)) (Fin (m + 1)) ℝ) (beta k : ℝ) :
    ∀ (is : List (Fin m)) (ev : Ev D), ∃ j ≤ 100 * is.length,
      Grew lo (m + 1) ev (fitAxes t marg (lsEvaluator expr lo stdv) R beta k is ev).1 j ∧
      ∀ l, (fitAxes t marg (lsEvaluator expr lo stdv) R beta k is ev).2 = .ok l → 2 * is.length ≤ j ∧
        (j = 2 * is.length → l = List.replicate is.length (0, 0))
  | [], ev => ⟨0, Nat.zero_le _, Grew.refl _ _ _, fun l h => by injection h with h; exact ⟨le_rfl, fun _ => h.symm⟩⟩
  | i :: is, ev => by
    unfold fitAxes
    obtain ⟨j, hj, h1, h2⟩ := findFittingPoint_grew (expr := expr) (lo := lo) (stdv := stdv) t marg R i (-1) beta k ev
    rcases h3 : findFittingPoint t marg (lsEvaluator expr lo stdv) R i (-1) beta k ev with ⟨ev1, e | km⟩
    · rw [h3] at h1
      exact ⟨j, by simp; omega, h1, fun _ h => by cases h⟩
    rw [h3] at h1 h2
    have hj1 := h2 km rfl
    simp only
    obtain ⟨j', hj', h1', h2'⟩ := findFittingPoint_grew (expr := expr) (lo := lo) (stdv := stdv) t marg R i 1 beta k ev1
    rcases h3' : findFittingPoint t marg (lsEvaluator expr lo stdv) R i 1 beta k ev1 with ⟨ev2, e | kp⟩
    · rw [h3'] at h1'
      exact ⟨j + j', by simp; omega, h1.trans h1', fun _ h => by cases h⟩
    rw [h3'] at h1' h2'
    have hj1' := h2' kp rfl
    simp only
    obtain ⟨k', hk', h4, h5⟩ := fitAxes_grew t marg R beta k is ev2
    rcases h6 : fitAxes t marg (lsEvaluator expr lo stdv) R beta k is ev2 with ⟨ev3, e | l⟩
    · rw [h6] at h4
      exact ⟨j + j' + k', by simp; omega, (h1.trans h1').trans h4, fun _ h => by cases h⟩
    · rw [h6] at h4 h5
      have h7 := h5 l rfl
      refine ⟨j + j' + k', by simp; omega, (h1.trans h1').trans h4, fun l' h => ?_⟩
      injection h with h
      refine ⟨by simp; omega, fun h8 => ?_⟩
      rw [List.length_cons] at h8
      rw [← h, hj1.2 (by omega), hj1'.2 (by omega), h7.2 (by omega)]
      rfl

theorem fitPoints_grew (t : Mats (m + 1)) (marg : Fin (m + 1) → Marginal) (alpha : Fin (m + 1) → ℝ) (beta : ℝ) (ev : Ev D) :
    ∃ j ≤ 100 * m, Grew lo (m + 1) ev (fitPoints t marg (lsEvaluator expr lo stdv) alpha beta ev).1 j ∧
      ∀ l, (fitPoints t marg (lsEvaluator expr lo stdv) alpha beta ev).2 = .ok l → 2 * m ≤ j ∧ (j = 2 * m → l = List.replicate m (0, 0)) := by
  unfold fitPoints
  split
  · exact ⟨0, Nat.zero_le _, Grew.refl _ _ _, fun _ h => by cases h⟩
  · next R _ =>
    split_ifs with hb
    · exact ⟨0, Nat.zero_le _, Grew.refl _ _ _, fun _ h => by cases h⟩
    · have := fitAxes_grew (expr := expr) (lo := lo) (stdv := stdv) t marg R beta (stepCoeff beta) (List.finRange m) ev
      rwa [List.length_finRange] at this

theorem fitCurvatures_grew (eig : Matrix (Fin m) (Fin m) ℝ → List ℝ) (t : Mats (m + 1)) (marg : Fin (m + 1) → Marginal)
    (x0 u0 alpha gradient : Fin (m + 1) → ℝ) (p : ℝ) (ev : Ev D) :
    ∃ j ≤ m + 2, Grew lo (m + 1) ev (fitCurvatures eig t marg (lsEvaluator expr lo stdv) x0 u0 alpha gradient p ev).1 j ∧
      ((fitCurvatures eig t marg (lsEvaluator expr lo stdv) x0 u0 alpha gradient p ev).2.isOk → j = m + 2) := by
  unfold fitCurvatures
  obtain ⟨j, hj, h1, h2⟩ := computeHessianAt_grew (expr := expr) (lo := lo) (stdv := stdv) t marg x0 u0 p ev
  rcases h3 : computeHessianAt t marg (lsEvaluator expr lo stdv) x0 u0 p ev with ⟨ev1, e | H⟩
  · rw [h3] at h1
    exact ⟨j, hj, h1, fun h => by cases h⟩
  · rw [h3] at h1 h2
    have := h2 rfl
    simp only
    split
    · exact ⟨j, hj, h1, fun h => by cases h⟩
    · exact ⟨j, hj, h1, fun _ => this⟩

end

/-- C131: cost of a SORM run over `m + 1` variables.  Whatever happens, the counter of the model grows by a whole number `j` of gradients,
each `1 + (m + 1)` calls with finite differences and one call with `ddm` or `no`: at most `m + 2` gradients for the curve fit and `100 m`
for the point fit; a run that completes takes exactly `m + 2` (curve fit) and at least `2 m` (point fit); any other type of fit takes
none. -/
theorem C131_cost (c : Session.Setup) (p : ℝ) (print : Bool) (fit : String) (o : SormObj.Obj m) (ev : Ev Marginal) :
    let r := SormObj.run c p print fit o ev
    let q := if c.lsopt.diffMode ≠ "no" ∧ c.lsopt.diffMode ≠ "ddm" then 1 + (m + 1) else 1
    ∃ j, r.2.1.model.callFunction = ev.model.callFunction + j * q ∧
      (fit = "cf" → j ≤ m + 2 ∧ (r.2.2 = .ok () → j = m + 2)) ∧
      (fit = "pf" → j ≤ 100 * m ∧ (r.2.2 = .ok () → 2 * m ≤ j ∧
        (j = 2 * m → r.1.kappaPf = some (List.replicate m 0, List.replicate m 0)))) ∧
      (fit ≠ "cf" → fit ≠ "pf" → j = 0) := by
  intro r q
  have hq : q = gradCalls c.lsopt (m + 1) := rfl
  have hinit : ∀ ev1 (x : Except PyErr (Mats (m + 1))), Session.initRun c (m + 1) ev = (ev1, x) → ev1.model.callFunction = ev.model.callFunction := by
    intro ev1 x h
    have h1 : (Session.initRun c (m + 1) ev).1.model.callFunction = ev.model.callFunction := by
      unfold Session.initRun Correlation.setModified
      cases Correlation.compute c.fmin c.default ev.model with
      | error e => rfl
      | ok Ro =>
        simp only [setModifiedCorrelation]
        split <;> rfl
    rw [h] at h1
    exact h1
  have hcf : ∀ t (o : SormObj.Obj m) (ev1 : Ev Marginal), ∃ j ≤ m + 2,
      (SormObj.runCurvefit c t p print o ev1).2.1.model.callFunction = ev1.model.callFunction + j * q ∧
      ((SormObj.runCurvefit c t p print o ev1).2.2 = .ok () → j = m + 2) := by
    intro t o ev1
    unfold SormObj.runCurvefit
    split
    · exact ⟨0, Nat.zero_le _, by simp, fun h => by cases h⟩
    · next al _ =>
      simp only [Session.evaluator]
      obtain ⟨j, hj, h1, h2⟩ := fitCurvatures_grew (expr := c.expr) (lo := c.lsopt)
        (stdv := fun i => (Session.margN (m + 1) c.default ev1.model i).stdv) (c.eig m) t (Session.margN (m + 1) c.default ev1.model)
        (uToX (o.form.transform.getD t) (Session.margN (m + 1) c.default ev1.model) (o.form.u.getD 0)) (o.form.u.getD 0) al
        (o.form.gradient.getD 0) p ev1
      split
      · next h3 =>
        rw [h3] at h1
        exact ⟨j, hj, h1, fun h => by cases h⟩
      · next h3 =>
        rw [h3] at h1 h2
        split
        · exact ⟨j, hj, h1, fun h => by cases h⟩
        · exact ⟨j, hj, h1, fun _ => h2 rfl⟩
  have hpf : ∀ t (o : SormObj.Obj m) (ev1 : Ev Marginal), ∃ j ≤ 100 * m,
      (SormObj.runPointfit c t print o ev1).2.1.model.callFunction = ev1.model.callFunction + j * q ∧
      ((SormObj.runPointfit c t print o ev1).2.2 = .ok () → 2 * m ≤ j ∧
        (j = 2 * m → (SormObj.runPointfit c t print o ev1).1.kappaPf = some (List.replicate m 0, List.replicate m 0))) := by
    intro t o ev1
    unfold SormObj.runPointfit
    split
    · exact ⟨0, Nat.zero_le _, by simp, fun h => by cases h⟩
    split
    · exact ⟨0, Nat.zero_le _, by simp, fun h => by cases h⟩
    · next beta _ _ al _ =>
      simp only [Session.evaluator]
      obtain ⟨j, hj, h1, h2⟩ := fitPoints_grew (expr := c.expr) (lo := c.lsopt)
        (stdv := fun i => (Session.margN (m + 1) c.default ev1.model i).stdv) t (Session.margN (m + 1) c.default ev1.model) al beta ev1
      split
      · next h3 =>
        rw [h3] at h1
        exact ⟨j, hj, h1, fun h => by cases h⟩
      · next h3 =>
        rw [h3] at h1 h2
        refine ⟨j, hj, h1, fun _ => ?_⟩
        obtain ⟨h4, h5⟩ := h2 _ rfl
        refine ⟨h4, fun h6 => ?_⟩
        simp [h5 h6, SormObj.store]
  simp only [r]
  unfold SormObj.run
  simp only
  split
  · next ev1 e h =>
    exact ⟨0, by simp [hinit _ _ h], fun _ => ⟨Nat.zero_le _, fun h => by cases h⟩, fun _ => ⟨Nat.zero_le _, fun h => by cases h⟩, fun _ _ => rfl⟩
  · next ev1 t h =>
    rw [← hinit _ _ h]
    split_ifs with h1 h2
    · obtain ⟨j, hj, h3, h4⟩ := hcf t { o with resultsValid := true, transform := some t, fitType := some fit } ev1
      exact ⟨j, h3, fun _ => ⟨hj, h4⟩, fun h => absurd (h1.symm.trans h) (by decide), fun h => absurd h1 h⟩
    · obtain ⟨j, hj, h3, h4⟩ := hpf t { o with resultsValid := true, transform := some t, fitType := some fit } ev1
      exact ⟨j, h3, fun h => absurd h h1, fun _ => ⟨hj, h4⟩, fun _ h => absurd h2 h⟩
    · exact ⟨0, by simp, fun h => absurd h h1, fun h => absurd h h2, fun _ _ => rfl⟩

/-- C131: the other way to a Hessian, `computeHessian(diff_type)`: an exception costs nothing, and a call that completes counts the
`2 n + n (n - 1) / 2` points, multiplied by the price of a gradient when the mode of the options is finite differences. -/
theorem C131_mixed {D : Type} (t : Mats n) (marg : Fin n → Marginal) (expr : Kwargs → GRet) (lo : LSOptions) (stdv : Fin n → ℝ)
    (form : Result n) (para : ℝ) (ev ev' : Ev D) (r : Except PyErr (Matrix (Fin n) (Fin n) ℝ))
    (h : computeHessianMixed t marg (lsMany expr lo stdv) form para ev = (ev', r)) :
    let q := if lo.diffMode ≠ "no" ∧ lo.diffMode ≠ "ddm" then 1 + n else 1
    (∀ e, r = .error e → ev'.model = ev.model) ∧
    (∀ H, r = .ok H → ev'.model.callFunction = ev.model.callFunction + (2 * n + n * (n - 1) / 2) * q) := by
  intro q
  unfold computeHessianMixed at h
  split_ifs at h with hp
  · injection h with h1 h2
    subst h1 h2
    exact ⟨fun _ _ => rfl, fun _ h => by cases h⟩
  dsimp only at h
  generalize hpts : (List.finRange n).map (fun i => uToX t marg (Function.update (designPoint t marg form true) i
      (designPoint t marg form true i + 1 / para))) ++
      (List.finRange n).map (fun i => uToX t marg (Function.update (designPoint t marg form true) i
      (designPoint t marg form true i - 1 / para))) ++
      (List.range (n * (n - 1) / 2)).map (bothPoints t marg (designPoint t marg form true) (1 / para)) = xs at h
  have hlen : xs.length = 2 * n + n * (n - 1) / 2 := by rw [← hpts]; simp; ring
  unfold lsMany at h
  rcases h1 : LimitState.evaluateLsf (7 + n + xs.length) expr lo stdv none xs ev with _ | ⟨ev1, e | out⟩
  · rw [h1] at h
    injection h with h2 h3
    subst h2 h3
    exact ⟨fun _ _ => rfl, fun _ h => by cases h⟩
  · have hc := C04_counts _ _ _ _ _ _ _ _ _ h1
    rw [h1] at h
    injection h with h2 h3
    subst h2 h3
    exact ⟨fun _ _ => hc.1 e rfl, fun _ h => by cases h⟩
  · have hc := (C04_counts _ _ _ _ _ _ _ _ _ h1).2 out rfl
    rw [h1] at h
    injection h with h2 h3
    subst h2
    refine ⟨fun e he => (by rw [he] at h3; cases h3), fun H _ => ?_⟩
    rw [hc, hlen]
    simp only [addCallFunction, true_and, q]
    split_ifs <;> simp

/-- A concrete case of `C131_mixed`: two normal variables and `g = R - S` without gradients: the call completes, and counts 5 points. -/
example (form : Result 2) : ∃ (marg : Fin 2 → Marginal) (ev ev' : Ev Marginal) (H : Matrix (Fin 2) (Fin 2) ℝ),
    computeHessianMixed ⟨1, 1⟩ marg (lsMany (vectorised (linearOf !["R", "S"] 0 ![1, -1])) ⟨"no", 1, 2, 1000⟩ (fun _ => 1)) form 1000 ev =
      (ev', .ok H) ∧ ev'.model.callFunction = ev.model.callFunction + 5 := by
  have hm : ∀ i : Fin 2, ∃ mm, Normal.new (![10, 3] i) (.fin (![2, 1] i : ℝ)) none = .ok mm := fun i => ⟨_, rfl⟩
  choose marg hmarg using hm
  have hnd : Function.Injective !["R", "S"] := by
    intro i j h
    fin_cases i <;> fin_cases j <;> simp_all
  obtain ⟨q1, q2, q3, -, -⟩ := normalModel_spec hnd marg (by norm_num)
  rcases h : computeHessianMixed ⟨1, 1⟩ marg (lsMany (vectorised (linearOf !["R", "S"] 0 ![1, -1])) ⟨"no", 1, 2, 1000⟩ (fun _ => 1)) form 1000
    ⟨normalModel !["R", "S"] marg, []⟩ with ⟨ev', e | H⟩
  · exfalso
    unfold computeHessianMixed lsMany at h
    rw [if_neg (by norm_num)] at h
    dsimp only at h
    rw [C08_suppressed _ _ _ (by norm_num) _ _ (Or.inr rfl)] at h
    obtain ⟨ev1, out, h1, -⟩ := C05_block_size_invisible (vectorised_pointwise (linearOf !["R", "S"] 0 ![1, -1])) ⟨"no", 1, 2, 1000⟩ (by norm_num)
      ((List.finRange 2).map (fun i => uToX (⟨1, 1⟩ : Mats 2) marg (Function.update (designPoint ⟨1, 1⟩ marg form true) i
      (designPoint ⟨1, 1⟩ marg form true i + 1 / 1000))) ++
      (List.finRange 2).map (fun i => uToX (⟨1, 1⟩ : Mats 2) marg (Function.update (designPoint ⟨1, 1⟩ marg form true) i
      (designPoint ⟨1, 1⟩ marg form true i - 1 / 1000))) ++
      (List.range (2 * (2 - 1) / 2)).map (bothPoints ⟨1, 1⟩ marg (designPoint ⟨1, 1⟩ marg form true) (1 / 1000)))
      (⟨normalModel !["R", "S"] marg, []⟩ : Ev Marginal) q1 (by unfold StochModel.nMarg; dsimp only; rw [q3]; simp)
      (by unfold StochModel.getNames; dsimp only; rw [q2]; simp) _ (Nat.le_add_left _ (7 + 2))
    rw [h1] at h
    cases h
  · refine ⟨marg, _, ev', H, h, ?_⟩
    rw [(C131_mixed _ _ _ _ _ _ _ _ _ _ h).2 H rfl]
    simp

/-- C131: cost of a whole SORM analysis that completes: `i` iterations of FORM and `j` gradients of the fit. -/
theorem C131_whole (c : Session.Setup) (fopt : Form.Options) (p : ℝ) (fit : String) (ev ev' : Ev Marginal) (res : Sorm.SResult)
    (h : Session.runJob c (.sorm fopt p fit : Session.Job (m + 1)) ev = some (ev', .sorm res)) :
    let q := if c.lsopt.diffMode ≠ "no" ∧ c.lsopt.diffMode ≠ "ddm" then 1 + (m + 1) else 1
    ∃ ev1 r j, Session.formRun c (m + 1) fopt ev = some (ev1, .inl r) ∧
      ev'.model.callFunction = ev.model.callFunction + (r.i + j) * q + (if fopt.stepSize = 0 then 6 * (r.i - 1) else 0) ∧
      (fit = "cf" ∧ j = m + 2 ∨ fit = "pf" ∧ 2 * m ≤ j ∧ j ≤ 100 * m ∧
        (j = 2 * m → res.kappaPf = some (List.replicate m 0, List.replicate m 0))) := by
  intro q
  have h1 := C78_fresh (m := m) c fopt p fit ev
  rw [h] at h1
  obtain ⟨ev1, o, o', h2, h3, hH, -⟩ := h1
  obtain ⟨j, h4, h5, h6, h7⟩ := C131_cost c p false fit o ev1
  rw [h3] at h4 h5 h6
  have h8 := C76_run (n := m + 1) c fopt FormObj.fresh ev
  unfold SormObj.new at h2
  rcases hf : Session.formRun c (m + 1) fopt ev with _ | ⟨ev2, r | out⟩
  · rw [hf] at h8
    dsimp only at h8
    rw [h8] at h2
    cases h2
  · rw [hf] at h8
    obtain ⟨F, h9, -⟩ := h8
    rw [h9] at h2
    injection h2 with h2
    injection h2 with h2 _
    subst h2
    obtain ⟨ev0, t, hI, hrun, -⟩ := formRun_done hf
    have hcount := C34_calls hrun
    have h0 : ev0.model.callFunction = ev.model.callFunction := by
      obtain ⟨Ro, -, rfl⟩ := initRun_ok hI
      rfl
    refine ⟨ev2, r, j, rfl, ?_, ?_⟩
    · rw [h4, hcount, h0]
      ring
    · by_cases hc : fit = "cf"
      · exact Or.inl ⟨hc, (h5 hc).2 rfl⟩
      by_cases hp : fit = "pf"
      · exact Or.inr ⟨hp, ((h6 hp).2 rfl).1, (h6 hp).1, fun h => hH.kappaPf.symm.trans (((h6 hp).2 rfl).2 h)⟩
      exfalso
      unfold SormObj.run at h3
      simp only [if_neg hc, if_neg hp] at h3
      split at h3 <;> cases h3
  · rw [hf] at h8
    cases out with
    | raised e =>
      obtain ⟨F, h9, -⟩ := h8
      rw [h9] at h2
      cases h2
    | nan =>
      obtain ⟨F, h9⟩ := h8
      rw [h9] at h2
      cases h2
    | _ => exact h8.elim

section
variable {D : Type} {expr : Kwargs → GRet} {lo : LSOptions} {stdv : Fin (m + 1) → ℝ} {t : Mats (m + 1)} {marg : Fin (m + 1) → Marginal}
  {P : Ev D → Prop} {q : (Fin (m + 1) → ℝ) → ℝ} {grad : (Fin (m + 1) → ℝ) → Fin (m + 1) → ℝ}

theorem newton_stays (hg : Gives t marg (lsEvaluator expr lo stdv) P q grad) (R : Matrix (Fin (m + 1)) (Fin (m + 1)) ℝ) (axis : Fin m)
    (c : ℝ) : ∀ (iter : ℕ) (v v' : ℝ) (ev ev' : Ev D), P ev → newton t marg (lsEvaluator expr lo stdv) R axis c iter v ev = (ev', .ok v') →
      P ev' ∧ |q (Rᵀ.mulVec (trialPoint axis c v'))| < 1e-6
  | 0, v, v', ev, ev', hP, h => by cases h
  | iter + 1, v, v', ev, ev', hP, h => by
    obtain ⟨ev1, h1, h2⟩ := hg ev hP (Rᵀ.mulVec (trialPoint axis c v))
    unfold newton at h
    rw [h1] at h
    dsimp only at h
    split_ifs at h with c1 c2
    · injection h with h3 h4
      injection h4 with h4
      rw [← h3, ← h4]
      exact ⟨h2, c1⟩
    · cases h
    · exact newton_stays hg R axis c iter _ v' ev1 ev' h2 h

theorem newton_once (hg : Gives t marg (lsEvaluator expr lo stdv) P q grad) (R : Matrix (Fin (m + 1)) (Fin (m + 1)) ℝ) (axis : Fin m)
    (c : ℝ) (iter : ℕ) {v : ℝ} {ev ev' : Ev D} (hP : P ev) (h : newton t marg (lsEvaluator expr lo stdv) R axis c (iter + 1) v ev = (ev', .ok v)) :
    Grew lo (m + 1) ev ev' 1 := by
  obtain ⟨-, hv⟩ := newton_stays hg R axis c _ _ _ _ _ hP h
  obtain ⟨ev1, h1, h2⟩ := hg ev hP (Rᵀ.mulVec (trialPoint axis c v))
  obtain ⟨j, hj, h3, h4⟩ := evaluateLSF_grew (expr := expr) (lo := lo) (stdv := stdv) t marg (uToX t marg (Rᵀ.mulVec (trialPoint axis c v))) ev
  unfold newton at h
  rw [h1] at h h3 h4
  dsimp only at h
  rw [if_pos hv] at h
  injection h with h5 h6
  rw [← h5]
  have := h4 rfl
  rwa [this] at h3

theorem findFittingPoint_once (hg : Gives t marg (lsEvaluator expr lo stdv) P q grad) (R : Matrix (Fin (m + 1)) (Fin (m + 1)) ℝ)
    (axis : Fin m) {sign beta κ : ℝ} (hsign : sign = 1 ∨ sign = -1) (hb : beta ≠ 0) {ev ev' : Ev D} (hP : P ev)
    (h : findFittingPoint t marg (lsEvaluator expr lo stdv) R axis sign beta (stepCoeff beta) ev = (ev', .ok κ)) :
    P ev' ∧ (κ = 0 → Grew lo (m + 1) ev ev' 1) := by
  unfold findFittingPoint at h
  split at h
  · cases h
  · next v hn =>
    have habs := coord_abs hb hsign
    have h1 := fitDistance_one_le beta
    rw [← stepCoeff_mul hb] at habs
    rw [if_neg (by rw [habs]; norm_num; linarith)] at h
    injection h with h2 h3
    injection h3 with h3
    subst h2
    refine ⟨(newton_stays hg R axis _ _ _ _ _ _ hP hn).1, fun h4 => ?_⟩
    have hc : sign * stepCoeff beta * beta ≠ 0 := by
      intro h0
      rw [h0, abs_zero] at habs
      linarith
    have hv : v = beta := by
      rw [h4, div_eq_zero_iff] at h3
      rcases h3 with h3 | h3
      · linarith
      · exact absurd h3 (pow_ne_zero _ hc)
    rw [hv] at hn
    exact newton_once hg R axis _ 49 hP hn

theorem fitAxes_once (hg : Gives t marg (lsEvaluator expr lo stdv) P q grad) (R : Matrix (Fin (m + 1)) (Fin (m + 1)) ℝ) {beta : ℝ}
    (hb : beta ≠ 0) : ∀ (is : List (Fin m)) (l : List (ℝ × ℝ)) (ev ev' : Ev D), P ev →
      fitAxes t marg (lsEvaluator expr lo stdv) R beta (stepCoeff beta) is ev = (ev', .ok l) →
      l = List.replicate is.length (0, 0) → Grew lo (m + 1) ev ev' (2 * is.length)
  | [], l, ev, ev', hP, h, hl => by
    injection h with h1 h2
    rw [← h1]
    exact Grew.refl _ _ _
  | i :: is, l, ev, ev', hP, h, hl => by
    unfold fitAxes at h
    split at h
    · cases h
    next ev1 km h1 =>
    split at h
    · cases h
    next ev2 kp h2 =>
    split at h
    · cases h
    next ev3 l' h3 =>
    injection h with h4 h5
    injection h5 with h5
    rw [← h5, List.length_cons, List.replicate_succ] at hl
    injection hl with hl1 hl2
    injection hl1 with hkm hkp
    obtain ⟨p1, g1⟩ := findFittingPoint_once hg R i (Or.inr rfl) hb hP h1
    obtain ⟨p2, g2⟩ := findFittingPoint_once hg R i (Or.inl rfl) hb p1 h2
    have g3 := fitAxes_once hg R hb is l' ev2 ev3 p2 h3 hl2
    rw [← h4, List.length_cons, show 2 * (is.length + 1) = 1 + 1 + 2 * is.length by ring]
    exact ((g1 hkm).trans (g2 hkp)).trans g3

/-- C131: for a limit state that answers with the same value and gradient whenever it is asked at the same point, a completed point fit takes
`2 m` gradients -- one for each fitting point -- exactly if it reports all curvatures as zero: the price of a curved surface is at least one
more. -/
theorem C131_flat (hg : Gives t marg (lsEvaluator expr lo stdv) P q grad) {alpha : Fin (m + 1) → ℝ} {beta : ℝ} {ev ev' : Ev D} (hP : P ev)
    {l : List (ℝ × ℝ)} (h : fitPoints t marg (lsEvaluator expr lo stdv) alpha beta ev = (ev', .ok l)) :
    let q := if lo.diffMode ≠ "no" ∧ lo.diffMode ≠ "ddm" then 1 + (m + 1) else 1
    ∃ j, ev'.model.callFunction = ev.model.callFunction + j * q ∧ 2 * m ≤ j ∧ (j = 2 * m ↔ l = List.replicate m (0, 0)) := by
  intro q
  obtain ⟨j, -, h1, h2⟩ := fitPoints_grew (expr := expr) (lo := lo) (stdv := stdv) t marg alpha beta ev
  rw [h] at h1 h2
  obtain ⟨h3, h4⟩ := h2 l rfl
  by_cases hl : l = List.replicate m (0, 0)
  · refine ⟨2 * m, ?_, le_rfl, fun _ => hl, fun _ => rfl⟩
    unfold fitPoints at h
    split at h
    · cases h
    split_ifs at h with hb
    · cases h
    have := fitAxes_once hg _ hb _ _ _ _ hP h (by rw [List.length_finRange]; exact hl)
    rwa [List.length_finRange] at this
  · exact ⟨j, h1, h3, h4, fun h => absurd h hl⟩

/-- C131: for a limit state that is affine in standard normal space (whatever the distributions), the point fit takes exactly `2 m`
gradients. -/
theorem C131_plane (hg : Gives t marg (lsEvaluator expr lo stdv) P q grad) (hder : ∀ u, HasFDerivAt q (gradMap (grad u)) u)
    {alpha : Fin (m + 1) → ℝ} {beta : ℝ} (ha : alpha ⬝ᵥ alpha = 1) (hm : m ≠ 0) (hlast : 1e-8 < |alpha (Fin.last m)|) {c0 : ℝ}
    (hc0 : 1e-12 ≤ c0) (hβ : beta ≠ 0) (hq : ∀ u, q u = c0 * (beta - alpha ⬝ᵥ u)) {ev : Ev D} (hP : P ev) :
    let q := if lo.diffMode ≠ "no" ∧ lo.diffMode ≠ "ddm" then 1 + (m + 1) else 1
    ∃ ev', fitPoints t marg (lsEvaluator expr lo stdv) alpha beta ev = (ev', .ok (List.replicate m (0, 0))) ∧
      ev'.model.callFunction = ev.model.callFunction + 2 * m * q := by
  intro q'
  obtain ⟨s', r, h1, -, h2, -⟩ := C49_plane hg hder (form := ⟨0, ⟨0, 0, 0, 0, 0, 0⟩, 0, alpha, beta, 0⟩) ha hm hlast hc0 hβ hq false ev hP
  unfold Sorm.runPointfit at h1
  rcases h3 : fitPoints t marg (lsEvaluator expr lo stdv) alpha beta ev with ⟨ev', e | l⟩
  · simp only [h3] at h1
    cases h1
  · simp only [h3, finish] at h1
    injection h1 with h4 h5
    injection h5 with h5
    rw [← h5] at h2
    injection h2 with h2
    injection h2 with h6 h7
    have hl : l = List.replicate m (0, 0) := by
      refine List.eq_replicate_iff.2 ⟨by simpa using congrArg List.length h6, fun b hb => ?_⟩
      have e1 : b.1 ∈ List.replicate m (0 : ℝ) := h6 ▸ List.mem_map_of_mem hb
      have e2 : b.2 ∈ List.replicate m (0 : ℝ) := h7 ▸ List.mem_map_of_mem hb
      exact Prod.ext (List.eq_of_mem_replicate e1) (List.eq_of_mem_replicate e2)
    refine ⟨ev', by rw [hl], ?_⟩
    obtain ⟨j, h8, -, h9⟩ := C131_flat hg hP h3
    rw [h8, h9.2 hl]

end

/-- A concrete case of `C131_plane`: `g = R - S - 2T` with normal variables of means 10, 3, 2 and deviations 2, 1, 1, that is
`u ↦ 3 + 2u₀ - u₁ - 2u₂`; finite differences.  The point fit takes 16 calls. -/
example : ∃ (c : LSOptions) (marg : Fin 3 → Marginal) (stdv : Fin 3 → ℝ) (ev ev' : Ev Marginal),
    fitPoints (m := 2) ⟨1, 1⟩ marg (lsEvaluator (vectorised (linearOf !["R", "S", "T"] 0 ![1, -1, -2])) c stdv) ![-2/3, 1/3, 2/3] 1 ev =
      (ev', .ok [(0, 0), (0, 0)]) ∧ ev'.model.callFunction = ev.model.callFunction + 16 := by
  have hm : ∀ i : Fin 3, ∃ mm, Normal.new (![10, 3, 2] i) (.fin (![2, 1, 1] i : ℝ)) none = .ok mm := fun i => ⟨_, rfl⟩
  choose marg hmarg using hm
  have hnd : Function.Injective !["R", "S", "T"] := by
    intro i j h
    fin_cases i <;> fin_cases j <;> simp_all
  have hsd : ∀ i : Fin 3, (0 : ℝ) < ![2, 1, 1] i := fun i => by fin_cases i <;> simp
  obtain ⟨q1, q2, q3, q4, q5⟩ := normalModel_spec hnd marg (by norm_num)
  have hex := ffd_exact (vectorised_pointwise (linearOf !["R", "S", "T"] 0 ![1, -1, -2])) ⟨"ffd", 1, 1000, 1000⟩ (by norm_num) (by norm_num)
    (by norm_num) (by simp) (by simp) (fun i => (marg i).stdv) (fun j => by rw [(normal_ok (hmarg j)).2.2.2.2.1]; exact (hsd j).ne')
    (normalModel !["R", "S", "T"] marg) q1 (by unfold StochModel.nMarg; rw [q3]; simp) (by unfold StochModel.getNames; rw [q2]; simp) 0 ![1, -1, -2]
    (fun p => linearOf_point hnd marg (by norm_num) 0 ![1, -1, -2] p)
  have hu : ∀ u : Fin 3 → ℝ, (0 : ℝ) + ∑ i, (![1, -1, -2] : Fin 3 → ℝ) i * uToX (⟨1, 1⟩ : Mats 3) marg u i =
      3 * (1 - ![-2/3, 1/3, 2/3] ⬝ᵥ u) := by
    intro u
    have h0 : ∀ i, uToX (⟨1, 1⟩ : Mats 3) marg u i = (![10, 3, 2] : Fin 3 → ℝ) i + (![2, 1, 1] : Fin 3 → ℝ) i * u i := by
      intro i
      simp [uToX, (normal_ok (hmarg i)).1, Normal.uToX]
      ring
    simp only [h0, Fin.sum_univ_three, dotProduct]
    simp
    ring
  have hgives : Gives (⟨1, 1⟩ : Mats 3) marg (lsEvaluator (vectorised (linearOf !["R", "S", "T"] 0 ![1, -1, -2])) ⟨"ffd", 1, 1000, 1000⟩
      (fun i => (marg i).stdv)) (fun e : Ev Marginal => ∃ k, e.model = (normalModel !["R", "S", "T"] marg).addCallFunction k)
      (fun u => 0 + ∑ i, (![1, -1, -2] : Fin 3 → ℝ) i * uToX (⟨1, 1⟩ : Mats 3) marg u i)
      (fun _ => vecMul (fun i => (![1, -1, -2] : Fin 3 → ℝ) i * (![2, 1, 1] : Fin 3 → ℝ) i) (1 : Matrix (Fin 3) (Fin 3) ℝ)) := by
    intro s hs u
    obtain ⟨s', x0, h1, h2⟩ := hex s hs (uToX (⟨1, 1⟩ : Mats 3) marg u)
    refine ⟨s', ?_, h2⟩
    unfold Sorm.evaluateLSF
    rw [h1]
    dsimp only
    rw [normal_jacobian_inv (by simp) hsd hmarg]
    refine Prod.ext rfl (congrArg Except.ok (Prod.ext rfl ?_))
    dsimp only
    rw [← vecMul_vecMul]
    congr 1
    funext i
    rw [vecMul_diagonal]
  have hder : ∀ u : Fin 3 → ℝ, HasFDerivAt (fun u => 0 + ∑ i, (![1, -1, -2] : Fin 3 → ℝ) i * uToX (⟨1, 1⟩ : Mats 3) marg u i)
      (gradMap (vecMul (fun i => (![1, -1, -2] : Fin 3 → ℝ) i * (![2, 1, 1] : Fin 3 → ℝ) i) (1 : Matrix (Fin 3) (Fin 3) ℝ))) u := by
    intro u
    have hq := quad_hasFDerivAt 3 (vecMul (fun i => (![1, -1, -2] : Fin 3 → ℝ) i * (![2, 1, 1] : Fin 3 → ℝ) i) (1 : Matrix (Fin 3) (Fin 3) ℝ))
      (K := 0) (by simp [IsSymm]) u
    simp only [zero_mulVec, add_zero] at hq
    convert hq using 1
    funext v
    rw [hu]
    simp [quad, dotProduct, Fin.sum_univ_three]
    ring
  obtain ⟨ev', h1, h2⟩ := C131_plane hgives hder (alpha := ![-2/3, 1/3, 2/3]) (beta := 1) (c0 := 3)
    (by simp [dotProduct, Fin.sum_univ_three]; norm_num) (by norm_num)
    (by rw [show (Fin.last 2) = (2 : Fin 3) from rfl]; simp; rw [abs_of_pos (by norm_num)]; norm_num) (by norm_num) one_ne_zero hu
    (ev := ⟨normalModel !["R", "S", "T"] marg, []⟩) ⟨0, rfl⟩
  refine ⟨_, marg, _, _, ev', h1, ?_⟩
  rw [h2]
  simp

/-- A concrete case: three normal variables, `g = R - S - 2T`, finite differences and the default step rule.  The analysis completes, and
the curve fit adds `4 · 4` calls to those of FORM. -/
example {la : LinAlg} (hla : LinAlgOK la) {eig : (k : ℕ) → Matrix (Fin k) (Fin k) ℝ → List ℝ} (heig : EigOK (eig 2)) :
    ∃ (c : Session.Setup) (ev ev' ev1 : Ev Marginal) (res : Sorm.SResult) (r : Form.Result 3),
      Session.runJob c (.sorm ⟨100, 0.001, 0.001, 0, 1⟩ 1000 "cf" : Session.Job (2 + 1)) ev = some (ev', .sorm res) ∧
      Session.formRun c 3 ⟨100, 0.001, 0.001, 0, 1⟩ ev = some (ev1, .inl r) ∧
      ev'.model.callFunction = ev.model.callFunction + (r.i + 4) * 4 + 6 * (r.i - 1) := by
  have hm : ∀ i : Fin 3, ∃ mm, Normal.new (![10, 3, 2] i) (.fin (![2, 1, 1] i : ℝ)) none = .ok mm := fun i => ⟨_, rfl⟩
  choose marg hmarg using hm
  obtain ⟨c, hc⟩ : ∃ c : Session.Setup, c = ⟨fun _ x => x, marg 0, la, eig, .cholesky,
    vectorised (linearOf !["R", "S", "T"] 0 ![1, -1, -2]), ⟨"ffd", 1, 1000, 1000⟩, 1000⟩ := ⟨_, rfl⟩
  have hnd : Function.Injective !["R", "S", "T"] := by
    intro i j h
    fin_cases i <;> fin_cases j <;> simp_all
  have hsd : ∀ i : Fin 3, (0 : ℝ) < ![2, 1, 1] i := fun i => by fin_cases i <;> simp
  obtain ⟨est, -, h⟩ := C102_agree (c := c) (m := 2) (by rw [hc]; exact hla) (by rw [hc]; norm_num) (by rw [hc]; norm_num)
    (by rw [hc]; norm_num) (by rw [hc]; simp) (by rw [hc]; simp) hnd hsd hmarg (a0 := 0) (a := ![1, -1, -2])
    (by intro h; simpa using congrFun h 0) (by rw [hc]; exact vectorised_pointwise _)
  have hsum : ∑ i : Fin 3, ((![1, -1, -2] : Fin 3 → ℝ) i * (![2, 1, 1] : Fin 3 → ℝ) i) ^ 2 = 3 ^ 2 := by
    simp [Fin.sum_univ_three]; norm_num
  have hlast : 1e-8 * √(∑ i : Fin 3, ((![1, -1, -2] : Fin 3 → ℝ) i * (![2, 1, 1] : Fin 3 → ℝ) i) ^ 2) <
      |(![1, -1, -2] : Fin 3 → ℝ) (Fin.last 2) * (![2, 1, 1] : Fin 3 → ℝ) (Fin.last 2)| := by
    rw [hsum, Real.sqrt_sq (by norm_num), show (Fin.last 2) = (2 : Fin 3) from rfl]
    simp
    norm_num
  have hF : GoodForm c ⟨100, 0.001, 0.001, 0, 1⟩ :=
    ⟨by norm_num, by norm_num, by rw [hc]; norm_num, Or.inr ⟨rfl, rfl, by norm_num, by norm_num⟩⟩
  have hcf : (Plan.sorm ⟨100, 0.001, 0.001, 0, 1⟩ 1000 "cf" : Plan 3).Good (m := 2) c 0 ![1, -1, -2] ![10, 3, 2] ![2, 1, 1] :=
    ⟨hF, by norm_num, by rw [hc], hlast, Or.inl ⟨rfl, by norm_num, by rw [hc]; exact heig⟩⟩
  obtain ⟨ev', outs, h1, h2⟩ := h [(.sorm ⟨100, 0.001, 0.001, 0, 1⟩ 1000 "cf", fun _ => 0)] (by
    intro w hw
    rw [List.mem_singleton.1 hw]
    exact hcf)
  rcases outs with _ | ⟨o, outs⟩
  · cases h2
  rw [List.forall₂_cons] at h2
  obtain ⟨res, rfl, -⟩ := h2.1
  have hjob : Session.runJob c (.sorm ⟨100, 0.001, 0.001, 0, 1⟩ 1000 "cf" : Session.Job (2 + 1)) ⟨normalModel !["R", "S", "T"] marg, []⟩ =
      some (ev', .sorm res) := by
    simp only [List.map_cons, List.map_nil, Session.session] at h1
    split at h1
    · cases h1
    · next ev1 o1 h3 =>
      simp only [Option.some.injEq, Prod.mk.injEq, List.cons.injEq, and_true] at h1
      obtain ⟨ha, hb⟩ := h1
      refine h3.trans ?_
      rw [ha]
      first | rw [hb] | rw [hb.1]
  obtain ⟨ev1, r, j, h3, h4, h5⟩ := C131_whole c _ _ _ _ _ _ hjob
  refine ⟨c, _, ev', ev1, res, r, hjob, h3, ?_⟩
  rcases h5 with ⟨-, h5⟩ | ⟨h5, -⟩
  · rw [h4, h5, hc]
    simp
  · exact absurd h5 (by decide)

end Pystra.Props
