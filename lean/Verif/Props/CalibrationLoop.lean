import Verif.Props.CalibrationMax
import Verif.Props.LoadCase

/-! C60: calibration of the design parameter to the target reliability index. -/

namespace Pystra.Props
open Calib Spec Frame

variable {D : Type}

theorem alphaLoop_some (C : Calib D) (case : String) (columns : List String) (atol : ℝ) (maxIter : ℕ) :
    ∀ (fuel n : ℕ) (z : ZVal) (f : FormObj D), n < maxIter → maxIter ≤ n + fuel →
      (C.alphaLoop case columns atol maxIter fuel n z f).isSome := by
  intro fuel
  induction fuel with
  | zero => intro n z f h1 h2; omega
  | succ fuel ih =>
    intro n z f h1 h2
    rw [alphaLoop]
    split
    · rfl
    · dsimp only
      split
      · rfl
      · split
        · rfl
        · split
          · rfl
          · split
            · rfl
            · next hne => exact ih _ _ _ (by omega) (by omega)

theorem alphaLoop_ok (C : Calib D) (case : String) (columns : List String) (atol : ℝ) (maxIter : ℕ) :
    ∀ (fuel n : ℕ) (z : ZVal) (f : FormObj D) (z' : ZVal) (f' : FormObj D) (n' : ℕ),
      C.alphaLoop case columns atol maxIter fuel n z f = some (.ok (z', f', n')) →
      C.relFunc case z.val = .ok f → (n = 0 → z.isScalar = true) → (n ≠ 0 → z.isScalar = false) →
      n ≤ n' ∧ n' ≤ n + fuel ∧ (n < maxIter → n' ≤ maxIter) ∧ C.relFunc case z'.val = .ok f' ∧
      (n' = n → IsClose f.beta C.betaT atol) ∧
      (n' ≠ maxIter → IsClose f'.beta C.betaT atol) ∧ (z'.isScalar = true ↔ n' = 0) := by
  intro fuel
  induction fuel with
  | zero =>
    intro n z f z' f' n' h hz h1 h2
    rw [alphaLoop] at h
    split at h
    · next hc =>
      simp only [Option.some.injEq, Except.ok.injEq, Prod.mk.injEq] at h
      obtain ⟨rfl, rfl, rfl⟩ := h
      refine ⟨le_rfl, le_rfl, fun h => h.le, hz, fun _ => hc, fun _ => hc, ?_⟩
      by_cases e : n = 0
      · simp [e, h1 e]
      · simp [e, h2 e]
    · cases h
  | succ fuel ih =>
    intro n z f z' f' n' h hz h1 h2
    rw [alphaLoop] at h
    split at h
    · next hc =>
      simp only [Option.some.injEq, Except.ok.injEq, Prod.mk.injEq] at h
      obtain ⟨rfl, rfl, rfl⟩ := h
      refine ⟨le_rfl, by omega, fun h => h.le, hz, fun _ => hc, fun _ => hc, ?_⟩
      by_cases e : n = 0
      · simp [e, h1 e]
      · simp [e, h2 e]
    · next hc =>
      dsimp only at h
      split at h
      · cases h
      · next df hdf =>
        split at h
        · cases h
        · next zn hzn =>
          split at h
          · cases h
          · next fn hfn =>
            split at h
            · next hmax =>
              simp only [Option.some.injEq, Except.ok.injEq, Prod.mk.injEq] at h
              obtain ⟨rfl, rfl, rfl⟩ := h
              exact ⟨by omega, by omega, fun _ => by omega, hfn, fun e => absurd e (by omega), fun e => absurd hmax e,
                by simp [ZVal.isScalar]⟩
            · next hmax =>
              obtain ⟨a, b, c, d, e, g, i⟩ := ih (n + 1) (.arr zn) fn z' f' n' h hfn (fun e => absurd e (by omega)) (fun _ => rfl)
              exact ⟨by omega, by omega, fun hlt => c (by omega), d, fun e' => absurd e' (by omega), g, i⟩

theorem alphaLoop_close (C : Calib D) (case : String) (columns : List String) (atol : ℝ) (maxIter fuel n : ℕ) (z : ZVal) (f : FormObj D)
    (h : IsClose f.beta C.betaT atol) : C.alphaLoop case columns atol maxIter fuel n z f = some (.ok (z, f, n)) := by
  cases fuel <;> rw [alphaLoop, if_pos h]

/-- C60: with a positive limit on the number of iterations the alpha calibration ends (with a result or an exception) after at most that
many rounds: whatever FORM returns, `max_iter` units of fuel are enough. -/
theorem C60_terminates (C : Calib D) (case : String) (z0 target abstol : ℝ) {maxIter fuel : ℕ} (h : 1 ≤ maxIter) (hf : maxIter ≤ fuel) :
    (C.calibrationAlpha case z0 target abstol maxIter fuel).isSome := by
  unfold calibrationAlpha
  split
  · rfl
  · exact alphaLoop_some C case _ abstol maxIter fuel 0 _ _ (by omega) (by omega)

/-- C60: the result of the alpha calibration.  The returned FORM object is the analysis of the case at the returned design parameter;
at most `max_iter` rounds were made; and unless the limit was hit (in which case a message is printed) the reliability index is within
the tolerance of the target (`np.isclose`: absolute tolerance plus `1e-5` times the target). -/
theorem C60_alpha (C : Calib D) (case : String) (z0 target abstol : ℝ) {maxIter fuel : ℕ} {z : ZVal} {f : FormObj D} {n : ℕ}
    (h : C.calibrationAlpha case z0 target abstol maxIter fuel = some (.ok (z, f, n))) :
    C.relFunc case z.val = .ok f ∧ (1 ≤ maxIter → n ≤ maxIter) ∧
    (n ≠ maxIter → |f.beta - C.betaT| ≤ abstol + 1e-5 * |C.betaT|) ∧ (n = 0 → z = .scalar z0) := by
  unfold calibrationAlpha at h
  split at h
  · cases h
  · next f0 hf0 =>
    obtain ⟨-, -, c, d, -, g, -⟩ := alphaLoop_ok C case _ abstol maxIter fuel 0 (.scalar z0) f0 z f n h hf0 (fun _ => rfl)
      (fun h => absurd rfl h)
    refine ⟨d, fun hm => c (by omega), g, fun hn => ?_⟩
    subst hn
    have hcl := (alphaLoop_ok C case _ abstol maxIter fuel 0 (.scalar z0) f0 z f 0 h hf0 (fun _ => rfl) (fun h => absurd rfl h)).2.2.2.2.1 rfl
    rw [alphaLoop_close C case _ abstol maxIter fuel 0 _ f0 hcl] at h
    simp only [Option.some.injEq, Except.ok.injEq, Prod.mk.injEq] at h
    exact h.1.symm

/-- C60: a single round.  The design parameter of the next round is the one computed from the point on the old direction cosines at
distance `β_t`. -/
theorem C60_projection (C : Calib D) (case : String) (columns : List String) (abstol : ℝ) {maxIter fuel n : ℕ} {z : ZVal} {f : FormObj D}
    (hfar : ¬ |f.beta - C.betaT| ≤ abstol + 1e-5 * |C.betaT|) {df : Frame}
    (hdf : oneRow columns (f.uToX (f.alpha.map (fun a => a * C.betaT))) = .ok df) {zn : ℝ} (hz : C.calcDesignParam df "0" = .ok zn)
    {fn : FormObj D} (hfn : C.relFunc case zn = .ok fn) :
    C.alphaLoop case columns abstol maxIter (fuel + 1) n z f =
      if n + 1 = maxIter then some (.ok (.arr zn, fn, n + 1)) else C.alphaLoop case columns abstol maxIter fuel (n + 1) (.arr zn) fn := by
  rw [alphaLoop, if_neg (show ¬ IsClose f.beta C.betaT abstol from hfar)]
  simp only [hdf, hz, hfn]

/-- The rounds behind a result of the loop. -/
theorem alphaLoop_rounds (C : Calib D) (case : String) (columns : List String) (atol : ℝ) (maxIter : ℕ) : ∀ (fuel n : ℕ) (z : ZVal)
    (f : FormObj D) (z' : ZVal) (f' : FormObj D) (n' : ℕ),
    C.alphaLoop case columns atol maxIter fuel n z f = some (.ok (z', f', n')) → C.relFunc case z.val = .ok f →
    n ≤ n' ∧ ∃ (ζ : ℕ → ℝ) (φ : ℕ → FormObj D), ζ n = z.val ∧ φ n = f ∧ ζ n' = z'.val ∧ φ n' = f' ∧
      (∀ i, n ≤ i → i ≤ n' → C.relFunc case (ζ i) = .ok (φ i)) ∧
      ∀ i, n ≤ i → i < n' → ¬ IsClose (φ i).beta C.betaT atol ∧ ∃ df,
        oneRow columns ((φ i).uToX ((φ i).alpha.map (fun a => a * C.betaT))) = .ok df ∧ C.calcDesignParam df "0" = .ok (ζ (i + 1)) := by
  have stop : ∀ (n : ℕ) (z : ZVal) (f : FormObj D), C.relFunc case z.val = .ok f →
      n ≤ n ∧ ∃ (ζ : ℕ → ℝ) (φ : ℕ → FormObj D), ζ n = z.val ∧ φ n = f ∧ ζ n = z.val ∧ φ n = f ∧
      (∀ i, n ≤ i → i ≤ n → C.relFunc case (ζ i) = .ok (φ i)) ∧
      ∀ i, n ≤ i → i < n → ¬ IsClose (φ i).beta C.betaT atol ∧ ∃ df,
        oneRow columns ((φ i).uToX ((φ i).alpha.map (fun a => a * C.betaT))) = .ok df ∧ C.calcDesignParam df "0" = .ok (ζ (i + 1)) :=
    fun n z f hz => ⟨le_rfl, fun _ => z.val, fun _ => f, rfl, rfl, rfl, rfl, fun _ _ _ => hz, fun i h1 h2 => by omega⟩
  intro fuel
  induction fuel with
  | zero =>
    intro n z f z' f' n' h hz
    rw [alphaLoop] at h
    split at h
    · simp only [Option.some.injEq, Except.ok.injEq, Prod.mk.injEq] at h
      obtain ⟨rfl, rfl, rfl⟩ := h
      exact stop n z f hz
    · cases h
  | succ fuel ih =>
    intro n z f z' f' n' h hz
    rw [alphaLoop] at h
    split at h
    · simp only [Option.some.injEq, Except.ok.injEq, Prod.mk.injEq] at h
      obtain ⟨rfl, rfl, rfl⟩ := h
      exact stop n z f hz
    · next hc =>
      dsimp only at h
      split at h
      · cases h
      · next df hdf =>
        split at h
        · cases h
        · next zn hzn =>
          split at h
          · cases h
          · next fn hfn =>
            obtain ⟨hle, ζ, φ, e1, e2, e3, e4, h5, h6⟩ : n + 1 ≤ n' ∧ ∃ (ζ : ℕ → ℝ) (φ : ℕ → FormObj D), ζ (n + 1) = zn ∧ φ (n + 1) = fn ∧
                ζ n' = z'.val ∧ φ n' = f' ∧ (∀ i, n + 1 ≤ i → i ≤ n' → C.relFunc case (ζ i) = .ok (φ i)) ∧
                ∀ i, n + 1 ≤ i → i < n' → ¬ IsClose (φ i).beta C.betaT atol ∧ ∃ df,
                  oneRow columns ((φ i).uToX ((φ i).alpha.map (fun a => a * C.betaT))) = .ok df ∧
                    C.calcDesignParam df "0" = .ok (ζ (i + 1)) := by
              split at h
              · simp only [Option.some.injEq, Except.ok.injEq, Prod.mk.injEq] at h
                obtain ⟨rfl, rfl, rfl⟩ := h
                exact stop (n + 1) (.arr zn) fn hfn
              · exact ih (n + 1) (.arr zn) fn z' f' n' h hfn
            have hne : ∀ i, n + 1 ≤ i → i ≠ n := fun i hi => by omega
            refine ⟨by omega, Function.update ζ n z.val, Function.update φ n f, by simp, by simp, ?_, ?_, fun i h1 h2 => ?_, fun i h1 h2 => ?_⟩
            · rw [Function.update_of_ne (hne _ hle), e3]
            · rw [Function.update_of_ne (hne _ hle), e4]
            · rcases Nat.eq_or_lt_of_le h1 with rfl | h1
              · simpa using hz
              · rw [Function.update_of_ne (hne _ h1), Function.update_of_ne (hne _ h1)]
                exact h5 i h1 h2
            · rw [Function.update_of_ne (a := i + 1) (hne _ (by omega))]
              rcases Nat.eq_or_lt_of_le h1 with rfl | h1
              · rw [Function.update_self, e1]
                exact ⟨hc, df, hdf, hzn⟩
              · rw [Function.update_of_ne (hne _ h1)]
                exact h6 i h1 h2

/-- C60: the rounds.  If the alpha calibration returns after `n` rounds, there is a sequence of design parameters `ζ₀ = z0, …, ζ_n`
(the returned one) with their FORM analyses `φ_i` of the case; each but the last is outside the tolerance, and each next design parameter
is computed from the point at distance `β_t` on the direction cosines found before, as a row labelled by the variables and constants of the
first analysis. -/
theorem C60_rounds (C : Calib D) (case : String) (z0 target abstol : ℝ) {maxIter fuel : ℕ} {z : ZVal} {f : FormObj D} {n : ℕ}
    (h : C.calibrationAlpha case z0 target abstol maxIter fuel = some (.ok (z, f, n))) :
    ∃ (ζ : ℕ → ℝ) (φ : ℕ → FormObj D), ζ 0 = z0 ∧ ζ n = z.val ∧ φ n = f ∧ (∀ i ≤ n, C.relFunc case (ζ i) = .ok (φ i)) ∧
      ∀ i < n, ¬ |(φ i).beta - C.betaT| ≤ abstol + 1e-5 * |C.betaT| ∧ ∃ df,
        oneRow (xstarLabels (φ 0)) ((φ i).uToX ((φ i).alpha.map (fun a => a * C.betaT))) = .ok df ∧
          C.calcDesignParam df "0" = .ok (ζ (i + 1)) := by
  unfold calibrationAlpha at h
  split at h
  · cases h
  · next f0 hf0 =>
    obtain ⟨-, ζ, φ, h1, h2, h3, h4, h5, h6⟩ := alphaLoop_rounds C case _ abstol maxIter fuel 0 (.scalar z0) f0 z f n h hf0
    subst h2
    exact ⟨ζ, φ, h1, h3, h4, fun i hi => h5 i (Nat.zero_le _) hi, fun i hi => h6 i (Nat.zero_le _) hi⟩

theorem calibrateLoop_inv (fsolve : Fsolve) (C : Calib D) (startz : ℝ) (fuel : ℕ) : ∀ (cases : List String) (rs : List (ZVal × FormObj D)),
    calibrateLoop fsolve C startz fuel cases = some (.ok rs) →
    rs.length = cases.length ∧
    ∀ (i : ℕ) (case : String), cases[i]? = some case → ∃ r, rs[i]? = some r ∧ calibrateCase fsolve C startz fuel case = some (.ok r) := by
  intro cases
  induction cases with
  | nil =>
    intro rs h
    simp only [calibrateLoop, Option.some.injEq, Except.ok.injEq] at h
    subst h
    exact ⟨rfl, fun i case h => by cases i <;> cases h⟩
  | cons c t ih =>
    intro rs h
    rw [calibrateLoop] at h
    split at h
    · cases h
    · cases h
    · next r hr =>
      split at h
      · cases h
      · cases h
      · next rs' hrs =>
        simp only [Option.some.injEq, Except.ok.injEq] at h
        subst h
        obtain ⟨h1, h2⟩ := ih rs' hrs
        refine ⟨by simp [h1], fun i case hi => ?_⟩
        cases i with
        | zero =>
          simp only [List.getElem?_cons_zero, Option.some.injEq] at hi
          subst hi
          exact ⟨r, rfl, hr⟩
        | succ i => exact h2 i case hi

/-- C60: the calibration of all cases by the alpha method.  There is one design parameter and one FORM object per case, in the order
of the cases; the FORM object is the analysis of that case at that design parameter; and unless 100 rounds were made for the case, its
reliability index is within `1e-4 + 1e-5 |β_t|` of the target. -/
theorem C60_all_cases (fsolve : Fsolve) (C : Calib D) (hm : C.calibMethod = "alpha") {fuel : ℕ} {zs : List ℝ} {fs : List (FormObj D)}
    (h : calibrateDesignParam fsolve C fuel = some (.ok (zs, fs))) :
    zs.length = C.labelCombCases.length ∧ fs.length = C.labelCombCases.length ∧
    ∀ (i : ℕ) (case : String), C.labelCombCases[i]? = some case → ∃ z f, zs[i]? = some z ∧ fs[i]? = some f ∧
      C.relFunc case z = .ok f ∧
      ∃ consts c n, C.lc.constant = some consts ∧ consts.get? C.cvar = some c ∧ 1 ≤ n ∧ n ≤ 100 ∧
        C.calibrationAlpha case c.val C.betaT 1e-4 100 fuel = some (.ok (.arr z, f, n)) ∧
        (n ≠ 100 → |f.beta - C.betaT| ≤ 1e-4 + 1e-5 * |C.betaT|) := by
  unfold calibrateDesignParam at h
  split at h
  · cases h
  · next consts hconsts =>
  split at h
  · cases h
  · next c hc =>
  split at h
  · cases h
  · cases h
  · next rs hrs =>
  split at h
  · cases h
  · next zs' hzs =>
  simp only [Option.some.injEq, Except.ok.injEq, Prod.mk.injEq] at h
  obtain ⟨rfl, rfl⟩ := h
  obtain ⟨hl, hi⟩ := calibrateLoop_inv fsolve C c.val fuel _ rs hrs
  have hcat : (∀ r ∈ rs, r.1.isScalar = false) ∧ zs' = rs.map (fun r => r.1.val) := by
    have hne : rs.map Prod.fst ≠ [] := by
      intro e
      rw [e] at hzs
      cases hzs
    have : concatZ (rs.map Prod.fst) = if (rs.map Prod.fst).any ZVal.isScalar then .error .valueError else .ok ((rs.map Prod.fst).map ZVal.val) := by
      cases hr : rs.map Prod.fst with
      | nil => exact absurd hr hne
      | cons a t => rfl
    rw [this] at hzs
    split at hzs
    · cases hzs
    · next hany =>
      injection hzs with hzs
      refine ⟨fun r hr => ?_, ?_⟩
      · by_contra hs
        refine hany (List.any_eq_true.2 ⟨r.1, List.mem_map_of_mem hr, ?_⟩)
        simpa using hs
      · rw [← hzs, List.map_map]; rfl
  refine ⟨by rw [hcat.2, List.length_map, hl], by rw [List.length_map, hl], fun i case hcase => ?_⟩
  obtain ⟨r, hr, hcc⟩ := hi i case hcase
  refine ⟨r.1.val, r.2, by rw [hcat.2, List.getElem?_map, hr]; rfl, by rw [List.getElem?_map, hr]; rfl, ?_⟩
  unfold calibrateCase at hcc
  rw [if_neg (by rw [hm]; decide), if_pos hm] at hcc
  split at hcc
  · cases hcc
  · cases hcc
  · next z f n hal =>
  simp only [Option.some.injEq, Except.ok.injEq] at hcc
  subst hcc
  obtain ⟨h1, h2, h3, h4⟩ := C60_alpha C case c.val C.betaT 1e-4 hal
  have hns := hcat.1 _ (List.mem_of_getElem? hr)
  cases z with
  | scalar z => cases hns
  | arr z =>
    refine ⟨h1, consts, c, n, hconsts, hc, ?_, h2 (by norm_num), hal, h3⟩
    by_contra h0
    have := h4 (by omega)
    cases this

/-- C60: the `optimize` method.  The returned FORM object is the analysis of the case at the returned design parameter, and if the
solver found a root the reliability index is the target. -/
theorem C60_optimize (fsolve : Fsolve) (C : Calib D) (case : String) (z0 target : ℝ) {z : ZVal} {f : FormObj D}
    (h : calibrationOptimize fsolve C case z0 target = .ok (z, f)) :
    C.relFunc case z.val = .ok f ∧
    ∃ obj : ℝ → Except PyErr ℝ, (∀ y g, C.relFunc case y = .ok g → obj y = .ok (target - g.beta)) ∧ fsolve obj z0 = .ok z.val ∧
      (obj z.val = .ok 0 → f.beta = target) := by
  unfold calibrationOptimize at h
  split at h
  · cases h
  · next zr hz =>
    split at h
    · cases h
    · next g hg =>
      simp only [Except.ok.injEq, Prod.mk.injEq] at h
      obtain ⟨rfl, rfl⟩ := h
      refine ⟨hg, _, fun y g' hy => ?_, hz, fun h0 => ?_⟩
      · simp only [hy]
      · simp only [ZVal.val, hg, Except.ok.injEq] at h0
        linarith

/-- C60 (finding): a failed search is not reported: whatever number the solver returns is taken as the calibrated design parameter. -/
theorem C60_optimize_unchecked (C : Calib D) (case : String) (z0 target z : ℝ) {f : FormObj D} (hf : C.relFunc case z = .ok f) :
    calibrationOptimize (fun _ _ => .ok z) C case z0 target = .ok (.arr z, f) := by
  simp only [calibrationOptimize, hf]

/-- C60 (finding): when the start value already meets the target in some case, the alpha method leaves a Python float among the arrays
and the calibration of all cases fails with `ValueError`. -/
theorem C60_start_converged (fsolve : Fsolve) (C : Calib D) (hm : C.calibMethod = "alpha") {consts : Dict String ConstObj} {c : ConstObj}
    (hcon : C.lc.constant = some consts) (hc : consts.get? C.cvar = some c) {fuel : ℕ} {case : String} (hcase : case ∈ C.labelCombCases)
    {f : FormObj D} (hf : C.relFunc case c.val = .ok f) (hclose : |f.beta - C.betaT| ≤ 1e-4 + 1e-5 * |C.betaT|) :
    ∀ r, calibrateDesignParam fsolve C fuel ≠ some (.ok r) := by
  rintro ⟨zs, fs⟩ h
  obtain ⟨-, -, h3⟩ := C60_all_cases fsolve C hm h
  obtain ⟨i, hi, rfl⟩ := List.getElem_of_mem hcase
  obtain ⟨z, g, -, -, -, consts', c', n, e1, e2, hn, -, hal, -⟩ := h3 i _ (List.getElem?_eq_getElem hi)
  rw [hcon] at e1
  injection e1 with e1
  subst e1
  rw [hc] at e2
  injection e2 with e2
  subst e2
  unfold calibrationAlpha at hal
  simp only [hf] at hal
  rw [alphaLoop_close C _ _ _ 100 fuel 0 _ f hclose] at hal
  simp only [Option.some.injEq, Except.ok.injEq, Prod.mk.injEq] at hal
  omega

/-- C60 (finding): the argument `target_beta` of the alpha method has no effect: the loop reads the object's own target. -/
theorem C60_target_ignored (C : Calib D) (case : String) (z0 t1 t2 abstol : ℝ) (maxIter fuel : ℕ) :
    C.calibrationAlpha case z0 t1 abstol maxIter fuel = C.calibrationAlpha case z0 t2 abstol maxIter fuel := rfl

/-- C60 (finding): an unknown calibration method is reported only as an unbound local variable. -/
theorem C60_unknown_method (fsolve : Fsolve) (C : Calib D) (h1 : C.calibMethod ≠ "optimize") (h2 : C.calibMethod ≠ "alpha") (startz : ℝ)
    (fuel : ℕ) (case : String) : calibrateCase fsolve C startz fuel case = some (.error .nameError) := by
  rw [calibrateCase, if_neg h1, if_neg h2]

/-! A concrete calibration with one case: `g = z R - Q`, a FORM analysis whose index is the design parameter. -/

/-- The load combination. -/
def exLC1 : LoadComb ℕ :=
  { distMax := [], distPit := [], distOther := none, distResist := [], combCases := [("A", ["Q"])], numComb := 1
    dictDistComb := [("A", [("R", ⟨"R", 0⟩), ("Q", ⟨"Q", 1⟩)])], dfCorr := none, constant := some [("z", ⟨"z", 1⟩)]
    labelCombCases := ["A"], labelCombVrs := ["Q"]
    labelResist := ["R"], labelOther := [], labelConst := some ["z"], labelAll := ["R", "Q", "z"] }

/-- The calibration. -/
noncomputable def exCalib1 : Calib ℕ :=
  { lc := exLC1, lsf := fun a => .ok ((a "z").getD 0 * (a "R").getD 0 - (a "Q").getD 0)
    form := fun m => .ok ⟨m, (m.getConstants.get? "z").getD 0, [1, 0], [0, 0], fun _ => [1, 3]⟩
    betaT := 3, calibMethod := "alpha", estMethod := "coeff"
    dfNom := ⟨["A"], ["R", "Q"], fun _ _ => some 2⟩, cvar := "z" }

theorem exCalib1_rel (z : ℝ) : ∃ m, exCalib1.relFunc "A" z = .ok ⟨m, z, [1, 0], [0, 0], fun _ => [1, 3]⟩ ∧ m.getNames = ["z", "R", "Q"] ∧
    m.getConstants.keys = ["z"] := by
  have hm : ∃ m, exCalib1.lc.caseModel (some "A") [("z", .constant "z" z)] = .ok m := by
    refine (C57_model exCalib1.lc (vars := [("R", ⟨"R", 0⟩), ("Q", ⟨"Q", 1⟩)]) rfl _).2.2 ⟨?_, ?_, ?_⟩
    · intro o ho
      simp [exCalib1, exLC1, caseObjects, labelled, Dict.get?] at ho
      rcases ho with rfl | rfl | rfl <;> rfl
    · simp [exCalib1, exLC1, caseObjects, labelled, Dict.get?, objName]
    · intro f hf; cases hf
  obtain ⟨m, hm⟩ := hm
  obtain ⟨h1, -, -, h4, -⟩ := (C57_model exCalib1.lc (vars := [("R", ⟨"R", 0⟩), ("Q", ⟨"Q", 1⟩)]) rfl _).1 m hm
  have e4 : m.getConstants = [("z", z)] := by rw [h4]; rfl
  refine ⟨m, ?_, by rw [h1]; rfl, by rw [e4]; rfl⟩
  show exCalib1.lc.runCase exCalib1.form (some "A") [("z", .constant "z" z)] = _
  rw [LoadComb.runCase, hm]
  show Except.ok (FormObj.mk m ((m.getConstants.get? "z").getD 0) _ _ _) = _
  rw [e4]
  rfl

/-- One round of the alpha method reaches the target 3 from the start value 1. -/
theorem exCalib1_calibrated : ∃ f, calibrateDesignParam (fun _ _ => .error .exception) exCalib1 100 = some (.ok ([3], [f])) ∧
    f.beta = 3 := by
  obtain ⟨m0, h0, n0, c0⟩ := exCalib1_rel 1
  obtain ⟨m1, h1, -⟩ := exCalib1_rel 3
  have hcols : xstarLabels (⟨m0, 1, [1, 0], [0, 0], fun _ => [1, 3]⟩ : FormObj ℕ) = ["R", "Q"] := by
    unfold xstarLabels
    rw [n0, c0]
    rfl
  have hev : ∀ a, exCalib1.eval a = .ok ((defaultArgs ["R", "Q", "z"] [("z", ⟨"z", 1⟩)] 0 none a "z").getD 0 *
      (defaultArgs ["R", "Q", "z"] [("z", ⟨"z", 1⟩)] 0 none a "R").getD 0 -
      (defaultArgs ["R", "Q", "z"] [("z", ⟨"z", 1⟩)] 0 none a "Q").getD 0) := by
    intro a
    rw [Calib.eval, C57_evaluation _ exCalib1.lc (consts := [("z", ⟨"z", 1⟩)]) rfl (by decide)]
    rfl
  have hal : exCalib1.calibrationAlpha "A" 1 3 1e-4 100 100 =
      some (.ok (.arr 3, ⟨m1, 3, [1, 0], [0, 0], fun _ => [1, 3]⟩, 1)) := by
    unfold calibrationAlpha
    simp only [h0]
    rw [hcols]
    rw [C60_projection exCalib1 "A" ["R", "Q"] 1e-4 (fuel := 99) (n := 0) (zn := 3)
      (df := ⟨["0"], ["R", "Q"], fun _ c => ([1, 3] : List ℝ)[(["R", "Q"] : List String).idxOf c]?⟩) ?_ ?_ ?_ h1]
    · rw [if_neg (by norm_num), alphaLoop, if_pos]
      unfold IsClose
      norm_num [exCalib1]
    · norm_num [exCalib1]
    · rfl
    · unfold calcDesignParam
      simp only [rowArgs, Frame.get, exCalib1, exLC1, Calib.labelOther, Calib.labelCombVrs, Calib.labelR]
      simp
      have := hev
      simp only [exCalib1, exLC1] at this
      rw [this, this]
      simp [defaultArgs, Dict.get?]
  have hcase : calibrateCase (fun _ _ => .error .exception) exCalib1 1 100 "A" =
      some (.ok (.arr 3, ⟨m1, 3, [1, 0], [0, 0], fun _ => [1, 3]⟩)) := by
    unfold calibrateCase
    rw [if_neg (by simp [exCalib1]), if_pos (show exCalib1.calibMethod = "alpha" from rfl)]
    have : exCalib1.betaT = 3 := rfl
    rw [this, hal]
  refine ⟨⟨m1, 3, [1, 0], [0, 0], fun _ => [1, 3]⟩, ?_, rfl⟩
  unfold calibrateDesignParam
  have e1 : exCalib1.lc.constant = some [("z", ⟨"z", 1⟩)] := rfl
  have e2 : exCalib1.cvar = "z" := rfl
  have e3 : exCalib1.labelCombCases = ["A"] := rfl
  simp [e1, e2, e3, Dict.get?, calibrateLoop, hcase, concatZ, ZVal.isScalar, ZVal.val]

end Pystra.Props
