import Verif.Props.SormHessian
import Verif.Props.SormFormula
import Verif.Props.FormDirection

/-! C49: point-fitted SORM. -/

namespace Pystra.Props
open Matrix Spec Transformation Form Sorm

variable {σ : Type} {m : ℕ}

/-- An evaluator whose values are those of `f` (nothing is said about its gradients). -/
def ValuesOf {n : ℕ} (ev : Evaluator σ n) (f : (Fin n → ℝ) → ℝ) : Prop :=
  ∀ s x s' G grad xa, ev.withGrad s x = (s', .ok (G, grad, xa)) → G = f x

/-- The distance of the fitting points from the design-point axis: `|β|`, but at least 1 and at most 3. -/
noncomputable def fitDistance (β : ℝ) : ℝ := max 1 (min |β| 3)

/-- `κ` is the curvature of a parabola with apex `(0, β)` through a point of the limit-state surface (to within `1e-6` in the value
of `g`): in the coordinates `u' = R u` that point is `c` on the axis, `v` on the last axis and zero elsewhere, where `c` has the
given sign (reversed if `β < 0`) and the prescribed distance. -/
def Fitted (t : Mats (m + 1)) (marg : Fin (m + 1) → Marginal) (f : (Fin (m + 1) → ℝ) → ℝ)
    (R : Matrix (Fin (m + 1)) (Fin (m + 1)) ℝ) (β : ℝ) (axis : Fin m) (sign κ : ℝ) : Prop :=
  ∃ c v : ℝ, c = sign * (β / |β|) * fitDistance β ∧ v = β + 1 / 2 * κ * c ^ 2 ∧
    ∃ u : Fin (m + 1) → ℝ, R.mulVec u = Pi.single axis.castSucc c + Pi.single (Fin.last m) v ∧ |f (uToX t marg u)| < 1e-6

theorem stepCoeff_mul {β : ℝ} (hβ : β ≠ 0) (sign : ℝ) : sign * stepCoeff β * β = sign * (β / |β|) * fitDistance β := by
  have h0 : 0 < |β| := abs_pos.2 hβ
  unfold stepCoeff fitDistance
  split_ifs with h1 h2
  · rw [max_eq_left ((min_le_left _ _).trans h1.le)]
    field_simp
  · rw [min_eq_left h2, max_eq_right (not_lt.1 h1)]
    field_simp
  · push Not at h2
    rw [min_eq_right h2.le, max_eq_right (by norm_num)]
    field_simp

theorem fitDistance_one_le (β : ℝ) : 1 ≤ fitDistance β := le_max_left _ _

theorem coord_sq {β : ℝ} (hβ : β ≠ 0) {sign : ℝ} (hs : sign = 1 ∨ sign = -1) :
    (sign * (β / |β|) * fitDistance β) ^ 2 = fitDistance β ^ 2 := by
  have h0 : |β| ≠ 0 := (abs_pos.2 hβ).ne'
  have h1 : (β / |β|) ^ 2 = 1 := by rw [div_pow, sq_abs]; exact div_self (pow_ne_zero 2 hβ)
  have h2 : sign ^ 2 = 1 := by rcases hs with rfl | rfl <;> norm_num
  rw [mul_pow, mul_pow, h1, h2]; ring

theorem coord_abs {β : ℝ} (hβ : β ≠ 0) {sign : ℝ} (hs : sign = 1 ∨ sign = -1) :
    |sign * (β / |β|) * fitDistance β| = fitDistance β := by
  have := coord_sq hβ hs
  rw [← sq_abs] at this
  have h1 := fitDistance_one_le β
  exact (sq_eq_sq₀ (abs_nonneg _) (by linarith)).1 this

theorem evaluateLSF_value {n : ℕ} {t : Mats n} {marg : Fin n → Marginal} {ev : Evaluator σ n} {f : (Fin n → ℝ) → ℝ}
    (hv : ValuesOf ev f) {x : Fin n → ℝ} {s s' : σ} {G : ℝ} {gu : Fin n → ℝ}
    (h : evaluateLSF t marg ev x s = (s', .ok (G, gu))) : G = f x := by
  unfold evaluateLSF at h
  split at h
  · cases h
  · next he =>
    split at h
    · cases h
    · injection h with h1 h2
      injection h2 with h2
      injection h2 with h2 h3
      rw [← h2]
      exact hv _ _ _ _ _ _ he

theorem newton_value {t : Mats (m + 1)} {marg : Fin (m + 1) → Marginal} {ev : Evaluator σ (m + 1)} {f : (Fin (m + 1) → ℝ) → ℝ}
    (hv : ValuesOf ev f) (R : Matrix (Fin (m + 1)) (Fin (m + 1)) ℝ) (axis : Fin m) (c : ℝ) (iter : ℕ) {v0 : ℝ} {s s' : σ}
    {v : ℝ} (h : newton t marg ev R axis c iter v0 s = (s', .ok v)) :
    |f (uToX t marg (Rᵀ.mulVec (trialPoint axis c v)))| < 1e-6 := by
  induction iter generalizing v0 s with
  | zero => cases h
  | succ iter ih =>
    unfold newton at h
    split at h
    · cases h
    · next G gu he =>
      split_ifs at h with h1 h2
      · injection h with h3 h4
        injection h4 with h4
        subst h4
        rw [← evaluateLSF_value hv he]; exact h1
      · cases h
      · exact ih h

theorem trialPoint_eq (axis : Fin m) (c v : ℝ) :
    trialPoint axis c v = Pi.single axis.castSucc c + Pi.single (Fin.last m) v := by
  have hne : axis.castSucc ≠ Fin.last m := (Fin.castSucc_lt_last axis).ne
  funext i
  unfold trialPoint
  by_cases h1 : i = Fin.last m
  · subst h1; simp [hne.symm]
  · by_cases h2 : i = axis.castSucc
    · subst h2; simp [hne]
    · simp [h1, h2]

/-- C49: whenever the search for a fitting point returns (for whatever limit state, with whatever gradients), the point it found
solves the limit-state equation to the tolerance on the prescribed path, and the returned curvature is that of the parabola through
the design point and the fitting point. -/
theorem C49_point {t : Mats (m + 1)} {marg : Fin (m + 1) → Marginal} {ev : Evaluator σ (m + 1)} {f : (Fin (m + 1) → ℝ) → ℝ}
    (hv : ValuesOf ev f) {R : Matrix (Fin (m + 1)) (Fin (m + 1)) ℝ} (hR : R * Rᵀ = 1) (axis : Fin m) {sign : ℝ}
    (hs : sign = 1 ∨ sign = -1) {β : ℝ} (hβ : β ≠ 0) {s s' : σ} {κ : ℝ}
    (h : findFittingPoint t marg ev R axis sign β (stepCoeff β) s = (s', .ok κ)) : Fitted t marg f R β axis sign κ := by
  unfold findFittingPoint at h
  split at h
  · cases h
  · next v hn =>
    have hf := newton_value hv R axis _ 50 hn
    rw [stepCoeff_mul hβ] at h hf
    have habs := coord_abs hβ hs
    have h1 := fitDistance_one_le β
    rw [if_neg (by rw [habs]; norm_num; linarith)] at h
    injection h with h2 h3
    injection h3 with h3
    subst h3
    refine ⟨_, v, rfl, ?_, _, ?_, hf⟩
    · have : (sign * (β / |β|) * fitDistance β) ^ 2 ≠ 0 := by rw [coord_sq hβ hs]; positivity
      generalize (sign * (β / |β|) * fitDistance β) ^ 2 = d at this
      field_simp
      ring
    · rw [mulVec_mulVec, hR, one_mulVec, trialPoint_eq]

theorem fitAxes_spec {t : Mats (m + 1)} {marg : Fin (m + 1) → Marginal} {ev : Evaluator σ (m + 1)} {f : (Fin (m + 1) → ℝ) → ℝ}
    (hv : ValuesOf ev f) {R : Matrix (Fin (m + 1)) (Fin (m + 1)) ℝ} (hR : R * Rᵀ = 1) {β : ℝ} (hβ : β ≠ 0)
    (is : List (Fin m)) {s s' : σ} {l : List (ℝ × ℝ)}
    (h : fitAxes t marg ev R β (stepCoeff β) is s = (s', .ok l)) :
    List.Forall₂ (fun i p => Fitted t marg f R β i (-1) p.1 ∧ Fitted t marg f R β i 1 p.2) is l := by
  induction is generalizing s s' l with
  | nil => injection h with h1 h2; injection h2 with h2; subst h2; exact List.Forall₂.nil
  | cons i is ih =>
    unfold fitAxes at h
    split at h
    · cases h
    · next h1 =>
      split at h
      · cases h
      · next h2 =>
        split at h
        · cases h
        · next h3 =>
          injection h with h4 h5
          injection h5 with h5
          subst h5
          exact List.Forall₂.cons ⟨C49_point hv hR i (Or.inr rfl) hβ h1, C49_point hv hR i (Or.inl rfl) hβ h2⟩ (ih h3)

/-- C49: a successful point-fitted run, for every limit state and FORM result with a unit `alpha`: the axes are those of an
orthogonal matrix with last row `alpha`; on each axis both curvatures are those of fitted parabolas; the reported `kappa` are the
sorted averages; the reported failure probabilities are the asymmetric Breitung formulas of the two lists. -/
theorem C49_run {t : Mats (m + 1)} {marg : Fin (m + 1) → Marginal} {ev : Evaluator σ (m + 1)} {f : (Fin (m + 1) → ℝ) → ℝ}
    (hv : ValuesOf ev f) {form : Result (m + 1)} (ha : form.alpha ⬝ᵥ form.alpha = 1) {print : Bool} {s s' : σ} {r : SResult}
    (h : runPointfit t marg ev form print s = (s', .ok r)) :
    ∃ (R : Matrix (Fin (m + 1)) (Fin (m + 1)) ℝ) (km kp : Fin m → ℝ), R * Rᵀ = 1 ∧ R (Fin.last m) = form.alpha ∧
      (∀ i, Fitted t marg f R form.beta i (-1) (km i) ∧ Fitted t marg f R form.beta i 1 (kp i)) ∧
      r.betaHL = form.beta ∧ r.kappaPf = some (List.ofFn km, List.ofFn kp) ∧
      r.kappa.Perm (List.ofFn (fun i => (km i + kp i) / 2)) ∧ r.kappa.Pairwise (· ≤ ·) ∧
      r.breitung = pfBreitungPf form.beta (List.ofFn km) (List.ofFn kp) ∧
      r.breitungM = pfBreitungMPf form.beta (List.ofFn km) (List.ofFn kp) := by
  rw [runPointfit_eq] at h
  split at h
  · cases h
  · next R hRot =>
    obtain ⟨hR, -, hl, -⟩ := C47_rotation ha hRot
    split_ifs at h with hβ
    · cases h
    · split at h
      · cases h
      · next l hfit =>
        have hF := fitAxes_spec hv hR hβ _ hfit
        have hlen : l.length = m := by rw [← hF.length_eq, List.length_finRange]
        have hofFn : ∀ g : ℝ × ℝ → ℝ, l.map g = List.ofFn (fun i : Fin m => g (l[i.val]'(hlen.symm ▸ i.2))) := by
          intro g
          apply List.ext_getElem
          · simp [hlen]
          · intro k h1 h2; simp
        injection h with h1 h2
        have hr : r = ⟨form.beta, Sorm.sort (l.map (fun p => 0.5 * (p.1 + p.2))), some (l.map Prod.fst, l.map Prod.snd),
            pfBreitungPf form.beta (l.map Prod.fst) (l.map Prod.snd),
            pfBreitungMPf form.beta (l.map Prod.fst) (l.map Prod.snd)⟩ := by
          unfold finish at h2
          split_ifs at h2
          · split at h2
            · cases h2
            · injection h2 with h2; exact h2.symm
          · injection h2 with h2; exact h2.symm
        subst hr
        refine ⟨R, fun i => (l[i.val]'(hlen.symm ▸ i.2)).1, fun i => (l[i.val]'(hlen.symm ▸ i.2)).2, hR, hl, ?_, rfl, ?_,
          ?_, ?_, ?_, ?_⟩
        · intro i
          have := (List.forall₂_iff_get.1 hF).2 i.val (by simp) (hlen.symm ▸ i.2)
          simpa using this
        · simp only [hofFn]
        · have h3 := hofFn (fun p => 0.5 * (p.1 + p.2))
          simp only [h3]
          classical
          refine (List.perm_insertionSort _ _).trans (List.Perm.of_eq ?_)
          congr 1
          funext i
          ring
        · classical
          exact List.pairwise_insertionSort _ _
        · simp only [hofFn]
        · simp only [hofFn]

/-- C49: `fit_type` other than `"cf"` and `"pf"` raises `ValueError` without touching anything; a zero reliability index makes a
point-fitted run fail. -/
theorem C49_invalid (eig : Matrix (Fin m) (Fin m) ℝ → List ℝ) (t : Mats (m + 1)) (marg : Fin (m + 1) → Marginal)
    (ev : Evaluator σ (m + 1)) (form : Result (m + 1)) (para : ℝ) (print : Bool) (s : σ) :
    (∀ fit, fit ≠ "cf" → fit ≠ "pf" → Sorm.run eig t marg ev form para print fit s = (s, .error .valueError)) ∧
    (form.beta = 0 → ∃ e, Sorm.run eig t marg ev form para print "pf" s = (s, .error e)) := by
  constructor
  · intro fit h1 h2
    simp [Sorm.run, h1, h2]
  · intro hb
    have : Sorm.run eig t marg ev form para print "pf" s = runPointfit t marg ev form print s := by
      simp [Sorm.run]
    rw [this]
    rw [runPointfit_eq]
    cases orthonormalMatrix form.alpha with
    | error e => exact ⟨e, rfl⟩
    | ok R => exact ⟨.runtimeError, by simp only [hb, if_true]⟩

/-! ### Paraboloids and planes -/

theorem newton_parabola {t : Mats (m + 1)} {marg : Fin (m + 1) → Marginal} {ev : Evaluator σ (m + 1)} {P : σ → Prop}
    {q : (Fin (m + 1) → ℝ) → ℝ} {G : (Fin (m + 1) → ℝ) → Fin (m + 1) → ℝ} (hg : Gives t marg ev P q G)
    {R : Matrix (Fin (m + 1)) (Fin (m + 1)) ℝ} {c0 β : ℝ} (hc0 : 1e-12 ≤ c0) (axis : Fin m) (c k : ℝ)
    (hq : ∀ v, q (Rᵀ.mulVec (trialPoint axis c v)) = c0 * (β - v + 1 / 2 * k * c ^ 2))
    (hG : ∀ v, R.mulVec (G (Rᵀ.mulVec (trialPoint axis c v))) (Fin.last m) = -c0) (iter : ℕ) (s : σ) (hs : P s) :
    ∃ s', P s' ∧ newton t marg ev R axis c (iter + 2) β s =
      (s', .ok (if c0 * |k| * c ^ 2 / 2 < 1e-6 then β else β + 1 / 2 * k * c ^ 2)) := by
  have hc1 : (0 : ℝ) < c0 := lt_of_lt_of_le (by norm_num) hc0
  have habs : |q (Rᵀ.mulVec (trialPoint axis c β))| = c0 * |k| * c ^ 2 / 2 := by
    rw [hq, show c0 * (β - β + 1 / 2 * k * c ^ 2) = (c0 * c ^ 2 / 2) * k by ring, abs_mul,
      abs_of_nonneg (by positivity)]
    ring
  obtain ⟨s1, h1, hP1⟩ := hg s hs (Rᵀ.mulVec (trialPoint axis c β))
  have hgr : ¬ |(-c0 : ℝ)| < 1e-12 := by rw [abs_neg, abs_of_pos hc1]; exact not_lt.2 hc0
  by_cases hsmall : c0 * |k| * c ^ 2 / 2 < 1e-6
  · refine ⟨s1, hP1, ?_⟩
    rw [if_pos hsmall]
    unfold newton
    simp only [h1]
    rw [if_pos (by rw [habs]; exact hsmall)]
  · obtain ⟨s2, h2, hP2⟩ := hg s1 hP1 (Rᵀ.mulVec (trialPoint axis c (β + 1 / 2 * k * c ^ 2)))
    have h0 : q (Rᵀ.mulVec (trialPoint axis c (β + 1 / 2 * k * c ^ 2))) = 0 := by rw [hq]; ring
    refine ⟨s2, hP2, ?_⟩
    rw [if_neg hsmall]
    unfold newton
    simp only [h1]
    rw [if_neg (by rw [habs]; exact hsmall), hG, if_neg hgr]
    have hstep : β - q (Rᵀ.mulVec (trialPoint axis c β)) / -c0 = β + 1 / 2 * k * c ^ 2 := by
      rw [hq]; field_simp; ring
    rw [hstep]
    unfold newton
    simp only [h2, h0, abs_zero]
    rw [if_pos (by norm_num)]

/-- C49: for a paraboloid `c₀ (β - v_n + ½ Σ κᵢ vᵢ²)` in the rotated coordinates `v = R u` used by the fit (with correct gradients) both
fitted curvatures on axis `i` are exactly `κᵢ`, except that a deviation below the tolerance, `½ c₀ |κᵢ| d² < 1e-6`, is reported
as zero. -/
theorem C49_parabola {t : Mats (m + 1)} {marg : Fin (m + 1) → Marginal} {ev : Evaluator σ (m + 1)} {P : σ → Prop}
    {q : (Fin (m + 1) → ℝ) → ℝ} {G : (Fin (m + 1) → ℝ) → Fin (m + 1) → ℝ} (hg : Gives t marg ev P q G)
    (hder : ∀ u, HasFDerivAt q (gradMap (G u)) u)
    {R : Matrix (Fin (m + 1)) (Fin (m + 1)) ℝ} (hR : R * Rᵀ = 1) {c0 β : ℝ} (hc0 : 1e-12 ≤ c0) (hβ : β ≠ 0) (κ : Fin m → ℝ)
    (hq : ∀ u, q u = c0 * (β - R.mulVec u (Fin.last m) + 1 / 2 * ∑ i : Fin m, κ i * R.mulVec u i.castSucc ^ 2))
    (axis : Fin m) {sign : ℝ} (hs : sign = 1 ∨ sign = -1) (s : σ) (hP : P s) :
    ∃ s', P s' ∧ findFittingPoint t marg ev R axis sign β (stepCoeff β) s =
      (s', .ok (if c0 * |κ axis| * fitDistance β ^ 2 / 2 < 1e-6 then 0 else κ axis)) := by
  set c := sign * (β / |β|) * fitDistance β with hc
  have hc2 : c ^ 2 = fitDistance β ^ 2 := coord_sq hβ hs
  have hne : axis.castSucc ≠ Fin.last m := (Fin.castSucc_lt_last axis).ne
  have hcoord : ∀ v, R.mulVec (Rᵀ.mulVec (trialPoint axis c v)) = trialPoint axis c v := fun v => by
    rw [mulVec_mulVec, hR, one_mulVec]
  have h1 : ∀ v, q (Rᵀ.mulVec (trialPoint axis c v)) = c0 * (β - v + 1 / 2 * κ axis * c ^ 2) := by
    intro v
    rw [hq, hcoord, trialPoint_eq]
    have e1 : (Pi.single axis.castSucc c + Pi.single (Fin.last m) v : Fin (m + 1) → ℝ) (Fin.last m) = v := by
      simp [hne.symm]
    have e2 : ∀ i : Fin m, (Pi.single axis.castSucc c + Pi.single (Fin.last m) v : Fin (m + 1) → ℝ) i.castSucc =
        if i = axis then c else 0 := by
      intro i
      have : i.castSucc ≠ Fin.last m := (Fin.castSucc_lt_last i).ne
      by_cases hi : i = axis
      · subst hi; simp [this]
      · simp [hi, this]
    rw [e1]
    have e3 : ∑ i : Fin m, κ i * (if i = axis then c else 0) ^ 2 = κ axis * c ^ 2 := by
      rw [Finset.sum_eq_single axis]
      · rw [if_pos rfl]
      · intro i _ hi; rw [if_neg hi]; ring
      · simp
    simp only [e2, e3]
    ring
  -- the gradient along the last axis
  have h2 : ∀ v, R.mulVec (G (Rᵀ.mulVec (trialPoint axis c v))) (Fin.last m) = -c0 := by
    intro v
    set u := Rᵀ.mulVec (trialPoint axis c v) with hu
    have hline : HasDerivAt (fun τ : ℝ => q (u + τ • R (Fin.last m))) (gradMap (G u) (R (Fin.last m))) 0 := by
      have hl : HasDerivAt (fun τ : ℝ => u + τ • R (Fin.last m)) (R (Fin.last m)) 0 := by
        simpa using ((hasDerivAt_id (0:ℝ)).smul_const (R (Fin.last m))).const_add u
      have := (hder (u + (0:ℝ) • R (Fin.last m))).comp_hasDerivAt 0 hl
      rw [zero_smul, add_zero] at this
      exact this
    have hcoord2 : ∀ τ : ℝ, R.mulVec (u + τ • R (Fin.last m)) = R.mulVec u + τ • Pi.single (Fin.last m) 1 := by
      intro τ
      rw [mulVec_add, mulVec_smul]
      congr 2
      funext i
      have := congrFun (congrFun hR i) (Fin.last m)
      rw [mul_apply] at this
      change ∑ k, R i k * R (Fin.last m) k = _
      simp only [transpose_apply] at this
      rw [this]
      by_cases hi : i = Fin.last m
      · subst hi; simp
      · simp [hi]
    have hval : (fun τ : ℝ => q (u + τ • R (Fin.last m))) = fun τ => q u + (-c0) * τ := by
      funext τ
      rw [hq, hq, hcoord2]
      have : ∀ i : Fin m, (R.mulVec u + τ • Pi.single (Fin.last m) (1:ℝ) : Fin (m + 1) → ℝ) i.castSucc = R.mulVec u i.castSucc := by
        intro i
        simp [(Fin.castSucc_lt_last i).ne]
      simp only [this]
      simp
      ring
    rw [hval] at hline
    have h3 : HasDerivAt (fun τ : ℝ => q u + (-c0) * τ) (-c0) 0 := by
      simpa using ((hasDerivAt_id (0:ℝ)).const_mul (-c0)).const_add (q u)
    have h4 := hline.unique h3
    rw [gradMap_apply] at h4
    rw [← h4]
    simp only [mulVec, dotProduct]
    exact Finset.sum_congr rfl fun i _ => mul_comm _ _
  obtain ⟨s', hP', hnew⟩ := newton_parabola hg hc0 axis c (κ axis) h1 h2 48 s hP
  refine ⟨s', hP', ?_⟩
  unfold findFittingPoint
  rw [stepCoeff_mul hβ, ← hc]
  rw [show (50 : ℕ) = 48 + 2 from rfl, hnew]
  have hd := fitDistance_one_le β
  simp only
  rw [if_neg (by rw [coord_abs hβ hs]; norm_num; linarith), hc2]
  split_ifs
  · simp
  · have : fitDistance β ^ 2 ≠ 0 := by positivity
    refine Prod.ext rfl (congrArg Except.ok ?_)
    field_simp
    ring

/-- C49: a limit state that is a plane in standard normal space, `c₀ (β - alpha·u)` (with correct gradients): point-fitted SORM finds
zero curvatures on every axis and reports FORM's failure probability. -/
theorem C49_plane {t : Mats (m + 1)} {marg : Fin (m + 1) → Marginal} {ev : Evaluator σ (m + 1)} {P : σ → Prop}
    {q : (Fin (m + 1) → ℝ) → ℝ} {G : (Fin (m + 1) → ℝ) → Fin (m + 1) → ℝ} (hg : Gives t marg ev P q G)
    (hder : ∀ u, HasFDerivAt q (gradMap (G u)) u) {form : Result (m + 1)} (ha : form.alpha ⬝ᵥ form.alpha = 1)
    (hm : m ≠ 0) (hlast : 1e-8 < |form.alpha (Fin.last m)|) {c0 : ℝ} (hc0 : 1e-12 ≤ c0) (hβ : form.beta ≠ 0)
    (hq : ∀ u, q u = c0 * (form.beta - form.alpha ⬝ᵥ u)) (print : Bool) (s : σ) (hP : P s) :
    ∃ s' r, runPointfit t marg ev form print s = (s', .ok r) ∧ r.kappa = List.replicate m 0 ∧
      r.kappaPf = some (List.replicate m 0, List.replicate m 0) ∧
      r.betaHL = form.beta ∧ r.breitung.pf = .fin (StdNormal.cdf (-form.beta)) ∧ r.breitung.betag = .fin form.beta ∧
      r.breitungM.pf = .fin (StdNormal.cdf (-form.beta)) ∧ r.breitungM.betag = .fin form.beta := by
  obtain ⟨R, hRot⟩ := (C47_defined form.alpha ha).2.1 hm hlast
  obtain ⟨hR, -, hRl, -⟩ := C47_rotation ha hRot
  have hq' : ∀ u, q u = c0 * (form.beta - R.mulVec u (Fin.last m) +
      1 / 2 * ∑ i : Fin m, (fun _ => (0:ℝ)) i * R.mulVec u i.castSucc ^ 2) := by
    intro u
    have : R.mulVec u (Fin.last m) = form.alpha ⬝ᵥ u := by rw [← hRl]; rfl
    simp [hq, this]
  have hfit : ∀ (is : List (Fin m)) (s : σ), P s → ∃ s', P s' ∧
      fitAxes t marg ev R form.beta (stepCoeff form.beta) is s = (s', .ok (List.replicate is.length (0, 0))) := by
    intro is
    induction is with
    | nil => intro s hs; exact ⟨s, hs, rfl⟩
    | cons i is ih =>
      intro s hs
      obtain ⟨s1, hs1, h1⟩ := C49_parabola hg hder hR hc0 hβ (fun _ => 0) hq' i (sign := -1) (Or.inr rfl) s hs
      obtain ⟨s2, hs2, h2⟩ := C49_parabola hg hder hR hc0 hβ (fun _ => 0) hq' i (sign := 1) (Or.inl rfl) s1 hs1
      obtain ⟨s3, hs3, h3⟩ := ih s2 hs2
      rw [ite_self] at h1 h2
      refine ⟨s3, hs3, ?_⟩
      unfold fitAxes
      simp only [h1, h2, h3, List.length_cons, List.replicate_succ]
  obtain ⟨s', -, hf⟩ := hfit (List.finRange m) s hP
  rw [List.length_finRange] at hf
  obtain ⟨-, -, ⟨hpf, hbg⟩, hpfm, hbgm⟩ := C46_flat form.beta m
  have harr : (pfBreitungPf form.beta (List.replicate m 0) (List.replicate m 0)).isArray = true := by
    unfold pfBreitungPf pfAsym
    split_ifs <;> rfl
  refine ⟨s', ⟨form.beta, List.replicate m 0, some (List.replicate m 0, List.replicate m 0),
    pfBreitungPf form.beta (List.replicate m 0) (List.replicate m 0),
    pfBreitungMPf form.beta (List.replicate m 0) (List.replicate m 0)⟩, ?_, rfl, rfl, rfl, hpf, hbg, hpfm, hbgm⟩
  rw [runPointfit_eq]
  have hsort : Sorm.sort ((List.replicate m ((0:ℝ), (0:ℝ))).map (fun p => 0.5 * (p.1 + p.2))) = List.replicate m 0 := by
    rw [List.map_replicate]
    simp only [add_zero, mul_zero]
    unfold Sorm.sort
    refine List.Perm.eq_of_pairwise' (List.pairwise_insertionSort (· ≤ ·) _) ?_ (List.perm_insertionSort _ _)
    exact List.pairwise_replicate.2 (Or.inr le_rfl)
  have hk1 : (List.replicate m ((0:ℝ), (0:ℝ))).map Prod.fst = List.replicate m 0 := by rw [List.map_replicate]
  have hk2 : (List.replicate m ((0:ℝ), (0:ℝ))).map Prod.snd = List.replicate m 0 := by rw [List.map_replicate]
  simp only [hRot, if_neg hβ, hf, hk1, hk2, hsort]
  cases print with
  | false => simp [finish]
  | true => simp [finish, showResults, harr]

/-! ### Cost -/

theorem newton_calls {D : Type} {t : Mats (m + 1)} {marg : Fin (m + 1) → Marginal} {expr : Kwargs → GRet} {lo : LSOptions}
    {stdv : Fin (m + 1) → ℝ} (R : Matrix (Fin (m + 1)) (Fin (m + 1)) ℝ) (axis : Fin m) (c : ℝ) (iter : ℕ) {v0 v : ℝ}
    {ev ev' : Ev D} (h : newton t marg (lsEvaluator expr lo stdv) R axis c iter v0 ev = (ev', .ok v)) :
    ∃ k, 1 ≤ k ∧ k ≤ iter ∧ ev'.model = ev.model.addCallFunction
      (k * (if lo.diffMode ≠ "no" ∧ lo.diffMode ≠ "ddm" then 1 + (m + 1) else 1)) := by
  induction iter generalizing v0 ev with
  | zero => cases h
  | succ iter ih =>
    unfold newton at h
    split at h
    · cases h
    · next G gu he =>
      have hcall := evaluateLSF_calls he
      split_ifs at h with h1 h2
      · injection h with h3 h4
        subst h3
        exact ⟨1, le_rfl, by omega, by rw [hcall, one_mul]⟩
      · cases h
      · obtain ⟨k, hk1, hk2, hk3⟩ := ih h
        refine ⟨k + 1, by omega, by omega, ?_⟩
        rw [hk3, hcall, addCall_addCall]
        congr 1
        ring

theorem find_calls {D : Type} {t : Mats (m + 1)} {marg : Fin (m + 1) → Marginal} {expr : Kwargs → GRet} {lo : LSOptions}
    {stdv : Fin (m + 1) → ℝ} {R : Matrix (Fin (m + 1)) (Fin (m + 1)) ℝ} {axis : Fin m} {sign β k0 κ : ℝ}
    {ev ev' : Ev D} (h : findFittingPoint t marg (lsEvaluator expr lo stdv) R axis sign β k0 ev = (ev', .ok κ)) :
    ∃ k, 1 ≤ k ∧ k ≤ 50 ∧ ev'.model = ev.model.addCallFunction
      (k * (if lo.diffMode ≠ "no" ∧ lo.diffMode ≠ "ddm" then 1 + (m + 1) else 1)) := by
  unfold findFittingPoint at h
  split at h
  · cases h
  · next hn =>
    have := newton_calls R axis _ 50 hn
    split_ifs at h <;> (injection h with h1 h2; subst h1; exact this)

theorem fitAxes_calls {D : Type} {t : Mats (m + 1)} {marg : Fin (m + 1) → Marginal} {expr : Kwargs → GRet} {lo : LSOptions}
    {stdv : Fin (m + 1) → ℝ} {R : Matrix (Fin (m + 1)) (Fin (m + 1)) ℝ} {β k0 : ℝ} (is : List (Fin m))
    {ev ev' : Ev D} {l : List (ℝ × ℝ)} (h : fitAxes t marg (lsEvaluator expr lo stdv) R β k0 is ev = (ev', .ok l)) :
    ∃ k, 2 * is.length ≤ k ∧ k ≤ 100 * is.length ∧ ev'.model = ev.model.addCallFunction
      (k * (if lo.diffMode ≠ "no" ∧ lo.diffMode ≠ "ddm" then 1 + (m + 1) else 1)) := by
  induction is generalizing ev ev' l with
  | nil => injection h with h1 h2; subst h1; exact ⟨0, by simp, by simp, by simp [addCall_zero]⟩
  | cons i is ih =>
    unfold fitAxes at h
    split at h
    · cases h
    · next h1 =>
      split at h
      · cases h
      · next h2 =>
        split at h
        · cases h
        · next h3 =>
          injection h with h4 h5
          subst h4
          obtain ⟨a, ha1, ha2, ha3⟩ := find_calls h1
          obtain ⟨b, hb1, hb2, hb3⟩ := find_calls h2
          obtain ⟨k, hk1, hk2, hk3⟩ := ih h3
          refine ⟨a + b + k, by rw [List.length_cons]; omega, by rw [List.length_cons]; omega, ?_⟩
          rw [hk3, hb3, ha3, addCall_addCall, addCall_addCall]
          congr 1
          ring

/-- C49: a successful point-fitted run costs between two and one hundred gradient evaluations per axis, whatever the limit
state; nothing else of the model changes. -/
theorem C49_calls {D : Type} {t : Mats (m + 1)} {marg : Fin (m + 1) → Marginal} {expr : Kwargs → GRet} {lo : LSOptions}
    {stdv : Fin (m + 1) → ℝ} {form : Result (m + 1)} {print : Bool} {ev ev' : Ev D} {r : SResult}
    (h : runPointfit t marg (lsEvaluator expr lo stdv) form print ev = (ev', .ok r)) :
    ∃ k, 2 * m ≤ k ∧ k ≤ 100 * m ∧ ev'.model = ev.model.addCallFunction
      (k * (if lo.diffMode ≠ "no" ∧ lo.diffMode ≠ "ddm" then 1 + (m + 1) else 1)) := by
  rw [runPointfit_eq] at h
  split at h
  · cases h
  · split_ifs at h with hβ
    · cases h
    · split at h
      · cases h
      · next hfit =>
        injection h with h1 h2
        subst h1
        have := fitAxes_calls _ hfit
        rwa [List.length_finRange] at this

end Pystra.Props
