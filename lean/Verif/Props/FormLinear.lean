import Verif.Props.FormDirection
import Verif.Lemmas.Gauss

/-! C30: FORM is exact for limit states that are affine in normal variables. -/

namespace Pystra.Props
open Matrix Spec Transformation Form MeasureTheory

variable {σ : Type} {n : ℕ}

/-- An evaluator that returns the values and gradients of `f`, as long as its state satisfies `P` (which it
preserves). -/
def Exact (ev : Evaluator σ n) (P : σ → Prop) (f : (Fin n → ℝ) → ℝ) (grad : (Fin n → ℝ) → Fin n → ℝ) : Prop :=
  ∀ s, P s → ∀ x, ∃ s' xa, ev.withGrad s x = (s', .ok (f x, grad x, xa)) ∧ P s'

theorem normal_ok {μ s : ℝ} {sp : Option ℝ} {m : Marginal} (h : Normal.new μ (.fin s) sp = .ok m) :
    m.uToX = Normal.uToX μ s ∧ m.jac = Normal.jac s ∧ m.xToU = Normal.xToU μ s ∧ m.mean = μ ∧ m.stdv = s ∧
      m.startpoint = sp.getD μ := by
  unfold Normal.new at h
  split at h
  · cases h
  · next m' s' sp' he =>
    injection h with h
    subst h
    unfold Distribution.initMoments at he
    simp only [Distribution.updateMoments] at he
    injection he with he
    injection he with h1 h2
    injection h2 with h2 h3
    subst h1 h2 h3
    refine ⟨rfl, rfl, rfl, rfl, rfl, ?_⟩
    cases sp <;> rfl

section
variable {t : Mats n} {marg : Fin n → Marginal} {μ sd : Fin n → ℝ} {sp : Fin n → Option ℝ}

theorem normal_linearise (hm : ∀ i, Normal.new (μ i) (.fin (sd i)) (sp i) = .ok (marg i)) (hsd : ∀ i, 0 < sd i)
    (h1 : t.T * t.invT = 1) (h2 : t.invT * t.T = 1) (a0 : ℝ) (a : Fin n → ℝ) {ev : Evaluator σ n} {P : σ → Prop}
    (hev : Exact ev P (fun x => a0 + ∑ i, a i * x i) (fun _ => a)) (u : Fin n → ℝ) (s : σ) (hs : P s) :
    ∃ s' p, linearise t marg ev u s = (s', .ok p) ∧ P s' ∧ p.u = u ∧ p.x = uToX t marg u ∧
      p.gradient = vecMul (fun i => a i * sd i) t.invT ∧
      p.G = (a0 + ∑ i, a i * μ i) + vecMul (fun i => a i * sd i) t.invT ⬝ᵥ u := by
  have hjac : jacobian t marg u (uToX t marg u) = t.T * diagonal (fun i => 1 / sd i) := by
    unfold jacobian
    simp only [(normal_ok (hm _)).2.1, Normal.jac]
  have hinv : npInv (jacobian t marg u (uToX t marg u)) = .ok (diagonal sd * t.invT) := by
    have hmul : (diagonal sd * t.invT) * jacobian t marg u (uToX t marg u) = 1 := by
      rw [hjac, Matrix.mul_assoc, ← Matrix.mul_assoc t.invT, h2, Matrix.one_mul, diagonal_mul_diagonal]
      rw [← diagonal_one]
      congr 1
      funext i
      rw [mul_one_div, div_self (hsd i).ne']
    have hu : IsUnit (jacobian t marg u (uToX t marg u)).det := by
      have := congrArg det hmul
      rw [det_mul, det_one, mul_comm] at this
      exact IsUnit.of_mul_eq_one _ this
    rw [npInv_of_unit hu, inv_eq_left_inv hmul]
  obtain ⟨s', xa, he, hP⟩ := hev s hs (uToX t marg u)
  refine ⟨s', ⟨u, uToX t marg u, xa, diagonal sd * t.invT, a0 + ∑ i, a i * uToX t marg u i,
    vecMul a (diagonal sd * t.invT)⟩, ?_, hP, rfl, rfl, ?_, ?_⟩
  · unfold linearise; simp only [hinv, he]
  · simp only
    rw [← vecMul_vecMul]
    congr 1
    funext i; rw [vecMul_diagonal]
  · simp only
    rw [← dotProduct_mulVec]
    simp only [uToX, (normal_ok (hm _)).1, Normal.uToX, dotProduct]
    rw [add_assoc, ← Finset.sum_add_distrib]
    congr 1
    refine Finset.sum_congr rfl fun i _ => ?_
    ring

/-- One full step from any point lands on `beta·alpha`. -/
theorem newton_step (b : ℝ) {w : Fin n → ℝ} (hw : w ≠ 0) (u : Fin n → ℝ) :
    (fun k => u k + 1 * direction (b + w ⬝ᵥ u) w (alpha w) u k) = (b / norm2 w) • alpha w := by
  have hN := norm2_ne hw
  rw [direction_eq, alpha_dot]
  funext k
  simp only [Pi.sub_apply, Pi.smul_apply, smul_eq_mul]
  field_simp
  ring

theorem at_solution (b : ℝ) {w : Fin n → ℝ} (hw : w ≠ 0) :
    b + w ⬝ᵥ ((b / norm2 w) • alpha w) = 0 ∧ alpha w ⬝ᵥ ((b / norm2 w) • alpha w) = b / norm2 w ∧
      err2 ((b / norm2 w) • alpha w) (alpha w) = 0 := by
  have hN := norm2_ne hw
  have h2 : alpha w ⬝ᵥ ((b / norm2 w) • alpha w) = b / norm2 w := by
    rw [dotProduct_smul, alpha_unit hw, smul_eq_mul, mul_one]
  refine ⟨?_, h2, ?_⟩
  · rw [dotProduct_smul, grad_alpha hw, smul_eq_mul]; field_simp; ring
  · unfold err2
    rw [h2]
    have : (fun i => ((b / norm2 w) • alpha w) i - b / norm2 w * alpha w i) = 0 := by funext i; simp
    rw [this, norm2_zero]

theorem loop_at_solution {ev : Evaluator σ n} {P : σ → Prop} {opt : Form.Options} {b : ℝ} {w : Fin n → ℝ} (hw : w ≠ 0)
    (hlin : ∀ u s, P s → ∃ s' p, linearise t marg ev u s = (s', .ok p) ∧ P s' ∧ p.u = u ∧ p.x = uToX t marg u ∧
      p.gradient = w ∧ p.G = b + w ⬝ᵥ u)
    (hst : opt.stepSize = 1) (he1 : 0 < opt.e1) (he2 : 0 < opt.e2) (Go : ℝ) (fuel : ℕ) :
    ∀ (i : ℕ) (s : σ), 2 ≤ i → i ≤ opt.iMax → opt.iMax + 1 ≤ fuel + i → P s →
    ∃ r s', loop t marg ev opt fuel i Go ((b / norm2 w) • alpha w) s = some (.done r s') ∧ P s' ∧
      r.i = (if Go = 0 then opt.iMax else i) ∧ r.beta = b / norm2 w ∧ r.Pf = StdNormal.cdf (-(b / norm2 w)) ∧
      r.alpha = alpha w ∧ r.point.u = (b / norm2 w) • alpha w ∧ r.point.G = 0 ∧ r.point.x = uToX t marg r.point.u := by
  induction fuel with
  | zero => intro i s h1 h2 h3; omega
  | succ k ih =>
    intro i s h1 h2 h3 hP
    obtain ⟨s', p, hl, hP', hu, hx, hg, hG⟩ := hlin ((b / norm2 w) • alpha w) s hP
    obtain ⟨z1, z2, z3⟩ := at_solution b hw
    rw [z1] at hG
    have hi1 : i ≠ 1 := by omega
    by_cases hstop : Go = 0 ∧ i ≠ opt.iMax
    · -- keeps iterating at the same point
      have hit : iteration t marg ev opt i Go ((b / norm2 w) • alpha w) s =
          .next Go ((b / norm2 w) • alpha w) s' := by
        unfold iteration
        rw [hl]
        simp only [hg, if_neg hw, if_neg hi1, hG]
        have c1 : cond1 opt 0 Go = false := by simp [cond1, hstop.1]
        have c2 : decide (i = opt.iMax) = false := by simpa using hstop.2
        rw [c1, c2]
        simp only [Bool.false_and, Bool.or_false, Bool.false_eq_true, if_false, getStepSize, hst, one_ne_zero]
        have := newton_step b hw ((b / norm2 w) • alpha w)
        rw [z1] at this
        rw [this]
      obtain ⟨r, s'', hr, rest⟩ := ih (i + 1) s' (by omega) (by omega) (by omega) hP'
      refine ⟨r, s'', ?_, ?_⟩
      · unfold loop; rw [hit]; exact hr
      · rw [if_pos hstop.1] at rest ⊢; exact rest
    · have hit : iteration t marg ev opt i Go ((b / norm2 w) • alpha w) s =
          .done ⟨i, p, Go, alpha w, b / norm2 w, StdNormal.cdf (-(b / norm2 w))⟩ s' := by
        unfold iteration
        rw [hl]
        simp only [hg, if_neg hw, if_neg hi1, hG]
        have c : (cond1 opt 0 Go && cond2 opt ((b / norm2 w) • alpha w) (alpha w) || decide (i = opt.iMax)) = true := by
          by_cases hi : i = opt.iMax
          · simp [hi]
          · have hGo : Go ≠ 0 := fun h => hstop ⟨h, hi⟩
            simp [cond1, cond2, hGo, he1, z3, he2]
        rw [if_pos c, z2]
      refine ⟨_, s', by unfold loop; rw [hit], hP', ?_, rfl, rfl, rfl, hu, hG, by rw [hx, hu]⟩
      by_cases hGo : Go = 0
      · rw [if_pos hGo]
        by_contra hne
        exact hstop ⟨hGo, hne⟩
      · rw [if_neg hGo]

end

/-- C30: `g(x) = a0 + a·x` with `a ≠ 0`, normal marginals (any means, positive standard deviations, any start points), any
positive definite `Ro`, either factorisation, exact gradients (see `C30_ffd`), full steps, `0 < e1 ≤ 1`, `0 < e2`,
`i_max ≥ 2`: FORM reports `beta = (a0 + Σ aᵢμᵢ)/√(Σ aᵢσᵢ Roᵢⱼ σⱼaⱼ)`, i.e. mean over standard deviation of `g`, and
`Pf = P(g(X) ≤ 0)` exactly, where `X` is the image of standard normal variables; the design point is on the limit-state
surface; two iterations are used unless the start lies on the surface;
`alpha` is the direction of `-∇` of `g` in standard space. -/
theorem C30_exact {la : LinAlg} (hla : LinAlgOK la) {ty : TransformType} {Ro : Matrix (Fin n) (Fin n) ℝ} (hR : Ro.PosDef)
    {t : Mats n} (ht : Transformation.compute la ty Ro = .ok t) {μ sd : Fin n → ℝ} {sp : Fin n → Option ℝ}
    (hsd : ∀ i, 0 < sd i) {marg : Fin n → Marginal}
    (hm : ∀ i, Normal.new (μ i) (.fin (sd i)) (sp i) = .ok (marg i)) (a0 : ℝ) (a : Fin n → ℝ) (ha : a ≠ 0)
    {ev : Evaluator σ n} {P : σ → Prop} (hev : Exact ev P (fun x => a0 + ∑ i, a i * x i) (fun _ => a))
    (opt : Form.Options) (hst : opt.stepSize = 1) (he1 : 0 < opt.e1) (he1' : opt.e1 ≤ 1) (he2 : 0 < opt.e2)
    (hi : 2 ≤ opt.iMax) (s : σ) (hs : P s) (fuel : ℕ) (hf : opt.iMax ≤ fuel) :
    ∃ r s', runFrom t marg ev opt fuel s = some (.done r s') ∧
      r.beta = (a0 + ∑ i, a i * μ i) / √(∑ i, ∑ j, a i * sd i * Ro i j * (a j * sd j)) ∧
      r.Pf = (stdGauss n).real {u | a0 + ∑ i, a i * uToX t marg u i ≤ 0} ∧
      r.point.u = r.beta • r.alpha ∧ a0 + ∑ i, a i * r.point.x i = 0 ∧
      r.i = (if a0 + ∑ i, a i * (sp i).getD (μ i) = 0 then opt.iMax else 2) ∧
      r.alpha = alpha (vecMul (fun i => a i * sd i) t.invT) := by
  obtain ⟨m', hm', hfac, h1, h2⟩ := C22_posdef hla ty hR
  rw [ht] at hm'; injection hm' with hm'; subst hm'
  set w := vecMul (fun i => a i * sd i) t.invT with hwdef
  set b := a0 + ∑ i, a i * μ i with hb
  have hw : w ≠ 0 := by
    intro h0
    apply ha
    have : vecMul w t.T = fun i => a i * sd i := by
      rw [hwdef, vecMul_vecMul, h2, vecMul_one]
    rw [h0, zero_vecMul] at this
    funext i
    have := congrFun this i
    simp only [Pi.zero_apply] at this ⊢
    rcases mul_eq_zero.1 this.symm with h | h
    · exact h
    · exact absurd h (hsd i).ne'
  have hnorm : norm2 w = √(∑ i, ∑ j, a i * sd i * Ro i j * (a j * sd j)) := by
    have e : norm2 w ^ 2 = ∑ i, ∑ j, a i * sd i * Ro i j * (a j * sd j) := by
      rw [← dot_self, hwdef]
      rw [← dotProduct_mulVec, ← mulVec_transpose, mulVec_mulVec, hfac]
      simp only [dotProduct, mulVec, Finset.mul_sum]
      exact Finset.sum_congr rfl fun i _ => Finset.sum_congr rfl fun j _ => by ring
    rw [← e, Real.sqrt_sq (norm2_nonneg _)]
  have hlin := fun u s hs => normal_linearise (sp := sp) hm hsd h1 h2 a0 a hev u s hs
  obtain ⟨s1, p, hl, hP1, hu1, hx1, hg1, hG1⟩ := hlin (startingPoint t marg) s hs
  -- the value at the start
  have hG0 : p.G = a0 + ∑ i, a i * (sp i).getD (μ i) := by
    have hz : t.invT *ᵥ startingPoint t marg = fun i => ((sp i).getD (μ i) - μ i) / sd i := by
      unfold startingPoint xToU
      rw [mulVec_mulVec, h2, one_mulVec]
      funext i
      obtain ⟨-, -, e1, -, -, e2⟩ := normal_ok (hm i)
      change (marg i).xToU ((marg i).startpoint) = _
      rw [e1, e2]; rfl
    rw [hG1, ← dotProduct_mulVec, hz]
    simp only [dotProduct]
    rw [add_assoc, ← Finset.sum_add_distrib]
    congr 1
    refine Finset.sum_congr rfl fun i _ => ?_
    have := (hsd i).ne'
    field_simp
    ring
  have hit : iteration t marg ev opt 1 0 (startingPoint t marg) s = .next p.G ((b / norm2 w) • alpha w) s1 := by
    unfold iteration
    rw [hl]
    simp only [hg1]
    rw [if_neg hw]
    have c1 : cond1 opt p.G p.G = false := by
      simp only [cond1, decide_eq_false_iff_not, not_and, not_lt]
      intro h0
      rw [mul_inv_cancel₀ h0, abs_one]; exact he1'
    have c2 : decide (1 = opt.iMax) = false := by rw [decide_eq_false_iff_not]; omega
    simp only [if_true, c1, c2, Bool.false_and, Bool.or_false, Bool.false_eq_true, if_false, getStepSize, hst,
      one_ne_zero]
    have := newton_step b hw (startingPoint t marg)
    rw [← hG1] at this
    rw [this]
  obtain ⟨k, rfl⟩ : ∃ k, fuel = k + 1 := ⟨fuel - 1, by omega⟩
  obtain ⟨r, s', hloop, hP', hri, hbeta, hPf, halpha, hu, hG, hx⟩ :=
    loop_at_solution (t := t) (marg := marg) (opt := opt) hw hlin hst he1 he2 p.G k 2 s1 le_rfl hi (by omega) hP1
  have hrun : runFrom t marg ev opt (k + 1) s = some (.done r s') := by
    unfold runFrom loop
    rw [hit]; exact hloop
  refine ⟨r, s', hrun, by rw [hbeta, hnorm], ?_, by rw [hu, hbeta, halpha], ?_, by rw [hri, hG0], halpha⟩
  · have hgu : ∀ u, a0 + ∑ i, a i * uToX t marg u i = b + ∑ i, w i * u i := by
      intro u
      have : b + ∑ i, w i * u i = b + w ⬝ᵥ u := rfl
      rw [this, hwdef, ← dotProduct_mulVec, hb, add_assoc, dotProduct, ← Finset.sum_add_distrib]
      congr 1
      refine Finset.sum_congr rfl fun i _ => ?_
      simp only [uToX, (normal_ok (hm i)).1, Normal.uToX]
      ring
    simp only [hgu]
    rw [halfspace_prob w (by rw [← norm2_sq]; have := norm2_pos hw; positivity), hPf]
    rfl
  · rw [hx]
    obtain ⟨z1, -, -⟩ := at_solution b hw
    have hgu : a0 + ∑ i, a i * uToX t marg r.point.u i = b + w ⬝ᵥ r.point.u := by
      rw [hwdef, ← dotProduct_mulVec, hb, add_assoc, dotProduct, ← Finset.sum_add_distrib]
      congr 1
      refine Finset.sum_congr rfl fun i _ => ?_
      simp only [uToX, (normal_ok (hm i)).1, Normal.uToX]
      ring
    rw [hgu, hu, z1]

theorem addCall_addCall {D : Type} (m : StochModel D ℝ) (k l : ℕ) :
    (m.addCallFunction k).addCallFunction l = m.addCallFunction (k + l) := by
  simp [StochModel.addCallFunction, Nat.add_assoc]

/-- Counting evaluations keeps a model reachable. -/
theorem reachable_calls {D : Type} {m : StochModel D ℝ} (h : Reachable m) (k : ℕ) : Reachable (m.addCallFunction k) := by
  obtain ⟨hist, rfl⟩ := h
  exact ⟨hist ++ [.calls k], by rw [StochModel.run_append]; rfl⟩

/-- The evaluator of the code with finite differences is exact for an affine limit state. -/
theorem ffd_exact {D : Type} {expr : Kwargs → GRet} {g : Dict String ℝ → ℝ} (hp : Pointwise expr g) (lo : LSOptions)
    (hbs : 1 ≤ lo.blockSize) (hpara : lo.ffdpara ≠ 0) (hmp : lo.multiProc ≠ 0) (hd1 : lo.diffMode ≠ "no")
    (hd2 : lo.diffMode ≠ "ddm") (stdv : Fin n → ℝ) (hs : ∀ j, stdv j ≠ 0) (m : StochModel D ℝ) (hm : Reachable m)
    (hn : m.nMarg ≤ n) (hne : m.getNames ≠ []) (a0 : ℝ) (a : Fin n → ℝ)
    (haff : ∀ p : Fin n → ℝ, g (pointArgs m p) = a0 + ∑ i, a i * p i) :
    Exact (lsEvaluator expr lo stdv) (fun ev : Ev D => ∃ k, ev.model = m.addCallFunction k)
      (fun x => a0 + ∑ i, a i * x i) (fun _ => a) := by
  rintro ev ⟨k, hk⟩ x
  have hm' : Reachable ev.model := hk ▸ reachable_calls hm k
  obtain ⟨ev', out, h1, h2, h3⟩ := C06_ffd_exact_affine hp lo hbs hpara stdv hs x ev hm' (hk ▸ hn) (hk ▸ hne) (7 + n)
    (by omega) a0 a (fun p => by rw [hk]; exact haff p)
  have he : LimitState.evaluateLsf (7 + n) expr lo stdv none [x] ev = some (ev', .ok out) := by
    rw [(C08_modes (7 + n) expr lo hmp stdv [x] ev).2 hd2 hd1, h1]
  refine ⟨ev', out.xAfter.getD 0 0, ?_, ?_⟩
  · simp only [lsEvaluator, he, h2, h3]; rfl
  · have := (C04_counts _ _ _ _ _ _ _ _ _ he).2 out rfl
    change ∃ k, ev'.model = m.addCallFunction k
    rw [this, hk]
    exact ⟨_, addCall_addCall m k _⟩

/-- C30 for the finite-difference gradient of the code: the user's function is any vectorised function whose scalar
version is affine in the model's random variables (constants may enter in any way). -/
theorem C30_ffd {D : Type} {la : LinAlg} (hla : LinAlgOK la) {ty : TransformType} {Ro : Matrix (Fin n) (Fin n) ℝ}
    (hR : Ro.PosDef) {t : Mats n} (ht : Transformation.compute la ty Ro = .ok t) {μ sd : Fin n → ℝ}
    {sp : Fin n → Option ℝ} (hsd : ∀ i, 0 < sd i) {marg : Fin n → Marginal}
    (hm : ∀ i, Normal.new (μ i) (.fin (sd i)) (sp i) = .ok (marg i)) {expr : Kwargs → GRet} {g : Dict String ℝ → ℝ}
    (hp : Pointwise expr g) (lo : LSOptions) (hbs : 1 ≤ lo.blockSize) (hpara : lo.ffdpara ≠ 0) (hmp : lo.multiProc ≠ 0)
    (hd1 : lo.diffMode ≠ "no") (hd2 : lo.diffMode ≠ "ddm") (ev : Ev D) (hmod : Reachable ev.model)
    (hn : ev.model.nMarg ≤ n) (hne : ev.model.getNames ≠ []) (a0 : ℝ) (a : Fin n → ℝ) (ha : a ≠ 0)
    (haff : ∀ p : Fin n → ℝ, g (pointArgs ev.model p) = a0 + ∑ i, a i * p i)
    (opt : Form.Options) (hst : opt.stepSize = 1) (he1 : 0 < opt.e1) (he1' : opt.e1 ≤ 1) (he2 : 0 < opt.e2)
    (hi : 2 ≤ opt.iMax) (fuel : ℕ) (hf : opt.iMax ≤ fuel) :
    ∃ r ev', runFrom t marg (lsEvaluator expr lo (fun i => (marg i).stdv)) opt fuel ev = some (.done r ev') ∧
      r.beta = (a0 + ∑ i, a i * μ i) / √(∑ i, ∑ j, a i * sd i * Ro i j * (a j * sd j)) ∧
      r.Pf = (stdGauss n).real {u | g (pointArgs ev.model (uToX t marg u)) ≤ 0} ∧
      r.point.u = r.beta • r.alpha ∧ g (pointArgs ev.model r.point.x) = 0 ∧
      r.i = (if g (pointArgs ev.model (fun i => (sp i).getD (μ i))) = 0 then opt.iMax else 2) ∧
      r.alpha = alpha (vecMul (fun i => a i * sd i) t.invT) := by
  have hs : ∀ j, (marg j).stdv ≠ 0 := fun j => by rw [(normal_ok (hm j)).2.2.2.2.1]; exact (hsd j).ne'
  have hex := ffd_exact hp lo hbs hpara hmp hd1 hd2 (fun i => (marg i).stdv) hs ev.model hmod hn hne a0 a haff
  obtain ⟨r, s', h1, h2, h3, h4, h5, h6, h7⟩ := C30_exact hla hR ht hsd hm a0 a ha hex opt hst he1 he1' he2 hi ev
    ⟨0, rfl⟩ fuel hf
  exact ⟨r, s', h1, h2, by simp only [haff]; exact h3, h4, by rw [haff]; exact h5, by rw [haff]; exact h6, h7⟩

/-- A concrete run meeting the hypotheses of `C30_exact` (and hence of the theorems about finished runs, C28–C35): two
correlated normal variables, `g = 7 - x₀ - 2x₁`. -/
example {la : LinAlg} (hla : LinAlgOK la) (fuel : ℕ) (hf : 100 ≤ fuel) : ∃ t marg r,
    Transformation.compute la .svd !![1, 1/2; 1/2, 1] = .ok t ∧
    runFrom t marg (⟨fun _ x => ((), .ok (7 + ∑ i, ![-1, -2] i * x i, ![-1, -2], x)), fun _ _ => ((), .ok [])⟩ :
      Evaluator Unit 2) ⟨100, 0.001, 0.001, 1, 1⟩ fuel () = some (.done r ()) ∧ r.i = 2 ∧ r.beta = 2 / √7 := by
  have hR : (!![1, 1/2; 1/2, 1] : Matrix (Fin 2) (Fin 2) ℝ).PosDef := by
    rw [posDef_iff_dotProduct_mulVec]
    refine ⟨by ext i j; fin_cases i <;> fin_cases j <;> simp, fun x hx => ?_⟩
    simp only [star_trivial, dotProduct, mulVec, Fin.sum_univ_two]
    simp
    have h0 : x 0 ≠ 0 ∨ x 1 ≠ 0 := by
      by_contra h
      push Not at h
      apply hx
      funext i; fin_cases i <;> simp [h.1, h.2]
    rcases h0 with h | h <;> nlinarith [sq_nonneg (x 0 + x 1), sq_pos_of_ne_zero h, sq_nonneg (x 0), sq_nonneg (x 1)]
  obtain ⟨t, ht, -⟩ := C22_posdef hla .svd hR
  have hm : ∀ i : Fin 2, ∃ m, Normal.new (![1, 2] i) (.fin (1 : ℝ)) none = .ok m := fun i => ⟨_, rfl⟩
  choose marg hmarg using hm
  obtain ⟨r, s', h1, h2, -, -, -, h6, -⟩ := C30_exact hla hR ht (μ := ![1, 2]) (sd := fun _ => 1) (sp := fun _ => none)
    (fun _ => one_pos) hmarg 7 ![-1, -2] (by intro h; simpa using congrFun h 0)
    (ev := (⟨fun _ x => ((), .ok (7 + ∑ i, ![-1, -2] i * x i, ![-1, -2], x)), fun _ _ => ((), .ok [])⟩ :
      Evaluator Unit 2)) (P := fun _ => True) (fun _ _ x => ⟨(), x, rfl, trivial⟩)
    ⟨100, 0.001, 0.001, 1, 1⟩ rfl (by norm_num) (by norm_num) (by norm_num) (by norm_num) () trivial fuel hf
  refine ⟨t, marg, r, ht, h1, ?_, ?_⟩
  · rw [h6, if_neg]
    simp [Fin.sum_univ_two]; norm_num
  · rw [h2]
    congr 1
    · simp [Fin.sum_univ_two]; norm_num
    · congr 1
      simp [Fin.sum_univ_two]; norm_num

end Pystra.Props
