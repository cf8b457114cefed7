import Verif.Props.SormCurvature
import Verif.Lemmas.Paraboloid

/-! C98: what the second-order results of a paraboloid say about its failure probability. -/

namespace Pystra.Props
open Matrix Spec Transformation Form Sorm MeasureTheory Filter Topology

variable {σ : Type} {m : ℕ}

/-- Breitung's formulas on the sorted curvatures. -/
theorem breitungPf_sort (b β : ℝ) (κ : Fin m → ℝ) :
    breitungPf b β (Sorm.sort (List.ofFn κ)) = StdNormal.cdf (-β) * ∏ i, 1 / √(1 + b * κ i) := by
  have hperm : (Sorm.sort (List.ofFn κ)).Perm (List.ofFn κ) := by
    classical
    exact List.perm_insertionSort _ _
  unfold breitungPf
  rw [(hperm.map _).prod_eq, List.map_ofFn, List.prod_ofFn]
  rfl

theorem mem_sort {κ : Fin m → ℝ} {p : ℝ → Prop} (h : ∀ i, p (κ i)) : ∀ k ∈ Sorm.sort (List.ofFn κ), p k := by
  have hperm : (Sorm.sort (List.ofFn κ)).Perm (List.ofFn κ) := by
    classical
    exact List.perm_insertionSort _ _
  intro k hk
  rw [hperm.mem_iff, List.mem_ofFn] at hk
  obtain ⟨i, rfl⟩ := hk
  exact h i

theorem prod_factors_le {b c : ℝ} {κ : Fin m → ℝ} (hb : ∀ i, 0 < 1 + b * κ i) (h : ∀ i, 1 + b * κ i ≤ 1 + c * κ i) :
    ∏ i, 1 / √(1 + c * κ i) ≤ ∏ i, 1 / √(1 + b * κ i) := by
  refine Finset.prod_le_prod (fun i _ => by positivity) fun i _ => ?_
  exact one_div_le_one_div_of_le (Real.sqrt_pos.2 (hb i)) (Real.sqrt_le_sqrt (h i))

/-- C98: curve-fitted SORM of a paraboloid `c (β - v_n + ½ Σ κᵢ vᵢ²)`, `v = Q u`, any marginals, any dependence, exact gradients (the
hypotheses of `C48_curvatures`).  The modified Breitung formula, whenever it is defined (with `ψ = φ(β)/Φ(-β)`:
`κᵢ > -1/ψ`), is an upper bound of the probability of failure.  If the surface curves away from the failure side (`κᵢ ≥ 0`, `β > 0`), the order is
`exact ≤ modified ≤ Breitung ≤ FORM`; if it curves towards it (`κᵢ ≤ 0`), `FORM ≤ exact ≤ modified`, and `FORM ≤ Breitung ≤ modified`. -/
theorem C98_bounds {eig : Matrix (Fin m) (Fin m) ℝ → List ℝ} (heig : EigOK eig)
    {la : LinAlg} {ty : TransformType} {Ro : Matrix (Fin (m + 1)) (Fin (m + 1)) ℝ} {t : Mats (m + 1)}
    (ht : Transformation.compute la ty Ro = .ok t) (marg : Fin (m + 1) → Marginal) (S : Fin (m + 1) → Set ℝ)
    (hmarg : ∀ i, RoundTrip (marg i) (S i)) (hS : ∀ i, IsOpen (S i)) (hj : ∀ i, JacobianCorrect (marg i) (S i))
    (hne : ∀ i z, (marg i).jac z ((marg i).uToX z) ≠ 0) {ev : Evaluator σ (m + 1)} {P : σ → Prop} {f : (Fin (m + 1) → ℝ) → ℝ}
    {grad : (Fin (m + 1) → ℝ) → Fin (m + 1) → ℝ}
    (hf : ∀ u, HasFDerivAt f (gradMap (grad (uToX t marg u))) (uToX t marg u))
    (hev : ∀ s, P s → ∀ u, ∃ s', ev.withGrad s (uToX t marg u) =
      (s', .ok (f (uToX t marg u), grad (uToX t marg u), uToX t marg u)) ∧ P s')
    {Q : Matrix (Fin (m + 1)) (Fin (m + 1)) ℝ} (hQ : Q * Qᵀ = 1) (κ : Fin m → ℝ) {c β : ℝ} (hc : 0 < c)
    (hq : ∀ u, f (uToX t marg u) =
      c * (β - Q.mulVec u (Fin.last m) + 1 / 2 * ∑ i : Fin m, κ i * Q.mulVec u i.castSucc ^ 2))
    {form : Result (m + 1)} (hal : form.alpha = Q (Fin.last m)) (hbeta : form.beta = β)
    (hgr : norm2 form.point.gradient = c) (hm : m ≠ 0) (hlast : 1e-8 < |form.alpha (Fin.last m)|)
    {para : ℝ} (hp : para ≠ 0) (s : σ) (hs : P s) :
    ∃ s' r, runCurvefit eig t marg ev form para false s = (s', .ok r) ∧ P s' ∧
      ((∀ i, -1 / (StdNormal.pdf β / StdNormal.cdf (-β)) < κ i) → ∃ p, r.breitungM.pf = .fin p ∧
        (stdGauss (m + 1)).real {u | f (uToX t marg u) ≤ 0} ≤ p) ∧
      (0 < β → (∀ i, 0 ≤ κ i) → ∃ p q, r.breitungM.pf = .fin p ∧ r.breitung.pf = .fin q ∧
        (stdGauss (m + 1)).real {u | f (uToX t marg u) ≤ 0} ≤ p ∧ p ≤ q ∧ q ≤ StdNormal.cdf (-β)) ∧
      ((∀ i, κ i ≤ 0) → StdNormal.cdf (-β) ≤ (stdGauss (m + 1)).real {u | f (uToX t marg u) ≤ 0}) ∧
      (0 < β → (∀ i, -1 / (StdNormal.pdf β / StdNormal.cdf (-β)) < κ i) → (∀ i, κ i ≤ 0) → ∃ p q, r.breitungM.pf = .fin p ∧
        r.breitung.pf = .fin q ∧ StdNormal.cdf (-β) ≤ q ∧ q ≤ p) := by
  obtain ⟨s', hrun, hP⟩ := curvefit_paraboloid heig ht marg S hmarg hS hj hne hf hev hQ κ hc hq hal hbeta hgr hm hlast hp s hs
  have hset : {u | f (uToX t marg u) ≤ 0} =
      {u | β - Q.mulVec u (Fin.last m) + 1 / 2 * ∑ i : Fin m, κ i * Q.mulVec u i.castSucc ^ 2 ≤ 0} := by
    ext u
    simp only [Set.mem_setOf_eq, hq]
    constructor
    · intro h
      by_contra h'
      push Not at h'
      exact absurd h (not_le.2 (mul_pos hc h'))
    · intro h
      exact mul_nonpos_of_nonneg_of_nonpos hc.le h
  have hpsi := Pystra.psi_pos' β
  have hvalid : (∀ i, -1 / (StdNormal.pdf β / StdNormal.cdf (-β)) < κ i) → ∀ i, 0 < 1 + psi β * κ i := by
    intro h i
    have := h i
    change -1 / psi β < κ i at this
    rw [div_lt_iff₀ hpsi] at this
    linarith
  have hM : (∀ i, -1 / (StdNormal.pdf β / StdNormal.cdf (-β)) < κ i) →
      (pfBreitungM β (Sorm.sort (List.ofFn κ))).pf = .fin (StdNormal.cdf (-β) * ∏ i, 1 / √(1 + psi β * κ i)) := by
    intro h
    rw [((C46_curve β _).2 (mem_sort (p := fun k => -1 / (StdNormal.pdf β / StdNormal.cdf (-β)) < k) h)).1, breitungPf_sort]
    rfl
  have hB : 0 < β → (∀ i, -1 / β < κ i) →
      (pfBreitung β (Sorm.sort (List.ofFn κ))).pf = .fin (StdNormal.cdf (-β) * ∏ i, 1 / √(1 + β * κ i)) := by
    intro hb h
    rw [((C46_curve β _).1 hb (mem_sort (p := fun k => -1 / β < k) h)).1, breitungPf_sort]
  have hge := Pystra.lt_psi β
  have hc0 := StdNormal.cdf_pos (-β)
  refine ⟨s', _, hrun, hP, ?_, ?_, ?_, ?_⟩
  · intro h
    refine ⟨_, hM h, ?_⟩
    rw [hset]
    exact paraboloid_le β κ hQ (hvalid h)
  · intro hb h
    have h1 : ∀ i, -1 / (StdNormal.pdf β / StdNormal.cdf (-β)) < κ i := fun i =>
      lt_of_lt_of_le (div_neg_of_neg_of_pos (by norm_num) hpsi) (h i)
    have h2 : ∀ i, -1 / β < κ i := fun i => lt_of_lt_of_le (div_neg_of_neg_of_pos (by norm_num) hb) (h i)
    refine ⟨_, _, hM h1, hB hb h2, ?_, ?_, ?_⟩
    · rw [hset]
      exact paraboloid_le β κ hQ (hvalid h1)
    · refine mul_le_mul_of_nonneg_left ?_ hc0.le
      exact prod_factors_le (fun i => by nlinarith [h i, mul_nonneg hb.le (h i)]) fun i => by nlinarith [h i]
    · refine mul_le_of_le_one_right hc0.le ?_
      refine Finset.prod_le_one (fun i _ => by positivity) fun i _ => ?_
      rw [div_le_one (Real.sqrt_pos.2 (by nlinarith [mul_nonneg hb.le (h i)]))]
      exact Real.one_le_sqrt.2 (by nlinarith [mul_nonneg hb.le (h i)])
  · intro h
    rw [hset]
    exact le_paraboloid β κ hQ h
  · intro hb h1 h
    have h0 := hvalid h1
    have h3 : ∀ i, 0 < 1 + β * κ i := fun i => by nlinarith [h0 i, h i]
    have h2 : ∀ i, -1 / β < κ i := fun i => by
      rw [div_lt_iff₀ hb]; linarith [h3 i]
    refine ⟨_, _, hM h1, hB hb h2, ?_, ?_⟩
    · refine le_mul_of_one_le_right hc0.le ?_
      have hone : ∀ i, 1 ≤ 1 / √(1 + β * κ i) := fun i => by
        rw [le_div_iff₀ (Real.sqrt_pos.2 (h3 i)), one_mul]
        exact Real.sqrt_le_one.2 (by nlinarith [h i])
      calc (1 : ℝ) = ∏ _i : Fin m, 1 := by simp
        _ ≤ _ := Finset.prod_le_prod (fun _ _ => zero_le_one) fun i _ => hone i
    · refine mul_le_mul_of_nonneg_left ?_ hc0.le
      exact prod_factors_le h0 fun i => by nlinarith [h i]

/-- Breitung's formulas are asymptotically exact, as numbers. -/
theorem breitung_ratio (k : Fin m → ℝ) (hk : ∀ i, -1 < k i) :
    Tendsto (fun β : ℝ => (∫ z : Fin (m + 1) → ℝ, StdNormal.cdf (-(β + 1 / 2 * ∑ i : Fin m, k i / β * z i.castSucc ^ 2))
      ∂(stdGauss (m + 1))) / (StdNormal.cdf (-β) * ∏ i, 1 / √(1 + β * (k i / β)))) atTop (𝓝 1) ∧
    Tendsto (fun β : ℝ => (∫ z : Fin (m + 1) → ℝ, StdNormal.cdf (-(β + 1 / 2 * ∑ i : Fin m, k i / β * z i.castSucc ^ 2))
      ∂(stdGauss (m + 1))) / (StdNormal.cdf (-β) * ∏ i, 1 / √(1 + psi β * (k i / β)))) atTop (𝓝 1) := by
  have hpos : ∏ i, 1 / √(1 + k i) ≠ 0 := by
    refine (Finset.prod_pos fun i _ => ?_).ne'
    have : 0 < 1 + k i := by linarith [hk i]
    positivity
  have key : ∀ F : ℝ → ℝ, Tendsto F atTop (𝓝 (∏ i, 1 / √(1 + k i))) →
      Tendsto (fun β : ℝ => (∫ z : Fin (m + 1) → ℝ, StdNormal.cdf (-(β + 1 / 2 * ∑ i : Fin m, k i / β * z i.castSucc ^ 2))
        ∂(stdGauss (m + 1))) / (StdNormal.cdf (-β) * F β)) atTop (𝓝 1) := by
    intro F hF
    have h := (paraboloid_limit k hk).div hF hpos
    rw [div_self hpos] at h
    exact h.congr fun β => by rw [Pi.div_apply, div_div]
  constructor
  · refine key _ (tendsto_const_nhds.congr' ?_)
    filter_upwards [eventually_gt_atTop 0] with β hb
    refine Finset.prod_congr rfl fun i _ => ?_
    rw [mul_div_cancel₀ _ hb.ne']
  · refine key _ (tendsto_finset_prod _ fun i _ => ?_)
    have h1 : Tendsto (fun β : ℝ => 1 + psi β * (k i / β)) atTop (𝓝 (1 + 1 * k i)) := by
      refine (tendsto_const_nhds.add (psi_div_tendsto.mul_const (k i))).congr fun β => ?_
      ring
    rw [one_mul] at h1
    have h2 : 0 < 1 + k i := by linarith [hk i]
    exact tendsto_const_nhds.div h1.sqrt (Real.sqrt_pos.2 h2).ne'

/-- C98: the second-order results of paraboloids with fixed `β κᵢ = kᵢ > -1` are asymptotically exact: for every relative accuracy
there is a `B` such that for every `β ≥ B` and every analysis of such a paraboloid, both reported probabilities have that accuracy. -/
theorem C98_asymptotic (k : Fin m → ℝ) (hk : ∀ i, -1 < k i) {ε : ℝ} (hε : 0 < ε) :
    ∃ B, 0 < B ∧ ∀ β, B ≤ β → ∀ {σ : Type} {eig : Matrix (Fin m) (Fin m) ℝ → List ℝ} (heig : EigOK eig)
    {la : LinAlg} {ty : TransformType} {Ro : Matrix (Fin (m + 1)) (Fin (m + 1)) ℝ} {t : Mats (m + 1)}
    (ht : Transformation.compute la ty Ro = .ok t) (marg : Fin (m + 1) → Marginal) (S : Fin (m + 1) → Set ℝ)
    (hmarg : ∀ i, RoundTrip (marg i) (S i)) (hS : ∀ i, IsOpen (S i)) (hj : ∀ i, JacobianCorrect (marg i) (S i))
    (hne : ∀ i z, (marg i).jac z ((marg i).uToX z) ≠ 0) {ev : Evaluator σ (m + 1)} {P : σ → Prop} {f : (Fin (m + 1) → ℝ) → ℝ}
    {grad : (Fin (m + 1) → ℝ) → Fin (m + 1) → ℝ}
    (hf : ∀ u, HasFDerivAt f (gradMap (grad (uToX t marg u))) (uToX t marg u))
    (hev : ∀ s, P s → ∀ u, ∃ s', ev.withGrad s (uToX t marg u) =
      (s', .ok (f (uToX t marg u), grad (uToX t marg u), uToX t marg u)) ∧ P s')
    {Q : Matrix (Fin (m + 1)) (Fin (m + 1)) ℝ} (hQ : Q * Qᵀ = 1)  {c : ℝ} (hc : 0 < c)
    (hq : ∀ u, f (uToX t marg u) =
      c * (β - Q.mulVec u (Fin.last m) + 1 / 2 * ∑ i : Fin m, k i / β * Q.mulVec u i.castSucc ^ 2))
    {form : Result (m + 1)} (hal : form.alpha = Q (Fin.last m)) (hbeta : form.beta = β)
    (hgr : norm2 form.point.gradient = c) (hm : m ≠ 0) (hlast : 1e-8 < |form.alpha (Fin.last m)|)
    {para : ℝ} (hp : para ≠ 0) (s : σ) (hs : P s),
    ∃ s' r p q, runCurvefit eig t marg ev form para false s = (s', .ok r) ∧ P s' ∧ r.breitung.pf = .fin q ∧ r.breitungM.pf = .fin p ∧
      0 < p ∧ 0 < q ∧ |(stdGauss (m + 1)).real {u | f (uToX t marg u) ≤ 0} - q| ≤ ε * q ∧
      |(stdGauss (m + 1)).real {u | f (uToX t marg u) ≤ 0} - p| ≤ ε * p := by
  obtain ⟨l1, l2⟩ := breitung_ratio k hk
  have hv : ∀ᶠ β : ℝ in atTop, ∀ i, 0 < 1 + psi β * (k i / β) := by
    rw [eventually_all]
    intro i
    have h1 : Tendsto (fun β : ℝ => 1 + psi β * (k i / β)) atTop (𝓝 (1 + 1 * k i)) := by
      refine (tendsto_const_nhds.add (psi_div_tendsto.mul_const (k i))).congr fun β => ?_
      ring
    exact h1.eventually_const_lt (by linarith [hk i])
  have e1 := Metric.tendsto_nhds.1 l1 ε hε
  have e2 := Metric.tendsto_nhds.1 l2 ε hε
  obtain ⟨B, hB⟩ := eventually_atTop.1 (((e1.and e2).and hv).and (eventually_gt_atTop (0 : ℝ)))
  refine ⟨max B 1, lt_of_lt_of_le one_pos (le_max_right _ _), ?_⟩
  intro β hβ σ eig heig la ty Ro t ht marg S hmarg hS hj hne ev P f grad hf hev Q hQ c hc hq form hal hbeta hgr hm hlast para hp s hs
  obtain ⟨⟨⟨d1, d2⟩, hval⟩, hb⟩ := hB β ((le_max_left _ _).trans hβ)
  obtain ⟨s', hrun, hP⟩ := curvefit_paraboloid heig ht marg S hmarg hS hj hne hf hev hQ (fun i => k i / β) hc hq hal hbeta hgr hm
    hlast hp s hs
  have hset : {u | f (uToX t marg u) ≤ 0} =
      {u | β - Q.mulVec u (Fin.last m) + 1 / 2 * ∑ i : Fin m, k i / β * Q.mulVec u i.castSucc ^ 2 ≤ 0} := by
    ext u
    simp only [Set.mem_setOf_eq, hq]
    constructor
    · intro h
      by_contra h'
      push Not at h'
      exact absurd h (not_le.2 (mul_pos hc h'))
    · intro h
      exact mul_nonpos_of_nonneg_of_nonpos hc.le h
  have hv1 : ∀ i, -1 / β < k i / β := fun i => by
    rw [div_lt_div_iff_of_pos_right hb]; exact hk i
  have hv2 : ∀ i, -1 / (StdNormal.pdf β / StdNormal.cdf (-β)) < k i / β := fun i => by
    change -1 / psi β < _
    rw [div_lt_iff₀ (Pystra.psi_pos' β)]
    linarith [hval i]
  have hq1 := ((C46_curve β (Sorm.sort (List.ofFn fun i => k i / β))).1 hb (mem_sort (p := fun k => -1 / β < k) hv1)).1
  have hp1 := ((C46_curve β (Sorm.sort (List.ofFn fun i => k i / β))).2
    (mem_sort (p := fun k => -1 / (StdNormal.pdf β / StdNormal.cdf (-β)) < k) hv2)).1
  rw [breitungPf_sort] at hq1 hp1
  have hm' := (paraboloid_mean β (fun i => k i / β) hQ).2
  have hpos : ∀ b : ℝ, (∀ i, 0 < 1 + b * (k i / β)) → 0 < StdNormal.cdf (-β) * ∏ i, 1 / √(1 + b * (k i / β)) := fun b h =>
    mul_pos (StdNormal.cdf_pos _) (Finset.prod_pos fun i _ => one_div_pos.2 (Real.sqrt_pos.2 (h i)))
  have hfin : ∀ x q : ℝ, 0 < q → dist (x / q) 1 < ε → |x - q| ≤ ε * q := by
    intro x q hq h
    rw [Real.dist_eq] at h
    have e : x - q = (x / q - 1) * q := by field_simp
    rw [e, abs_mul, abs_of_pos hq]
    exact mul_le_mul_of_nonneg_right h.le hq.le
  have hq0 := hpos β (fun i => by rw [mul_div_cancel₀ _ hb.ne']; linarith [hk i])
  have hp0 := hpos (psi β) hval
  refine ⟨s', _, _, _, hrun, hP, hq1, hp1, hp0, hq0, ?_, ?_⟩
  · rw [hset, ← hm']
    exact hfin _ _ hq0 d1
  · rw [hset, ← hm']
    exact hfin _ _ hp0 d2

end Pystra.Props
