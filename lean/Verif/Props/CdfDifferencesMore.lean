import Verif.Props.CdfDifferencesTotal

/-! C86: the Type I classes, the GEV shape, the chi-square class, the composite classes. -/

namespace Pystra.Props
open Real Set Spec Distribution Family

theorem gumbelR_pdf_le (z : ℝ) : |Frozen.gumbelR.pdf z| ≤ exp (-1) := by
  simp only [Frozen.gumbelR, abs_exp]
  exact exp_le_exp.2 (by have := add_one_le_exp (-z); linarith)

theorem gumbelL_pdf_le (z : ℝ) : |Frozen.gumbelL.pdf z| ≤ exp (-1) := by
  simp only [Frozen.gumbelL, abs_exp]
  exact exp_le_exp.2 (by have := add_one_le_exp z; linarith)

/-- The cdf of a law with bounded density is Lipschitz. -/
theorem cdf_lipschitz {f : Frozen} (hr : Regular f univ) {L : ℝ} (hL : ∀ z, |f.pdf z| ≤ L) (a b : ℝ) : |f.cdf b - f.cdf a| ≤ L * |b - a| := by
  have := Convex.norm_image_sub_le_of_norm_hasDerivWithin_le (f := f.cdf) (f' := f.pdf) (s := univ) (C := L) (x := a) (y := b)
    (fun x _ => (hr.deriv x (mem_univ x)).hasDerivWithinAt) (fun x _ => hL x) convex_univ (mem_univ a) (mem_univ b)
  simpa [Real.norm_eq_abs] using this

/-- An object of a Type I class wraps a standard Gumbel law. -/
theorem typeI_form (S : Solvers) {F : Family} (hF : F = .gumbel ∨ F = .typeIlargest ∨ F = .typeIsmallest) (inp : Bool) (p : ℝ) {q : ℝ}
    (hq : 0 < q) {m : Marginal} (hm : F.body S p q [] inp none = .ok m) :
    0 < m.stdv ∧ ∃ f l, Regular f univ ∧ (∀ z, |f.pdf z| ≤ exp (-1)) ∧ m.cdf = (f.locScale l (m.stdv * √6 / π)).cdf := by
  have big : ∀ {m : Marginal}, Gumbel.new p q inp none = .ok m →
      0 < m.stdv ∧ ∃ f l, Regular f univ ∧ (∀ z, |f.pdf z| ≤ exp (-1)) ∧ m.cdf = (f.locScale l (m.stdv * √6 / π)).cdf := by
    intro m hm
    have hc := (ofFrozen_ok hm).2.1
    cases inp
    · obtain ⟨m', hm', _, h2, _⟩ := (good_gumbel p hq none).ex
      rw [hm] at hm'
      cases hm'
      exact ⟨h2 ▸ hq, Frozen.gumbelR, _, Frozen.regular_gumbelR, gumbelR_pdf_le, by rw [hc, h2]; rfl⟩
    · obtain ⟨m', hm', _, h2, _⟩ := (good_gumbel_params p hq none).ex
      rw [hm] at hm'
      cases hm'
      refine ⟨by rw [h2]; positivity, Frozen.gumbelR, p, Frozen.regular_gumbelR, gumbelR_pdf_le, ?_⟩
      rw [hc, h2, show q * π / √6 * √6 / π = q by field_simp]
      rfl
  rcases hF with rfl | rfl | rfl
  · exact big hm
  · exact big hm
  · have hm0 : TypeIsmallest.new p q inp none = .ok m := hm
    have hc := (ofFrozen_ok hm0).2.1
    cases inp
    · obtain ⟨m', hm', _, h2, _⟩ := (good_typeIsmallest p hq none).ex
      rw [hm0] at hm'
      cases hm'
      refine ⟨h2 ▸ hq, Frozen.gumbelL, p + 0.5772156649 * q * √6 / π, Frozen.regular_gumbelL, gumbelL_pdf_le, ?_⟩
      rw [hc, h2]
      simp only [TypeIsmallest.frozen, Bool.false_eq_true, if_false, one_div_div]
    · obtain ⟨m', hm', _, h2, _⟩ := (good_typeIsmallest_params p hq none).ex
      rw [hm0] at hm'
      cases hm'
      refine ⟨by rw [h2]; positivity, Frozen.gumbelL, p, Frozen.regular_gumbelL, gumbelL_pdf_le, ?_⟩
      rw [hc, h2, show π / (q * √6) * √6 / π = 1 / q by field_simp]
      rfl

theorem typeI_returns (S : Solvers) {F : Family} (hF : F = .gumbel ∨ F = .typeIlargest ∨ F = .typeIsmallest) (μ : ℝ) {σ : ℝ} (hσ : 0 < σ) :
    Returns (F.construct S μ σ [] false none) := by
  rcases hF with rfl | rfl | rfl
  · exact (good_gumbel μ hσ none).returns
  · exact (good_gumbel μ hσ none).returns
  · exact (good_typeIsmallest μ hσ none).returns

/-- C86: for the Type I classes the copy that is checked differs from the object (C85), but by so little that the check passes: `dF_dtheta`
returns the central differences for every object, at every point. -/
theorem C86_typeI (S : Solvers) (F : Family) (hF : F = .gumbel ∨ F = .typeIlargest ∨ F = .typeIsmallest) (inp : Bool) (p : ℝ) {q : ℝ}
    (hq : 0 < q) (sp : Option ℝ) :
    ∃ o, F.object S p q [] inp sp = .ok o ∧ ∀ x, o.dFDtheta x = .ok (cdfDifferences S F [] o.marg.mean o.marg.stdv x) := by
  obtain ⟨o, c, δ, ho, hc, hδ, hmv⟩ := C85_gumbel S F hF inp p hq sp
  have hb : F.bind [] = .ok [] := by rcases hF with rfl | rfl | rfl <;> rfl
  refine ⟨o, ho, fun x => ?_⟩
  obtain ⟨m, hm, rfl⟩ := object_ok hb ho
  obtain ⟨hσ, f, l, hr, hL, hcdf⟩ := typeI_form S hF inp p hq hm
  have hcon := construct_of_copy hb hc
  obtain ⟨_, _, _, _, _, _, hcd, _⟩ := hmv
  refine dF_of_copy hb ?_ hcon ?_ ?_ x
  · rcases hF with rfl | rfl | rfl <;> rfl
  · simp only at hcd hδ ⊢
    rw [hcd]
    generalize m.mean + 0.5 * m.stdv = y
    have hs : 0 < m.stdv * √6 / π := by positivity
    have h1 : |m.cdf (y - δ) - m.cdf y| ≤ 1e-6 := by
      rw [hcdf]
      simp only [Frozen.locScale]
      refine (cdf_lipschitz hr hL _ _).trans ?_
      rw [show (y - δ - l) / (m.stdv * √6 / π) - (y - l) / (m.stdv * √6 / π) = -(δ / (m.stdv * √6 / π)) by ring, abs_neg, abs_div,
        abs_of_pos hs, ← mul_div_assoc, div_le_iff₀ hs]
      have he : exp (-1) ≤ 1 / 2 := by
        rw [exp_neg, ← one_div]
        exact one_div_le_one_div_of_le (by norm_num) (by have := exp_one_gt_d9; linarith)
      have h6 : π ≤ 2 * √6 := by
        have : (2:ℝ) ≤ √6 := le_sqrt_of_sq_le (by norm_num)
        linarith [pi_lt_four]
      have h7 : m.stdv / 2 ≤ m.stdv * √6 / π := by
        rw [div_le_div_iff₀ (by norm_num) pi_pos]
        nlinarith
      calc exp (-1) * |δ| ≤ 1 / 2 * (1e-6 * m.stdv) := mul_le_mul he hδ.le (abs_nonneg _) (by norm_num)
        _ ≤ 1e-6 * (m.stdv * √6 / π) := by linarith
    refine h1.trans ?_
    have := abs_nonneg (m.cdf y)
    linarith
  · have hst := step_pos (v := m.stdv) hσ
    have hsm : step m.stdv m.stdv < m.stdv := by rw [step_self hσ]; nlinarith
    refine ⟨⟨typeI_returns S hF _ hσ, typeI_returns S hF _ hσ⟩, ⟨typeI_returns S hF _ (by simp only at *; linarith),
      typeI_returns S hF _ (by simp only at *; linarith)⟩, fun name hn => ?_⟩
    rcases hF with rfl | rfl | rfl <;> simp [Family.extra] at hn

/-- C86: the step with which the GEV shape is varied is at least `stdv * 1e-8`, although the shape has no unit.  If that takes it to one
half, `dF_dtheta` raises — whatever the point.  (So it does for every GEV object with `stdv ≥ 0.5e8 - shape * 1e8`, e.g. loads in newtons.) -/
theorem C86_shape_step (S : Solvers) (F : Family) (hF : F = .gevMax ∨ F = .gevMin) (inp : Bool) (p q : ℝ) (kw b : Dict String ℝ)
    (sp : Option ℝ) (hb : F.bind kw = .ok b) (hr : Reproducible S F inp p q b) :
    ∃ o, F.object S p q kw inp sp = .ok o ∧
      (1 / 2 ≤ Family.arg b "shape" + step (Family.arg b "shape") o.marg.stdv → ∀ x, o.dFDtheta x = .error .valueError) := by
  have hF' : F ∈ explicitFamilies := by rcases hF with rfl | rfl <;> simp [explicitFamilies]
  obtain ⟨o, c, ho, hc, hre⟩ := C85_copy S F inp p q kw b sp hb hr
  refine ⟨o, ho, fun hs x => ?_⟩
  obtain ⟨m, hm, rfl⟩ := object_ok hb ho
  have hk := bind_bound hb
  obtain ⟨hσ, _⟩ := explicit_reports hF' hr hm
  have hsh : Family.arg b "shape" < 1 / 2 := by
    rcases hF with rfl | rfl <;> cases inp <;> simp only [Reproducible] at hr
    · exact hr.2.1
    · exact hr.2.1
    · exact hr.2
    · exact hr.2
  have hne : F = .gamma ∨ F = .chiSquare → ∀ μ : ℝ, 0 < μ := by
    rintro (rfl | rfl) <;> simp at hF
  have ret : ∀ a s : ℝ, 0 < s → Returns (F.construct S a s b false none) := fun a s h =>
    explicit_returns S hF' hk h (fun h => hne h a) (fun _ => hsh)
  have hkeys : Dict.keys b = ["shape"] := by
    rw [bind_keys hk]
    rcases hF with rfl | rfl <;> rfl
  obtain ⟨v, rfl⟩ : ∃ v, b = [("shape", v)] := by
    match b, hkeys with
    | [(a, v)], hb =>
      simp only [Dict.keys, List.map_cons, List.map_nil, List.cons.injEq, and_true] at hb
      exact ⟨v, by rw [hb]⟩
  have ha : ∀ w : ℝ, Family.arg [("shape", w)] "shape" = w := fun w => by simp [Family.arg, Dict.get?]
  simp only [ha] at hs hsh
  have bad : ∀ a s w : ℝ, 1 / 2 ≤ w → F.construct S a s [("shape", w)] false none = .error .valueError := by
    intro a s w hw
    have hbd : F.bind [("shape", w)] = .ok [("shape", w)] := bind_of_keys (by rcases hF with rfl | rfl <;> rfl)
    unfold Family.construct
    rw [hbd]
    have : w ≥ 0.5 := by norm_num; linarith
    rcases hF with rfl | rfl
    · simp only [Family.body, ha, GEV.newMax, if_pos this]
    · simp only [Family.body, ha, GEV.newMin, if_pos this]
  obtain ⟨d, hdd⟩ : ∃ d : Dist, d = ⟨F.cls S (Family.arg [("shape", v)] "lower"), { m with startpoint := sp.getD m.mean }, [("shape", v)]⟩ := ⟨_, rfl⟩
  rw [← hdd] at hc hre ⊢
  have dcls : d.cls = F.cls S (Family.arg [("shape", v)] "lower") := by rw [hdd]
  have dm : d.marg.mean = m.mean := by rw [hdd]
  have ds : d.marg.stdv = m.stdv := by rw [hdd]
  have db : d.kwargs = [("shape", v)] := by rw [hdd]
  have cp := Props.C52_copy d (by rw [db]; simp [Dict.keys]) (by rw [db]; simp [Dict.keys]) (by rw [db]; simp [Dict.keys])
  simp only [dcls, dm, ds, db] at cp
  have sps : d.sensitivityParams = [("mean", m.mean), ("std", m.stdv), ("shape", v)] := by
    unfold Dist.sensitivityParams
    rw [dcls, db, dm, ds]
    rcases hF with rfl | rfl <;> simp [Family.cls, Family.extra, Dict.get?]
  unfold Dist.dFDtheta
  rw [dcls, show (F.cls S (Family.arg [("shape", v)] "lower")).dF = none by rcases hF with rfl | rfl <;> rfl]
  show d.baseDF x = _
  unfold Dist.baseDF
  rw [hc]
  have hcdf : c.marg.cdf = d.marg.cdf := by obtain ⟨_, _, _, _, _, h, _⟩ := hre; exact h
  simp only [hcdf, sub_self, abs_zero]
  rw [if_neg (by have := abs_nonneg (d.marg.cdf (d.marg.mean + 0.5 * d.marg.stdv)); linarith), sps]
  have hst := step_pos (v := m.stdv) hσ
  have hsm : step m.stdv m.stdv < m.stdv := by rw [step_self hσ]; nlinarith
  obtain ⟨m1, h1⟩ := ret (m.mean + step m.mean m.stdv) m.stdv hσ
  obtain ⟨m2, h2⟩ := ret (m.mean - step m.mean m.stdv) m.stdv hσ
  obtain ⟨m3, h3⟩ := ret m.mean (m.stdv + step m.stdv m.stdv) (by linarith)
  obtain ⟨m4, h4⟩ := ret m.mean (m.stdv - step m.stdv m.stdv) (by linarith)
  have h5 := bad m.mean m.stdv _ hs
  have c1 := (cp (m.mean + step m.mean m.stdv)).2.1
  have c2 := (cp (m.mean - step m.mean m.stdv)).2.1
  have c3 := (cp (m.stdv + step m.stdv m.stdv)).2.2.1
  have c4 := (cp (m.stdv - step m.stdv m.stdv)).2.2.1
  have c5 := (cp (v + step v m.stdv)).2.2.2 "shape" (by simp [Dict.keys])
  have hset : ∀ w : ℝ, Dict.set [("shape", v)] "shape" w = [("shape", w)] := fun w => by simp [Dict.set]
  simp only [Family.cls, hset, h1, h2, h3, h4, h5, Except.map] at c1 c2 c3 c4 c5
  simp only [step] at c1 c2 c3 c4 c5
  simp only [Dist.baseDFLoop, ds, c1, c2, c3, c4, c5]

/-- Mean and standard deviation of a constructed object. -/
noncomputable def reported (r : Except PyErr Marginal) : ℝ × ℝ :=
  match r with
  | .ok m => (m.mean, m.stdv)
  | .error _ => (0, 0)

/-- C86: a chi-square law has one parameter, and its class computes it as `2 mean² / stdv²`.  When the mean of an object is varied, the mean
of the copy moves twice as fast; when the standard deviation is increased, that of the copy decreases.  Yet `_dmoments_dtheta` reports
the derivatives (1, 0) and (0, 1). -/
theorem C86_chisquare (S : Solvers) (inp : Bool) (p q : ℝ) (sp : Option ℝ) (hr : Reproducible S .chiSquare inp p q []) :
    ∃ o, Family.chiSquare.object S p q [] inp sp = .ok o ∧ 0 < o.marg.mean ∧ o.marg.stdv = √(2 * o.marg.mean) ∧
      o.dmoments "mean" = .ok (1, 0) ∧ o.dmoments "std" = .ok (0, 1) ∧
      HasDerivAt (fun t => (reported (Family.chiSquare.construct S t o.marg.stdv [] false none)).1) 2 o.marg.mean ∧
      HasDerivAt (fun t => (reported (Family.chiSquare.construct S o.marg.mean t [] false none)).2) (-1) o.marg.stdv := by
  obtain ⟨ν, hν, hg⟩ : ∃ ν, 0 < ν ∧ Good (ChiSquare.new p q inp none) none (Ioi 0) ν (√(2 * ν)) := by
    cases inp <;> simp only [Reproducible] at hr
    · obtain ⟨h1, h2⟩ := hr
      refine ⟨2 * p ^ 2 / q ^ 2, by positivity, ?_⟩
      rw [show 2 * (2 * p ^ 2 / q ^ 2) = (2 * p / q) ^ 2 by ring, sqrt_sq (by positivity)]
      exact good_chiSquare h1 h2 none
    · exact ⟨p, hr, good_chiSquare_params hr q none⟩
  obtain ⟨m, hm, h1, h2, _⟩ := hg.ex
  have hb : Family.chiSquare.bind [] = .ok [] := rfl
  have ho : Family.chiSquare.object S p q [] inp sp =
      .ok ⟨Family.chiSquare.cls S (Family.arg [] "lower"), { m with startpoint := sp.getD m.mean }, []⟩ := by
    unfold Family.object
    rw [hb]
    have : Family.chiSquare.body S p q [] inp none = .ok m := hm
    simp only [body_sp S .chiSquare p q [] inp sp, this, Except.map]
  have hs : 0 < √(2 * ν) := by positivity
  have val : ∀ a s : ℝ, 0 < a → 0 < s → reported (Family.chiSquare.construct S a s [] false none) = (2 * a ^ 2 / s ^ 2, 2 * a / s) := by
    intro a s ha hs
    obtain ⟨m', hm', e1, e2, _⟩ := (good_chiSquare ha hs none).ex
    have : Family.chiSquare.construct S a s [] false none = .ok m' := hm'
    rw [this]
    simp only [reported, e1, e2]
  refine ⟨_, ho, h1 ▸ hν, by simp only [h1, h2], rfl, rfl, ?_, ?_⟩ <;> simp only [h1, h2]
  · have hd : HasDerivAt (fun t : ℝ => 2 * t ^ 2 / √(2 * ν) ^ 2) 2 ν := by
      have := (((hasDerivAt_pow 2 ν).const_mul 2).div_const (√(2 * ν) ^ 2))
      refine this.congr_deriv ?_
      rw [sq_sqrt (by positivity)]
      field_simp
      norm_num
    refine hd.congr_of_eventuallyEq ?_
    filter_upwards [eventually_gt_nhds hν] with t ht
    rw [val t _ ht hs]
  · have hd : HasDerivAt (fun t : ℝ => 2 * ν / t) (-1) (√(2 * ν)) := by
      have := (hasDerivAt_inv hs.ne').const_mul (2 * ν)
      simp only [← div_eq_mul_inv] at this
      refine this.congr_deriv ?_
      rw [sq_sqrt (by positivity)]
      field_simp
    refine hd.congr_of_eventuallyEq ?_
    filter_upwards [eventually_gt_nhds hs] with t ht
    rw [val ν t hν ht]

/-- C86: for a composite class, `dF_dtheta` is a `ValueError`, whatever the object and the point. -/
theorem C86_composite (S : Solvers) (m : Marginal) (l : ℝ) (x : ℝ) :
    Dist.dFDtheta ⟨Family.composite.cls S l, m, []⟩ x = .error .valueError := by
  have h := C85_composite S m l []
  unfold Dist.dFDtheta
  show Dist.baseDF _ x = _
  unfold Dist.baseDF
  simp only [List.mem_cons, List.not_mem_nil, or_false] at h
  rcases h with h | h <;> rw [h]

end Pystra.Props
