import Verif.Lemmas.Families

/-! C20: the generalised extreme value distributions. -/

namespace Pystra
open Real MeasureTheory Set Filter Topology

/-- A density has strictly positive variance. -/
theorem Mom.var_pos {pdf : ℝ → ℝ} {m q : ℝ} (h : Mom pdf m q) : 0 < q - m ^ 2 := by
  have hc := h.int_centered m
  have e : ∫ x, (x - m) ^ 2 * pdf x = q - m ^ 2 := by rw [hc]; ring
  have hn : (0 : ℝ → ℝ) ≤ fun x => (x - m) ^ 2 * pdf x := fun x => mul_nonneg (sq_nonneg _) (h.nonneg x)
  have hi : Integrable (fun x => (x - m) ^ 2 * pdf x) := by
    have : (fun x => (x - m) ^ 2 * pdf x) = fun x => (x ^ 2 * pdf x - 2 * m * (x * pdf x)) + m ^ 2 * pdf x := by
      funext x; ring
    rw [this]
    exact (h.int2.sub (h.int1.const_mul _)).add (h.int0.const_mul _)
  rcases (integral_nonneg hn).eq_or_lt with h0 | h0
  · exfalso
    rw [eq_comm, integral_eq_zero_iff_of_nonneg hn hi] at h0
    have : pdf =ᵐ[volume] 0 := by
      have hne : ∀ᵐ x : ℝ, x ≠ m := by simp [ae_iff, measure_singleton]
      filter_upwards [h0, hne] with x hx hxm
      have h2 : (x - m) ^ 2 ≠ 0 := pow_ne_zero _ (sub_ne_zero.2 hxm)
      exact (mul_eq_zero.1 hx).resolve_left h2
    have := integral_congr_ae this
    rw [h.mass] at this
    simp at this
  · rwa [e] at h0

/-- Mirror image of a density. -/
theorem Mom.mirror {pdf : ℝ → ℝ} {m q : ℝ} (h : Mom pdf m q) : Mom (fun x => pdf (-x)) (-m) q where
  nonneg x := h.nonneg _
  int0 := h.int0.comp_neg
  mass := by rw [integral_neg_eq_self]; exact h.mass
  int1 := by
    have := h.int1.comp_neg.neg
    refine this.congr (ae_of_all _ fun x => ?_)
    simp
  mean := by
    have : (fun x => x * pdf (-x)) = fun x => -((fun y => y * pdf y) (-x)) := by funext x; simp
    rw [this, integral_neg, integral_neg_eq_self (fun y => y * pdf y), h.mean]
  int2 := by
    refine h.int2.comp_neg.congr (ae_of_all _ fun x => ?_)
    simp
  sq := by
    have : (fun x => x ^ 2 * pdf (-x)) = fun x => ((fun y => y ^ 2 * pdf y) (-x)) := by funext x; simp
    rw [this, integral_neg_eq_self (fun y => y ^ 2 * pdf y), h.sq]

/-- Mean of the standard GEV variable with shape `s`. -/
noncomputable def gevMean (s : ℝ) : ℝ := if s = 0 then eulerMascheroniConstant else (Gamma (1 - s) - 1) / s
/-- Second moment of the standard GEV variable with shape `s`. -/
noncomputable def gevSq (s : ℝ) : ℝ :=
  if s = 0 then π ^ 2 / 6 + eulerMascheroniConstant ^ 2
  else (1 - 2 * Gamma (1 - s) + Gamma (1 - 2 * s)) / s ^ 2

theorem mom_gev {s : ℝ} (hs : s < 1 / 2) : Mom (Frozen.genextreme (-s)).pdf (gevMean s) (gevSq s) := by
  by_cases h : s = 0
  · subst h
    simp only [gevMean, gevSq, if_true, neg_zero, Frozen.genextreme_zero]
    exact Frozen.mom_gumbelR
  · simp only [gevMean, gevSq, if_neg h]
    have := Frozen.mom_genextreme (c := -s) (by linarith) (neg_ne_zero.2 h)
    convert this using 1
    · rw [show 1 + -s = 1 - s by ring, div_neg, ← neg_div]; congr 1; ring
    · rw [show 1 + -s = 1 - s by ring, show 1 + 2 * -s = 1 - 2 * s by ring, neg_sq]

theorem gev_off_support (s : ℝ) : ∀ x, x ∉ Frozen.gevSupport (-s) → (Frozen.genextreme (-s)).pdf x = 0 := by
  intro x hx
  by_cases h : s = 0
  · subst h; exfalso; apply hx; simp [Frozen.gevSupport]
  · have : ¬ 0 < 1 - -s * x := hx
    simp only [Frozen.genextreme, if_neg (neg_ne_zero.2 h), if_neg this]

/-- The scale chosen by the constructor is positive and gives the requested standard deviation, the location the
requested mean. -/
theorem gev_locScale_spec (μ : ℝ) {σ s : ℝ} (hσ : 0 < σ) (hs : s < 1 / 2) (h : s = 0 ∨ 1e-8 < |s|) :
    0 < (GEV.locScale μ σ s).2 ∧ (GEV.locScale μ σ s).1 + (GEV.locScale μ σ s).2 * gevMean s = μ ∧
      σ ^ 2 = (GEV.locScale μ σ s).2 ^ 2 * (gevSq s - gevMean s ^ 2) := by
  rcases h with h | h
  · subst h
    have : iscloseZero 0 := by unfold iscloseZero; norm_num
    simp only [GEV.locScale, if_pos this, gevMean, gevSq, if_true]
    refine ⟨by positivity, by ring, ?_⟩
    rw [add_sub_cancel_right, div_pow, mul_pow, sq_sqrt (by norm_num)]
    have := pi_pos
    field_simp
  · have hn : ¬ iscloseZero s := by unfold iscloseZero; exact not_le.2 h
    have h0 : s ≠ 0 := by rintro rfl; rw [abs_zero] at h; norm_num at h
    have hv := (mom_gev hs).var_pos
    simp only [GEV.locScale, if_neg hn]
    simp only [gevMean, gevSq, if_neg h0] at hv ⊢
    have e : (1 - 2 * Gamma (1 - s) + Gamma (1 - 2 * s)) / s ^ 2 - ((Gamma (1 - s) - 1) / s) ^ 2 =
        (Gamma (1 - 2 * s) - Gamma (1 - s) ^ 2) / s ^ 2 := by
      generalize Gamma (1 - s) = g; generalize Gamma (1 - 2 * s) = g2
      field_simp; ring
    rw [e] at hv ⊢
    have hs2 : 0 < s ^ 2 := by positivity
    have hg : 0 < Gamma (1 - 2 * s) - Gamma (1 - s) ^ 2 := by
      have := mul_pos hv hs2
      rwa [div_mul_cancel₀ _ hs2.ne'] at this
    have hsq := sqrt_pos.2 hg
    have habs : 0 < |s| := abs_pos.2 h0
    refine ⟨by positivity, by ring, ?_⟩
    rw [div_pow, mul_pow, sq_abs, sq_sqrt hg.le]
    generalize Gamma (1 - 2 * s) - Gamma (1 - s) ^ 2 = d at *
    field_simp

theorem good_gevMax (μ : ℝ) {σ s : ℝ} (hσ : 0 < σ) (hs : s < 1 / 2) (h : s = 0 ∨ 1e-8 < |s|) (sp : Option ℝ) :
    Good (GEV.newMax μ σ s false sp) sp
      {x | (x - (GEV.locScale μ σ s).1) / (GEV.locScale μ σ s).2 ∈ Frozen.gevSupport (-s)} μ σ := by
  obtain ⟨h1, h2, h3⟩ := gev_locScale_spec μ hσ hs h
  have := good_locScale (loc := (GEV.locScale μ σ s).1) (Frozen.regular_genextreme (-s)) (Frozen.isOpen_gevSupport _) (mom_gev hs)
    (ae_of_all _ (gev_off_support s)) h1 hσ.le h3 sp
  rw [h2] at this
  unfold GEV.newMax
  rw [if_neg (by norm_num; linarith)]
  exact this

end Pystra

namespace Pystra.Props
open Real MeasureTheory Set Filter Topology

/-- C20: both classes reject `shape ≥ 0.5`, whatever the other arguments. -/
theorem C20_rejects (a b s : ℝ) (hs : 0.5 ≤ s) (inp : Bool) (sp : Option ℝ) :
    GEV.newMax a b s inp sp = .error .valueError ∧ GEV.newMin a b s inp sp = .error .valueError := by
  unfold GEV.newMax GEV.newMin
  exact ⟨if_pos hs, if_pos hs⟩

/-- C20: `GEVmax(mean, stdv, shape)` is a law with exactly the requested mean and standard deviation, with
round-trip transformations and the right Jacobian, for `shape = 0` and for every `shape < 1/2` outside
`np.isclose`'s window around zero. -/
theorem C20_max (μ : ℝ) {σ s : ℝ} (hσ : 0 < σ) (hs : s < 1 / 2) (h : s = 0 ∨ 1e-8 < |s|) (sp : Option ℝ) :
    ∃ m S, GEV.newMax μ σ s false sp = .ok m ∧ m.mean = μ ∧ m.stdv = σ ∧ m.startpoint = sp.getD μ ∧
      Spec.RoundTrip m S ∧ Spec.JacobianCorrect m S ∧ Spec.Law (S.indicator m.pdf) μ σ := by
  obtain ⟨m, h⟩ := (good_gevMax μ hσ hs h sp).ex
  exact ⟨m, _, h⟩

/-- C20: inside the window (`0 < |shape| ≤ 1e-8`) the Gumbel location and scale are used with the GEV law, so the
moments are those of that law rather than the requested ones. -/
theorem C20_max_window (μ : ℝ) {σ s : ℝ} (hσ : 0 < σ) (h : |s| ≤ 1e-8) (sp : Option ℝ) :
    ∃ m, GEV.newMax μ σ s false sp = .ok m ∧
      m.mean = μ + σ * √6 / π * (gevMean s - eulerMascheroniConstant) ∧
      m.stdv ^ 2 = 6 * σ ^ 2 / π ^ 2 * (gevSq s - gevMean s ^ 2) := by
  have hs : s < 1 / 2 := by have := le_abs_self s; norm_num at h; linarith
  have hc : iscloseZero s := h
  have hv := (mom_gev hs).var_pos
  have hsc : 0 < σ * √6 / π := by positivity
  obtain ⟨m, hm, h1, h2, _⟩ := (good_locScale (loc := μ - σ * √6 / π * eulerMascheroniConstant) (scale := σ * √6 / π)
    (σ := √((σ * √6 / π) ^ 2 * (gevSq s - gevMean s ^ 2))) (Frozen.regular_genextreme (-s)) (Frozen.isOpen_gevSupport _) (mom_gev hs)
    (ae_of_all _ (gev_off_support s)) hsc (sqrt_nonneg _) (sq_sqrt (by positivity)) sp).ex
  refine ⟨m, ?_, ?_, ?_⟩
  · unfold GEV.newMax GEV.locScale
    rw [if_neg (by norm_num; linarith), ← hm]
    simp only [Bool.false_eq_true, if_false, if_pos hc]
  · rw [h1]; ring
  · rw [h2, sq_sqrt (by positivity), div_pow, mul_pow, sq_sqrt (by norm_num)]; ring

/-- What `GEVmin(mean, stdv, shape)` builds. -/
theorem newMin_eq (μ : ℝ) {σ s : ℝ} (hσ : 0 < σ) (hs : s < 1 / 2) (h : s = 0 ∨ 1e-8 < |s|) (sp : Option ℝ) :
    GEV.newMin μ σ s false sp = .ok
      (let f := (Frozen.genextreme (-s)).locScale (-(GEV.locScale μ σ s).1) (GEV.locScale μ σ s).2
      { mean := μ, stdv := σ, startpoint := Distribution.startPoint μ sp
        pdf := fun x => f.pdf (-x)
        cdf := fun x => 1 - f.cdf (-x)
        ppf := fun u => -f.ppf u
        uToX := fun u => f.ppf (StdNormal.cdf u)
        xToU := fun x => StdNormal.ppf (1 - f.cdf (-x))
        jac := Distribution.baseJac (fun x => f.pdf (-x)) }) := by
  obtain ⟨h1, h2, h3⟩ := gev_locScale_spec μ hσ hs h
  have hm := (mom_gev hs).locScale (-(GEV.locScale μ σ s).1) h1
  unfold GEV.newMin
  rw [if_neg (by norm_num; linarith)]
  simp only [Bool.false_eq_true, if_false]
  rw [initMoments_frozen hm hσ.le (by rw [h3]; ring)]

/-- C20 (finding): the object made by `GEVmin(mean, stdv, shape)` records the requested mean, but the law given by
its own pdf has mean `mean - 2·scale·M`, with `M` the mean of the standard GEV variable; the standard deviation is
the requested one. -/
theorem C20_min_law (μ : ℝ) {σ s : ℝ} (hσ : 0 < σ) (hs : s < 1 / 2) (h : s = 0 ∨ 1e-8 < |s|) (sp : Option ℝ) :
    ∃ m, GEV.newMin μ σ s false sp = .ok m ∧ m.mean = μ ∧ m.stdv = σ ∧
      Spec.Law m.pdf (μ - 2 * (GEV.locScale μ σ s).2 * gevMean s) σ := by
  obtain ⟨h1, h2, h3⟩ := gev_locScale_spec μ hσ hs h
  have hm := ((mom_gev hs).locScale (-(GEV.locScale μ σ s).1) h1).mirror
  refine ⟨_, newMin_eq μ hσ hs h sp, rfl, rfl, ?_⟩
  have e : -(-(GEV.locScale μ σ s).1 + (GEV.locScale μ σ s).2 * gevMean s) =
      μ - 2 * (GEV.locScale μ σ s).2 * gevMean s := by linarith
  rw [e] at hm
  refine hm.law ?_
  rw [h3]
  linear_combination (-1 : ℝ) * ((GEV.locScale μ σ s).1 - (GEV.locScale μ σ s).2 * gevMean s + (μ - 2 * (GEV.locScale μ σ s).2 * gevMean s)) * h2

/-- C20 (finding): in the Gumbel case the mean of the law is never the requested mean. -/
theorem C20_min_mean_wrong (μ : ℝ) {σ : ℝ} (hσ : 0 < σ) (sp : Option ℝ) :
    ∃ m, GEV.newMin μ σ 0 false sp = .ok m ∧ m.mean = μ ∧ ∫ x, x * m.pdf x < μ - σ * √6 / π := by
  obtain ⟨m, hm, h1, _, L⟩ := C20_min_law μ hσ (by norm_num : (0:ℝ) < 1 / 2) (Or.inl rfl) sp
  refine ⟨m, hm, h1, ?_⟩
  rw [L.mean]
  have hc : iscloseZero 0 := by unfold iscloseZero; norm_num
  simp only [GEV.locScale, if_pos hc, gevMean, if_true]
  have := one_half_lt_eulerMascheroniConstant
  have hp : 0 < σ * √6 / π := by positivity
  nlinarith

/-- C20 (finding): `ppf` returns the mirror quantile: `cdf(ppf(u)) = 1 - u` for every `u`. -/
theorem C20_min_ppf (μ : ℝ) {σ s : ℝ} (hσ : 0 < σ) (hs : s < 1 / 2) (h : s = 0 ∨ 1e-8 < |s|) (sp : Option ℝ) :
    ∃ m, GEV.newMin μ σ s false sp = .ok m ∧ ∀ u, 0 < u → u < 1 → m.cdf (m.ppf u) = 1 - u := by
  refine ⟨_, newMin_eq μ hσ hs h sp, fun u h0 h1 => ?_⟩
  have := ((Frozen.regular_genextreme (-s)).locScale (-(GEV.locScale μ σ s).1) (gev_locScale_spec μ hσ hs h).1).inv u h0 h1
  show 1 - Frozen.cdf _ (- -_) = _
  rw [neg_neg, this.2]

/-- C20: the pdf reported by `GEVmin` is the derivative of the cdf it reports, wherever the mirrored point is in the
support. -/
theorem C20_min_density (μ : ℝ) {σ s : ℝ} (hσ : 0 < σ) (hs : s < 1 / 2) (h : s = 0 ∨ 1e-8 < |s|) (sp : Option ℝ) :
    ∃ m, GEV.newMin μ σ s false sp = .ok m ∧
      ∀ x, 0 < 1 + s * ((-x + (GEV.locScale μ σ s).1) / (GEV.locScale μ σ s).2) → HasDerivAt m.cdf (m.pdf x) x := by
  refine ⟨_, newMin_eq μ hσ hs h sp, fun x hx => ?_⟩
  have hr := ((Frozen.regular_genextreme (-s)).locScale (-(GEV.locScale μ σ s).1) (gev_locScale_spec μ hσ hs h).1)
  have hmem : -x ∈ {x | (x - -(GEV.locScale μ σ s).1) / (GEV.locScale μ σ s).2 ∈ Frozen.gevSupport (-s)} := by
    show 0 < 1 - -s * _
    rw [sub_neg_eq_add, neg_mul, sub_neg_eq_add]; exact hx
  have := ((hr.deriv _ hmem).comp x (hasDerivAt_neg x)).const_sub 1
  refine this.congr_deriv ?_
  simp

/-- Gumbel case of the failure of the round trip. -/
theorem gumbel_not_symmetric {a : ℝ} (h : ∀ w : ℝ, 0 < w → exp (-(a * w)) + exp (-(a / w)) = 1) : False := by
  have h1 := h 1 one_pos
  have h2 := h 4 (by norm_num)
  simp only [mul_one, div_one] at h1
  have e1 : exp (-a) = 1 / 2 := by linarith
  have e2 : exp (-(a * 4)) = exp (-a) ^ 4 := by rw [← exp_nat_mul]; congr 1; push_cast; ring
  have e3 : exp (-a) = exp (-(a / 4)) ^ 4 := by rw [← exp_nat_mul]; congr 1; push_cast; ring
  rw [e2, e1] at h2
  have e4 : exp (-(a / 4)) = 15 / 16 := by norm_num at h2 ⊢; linarith
  rw [e4, e1] at e3
  norm_num at e3

/-- C20 (finding): the inherited `u_to_x` is not the inverse of `x_to_u`: for every accepted parameter set some `u`
is mapped to an `x` whose probability `F(x)` is not `Φ(u)`. -/
theorem C20_min_roundtrip_fails (μ : ℝ) {σ s : ℝ} (hσ : 0 < σ) (hs : s < 1 / 2) (h : s = 0 ∨ 1e-8 < |s|)
    (sp : Option ℝ) :
    ∃ m, GEV.newMin μ σ s false sp = .ok m ∧ ∃ u, m.cdf (m.uToX u) ≠ StdNormal.cdf u := by
  refine ⟨_, newMin_eq μ hσ hs h sp, ?_⟩
  set loc := (GEV.locScale μ σ s).1 with hloc
  set sc := (GEV.locScale μ σ s).2 with hsc
  have hsp : 0 < sc := (gev_locScale_spec μ hσ hs h).1
  have hr := ((Frozen.regular_genextreme (-s)).locScale (-loc) hsp)
  by_contra hall
  push Not at hall
  have key : ∀ x ∈ {x | (x - -loc) / sc ∈ Frozen.gevSupport (-s)},
      1 - ((Frozen.genextreme (-s)).locScale (-loc) sc).cdf (-x) = ((Frozen.genextreme (-s)).locScale (-loc) sc).cdf x := by
    intro x hx
    have h01 := hr.mem01 x hx
    have := hall (StdNormal.ppf (((Frozen.genextreme (-s)).locScale (-loc) sc).cdf x))
    simp only [StdNormal.cdf_ppf h01.1 h01.2, hr.ppf_cdf hx] at this
    exact this
  by_cases h0 : s = 0
  · subst h0
    rw [neg_zero, Frozen.genextreme_zero] at key
    refine gumbel_not_symmetric (a := exp (-loc / sc)) fun w hw => ?_
    have := key (-sc * log w) (by simp [Frozen.gevSupport])
    simp only [Frozen.locScale, Frozen.gumbelR] at this
    have a1 : -((- (-sc * log w) - -loc) / sc) = -loc / sc + -log w := by field_simp; ring
    have a2 : -((-sc * log w - -loc) / sc) = -loc / sc + log w := by field_simp; ring
    rw [a1, a2, exp_add, exp_add, exp_neg (log w), exp_log hw] at this
    rw [div_eq_mul_inv (exp _) w]; linarith
  · have hlin : ∀ y, 1 - -s * ((y - -loc) / sc) = 1 + s * (y + loc) / sc := fun y => by ring
    have hF : ∀ y, ¬ 0 < 1 + s * (y + loc) / sc →
        ((Frozen.genextreme (-s)).locScale (-loc) sc).cdf y = if 0 < -s then 1 else 0 := fun y hy => by
      simp only [Frozen.locScale, Frozen.genextreme, if_neg (neg_ne_zero.2 h0), hlin, if_neg hy]
    have hmem : ∀ y, 0 < 1 + s * (y + loc) / sc → y ∈ {x | (x - -loc) / sc ∈ Frozen.gevSupport (-s)} := fun y hy => by
      show 0 < 1 - -s * ((y - -loc) / sc)
      rw [hlin]; exact hy
    -- a point of the support whose mirror image is outside
    obtain ⟨y, hy1, hy2⟩ : ∃ y, 0 < 1 + s * (y + loc) / sc ∧ ¬ 0 < 1 + s * (-y + loc) / sc := by
      refine ⟨(|loc| + sc / |s|) * s / |s|, ?_, ?_⟩
      · have e : 1 + s * ((|loc| + sc / |s|) * s / |s| + loc) / sc = 1 + (s ^ 2 / |s| * |loc| + s * loc) / sc + s ^ 2 / |s| ^ 2 := by
          have := abs_pos.2 h0
          field_simp; ring
        have hss : s ^ 2 / |s| = |s| := by rw [← sq_abs]; have := abs_pos.2 h0; field_simp
        have : 0 ≤ s ^ 2 / |s| * |loc| + s * loc := by
          rw [hss, ← abs_mul]; have := neg_abs_le (s * loc); linarith
        rw [e]; positivity
      · have e : 1 + s * (-((|loc| + sc / |s|) * s / |s|) + loc) / sc = 1 - (s ^ 2 / |s| * |loc| - s * loc) / sc - s ^ 2 / |s| ^ 2 := by
          have := abs_pos.2 h0
          field_simp; ring
        have hss : s ^ 2 / |s| = |s| := by rw [← sq_abs]; have := abs_pos.2 h0; field_simp
        have h1 : s ^ 2 / |s| ^ 2 = 1 := by rw [sq_abs]; field_simp
        have : 0 ≤ (s ^ 2 / |s| * |loc| - s * loc) / sc := by
          apply div_nonneg _ hsp.le
          rw [hss, ← abs_mul]; have := le_abs_self (s * loc); linarith
        rw [e, h1]; linarith
    have k := key y (hmem y hy1)
    have h01 := hr.mem01 y (hmem y hy1)
    rw [hF (-y) hy2] at k
    split at k <;> linarith [h01.1, h01.2]

/-- The hypotheses of the GEV theorems are met, e.g. by shape `-1/4`, mean 3, standard deviation 2. -/
example : (2:ℝ) > 0 ∧ (-1/4 : ℝ) < 1 / 2 ∧ ((-1/4 : ℝ) = 0 ∨ 1e-8 < |(-1/4 : ℝ)|) := by
  refine ⟨by norm_num, by norm_num, Or.inr ?_⟩
  rw [abs_of_neg (by norm_num)]; norm_num

end Pystra.Props
