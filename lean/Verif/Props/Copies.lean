import Verif.Lemmas.DistClasses
import Verif.Lemmas.Euler

/-! C85: the copies made for sensitivity analysis. -/

namespace Pystra.Props
open Real Set Spec Distribution Family

/-- From the moments of a constructed object to its copy. -/
theorem rebuilt_of_good {S : Solvers} {F : Family} {p q μ σ : ℝ} {kw b : Dict String ℝ} {inp : Bool} {D : Set ℝ} (sp : Option ℝ)
    (hb : F.bind kw = .ok b) (hg : Good (F.body S p q b inp none) none D μ σ)
    (he : F.body S μ σ b false none = F.body S p q b inp none) :
    ∃ o c, F.object S p q kw inp sp = .ok o ∧ o.makeCopy [] = .ok c ∧ Rebuilt o c := by
  obtain ⟨m, hm, h1, h2, h3, _⟩ := hg.ex
  obtain ⟨o, c, ho, _, _, _, hc, hr⟩ := rebuilt_of_body (sp := sp) hb hm (by rw [h1, h2, he, hm]) (by rw [h3, h1]; rfl)
  exact ⟨o, c, ho, hc, hr⟩

theorem lognormal_params_inv (l : ℝ) {z : ℝ} (hz : 0 < z) : Lognormal.params (lnMean l z) (lnStd l z) = (l, z) := by
  have hm : 0 < lnMean l z := exp_pos _
  have h0 : 0 ≤ exp (z ^ 2) - 1 := by have := one_le_exp (sq_nonneg z); linarith
  have e : lnStd l z / lnMean l z = √(exp (z ^ 2) - 1) := by unfold lnStd; field_simp
  simp only [Lognormal.params, e, sq_sqrt h0, add_sub_cancel, log_exp, sqrt_sq hz.le]
  refine Prod.ext ?_ rfl
  show log (exp (l + z ^ 2 / 2)) - 0.5 * z ^ 2 = l
  rw [log_exp]; ring

theorem uniform_bounds_inv (a b : ℝ) : Uniform.bounds ((a + b) / 2) ((b - a) / √12) false = (a, b) := by
  have h : √(12:ℝ) = 2 * √3 := by
    rw [show (12:ℝ) = 2 ^ 2 * 3 by norm_num, sqrt_mul (by norm_num), sqrt_sq (by norm_num)]
  have h3 : √(3:ℝ) ≠ 0 := by positivity
  simp only [Uniform.bounds, Bool.false_eq_true, if_false, h]
  refine Prod.ext ?_ ?_ <;> · simp only; field_simp; ring

theorem gamma_frozen_inv {β α : ℝ} (hb : 0 < β) (ha : 0 < α) :
    GammaDist.frozen (α / β) (√α / β) false = GammaDist.frozen β α true := by
  have e1 : α / β / (√α / β) ^ 2 = β := by rw [div_pow, sq_sqrt ha.le]; field_simp
  have e2 : (α / β) ^ 2 / (√α / β) ^ 2 = α := by rw [div_pow, div_pow, sq_sqrt ha.le]; field_simp
  simp only [GammaDist.frozen, Bool.false_eq_true, if_false, if_true, e1, e2]

theorem shiftedExponential_frozen_inv {l : ℝ} (x0 : ℝ) :
    ShiftedExponential.frozen (x0 + 1 / l) (1 / l) false = ShiftedExponential.frozen l x0 true := by
  simp only [ShiftedExponential.frozen, Bool.false_eq_true, if_false, if_true, one_div_one_div, add_sub_cancel_right]

theorem shiftedRayleigh_frozen_inv {a : ℝ} (x0 : ℝ) :
    ShiftedRayleigh.frozen (x0 + a * √(π / 2)) (a * √(2 - π / 2)) false = ShiftedRayleigh.frozen a x0 true := by
  have h4 : 0 < 4 - π := by linarith [pi_lt_d2]
  have hq : 0 < √(2 - π / 2) := sqrt_pos.2 (by linarith)
  have e1 : a * √(2 - π / 2) / √(2 - π * 0.5) = a := by
    rw [show 2 - π * 0.5 = 2 - π / 2 by ring, mul_div_assoc, div_self hq.ne', mul_one]
  have e2 : x0 + a * √(π / 2) - a * √(2 - π / 2) * √(π / (4 - π)) = x0 := by
    have : √(π / (4 - π)) = √(π / 2) / √(2 - π / 2) := by
      rw [← sqrt_div (by positivity)]
      congr 1; rw [show 2 - π / 2 = (4 - π) / 2 by ring, div_div_div_cancel_right₀ (by norm_num)]
    rw [this, mul_assoc, mul_div_cancel₀ _ hq.ne', add_sub_cancel_right]
  simp only [ShiftedRayleigh.frozen, Bool.false_eq_true, if_false, if_true, e1, e2]

theorem chiSquare_frozen_inv {ν : ℝ} (s : ℝ) (h : 0 < ν) :
    ChiSquare.frozen ν (√(2 * ν)) false = ChiSquare.frozen ν s true := by
  have e : 2 * ν ^ 2 / √(2 * ν) ^ 2 = ν := by rw [sq_sqrt (by linarith)]; field_simp
  simp only [ChiSquare.frozen, Bool.false_eq_true, if_false, if_true, e]

theorem weibull_frozen_inv {k0 u1 k eps : ℝ} (hk : 0 < k) :
    Weibull.frozen k (eps + (u1 - eps) * Gamma (1 + 1 / k)) ((u1 - eps) * √(Gamma (1 + 2 / k) - Gamma (1 + 1 / k) ^ 2)) eps false =
      Weibull.frozen k0 u1 k eps true := by
  have hG : 0 < Gamma (1 + 1 / k) := Gamma_pos_of_pos (by positivity)
  have e : (eps + (u1 - eps) * Gamma (1 + 1 / k) - eps) / Gamma (1 + 1 / k) + eps = u1 := by field_simp; ring
  simp only [Weibull.frozen, Bool.false_eq_true, if_false, if_true, e]

theorem typeII_frozen_inv {k0 u k s : ℝ} (hk : 2 < k) :
    TypeIIlargest.frozen k (u * Gamma (1 - 1 / k)) s false = TypeIIlargest.frozen k0 u k true := by
  have h1 : 1 / k < 1 := by rw [div_lt_one (by linarith)]; linarith
  have hG : 0 < Gamma (1 - 1 / k) := Gamma_pos_of_pos (by linarith)
  have e : u * Gamma (1 - 1 / k) / Gamma (1 - 1 / k) = u := mul_div_cancel_right₀ _ hG.ne'
  simp only [TypeIIlargest.frozen, Bool.false_eq_true, if_false, if_true, e]

theorem beta_frozen_inv {q0 q r a b s : ℝ} (hq : 0 < q) (hr : 0 < r) (hab : a < b) :
    BetaDist.frozen q (a + (b - a) * (q / (q + r))) s a b false = BetaDist.frozen q0 q r a b true := by
  have h : 0 < b - a := sub_pos.2 hab
  have e : q * (b - a) * (a + (b - a) * (q / (q + r)) - a)⁻¹ - q = r := by rw [add_sub_cancel_left]; field_simp; ring
  simp only [BetaDist.frozen, Bool.false_eq_true, if_false, if_true, e]

/-- Location and scale of a GEV law from its moments. -/
theorem gev_locScale_inv (loc : ℝ) {scale s : ℝ} (hs : 0 < scale) (h2 : s < 1 / 2) :
    GEV.locScale (GEV.moments loc scale s).1 (GEV.moments loc scale s).2 s = (loc, scale) := by
  by_cases hc : iscloseZero s
  · simp only [GEV.locScale, GEV.moments, if_pos hc]
    have : scale * π / √6 * √6 / π = scale := by field_simp
    refine Prod.ext ?_ this
    simp only [this]; ring
  · have h0 : s ≠ 0 := by rintro rfl; exact hc (by unfold iscloseZero; norm_num)
    have hv := (mom_gev h2).var_pos
    simp only [gevMean, gevSq, if_neg h0] at hv
    have e : (1 - 2 * Gamma (1 - s) + Gamma (1 - 2 * s)) / s ^ 2 - ((Gamma (1 - s) - 1) / s) ^ 2 =
        (Gamma (1 - 2 * s) - Gamma (1 - s) ^ 2) / s ^ 2 := by
      generalize Gamma (1 - s) = g; generalize Gamma (1 - 2 * s) = g2
      field_simp; ring
    rw [e] at hv
    have hs2 : 0 < s ^ 2 := by positivity
    have hg : 0 < Gamma (1 - 2 * s) - Gamma (1 - s) ^ 2 := by
      have := mul_pos hv hs2
      rwa [div_mul_cancel₀ _ hs2.ne'] at this
    have hsq := sqrt_pos.2 hg
    have habs : 0 < |s| := abs_pos.2 h0
    simp only [GEV.locScale, GEV.moments, if_neg hc]
    have e2 : √((Gamma (1 - 2 * s) - Gamma (1 - s) ^ 2) * (scale / s) ^ 2) * |s| / √(Gamma (1 - 2 * s) - Gamma (1 - s) ^ 2) = scale := by
      rw [sqrt_mul hg.le, sqrt_sq_eq_abs, abs_div, abs_of_pos hs]
      field_simp
    refine Prod.ext ?_ e2
    simp only [e2]; field_simp; ring

/-- The moments of a GEV law given by location and scale. -/
theorem good_gevMax_params (loc : ℝ) {scale s : ℝ} (hs : 0 < scale) (h2 : s < 1 / 2) (h : s = 0 ∨ 1e-8 < |s|) (sp : Option ℝ) :
    Good (GEV.newMax loc scale s true sp) sp {x | (x - loc) / scale ∈ Frozen.gevSupport (-s)} (GEV.moments loc scale s).1
      (GEV.moments loc scale s).2 := by
  have hinv := gev_locScale_inv loc hs h2
  have hpos : 0 < (GEV.moments loc scale s).2 := by
    rcases h with rfl | h
    · have : iscloseZero 0 := by unfold iscloseZero; norm_num
      simp only [GEV.moments, if_pos this]; positivity
    · have hn : ¬ iscloseZero s := by unfold iscloseZero; exact not_le.2 h
      by_contra hc
      have h1 : (GEV.moments loc scale s).2 = 0 := by
        refine le_antisymm (not_lt.1 hc) ?_
        simp only [GEV.moments, if_neg hn]; positivity
      rw [h1] at hinv
      have := congrArg Prod.snd hinv
      simp only [GEV.locScale, if_neg hn, zero_mul, zero_div] at this
      exact hs.ne this
  have := good_gevMax (GEV.moments loc scale s).1 hpos h2 h sp
  rw [hinv] at this
  unfold GEV.newMax at this ⊢
  simp only [Bool.false_eq_true, if_false, hinv, if_true] at this ⊢
  exact this

theorem newMin_moments (S : Solvers) (p : ℝ) {q : ℝ} {b : Dict String ℝ} (inp : Bool) (hq : 0 < q) (hs : Family.arg b "shape" < 1 / 2) :
    ∃ m, Family.gevMin.body S p q b inp none = .ok m ∧ Family.gevMin.body S m.mean m.stdv b false none = .ok m ∧ m.startpoint = m.mean := by
  set s := Family.arg b "shape" with hsdef
  have fin : ∀ loc scale : ℝ, 0 < scale → ∃ r, initMoments (some ((Frozen.genextreme (-s)).locScale (-loc) scale)) none none none = .ok r := by
    intro loc scale hsc
    have hm := (mom_gev hs).locScale (-loc) hsc
    have hv := hm.var_pos
    exact ⟨_, initMoments_frozen hm (sqrt_nonneg _) (sq_sqrt hv.le) none⟩
  have hn : ¬ s ≥ 0.5 := by norm_num; linarith
  have pos : ∀ μ σ : ℝ, 0 < σ → 0 < (GEV.locScale μ σ s).2 := by
    intro μ σ hσ
    by_cases hc : iscloseZero s
    · simp only [GEV.locScale, if_pos hc]; positivity
    · exact (gev_locScale_spec μ hσ hs (Or.inr (by unfold iscloseZero at hc; exact not_le.1 hc))).1
  cases inp
  · obtain ⟨r, hr⟩ := fin (GEV.locScale p q s).1 (GEV.locScale p q s).2 (pos p q hq)
    have : ∃ m, Family.gevMin.body S p q b false none = .ok m ∧ m.mean = p ∧ m.stdv = q ∧ m.startpoint = p := by
      simp only [Family.body, GEV.newMin, ← hsdef, if_neg hn, Bool.false_eq_true, if_false, hr]
      exact ⟨_, rfl, rfl, rfl, rfl⟩
    obtain ⟨m, h1, h2, h3, h4⟩ := this
    exact ⟨m, h1, by rw [h2, h3, h1], by rw [h4, h2]⟩
  · obtain ⟨r, hr⟩ := fin p q hq
    have hinv := gev_locScale_inv p hq hs
    have : ∃ m, Family.gevMin.body S p q b true none = .ok m ∧ m.startpoint = m.mean ∧
        Family.gevMin.body S m.mean m.stdv b false none = .ok m := by
      simp only [Family.body, GEV.newMin, ← hsdef, if_neg hn, Bool.false_eq_true, if_false, if_true, hr]
      refine ⟨_, rfl, rfl, ?_⟩
      simp only [hinv, hr]
    obtain ⟨m, h1, h2, h3⟩ := this
    exact ⟨m, h1, h3, h2⟩

/-- C85: for every class, every way of calling its constructor and every start point, the object made can be copied, and the copy is the
object rebuilt: the same class, mean, standard deviation, extra arguments, pdf, cdf, ppf and transformations.  Only the start point is
not taken over. -/
theorem C85_copy (S : Solvers) (F : Family) (inp : Bool) (p q : ℝ) (kw b : Dict String ℝ) (sp : Option ℝ) (hb : F.bind kw = .ok b)
    (hr : Reproducible S F inp p q b) :
    ∃ o c, F.object S p q kw inp sp = .ok o ∧ o.makeCopy [] = .ok c ∧ Rebuilt o c := by
  cases F <;> cases inp <;> simp only [Reproducible] at hr
  case normal.false | normal.true =>
    obtain ⟨o, c, ho, _, _, _, hc, h⟩ := rebuilt_of_body (S := S) (F := .normal) (p := p) (q := q) (inp := false) (sp := sp) hb rfl rfl rfl
    exact ⟨o, c, ho, hc, h⟩
  case lognormal.false => exact rebuilt_of_good sp hb (good_lognormal hr.1 hr.2 none) rfl
  case lognormal.true =>
    refine rebuilt_of_good sp hb (good_lognormal_params p hr none) ?_
    simp only [Family.body, Lognormal.new, Bool.false_eq_true, if_false, if_true, lognormal_params_inv p hr]
  case shiftedLognormal.false => exact rebuilt_of_good sp hb (good_shiftedLognormal hr.1 hr.2 none) rfl
  case uniform.false => exact rebuilt_of_good sp hb (good_uniform p hr none) rfl
  case uniform.true =>
    refine rebuilt_of_good sp hb (good_uniform_params hr none) ?_
    have e : Uniform.bounds p q true = (p, q) := rfl
    simp only [Family.body, Uniform.new, uniform_bounds_inv p q, e]
  case gamma.false => exact rebuilt_of_good sp hb (good_gamma hr.1 hr.2 none) rfl
  case gamma.true =>
    refine rebuilt_of_good sp hb (good_gamma_params hr.1 hr.2 none) ?_
    simp only [Family.body, GammaDist.new, gamma_frozen_inv hr.1 hr.2]
  case shiftedExponential.false => exact rebuilt_of_good sp hb (good_shiftedExponential p hr none) rfl
  case shiftedExponential.true =>
    refine rebuilt_of_good sp hb (good_shiftedExponential_params hr q none) ?_
    simp only [Family.body, ShiftedExponential.new, shiftedExponential_frozen_inv]
  case shiftedRayleigh.false => exact rebuilt_of_good sp hb (good_shiftedRayleigh p hr none) rfl
  case shiftedRayleigh.true =>
    refine rebuilt_of_good sp hb (good_shiftedRayleigh_params hr q none) ?_
    simp only [Family.body, ShiftedRayleigh.new, shiftedRayleigh_frozen_inv]
  case chiSquare.false =>
    obtain ⟨hp, hq⟩ := hr
    refine rebuilt_of_good sp hb (good_chiSquare hp hq none) ?_
    have hν : 0 < 2 * p ^ 2 / q ^ 2 := by positivity
    have e : 2 * p / q = √(2 * (2 * p ^ 2 / q ^ 2)) := by
      rw [show 2 * (2 * p ^ 2 / q ^ 2) = (2 * p / q) ^ 2 by ring, sqrt_sq (by positivity)]
    simp only [Family.body, ChiSquare.new]
    rw [e, chiSquare_frozen_inv q hν]
    rfl
  case chiSquare.true =>
    refine rebuilt_of_good sp hb (good_chiSquare_params hr q none) ?_
    simp only [Family.body, ChiSquare.new, chiSquare_frozen_inv q hr]
  case weibull.false | typeIIIsmallest.false =>
    obtain ⟨h1, h2, h3⟩ := hr
    have hg := good_weibull (σ := q) h2 h1 none
    rw [h3, mul_zero, add_zero] at hg
    exact rebuilt_of_good sp hb hg rfl
  case weibull.true | typeIIIsmallest.true =>
    obtain ⟨h1, h2, h3⟩ := hr
    refine rebuilt_of_good sp hb (good_weibull_params h2 h1 (S.weibull (p - Family.arg b "epsilon") q) none) ?_
    simp only [Family.body, Weibull.new]
    rw [show Family.arg b "epsilon" + (p - Family.arg b "epsilon") * Gamma (1 + 1 / q) - Family.arg b "epsilon" =
      (p - Family.arg b "epsilon") * Gamma (1 + 1 / q) by ring, h3, weibull_frozen_inv h2]
  case typeIIlargest.false =>
    obtain ⟨h1, h2, h3⟩ := hr
    have hg := good_typeIIlargest (σ := q) h2 h1 none
    rw [h3, mul_zero, add_zero] at hg
    exact rebuilt_of_good sp hb hg rfl
  case typeIIlargest.true =>
    obtain ⟨h1, h2, h3⟩ := hr
    refine rebuilt_of_good sp hb (good_typeIIlargest_params h2 h1 (S.typeII p q) none) ?_
    simp only [Family.body, TypeIIlargest.new]
    rw [h3, typeII_frozen_inv h2]
  case beta.false =>
    obtain ⟨h1, h2, h3, h4⟩ := hr
    obtain ⟨s, hg, hs⟩ := good_beta (σ := q) h3 h1 h2 none
    rw [h4, abs_eq_zero, sub_eq_zero] at hs
    subst hs
    exact rebuilt_of_good sp hb hg rfl
  case beta.true =>
    obtain ⟨h1, h2, h3, h4⟩ := hr
    refine rebuilt_of_good sp hb (good_beta_params h1 h2 h3 (S.beta (Family.arg b "a") (Family.arg b "b") p q) none) ?_
    simp only [Family.body, BetaDist.new]
    rw [h4, beta_frozen_inv h1 h2 h3]
  case gevMax.false => exact rebuilt_of_good sp hb (good_gevMax p hr.1 hr.2.1 hr.2.2 none) rfl
  case gevMax.true =>
    refine rebuilt_of_good sp hb (good_gevMax_params p hr.1 hr.2.1 hr.2.2 none) ?_
    simp only [Family.body, GEV.newMax, Bool.false_eq_true, if_false, if_true, gev_locScale_inv p hr.1 hr.2.1]
  case gevMin.false | gevMin.true =>
    obtain ⟨m, h1, h2, h3⟩ := newMin_moments S p _ hr.1 hr.2
    obtain ⟨o, c, ho, _, _, _, hc, h⟩ := rebuilt_of_body (sp := sp) hb h1 h2 h3
    exact ⟨o, c, ho, hc, h⟩

/-- The truncation of the Euler constant in gumbel.py 23 and typeismallestvalue.py 24, in the units of a variable with standard deviation
`σ`. -/
noncomputable def eulerGap (σ : ℝ) : ℝ := (eulerMascheroniConstant - 0.5772156649) * (σ * √6 / π)

/-- It is below a millionth of the standard deviation. -/
theorem abs_eulerGap {σ : ℝ} (hσ : 0 < σ) : |eulerGap σ| < 1e-6 * σ := by
  unfold eulerGap
  have h := Euler.euler_close
  have h6 : √(6:ℝ) < π := by
    rw [sqrt_lt' pi_pos]; nlinarith [pi_gt_three]
  have h1 : σ * √6 / π < σ := by
    rw [div_lt_iff₀ pi_pos]; nlinarith
  have h0 : 0 < σ * √6 / π := by positivity
  rw [abs_mul, abs_of_pos h0]
  exact mul_lt_mul'' h h1 (abs_nonneg _) h0.le

/-- C85: the Type I classes (`Gumbel`, `TypeIlargestValue`, `TypeIsmallestValue`), whose source has the Euler constant truncated to ten
digits: the copy is the object moved by less than a millionth of the standard deviation — mean, quantiles and transformation move by
`δ`, pdf and cdf are shifted, the standard deviation is the same. -/
theorem C85_gumbel (S : Solvers) (F : Family) (hF : F = .gumbel ∨ F = .typeIlargest ∨ F = .typeIsmallest) (inp : Bool) (p : ℝ) {q : ℝ}
    (hq : 0 < q) (sp : Option ℝ) :
    ∃ o c δ, F.object S p q [] inp sp = .ok o ∧ o.makeCopy [] = .ok c ∧ |δ| < 1e-6 * o.marg.stdv ∧ Moved o c δ := by
  have shift : ∀ (f : Frozen) (l δ s : ℝ), (∀ x, (f.locScale (l + δ) s).pdf x = (f.locScale l s).pdf (x - δ)) ∧
      (∀ x, (f.locScale (l + δ) s).cdf x = (f.locScale l s).cdf (x - δ)) ∧ ∀ t, (f.locScale (l + δ) s).ppf t = (f.locScale l s).ppf t + δ := by
    intro f l δ s
    refine ⟨fun x => ?_, fun x => ?_, fun t => ?_⟩ <;> simp only [Frozen.locScale]
    · rw [show x - (l + δ) = x - δ - l by ring]
    · rw [show x - (l + δ) = x - δ - l by ring]
    · ring
  -- the general statement for a class that wraps a location–scale family
  have core : ∀ (G : Family) (f : Frozen) (l s σ δ : ℝ), G.bind [] = .ok [] → 0 < σ → |δ| < 1e-6 * σ →
      (∃ m, G.body S p q [] inp none = .ok m ∧ G.body S p q [] inp none = ofFrozen (f.locScale l s) none ∧ m.stdv = σ ∧
        ∃ m', G.body S m.mean σ [] false none = .ok m' ∧ G.body S m.mean σ [] false none = ofFrozen (f.locScale (l + δ) s) none ∧
          m'.mean = m.mean + δ ∧ m'.stdv = σ ∧ m'.startpoint = m'.mean) →
      ∃ o c δ, G.object S p q [] inp sp = .ok o ∧ o.makeCopy [] = .ok c ∧ |δ| < 1e-6 * o.marg.stdv ∧ Moved o c δ := by
    rintro G f l s σ δ hb hσ hδ ⟨m, hm, hf, hs, m', hm', hf', h1, h2, h3⟩
    obtain ⟨ho, hc⟩ := copy_of_body (sp := sp) hb hm (m' := m') (by rw [hs, hm'])
    obtain ⟨a1, a2, a3, a4⟩ := ofFrozen_ok (hf.symm.trans hm)
    obtain ⟨b1, b2, b3, b4⟩ := ofFrozen_ok (hf'.symm.trans hm')
    obtain ⟨s1, s2, s3⟩ := shift f l δ s
    refine ⟨_, _, δ, ho, hc, by rw [← hs] at hδ; exact hδ, rfl, rfl, ?_, h1, h3, ?_, ?_, ?_, ?_⟩
    · exact h2.trans hs.symm
    · intro x; show m'.pdf x = m.pdf _; rw [a1, b1, s1]
    · intro x; show m'.cdf x = m.cdf _; rw [a2, b2, s2]
    · intro x; show m'.ppf x = m.ppf _ + δ; rw [a3, b3, s3]
    · intro x; show m'.uToX x = m.uToX _ + δ; rw [a4, b4]; exact s3 _
  have max : ∀ G : Family, (∀ a b i s, G.body S a b [] i s = Gumbel.new a b i s) → G.bind [] = .ok [] →
      ∃ o c δ, G.object S p q [] inp sp = .ok o ∧ o.makeCopy [] = .ok c ∧ |δ| < 1e-6 * o.marg.stdv ∧ Moved o c δ := by
    intro G hG hb
    obtain ⟨l, s, σ, hs, hσ, hfr, hg⟩ : ∃ l s σ, σ * √6 / π = s ∧ 0 < σ ∧ Gumbel.frozen p q inp = Frozen.gumbelR.locScale l s ∧
        Good (Gumbel.new p q inp none) none univ (l + s * eulerMascheroniConstant) σ := by
      cases inp
      · refine ⟨_, _, q, rfl, hq, rfl, ?_⟩
        have := good_gumbel p hq none
        rwa [show p + (eulerMascheroniConstant - 0.5772156649) * (q * √6 / π) =
          p - 0.5772156649 * q * √6 / π + q * √6 / π * eulerMascheroniConstant by ring] at this
      · exact ⟨p, q, q * π / √6, by field_simp, by positivity, rfl, good_gumbel_params p hq none⟩
    obtain ⟨m, hm, h1, h2, _⟩ := hg.ex
    obtain ⟨m', hm', h1', h2', h3', _⟩ := (good_gumbel m.mean hσ none).ex
    refine core G Frozen.gumbelR l s σ (eulerGap σ) hb hσ (abs_eulerGap hσ) ⟨m, by rw [hG]; exact hm, ?_, h2, m', by rw [hG]; exact hm', ?_, ?_, h2', ?_⟩
    · rw [hG, Gumbel.new, hfr]
    · rw [hG, Gumbel.new, h1]
      congr 1
      simp only [Gumbel.frozen, Bool.false_eq_true, if_false]
      rw [hs, show l + s * eulerMascheroniConstant - 0.5772156649 * σ * √6 / π = l + eulerGap σ by
        unfold eulerGap; rw [← hs]; ring]
    · rw [h1']; rfl
    · rw [h3', h1']; rfl
  rcases hF with rfl | rfl | rfl
  · exact max .gumbel (fun _ _ _ _ => rfl) rfl
  · exact max .typeIlargest (fun _ _ _ _ => rfl) rfl
  · obtain ⟨l, s, σ, hs, hσ, hfr, hg⟩ : ∃ l s σ, σ * √6 / π = s ∧ 0 < σ ∧ TypeIsmallest.frozen p q inp = Frozen.gumbelL.locScale l s ∧
        Good (TypeIsmallest.new p q inp none) none univ (l - s * eulerMascheroniConstant) σ := by
      cases inp
      · refine ⟨p + (0.5772156649 * q * √6) / π, q * √6 / π, q, rfl, hq, ?_, ?_⟩
        · simp only [TypeIsmallest.frozen, Bool.false_eq_true, if_false, one_div_div]
        · have := good_typeIsmallest p hq none
          rwa [show p - (eulerMascheroniConstant - 0.5772156649) * (q * √6 / π) =
            p + (0.5772156649 * q * √6) / π - q * √6 / π * eulerMascheroniConstant by ring] at this
      · refine ⟨p, 1 / q, π / (q * √6), by field_simp, by positivity, rfl, ?_⟩
        have := good_typeIsmallest_params p hq none
        rwa [show p - eulerMascheroniConstant / q = p - 1 / q * eulerMascheroniConstant by ring] at this
    obtain ⟨m, hm, h1, h2, _⟩ := hg.ex
    obtain ⟨m', hm', h1', h2', h3', _⟩ := (good_typeIsmallest m.mean hσ none).ex
    refine core .typeIsmallest Frozen.gumbelL l s σ (-eulerGap σ) rfl hσ (by rw [abs_neg]; exact abs_eulerGap hσ) ⟨m, hm, ?_, h2, m', hm', ?_, ?_, h2', ?_⟩
    · simp only [Family.body, TypeIsmallest.new, hfr]
    · simp only [Family.body, TypeIsmallest.new]
      rw [h1]
      congr 1
      simp only [TypeIsmallest.frozen, Bool.false_eq_true, if_false, one_div_div]
      rw [hs, show l - s * eulerMascheroniConstant + 0.5772156649 * σ * √6 / π = l + -eulerGap σ by
        unfold eulerGap; rw [← hs]; ring]
    · rw [h1']; unfold eulerGap; ring
    · rw [h3', h1']; rfl

/-- C85: an object of a composite class (`Maximum`, `MaxParent`, `ZeroInflated`, `ScipyDist`), whatever it is, cannot be copied: the
constructor raises. -/
theorem C85_composite (S : Solvers) (m : Marginal) (l : ℝ) (overrides : Dict String ℝ) :
    Dist.makeCopy ⟨Family.composite.cls S l, m, []⟩ overrides ∈
      [(.error .exception : Except PyErr Dist), .error .typeError] := by
  unfold Dist.makeCopy
  simp only [Family.cls, Family.construct]
  rcases h : Family.composite.bind (List.filter (fun p => decide (p.1 ≠ "mean" ∧ p.1 ≠ "std"))
    (Dist.update (Dist.update [("mean", m.mean), ("std", m.stdv)] []) overrides)) with e | b
  · have : e = .typeError := by
      unfold Family.bind at h
      split at h
      · cases h; rfl
      · cases h
    simp [this]
  · simp [Family.body]

end Pystra.Props
