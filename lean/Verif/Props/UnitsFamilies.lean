import Verif.Spec.Units
import Verif.Props.Gev
import Verif.Lemmas.Families
import Verif.Lemmas.DistClasses

/-! C90: the distribution classes in other units. -/

namespace Pystra.Props
open Real Set Spec Distribution MeasureTheory

theorem locScale_locScale (f : Frozen) (l s a b : ℝ) (hb : b ≠ 0) : (f.locScale l s).locScale a b = f.locScale (a + b * l) (b * s) := by
  have hx : ∀ x, ((x - a) / b - l) / s = (x - (a + b * l)) / (b * s) := by
    intro x
    rw [← div_div]; congr 1
    field_simp
    ring
  unfold Frozen.locScale
  simp only [hx, Frozen.mk.injEq]
  refine ⟨?_, trivial, ?_⟩
  · funext x; rw [div_div, mul_comm s b]
  · funext x; ring

theorem locScale_pdf_at (f : Frozen) (off : ℝ) {fac : ℝ} (hb : 0 < fac) (x : ℝ) : (f.locScale off fac).pdf (off + fac * x) = f.pdf x / fac := by
  have hx : (off + fac * x - off) / fac = x := by field_simp; ring
  simp only [Frozen.locScale, hx]

theorem locScale_cdf_at (f : Frozen) (off : ℝ) {fac : ℝ} (hb : 0 < fac) (x : ℝ) : (f.locScale off fac).cdf (off + fac * x) = f.cdf x := by
  have hx : (off + fac * x - off) / fac = x := by field_simp; ring
  simp only [Frozen.locScale, hx]

theorem locScale_pdf_neg (f : Frozen) {fac : ℝ} (hb : 0 < fac) (x : ℝ) : (f.locScale 0 fac).pdf (-(0 + fac * x)) = f.pdf (-x) / fac := by
  rw [show -(0 + fac * x) = 0 + fac * (-x) by ring, locScale_pdf_at f 0 hb]

theorem locScale_cdf_neg (f : Frozen) {fac : ℝ} (hb : 0 < fac) (x : ℝ) : (f.locScale 0 fac).cdf (-(0 + fac * x)) = f.cdf (-x) := by
  rw [show -(0 + fac * x) = 0 + fac * (-x) by ring, locScale_cdf_at f 0 hb]

/-- The pair of objects. -/
def RescaledPair (off fac : ℝ) (D : Set ℝ) (r r' : Except PyErr Marginal) : Prop :=
  ∃ m m', r = .ok m ∧ r' = .ok m' ∧ Rescaled off fac D m m'

theorem startPoint_units (off fac m : ℝ) (sp : Option ℝ) :
    startPoint (off + fac * m) (sp.map (fun v => off + fac * v)) = off + fac * startPoint m sp := by cases sp <;> rfl

theorem moments_units {f : Frozen} {m q off fac : ℝ} (hm : Mom f.pdf m q) (hb : 0 < fac) (sp : Option ℝ) :
    initMoments (some f) none none sp = .ok (m, √(q - m ^ 2), startPoint m sp) ∧
    initMoments (some (f.locScale off fac)) none none (sp.map (fun v => off + fac * v)) =
      .ok (off + fac * m, fac * √(q - m ^ 2), off + fac * startPoint m sp) := by
  have hv := hm.var_pos
  refine ⟨initMoments_frozen hm (sqrt_nonneg _) (sq_sqrt hv.le) sp, ?_⟩
  rw [initMoments_frozen (hm.locScale off hb) (σ := fac * √(q - m ^ 2)) (by positivity)
    (by rw [mul_pow, sq_sqrt hv.le]; ring) _, startPoint_units]

theorem rescaled_ofFrozen {f f' : Frozen} {m q off fac : ℝ} (hm : Mom f.pdf m q) (hb : 0 < fac) (hf : f' = f.locScale off fac)
    (sp : Option ℝ) : RescaledPair off fac univ (ofFrozen f sp) (ofFrozen f' (sp.map fun v => off + fac * v)) := by
  subst hf
  obtain ⟨h1, h2⟩ := moments_units (off := off) hm hb sp
  unfold RescaledPair ofFrozen
  rw [h1, h2]
  have hx : ∀ x, (off + fac * x - off) / fac = x := by intro x; field_simp; ring
  refine ⟨_, _, rfl, rfl, ⟨rfl, rfl, rfl, fun x _ => ?_, fun x _ => ?_, fun u => ?_, fun x _ => ?_, fun u x _ => ?_,
    fun _ => mem_univ _, mem_univ _⟩⟩
  · simp only [Frozen.locScale, hx]
  · simp only [Frozen.locScale, hx]
  · simp only [Frozen.locScale]
  · simp only [Frozen.locScale, hx]
  · simp only [baseJac, Frozen.locScale, hx]; ring

theorem units_normal {off fac : ℝ} (hb : 0 < fac) (p : ℝ) {q : ℝ} (hq : 0 < q) (sp : Option ℝ) :
    RescaledPair off fac univ (Normal.new p (.fin q) sp) (Normal.new (off + fac * p) (.fin (fac * q)) (sp.map fun v => off + fac * v)) := by
  unfold Normal.new initMoments updateMoments
  simp only [startPoint_units]
  have hx : ∀ x, (off + fac * x - (off + fac * p)) / (fac * q) = (x - p) / q := by intro x; field_simp; ring
  refine ⟨_, _, rfl, rfl, ⟨rfl, rfl, rfl, fun x _ => ?_, fun x _ => ?_, fun u => ?_, fun x _ => ?_, fun u x _ => ?_,
    fun _ => mem_univ _, mem_univ _⟩⟩
  · simp only [Normal.pdf, hx]; field_simp
  · simp only [Normal.cdf, hx]
  · simp only [Normal.uToX]; ring
  · simp only [Normal.xToU, hx]
  · simp only [Normal.jac]; field_simp

theorem params_units {fac p q : ℝ} (hb : 0 < fac) (hp : 0 < p) :
    Lognormal.params (fac * p) (fac * q) = (log fac + (Lognormal.params p q).1, (Lognormal.params p q).2) := by
  simp only [Lognormal.params]
  rw [mul_div_mul_left _ _ hb.ne', log_mul hb.ne' hp.ne']
  simp only [Prod.mk.injEq, and_true]
  ring

theorem units_shifted_aux {off fac lamb zeta lower : ℝ} (hb : 0 < fac) (hz : 0 < zeta) {x : ℝ} (hx : lower < x) :
    Lognormal.pdf (log fac + lamb) zeta (off + fac * x - (off + fac * lower)) = Lognormal.pdf lamb zeta (x - lower) / fac ∧
    Lognormal.cdf (log fac + lamb) zeta (off + fac * x - (off + fac * lower)) = Lognormal.cdf lamb zeta (x - lower) ∧
    Lognormal.xToU (log fac + lamb) zeta (off + fac * x - (off + fac * lower)) = Lognormal.xToU lamb zeta (x - lower) := by
  have hl : 0 < x - lower := sub_pos.2 hx
  have e : off + fac * x - (off + fac * lower) = fac * (x - lower) := by ring
  have el : log (fac * (x - lower)) - (log fac + lamb) = log (x - lower) - lamb := by
    rw [log_mul hb.ne' hl.ne']; ring
  rw [e]
  refine ⟨?_, ?_, ?_⟩
  · simp only [Lognormal.pdf, el]
    field_simp
  · simp only [Lognormal.cdf, el]
    rw [if_pos (mul_pos hb hl), if_pos hl]
  · simp only [Lognormal.xToU, el]

theorem units_shiftedLognormal {off fac : ℝ} (hb : 0 < fac) {p q lower : ℝ} (hp : lower < p) (hq : 0 < q) (sp : Option ℝ)
    (hs : lower < startPoint p sp) :
    RescaledPair off fac (Ioi lower) (ShiftedLognormal.new p q lower false sp)
      (ShiftedLognormal.new (off + fac * p) (fac * q) (off + fac * lower) false (sp.map fun v => off + fac * v)) := by
  obtain ⟨hz, h2, _⟩ := lognormal_params_spec (sub_pos.2 hp) hq
  unfold ShiftedLognormal.new
  simp only [Bool.false_eq_true, if_false]
  rw [show off + fac * p - (off + fac * lower) = fac * (p - lower) by ring, params_units hb (sub_pos.2 hp)]
  obtain ⟨lamb, hlamb⟩ : ∃ l, (Lognormal.params (p - lower) q).1 = l := ⟨_, rfl⟩
  obtain ⟨zeta, hzeta⟩ : ∃ l, (Lognormal.params (p - lower) q).2 = l := ⟨_, rfl⟩
  rw [hlamb, hzeta] at h2
  rw [hzeta] at hz
  simp only [hlamb, hzeta]
  have hm := (Frozen.mom_lognorm hz).locScale lower (exp_pos lamb)
  obtain ⟨h3, h4⟩ := moments_units (off := off) hm hb sp
  rw [locScale_locScale _ _ _ _ _ hb.ne', show fac * exp lamb = exp (log fac + lamb) by rw [exp_add, exp_log hb]] at h4
  have em : lower + exp lamb * exp (zeta ^ 2 / 2) = p := by
    rw [← exp_add]
    unfold lnMean at h2
    rw [h2]; ring
  rw [h3, h4, em]
  refine ⟨_, _, rfl, rfl, ⟨rfl, rfl, rfl, fun x hx => (units_shifted_aux hb hz hx).1, fun x hx => (units_shifted_aux hb hz hx).2.1,
    fun u => ?_, fun x hx => (units_shifted_aux hb hz hx).2.2, fun u x hx => ?_, fun u => ?_, hs⟩⟩
  · simp only [Lognormal.uToX]
    rw [show u * zeta + (log fac + lamb) = log fac + (u * zeta + lamb) by ring, exp_add (log fac), exp_log hb]
    ring
  · simp only [baseJac]
    rw [(units_shifted_aux hb hz hx).1]; ring
  · simp only [Lognormal.uToX, mem_Ioi]
    linarith [exp_pos (u * zeta + lamb)]

theorem units_lognormal {fac : ℝ} (hb : 0 < fac) {p q : ℝ} (hp : 0 < p) (hq : 0 < q) (sp : Option ℝ)
    (hs : 0 < startPoint p sp) :
    RescaledPair 0 fac (Ioi 0) (Lognormal.new p q false sp)
      (Lognormal.new (0 + fac * p) (fac * q) false (sp.map fun v => 0 + fac * v)) := by
  have h := units_shiftedLognormal (off := 0) hb hp hq sp hs
  obtain ⟨m, m', h1, h2, hr⟩ := h
  obtain ⟨hz, h3, h4⟩ := lognormal_params_spec hp hq
  have e : ∀ p q : ℝ, ∀ sp, ∀ m : Marginal, ShiftedLognormal.new p q 0 false sp = .ok m → ∃ m0, Lognormal.new p q false sp = .ok m0 ∧
      m0.mean = m.mean ∧ m0.stdv = m.stdv ∧ m0.startpoint = m.startpoint ∧ m0.pdf = m.pdf ∧ m0.cdf = m.cdf ∧ m0.uToX = m.uToX ∧
      m0.xToU = m.xToU ∧ m0.jac = m.jac := by
    intro p q sp m h
    unfold ShiftedLognormal.new at h
    simp only [Bool.false_eq_true, if_false, sub_zero] at h
    unfold Lognormal.new Lognormal.ofParams
    simp only [Bool.false_eq_true, if_false]
    cases hi : initMoments (some ((Frozen.lognorm (Lognormal.params p q).2).locScale 0 (exp (Lognormal.params p q).1))) none none sp with
    | error e => rw [hi] at h; simp at h
    | ok r =>
      rw [hi] at h
      obtain ⟨a, b, c⟩ := r
      simp only [Except.ok.injEq] at h
      subst h
      exact ⟨_, rfl, rfl, rfl, rfl, rfl, rfl, by simp, rfl, rfl⟩
  obtain ⟨m0, g0, g1, g2, g3, g4, g5, g6, g7, g8⟩ := e _ _ _ _ h1
  rw [show (0:ℝ) + fac * 0 = 0 by ring] at h2
  obtain ⟨m0', k0, k1, k2, k3, k4, k5, k6, k7, k8⟩ := e _ _ _ _ h2
  refine ⟨m0, m0', g0, k0, ?_⟩
  exact ⟨by rw [k1, g1]; exact hr.mean, by rw [k2, g2]; exact hr.stdv, by rw [k3, g3]; exact hr.startpoint,
    by rw [k4, g4]; exact hr.pdf, by rw [k5, g5]; exact hr.cdf, by rw [k6, g6]; exact hr.uToX, by rw [k7, g7]; exact hr.xToU,
    by rw [k8, g8]; exact hr.jac, by rw [g6]; exact hr.support, by rw [g3]; exact hr.start⟩

theorem units_uniform {off fac : ℝ} (hb : 0 < fac) (p : ℝ) {q : ℝ} (hq : 0 < q) (sp : Option ℝ) :
    RescaledPair off fac univ (Uniform.new p q false sp)
      (Uniform.new (off + fac * p) (fac * q) false (sp.map fun v => off + fac * v)) := by
  unfold Uniform.new Uniform.bounds
  simp only [Bool.false_eq_true, if_false]
  have h3 : 0 < √(3:ℝ) := by positivity
  have hs : 0 < p + √3 * q - (p - √3 * q) := by nlinarith
  have hm := Frozen.mom_uniform01.locScale (p - √3 * q) hs
  obtain ⟨h1, h2⟩ := moments_units (off := off) hm hb sp
  have e1 : off + fac * p - √3 * (fac * q) = off + fac * (p - √3 * q) := by ring
  have e2 : off + fac * p + √3 * (fac * q) - (off + fac * p - √3 * (fac * q)) = fac * (p + √3 * q - (p - √3 * q)) := by ring
  have hl := locScale_locScale Frozen.uniform01 (p - √3 * q) (p + √3 * q - (p - √3 * q)) off fac hb.ne'
  rw [e2, e1, ← hl, h1, h2]
  refine ⟨_, _, rfl, rfl, ⟨rfl, rfl, rfl, fun x _ => ?_, fun x _ => ?_, fun u => ?_, fun x _ => ?_, fun u x _ => ?_,
    fun _ => mem_univ _, mem_univ _⟩⟩
  · show ((Frozen.uniform01.locScale _ _).locScale off fac).pdf _ = _
    exact locScale_pdf_at _ _ hb _
  · show ((Frozen.uniform01.locScale _ _).locScale off fac).cdf _ = _
    exact locScale_cdf_at _ _ hb _
  · show off + fac * (p - √3 * q) + fac * (p + √3 * q - (p - √3 * q)) * StdNormal.cdf u = off + fac * (p - √3 * q + (p + √3 * q - (p - √3 * q)) * StdNormal.cdf u)
    ring
  · show StdNormal.ppf (((Frozen.uniform01.locScale _ _).locScale off fac).cdf _) = _
    rw [locScale_cdf_at _ _ hb]
  · show baseJac ((Frozen.uniform01.locScale _ _).locScale off fac).pdf u _ = _
    simp only [baseJac]
    rw [locScale_pdf_at _ _ hb]
    ring

theorem units_shiftedExponential {off fac : ℝ} (hb : 0 < fac) (p : ℝ) {q : ℝ} (hq : 0 < q) (sp : Option ℝ) :
    RescaledPair off fac univ (ShiftedExponential.new p q false sp)
      (ShiftedExponential.new (off + fac * p) (fac * q) false (sp.map fun v => off + fac * v)) := by
  have hs : 0 < 1 / (1 / q) := by positivity
  refine rescaled_ofFrozen (Frozen.mom_expon.locScale (p - q) hs) hb ?_ sp
  rw [locScale_locScale _ _ _ _ _ hb.ne']
  simp only [ShiftedExponential.frozen, Bool.false_eq_true, if_false]
  congr 1
  · ring
  · field_simp

theorem units_shiftedRayleigh {off fac : ℝ} (hb : 0 < fac) (p : ℝ) {q : ℝ} (hq : 0 < q) (sp : Option ℝ) :
    RescaledPair off fac univ (ShiftedRayleigh.new p q false sp)
      (ShiftedRayleigh.new (off + fac * p) (fac * q) false (sp.map fun v => off + fac * v)) := by
  have hp : 0 < 2 - π * 0.5 := by linarith [pi_lt_d2]
  have hs : 0 < q / √(2 - π * 0.5) := by positivity
  refine rescaled_ofFrozen (Frozen.rayleigh_mom.locScale (p - q * √(π / (4 - π))) hs) hb ?_ sp
  rw [locScale_locScale _ _ _ _ _ hb.ne']
  simp only [ShiftedRayleigh.frozen, Bool.false_eq_true, if_false]
  congr 1 <;> ring

theorem units_gumbel {off fac : ℝ} (hb : 0 < fac) (p : ℝ) {q : ℝ} (hq : 0 < q) (sp : Option ℝ) :
    RescaledPair off fac univ (Gumbel.new p q false sp)
      (Gumbel.new (off + fac * p) (fac * q) false (sp.map fun v => off + fac * v)) := by
  have hs : 0 < q * √6 / π := by positivity
  refine rescaled_ofFrozen (Frozen.mom_gumbelR.locScale (p - 0.5772156649 * q * √6 / π) hs) hb ?_ sp
  rw [locScale_locScale _ _ _ _ _ hb.ne']
  simp only [Gumbel.frozen, Bool.false_eq_true, if_false]
  congr 1 <;> ring

theorem units_typeIsmallest {off fac : ℝ} (hb : 0 < fac) (p : ℝ) {q : ℝ} (hq : 0 < q) (sp : Option ℝ) :
    RescaledPair off fac univ (TypeIsmallest.new p q false sp)
      (TypeIsmallest.new (off + fac * p) (fac * q) false (sp.map fun v => off + fac * v)) := by
  have hs : 0 < 1 / (π / (q * √6)) := by positivity
  refine rescaled_ofFrozen (Frozen.mom_gumbelL.locScale (p + (0.5772156649 * q * √6) / π) hs) hb ?_ sp
  rw [locScale_locScale _ _ _ _ _ hb.ne']
  simp only [TypeIsmallest.frozen, Bool.false_eq_true, if_false]
  congr 1
  · ring
  · have := pi_pos; field_simp

theorem units_gamma {fac : ℝ} (hb : 0 < fac) {p q : ℝ} (hp : 0 < p) (hq : 0 < q) (sp : Option ℝ) :
    RescaledPair 0 fac univ (GammaDist.new p q false sp)
      (GammaDist.new (0 + fac * p) (fac * q) false (sp.map fun v => 0 + fac * v)) := by
  have hs : 0 < 1 / (p / q ^ 2) := by positivity
  have ha : 0 < p ^ 2 / q ^ 2 := by positivity
  refine rescaled_ofFrozen ((Frozen.mom_gamma ha).locScale 0 hs) hb ?_ sp
  rw [locScale_locScale _ _ _ _ _ hb.ne']
  simp only [GammaDist.frozen, Bool.false_eq_true, if_false]
  rw [show (0 + fac * p) ^ 2 / (fac * q) ^ 2 = p ^ 2 / q ^ 2 by field_simp; ring]
  congr 1
  · ring
  · field_simp; ring

theorem units_weibull {off fac : ℝ} (hb : 0 < fac) {p q eps k : ℝ} (hp : eps < p) (hk : 0 < k) (sp : Option ℝ) :
    RescaledPair off fac univ (Weibull.new k p q eps false sp)
      (Weibull.new k (off + fac * p) (fac * q) (off + fac * eps) false (sp.map fun v => off + fac * v)) := by
  have hG : 0 < Gamma (1 + 1 / k) := Gamma_pos_of_pos (by positivity)
  have hs : 0 < (p - eps) / Gamma (1 + 1 / k) + eps - eps := by
    rw [add_sub_cancel_right]; exact div_pos (sub_pos.2 hp) hG
  refine rescaled_ofFrozen ((Frozen.mom_weibullMin hk).locScale eps hs) hb ?_ sp
  rw [locScale_locScale _ _ _ _ _ hb.ne']
  simp only [Weibull.frozen, Bool.false_eq_true, if_false]
  congr 1
  ring

theorem units_typeIIlargest {fac : ℝ} (hb : 0 < fac) {p q k : ℝ} (hp : 0 < p) (hk : 2 < k) (sp : Option ℝ) :
    RescaledPair 0 fac univ (TypeIIlargest.new k p q false sp)
      (TypeIIlargest.new k (0 + fac * p) (fac * q) false (sp.map fun v => 0 + fac * v)) := by
  have h1 : 0 < 1 - 1 / k := by
    rw [sub_pos, div_lt_one (by linarith)]; linarith
  have hG : 0 < Gamma (1 - 1 / k) := Gamma_pos_of_pos h1
  have hs : 0 < p / Gamma (1 - 1 / k) := div_pos hp hG
  refine rescaled_ofFrozen ((Frozen.mom_invweibull hk).locScale 0 hs) hb ?_ sp
  rw [locScale_locScale _ _ _ _ _ hb.ne']
  simp only [TypeIIlargest.frozen, Bool.false_eq_true, if_false]
  congr 1 <;> ring

theorem units_beta {off fac : ℝ} (hb : 0 < fac) {p s a b q : ℝ} (ha : a < p) (hpb : p < b) (hq : 0 < q) (sp : Option ℝ) :
    RescaledPair off fac univ (BetaDist.new q p s a b false sp)
      (BetaDist.new q (off + fac * p) (fac * s) (off + fac * a) (off + fac * b) false (sp.map fun v => off + fac * v)) := by
  have hab : 0 < b - a := by linarith
  have hpa : 0 < p - a := by linarith
  have hr : 0 < q * (b - a) * (p - a)⁻¹ - q := by
    have : q * (b - a) * (p - a)⁻¹ - q = q * ((b - p) / (p - a)) := by field_simp; ring
    rw [this]
    exact mul_pos hq (div_pos (by linarith) hpa)
  refine rescaled_ofFrozen ((Frozen.mom_betaDist hq hr).locScale a hab) hb ?_ sp
  rw [locScale_locScale _ _ _ _ _ hb.ne']
  simp only [BetaDist.frozen, Bool.false_eq_true, if_false]
  have e : q * (off + fac * b - (off + fac * a)) * (off + fac * p - (off + fac * a))⁻¹ - q = q * (b - a) * (p - a)⁻¹ - q := by
    rw [show off + fac * b - (off + fac * a) = fac * (b - a) by ring, show off + fac * p - (off + fac * a) = fac * (p - a) by ring]
    field_simp
  rw [e]
  congr 1
  ring

theorem gev_scale_pos (μ : ℝ) {σ s : ℝ} (hσ : 0 < σ) (hs : s < 1 / 2) : 0 < (GEV.locScale μ σ s).2 := by
  by_cases h : iscloseZero s
  · simp only [GEV.locScale, if_pos h]
    positivity
  · exact (gev_locScale_spec μ hσ hs (Or.inr (not_le.1 h))).1

theorem gev_units (off fac μ σ s : ℝ) :
    GEV.locScale (off + fac * μ) (fac * σ) s = (off + fac * (GEV.locScale μ σ s).1, fac * (GEV.locScale μ σ s).2) := by
  unfold GEV.locScale
  dsimp only
  by_cases h : iscloseZero s
  · simp only [if_pos h, Prod.mk.injEq]; constructor <;> ring
  · simp only [if_neg h, Prod.mk.injEq]; constructor <;> ring

theorem units_gevMax {off fac : ℝ} (hb : 0 < fac) (p : ℝ) {q s : ℝ} (hq : 0 < q) (hs : s < 1 / 2) (sp : Option ℝ) :
    RescaledPair off fac univ (GEV.newMax p q s false sp)
      (GEV.newMax (off + fac * p) (fac * q) s false (sp.map fun v => off + fac * v)) := by
  unfold GEV.newMax
  have h5 : ¬ s ≥ 0.5 := by norm_num; linarith
  simp only [if_neg h5, Bool.false_eq_true, if_false, gev_units]
  refine rescaled_ofFrozen ((mom_gev hs).locScale _ (gev_scale_pos p hq hs)) hb ?_ sp
  rw [locScale_locScale _ _ _ _ _ hb.ne']

theorem units_gevMin {fac : ℝ} (hb : 0 < fac) (p : ℝ) {q s : ℝ} (hq : 0 < q) (hs : s < 1 / 2) (sp : Option ℝ) :
    RescaledPair 0 fac univ (GEV.newMin p q s false sp)
      (GEV.newMin (0 + fac * p) (fac * q) s false (sp.map fun v => 0 + fac * v)) := by
  unfold GEV.newMin
  have h5 : ¬ s ≥ 0.5 := by norm_num; linarith
  simp only [if_neg h5, Bool.false_eq_true, if_false, gev_units]
  obtain ⟨h1, h2⟩ := moments_units (off := 0) ((mom_gev hs).locScale (-(GEV.locScale p q s).1) (gev_scale_pos p hq hs)) hb sp
  have hl := locScale_locScale (Frozen.genextreme (-s)) (-(GEV.locScale p q s).1) (GEV.locScale p q s).2 0 fac hb.ne'
  rw [show -(0 + fac * (GEV.locScale p q s).1) = 0 + fac * -(GEV.locScale p q s).1 by ring, ← hl, h1, h2, startPoint_units]
  refine ⟨_, _, rfl, rfl, ⟨rfl, rfl, rfl, fun x _ => ?_, fun x _ => ?_, fun u => rfl, fun x _ => ?_, fun u x _ => ?_,
    fun _ => mem_univ _, mem_univ _⟩⟩
  · show (((Frozen.genextreme (-s)).locScale _ _).locScale 0 fac).pdf _ = _
    exact locScale_pdf_neg _ hb _
  · show 1 - (((Frozen.genextreme (-s)).locScale _ _).locScale 0 fac).cdf _ = _
    rw [locScale_cdf_neg _ hb]
  · show StdNormal.ppf (1 - (((Frozen.genextreme (-s)).locScale _ _).locScale 0 fac).cdf _) = _
    rw [locScale_cdf_neg _ hb]
  · show baseJac (fun x => (((Frozen.genextreme (-s)).locScale _ _).locScale 0 fac).pdf (-x)) u _ = _
    simp only [baseJac]
    rw [locScale_pdf_neg _ hb]
    ring

end Pystra.Props
