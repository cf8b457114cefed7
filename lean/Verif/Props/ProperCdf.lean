import Verif.Props.CompositeLaw

/-! C93: the `cdf` of every standard class is monotone with values in `[0, 1]` on the whole line. -/

namespace Pystra.Props
open Real MeasureTheory Set Filter Topology Distribution ProbabilityTheory Spec

theorem proper_of_regular {f : Frozen} {S : Set ℝ} (hr : Regular f S)
    (hout : ∀ x ∉ S, (f.cdf x = 0 ∧ ∀ y ∈ S, x < y) ∨ (f.cdf x = 1 ∧ ∀ y ∈ S, y < x)) : ProperCdf f.cdf := by
  have hne : (S : Set ℝ).Nonempty := ⟨_, (hr.inv (1 / 2) (by norm_num) (by norm_num)).1⟩
  have mem : ∀ x, 0 ≤ f.cdf x ∧ f.cdf x ≤ 1 := by
    intro x
    by_cases hx : x ∈ S
    · exact ⟨(hr.mem01 x hx).1.le, (hr.mem01 x hx).2.le⟩
    · rcases hout x hx with ⟨e, -⟩ | ⟨e, -⟩ <;> rw [e] <;> norm_num
  refine ⟨fun x y hxy => ?_, mem⟩
  by_cases hx : x ∈ S
  · by_cases hy : y ∈ S
    · exact hr.mono.monotoneOn hx hy hxy
    · rcases hout y hy with ⟨e, h⟩ | ⟨e, h⟩
      · exact absurd (h x hx) (not_lt.2 hxy)
      · rw [e]; exact (mem x).2
  · rcases hout x hx with ⟨e, h⟩ | ⟨e, h⟩
    · rw [e]; exact (mem y).1
    · by_cases hy : y ∈ S
      · exact absurd (h y hy) (not_lt.2 hxy)
      · rcases hout y hy with ⟨e', h'⟩ | ⟨e', h'⟩
        · obtain ⟨z, hz⟩ := hne
          exact absurd ((h z hz).trans_le hxy) (not_lt.2 (h' z hz).le)
        · rw [e, e']

theorem proper_pos {f : Frozen} (hr : Regular f (Ioi 0)) (h : ∀ x ≤ 0, f.cdf x = 0) : ProperCdf f.cdf :=
  proper_of_regular hr fun x hx => .inl ⟨h x (not_lt.1 hx), fun _ hy => lt_of_le_of_lt (not_lt.1 hx) hy⟩

theorem proper_line {f : Frozen} (hr : Regular f univ) : ProperCdf f.cdf :=
  proper_of_regular hr fun x hx => absurd (mem_univ x) hx

theorem proper_uniform01 : ProperCdf Frozen.uniform01.cdf := by
  refine ⟨fun x y h => ?_, fun x => ⟨le_max_left _ _, max_le (by norm_num) (min_le_right _ _)⟩⟩
  exact max_le_max le_rfl (min_le_min h le_rfl)

theorem proper_expon : ProperCdf Frozen.expon.cdf :=
  proper_pos Frozen.regular_expon fun x hx => by
    simp only [Frozen.expon]
    split
    · next h => rw [le_antisymm hx h]; simp
    · rfl

theorem proper_rayleigh : ProperCdf Frozen.rayleigh.cdf :=
  proper_pos Frozen.regular_rayleigh fun x hx => by
    simp only [Frozen.rayleigh]
    split
    · next h => rw [le_antisymm hx h]; simp
    · rfl

theorem proper_lognorm {s : ℝ} (hs : 0 < s) : ProperCdf (Frozen.lognorm s).cdf :=
  proper_pos (Frozen.regular_lognorm hs) fun x hx => by simp only [Frozen.lognorm]; rw [if_neg (not_lt.2 hx)]

theorem proper_weibullMin {c : ℝ} (hc : 0 < c) : ProperCdf (Frozen.weibullMin c).cdf :=
  proper_pos (Frozen.regular_weibullMin hc) fun x hx => by simp only [Frozen.weibullMin]; rw [if_neg (not_lt.2 hx)]

theorem proper_invweibull {c : ℝ} (hc : 0 < c) : ProperCdf (Frozen.invweibull c).cdf :=
  proper_pos (Frozen.regular_invweibull hc) fun x hx => by simp only [Frozen.invweibull]; rw [if_neg (not_lt.2 hx)]

theorem proper_gamma {a : ℝ} (ha : 0 < a) : ProperCdf (Frozen.gamma a).cdf :=
  proper_pos (Frozen.regular_gamma ha) fun x hx => by simp only [Frozen.gamma]; rw [if_neg (not_lt.2 hx)]

theorem proper_betaDist {a b : ℝ} (ha : 0 < a) (hb : 0 < b) : ProperCdf (Frozen.betaDist a b).cdf := by
  have hn := Frozen.betaDist_nonneg ha hb
  obtain ⟨hi, h1⟩ : Integrable (Frozen.betaDist a b).pdf ∧ ∫ x, (Frozen.betaDist a b).pdf x = 1 := Frozen.integrable_betaDist ha hb
  have e : ∀ x, (Frozen.betaDist a b).cdf x = ∫ t in Iic x, (Frozen.betaDist a b).pdf t := fun x => rfl
  refine ⟨fun x y h => ?_, fun x => ⟨?_, ?_⟩⟩
  · rw [e, e]
    exact setIntegral_mono_set hi.integrableOn (Eventually.of_forall hn) (Eventually.of_forall (Iic_subset_Iic.2 h))
  · rw [e]; exact setIntegral_nonneg measurableSet_Iic fun t _ => hn t
  · rw [e, ← h1]; exact setIntegral_le_integral hi (Eventually.of_forall hn)

theorem proper_genextreme (c : ℝ) : ProperCdf (Frozen.genextreme c).cdf := by
  refine proper_of_regular (Frozen.regular_genextreme c) fun x hx => ?_
  simp only [Frozen.gevSupport, mem_ofPred_eq, not_lt] at hx ⊢
  have hc : c ≠ 0 := fun h => by rw [h] at hx; norm_num at hx
  simp only [Frozen.genextreme]
  rw [if_neg hc, if_neg (not_lt.2 hx)]
  rcases lt_or_gt_of_ne hc with h | h
  · left
    refine ⟨if_neg (not_lt.2 h.le), fun y hy => ?_⟩
    by_contra hh
    nlinarith [not_lt.1 hh]
  · right
    refine ⟨if_pos h, fun y hy => ?_⟩
    by_contra hh
    nlinarith [not_lt.1 hh]

/-- A `cdf` that is a proper one in scaled form is itself proper: the scale must be positive, because the object's own `cdf` increases. -/
theorem proper_scaled {m : Marginal} {D : Set ℝ} (hL : OneLaw m D) {F : ℝ → ℝ} {loc scale : ℝ} (hF : ProperCdf F)
    (e : ∀ x, m.cdf x = F ((x - loc) / scale)) : ProperCdf m.cdf := by
  obtain ⟨d1, c1⟩ := hL.cdf_ppf (1 / 4) (by norm_num) (by norm_num)
  obtain ⟨d2, c2⟩ := hL.cdf_ppf (1 / 2) (by norm_num) (by norm_num)
  have hlt : m.ppf (1 / 4) < m.ppf (1 / 2) := by
    rw [← hL.cdf_mono.lt_iff_lt d1 d2, c1, c2]; norm_num
  have hs : 0 < scale := by
    by_contra hs
    have h : (m.ppf (1 / 2) - loc) / scale ≤ (m.ppf (1 / 4) - loc) / scale :=
      div_le_div_of_nonpos_of_le (not_lt.1 hs) (by linarith)
    have := hF.mono h
    rw [← e, ← e, c1, c2] at this
    norm_num at this
  refine ⟨fun x y h => ?_, fun x => by rw [e]; exact hF.mem _⟩
  rw [e, e]
  exact hF.mono (by gcongr)

theorem proper_frozen {f0 : Frozen} {loc scale : ℝ} {sp : Option ℝ} {m : Marginal} {D : Set ℝ} (h0 : ProperCdf f0.cdf) (hL : OneLaw m D)
    (h : ofFrozen (f0.locScale loc scale) sp = .ok m) : ProperCdf m.cdf :=
  proper_scaled hL h0 fun x => (follows_ofFrozen univ h).cdf x (mem_univ x)

theorem proper_gamma_false {S : Solvers} {p q : ℝ} {b : Dict String ℝ} {sp : Option ℝ} (hr : Accepted S .gamma false p q b) {m : Marginal}
    {D : Set ℝ} (hL : OneLaw m D) (hm : Family.body S .gamma p q b false sp = .ok m) : ProperCdf m.cdf := by
  simp only [Accepted] at hr
  exact proper_frozen (proper_gamma (a := p ^ 2 / q ^ 2) (by obtain ⟨h1, h2⟩ := hr; positivity)) hL hm

theorem proper_gamma_true {S : Solvers} {p q : ℝ} {b : Dict String ℝ} {sp : Option ℝ} (hr : Accepted S .gamma true p q b) {m : Marginal}
    {D : Set ℝ} (hL : OneLaw m D) (hm : Family.body S .gamma p q b true sp = .ok m) : ProperCdf m.cdf := by
  simp only [Accepted] at hr
  exact proper_frozen (proper_gamma (a := q) hr.2) hL hm

theorem proper_shiftedExponential_false {S : Solvers} {p q : ℝ} {b : Dict String ℝ} {sp : Option ℝ} (hr : Accepted S .shiftedExponential false p q b) {m : Marginal}
    {D : Set ℝ} (hL : OneLaw m D) (hm : Family.body S .shiftedExponential p q b false sp = .ok m) : ProperCdf m.cdf := by
  simp only [Accepted] at hr
  exact proper_frozen proper_expon hL hm

theorem proper_shiftedExponential_true {S : Solvers} {p q : ℝ} {b : Dict String ℝ} {sp : Option ℝ} (hr : Accepted S .shiftedExponential true p q b) {m : Marginal}
    {D : Set ℝ} (hL : OneLaw m D) (hm : Family.body S .shiftedExponential p q b true sp = .ok m) : ProperCdf m.cdf := by
  simp only [Accepted] at hr
  exact proper_frozen proper_expon hL hm

theorem proper_shiftedRayleigh_false {S : Solvers} {p q : ℝ} {b : Dict String ℝ} {sp : Option ℝ} (hr : Accepted S .shiftedRayleigh false p q b) {m : Marginal}
    {D : Set ℝ} (hL : OneLaw m D) (hm : Family.body S .shiftedRayleigh p q b false sp = .ok m) : ProperCdf m.cdf := by
  simp only [Accepted] at hr
  exact proper_frozen proper_rayleigh hL hm

theorem proper_shiftedRayleigh_true {S : Solvers} {p q : ℝ} {b : Dict String ℝ} {sp : Option ℝ} (hr : Accepted S .shiftedRayleigh true p q b) {m : Marginal}
    {D : Set ℝ} (hL : OneLaw m D) (hm : Family.body S .shiftedRayleigh p q b true sp = .ok m) : ProperCdf m.cdf := by
  simp only [Accepted] at hr
  exact proper_frozen proper_rayleigh hL hm

theorem proper_gumbel_false {S : Solvers} {p q : ℝ} {b : Dict String ℝ} {sp : Option ℝ} (hr : Accepted S .gumbel false p q b) {m : Marginal}
    {D : Set ℝ} (hL : OneLaw m D) (hm : Family.body S .gumbel p q b false sp = .ok m) : ProperCdf m.cdf := by
  simp only [Accepted] at hr
  exact proper_frozen (proper_line Frozen.regular_gumbelR) hL hm

theorem proper_gumbel_true {S : Solvers} {p q : ℝ} {b : Dict String ℝ} {sp : Option ℝ} (hr : Accepted S .gumbel true p q b) {m : Marginal}
    {D : Set ℝ} (hL : OneLaw m D) (hm : Family.body S .gumbel p q b true sp = .ok m) : ProperCdf m.cdf := by
  simp only [Accepted] at hr
  exact proper_frozen (proper_line Frozen.regular_gumbelR) hL hm

theorem proper_typeIsmallest_false {S : Solvers} {p q : ℝ} {b : Dict String ℝ} {sp : Option ℝ} (hr : Accepted S .typeIsmallest false p q b) {m : Marginal}
    {D : Set ℝ} (hL : OneLaw m D) (hm : Family.body S .typeIsmallest p q b false sp = .ok m) : ProperCdf m.cdf := by
  simp only [Accepted] at hr
  exact proper_frozen (proper_line Frozen.regular_gumbelL) hL hm

theorem proper_typeIsmallest_true {S : Solvers} {p q : ℝ} {b : Dict String ℝ} {sp : Option ℝ} (hr : Accepted S .typeIsmallest true p q b) {m : Marginal}
    {D : Set ℝ} (hL : OneLaw m D) (hm : Family.body S .typeIsmallest p q b true sp = .ok m) : ProperCdf m.cdf := by
  simp only [Accepted] at hr
  exact proper_frozen (proper_line Frozen.regular_gumbelL) hL hm

theorem proper_chiSquare_false {S : Solvers} {p q : ℝ} {b : Dict String ℝ} {sp : Option ℝ} (hr : Accepted S .chiSquare false p q b) {m : Marginal}
    {D : Set ℝ} (hL : OneLaw m D) (hm : Family.body S .chiSquare p q b false sp = .ok m) : ProperCdf m.cdf := by
  simp only [Accepted] at hr
  exact proper_frozen (proper_gamma (a := 2 * p ^ 2 / q ^ 2 / 2) (by obtain ⟨h1, h2⟩ := hr; positivity)) hL hm

theorem proper_chiSquare_true {S : Solvers} {p q : ℝ} {b : Dict String ℝ} {sp : Option ℝ} (hr : Accepted S .chiSquare true p q b) {m : Marginal}
    {D : Set ℝ} (hL : OneLaw m D) (hm : Family.body S .chiSquare p q b true sp = .ok m) : ProperCdf m.cdf := by
  simp only [Accepted] at hr
  exact proper_frozen (proper_gamma (a := p / 2) (by positivity)) hL hm

theorem proper_weibull_false {S : Solvers} {p q : ℝ} {b : Dict String ℝ} {sp : Option ℝ} (hr : Accepted S .weibull false p q b) {m : Marginal}
    {D : Set ℝ} (hL : OneLaw m D) (hm : Family.body S .weibull p q b false sp = .ok m) : ProperCdf m.cdf := by
  simp only [Accepted] at hr
  exact proper_frozen (proper_weibullMin hr.2) hL hm

theorem proper_weibull_true {S : Solvers} {p q : ℝ} {b : Dict String ℝ} {sp : Option ℝ} (hr : Accepted S .weibull true p q b) {m : Marginal}
    {D : Set ℝ} (hL : OneLaw m D) (hm : Family.body S .weibull p q b true sp = .ok m) : ProperCdf m.cdf := by
  simp only [Accepted] at hr
  exact proper_frozen (proper_weibullMin hr.2) hL hm

theorem proper_typeIIlargest_false {S : Solvers} {p q : ℝ} {b : Dict String ℝ} {sp : Option ℝ} (hr : Accepted S .typeIIlargest false p q b) {m : Marginal}
    {D : Set ℝ} (hL : OneLaw m D) (hm : Family.body S .typeIIlargest p q b false sp = .ok m) : ProperCdf m.cdf := by
  simp only [Accepted] at hr
  exact proper_frozen (proper_invweibull (c := S.typeII p q) (by linarith [hr.2])) hL hm

theorem proper_typeIIlargest_true {S : Solvers} {p q : ℝ} {b : Dict String ℝ} {sp : Option ℝ} (hr : Accepted S .typeIIlargest true p q b) {m : Marginal}
    {D : Set ℝ} (hL : OneLaw m D) (hm : Family.body S .typeIIlargest p q b true sp = .ok m) : ProperCdf m.cdf := by
  simp only [Accepted] at hr
  exact proper_frozen (proper_invweibull (c := q) (by linarith [hr.2])) hL hm

theorem proper_beta_true {S : Solvers} {p q : ℝ} {b : Dict String ℝ} {sp : Option ℝ} (hr : Accepted S .beta true p q b) {m : Marginal}
    {D : Set ℝ} (hL : OneLaw m D) (hm : Family.body S .beta p q b true sp = .ok m) : ProperCdf m.cdf := by
  simp only [Accepted] at hr
  exact proper_frozen (proper_betaDist hr.1 hr.2.1) hL hm

theorem proper_beta_false {S : Solvers} {p q : ℝ} {b : Dict String ℝ} {sp : Option ℝ} (hr : Accepted S .beta false p q b) {m : Marginal}
    {D : Set ℝ} (hL : OneLaw m D) (hm : Family.body S .beta p q b false sp = .ok m) : ProperCdf m.cdf := by
  simp only [Accepted] at hr
  obtain ⟨h1, h2, h3⟩ := hr
  have k1 : 0 < p - Family.arg b "a" := sub_pos.2 h1
  have k2 : 0 < Family.arg b "b" - p := sub_pos.2 h2
  have hr' : 0 < S.beta (Family.arg b "a") (Family.arg b "b") p q * (Family.arg b "b" - Family.arg b "a") *
      (p - Family.arg b "a")⁻¹ - S.beta (Family.arg b "a") (Family.arg b "b") p q := by
    rw [show S.beta (Family.arg b "a") (Family.arg b "b") p q * (Family.arg b "b" - Family.arg b "a") *
      (p - Family.arg b "a")⁻¹ - S.beta (Family.arg b "a") (Family.arg b "b") p q =
      S.beta (Family.arg b "a") (Family.arg b "b") p q * ((Family.arg b "b" - p) / (p - Family.arg b "a")) by field_simp; ring]
    positivity
  exact proper_frozen (proper_betaDist h3 hr') hL hm

theorem proper_normal {μ σ : ℝ} {sp : Option ℝ} {m : Marginal} {D : Set ℝ} (hL : OneLaw m D) (hm : Normal.new μ (.fin σ) sp = .ok m) :
    ProperCdf m.cdf := by
  simp only [Normal.new, initMoments, updateMoments, Except.ok.injEq] at hm
  subst hm
  exact proper_scaled hL (proper_line Frozen.regular_norm) (loc := μ) (scale := σ) fun x => rfl

theorem lognormal_cdf_frozen (l z x : ℝ) : Lognormal.cdf l z x = (Frozen.lognorm z).cdf ((x - 0) / exp l) := by
  by_cases hx : 0 < x
  · have h := lognormal_frozen_cdf (lamb := l) (zeta := z) hx
    rw [Lognormal.cdf, if_pos hx]
    exact h.symm
  · rw [Lognormal.cdf, if_neg hx]
    simp only [Frozen.lognorm]
    rw [if_neg]
    rw [sub_zero, not_lt]
    exact div_nonpos_of_nonpos_of_nonneg (not_lt.1 hx) (exp_pos l).le

theorem proper_lognormal {l z : ℝ} (hz : 0 < z) {sp : Option ℝ} {m : Marginal} {D : Set ℝ} (hL : OneLaw m D)
    (hm : Lognormal.ofParams l z sp = .ok m) : ProperCdf m.cdf := by
  unfold Lognormal.ofParams at hm
  dsimp only at hm
  split at hm
  · cases hm
  injection hm with hm; subst hm
  exact proper_scaled hL (proper_lognorm hz) (lognormal_cdf_frozen l z)

theorem proper_shiftedLognormal {μ σ lower : ℝ} (hμ : lower < μ) (hσ : 0 < σ) {sp : Option ℝ} {m : Marginal} {D : Set ℝ} (hL : OneLaw m D)
    (hm : ShiftedLognormal.new μ σ lower false sp = .ok m) : ProperCdf m.cdf := by
  obtain ⟨hz, -⟩ := lognormal_params_spec (sub_pos.2 hμ) hσ
  simp only [ShiftedLognormal.new, Bool.false_eq_true, if_false] at hm
  split at hm
  · cases hm
  injection hm with hm; subst hm
  refine proper_scaled hL (proper_lognorm hz) (loc := lower) (scale := exp (Lognormal.params (μ - lower) σ).1) fun x => ?_
  show Lognormal.cdf _ _ (x - lower) = _
  rw [lognormal_cdf_frozen, sub_zero]

theorem proper_uniform {p q : ℝ} {inp : Bool} {sp : Option ℝ} {m : Marginal} {D : Set ℝ} (hL : OneLaw m D)
    (hm : Uniform.new p q inp sp = .ok m) : ProperCdf m.cdf :=
  proper_scaled hL proper_uniform01 fun x => (follows_uniform univ hm).cdf x (mem_univ x)

theorem proper_gevMax {p q s : ℝ} {inp : Bool} (h : s < 1 / 2) {sp : Option ℝ} {m : Marginal} {D : Set ℝ} (hL : OneLaw m D)
    (hm : GEV.newMax p q s inp sp = .ok m) : ProperCdf m.cdf := by
  unfold GEV.newMax at hm
  rw [if_neg (by norm_num; linarith)] at hm
  cases inp
  · exact proper_frozen (proper_genextreme (-s)) hL hm
  · exact proper_frozen (proper_genextreme (-s)) hL hm

theorem proper_every (S : Solvers) (F : Family) (inp : Bool) (p q : ℝ) (b : Dict String ℝ) (sp : Option ℝ)
    (hr : Accepted S F inp p q b) {m : Marginal} {D : Set ℝ} (hL : OneLaw m D) (hm : F.body S p q b inp sp = .ok m) : ProperCdf m.cdf := by
  cases F <;> cases inp <;> try (exact hr.elim)
  case normal.false | normal.true => exact proper_normal hL hm
  case lognormal.false => exact proper_lognormal (lognormal_params_spec hr.1 hr.2).1 hL hm
  case lognormal.true => exact proper_lognormal hr hL hm
  case shiftedLognormal.false => exact proper_shiftedLognormal hr.1 hr.2 hL hm
  case uniform.false => exact proper_uniform (p := p) (q := q) (inp := false) (sp := sp) hL hm
  case uniform.true => exact proper_uniform (p := p) (q := q) (inp := true) (sp := sp) hL hm
  case gumbel.false | typeIlargest.false => exact proper_gumbel_false (S := S) (b := b) hr hL hm
  case gumbel.true | typeIlargest.true => exact proper_gumbel_true (S := S) (b := b) hr hL hm
  case weibull.false | typeIIIsmallest.false => exact proper_weibull_false (S := S) (b := b) hr hL hm
  case weibull.true | typeIIIsmallest.true => exact proper_weibull_true (S := S) (b := b) hr hL hm
  case gevMax.false => exact proper_gevMax (p := p) (q := q) (inp := false) (sp := sp) hr.2.1 hL hm
  case gevMax.true => exact proper_gevMax (p := p) (q := q) (inp := true) (sp := sp) hr.2.1 hL hm
  case gamma.false => exact proper_gamma_false hr hL hm
  case gamma.true => exact proper_gamma_true hr hL hm
  case shiftedExponential.false => exact proper_shiftedExponential_false hr hL hm
  case shiftedExponential.true => exact proper_shiftedExponential_true hr hL hm
  case shiftedRayleigh.false => exact proper_shiftedRayleigh_false hr hL hm
  case shiftedRayleigh.true => exact proper_shiftedRayleigh_true hr hL hm
  case typeIsmallest.false => exact proper_typeIsmallest_false hr hL hm
  case typeIsmallest.true => exact proper_typeIsmallest_true hr hL hm
  case chiSquare.false => exact proper_chiSquare_false hr hL hm
  case chiSquare.true => exact proper_chiSquare_true hr hL hm
  case typeIIlargest.false => exact proper_typeIIlargest_false hr hL hm
  case typeIIlargest.true => exact proper_typeIIlargest_true hr hL hm
  case beta.true => exact proper_beta_true hr hL hm
  case beta.false => exact proper_beta_false hr hL hm

/-- **C93 (standard classes).**  Every object made by a standard class with admissible arguments describes, and draws from, the law of its
`pdf`, and its `cdf` is continuous and strictly increasing between 0 and 1 - the hypotheses under which the composite classes are treated. -/
theorem C93_class (S : Solvers) (F : Family) (inp : Bool) (p q : ℝ) (kw b : Dict String ℝ) (sp : Option ℝ) (hb : F.bind kw = .ok b)
    (hr : Accepted S F inp p q b) :
    ∃ (m : Marginal) (D : Set ℝ), F.construct S p q kw inp sp = .ok m ∧ IsProbabilityMeasure (densityLaw (D.indicator m.pdf)) ∧
      Describes m (densityLaw (D.indicator m.pdf)) ∧ Draws m (densityLaw (D.indicator m.pdf)) ∧ Continuously m.cdf := by
  obtain ⟨m, D, h1, hF, hL, -⟩ := C87_every S F inp p q kw b sp hb hr
  have hm : F.body S p q b inp sp = .ok m := by
    simp only [Family.construct, hb] at h1
    exact h1
  obtain ⟨hP, hD, hc⟩ := C93_standard hF hL (proper_every S F inp p q b sp hr hL hm)
  exact ⟨m, D, h1, hP, hD, C93_describes hD, hc⟩

/-- C93 (concrete): a lognormal load that is absent one time in five. -/
example : ∃ (d m : Marginal) (D : Set ℝ), Family.lognormal.construct fixedSolvers 3 1 [] false none = .ok d ∧
    ZeroInflated.new d (1 / 5) none = .ok m ∧ Draws m (zeroInflate (densityLaw (D.indicator d.pdf)) (1 / 5)) := by
  obtain ⟨d, D, h, hP, hD, -, -⟩ := C93_class fixedSolvers .lognormal false 3 1 [] [] none (by simp [Family.bind, Family.keywords, Family.bindAll])
    ⟨by norm_num, by norm_num⟩
  obtain ⟨m, hm⟩ := (C18_ctor d (1 / 5) none).2 ⟨by norm_num, by norm_num⟩
  exact ⟨d, m, D, h, hm, (C93_zeroInflated hD hm).2⟩

end Pystra.Props
