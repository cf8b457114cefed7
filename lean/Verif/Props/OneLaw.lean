import Verif.Spec.OneLaw
import Verif.Props.NatafLaw
import Verif.Props.Copies
import Verif.Props.Sample
import Verif.Props.CopiesExample

/-! C87: the methods of a distribution object describe one law. -/

namespace Pystra.Props
open MeasureTheory ProbabilityTheory Real Set Spec Distribution

/-- What is known of a constructor's result in terms of the frozen law `f`. -/
structure Follows (m : Marginal) (f : Frozen) (D : Set ℝ) : Prop where
  ppf : ∀ p, m.ppf p = f.ppf p
  cdf : ∀ x ∈ D, m.cdf x = f.cdf x
  pdf : ∀ x ∈ D, m.pdf x = f.pdf x
  uToX : ∀ u, m.uToX u = f.ppf (StdNormal.cdf u)
  xToU : ∀ x ∈ D, m.xToU x = StdNormal.ppf (f.cdf x)

/-- Everything about one object. -/
structure Whole (r : Except PyErr Marginal) (sp : Option ℝ) : Prop where
  ex : ∃ m D, r = .ok m ∧ Faithful m D ∧ OneLaw m D ∧ m.startpoint = sp.getD m.mean

theorem whole_of_good {r : Except PyErr Marginal} {sp : Option ℝ} {D D' : Set ℝ} {μ σ : ℝ} (g : Good r sp D μ σ)
    (hD : IsOpen D) {f : Frozen} (hr : Regular f D') (hj : ∀ m, r = .ok m → JacobianRatio m D)
    (h : ∀ m, r = .ok m → Follows m f D') : Whole r sp := by
  obtain ⟨m, h1, hF⟩ := faithful_of_good g hD hj
  obtain ⟨m', h1', h2, h3, h4, -⟩ := g.ex
  rw [h1] at h1'
  cases h1'
  have hf := h m h1
  have e : D = D' := by
    ext x
    constructor
    · intro hx
      rw [← hF.round.right x hx, hf.uToX]
      exact (hr.inv _ (StdNormal.cdf_pos _) (StdNormal.cdf_lt_one _)).1
    · intro hx
      obtain ⟨h0, h1⟩ := hr.mem01 x hx
      have : x = m.uToX (StdNormal.ppf (f.cdf x)) := by
        rw [hf.uToX, StdNormal.cdf_ppf h0 h1, hr.ppf_cdf hx]
      rw [this]
      exact hF.round.mem _
  subst e
  refine ⟨m, D, h1, hF, ⟨?_, ?_, ?_, ?_, ?_, ?_, ?_⟩, by rw [h4, h2]⟩
  · intro x hx; rw [hf.cdf x hx]; exact hr.mem01 x hx
  · intro x hx y hy hxy; rw [hf.cdf x hx, hf.cdf y hy]; exact hr.mono hx hy hxy
  · intro p h0 h1
    obtain ⟨a, b⟩ := hr.inv p h0 h1
    rw [hf.ppf, hf.cdf _ a]; exact ⟨a, b⟩
  · intro x hx; rw [hf.cdf x hx, hf.ppf, hr.ppf_cdf hx]
  · intro x hx
    rw [hf.pdf x hx]
    refine (hr.deriv x hx).congr_of_eventuallyEq ?_
    filter_upwards [hD.mem_nhds hx] with y hy using hf.cdf y hy
  · intro x hx; rw [hf.xToU x hx, hf.cdf x hx]
  · intro u; rw [hf.uToX, hf.ppf]

theorem follows_ofFrozen {f : Frozen} {sp : Option ℝ} {m : Marginal} (D : Set ℝ) (h : ofFrozen f sp = .ok m) : Follows m f D := by
  unfold ofFrozen at h
  split at h
  · cases h
  · injection h with h; subst h
    exact ⟨fun _ => rfl, fun _ _ => rfl, fun _ _ => rfl, fun _ => rfl, fun _ _ => rfl⟩

theorem whole_frozen {f : Frozen} {sp : Option ℝ} {D : Set ℝ} {μ σ : ℝ} (g : Good (ofFrozen f sp) sp D μ σ) (hD : IsOpen D) {loc scale : ℝ}
    {f0 : Frozen} {D0 : Set ℝ} (hs : 0 < scale) (hr : Regular f0 D0) (e : f = f0.locScale loc scale) : Whole (ofFrozen f sp) sp := by
  refine whole_of_good g hD (hr.locScale loc hs) (ratio_ofFrozen f sp D) fun m hm => ?_
  rw [← e]
  exact follows_ofFrozen _ hm

theorem whole_normal (μ : ℝ) {σ : ℝ} (hσ : 0 < σ) (sp : Option ℝ) : Whole (Normal.new μ (.fin σ) sp) sp := by
  refine whole_of_good (good_normal μ hσ sp) isOpen_univ (Frozen.regular_norm.locScale μ hσ) (ratio_normal μ σ sp _) fun m hm => ?_
  simp only [Normal.new, initMoments, updateMoments, Except.ok.injEq] at hm
  subst hm
  refine ⟨fun p => ?_, fun x _ => rfl, fun x _ => rfl, fun u => ?_, fun x _ => ?_⟩
  · simp only [Normal.ppf, Frozen.locScale, Frozen.norm]; ring
  · simp only [Normal.uToX, Frozen.locScale, Frozen.norm, StdNormal.ppf_cdf]; ring
  · simp only [Normal.xToU, Frozen.locScale, Frozen.norm, StdNormal.ppf_cdf]

theorem follows_lognormal {l z : ℝ} (hz : 0 < z) {sp : Option ℝ} {m : Marginal} (h : Lognormal.ofParams l z sp = .ok m) :
    Follows m ((Frozen.lognorm z).locScale 0 (exp l)) {x | (x - 0) / exp l ∈ Ioi (0:ℝ)} := by
  rw [set_Ioi (exp_pos l)]
  unfold Lognormal.ofParams at h
  dsimp only at h
  split at h
  · cases h
  injection h with h; subst h
  refine ⟨fun _ => rfl, fun x hx => ?_, fun x hx => (lognormal_frozen_pdf hz hx).symm, fun u => ?_, fun x hx => ?_⟩
  · rw [lognormal_frozen_cdf hx]
    show Lognormal.cdf _ _ _ = _
    rw [Lognormal.cdf, if_pos (mem_Ioi.1 hx)]; rfl
  · simp only [Lognormal.uToX, Frozen.locScale, Frozen.lognorm, StdNormal.ppf_cdf]
    rw [zero_add, ← exp_add]; congr 1; ring
  · simp only [Lognormal.xToU]
    rw [lognormal_frozen_cdf hx, StdNormal.ppf_cdf]

theorem whole_lognormal {μ σ : ℝ} (hμ : 0 < μ) (hσ : 0 < σ) (sp : Option ℝ) : Whole (Lognormal.new μ σ false sp) sp := by
  obtain ⟨hz, -⟩ := lognormal_params_spec hμ hσ
  exact whole_of_good (good_lognormal hμ hσ sp) isOpen_Ioi ((Frozen.regular_lognorm hz).locScale 0 (exp_pos _))
    (ratio_lognormal μ σ false sp _) fun m hm => follows_lognormal hz hm

theorem whole_lognormal_params (l : ℝ) {z : ℝ} (hz : 0 < z) (sp : Option ℝ) : Whole (Lognormal.new l z true sp) sp :=
  whole_of_good (good_lognormal_params l hz sp) isOpen_Ioi ((Frozen.regular_lognorm hz).locScale 0 (exp_pos _))
    (ratio_lognormal l z true sp _) fun _ hm => follows_lognormal hz hm

theorem whole_shiftedLognormal {μ σ lower : ℝ} (hμ : lower < μ) (hσ : 0 < σ) (sp : Option ℝ) :
    Whole (ShiftedLognormal.new μ σ lower false sp) sp := by
  obtain ⟨hz, -⟩ := lognormal_params_spec (sub_pos.2 hμ) hσ
  refine whole_of_good (good_shiftedLognormal hμ hσ sp) isOpen_Ioi ((Frozen.regular_lognorm hz).locScale lower (exp_pos (Lognormal.params (μ - lower) σ).1))
    (ratio_shiftedLognormal μ σ lower sp _) fun m hm => ?_
  rw [set_Ioi (exp_pos _)]
  simp only [ShiftedLognormal.new, Bool.false_eq_true, if_false] at hm
  split at hm
  · cases hm
  injection hm with hm; subst hm
  have hcdf : ∀ x ∈ Ioi lower, ((Frozen.lognorm (Lognormal.params (μ - lower) σ).2).locScale lower
      (exp (Lognormal.params (μ - lower) σ).1)).cdf x =
      StdNormal.cdf ((log (x - lower) - (Lognormal.params (μ - lower) σ).1) / (Lognormal.params (μ - lower) σ).2) := fun x hx => by
    rw [← lognormal_frozen_cdf (sub_pos.2 hx)]; simp only [Frozen.locScale, sub_zero]
  refine ⟨fun _ => rfl, fun x hx => ?_, fun x hx => ?_, fun u => ?_, fun x hx => ?_⟩
  · rw [hcdf x hx]
    show Lognormal.cdf _ _ _ = _
    rw [Lognormal.cdf, if_pos (sub_pos.2 (mem_Ioi.1 hx))]; rfl
  · dsimp only
    rw [← lognormal_frozen_pdf hz (sub_pos.2 hx)]; simp only [Frozen.locScale, sub_zero]
  · simp only [Lognormal.uToX, Frozen.locScale, Frozen.lognorm, StdNormal.ppf_cdf]
    rw [add_comm, ← exp_add]; congr 2; ring
  · simp only [Lognormal.xToU]
    rw [hcdf x hx, StdNormal.ppf_cdf]

theorem follows_uniform {p q : ℝ} {inp : Bool} {sp : Option ℝ} {m : Marginal} (D : Set ℝ) (h : Uniform.new p q inp sp = .ok m) :
    Follows m (Frozen.uniform01.locScale (Uniform.bounds p q inp).1 ((Uniform.bounds p q inp).2 - (Uniform.bounds p q inp).1)) D := by
  simp only [Uniform.new] at h
  split at h
  · cases h
  injection h with h; subst h
  exact ⟨fun _ => rfl, fun _ _ => rfl, fun _ _ => rfl, fun _ => rfl, fun _ _ => rfl⟩

theorem whole_uniform {p q : ℝ} {inp : Bool} {sp : Option ℝ} {D : Set ℝ} {μ σ : ℝ} (g : Good (Uniform.new p q inp sp) sp D μ σ)
    (hD : IsOpen D) (h : 0 < (Uniform.bounds p q inp).2 - (Uniform.bounds p q inp).1) : Whole (Uniform.new p q inp sp) sp :=
  whole_of_good g hD (Frozen.regular_uniform01.locScale (Uniform.bounds p q inp).1 h) (ratio_uniform p q inp sp _)
    fun _ hm => follows_uniform _ hm

theorem whole_uniform_false (p : ℝ) {q : ℝ} (hr : 0 < q) (sp : Option ℝ) : Whole (Uniform.new p q false sp) sp := by
  have h3 : 0 < √(3:ℝ) := by positivity
  have e : 0 < (Uniform.bounds p q false).2 - (Uniform.bounds p q false).1 := by
    simp only [Uniform.bounds, Bool.false_eq_true, if_false]; nlinarith
  exact whole_uniform (good_uniform p hr sp) isOpen_Ioo e

theorem whole_uniform_true {p q : ℝ} (hr : p < q) (sp : Option ℝ) : Whole (Uniform.new p q true sp) sp := by
  have e : 0 < (Uniform.bounds p q true).2 - (Uniform.bounds p q true).1 := by
    simp only [Uniform.bounds, if_true]; linarith
  exact whole_uniform (good_uniform_params hr sp) isOpen_Ioo e

theorem whole_gamma_false (S : Solvers) (p q : ℝ) (b : Dict String ℝ) (sp : Option ℝ) (hr : Accepted S .gamma false p q b) :
    Whole (Family.body S .gamma p q b false sp) sp := by
  simp only [Accepted] at hr
  obtain ⟨hp, hq⟩ := hr
  exact whole_frozen (good_gamma hp hq sp) isOpen_Ioi (loc := 0) (scale := 1 / (p / q ^ 2)) (by positivity)
    (Frozen.regular_gamma (a := p ^ 2 / q ^ 2) (by positivity)) rfl

theorem whole_gamma_true (S : Solvers) (p q : ℝ) (b : Dict String ℝ) (sp : Option ℝ) (hr : Accepted S .gamma true p q b) :
    Whole (Family.body S .gamma p q b true sp) sp := by
  simp only [Accepted] at hr
  obtain ⟨hp, hq⟩ := hr
  exact whole_frozen (good_gamma_params hp hq sp) isOpen_Ioi (loc := 0) (scale := 1 / p) (by positivity)
    (Frozen.regular_gamma hq) rfl

theorem whole_shiftedExponential_false (S : Solvers) (p q : ℝ) (b : Dict String ℝ) (sp : Option ℝ) (hr : Accepted S .shiftedExponential false p q b) :
    Whole (Family.body S .shiftedExponential p q b false sp) sp := by
  simp only [Accepted] at hr
  exact whole_frozen (good_shiftedExponential p hr sp) isOpen_Ioi (loc := p - q) (scale := 1 / (1 / q)) (by positivity)
    Frozen.regular_expon rfl

theorem whole_shiftedExponential_true (S : Solvers) (p q : ℝ) (b : Dict String ℝ) (sp : Option ℝ) (hr : Accepted S .shiftedExponential true p q b) :
    Whole (Family.body S .shiftedExponential p q b true sp) sp := by
  simp only [Accepted] at hr
  exact whole_frozen (good_shiftedExponential_params hr q sp) isOpen_Ioi (loc := q) (scale := 1 / p) (by positivity)
    Frozen.regular_expon rfl

theorem whole_shiftedRayleigh_false (S : Solvers) (p q : ℝ) (b : Dict String ℝ) (sp : Option ℝ) (hr : Accepted S .shiftedRayleigh false p q b) :
    Whole (Family.body S .shiftedRayleigh p q b false sp) sp := by
  simp only [Accepted] at hr
  have hp : 0 < √(2 - π * 0.5) := sqrt_pos.2 (by linarith [pi_lt_d2])
  exact whole_frozen (good_shiftedRayleigh p hr sp) isOpen_Ioi (loc := p - q * √(π / (4 - π))) (scale := q / √(2 - π * 0.5))
    (by positivity) Frozen.regular_rayleigh rfl

theorem whole_shiftedRayleigh_true (S : Solvers) (p q : ℝ) (b : Dict String ℝ) (sp : Option ℝ) (hr : Accepted S .shiftedRayleigh true p q b) :
    Whole (Family.body S .shiftedRayleigh p q b true sp) sp := by
  simp only [Accepted] at hr
  exact whole_frozen (good_shiftedRayleigh_params hr q sp) isOpen_Ioi (loc := q) (scale := p) hr Frozen.regular_rayleigh rfl

theorem whole_gumbel_false (S : Solvers) (p q : ℝ) (b : Dict String ℝ) (sp : Option ℝ) (hr : Accepted S .gumbel false p q b) :
    Whole (Family.body S .gumbel p q b false sp) sp := by
  simp only [Accepted] at hr
  have h6 : 0 < √(6:ℝ) := by positivity
  exact whole_frozen (good_gumbel p hr sp) isOpen_univ (loc := p - 0.5772156649 * q * √6 / π) (scale := q * √6 / π) (by positivity)
    Frozen.regular_gumbelR rfl

theorem whole_gumbel_true (S : Solvers) (p q : ℝ) (b : Dict String ℝ) (sp : Option ℝ) (hr : Accepted S .gumbel true p q b) :
    Whole (Family.body S .gumbel p q b true sp) sp := by
  simp only [Accepted] at hr
  have h6 : 0 < √(6:ℝ) := by positivity
  exact whole_frozen (good_gumbel_params p hr sp) isOpen_univ (loc := p) (scale := q) hr Frozen.regular_gumbelR rfl

theorem whole_typeIsmallest_false (S : Solvers) (p q : ℝ) (b : Dict String ℝ) (sp : Option ℝ) (hr : Accepted S .typeIsmallest false p q b) :
    Whole (Family.body S .typeIsmallest p q b false sp) sp := by
  simp only [Accepted] at hr
  have h6 : 0 < √(6:ℝ) := by positivity
  exact whole_frozen (good_typeIsmallest p hr sp) isOpen_univ (loc := p + (0.5772156649 * q * √6) / π)
    (scale := 1 / (π / (q * √6))) (by positivity) Frozen.regular_gumbelL rfl

theorem whole_typeIsmallest_true (S : Solvers) (p q : ℝ) (b : Dict String ℝ) (sp : Option ℝ) (hr : Accepted S .typeIsmallest true p q b) :
    Whole (Family.body S .typeIsmallest p q b true sp) sp := by
  simp only [Accepted] at hr
  have h6 : 0 < √(6:ℝ) := by positivity
  exact whole_frozen (good_typeIsmallest_params p hr sp) isOpen_univ (loc := p) (scale := 1 / q) (by positivity)
    Frozen.regular_gumbelL rfl

theorem whole_chiSquare_false (S : Solvers) (p q : ℝ) (b : Dict String ℝ) (sp : Option ℝ) (hr : Accepted S .chiSquare false p q b) :
    Whole (Family.body S .chiSquare p q b false sp) sp := by
  simp only [Accepted] at hr
  obtain ⟨hp, hq⟩ := hr
  exact whole_frozen (good_chiSquare hp hq sp) isOpen_Ioi (loc := 0) (scale := 2) (by norm_num)
    (Frozen.regular_gamma (a := 2 * p ^ 2 / q ^ 2 / 2) (by positivity)) rfl

theorem whole_chiSquare_true (S : Solvers) (p q : ℝ) (b : Dict String ℝ) (sp : Option ℝ) (hr : Accepted S .chiSquare true p q b) :
    Whole (Family.body S .chiSquare p q b true sp) sp := by
  simp only [Accepted] at hr
  exact whole_frozen (good_chiSquare_params hr q sp) isOpen_Ioi (loc := 0) (scale := 2) (by norm_num)
    (Frozen.regular_gamma (a := p / 2) (by positivity)) rfl

theorem whole_weibull_false (S : Solvers) (p q : ℝ) (b : Dict String ℝ) (sp : Option ℝ) (hr : Accepted S .weibull false p q b) :
    Whole (Family.body S .weibull p q b false sp) sp := by
  simp only [Accepted] at hr
  obtain ⟨h1, h2⟩ := hr
  have hG := Gamma_pos_of_pos (show 0 < 1 + 1 / S.weibull (p - Family.arg b "epsilon") q by positivity)
  have hm : 0 < p - Family.arg b "epsilon" := sub_pos.2 h1
  exact whole_frozen (good_weibull (σ := q) h2 h1 sp) isOpen_Ioi
    (by rw [add_sub_cancel_right]; positivity) (Frozen.regular_weibullMin h2) rfl

theorem whole_weibull_true (S : Solvers) (p q : ℝ) (b : Dict String ℝ) (sp : Option ℝ) (hr : Accepted S .weibull true p q b) :
    Whole (Family.body S .weibull p q b true sp) sp := by
  simp only [Accepted] at hr
  obtain ⟨h1, h2⟩ := hr
  exact whole_frozen (good_weibull_params h2 h1 _ sp) isOpen_Ioi (sub_pos.2 h1) (Frozen.regular_weibullMin h2) rfl

theorem whole_typeIIlargest_false (S : Solvers) (p q : ℝ) (b : Dict String ℝ) (sp : Option ℝ) (hr : Accepted S .typeIIlargest false p q b) :
    Whole (Family.body S .typeIIlargest p q b false sp) sp := by
  simp only [Accepted] at hr
  have h6 : 0 < √(6:ℝ) := by positivity
  obtain ⟨h1, h2⟩ := hr
  have hk : 1 / S.typeII p q < 1 := by rw [div_lt_one (by linarith)]; linarith
  have hG : 0 < Gamma (1 - 1 / S.typeII p q) := Gamma_pos_of_pos (by linarith)
  exact whole_frozen (good_typeIIlargest (σ := q) h2 h1 sp) isOpen_Ioi (loc := 0) (by positivity)
    (Frozen.regular_invweibull (c := S.typeII p q) (by linarith)) rfl

theorem whole_typeIIlargest_true (S : Solvers) (p q : ℝ) (b : Dict String ℝ) (sp : Option ℝ) (hr : Accepted S .typeIIlargest true p q b) :
    Whole (Family.body S .typeIIlargest p q b true sp) sp := by
  simp only [Accepted] at hr
  have h6 : 0 < √(6:ℝ) := by positivity
  obtain ⟨h1, h2⟩ := hr
  exact whole_frozen (good_typeIIlargest_params h2 h1 _ sp) isOpen_Ioi (loc := 0) h1
    (Frozen.regular_invweibull (c := q) (by linarith)) rfl

theorem whole_beta_false (S : Solvers) (p q : ℝ) (b : Dict String ℝ) (sp : Option ℝ) (hr : Accepted S .beta false p q b) :
    Whole (Family.body S .beta p q b false sp) sp := by
  simp only [Accepted] at hr
  obtain ⟨h1, h2, h3⟩ := hr
  obtain ⟨s, hg, -⟩ := good_beta (σ := q) h3 h1 h2 sp
  have k1 : 0 < p - Family.arg b "a" := sub_pos.2 h1
  have k2 : 0 < Family.arg b "b" - p := sub_pos.2 h2
  have hr' : 0 < S.beta (Family.arg b "a") (Family.arg b "b") p q * (Family.arg b "b" - Family.arg b "a") *
      (p - Family.arg b "a")⁻¹ - S.beta (Family.arg b "a") (Family.arg b "b") p q := by
    rw [show S.beta (Family.arg b "a") (Family.arg b "b") p q * (Family.arg b "b" - Family.arg b "a") *
      (p - Family.arg b "a")⁻¹ - S.beta (Family.arg b "a") (Family.arg b "b") p q =
      S.beta (Family.arg b "a") (Family.arg b "b") p q * ((Family.arg b "b" - p) / (p - Family.arg b "a")) by field_simp; ring]
    positivity
  exact whole_frozen hg isOpen_Ioo (by linarith) (Frozen.regular_betaDist h3 hr') rfl

theorem whole_beta_true (S : Solvers) (p q : ℝ) (b : Dict String ℝ) (sp : Option ℝ) (hr : Accepted S .beta true p q b) :
    Whole (Family.body S .beta p q b true sp) sp := by
  simp only [Accepted] at hr
  obtain ⟨h1, h2, h3⟩ := hr
  exact whole_frozen (good_beta_params h1 h2 h3 _ sp) isOpen_Ioo (sub_pos.2 h3) (Frozen.regular_betaDist h1 h2) rfl

theorem whole_gevMax {p q s : ℝ} {inp : Bool} {sp : Option ℝ} {loc scale : ℝ} {D : Set ℝ} {μ σ : ℝ} (h2 : s < 1 / 2)
    (g : Good (GEV.newMax p q s inp sp) sp D μ σ) (hD : IsOpen D) (hs : 0 < scale)
    (e : GEV.newMax p q s inp sp = ofFrozen ((Frozen.genextreme (-s)).locScale loc scale) sp) : Whole (GEV.newMax p q s inp sp) sp := by
  rw [e] at g ⊢
  exact whole_frozen g hD hs (Frozen.regular_genextreme (-s)) rfl

theorem isOpen_gev (s loc scale : ℝ) : IsOpen {x | (x - loc) / scale ∈ Frozen.gevSupport s} :=
  (Frozen.isOpen_gevSupport s).preimage (f := fun x : ℝ => (x - loc) / scale) (by fun_prop)

theorem whole_gevMax_false (p : ℝ) {q s : ℝ} (h1 : 0 < q) (h2 : s < 1 / 2) (h3 : s = 0 ∨ 1e-8 < |s|) (sp : Option ℝ) :
    Whole (GEV.newMax p q s false sp) sp := by
  refine whole_gevMax h2 (good_gevMax p h1 h2 h3 sp) (isOpen_gev _ _ _) (gev_locScale_spec p h1 h2 h3).1 (loc := (GEV.locScale p q s).1) ?_
  unfold GEV.newMax
  rw [if_neg (by norm_num; linarith)]
  rfl

theorem whole_gevMax_true (p : ℝ) {q s : ℝ} (h1 : 0 < q) (h2 : s < 1 / 2) (h3 : s = 0 ∨ 1e-8 < |s|) (sp : Option ℝ) :
    Whole (GEV.newMax p q s true sp) sp := by
  refine whole_gevMax h2 (good_gevMax_params p h1 h2 h3 sp) (isOpen_gev _ _ _) h1 (loc := p) ?_
  unfold GEV.newMax
  rw [if_neg (by norm_num; linarith)]
  rfl

/-- C87: for every class, every way of calling its constructor with admissible arguments and every start point, an object is made whose
`cdf` rises strictly from 0 to 1 on its support, whose `ppf` is the inverse of `cdf`, whose `pdf` is the derivative of `cdf`, whose
`x_to_u` is `Φ⁻¹(cdf(x))` and `u_to_x` is `ppf(Φ(u))` (also where the class overrides them), whose recorded mean and standard deviation
are those of `pdf`, and whose start point is the one given or the mean. -/
theorem C87_every (S : Solvers) (F : Family) (inp : Bool) (p q : ℝ) (kw b : Dict String ℝ) (sp : Option ℝ) (hb : F.bind kw = .ok b)
    (hr : Accepted S F inp p q b) :
    ∃ (m : Marginal) (D : Set ℝ), F.construct S p q kw inp sp = .ok m ∧ Faithful m D ∧ OneLaw m D ∧ m.startpoint = sp.getD m.mean := by
  suffices h : Whole (F.body S p q b inp sp) sp by
    obtain ⟨m, D, h⟩ := h.ex
    refine ⟨m, D, ?_, h.2⟩
    simp only [Family.construct, hb]
    exact h.1
  cases F <;> cases inp <;> try (exact hr.elim)
  case normal.false | normal.true => exact whole_normal p hr sp
  case lognormal.false => exact whole_lognormal hr.1 hr.2 sp
  case lognormal.true => exact whole_lognormal_params p hr sp
  case shiftedLognormal.false => exact whole_shiftedLognormal hr.1 hr.2 sp
  case uniform.false => exact whole_uniform_false p hr sp
  case uniform.true => exact whole_uniform_true hr sp
  case gamma.false => exact whole_gamma_false S p q b sp hr
  case gamma.true => exact whole_gamma_true S p q b sp hr
  case shiftedExponential.false => exact whole_shiftedExponential_false S p q b sp hr
  case shiftedExponential.true => exact whole_shiftedExponential_true S p q b sp hr
  case shiftedRayleigh.false => exact whole_shiftedRayleigh_false S p q b sp hr
  case shiftedRayleigh.true => exact whole_shiftedRayleigh_true S p q b sp hr
  case gumbel.false | typeIlargest.false => exact whole_gumbel_false S p q b sp hr
  case gumbel.true | typeIlargest.true => exact whole_gumbel_true S p q b sp hr
  case typeIsmallest.false => exact whole_typeIsmallest_false S p q b sp hr
  case typeIsmallest.true => exact whole_typeIsmallest_true S p q b sp hr
  case chiSquare.false => exact whole_chiSquare_false S p q b sp hr
  case chiSquare.true => exact whole_chiSquare_true S p q b sp hr
  case weibull.false | typeIIIsmallest.false => exact whole_weibull_false S p q b sp hr
  case weibull.true | typeIIIsmallest.true => exact whole_weibull_true S p q b sp hr
  case typeIIlargest.false => exact whole_typeIIlargest_false S p q b sp hr
  case typeIIlargest.true => exact whole_typeIIlargest_true S p q b sp hr
  case beta.false => exact whole_beta_false S p q b sp hr
  case beta.true => exact whole_beta_true S p q b sp hr
  case gevMax.false => exact whole_gevMax_false p hr.1 hr.2.1 hr.2.2 sp
  case gevMax.true => exact whole_gevMax_true p hr.1 hr.2.1 hr.2.2 sp

/-- C87: hence `cdf(x) = ∫_{-∞}^{x} pdf`, for every `x` of the support. -/
theorem C87_integral {m : Marginal} {D : Set ℝ} (hF : Faithful m D) (hL : OneLaw m D) :
    ∀ x ∈ D, m.cdf x = ∫ y in Iic x, D.indicator m.pdf y := by
  intro x hx
  have hm := C74_marginal hF.round hF.isOpen hF.jac hF.ratio hF.law
  have h1 : (densityLaw (D.indicator m.pdf)).real (Iic x) = ∫ y in Iic x, D.indicator m.pdf y := by
    rw [measureReal_def, densityLaw_apply _ measurableSet_Iic, ← ofReal_integral_eq_lintegral_ofReal hF.law.int0.integrableOn
        (Filter.Eventually.of_forall hF.law.nonneg), ENNReal.toReal_ofReal (integral_nonneg hF.law.nonneg)]
  rw [← h1, ← hm, map_measureReal_apply hF.round.mono_x.monotone.measurable measurableSet_Iic]
  have e : m.uToX ⁻¹' Iic x = Iic (m.xToU x) := by
    ext u
    simp only [mem_preimage, mem_Iic]
    conv_lhs => rw [← hF.round.right x hx]
    exact hF.round.mono_x.le_iff_le
  obtain ⟨h0, h1'⟩ := hL.cdf_mem x hx
  rw [e]
  rw [hL.xToU x hx, ← cdf_eq_real, ← C11_measure, StdNormal.cdf_ppf h0 h1']

/-- C87: for every class and every admissible constructor call: `n` numbers drawn by `ppf` from independent uniform numbers are
independent with the distribution function `cdf`, and `u_to_x` turns a standard normal variable into one with density `pdf`. -/
theorem C87_draws (S : Solvers) (F : Family) (inp : Bool) (p q : ℝ) (kw b : Dict String ℝ) (sp : Option ℝ) (hb : F.bind kw = .ok b)
    (hr : Accepted S F inp p q b) :
    ∃ (m : Marginal) (D : Set ℝ), F.construct S p q kw inp sp = .ok m ∧
      (∀ (n : ℕ) (x : Fin n → ℝ), (∀ k, x k ∈ D) →
        (Measure.pi fun _ : Fin n => unif) {t | ∀ k, m.ppf (t k) ≤ x k} = ∏ k, ENNReal.ofReal (m.cdf (x k))) ∧
      (gaussianReal 0 1).map m.uToX = densityLaw (D.indicator m.pdf) ∧
      (∀ x ∈ D, m.cdf x = ∫ y in Iic x, D.indicator m.pdf y) ∧
      Law (D.indicator m.pdf) m.mean m.stdv := by
  obtain ⟨m, D, h1, hF, hL, -⟩ := C87_every S F inp p q kw b sp hb hr
  refine ⟨m, D, h1, fun n x hx => ?_, C74_marginal hF.round hF.isOpen hF.jac hF.ratio hF.law, C87_integral hF hL, hF.law⟩
  refine C73_law m D hF.round (fun t h0 h1 => ?_) (fun y hy => ?_) n x hx
  · rw [hL.uToX, StdNormal.cdf_ppf h0 h1]
  · obtain ⟨h0, h1⟩ := hL.cdf_mem y hy
    rw [hL.xToU y hy, StdNormal.cdf_ppf h0 h1]

/-- C87: the exception.  An object of `GEVmin` describes no single law, whatever its arguments: its `ppf` is the upper quantile,
`cdf(ppf(p)) = 1 - p`. -/
theorem C87_gevMin (S : Solvers) (inp : Bool) (p q : ℝ) (kw b : Dict String ℝ) (sp : Option ℝ) (hb : Family.gevMin.bind kw = .ok b)
    (m : Marginal) (hm : Family.gevMin.construct S p q kw inp sp = .ok m) : ¬ ∃ D, OneLaw m D := by
  rintro ⟨D, hL⟩
  simp only [Family.construct, hb, Family.body] at hm
  set s := Family.arg b "shape"
  unfold GEV.newMin at hm
  split at hm
  · cases hm
  dsimp only at hm
  split at hm
  · cases hm
  injection hm with hm
  obtain ⟨hmem, hc⟩ := hL.cdf_ppf (1 / 4) (by norm_num) (by norm_num)
  obtain ⟨hmem', hc'⟩ := hL.cdf_ppf (3 / 4) (by norm_num) (by norm_num)
  subst hm
  simp only [neg_neg, Frozen.locScale, add_sub_cancel_left] at hc hc'
  generalize (if inp = true then (p, q) else GEV.locScale p q s).2 = sc at hc hc'
  by_cases h0 : sc = 0
  · simp only [h0, div_zero] at hc hc'
    linarith
  · rw [mul_div_cancel_left₀ _ h0, ((Frozen.regular_genextreme (-s)).inv _ (by norm_num) (by norm_num)).2] at hc
    norm_num at hc

/-- A Beta variable on [0, 1] given by its two exponents, a class whose quantiles have no closed form. -/
example : ∃ (m : Marginal) (D : Set ℝ), Family.beta.construct fixedSolvers 2 3 [] true (some 0.3) = .ok m ∧ Faithful m D ∧ OneLaw m D ∧
    m.startpoint = (some 0.3).getD m.mean :=
  C87_every _ _ _ _ _ _ [("a", 0), ("b", 1)] _ (by simp [Family.bind, Family.keywords, Family.bindAll, Dict.get?])
    (by simp [Accepted, Family.arg, Dict.get?])

/-- A Weibull variable whose solver has not found the exact shape is still one law. -/
example : ∃ (m : Marginal) (D : Set ℝ), Family.weibull.construct fixedSolvers 10 7 [("epsilon", 1)] false none = .ok m ∧
    Faithful m D ∧ OneLaw m D ∧ m.startpoint = (none : Option ℝ).getD m.mean :=
  C87_every _ _ _ _ _ _ [("epsilon", 1)] _ (by simp [Family.bind, Family.keywords, Family.bindAll, Dict.get?])
    (by simp [Accepted, Family.arg, Dict.get?, fixedSolvers])

end Pystra.Props
