import Verif.Props.UnitsFamilies
import Verif.Props.CopiesExample

/-! C90: one theorem for the distribution classes, and the solvers. -/

namespace Pystra.Props
open Real Set Spec Distribution

theorem unitArgs_keys (off fac : ℝ) (b : Dict String ℝ) : Dict.keys (unitArgs off fac b) = Dict.keys b := by
  simp [Dict.keys, unitArgs, Function.comp_def]

theorem unitArgs_get (off fac : ℝ) (b : Dict String ℝ) (k : String) :
    Dict.get? (unitArgs off fac b) k = (Dict.get? b k).map (fun v => if k = "shape" then v else off + fac * v) := by
  induction b with
  | nil => rfl
  | cons p t ih =>
    obtain ⟨k', v⟩ := p
    have ih' : Dict.get? (t.map (fun p => (p.1, if p.1 = "shape" then p.2 else off + fac * p.2))) k = _ := ih
    simp only [unitArgs, List.map_cons, Dict.get?, ih']
    by_cases h : k' = k
    · subst h; simp
    · simp [h]

theorem unitArgs_bound (off fac : ℝ) {b : Dict String ℝ} {k : String} (hk : k ∈ Dict.keys b) (hs : k ≠ "shape") :
    Family.arg (unitArgs off fac b) k = off + fac * Family.arg b k := by
  simp only [Family.arg, unitArgs_get, if_neg hs]
  cases h : Dict.get? b k with
  | none => exact absurd hk ((Dict.get?_eq_none b k).1 h)
  | some v => rfl

theorem unitArgs_shape (off fac : ℝ) (b : Dict String ℝ) : Family.arg (unitArgs off fac b) "shape" = Family.arg b "shape" := by
  simp only [Family.arg, unitArgs_get, if_true]
  cases Dict.get? b "shape" <;> rfl

/-- The bodies. -/
theorem body_units {S : Solvers} (hS : UnitFree S) {off fac : ℝ} (hf : 0 < fac) {F : Family} (hc : ClosedUnder off F) {p q : ℝ}
    {b : Dict String ℝ} (hk : Dict.keys b = F.keywords.map Prod.fst) (hp : Proper S F p q b) (sp : Option ℝ)
    (hs : startPoint p sp ∈ familyDomain F b) :
    RescaledPair off fac (familyDomain F b) (F.body S p q b false sp)
      (F.body S (off + fac * p) (fac * q) (unitArgs off fac b) false (sp.map fun v => off + fac * v)) := by
  cases F
  case normal => exact units_normal hf p hp sp
  case lognormal => cases (show off = 0 from hc); exact units_lognormal hf hp.1 hp.2 sp hs
  case shiftedLognormal =>
    have e := unitArgs_bound off fac (b := b) (k := "lower") (by rw [hk]; simp [Family.keywords]) (by decide)
    simp only [Family.body, e]
    exact units_shiftedLognormal hf hp.1 hp.2 sp hs
  case uniform => exact units_uniform hf p hp sp
  case gamma => cases (show off = 0 from hc); exact units_gamma hf hp.1 hp.2 sp
  case shiftedExponential => exact units_shiftedExponential hf p hp sp
  case shiftedRayleigh => exact units_shiftedRayleigh hf p hp sp
  case gumbel => exact units_gumbel hf p hp sp
  case typeIlargest => exact units_gumbel hf p hp sp
  case typeIsmallest => exact units_typeIsmallest hf p hp sp
  case chiSquare => exact absurd hc (by simp [ClosedUnder])
  case weibull =>
    have e := unitArgs_bound off fac (b := b) (k := "epsilon") (by rw [hk]; simp [Family.keywords]) (by decide)
    simp only [Family.body, e]
    rw [show off + fac * p - (off + fac * Family.arg b "epsilon") = fac * (p - Family.arg b "epsilon") by ring, hS.weibull _ _ _ hf]
    exact units_weibull hf hp.1 hp.2 sp
  case typeIIIsmallest =>
    have e := unitArgs_bound off fac (b := b) (k := "epsilon") (by rw [hk]; simp [Family.keywords]) (by decide)
    simp only [Family.body, e]
    rw [show off + fac * p - (off + fac * Family.arg b "epsilon") = fac * (p - Family.arg b "epsilon") by ring, hS.weibull _ _ _ hf]
    exact units_weibull hf hp.1 hp.2 sp
  case typeIIlargest =>
    cases (show off = 0 from hc)
    simp only [Family.body]
    rw [show S.typeII (0 + fac * p) (fac * q) = S.typeII p q by rw [zero_add, hS.typeII _ _ _ hf]]
    exact units_typeIIlargest hf hp.1 hp.2 sp
  case beta =>
    have e1 := unitArgs_bound off fac (b := b) (k := "a") (by rw [hk]; simp [Family.keywords]) (by decide)
    have e2 := unitArgs_bound off fac (b := b) (k := "b") (by rw [hk]; simp [Family.keywords]) (by decide)
    simp only [Family.body, e1, e2, hS.beta _ _ _ _ _ _ hf]
    exact units_beta hf hp.1 hp.2.1 hp.2.2 sp
  case gevMax =>
    simp only [Family.body, unitArgs_shape]
    exact units_gevMax hf p hp.1 hp.2 sp
  case gevMin =>
    cases (show off = 0 from hc)
    simp only [Family.body, unitArgs_shape]
    exact units_gevMin hf p hp.1 hp.2 sp
  case composite => exact absurd hc (by simp [ClosedUnder])

/-- The distribution classes in other units: called with mean, standard deviation and bounds (and start point) converted to the new
unit, a class makes the object of the converted quantity: its moments and start point are the converted ones, its `cdf` and `pdf` those
of the converted law, and `u_to_x`, `x_to_u`, `jacobian` go through the same standard normal values. -/
theorem C90_family (S : Solvers) (hS : UnitFree S) (off fac : ℝ) (hf : 0 < fac) (F : Family) (hc : ClosedUnder off F) (p q : ℝ)
    (kw b : Dict String ℝ) (hb : F.bind kw = .ok b) (hp : Proper S F p q b) (sp : Option ℝ)
    (hs : startPoint p sp ∈ familyDomain F b) :
    ∃ m m', F.construct S p q kw false sp = .ok m ∧
      F.construct S (off + fac * p) (fac * q) (unitArgs off fac b) false (sp.map fun v => off + fac * v) = .ok m' ∧
      Rescaled off fac (familyDomain F b) m m' := by
  have hk := Family.bind_keys hb
  have hb' : F.bind (unitArgs off fac b) = .ok (unitArgs off fac b) := Family.bind_of_keys (by rw [unitArgs_keys, hk])
  obtain ⟨m, m', h1, h2, h3⟩ := body_units hS hf hc hk hp sp hs
  refine ⟨m, m', ?_, ?_, h3⟩
  · simp only [Family.construct, hb, h1]
  · simp only [Family.construct, hb', h2]

/-- What scipy's solvers are given.  The equations for the shapes of `Weibull` and `TypeIIlargestValue` (`fsolve`) do not depend on the
unit, so neither does a deterministic solver's answer.  The criterion of `Beta` (`fmin`) is multiplied by the factor of the unit: the
minimisers are the same; only a search with an absolute tolerance on the criterion can notice. -/
theorem C90_equations (off fac : ℝ) (hf : 0 < fac) (x a b m s : ℝ) :
    Weibull.parameter x (fac * m) (fac * s) = Weibull.parameter x m s ∧
    TypeIIlargest.parameter x (fac * m) (fac * s) = TypeIIlargest.parameter x m s ∧
    BetaDist.parameter x (off + fac * a) (off + fac * b) (off + fac * m) (fac * s) = fac * BetaDist.parameter x a b m s := by
  refine ⟨?_, ?_, ?_⟩
  · simp only [Weibull.parameter, mul_div_mul_left _ _ hf.ne']
  · simp only [TypeIIlargest.parameter, mul_div_mul_left _ _ hf.ne']
  · simp only [BetaDist.parameter]
    have e : (off + fac * b - (off + fac * m)) * (off + fac * m - (off + fac * a))⁻¹ = (b - m) * (m - a)⁻¹ := by
      rw [show off + fac * b - (off + fac * m) = fac * (b - m) by ring, show off + fac * m - (off + fac * a) = fac * (m - a) by ring,
        mul_inv]
      field_simp
    rw [e, ← abs_of_pos hf, ← abs_mul, abs_of_pos hf]
    congr 1
    ring

/-- `GEVmin` and an offset: the mean moves with it, but `u_to_x` (which uses the frozen object of `-X`) moves the other way, so the
analyses of a model with a `GEVmin` variable depend on where its scale starts. -/
theorem C90_gevMin (off p : ℝ) {q s : ℝ} (hq : 0 < q) (hs : s < 1 / 2) (sp sp' : Option ℝ) :
    ∃ m m', GEV.newMin p q s false sp = .ok m ∧ GEV.newMin (off + p) q s false sp' = .ok m' ∧ m'.mean = off + m.mean ∧
      ∀ u, m'.uToX u = -off + m.uToX u := by
  have h5 : ¬ s ≥ 0.5 := by norm_num; linarith
  have e : GEV.locScale (off + p) q s = (off + (GEV.locScale p q s).1, (GEV.locScale p q s).2) := by
    have := gev_units off 1 p q s
    simpa only [one_mul] using this
  have hm : ∀ l, ∃ r, ∀ sp, ∃ c, initMoments (some ((Frozen.genextreme (-s)).locScale l (GEV.locScale p q s).2)) none none sp = .ok (r, c) := by
    intro l
    exact ⟨_, fun sp => ⟨_, (moments_units (off := 0) (fac := 1) ((mom_gev hs).locScale l (gev_scale_pos p hq hs)) one_pos sp).1⟩⟩
  obtain ⟨r, hr⟩ := hm (-(GEV.locScale p q s).1)
  obtain ⟨r', hr'⟩ := hm (-(off + (GEV.locScale p q s).1))
  obtain ⟨c, hc⟩ := hr sp
  obtain ⟨c', hc'⟩ := hr' sp'
  unfold GEV.newMin
  simp only [if_neg h5, Bool.false_eq_true, if_false, e, hc, hc']
  refine ⟨_, _, rfl, rfl, rfl, fun u => ?_⟩
  simp only [Frozen.locScale]
  ring

/-- Solvers that answer by the problem in a normalised unit are `UnitFree`. -/
example : UnitFree fixedSolvers := ⟨fun _ _ _ _ => rfl, fun _ _ _ _ => rfl, fun _ _ _ _ _ _ _ => rfl⟩

/-- A shifted lognormal temperature in degrees Celsius, and the same in Fahrenheit. -/
example : ∃ m m', Family.shiftedLognormal.construct fixedSolvers 20 5 [("lower", -10)] false (some 25) = .ok m ∧
    Family.shiftedLognormal.construct fixedSolvers (32 + 1.8 * 20) (1.8 * 5) (unitArgs 32 1.8 [("lower", -10)]) false (some (32 + 1.8 * 25)) =
      .ok m' ∧ Rescaled 32 1.8 (Ioi (Family.arg [("lower", -10)] "lower")) m m' :=
  C90_family fixedSolvers ⟨fun _ _ _ _ => rfl, fun _ _ _ _ => rfl, fun _ _ _ _ _ _ _ => rfl⟩ 32 1.8 (by norm_num) .shiftedLognormal
    trivial 20 5 _ _ (Family.bind_of_keys rfl) (by norm_num [Proper, Family.arg, Dict.get?]) (some 25)
    (by norm_num [familyDomain, Family.arg, Dict.get?, startPoint])

end Pystra.Props
