import Verif.Props.Copies
import Mathlib.Analysis.Calculus.MeanValue

/-! C86: the cdf sensitivities of the classes without formulas of their own. -/

namespace Pystra.Props
open Real Set Spec Distribution Family

/-- The loop over the parameters. -/
theorem baseDFLoop_eq (d : Dist) (x : ℝ) (val : String → ℝ → Except PyErr Marginal) (ps : Dict String ℝ)
    (h : ∀ p ∈ ps, ∀ t, ∃ kws, d.makeCopy [(p.1, t)] = (val p.1 t).map (fun m => ⟨d.cls, m, kws⟩))
    (hok : ∀ p ∈ ps, Returns (val p.1 (p.2 + step p.2 d.marg.stdv)) ∧ Returns (val p.1 (p.2 - step p.2 d.marg.stdv))) :
    d.baseDFLoop x ps = .ok (ps.map (fun p => (p.1, central (val p.1) p.2 (step p.2 d.marg.stdv) x))) := by
  induction ps with
  | nil => rfl
  | cons p t ih =>
    obtain ⟨name, v⟩ := p
    obtain ⟨⟨m1, h1⟩, m2, h2⟩ := hok (name, v) (by simp)
    obtain ⟨_, c1⟩ := h (name, v) (by simp) (v + step v d.marg.stdv)
    obtain ⟨_, c2⟩ := h (name, v) (by simp) (v - step v d.marg.stdv)
    simp only at h1 h2 c1 c2
    rw [h1] at c1
    rw [h2] at c2
    simp only [Except.map] at c1 c2
    unfold Dist.baseDFLoop
    simp only [step] at c1 c2 h1 h2
    simp only [c1, c2, ih (fun p hp => h p (List.mem_cons_of_mem _ hp)) (fun p hp => hok p (List.mem_cons_of_mem _ hp))]
    simp only [List.map_cons, central, step, h1, h2, cdfAt]

/-- The sensitivities of an object whose copy passes the check. -/
theorem dF_of_copy {S : Solvers} {F : Family} {b : Dict String ℝ} {m m' : Marginal} {l : ℝ} (hk : F.bind b = .ok b)
    (ho : F.override l = none)
    (hc : F.construct S m.mean m.stdv b false none = .ok m')
    (hv : |m'.cdf (m.mean + 0.5 * m.stdv) - m.cdf (m.mean + 0.5 * m.stdv)| ≤ 1e-6 * (1 + |m.cdf (m.mean + 0.5 * m.stdv)|))
    (hd : Differentiable S F b m.mean m.stdv) (x : ℝ) :
    Dist.dFDtheta ⟨F.cls S l, m, b⟩ x = .ok (cdfDifferences S F b m.mean m.stdv x) := by
  have hkeys := bind_keys hk
  obtain ⟨k1, k2, k3⟩ := keywords_plain F
  rw [← hkeys] at k1 k2 k3
  have hx : ∀ name ∈ F.extra, name ∈ Dict.keys b := by
    rw [hkeys]
    cases F <;> simp [Family.extra, Family.keywords]
  obtain ⟨d, hdd⟩ : ∃ d : Dist, d = ⟨F.cls S l, m, b⟩ := ⟨_, rfl⟩
  have dcls : d.cls = F.cls S l := by rw [hdd]
  have dm : d.marg = m := by rw [hdd]
  have db : d.kwargs = b := by rw [hdd]
  rw [← hdd]
  have cp := Props.C52_copy d (by rw [db]; exact k1) (by rw [db]; exact k2) (by rw [db]; exact k3)
  unfold Dist.dFDtheta
  rw [dcls, show (F.cls S l).dF = none from ho]
  show d.baseDF x = _
  have c0 := (cp 0).1
  rw [dcls, dm, db, show (F.cls S l).new m.mean m.stdv b = .ok m' from hc] at c0
  unfold Dist.baseDF
  rw [c0]
  simp only [Except.map, dm]
  rw [if_neg (not_lt.2 hv)]
  have sp : d.sensitivityParams = ("mean", m.mean) :: ("std", m.stdv) :: F.extra.map (fun p => (p, Family.arg b p)) := by
    unfold Dist.sensitivityParams Family.arg
    rw [dm, dcls, db]; rfl
  rw [sp]
  obtain ⟨d1, d2, d3⟩ := hd
  have nx : "mean" ∉ F.extra ∧ "std" ∉ F.extra := ⟨fun h => k2 (hx _ h), fun h => k3 (hx _ h)⟩
  rw [baseDFLoop_eq d x (fun name t => if name = "mean" then F.construct S t m.stdv b false none
    else if name = "std" then F.construct S m.mean t b false none else F.construct S m.mean m.stdv (Dict.set b name t) false none)]
  · simp only [List.map_cons, if_true, cdfDifferences, List.map_map, dm]
    congr 3
    apply List.map_congr_left
    intro name hn
    have e1 : name ≠ "mean" := fun h => nx.1 (h ▸ hn)
    have e2 : name ≠ "std" := fun h => nx.2 (h ▸ hn)
    simp [e1, e2]
  · intro p hp t
    obtain ⟨_, c1, c2, c3⟩ := cp t
    rw [dcls, dm, db] at c1 c2 c3
    rw [dcls]
    simp only [List.mem_cons, List.mem_map] at hp
    rcases hp with rfl | rfl | ⟨name, hn, rfl⟩
    · exact ⟨_, c1⟩
    · exact ⟨_, c2⟩
    · have e1 : name ≠ "mean" := fun h => nx.1 (h ▸ hn)
      have e2 : name ≠ "std" := fun h => nx.2 (h ▸ hn)
      simp only [if_neg e1, if_neg e2]
      exact ⟨_, c3 name (hx _ hn)⟩
  · intro p hp
    simp only [List.mem_cons, List.mem_map] at hp
    rw [dm]
    rcases hp with rfl | rfl | ⟨name, hn, rfl⟩
    · simpa using d1
    · simpa using d2
    · have e1 : name ≠ "mean" := fun h => nx.1 (h ▸ hn)
      have e2 : name ≠ "std" := fun h => nx.2 (h ▸ hn)
      simp only [if_neg e1, if_neg e2]
      exact d3 name hn

/-- What an object made by a constructor call consists of. -/
theorem object_ok {S : Solvers} {F : Family} {p q : ℝ} {kw b : Dict String ℝ} {inp : Bool} {sp : Option ℝ} {o : Dist}
    (hb : F.bind kw = .ok b) (ho : F.object S p q kw inp sp = .ok o) :
    ∃ m, F.body S p q b inp none = .ok m ∧ o = ⟨F.cls S (arg b "lower"), { m with startpoint := sp.getD m.mean }, b⟩ := by
  unfold Family.object at ho
  rw [hb] at ho
  simp only [body_sp S F p q b inp sp] at ho
  rcases hm : F.body S p q b inp none with e | m
  · rw [hm] at ho; cases ho
  · rw [hm] at ho
    simp only [Except.map] at ho
    cases ho
    exact ⟨m, rfl, rfl⟩

/-- The copy of an object is a constructor call with what it reports. -/
theorem construct_of_copy {S : Solvers} {F : Family} {b : Dict String ℝ} {m : Marginal} {l : ℝ} {c : Dist} (hk : F.bind b = .ok b)
    (hc : Dist.makeCopy ⟨F.cls S l, m, b⟩ [] = .ok c) : F.construct S m.mean m.stdv b false none = .ok c.marg := by
  have hkeys := bind_keys hk
  obtain ⟨k1, k2, k3⟩ := keywords_plain F
  rw [← hkeys] at k1 k2 k3
  rw [(Props.C52_copy ⟨F.cls S l, m, b⟩ k1 k2 k3 0).1] at hc
  rcases hn : F.construct S m.mean m.stdv b false none with e | m'
  · simp only [Family.cls, hn] at hc; cases hc
  · simp only [Family.cls, hn] at hc; cases hc; rfl

/-- C86: for a class without formulas of its own, `dF_dtheta(x)` is the list of central differences of the cdf, in the order mean,
standard deviation, further parameters — provided the constructor accepts the varied parameters. -/
theorem C86_entries (S : Solvers) (F : Family) (inp : Bool) (p q : ℝ) (kw b : Dict String ℝ) (sp : Option ℝ) (hb : F.bind kw = .ok b)
    (hr : Reproducible S F inp p q b) (hF : F ≠ .normal ∧ F ≠ .lognormal ∧ F ≠ .shiftedLognormal) :
    ∃ o, F.object S p q kw inp sp = .ok o ∧
      (Differentiable S F b o.marg.mean o.marg.stdv → ∀ x, o.dFDtheta x = .ok (cdfDifferences S F b o.marg.mean o.marg.stdv x)) := by
  obtain ⟨o, c, ho, hc, hre⟩ := C85_copy S F inp p q kw b sp hb hr
  refine ⟨o, ho, fun hd x => ?_⟩
  obtain ⟨m, hm, rfl⟩ := object_ok hb ho
  have hk := bind_bound hb
  have hcon := construct_of_copy hk hc
  refine dF_of_copy hk ?_ hcon ?_ hd x
  · cases F <;> first | rfl | simp at hF
  · obtain ⟨_, _, _, _, _, hcdf, _⟩ := hre
    rw [hcdf, sub_self, abs_zero]
    positivity

/-- C86: a central difference is the derivative at a parameter value within the step. -/
theorem C86_mean_value (make : ℝ → Except PyErr Marginal) (v x : ℝ) {h : ℝ} (hh : 0 < h) (D : ℝ → ℝ)
    (hD : ∀ t ∈ Icc (v - h) (v + h), HasDerivAt (fun t => cdfAt (make t) x) (D t) t) :
    ∃ t ∈ Ioo (v - h) (v + h), central make v h x = D t := by
  obtain ⟨t, ht, he⟩ := exists_hasDerivAt_eq_slope (fun t => cdfAt (make t) x) D (by linarith : v - h < v + h)
    (fun t ht => (hD t ht).continuousAt.continuousWithinAt) (fun t ht => hD t (Ioo_subset_Icc_self ht))
  refine ⟨t, ht, ?_⟩
  rw [he]
  unfold central
  congr 1
  ring

/-- The members of a location–scale class. -/
theorem locScale_family (S : Solvers) (F : Family) (hF : F ∈ locationScale) :
    ∃ (f : Frozen) (U : Set ℝ) (A B : ℝ), 0 < B ∧ Regular f U ∧ (∀ z, 0 < f.cdf z → f.cdf z < 1 → z ∈ U) ∧
      ∀ m s : ℝ, 0 < s → ∃ mm, F.construct S m s [] false none = .ok mm ∧ mm.cdf = (f.locScale (m + A * s) (B * s)).cdf ∧
        mm.pdf = (f.locScale (m + A * s) (B * s)).pdf := by
  have fromF : ∀ {D : Set ℝ} {f : Frozen} {μ σ : ℝ}, Good (ofFrozen f none) none D μ σ → ∃ mm, ofFrozen f none = .ok mm ∧
      mm.cdf = f.cdf ∧ mm.pdf = f.pdf := by
    intro D f μ σ hg
    obtain ⟨mm, hmm, _⟩ := hg.ex
    obtain ⟨a1, a2, _⟩ := ofFrozen_ok hmm
    exact ⟨mm, hmm, a2, a1⟩
  simp only [locationScale, List.mem_cons, List.not_mem_nil, or_false] at hF
  have gum : ∃ (f : Frozen) (U : Set ℝ) (A B : ℝ), 0 < B ∧ Regular f U ∧ (∀ z, 0 < f.cdf z → f.cdf z < 1 → z ∈ U) ∧
      ∀ m s : ℝ, 0 < s → ∃ mm, Gumbel.new m s false none = .ok mm ∧ mm.cdf = (f.locScale (m + A * s) (B * s)).cdf ∧
        mm.pdf = (f.locScale (m + A * s) (B * s)).pdf := by
    refine ⟨Frozen.gumbelR, univ, -(0.5772156649 * √6 / π), √6 / π, by positivity, Frozen.regular_gumbelR, fun _ _ _ => mem_univ _, fun m s hs => ?_⟩
    have e : Gumbel.frozen m s false = Frozen.gumbelR.locScale (m + -(0.5772156649 * √6 / π) * s) (√6 / π * s) := by
      simp only [Gumbel.frozen, Bool.false_eq_true, if_false]
      congr 1 <;> ring
    rw [← e]
    exact fromF (good_gumbel m hs none)
  rcases hF with rfl | rfl | rfl | rfl | rfl | rfl
  · have h3 : 0 < √(3:ℝ) := by positivity
    refine ⟨Frozen.uniform01, Ioo 0 1, -√3, 2 * √3, by positivity, Frozen.regular_uniform01, fun z h0 h1 => ?_, fun m s hs => ?_⟩
    · simp only [Frozen.uniform01, lt_max_iff, lt_self_iff_false, false_or, lt_min_iff, max_lt_iff, min_lt_iff, or_false] at h0 h1
      exact ⟨h0.1, h1.2⟩
    · have hg := (good_uniform m hs none).ex
      obtain ⟨mm, hmm, _⟩ := hg
      refine ⟨mm, hmm, ?_⟩
      have e : Frozen.uniform01.locScale (Uniform.bounds m s false).1 ((Uniform.bounds m s false).2 - (Uniform.bounds m s false).1) =
          Frozen.uniform01.locScale (m + -√3 * s) (2 * √3 * s) := by
        simp only [Uniform.bounds, Bool.false_eq_true, if_false]
        congr 1 <;> ring
      rw [← e]
      unfold Uniform.new at hmm
      dsimp only at hmm
      rcases hi : initMoments (some (Frozen.uniform01.locScale (Uniform.bounds m s false).1
        ((Uniform.bounds m s false).2 - (Uniform.bounds m s false).1))) none none none with e | ⟨a, b, c⟩
      · simp only [hi] at hmm; cases hmm
      · simp only [hi] at hmm; cases hmm; exact ⟨rfl, rfl⟩
  · refine ⟨Frozen.expon, Ioi 0, -1, 1, one_pos, Frozen.regular_expon, fun z h0 _ => ?_, fun m s hs => ?_⟩
    · simp only [Frozen.expon] at h0
      split at h0
      · rename_i hz
        rcases hz.lt_or_eq with h | h
        · exact h
        · rw [← h] at h0; simp at h0
      · exact absurd h0 (lt_irrefl _)
    · have e : ShiftedExponential.frozen m s false = Frozen.expon.locScale (m + -1 * s) (1 * s) := by
        simp only [ShiftedExponential.frozen, Bool.false_eq_true, if_false, one_div_one_div]
        congr 1 <;> ring
      rw [← e]
      exact fromF (good_shiftedExponential m hs none)
  · have h4 : 0 < 4 - π := by linarith [pi_lt_d2]
    have hp : 0 < 2 - π * 0.5 := by linarith
    have hp' := sqrt_pos.2 hp
    refine ⟨Frozen.rayleigh, Ioi 0, -√(π / (4 - π)), 1 / √(2 - π * 0.5), by positivity, Frozen.regular_rayleigh, fun z h0 _ => ?_, fun m s hs => ?_⟩
    · simp only [Frozen.rayleigh] at h0
      split at h0
      · rename_i hz
        rcases hz.lt_or_eq with h | h
        · exact h
        · rw [← h] at h0; simp at h0
      · exact absurd h0 (lt_irrefl _)
    · have e : ShiftedRayleigh.frozen m s false = Frozen.rayleigh.locScale (m + -√(π / (4 - π)) * s) (1 / √(2 - π * 0.5) * s) := by
        simp only [ShiftedRayleigh.frozen, Bool.false_eq_true, if_false]
        congr 1 <;> ring
      rw [← e]
      exact fromF (good_shiftedRayleigh m hs none)
  · exact gum
  · exact gum
  · refine ⟨Frozen.gumbelL, univ, 0.5772156649 * √6 / π, √6 / π, by positivity, Frozen.regular_gumbelL, fun _ _ _ => mem_univ _, fun m s hs => ?_⟩
    have e : TypeIsmallest.frozen m s false = Frozen.gumbelL.locScale (m + 0.5772156649 * √6 / π * s) (√6 / π * s) := by
      simp only [TypeIsmallest.frozen, Bool.false_eq_true, if_false, one_div_div]
      congr 1 <;> ring
    rw [← e]
    exact fromF (good_typeIsmallest m hs none)

/-- C86: in a location–scale class the entry for the mean is minus a density, that for the standard deviation minus the standardised
distance times a density; the densities are those of a member of the class whose mean (standard deviation) differs by less than the
step.  (`x` must be an interior point of the support for all members within the step.) -/
theorem C86_location_scale (S : Solvers) (F : Family) (hF : F ∈ locationScale) (μ : ℝ) {σ h : ℝ} (hh : 0 < h) (hσ : h < σ) (x : ℝ) :
    ((∀ t ∈ Icc (μ - h) (μ + h), 0 < cdfAt (F.construct S t σ [] false none) x ∧ cdfAt (F.construct S t σ [] false none) x < 1) →
      ∃ t ∈ Ioo (μ - h) (μ + h), central (fun t => F.construct S t σ [] false none) μ h x = -pdfAt (F.construct S t σ [] false none) x) ∧
    ((∀ t ∈ Icc (σ - h) (σ + h), 0 < cdfAt (F.construct S μ t [] false none) x ∧ cdfAt (F.construct S μ t [] false none) x < 1) →
      ∃ t ∈ Ioo (σ - h) (σ + h), central (fun t => F.construct S μ t [] false none) σ h x =
        -((x - μ) / t * pdfAt (F.construct S μ t [] false none) x)) := by
  obtain ⟨f, U, A, B, hB, hr, hU, hm⟩ := locScale_family S F hF
  have hs0 : 0 < σ := hh.trans hσ
  have val : ∀ m s : ℝ, 0 < s → cdfAt (F.construct S m s [] false none) x = f.cdf ((x - (m + A * s)) / (B * s)) ∧
      pdfAt (F.construct S m s [] false none) x = f.pdf ((x - (m + A * s)) / (B * s)) / (B * s) := by
    intro m s hs
    obtain ⟨mm, hmm, h1, h2⟩ := hm m s hs
    rw [hmm]
    exact ⟨congrFun h1 x, congrFun h2 x⟩
  constructor
  · intro hall
    refine C86_mean_value (fun t => F.construct S t σ [] false none) μ x hh (fun t => -pdfAt (F.construct S t σ [] false none) x) fun t ht => ?_
    have e : (fun t => cdfAt (F.construct S t σ [] false none) x) = fun t => f.cdf ((x - (t + A * σ)) / (B * σ)) :=
      funext fun t => (val t σ hs0).1
    obtain ⟨h0, h1⟩ := hall t ht
    rw [(val t σ hs0).1] at h0 h1
    have hd := hr.deriv _ (hU _ h0 h1)
    have hi : HasDerivAt (fun t : ℝ => (x - (t + A * σ)) / (B * σ)) (-1 / (B * σ)) t :=
      (((hasDerivAt_id t).add_const (A * σ)).const_sub x).div_const (B * σ)
    rw [e, (val t σ hs0).2]
    refine (hd.comp t hi).congr_deriv ?_
    ring
  · intro hall
    refine C86_mean_value (fun t => F.construct S μ t [] false none) σ x hh (fun t => -((x - μ) / t * pdfAt (F.construct S μ t [] false none) x))
      fun t ht => ?_
    have ht0 : 0 < t := by have := ht.1; linarith
    obtain ⟨h0, h1⟩ := hall t ht
    rw [(val μ t ht0).1] at h0 h1
    have hd := hr.deriv _ (hU _ h0 h1)
    have hi : HasDerivAt (fun t : ℝ => (x - (μ + A * t)) / (B * t)) (-((x - μ) / t) / (B * t)) t := by
      have h1 : HasDerivAt (fun t : ℝ => x - (μ + A * t)) (-A) t := by
        have := (((hasDerivAt_id t).const_mul A).const_add μ).const_sub x
        simpa using this
      have h2 : HasDerivAt (fun t : ℝ => B * t) B t := by simpa using (hasDerivAt_id t).const_mul B
      refine (h1.div h2 (by positivity)).congr_deriv ?_
      field_simp
      ring
    rw [(val μ t ht0).2]
    refine ((hd.comp t hi).congr_of_eventuallyEq ?_).congr_deriv ?_
    · filter_upwards [eventually_gt_nhds ht0] with t' ht'
      exact (val μ t' ht').1
    · ring

end Pystra.Props
