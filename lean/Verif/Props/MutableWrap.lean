import Verif.Props.Mutable

/-! C72, continued: wrappers, stale state, and examples. -/

namespace Pystra.Props
open Mutable Spec.Mut Distribution Real MeasureTheory

variable (E : Mutable.Env)

/-- A setter on a wrapper that returned normally. -/
theorem set_wrapper (k : Param) (v : ℝ) (w : World) (hw : WF w.objs) (i j : ℕ) (o : Obj) (ho : w.objs[i]? = some o)
    (hb : o.body.child = some j) (hok : (Mutable.set E k v w i).2 = none) :
    (Mutable.set E k v w j).2 = none ∧ Mutable.set E k v w i = (refresh E (Mutable.set E k v w j).1 i o, none) ∧
      ∀ o' : Obj, view E ((Mutable.set E k v w j).1.objs.set i o') j = view E (Mutable.set E k v w j).1.objs j := by
  have hj : j < i := hw i o ho j hb
  have hw' : WF (Mutable.set E k v w j).1.objs := by
    by_cases hl : j < w.objs.length
    · exact run_wf E (.set k j v) w hl hw
    · have : (Mutable.set E k v w j).1 = w := by
        rw [Mutable.set, List.getElem?_eq_none (by omega)]
      rw [this]; exact hw
  have hv : ∀ o' : Obj, view E ((Mutable.set E k v w j).1.objs.set i o') j = view E (Mutable.set E k v w j).1.objs j := by
    intro o'
    apply view_congr
    intro l hl
    have := reaches_le hw' hl
    rw [List.getElem?_set_ne (by omega)]
  have heq : Mutable.set E k v w i = if (Mutable.set E k v w j).2 = none
      then (refresh E (Mutable.set E k v w j).1 i o, none) else Mutable.set E k v w j := by
    conv_lhs => rw [Mutable.set]
    simp only [ho, hb, hj, dite_true]
  rw [heq] at hok ⊢
  split at hok
  · next h => exact ⟨h, by rw [if_pos h], hv⟩
  · next h => exact absurd hok h

/-- C72: `set_location`/`set_scale` on a `ZeroInflated` object act on the wrapped object; afterwards the wrapper is what
`ZeroInflated` would be built from it now (moments included), with its own start point. -/
theorem C72_zeroInflated (k : Param) (v : ℝ) (w : World) (hw : WF w.objs) (i j : ℕ) (p sp : ℝ) (ms : Option (ℝ × ℝ))
    (ho : w.objs[i]? = some ⟨.zeroInflated j p, ms, some sp⟩)
    (hok : (Op.run E w (.set k i v)).2 = none) (d : Marginal)
    (hd : view E (Op.run E w (.set k i v)).1.objs j = some d) :
    view E (Op.run E w (.set k j v)).1.objs j = some d ∧
    view E (Op.run E w (.set k i v)).1.objs i = some (ZeroInflated.obj d p sp) := by
  simp only [Op.run] at *
  obtain ⟨h1, h2, h3⟩ := set_wrapper E k v w hw i j _ ho rfl hok
  rw [h2] at hd ⊢
  rw [refresh_objs, h3] at hd
  refine ⟨hd, ?_⟩
  have hl : i < (Mutable.set E k v w j).1.objs.length := by
    rw [set_length]; exact (List.getElem?_eq_some_iff.1 ho).1
  rw [view, refresh_objs, List.getElem?_set_self hl]
  simp only [Option.bind_some, newStats, hd, Option.map_some, methods, hw i _ ho j rfl, dite_true]
  rw [h3, hd]
  rfl

/-- C72: the same for `Maximum`; its new mean and standard deviation are those of the quantiles at the last hundred
uniform numbers drawn. -/
theorem C72_maximum (k : Param) (v : ℝ) (w : World) (hw : WF w.objs) (i j : ℕ) (N sp : ℝ) (hN : 1 ≤ N)
    (ms : Option (ℝ × ℝ)) (ho : w.objs[i]? = some ⟨.maximum j N, ms, some sp⟩)
    (hok : (Op.run E w (.set k i v)).2 = none) (d : Marginal)
    (hd : view E (Op.run E w (.set k i v)).1.objs j = some d) :
    view E (Op.run E w (.set k j v)).1.objs j = some d ∧
    ∃ m, Maximum.new (E.fmin d.mean) (simStats E (ppfBySearch (E.fmin d.mean) (Maximum.cdf d N))
        ((Op.run E w (.set k i v)).1.pos - 100)) d N (some sp) = .ok m ∧
      view E (Op.run E w (.set k i v)).1.objs i = some m := by
  simp only [Op.run] at *
  obtain ⟨h1, h2, h3⟩ := set_wrapper E k v w hw i j _ ho rfl hok
  rw [h2] at hd ⊢
  rw [refresh_objs, h3] at hd
  refine ⟨hd, _, by simp only [Maximum.new, not_lt.2 hN, if_false]; rfl, ?_⟩
  have hl : i < (Mutable.set E k v w j).1.objs.length := by
    rw [set_length]; exact (List.getElem?_eq_some_iff.1 ho).1
  rw [view, refresh_objs, List.getElem?_set_self hl]
  simp only [Option.bind_some, newStats, hd, Option.map_some, methods, hw i _ ho j rfl, dite_true, refresh,
    Nat.add_sub_cancel]
  rw [h3, hd]
  rfl

/-- C72: the same for `MaxParent`. -/
theorem C72_maxParent (k : Param) (v : ℝ) (w : World) (hw : WF w.objs) (i j : ℕ) (N sp : ℝ) (hN : 1 ≤ N)
    (ms : Option (ℝ × ℝ)) (ho : w.objs[i]? = some ⟨.maxParent j N, ms, some sp⟩)
    (hok : (Op.run E w (.set k i v)).2 = none) (d : Marginal)
    (hd : view E (Op.run E w (.set k i v)).1.objs j = some d) :
    view E (Op.run E w (.set k j v)).1.objs j = some d ∧
    ∃ m, MaxParent.new (E.fmin d.mean) (simStats E (ppfBySearch (E.fmin d.mean) (MaxParent.cdf d N))
        ((Op.run E w (.set k i v)).1.pos - 100)) d N (some sp) = .ok m ∧
      view E (Op.run E w (.set k i v)).1.objs i = some m := by
  simp only [Op.run] at *
  obtain ⟨h1, h2, h3⟩ := set_wrapper E k v w hw i j _ ho rfl hok
  rw [h2] at hd ⊢
  rw [refresh_objs, h3] at hd
  refine ⟨hd, _, by simp only [MaxParent.new, not_lt.2 hN, if_false]; rfl, ?_⟩
  have hl : i < (Mutable.set E k v w j).1.objs.length := by
    rw [set_length]; exact (List.getElem?_eq_some_iff.1 ho).1
  rw [view, refresh_objs, List.getElem?_set_self hl]
  simp only [Option.bind_some, newStats, hd, Option.map_some, methods, hw i _ ho j rfl, dite_true, refresh,
    Nat.add_sub_cancel]
  rw [h3, hd]
  rfl

/-- C72 (finding): a setter called on the wrapped object itself changes the wrapper's methods but not its `mean` and
`stdv`. -/
theorem C72_stale_wrapper (k : Param) (v : ℝ) (w : World) (hw : WF w.objs) (i j : ℕ) (p sp m s : ℝ)
    (ho : w.objs[i]? = some ⟨.zeroInflated j p, some (m, s), some sp⟩) (d : Marginal)
    (hd : view E (Op.run E w (.set k j v)).1.objs j = some d) :
    view E (Op.run E w (.set k j v)).1.objs i = some { ZeroInflated.obj d p sp with mean := m, stdv := s } := by
  have hj : j < i := hw i _ ho j rfl
  have hf : (Op.run E w (.set k j v)).1.objs[i]? = some ⟨.zeroInflated j p, some (m, s), some sp⟩ := by
    simp only [Op.run]
    rw [set_frame E k v w j i (fun h => absurd (reaches_le hw h) (by omega)), ho]
  rw [view, hf]
  simp only [Option.bind_some, methods, hj, dite_true, hd, Option.map_some]
  rfl

/-- C72: `set_zero_probability` and `set_exponent` rebuild the wrapper from the wrapped object's present state, with the
new parameter and the old start point; nothing is checked. -/
theorem C72_parameters (w : World) (hw : WF w.objs) (i j : ℕ) (sp : ℝ) (ms : Option (ℝ × ℝ)) (d : Marginal)
    (hd : view E w.objs j = some d) :
    (∀ p p' : ℝ, w.objs[i]? = some ⟨.zeroInflated j p, ms, some sp⟩ →
      (Op.run E w (.setZero i p')).2 = none ∧
      view E (Op.run E w (.setZero i p')).1.objs i = some (ZeroInflated.obj d p' sp) ∧
      view E (Op.run E w (.setZero i p')).1.objs j = some d) ∧
    ∀ N N' : ℝ, w.objs[i]? = some ⟨.maxParent j N, ms, some sp⟩ →
      (Op.run E w (.setExponent i N')).2 = none ∧
      (1 ≤ N' → ∃ m, MaxParent.new (E.fmin d.mean) (simStats E (ppfBySearch (E.fmin d.mean) (MaxParent.cdf d N')) w.pos) d
        N' (some sp) = .ok m ∧ view E (Op.run E w (.setExponent i N')).1.objs i = some m) ∧
      view E (Op.run E w (.setExponent i N')).1.objs j = some d := by
  have hv : j < i → ∀ o' : Obj, view E (w.objs.set i o') j = some d := by
    intro hj o'
    rw [← hd]
    apply view_congr
    intro l hl
    have := reaches_le hw hl
    rw [List.getElem?_set_ne (by omega)]
  constructor
  · intro p p' ho
    have hj : j < i := hw i _ ho j rfl
    have hl : i < w.objs.length := (List.getElem?_eq_some_iff.1 ho).1
    simp only [Op.run, setZero, ho, refresh_objs]
    refine ⟨trivial, ?_, hv hj _⟩
    rw [view, List.getElem?_set_self hl]
    simp only [Option.bind_some, newStats, hd, Option.map_some, methods, hj, dite_true, hv hj]
    rfl
  · intro N N' ho
    have hj : j < i := hw i _ ho j rfl
    have hl : i < w.objs.length := (List.getElem?_eq_some_iff.1 ho).1
    simp only [Op.run, setExponent, ho, refresh_objs]
    refine ⟨trivial, fun hN => ⟨_, by simp only [MaxParent.new, not_lt.2 hN, if_false]; rfl, ?_⟩, hv hj _⟩
    rw [view, List.getElem?_set_self hl]
    simp only [Option.bind_some, newStats, hd, Option.map_some, methods, hj, dite_true, hv hj]
    rfl

/-- C72: `setStartPoint` changes the start point and nothing else; with no argument it takes the current mean. -/
theorem C72_start (w : World) (hw : WF w.objs) (i : ℕ) (m : Marginal) (hm : view E w.objs i = some m) (sp : Option ℝ) :
    (Op.run E w (.setStart i sp)).2 = none ∧
    view E (Op.run E w (.setStart i sp)).1.objs i = some { m with startpoint := sp.getD m.mean } := by
  rw [view] at hm
  cases ho : w.objs[i]? with
  | none => simp [ho] at hm
  | some o =>
    have hl : i < w.objs.length := (List.getElem?_eq_some_iff.1 ho).1
    rcases o with ⟨b, ms, sp0⟩
    cases ms with
    | none => simp [ho] at hm
    | some ms =>
      cases sp0 with
      | none => simp [ho] at hm
      | some sp0 =>
        simp only [ho, Option.bind_some] at hm
        have hmean : m.mean = ms.1 := by
          cases b <;> simp only [methods] at hm <;>
            first
            | (split at hm
               · cases hm; rfl
               · cases hm)
            | (cases hm; rfl)
            | (obtain ⟨d, -, e⟩ := Option.map_eq_some_iff.1 hm; rw [← e])
        simp only [Op.run, setStart, ho]
        refine ⟨by simp, ?_⟩
        rw [view, List.getElem?_set_self hl]
        have e : sp.or ((some ms).map Prod.fst) = some (sp.getD m.mean) := by rw [hmean]; cases sp <;> rfl
        simp only [Option.bind_some, e]
        have hlook : ∀ j, b.child = some j → j < i → ∀ o' : Obj, view E (w.objs.set i o') j = view E w.objs j := by
          intro j _ hj o'
          apply view_congr
          intro l hl
          have := reaches_le hw hl
          rw [List.getElem?_set_ne (by omega)]
        cases b <;> simp only [methods] at hm ⊢ <;>
          first
          | (split at hm
             · next h => rw [if_pos h]; cases hm; rfl
             · cases hm)
          | (cases hm; rfl)
          | (obtain ⟨d, hd, e'⟩ := Option.map_eq_some_iff.1 hm
             split at hd
             · next hj =>
               rw [dif_pos hj, hlook _ rfl hj, hd, ← e']; rfl
             · cases hd)

/-- C72 (finding): after any setter on a `GEVmin` object its `mean` is that of `-X`: the mean of its own density with
the sign reversed. -/
theorem C72_gevMin (k : Param) (v : ℝ) (w : World) (i : ℕ) (o : Obj) (f : Frz) (ho : w.objs[i]? = some o)
    (hb : o.body = .gevMin f) (m : Marginal) (hm : view E (Op.run E w (.set k i v)).1.objs i = some m) :
    m.mean = -∫ x, x * m.pdf x := by
  have hl : i < w.objs.length := (List.getElem?_eq_some_iff.1 ho).1
  rcases o with ⟨b, ms, sp⟩
  dsimp only at hb
  subst hb
  simp only [Op.run] at hm
  rw [Mutable.set, view] at hm
  simp only [ho, Body.child, setLeaf, rebuilt, List.getElem?_set_self hl, Option.bind_some] at hm
  cases hmo : (k.upd v f).moments with
  | none => simp [hmo] at hm
  | some ms' =>
    obtain ⟨h1, h2, -⟩ := scale_of_moments hmo
    simp only [hmo, Option.bind_some] at hm
    cases sp with
    | none => simp at hm
    | some sp =>
      simp only [Option.bind_some, methods, if_pos h1, Option.some.injEq] at hm
      rw [← hm]
      dsimp only
      rw [← h2]
      have := integral_neg_eq_self (fun x => -x * (k.upd v f).frozen.pdf (-x)) volume
      simp only [neg_neg] at this
      rw [Frozen.mean, this, ← integral_neg]
      simp only [neg_mul]

/-- The median of a log-normal law with mean `μ` and standard deviation `σ`. -/
noncomputable def logMedian (μ σ : ℝ) : ℝ := μ / √(1 + (σ / μ) ^ 2)

theorem exp_params {μ σ : ℝ} (hμ : 0 < μ) : exp (Lognormal.params μ σ).1 = logMedian μ σ := by
  have h1 : 0 < 1 + (σ / μ) ^ 2 := by positivity
  have h2 : 0 ≤ log (1 + (σ / μ) ^ 2) := log_nonneg (by nlinarith [sq_nonneg (σ / μ)])
  simp only [Lognormal.params, logMedian]
  rw [sq_sqrt h2, exp_sub, exp_log hμ, show (0.5 : ℝ) * log (1 + (σ / μ) ^ 2) = log (√(1 + (σ / μ) ^ 2)) by
    rw [Real.log_sqrt h1.le]; ring, exp_log (by positivity)]

/-- C72 (finding): a `Lognormal` object whose settings changed the median contradicts itself: the value `ppf` returns
for one half is not the median of its `cdf` (and `sample`, which uses `ppf`, draws from the old law). -/
theorem C72_lognormal_stale {μ σ μ' σ' : ℝ} (hμ : 0 < μ) (hσ : 0 < σ) (hμ' : 0 < μ') (hσ' : 0 < σ') (sp sp' : Option ℝ)
    (old m : Marginal) (h : Lognormal.new μ σ false sp = .ok old) (h' : Lognormal.new μ' σ' false sp' = .ok m) :
    m.cdf (old.ppf (1 / 2)) = 1 / 2 ↔ logMedian μ σ = logMedian μ' σ' := by
  obtain ⟨hz, -⟩ := lognormal_params_spec hμ hσ
  obtain ⟨hz', -⟩ := lognormal_params_spec hμ' hσ'
  simp only [Lognormal.new, Bool.false_eq_true, if_false, Lognormal.ofParams] at h h'
  split at h
  · cases h
  split at h'
  · cases h'
  simp only [Except.ok.injEq] at h h'
  have e1 : old.ppf (1 / 2) = exp (Lognormal.params μ σ).1 := by
    rw [← h]
    simp only [Frozen.locScale, Frozen.lognorm]
    rw [← StdNormal.cdf_zero, StdNormal.ppf_cdf]
    simp
  have e2 : ∀ x, 0 < x → m.cdf x = StdNormal.cdf ((log x - (Lognormal.params μ' σ').1) / (Lognormal.params μ' σ').2) := by
    intro x hx; rw [← h']; show Lognormal.cdf _ _ _ = _; rw [Lognormal.cdf, if_pos hx]; rfl
  rw [e1, e2 _ (exp_pos _), log_exp, ← exp_params hμ, ← exp_params hμ', exp_eq_exp, ← StdNormal.cdf_zero,
    StdNormal.strictMono_cdf.injective.eq_iff, div_eq_zero_iff, sub_eq_zero]
  exact ⟨fun h => h.resolve_right hz'.ne', .inl⟩

/-! Concrete cases. -/

/-- `X = Normal("X", 0, 1)`, then `Z = ZeroInflated("Z", X, 0.5)`. -/
noncomputable def twoObjects (E : Mutable.Env) : World :=
  ⟨[⟨.normal, some (0, 1), some 0⟩,
    ⟨.zeroInflated 0 0.5, some (0.5 * 0, √(0.5 * 1 ^ 2 + 0.5 * 0.5 * 0 ^ 2)), some (0.5 * 0)⟩], 0⟩

theorem normal_view (m s sp : ℝ) (l : List Obj) :
    ∃ d : Marginal, view E (⟨.normal, some (m, s), some sp⟩ :: l) 0 = some d ∧ d.mean = m ∧ d.stdv = s ∧
      d.cdf = Normal.cdf m s := by
  rw [view_leaf E (o := ⟨.normal, some (m, s), some sp⟩) (by simp) rfl rfl (fun _ => none) rfl]
  exact ⟨_, rfl, rfl, rfl, rfl⟩

theorem twoObjects_built :
    runAll E ⟨[], 0⟩ [.new (.normal 0 1) none, .new (.zeroInflated 0 0.5) none] = twoObjects E := by
  obtain ⟨d, h1, h2, h3, -⟩ := normal_view E 0 1 0 []
  simp only [runAll, Op.run, construct, alloc, List.nil_append, Option.none_or]
  rw [if_neg (by norm_num)]
  simp only [newStats, h1, Option.map_some, initStats, alloc, ZeroInflated.stats, h2, h3, Option.none_or, twoObjects]
  norm_num

/-- `Z.set_location(5); X.set_scale(2); X.sample(3)`: the location reaches `X` through `Z`, and `X` is now
`Normal(5, 2)`; the program meets the hypotheses of `C72_normal`. -/
theorem wrapped_normal : ∃ m, Normal.new 5 (.fin 2) (some 0) = .ok m ∧
    view E (runAll E ⟨[], 0⟩ [.new (.normal 0 1) none, .new (.zeroInflated 0 0.5) none, .set .loc 1 5, .set .scale 0 2,
      .sample 0 3]).objs 0 = some m := by
  have hw : WF ([] : List Obj) := by intro j o h; simp at h
  have h2 := twoObjects_built E
  simp only [runAll] at h2
  have hp : Program E (Op.run E ⟨[], 0⟩ (.new (.normal 0 1) none)).1 [.new (.zeroInflated 0 0.5) none, .set .loc 1 5,
      .set .scale 0 2, .sample 0 3] := by
    refine ⟨?_, ?_⟩
    · simp [Op.run, construct, alloc, Refers]
    · rw [h2]
      simp only [Program, Refers, Op.run, set_length]
      simp [twoObjects]
  have hr1 : Reaches (twoObjects E).objs 1 0 := .wrapped _ rfl rfl (.self 0)
  have hl : settings E .loc 0 (Op.run E ⟨[], 0⟩ (.new (.normal 0 1) none)).1 [.new (.zeroInflated 0 0.5) none,
      .set .loc 1 5, .set .scale 0 2, .sample 0 3] = [5] := by
    rw [settings, h2]
    · simp [settings, hr1]
    · intro _ _ _ h; cases h
  have hs : settings E .scale 0 (Op.run E ⟨[], 0⟩ (.new (.normal 0 1) none)).1 [.new (.zeroInflated 0 0.5) none,
      .set .loc 1 5, .set .scale 0 2, .sample 0 3] = [2] := by
    rw [settings, h2]
    · simp [settings, Reaches.self]
    · intro _ _ _ h; cases h
  obtain ⟨m, h1, h3⟩ := C72_normal E 0 1 none ⟨[], 0⟩ hw _ hp (by intro sp h; simp at h) 5 2
    (by simp only [List.length_nil, hl]; rfl) (by simp only [List.length_nil, hs]; rfl)
  exact ⟨m, h1, h3⟩

/-- `X.set_location(10)` called on the wrapped object: `Z.mean` stays zero although `Z` now has half of its mass around
ten. -/
example : ∃ d z, view E (Op.run E (twoObjects E) (.set .loc 0 10)).1.objs 0 = some d ∧ d.mean = 10 ∧
    view E (Op.run E (twoObjects E) (.set .loc 0 10)).1.objs 1 = some z ∧ z.mean = 0 ∧
    z.cdf = ZeroInflated.cdf d 0.5 ∧ (ZeroInflated.stats d 0.5).1 = 5 := by
  have hw : WF (twoObjects E).objs := by
    rw [← twoObjects_built E]
    refine run_wf E _ _ ?_ (run_wf E _ _ trivial ?_)
    · simp [Op.run, construct, alloc, Refers]
    · intro j o h; simp at h
  have e : (Op.run E (twoObjects E) (.set .loc 0 10)).1.objs = ⟨.normal, some (10, 1), some 0⟩ ::
      [⟨.zeroInflated 0 0.5, some (0.5 * 0, √(0.5 * 1 ^ 2 + 0.5 * 0.5 * 0 ^ 2)), some (0.5 * 0)⟩] := by
    simp only [Op.run]
    rw [Mutable.set]
    simp [twoObjects, Body.child, setLeaf, Param.put]
  obtain ⟨d, h1, h2, -⟩ := normal_view E 10 1 0
    [⟨.zeroInflated 0 0.5, some (0.5 * 0, √(0.5 * 1 ^ 2 + 0.5 * 0.5 * 0 ^ 2)), some (0.5 * 0)⟩]
  rw [← e] at h1
  refine ⟨d, _, h1, h2, C72_stale_wrapper E .loc 10 (twoObjects E) hw 1 0 _ _ _ _ rfl d h1, by norm_num, rfl, ?_⟩
  simp only [ZeroInflated.stats, h2]
  norm_num

/-- A Gumbel variable: `set_scale(-1)` raises, and a later `set_scale(3)` brings the object back: it is exactly the
variable with location 1 and scale 3. -/
example : ∃ w1 m, Op.run E ⟨[], 0⟩ (.new (.scipy ⟨Frozen.gumbelR, 1, 2⟩) none) = (w1, none) ∧
    (Op.run E w1 (.set .scale 0 (-1))).2 = some .exception ∧
    Gumbel.new 1 3 true (some (Frozen.gumbelR.locScale 1 2).mean) = .ok m ∧
    view E (runAll E w1 [.set .scale 0 (-1), .set .scale 0 3]).objs 0 = some m := by
  have hw : WF ([] : List Obj) := by intro j o h; simp at h
  obtain ⟨g, hg, -⟩ := (good_gumbel_params 1 (scale := 2) (by norm_num) none).ex
  obtain ⟨m, hm, -⟩ := (good_gumbel_params 1 (scale := 3) (by norm_num) (some (Frozen.gumbelR.locScale 1 2).mean)).ex
  obtain ⟨s, hs⟩ : ∃ s, (Frozen.gumbelR.locScale 1 2).std = .fin s := by
    simp only [Gumbel.new, Gumbel.frozen, ofFrozen, initMoments, updateMoments, if_true] at hg
    cases h : (Frozen.gumbelR.locScale 1 2).std with
    | fin s => exact ⟨s, rfl⟩
    | nonfinite => simp [h] at hg
  have hmo : Frz.moments ⟨Frozen.gumbelR, 1, 2⟩ = some ((Frozen.gumbelR.locScale 1 2).mean, s) :=
    moments_of_std (f := ⟨Frozen.gumbelR, 1, 2⟩) (by norm_num) hs
  obtain ⟨w1, hw1⟩ : ∃ w1, Op.run E ⟨[], 0⟩ (.new (.scipy ⟨Frozen.gumbelR, 1, 2⟩) none) = (w1, none) := by
    simp only [Op.run, construct, initFrz, hmo, alloc]
    exact ⟨_, rfl⟩
  have hobj := (construct_leaf (b := .scipy ⟨Frozen.gumbelR, 1, 2⟩) hw1).2
  have hl : (0 : ℕ) < w1.objs.length := (List.getElem?_eq_some_iff.1 hobj).1
  refine ⟨w1, m, hw1, (C72_bad_scale E w1 0 _ ⟨Frozen.gumbelR, 1, 2⟩ (-1) (by norm_num) hobj (.inl rfl)).1, hm, ?_⟩
  have hset : settings E .scale 0 w1 [.set .scale 0 (-1), .set .scale 0 3] = [-1, 3] := by
    simp [settings, Reaches.self]
  have hset' : settings E .loc 0 w1 [.set .scale 0 (-1), .set .scale 0 3] = [] := by
    simp [settings]
  refine C72_scipy E ⟨Frozen.gumbelR, 1, 2⟩ none ⟨[], 0⟩ w1 hw hw1 [.set .scale 0 (-1), .set .scale 0 3]
    ⟨hl, ?_, trivial⟩ (by intro sp h; simp at h) 1 3
    (by simp only [List.length_nil, hset']; rfl) (by simp only [List.length_nil, hset]; rfl) (by norm_num) m hm
  simp only [Refers, Op.run, set_length]
  exact hl

/-- Doubling both moments of a log-normal variable doubles its median, so `ppf` and `cdf` then disagree. -/
example (old m : Marginal) (h : Lognormal.new 1 1 false none = .ok old) (h' : Lognormal.new 2 2 false (some 1) = .ok m) :
    m.cdf (old.ppf (1 / 2)) ≠ 1 / 2 := by
  intro e
  have := (C72_lognormal_stale (μ := 1) (σ := 1) (μ' := 2) (σ' := 2) (by norm_num) (by norm_num) (by norm_num)
    (by norm_num) _ _ old m h h').1 e
  simp only [logMedian] at this
  norm_num at this
  have h2 : √2 * √2 = (2 : ℝ) := Real.mul_self_sqrt (by norm_num)
  have h3 : √2 * (√2)⁻¹ = 1 := mul_inv_cancel₀ (by positivity)
  rw [this] at h3
  linarith

end Pystra.Props
