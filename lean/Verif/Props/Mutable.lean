import Verif.Lemmas.Mutable
import Verif.Props.Marginal

/-! C72: distribution objects under `set_location`, `set_scale` and the other setters, for every program of calls. -/

namespace Pystra.Props
open Mutable Spec.Mut Distribution Real MeasureTheory

variable (E : Mutable.Env)

/-- The result a fresh object of the class has in `Model/Distribution.lean` (the classes C12–C18 speak about), given
what the wrapped object looks like. -/
noncomputable def freshObject (w : World) (sp : Option ℝ) : Ctor → Option (Except PyErr Marginal)
  | .scipy f => some (ScipyDist.new (f.base.locScale f.loc f.scale) sp)
  | .uniform a b => some (Uniform.new a b true sp)
  | .normal m s => some (Normal.new m (.fin s) sp)
  | .lognormal l z => some (Lognormal.new l z true sp)
  | .shiftedLognormal m s lower => some (ShiftedLognormal.new m s lower false sp)
  | .gevMin loc scale shape m s =>
    if (m, s) = GEV.moments loc scale shape then some (GEV.newMin loc scale shape true sp)
    else if (loc, scale) = GEV.locScale m s shape then some (GEV.newMin m s shape false sp) else none
  | .zeroInflated j p => (view E w.objs j).map fun d => ZeroInflated.new d p sp
  | .maximum j N => (view E w.objs j).map fun d =>
      Maximum.new (E.fmin d.mean) (simStats E (ppfBySearch (E.fmin d.mean) (Maximum.cdf d N)) w.pos) d N sp
  | .maxParent j N => (view E w.objs j).map fun d =>
      MaxParent.new (E.fmin d.mean) (simStats E (ppfBySearch (E.fmin d.mean) (MaxParent.cdf d N)) w.pos) d N sp

theorem view_alloc_leaf (w : World) (b : Body) (m s : ℝ) (sp : Option ℝ) (hb : b.child = none) :
    view E (alloc w { body := b, moments := some (m, s), startpoint := sp.or (some m) }).1.objs w.objs.length =
      methods E (fun _ => none) b m s (sp.getD m) := by
  refine view_leaf E (o := { body := b, moments := some (m, s), startpoint := sp.or (some m) }) ?_ rfl ?_ _ hb
  · simp [alloc]
  · cases sp <;> rfl

theorem view_alloc_wrap (w : World) (b : Body) (m s : ℝ) (sp : Option ℝ) (j : ℕ) (hb : b.child = some j)
    (hj : j < w.objs.length) (hw : WF w.objs) :
    view E (alloc w { body := b, moments := some (m, s), startpoint := sp.or (some m) }).1.objs w.objs.length =
      methods E (fun k => if k = j then view E w.objs j else none) b m s (sp.getD m) := by
  have hv : view E (w.objs ++ [{ body := b, moments := some (m, s), startpoint := sp.or (some m) }]) j =
      view E w.objs j := by
    apply view_congr
    intro k hk
    rw [List.getElem?_append_left (by have := reaches_le hw hk; omega)]
  rw [view]
  simp only [alloc, List.getElem?_concat_length, Option.bind_some]
  have e : sp.or (some m) = some (sp.getD m) := by cases sp <;> rfl
  rw [e, Option.bind_some]
  cases b <;> simp only [Body.child, reduceCtorEq, Option.some.injEq] at hb <;> subst hb <;>
    simp only [methods, hj, dite_true, if_true, ← e, hv]

/-- C72: a newly constructed object is the one described by the constructors of `Model/Distribution.lean`: same
attributes, same methods. -/
theorem C72_new (c : Ctor) (sp : Option ℝ) (w w1 : World) (hw : WF w.objs) (hr : Refers w.objs (.new c sp))
    (h : construct E c sp w = (w1, none)) (r : Except PyErr Marginal) (hf : freshObject E w sp c = some r)
    (hg : ∀ loc scale shape m s, c = .gevMin loc scale shape m s → shape < 0.5) :
    ∃ m, r = .ok m ∧ view E w1.objs w.objs.length = some m := by
  have frz : ∀ (b : Body) (f : Frz), b.child = none → initFrz w b f sp = (w1, none) → ∃ s,
      0 < f.scale ∧ f.frozen.std = .fin s ∧ view E w1.objs w.objs.length =
        methods E (fun _ => none) b f.frozen.mean s (startPoint f.frozen.mean sp) := by
    intro b f hb hi
    unfold initFrz at hi
    cases hm : f.moments with
    | none => simp [hm] at hi
    | some ms =>
      obtain ⟨h1, h2, h3⟩ := scale_of_moments hm
      rw [hm] at hi
      refine ⟨ms.2, h1, h3, ?_⟩
      have e : w1 = (alloc w { body := b, moments := some (ms.1, ms.2), startpoint := sp.or (some ms.1) }).1 :=
        (congrArg Prod.fst hi).symm
      rw [e, view_alloc_leaf E w b ms.1 ms.2 sp hb, h2, startPoint_eq]
  have st : ∀ (b : Body) (r : Option (ℝ × ℝ) × ℕ) (j : ℕ), b.child = some j → j < w.objs.length →
      initStats w b r sp = (w1, none) → ∃ ms, r.1 = some ms ∧ view E w1.objs w.objs.length =
        methods E (fun k => if k = j then view E w.objs j else none) b ms.1 ms.2 (sp.getD ms.1) := by
    intro b r j hb hj hi
    unfold initStats at hi
    cases hm : r.1 with
    | none => simp [hm] at hi
    | some ms =>
      rw [hm] at hi
      refine ⟨ms, rfl, ?_⟩
      have e : w1 = (alloc { w with pos := r.2 }
          { body := b, moments := some (ms.1, ms.2), startpoint := sp.or (some ms.1) }).1 :=
        (congrArg Prod.fst hi).symm
      rw [e]
      exact view_alloc_wrap E { w with pos := r.2 } b ms.1 ms.2 sp j hb hj hw
  cases c with
  | scipy f =>
    obtain ⟨s, h1, h2, h3⟩ := frz _ f rfl h
    simp only [freshObject, Option.some.injEq] at hf
    subst hf
    rw [h3]
    simp only [methods, if_pos h1]
    refine ⟨_, ?_, rfl⟩
    · have h2' : (f.base.locScale f.loc f.scale).std = .fin s := h2
      simp only [ScipyDist.new, ofFrozen, initMoments, updateMoments, h2']
      rfl
  | uniform a b =>
    obtain ⟨s, h1, h2, h3⟩ := frz _ _ rfl h
    simp only [freshObject, Option.some.injEq] at hf
    subst hf
    rw [h3]
    simp only [methods, if_pos h1]
    refine ⟨_, ?_, rfl⟩
    · have h2' : (Frozen.uniform01.locScale a (b - a)).std = .fin s := h2
      simp only [Uniform.new, Uniform.bounds, if_true, initMoments, updateMoments, h2']
      rfl
  | normal m s =>
    simp only [freshObject, Option.some.injEq] at hf
    subst hf
    have e : w1 = (alloc w { body := .normal, moments := some (m, s), startpoint := sp.or (some m) }).1 := by
      simp only [construct] at h; rw [h]
    rw [e, view_alloc_leaf E w _ m s sp rfl]
    simp only [methods]
    refine ⟨_, ?_, rfl⟩
    · simp only [Normal.new, initMoments, updateMoments, startPoint_eq]
  | lognormal l z =>
    obtain ⟨s, h1, h2, h3⟩ := frz _ _ rfl h
    simp only [freshObject, Option.some.injEq] at hf
    subst hf
    rw [h3]
    simp only [methods]
    refine ⟨_, ?_, rfl⟩
    · have h2' : ((Frozen.lognorm z).locScale 0 (exp l)).std = .fin s := h2
      simp only [Lognormal.new, if_true, Lognormal.ofParams, initMoments, updateMoments, h2']
      rfl
  | shiftedLognormal m s lower =>
    obtain ⟨s', h1, h2, h3⟩ := frz _ _ rfl h
    simp only [freshObject, Option.some.injEq] at hf
    subst hf
    rw [h3]
    simp only [methods]
    refine ⟨_, ?_, rfl⟩
    · have h2' : ((Frozen.lognorm (Lognormal.params (m - lower) s).2).locScale lower
          (exp (Lognormal.params (m - lower) s).1)).std = .fin s' := h2
      simp only [ShiftedLognormal.new, Bool.false_eq_true, if_false, initMoments, updateMoments, h2']
      rfl
  | gevMin loc scale shape m s =>
    have hsh := hg loc scale shape m s rfl
    obtain ⟨f, hfd⟩ : ∃ f : Frz, f = ⟨Frozen.genextreme (-shape), -loc, scale⟩ := ⟨_, rfl⟩
    simp only [construct, ← hfd] at h
    cases hm : f.moments with
    | none => simp [hm] at h
    | some ms =>
      obtain ⟨h1, h2, h3⟩ := scale_of_moments hm
      simp only [hm] at h
      have e : w1 = (alloc w { body := .gevMin f, moments := some (m, s), startpoint := sp.or (some m) }).1 := by
        rw [h]
      have hfr : f.frozen = (Frozen.genextreme (-shape)).locScale (-loc) scale := by rw [hfd]; rfl
      rw [hfr] at h3
      have hv : view E w1.objs w.objs.length = some
          { mean := m, stdv := s, startpoint := startPoint m sp
            pdf := fun x => f.frozen.pdf (-x)
            cdf := fun x => 1 - f.frozen.cdf (-x)
            ppf := fun u => -f.frozen.ppf u
            uToX := fun u => f.frozen.ppf (StdNormal.cdf u)
            xToU := fun x => StdNormal.ppf (1 - f.frozen.cdf (-x))
            jac := baseJac (fun x => f.frozen.pdf (-x)) } := by
        rw [e, view_alloc_leaf E w _ m s sp rfl]
        simp only [methods, if_pos h1, startPoint_eq]
      refine ⟨_, ?_, hv⟩
      simp only [freshObject] at hf
      rw [hfr]
      split at hf
      · next hms =>
        cases hf
        simp only [GEV.newMin, not_le.2 hsh, ge_iff_le, if_false, if_true, initMoments, updateMoments, h3, ← hms]
      · split at hf
        · next hls =>
          cases hf
          simp only [GEV.newMin, not_le.2 hsh, ge_iff_le, if_false, Bool.false_eq_true, initMoments, updateMoments,
            ← hls, h3]
        · cases hf
  | zeroInflated j p =>
    simp only [Refers] at hr
    simp only [construct] at h
    split at h
    · simp at h
    · next hp =>
      obtain ⟨ms, h1, h2⟩ := st _ _ j rfl hr h
      cases hv : view E w.objs j with
      | none => simp [freshObject, hv] at hf
      | some d =>
        simp only [freshObject, hv, Option.map_some, Option.some.injEq] at hf
        subst hf
        simp only [newStats, hv, Option.map_some, Option.some.injEq] at h1
        subst h1
        push Not at hp
        rw [h2]
        simp only [methods, if_true, hv, Option.map_some]
        refine ⟨_, ?_, rfl⟩
        · simp only [ZeroInflated.new, not_lt.2 hp.1, not_le.2 hp.2, ge_iff_le, if_false, ZeroInflated.obj, startPoint_eq]
  | maximum j N =>
    simp only [Refers] at hr
    simp only [construct] at h
    split at h
    · simp at h
    · next hp =>
      obtain ⟨ms, h1, h2⟩ := st _ _ j rfl hr h
      cases hv : view E w.objs j with
      | none => simp [freshObject, hv] at hf
      | some d =>
        simp only [freshObject, hv, Option.map_some, Option.some.injEq] at hf
        subst hf
        simp only [newStats, hv, Option.map_some, Option.some.injEq] at h1
        subst h1
        rw [h2]
        simp only [methods, if_true, hv, Option.map_some]
        refine ⟨_, ?_, rfl⟩
        · simp only [Maximum.new, hp, if_false, startPoint_eq]
  | maxParent j N =>
    simp only [Refers] at hr
    simp only [construct] at h
    split at h
    · simp at h
    · next hp =>
      obtain ⟨ms, h1, h2⟩ := st _ _ j rfl hr h
      cases hv : view E w.objs j with
      | none => simp [freshObject, hv] at hf
      | some d =>
        simp only [freshObject, hv, Option.map_some, Option.some.injEq] at hf
        subst hf
        simp only [newStats, hv, Option.map_some, Option.some.injEq] at h1
        subst h1
        rw [h2]
        simp only [methods, if_true, hv, Option.map_some]
        refine ⟨_, ?_, rfl⟩
        · simp only [MaxParent.new, hp, if_false, startPoint_eq]

/-- The object a successful constructor call adds. -/
theorem construct_leaf {w w1 : World} {b : Body} {f : Frz} {sp : Option ℝ} (h : initFrz w b f sp = (w1, none)) :
    0 < f.scale ∧ w1.objs[w.objs.length]? = some { body := b, moments := f.moments
                                                   startpoint := some (sp.getD f.frozen.mean) } := by
  unfold initFrz at h
  cases hm : f.moments with
  | none => simp [hm] at h
  | some ms =>
    obtain ⟨h1, h2, h3⟩ := scale_of_moments hm
    rw [hm] at h
    have e : w1 = _ := (congrArg Prod.fst h).symm
    refine ⟨h1, ?_⟩
    rw [e]
    simp only [alloc, List.getElem?_concat_length, h2]
    cases sp <;> rfl

/-- C72: any class that only builds a frozen scipy distribution (ScipyDist, Gamma, Gumbel, Weibull, …).  Whatever a
program does after the constructor — including calls that raised and calls that arrived through wrappers — the object is
the one a constructor would now build from the location and scale last set: attributes and methods; its start point is
still the one from the constructor. -/
theorem C72_scipy (f : Frz) (sp : Option ℝ) (w w1 : World) (hw : WF w.objs)
    (h : Op.run E w (.new (.scipy f) sp) = (w1, none)) (ops : List Op) (hp : Program E w1 ops)
    (hk : KeepsStart w.objs.length ops) (loc scale : ℝ)
    (hloc : loc = current f.loc (settings E .loc w.objs.length w1 ops))
    (hscale : scale = current f.scale (settings E .scale w.objs.length w1 ops)) (hpos : 0 < scale) (m : Marginal)
    (hm : ScipyDist.new (f.base.locScale loc scale) (some (sp.getD (f.base.locScale f.loc f.scale).mean)) = .ok m) :
    view E (runAll E w1 ops).objs w.objs.length = some m := by
  obtain ⟨-, h1⟩ := construct_leaf (b := .scipy f) h
  have hw1 : WF w1.objs := by
    have := run_wf E (.new (.scipy f) sp) w trivial hw
    rwa [h] at this
  have key := leaf_history E (fun a b _ => { body := .scipy ⟨f.base, a, b⟩, moments := Frz.moments ⟨f.base, a, b⟩
                                             startpoint := some (sp.getD f.frozen.mean) })
    (fun _ _ _ _ => rfl) (fun _ _ _ _ => rfl) (fun _ _ _ => rfl) (fun _ _ _ _ _ _ => by simp [leafStep])
    w.objs.length ops w1 f.loc f.scale 0 hw1 hp hk h1
  rw [← hloc, ← hscale] at key
  simp only [ScipyDist.new, ofFrozen, initMoments, updateMoments] at hm
  cases hs : (f.base.locScale loc scale).std with
  | nonfinite => simp [hs] at hm
  | fin s =>
    rw [hs] at hm
    rw [view_leaf E key (moments_of_std (f := ⟨f.base, loc, scale⟩) hpos hs) rfl (fun _ => none) rfl]
    simp only [methods, if_pos hpos]
    simp only [Except.ok.injEq] at hm
    rw [← hm]
    rfl

/-- C72: `Normal`.  After any program the object is `Normal` with the mean and standard deviation last set. -/
theorem C72_normal (μ σ : ℝ) (sp : Option ℝ) (w : World) (hw : WF w.objs) (ops : List Op)
    (hp : Program E (Op.run E w (.new (.normal μ σ) sp)).1 ops) (hk : KeepsStart w.objs.length ops) (μ' σ' : ℝ)
    (hμ : μ' = current μ (settings E .loc w.objs.length (Op.run E w (.new (.normal μ σ) sp)).1 ops))
    (hσ : σ' = current σ (settings E .scale w.objs.length (Op.run E w (.new (.normal μ σ) sp)).1 ops)) :
    ∃ m, Normal.new μ' (.fin σ') (some (sp.getD μ)) = .ok m ∧
      view E (runAll E (Op.run E w (.new (.normal μ σ) sp)).1 ops).objs w.objs.length = some m := by
  have hw1 := run_wf E (.new (.normal μ σ) sp) w trivial hw
  have h1 : (Op.run E w (.new (.normal μ σ) sp)).1.objs[w.objs.length]? =
      some { body := .normal, moments := some (μ, σ), startpoint := some (sp.getD μ) } := by
    simp only [Op.run, construct, alloc, List.getElem?_concat_length]
    cases sp <;> rfl
  have key := leaf_history E (fun a b _ => { body := .normal, moments := some (a, b)
                                             startpoint := some (sp.getD μ) })
    (fun _ _ _ _ => rfl) (fun _ _ _ _ => rfl) (fun _ _ _ => rfl) (fun _ _ _ _ _ _ => by simp [leafStep])
    w.objs.length ops _ μ σ 0 hw1 hp hk h1
  rw [← hμ, ← hσ] at key
  refine ⟨_, rfl, ?_⟩
  rw [view_leaf E key rfl rfl (fun _ => none) rfl]
  rfl

/-- C72: `Lognormal`.  After any program whose last settings are positive, every attribute and method but `ppf` is that
of `Lognormal(mean, stdv)` with the values last set; `ppf` (hence `sample`) is still that of the original object. -/
theorem C72_lognormal (μ σ : ℝ) (h0 : 0 < μ) (h0' : 0 < σ) (sp : Option ℝ) (w w1 : World) (hw : WF w.objs)
    (h : Op.run E w (.new (.lognormal (Lognormal.params μ σ).1 (Lognormal.params μ σ).2) sp) = (w1, none))
    (ops : List Op) (hp : Program E w1 ops) (hk : KeepsStart w.objs.length ops) (μ' σ' : ℝ)
    (hμ : μ' = current μ (settings E .loc w.objs.length w1 ops))
    (hσ : σ' = current σ (settings E .scale w.objs.length w1 ops)) (hμ0 : 0 < μ') (hσ0 : 0 < σ') :
    ∃ old m, Lognormal.new μ σ false sp = .ok old ∧ Lognormal.new μ' σ' false (some (sp.getD μ)) = .ok m ∧
      view E (runAll E w1 ops).objs w.objs.length = some { m with ppf := old.ppf } := by
  obtain ⟨f, hfd⟩ : ∃ f : Frz, f = ⟨Frozen.lognorm (Lognormal.params μ σ).2, 0, exp (Lognormal.params μ σ).1⟩ :=
    ⟨_, rfl⟩
  have h' : initFrz w (.lognormal f (Lognormal.params μ σ).1 (Lognormal.params μ σ).2) f sp = (w1, none) := by
    rw [hfd]; exact h
  obtain ⟨-, h1⟩ := construct_leaf h'
  have hw1 : WF w1.objs := by
    have := run_wf E (.new (.lognormal (Lognormal.params μ σ).1 (Lognormal.params μ σ).2) sp) w trivial hw
    rwa [h] at this
  obtain ⟨old, g1, g2, g3, -⟩ := (good_lognormal h0 h0' sp).ex
  obtain ⟨m, k1, k2, k3, k4, -⟩ := (good_lognormal hμ0 hσ0 (some (sp.getD μ))).ex
  have hfr : f.frozen = (Frozen.lognorm (Lognormal.params μ σ).2).locScale 0 (exp (Lognormal.params μ σ).1) := by
    rw [hfd]; rfl
  have hmom : f.moments = some (μ, σ) ∧ old.ppf = f.frozen.ppf := by
    simp only [Lognormal.new, Bool.false_eq_true, if_false, Lognormal.ofParams, initMoments, updateMoments,
      ← hfr] at g1
    cases hs : f.frozen.std with
    | nonfinite => simp [hs] at g1
    | fin s =>
      rw [hs] at g1
      simp only [Except.ok.injEq] at g1
      rw [← g1] at g2 g3
      dsimp only at g2 g3
      have hpos : 0 < f.scale := by rw [hfd]; exact exp_pos _
      rw [moments_of_std hpos hs, g2, g3, ← g1]
      exact ⟨rfl, rfl⟩
  have hmean : f.frozen.mean = μ := (scale_of_moments hmom.1).2.1
  rw [hmom.1, hmean] at h1
  have key := leaf_history E (fun a b _ =>
      { body := .lognormal f (Lognormal.params a b).1 (Lognormal.params a b).2, moments := some (a, b)
        startpoint := some (sp.getD μ) })
    (fun _ _ _ _ => rfl) (fun _ _ _ _ => rfl) (fun _ _ _ => rfl) (fun _ _ _ _ _ _ => by simp [leafStep])
    w.objs.length ops w1 μ σ 0 hw1 hp hk h1
  rw [← hμ, ← hσ] at key
  refine ⟨old, m, g1, k1, ?_⟩
  rw [view_leaf E key rfl rfl (fun _ => none) rfl]
  simp only [methods, hmom.2, Option.some.injEq]
  simp only [Lognormal.new, Bool.false_eq_true, if_false, Lognormal.ofParams, initMoments, updateMoments] at k1
  split at k1
  · cases k1
  · simp only [Except.ok.injEq] at k1
    rw [← k1] at k2 k3 k4 ⊢
    dsimp only at k2 k3 k4 ⊢
    rw [k2, k3, k4]
    rfl

/-- C72: `ShiftedLognormal`, with `set_lower` as a third setting. -/
theorem C72_shiftedLognormal (μ σ lower : ℝ) (h0 : lower < μ) (h0' : 0 < σ) (sp : Option ℝ) (w w1 : World)
    (hw : WF w.objs) (h : Op.run E w (.new (.shiftedLognormal μ σ lower) sp) = (w1, none))
    (ops : List Op) (hp : Program E w1 ops) (hk : KeepsStart w.objs.length ops) (μ' σ' lower' : ℝ)
    (hμ : μ' = current μ (settings E .loc w.objs.length w1 ops))
    (hσ : σ' = current σ (settings E .scale w.objs.length w1 ops)) (hl : lower' = current lower (lowers w.objs.length ops))
    (hμ0 : lower' < μ') (hσ0 : 0 < σ') :
    ∃ old m, ShiftedLognormal.new μ σ lower false sp = .ok old ∧
      ShiftedLognormal.new μ' σ' lower' false (some (sp.getD μ)) = .ok m ∧
      view E (runAll E w1 ops).objs w.objs.length = some { m with ppf := old.ppf } := by
  obtain ⟨f, hfd⟩ : ∃ f : Frz, f = ⟨Frozen.lognorm (Lognormal.params (μ - lower) σ).2, lower,
      exp (Lognormal.params (μ - lower) σ).1⟩ := ⟨_, rfl⟩
  have h' : initFrz w (.shiftedLognormal f (Lognormal.params (μ - lower) σ).1 (Lognormal.params (μ - lower) σ).2 lower) f
      sp = (w1, none) := by
    rw [hfd]; exact h
  obtain ⟨-, h1⟩ := construct_leaf h'
  have hw1 : WF w1.objs := by
    have := run_wf E (.new (.shiftedLognormal μ σ lower) sp) w trivial hw
    rwa [h] at this
  obtain ⟨old, g1, g2, g3, -⟩ := (good_shiftedLognormal h0 h0' sp).ex
  obtain ⟨m, k1, k2, k3, k4, -⟩ := (good_shiftedLognormal hμ0 hσ0 (some (sp.getD μ))).ex
  have hfr : f.frozen = (Frozen.lognorm (Lognormal.params (μ - lower) σ).2).locScale lower
      (exp (Lognormal.params (μ - lower) σ).1) := by rw [hfd]; rfl
  have hmom : f.moments = some (μ, σ) ∧ old.ppf = f.frozen.ppf := by
    simp only [ShiftedLognormal.new, Bool.false_eq_true, if_false, initMoments, updateMoments,
      ← hfr] at g1
    cases hs : f.frozen.std with
    | nonfinite => simp [hs] at g1
    | fin s =>
      rw [hs] at g1
      simp only [Except.ok.injEq] at g1
      rw [← g1] at g2 g3
      dsimp only at g2 g3
      have hpos : 0 < f.scale := by rw [hfd]; exact exp_pos _
      rw [moments_of_std hpos hs, g2, g3, ← g1]
      exact ⟨rfl, rfl⟩
  have hmean : f.frozen.mean = μ := (scale_of_moments hmom.1).2.1
  rw [hmom.1, hmean] at h1
  have key := leaf_history E (fun a b c =>
      { body := .shiftedLognormal f (Lognormal.params (a - c) b).1 (Lognormal.params (a - c) b).2 c
        moments := some (a, b), startpoint := some (sp.getD μ) })
    (fun _ _ _ _ => rfl) (fun _ _ _ _ => rfl) (fun _ _ _ => rfl) (fun _ _ _ _ _ _ => by simp [leafStep])
    w.objs.length ops w1 μ σ lower hw1 hp hk h1
  rw [← hμ, ← hσ, ← hl] at key
  refine ⟨old, m, g1, k1, ?_⟩
  rw [view_leaf E key rfl rfl (fun _ => none) rfl]
  simp only [methods, hmom.2, Option.some.injEq]
  simp only [ShiftedLognormal.new, Bool.false_eq_true, if_false, initMoments, updateMoments] at k1
  split at k1
  · cases k1
  · simp only [Except.ok.injEq] at k1
    rw [← k1] at k2 k3 k4 ⊢
    dsimp only at k2 k3 k4 ⊢
    rw [k2, k3, k4]
    rfl

/-- C72 (finding): `Uniform`.  After any program, the density, the distribution function and `x_to_u` are those of the
location and scale last set, but `u_to_x` still maps onto the original interval. -/
theorem C72_uniform (a b : ℝ) (sp : Option ℝ) (w w1 : World) (hw : WF w.objs)
    (h : Op.run E w (.new (.uniform a b) sp) = (w1, none)) (ops : List Op) (hp : Program E w1 ops)
    (hk : KeepsStart w.objs.length ops) (loc scale : ℝ)
    (hloc : loc = current a (settings E .loc w.objs.length w1 ops))
    (hscale : scale = current (b - a) (settings E .scale w.objs.length w1 ops)) (hpos : 0 < scale) (m : Marginal)
    (hm : ScipyDist.new (Frozen.uniform01.locScale loc scale)
      (some (sp.getD (Frozen.uniform01.locScale a (b - a)).mean)) = .ok m) :
    view E (runAll E w1 ops).objs w.objs.length = some { m with uToX := fun u => a + (b - a) * StdNormal.cdf u } := by
  obtain ⟨-, h1⟩ := construct_leaf (b := .uniform ⟨Frozen.uniform01, a, b - a⟩ a b) h
  have hw1 : WF w1.objs := by
    have := run_wf E (.new (.uniform a b) sp) w trivial hw
    rwa [h] at this
  have key := leaf_history E (fun c d _ =>
      { body := .uniform ⟨Frozen.uniform01, c, d⟩ a b, moments := Frz.moments ⟨Frozen.uniform01, c, d⟩
        startpoint := some (sp.getD (Frozen.uniform01.locScale a (b - a)).mean) })
    (fun _ _ _ _ => rfl) (fun _ _ _ _ => rfl) (fun _ _ _ => rfl) (fun _ _ _ _ _ _ => by simp [leafStep])
    w.objs.length ops w1 a (b - a) 0 hw1 hp hk h1
  rw [← hloc, ← hscale] at key
  simp only [ScipyDist.new, ofFrozen, initMoments, updateMoments] at hm
  cases hs : (Frozen.uniform01.locScale loc scale).std with
  | nonfinite => simp [hs] at hm
  | fin s =>
    rw [hs] at hm
    rw [view_leaf E key (moments_of_std (f := ⟨Frozen.uniform01, loc, scale⟩) hpos hs) rfl (fun _ => none) rfl]
    simp only [methods, if_pos hpos]
    simp only [Except.ok.injEq] at hm
    rw [← hm]
    rfl

/-- C72 (finding): once a `Uniform` variable has been moved beyond its original interval, every value its `u_to_x`
returns has probability zero under its own `cdf`: the analyses would search outside the distribution. -/
theorem C72_uniform_stale (a b loc scale : ℝ) (hab : a < b) (hb : b ≤ loc) (hs : 0 < scale) (m : Marginal) (sp : Option ℝ)
    (hm : ScipyDist.new (Frozen.uniform01.locScale loc scale) sp = .ok m) (u : ℝ) :
    ({ m with uToX := fun u => a + (b - a) * StdNormal.cdf u } : Marginal).cdf
      (({ m with uToX := fun u => a + (b - a) * StdNormal.cdf u } : Marginal).uToX u) = 0 := by
  simp only [ScipyDist.new, ofFrozen] at hm
  split at hm
  · cases hm
  · simp only [Except.ok.injEq] at hm
    rw [← hm]
    simp only [Frozen.locScale, Frozen.uniform01]
    have h1 := StdNormal.cdf_lt_one u
    have h2 : a + (b - a) * StdNormal.cdf u - loc ≤ 0 := by nlinarith
    have h3 : (a + (b - a) * StdNormal.cdf u - loc) / scale ≤ 0 := div_nonpos_of_nonpos_of_nonneg h2 hs.le
    rw [min_eq_left (by linarith), max_eq_left h3]

/-- C72: a scale that is not positive is refused by every class with a frozen object — but only after it has been
stored: the object is left without usable methods until a valid scale is set (`C72_scipy` covers the recovery). -/
theorem C72_bad_scale (w : World) (i : ℕ) (o : Obj) (f : Frz) (v : ℝ) (hv : v ≤ 0) (ho : w.objs[i]? = some o)
    (hb : o.body = .scipy f ∨ (∃ a b, o.body = .uniform f a b) ∨ o.body = .gevMin f) :
    (Op.run E w (.set .scale i v)).2 = some .exception ∧ view E (Op.run E w (.set .scale i v)).1.objs i = none := by
  have hl : i < w.objs.length := (List.getElem?_eq_some_iff.1 ho).1
  have hm : ∀ g : Frz, g.scale = v → g.moments = none := fun g e => moments_none (by rw [e]; exact not_lt.2 hv)
  rcases o with ⟨b, ms, sp⟩
  simp only [Op.run]
  rw [Mutable.set]
  rcases hb with hb | ⟨a, c, hb⟩ | hb <;> dsimp only at hb <;> subst hb <;>
    simp only [ho, Body.child, setLeaf, rebuilt, Param.upd, hm ⟨f.base, f.loc, v⟩ rfl] <;>
    refine ⟨rfl, ?_⟩ <;> rw [view] <;> simp [hl]

/-- C72: a setter called on one object leaves every object that shares nothing with it exactly as it was. -/
theorem C72_frame (k : Param) (v : ℝ) (w : World) (j i : ℕ)
    (h : ∀ l, Reaches w.objs i l → ¬Reaches w.objs j l) :
    view E (Op.run E w (.set k j v)).1.objs i = view E w.objs i := by
  apply view_congr
  intro l hl
  exact set_frame E k v w j l (h l hl)

/-- C72: constructors and `sample` change no existing object; a failing constructor adds none. -/
theorem C72_frame_new (c : Ctor) (sp : Option ℝ) (w : World) (hw : WF w.objs) (i : ℕ) (hi : i < w.objs.length) :
    view E (Op.run E w (.new c sp)).1.objs i = view E w.objs i ∧
    ((Op.run E w (.new c sp)).2 ≠ none → (Op.run E w (.new c sp)).1.objs = w.objs) ∧
    ∀ n j, (Op.run E w (.sample j n)).1.objs = w.objs := by
  refine ⟨?_, ?_, fun _ _ => rfl⟩
  · apply view_congr
    intro l hl
    have := reaches_le hw hl
    rcases construct_objs E c sp w with h | ⟨o, h, -⟩ <;> simp only [Op.run, h]
    rw [List.getElem?_append_left (by omega)]
  · intro h
    cases c <;> simp only [Op.run, construct, initFrz, initStats, alloc] at h ⊢ <;> (repeat' split) <;>
      simp_all

end Pystra.Props
