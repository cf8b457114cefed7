import Verif.Lemmas.OptionsReads
import Verif.Props.Options

/-! C84: what the analyses read from an options object, and shared options objects. -/

namespace Pystra.Props
open Opts Spec Transformation Form

/-- The settings of a fresh object, as the analyses read them. -/
theorem C84_default_settings : Opts.settings Opts.new =
      some ⟨⟨100, 0.001, 0.001, 0, 1⟩, ⟨"ffd", 1, 1000, 1000⟩, ⟨100000, 1000, 1, 0.05, 0⟩⟩ ∧
    Opts.readTransform Opts.new = .ok .cholesky := by
  constructor
  · simp [Opts.settings, readForm, readLsf, readMc, callGetter, attr, Dict.get?, Opts.new, readAs, asNat, asReal, asMode]
  · simp [readTransform, callGetter, attr, Dict.get?, Opts.new, asTransform, Transformation.new]

/-- C84: the result of an analysis depends on its options object only through the options its class is documented to use (and the
transformation chosen when it was created): two objects that agree on those give the same run, whatever else differs. -/
theorem C84_reads (env : Session.Setup) {m : ℕ} (ty : TransformType) (ω υ : ℕ → ℝ) (cls : Cls (m + 1)) (ev : Ev Marginal)
    (o o' : Opts.Obj) (s s' : Opts.Settings) (hs : Opts.settings o = some s) (hs' : Opts.settings o' = some s')
    (agree : ∀ name ∈ used cls, Dict.get? o name = Dict.get? o' name) :
    analyse env ty s ω υ cls ev = analyse env ty s' ω υ cls ev := by
  obtain ⟨a1, a2, a3, a4, a5, a6, a7, a8, a9, a10, a11, a12, a13, a14⟩ := settings_spec o s hs
  obtain ⟨b1, b2, b3, b4, b5, b6, b7, b8, b9, b10, b11, b12, b13, b14⟩ := settings_spec o' s' hs'
  have same : ∀ {α : Type} {conv : PyVal → Option α} {name : String} {x y : α}, name ∈ used cls →
      readAs conv (attr o name) = some x → readAs conv (attr o' name) = some y → x = y := by
    intro α conv name x y hn hx hy
    rw [attr_congr o o' name (agree name hn)] at hx
    exact Option.some.inj (hx.symm.trans hy)
  obtain ⟨⟨f1, f2, f3, f4, f5⟩, ⟨l1, l2, l3, l4⟩, ⟨m1, m2, m3, m4, m5⟩⟩ := s
  obtain ⟨⟨f1', f2', f3', f4', f5'⟩, ⟨l1', l2', l3', l4'⟩, ⟨m1', m2', m3', m4', m5'⟩⟩ := s'
  dsimp only at a1 a2 a3 a4 a5 a6 a7 a8 a9 a10 a11 a12 a13 a14 b1 b2 b3 b4 b5 b6 b7 b8 b9 b10 b11 b12 b13 b14
  cases cls with
  | form =>
    obtain rfl := same (by simp [used]) a1 b1
    obtain rfl := same (by simp [used]) a2 b2
    obtain rfl := same (by simp [used]) a3 b3
    obtain rfl := same (by simp [used]) a4 b4
    obtain rfl := same (by simp [used]) a5 b5
    obtain rfl := same (by simp [used]) a6 b6
    obtain rfl := same (by simp [used]) a7 b7
    obtain rfl := same (by simp [used]) a8 b8
    obtain rfl := same (by simp [used]) a9 b9
    rfl
  | sorm fit =>
    obtain rfl := same (by simp [used]) a1 b1
    obtain rfl := same (by simp [used]) a2 b2
    obtain rfl := same (by simp [used]) a3 b3
    obtain rfl := same (by simp [used]) a4 b4
    obtain rfl := same (by simp [used]) a5 b5
    obtain rfl := same (by simp [used]) a6 b6
    obtain rfl := same (by simp [used]) a7 b7
    obtain rfl := same (by simp [used]) a8 b8
    obtain rfl := same (by simp [used]) a9 b9
    rfl
  | line =>
    obtain rfl := same (by simp [used]) a1 b1
    obtain rfl := same (by simp [used]) a2 b2
    obtain rfl := same (by simp [used]) a3 b3
    obtain rfl := same (by simp [used]) a4 b4
    obtain rfl := same (by simp [used]) a5 b5
    obtain rfl := same (by simp [used]) a6 b6
    obtain rfl := same (by simp [used]) a7 b7
    obtain rfl := same (by simp [used]) a8 b8
    obtain rfl := same (by simp [used]) a9 b9
    obtain rfl := same (by simp [used]) a10 b10
    rfl
  | importance =>
    obtain rfl := same (by simp [used]) a1 b1
    obtain rfl := same (by simp [used]) a2 b2
    obtain rfl := same (by simp [used]) a3 b3
    obtain rfl := same (by simp [used]) a4 b4
    obtain rfl := same (by simp [used]) a5 b5
    obtain rfl := same (by simp [used]) a6 b6
    obtain rfl := same (by simp [used]) a7 b7
    obtain rfl := same (by simp [used]) a8 b8
    obtain rfl := same (by simp [used]) a9 b9
    obtain rfl := same (by simp [used]) a10 b10
    obtain rfl := same (by simp [used]) a11 b11
    obtain rfl := same (by simp [used]) a12 b12
    obtain rfl := same (by simp [used]) a13 b13
    obtain rfl := same (by simp [used]) a14 b14
    rfl
  | crude point =>
    obtain rfl := same (by simp [used]) a7 b7
    obtain rfl := same (by simp [used]) a8 b8
    obtain rfl := same (by simp [used]) a10 b10
    obtain rfl := same (by simp [used]) a11 b11
    obtain rfl := same (by simp [used]) a12 b12
    obtain rfl := same (by simp [used]) a13 b13
    obtain rfl := same (by simp [used]) a14 b14
    have hv : ∀ n, ∀ M : StochModel Marginal ℝ,
        (Session.evaluator { env with ty := ty, lsopt := ⟨l1, l2, l3, l4⟩ } n M).values =
          (Session.evaluator { env with ty := ty, lsopt := ⟨l1', l2, l3, l4'⟩ } n M).values :=
      fun n M => lsEvaluator_values _ _ _ rfl rfl _
    simp only [analyse, job, Session.runJob, Session.withInit, Session.initRun, MonteCarlo.run,
      fun n M old t marg => MonteCarlo.runOn_values (n := n) old t marg _ _ (hv n M)]
  | distribution =>
    obtain rfl := same (by simp [used]) a7 b7
    obtain rfl := same (by simp [used]) a8 b8
    have hv : ∀ n, ∀ M : StochModel Marginal ℝ,
        (Session.evaluator { env with ty := ty, lsopt := ⟨l1, l2, l3, l4⟩ } n M).values =
          (Session.evaluator { env with ty := ty, lsopt := ⟨l1', l2, l3, l4'⟩ } n M).values :=
      fun n M => lsEvaluator_values _ _ _ rfl rfl _
    simp only [analyse, job, Session.runJob, Session.withInit, Session.initRun,
      fun n M t marg => MonteCarlo.dLoop_values (n := n) t marg _ _ (hv n M) ⟨m1, m2, m3, m4, m5⟩ ⟨m1', m2', m3', m4', m5'⟩
        (same (by simp [used]) a10 b10) (same (by simp [used]) a11 b11) (same (by simp [used]) a12 b12)
        (same (by simp [used]) a14 b14)]
  | subset p0 sg =>
    obtain rfl := same (by simp [used]) a7 b7
    obtain rfl := same (by simp [used]) a8 b8
    obtain rfl := same (by simp [used]) a10 b10
    obtain rfl := same (by simp [used]) a11 b11
    have hv : ∀ n, ∀ M : StochModel Marginal ℝ,
        (Session.evaluator { env with ty := ty, lsopt := ⟨l1, l2, l3, l4⟩ } n M).values =
          (Session.evaluator { env with ty := ty, lsopt := ⟨l1', l2, l3, l4'⟩ } n M).values :=
      fun n M => lsEvaluator_values _ _ _ rfl rfl _
    simp only [analyse, job, Session.runJob, Session.withInit, Session.initRun,
      fun n M t marg => Subset.run_values (n := n) t marg _ _ (hv n M)]

/-- Objects as in C84_reads: the seven options that crude Monte Carlo does not use are changed, and the run is that of the default
settings. -/
example (env : Session.Setup) (ω υ : ℕ → ℝ) (ev : Ev Marginal) : ∃ s s',
    Opts.settings Opts.new = some s ∧
    Opts.settings (history Opts.new [.call "setImax" (.int 3), .call "setE1" (.float 1), .call "setE2" (.float 2),
      .call "setStepSize" (.float 1), .call "setDiffMode" (.str "ddm"), .call "setffdpara" (.int 50), .call "setBins" (.int 7)]) = some s' ∧
    s.form.iMax ≠ s'.form.iMax ∧ s.lsf.diffMode ≠ s'.lsf.diffMode ∧
    analyse env .cholesky s ω υ (.crude (n := 2) none) ev = analyse env .cholesky s' ω υ (.crude (n := 2) none) ev := by
  refine ⟨_, ⟨⟨3, 1, 2, 1, 1⟩, ⟨"ddm", 1, 1000, 50⟩, ⟨100000, 1000, 1, 0.05, 0⟩⟩, C84_default_settings.1, ?_, by decide, by simp, ?_⟩
  · simp [Opts.settings, readForm, readLsf, readMc, callGetter, attr, Dict.get?, Opts.new, readAs, asNat, asReal, asMode, history, act,
      callSetter, Dict.set]
  · refine C84_reads env .cholesky ω υ _ ev Opts.new (history Opts.new [.call "setImax" (.int 3), .call "setE1" (.float 1),
      .call "setE2" (.float 2), .call "setStepSize" (.float 1), .call "setDiffMode" (.str "ddm"), .call "setffdpara" (.int 50),
      .call "setBins" (.int 7)]) _ _ C84_default_settings.1 ?_ ?_
    · simp [Opts.settings, readForm, readLsf, readMc, callGetter, attr, Dict.get?, Opts.new, readAs, asNat, asReal, asMode, history, act,
        callSetter, Dict.set]
    · intro name hn
      rw [history_get?]
      simp only [used, List.mem_cons, List.not_mem_nil, or_false] at hn
      rcases hn with rfl | rfl | rfl | rfl | rfl | rfl <;> simp [lastValue, effect, optionTable]

/-! ### Shared objects -/

theorem step_objs (w : Opts.World) (e : Event) (i : ℕ) (hi : i < w.objs.length) :
    (step w e).objs[i]? = (w.objs[i]?).map (fun o => history o (actionsOn i [e])) := by
  have hid : (w.objs[i]?) = (w.objs[i]?).map (fun o => history o []) := by
    cases w.objs[i]? <;> rfl
  cases e with
  | newOptions =>
    simp only [step, actionsOn, List.filterMap_cons, List.filterMap_nil]
    rw [List.getElem?_append_left hi]; exact hid
  | on j a =>
    simp only [step, actionsOn, List.filterMap_cons, List.filterMap_nil]
    rw [List.getElem?_modify]
    by_cases h : j = i
    · subst h; simp [history]
    · simp [h, history]
  | newAnalysis opts =>
    simp only [actionsOn, List.filterMap_cons, List.filterMap_nil]
    cases opts with
    | none =>
      simp only [step]
      split
      · rw [List.getElem?_append_left hi]; exact hid
      · exact hid
    | some k =>
      simp only [step]
      split
      · exact hid
      · split <;> exact hid

theorem step_length (w : Opts.World) (e : Event) : w.objs.length ≤ (step w e).objs.length := by
  cases e with
  | newOptions => simp [step]
  | on j a => simp [step]
  | newAnalysis opts =>
    cases opts with
    | none => simp only [step]; split <;> simp
    | some k =>
      simp only [step]
      split
      · exact le_refl _
      · split <;> exact le_refl _

/-- C84: an options object changes by the actions on it and by nothing else: not by those on other objects, nor by the creation of
objects or analyses. -/
theorem C84_objects (w : Opts.World) (h : List Event) (i : ℕ) (hi : i < w.objs.length) :
    (runWorld w h).objs[i]? = (w.objs[i]?).map (fun o => history o (actionsOn i h)) := by
  induction h generalizing w with
  | nil => simp only [runWorld, List.foldl_nil, actionsOn, List.filterMap_nil]; cases w.objs[i]? <;> rfl
  | cons e h ih =>
    have := ih (step w e) (lt_of_lt_of_le hi (step_length w e))
    simp only [runWorld, List.foldl_cons] at this ⊢
    rw [this, step_objs w e i hi, Option.map_map]
    congr 1
    funext o
    have hc : actionsOn i (e :: h) = actionsOn i [e] ++ actionsOn i h := by
      simp only [actionsOn, ← List.filterMap_append]; rfl
    rw [hc]
    simp only [Function.comp, history, List.foldl_append]

/-- C84: an analysis keeps its options object and its transformation for ever. -/
theorem C84_analyses (w : Opts.World) (h : List Event) : ∃ more, (runWorld w h).analyses = w.analyses ++ more := by
  induction h generalizing w with
  | nil => exact ⟨[], by simp [runWorld]⟩
  | cons e h ih =>
    obtain ⟨more, hm⟩ := ih (step w e)
    have hs : ∃ l, (step w e).analyses = w.analyses ++ l := by
      cases e with
      | newOptions => exact ⟨[], by simp [step]⟩
      | on j a => exact ⟨[], by simp [step]⟩
      | newAnalysis opts =>
        cases opts with
        | none =>
          simp only [step]
          split
          · exact ⟨_, rfl⟩
          · exact ⟨[], by simp⟩
        | some k =>
          simp only [step]
          split
          · exact ⟨[], by simp⟩
          · split
            · exact ⟨_, rfl⟩
            · exact ⟨[], by simp⟩
    obtain ⟨l, hl⟩ := hs
    refine ⟨l ++ more, ?_⟩
    simp only [runWorld, List.foldl_cons] at hm ⊢
    rw [hm, hl, List.append_assoc]

/-- C84: the options are read at every run, the transformation only when the analysis is created.  An analysis created with the
object `i` at some time takes its transformation from what the object says then; whatever happens afterwards, its next run reads what
the object says at that time, that is, the effect of all the actions on the object `i`, through whichever analysis or variable. -/
theorem C84_created (w : Opts.World) (i : ℕ) (o : Opts.Obj) (ho : w.objs[i]? = some o) (ty : TransformType)
    (hty : readTransform o = .ok ty) (h : List Event) :
    (runWorld (step w (.newAnalysis (some i))) h).analyses[w.analyses.length]? = some ⟨i, ty⟩ ∧
    settingsOf (runWorld (step w (.newAnalysis (some i))) h) ⟨i, ty⟩ = Opts.settings (history o (actionsOn i h)) := by
  have hstep : step w (.newAnalysis (some i)) = { w with analyses := w.analyses ++ [⟨i, ty⟩] } := by
    simp only [step, ho, hty]
  rw [hstep]
  constructor
  · obtain ⟨more, hm⟩ := C84_analyses { w with analyses := w.analyses ++ [⟨i, ty⟩] } h
    rw [hm]
    simp
  · simp only [settingsOf]
    rw [C84_objects { w with analyses := w.analyses ++ [⟨i, ty⟩] } h i (List.getElem?_eq_some_iff.mp ho).1]
    simp [ho]

/-- C84: an analysis created without options has an object of its own, fresh, that no analysis created before shares. -/
theorem C84_own (w : Opts.World) (hw : ∀ a ∈ w.analyses, a.opts < w.objs.length) (h : List Event) :
    (step w (.newAnalysis none)).analyses = w.analyses ++ [⟨w.objs.length, .cholesky⟩] ∧
    settingsOf (runWorld (step w (.newAnalysis none)) h) ⟨w.objs.length, .cholesky⟩ =
      Opts.settings (history Opts.new (actionsOn w.objs.length h)) ∧
    ∀ a ∈ w.analyses, a.opts ≠ w.objs.length := by
  have hstep : step w (.newAnalysis none) = ⟨w.objs ++ [Opts.new], w.analyses ++ [⟨w.objs.length, .cholesky⟩]⟩ := by
    simp only [step, C84_default_settings.2]
  refine ⟨by rw [hstep], ?_, fun a ha => (hw a ha).ne⟩
  rw [hstep]
  simp only [settingsOf]
  rw [C84_objects _ h w.objs.length (by simp)]
  simp

/-- C84: an unknown transformation type is refused when the analysis is created, not when the option is set. -/
theorem C84_refused (o : Opts.Obj) (v : PyVal) (hv : attr o "transform_type" = .ok v) :
    (∃ ty, readTransform o = .ok ty) ↔ (∀ b r z, v ≠ .bool b ∧ v ≠ .float r ∧ v ≠ .int z) ∧
      ∀ s, v = .str s → s = "cholesky" ∨ s = "svd" := by
  simp only [readTransform, callGetter, hv]
  cases v with
  | none => simp [asTransform, Transformation.new]
  | bool b => simp [asTransform, Transformation.new]
  | int z => simp [asTransform, Transformation.new]
  | float r => simp [asTransform, Transformation.new]
  | str s =>
    simp only [asTransform, Transformation.new]
    by_cases h1 : s = "cholesky"
    · simp [h1]
    · by_cases h2 : s = "svd"
      · simp [h2]
      · simp [h1, h2]

/-- Two analyses share an object, a third has its own: `svd` set after the first was created; `setSamples` reaches both that share. -/
example : ∃ w : Opts.World, ∃ h : List Event, (∀ a ∈ w.analyses, a.opts < w.objs.length) ∧
    (runWorld ⟨[], []⟩ [.newOptions, .newAnalysis (some 0), .on 0 (.call "setTransform" (.str "svd")), .newAnalysis (some 0),
      .newAnalysis none, .on 0 (.call "setSamples" (.int 10))]) = runWorld w h ∧
    (runWorld w h).analyses = [⟨0, .cholesky⟩, ⟨0, .svd⟩, ⟨1, .cholesky⟩] ∧
    ((settingsOf (runWorld w h) ⟨0, .cholesky⟩).map (fun s => s.mc.samples)) = some 10 ∧
    ((settingsOf (runWorld w h) ⟨0, .svd⟩).map (fun s => s.mc.samples)) = some 10 ∧
    ((settingsOf (runWorld w h) ⟨1, .cholesky⟩).map (fun s => s.mc.samples)) = some 100000 := by
  refine ⟨⟨[Opts.new], []⟩, [.newAnalysis (some 0), .on 0 (.call "setTransform" (.str "svd")), .newAnalysis (some 0),
      .newAnalysis none, .on 0 (.call "setSamples" (.int 10))], by simp, rfl, ?_⟩
  have h1 := C84_default_settings.2
  have h2 : readTransform (history Opts.new [.call "setTransform" (.str "svd")]) = .ok .svd := by
    have := C84_getters [.call "setTransform" (.str "svd")] ⟨"transform_type", .none, some "getTransform", some "setTransform"⟩
      (by simp [optionTable]) "getTransform" rfl
    simp only [readTransform, this]
    simp [lastValue, effect, optionTable, getterResult, asTransform, Transformation.new]
  have hw : runWorld ⟨[Opts.new], []⟩ [.newAnalysis (some 0), .on 0 (.call "setTransform" (.str "svd")), .newAnalysis (some 0),
      .newAnalysis none, .on 0 (.call "setSamples" (.int 10))] =
      ⟨[history Opts.new [.call "setTransform" (.str "svd"), .call "setSamples" (.int 10)], Opts.new],
        [⟨0, .cholesky⟩, ⟨0, .svd⟩, ⟨1, .cholesky⟩]⟩ := by
    simp only [history, List.foldl_cons, List.foldl_nil] at h2
    simp [runWorld, step, h1, h2, history]
  rw [hw]
  have h3 : (Opts.settings (history Opts.new [.call "setTransform" (.str "svd"), .call "setSamples" (.int 10)])) =
      some ⟨⟨100, 0.001, 0.001, 0, 1⟩, ⟨"ffd", 1, 1000, 1000⟩, ⟨10, 1000, 1, 0.05, 0⟩⟩ := by
    simp [Opts.settings, readForm, readLsf, readMc, callGetter, attr, Dict.get?, Opts.new, readAs, asNat, asReal, asMode, history, act,
        callSetter, Dict.set]
  refine ⟨rfl, ?_, ?_, ?_⟩
  · simp [settingsOf, h3]
  · simp [settingsOf, h3]
  · simp [settingsOf, C84_default_settings.1]

end Pystra.Props
