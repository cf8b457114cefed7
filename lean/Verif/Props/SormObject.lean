import Verif.Props.FormObject
import Verif.Props.SormHessian
import Verif.Props.SormRotation

/-! C78: the life of a `Sorm` object; C79: its detailed report. -/

namespace Pystra.Props
open Spec Transformation Form Matrix

variable {m : ℕ}

/-- A SORM run on an object with any earlier history, compared with the same run on a new object. -/
theorem sormRun_alone (c : Session.Setup) (p : ℝ) (print : Bool) (fit : String) (o : SormObj.Obj m) (ev : Ev Marginal)
    (hb : o.form.beta.isSome) :
    ∃ o' res, SormObj.run c p print fit o ev = (o', (sormAlone c p fit o.form ev).1, res) ∧ o'.form = o.form ∧
      o'.resultsValid = true ∧
      o'.fitType = (if (sormAlone c p fit o.form ev).2.began then some fit else o.fitType) ∧
      match (sormAlone c p fit o.form ev).2.result with
      | .ok a => (sormAlone c p fit o.form ev).2.began = true ∧ res = SormObj.printed print o' ∧ o'.betaHL = a.betaHL ∧
          o'.betaHL = o.form.beta ∧ o'.kappa = a.kappa ∧ a.kappa.isSome ∧ a.resultsValid = true ∧ a.fitType = some fit ∧
          o'.breitung = a.breitung ∧ o'.breitungM = a.breitungM ∧
          o'.kappaPf = (if fit = "pf" then a.kappaPf else o.kappaPf) ∧ (fit = "pf" → a.kappaPf.isSome) ∧
          (fit = "pf" ∨ fit = "cf")
      | .error e => res = .error e ∧ o'.betaHL = o.betaHL ∧ o'.kappa = o.kappa ∧ o'.breitung = o.breitung ∧
          o'.breitungM = o.breitungM ∧ o'.kappaPf = o.kappaPf := by
  unfold sormAlone SormObj.run
  dsimp only [SormObj.fresh]
  rcases hI : Session.initRun c (m + 1) ev with ⟨ev1, e | t⟩
  · exact ⟨_, _, rfl, rfl, rfl, rfl, rfl, rfl, rfl, rfl, rfl, rfl⟩
  · dsimp only
    obtain ⟨beta, hbeta⟩ := Option.isSome_iff_exists.1 hb
    by_cases hcf : fit = "cf"
    · subst hcf
      simp only [if_true]
      unfold SormObj.runCurvefit
      dsimp only
      cases hal : o.form.alpha with
      | none => exact ⟨_, _, rfl, rfl, rfl, rfl, rfl, rfl, rfl, rfl, rfl, rfl⟩
      | some al =>
        dsimp only
        obtain ⟨⟨ev2, x⟩, hx⟩ : ∃ y, Sorm.fitCurvatures (c.eig m) t (Session.margN (m + 1) c.default ev1.model)
          (Session.evaluator c (m + 1) ev1.model) (uToX (o.form.transform.getD t) (Session.margN (m + 1) c.default ev1.model)
          (o.form.u.getD 0)) (o.form.u.getD 0) al (o.form.gradient.getD 0) p ev1 = y := ⟨_, rfl⟩
        rcases x with e | kappa <;> simp only [hx]
        · exact ⟨_, _, rfl, rfl, rfl, rfl, rfl, rfl, rfl, rfl, rfl, rfl⟩
        · rw [hbeta]
          refine ⟨_, _, rfl, ?_, rfl, rfl, ?_⟩
          · rfl
          · simp [SormObj.printed, SormObj.store]
    · by_cases hpf : fit = "pf"
      · subst hpf
        simp only [hcf, if_true, if_false]
        unfold SormObj.runPointfit
        dsimp only
        rw [hbeta]
        dsimp only
        cases hal : o.form.alpha with
        | none => exact ⟨_, _, rfl, rfl, rfl, rfl, rfl, rfl, rfl, rfl, rfl, rfl⟩
        | some al =>
          dsimp only
          obtain ⟨⟨ev2, x⟩, hx⟩ : ∃ y, Sorm.fitPoints t (Session.margN (m + 1) c.default ev1.model)
            (Session.evaluator c (m + 1) ev1.model) al beta ev1 = y := ⟨_, rfl⟩
          rcases x with e | l <;> simp only [hx]
          · exact ⟨_, _, rfl, rfl, rfl, rfl, rfl, rfl, rfl, rfl, rfl, rfl⟩
          · refine ⟨_, _, rfl, ?_, rfl, rfl, ?_⟩
            · rfl
            · simp [SormObj.printed, SormObj.store]
      · simp only [hcf, hpf, if_false]
        exact ⟨_, _, rfl, rfl, rfl, rfl, rfl, rfl, rfl, rfl, rfl, rfl⟩

/-- A FORM object that has an index keeps having one. -/
theorem formRun_beta {n : ℕ} {c : Session.Setup} {opt : Form.Options} {o o' : FormObj.Obj n} {ev ev' : Ev Marginal}
    {e : FormObj.Ending} (h : FormObj.run c opt o ev = some (o', ev', e)) (he : e = .finished ∨ ∃ x, e = .raised x)
    (hb : o.beta.isSome) : o'.beta.isSome := by
  have hr := C76_run c opt o ev
  rcases hf : Session.formRun c n opt ev with _ | ⟨ev1, r | out⟩
  · rw [hf] at hr; simp only [hr] at h; cases h
  · rw [hf] at hr
    obtain ⟨o1, h1, h2, -⟩ := hr
    rw [h] at h1
    obtain ⟨rfl, -⟩ := Prod.mk.inj (Option.some.inj h1)
    rw [h2.beta]; rfl
  · rw [hf] at hr
    cases out with
    | raised e =>
      obtain ⟨o1, h1, -, h2, -⟩ := hr
      rw [h] at h1
      obtain ⟨rfl, -⟩ := Prod.mk.inj (Option.some.inj h1)
      rw [h2]; exact hb
    | nan =>
      obtain ⟨o1, h1⟩ := hr
      rw [h] at h1
      obtain ⟨rfl, h2⟩ := Prod.mk.inj (Option.some.inj h1)
      obtain ⟨-, rfl⟩ := Prod.mk.inj h2
      rcases he with he | ⟨x, he⟩ <;> cases he
    | _ => exact hr.elim

/-- The completed runs of a list. -/
def sormDone (outs : List (SormRun m)) : Option (SormObj.Obj m) := lastCompleted (outs.map (·.result))

/-- The completed point fits of a list. -/
def sormDonePf (outs : List (SormRun m)) : Option (SormObj.Obj m) :=
  lastCompleted ((outs.filter (fun r => r.fit = "pf")).map (·.result))

/-- What a history leaves on an object, whatever it had before. -/
structure AfterSorm (o o' : SormObj.Obj m) (outs : List (SormRun m)) : Prop where
  betaHL : o'.betaHL = ((sormDone outs).map (·.betaHL)).getD o.betaHL
  kappa : o'.kappa = ((sormDone outs).map (·.kappa)).getD o.kappa
  breitung : o'.breitung = ((sormDone outs).map (·.breitung)).getD o.breitung
  breitungM : o'.breitungM = ((sormDone outs).map (·.breitungM)).getD o.breitungM
  kappaPf : o'.kappaPf = ((sormDonePf outs).map (·.kappaPf)).getD o.kappaPf
  fitType : o'.fitType = (((outs.filter (·.began)).getLast?).map (·.fit)).or o.fitType
  valid : o'.resultsValid = (o.resultsValid || !outs.isEmpty)
  none : outs = [] → ∃ f, o' = { o with form := f }
  last : ∀ a b, outs.getLast? = some a → a.result = .ok b → SormObj.showResults o' = SormObj.showResults b

theorem sormHistory_from (h : List SormObj.Event) : ∀ (o : SormObj.Obj m) (ev ev' : Ev Marginal) (F' : FormObj.Obj (m + 1))
    (outs : List (SormRun m)), o.form.beta.isSome → sormOutcomes h o.form ev = some (F', ev', outs) →
    ∃ o', SormObj.history h o ev = some (o', ev') ∧ o'.form = F' ∧ AfterSorm o o' outs := by
  induction h with
  | nil =>
    intro o ev ev' F' outs hb hh
    simp only [sormOutcomes, Option.some.injEq, Prod.mk.injEq] at hh
    obtain ⟨rfl, rfl, rfl⟩ := hh
    exact ⟨o, rfl, rfl, rfl, rfl, rfl, rfl, rfl, by simp, by simp, fun _ => ⟨o.form, rfl⟩, by simp⟩
  | cons a h ih =>
    intro o ev ev' F' outs hb hh
    cases a with
    | world f => exact ih o (f ev) ev' F' outs hb hh
    | form c fopt =>
      simp only [sormOutcomes] at hh
      simp only [SormObj.history]
      rcases hf : FormObj.run c fopt o.form ev with _ | ⟨F1, ev1, e⟩
      · rw [hf] at hh; cases hh
      · rw [hf] at hh
        cases e with
        | finished =>
          obtain ⟨o', k1, k2, k⟩ := ih { o with form := F1 } ev1 ev' F' outs (formRun_beta hf (Or.inl rfl) hb) hh
          exact ⟨o', k1, k2, k.betaHL, k.kappa, k.breitung, k.breitungM, k.kappaPf, k.fitType, k.valid, k.none, k.last⟩
        | raised x =>
          obtain ⟨o', k1, k2, k⟩ := ih { o with form := F1 } ev1 ev' F' outs (formRun_beta hf (Or.inr ⟨x, rfl⟩) hb) hh
          exact ⟨o', k1, k2, k.betaHL, k.kappa, k.breitung, k.breitungM, k.kappaPf, k.fitType, k.valid, k.none, k.last⟩
        | _ => cases hh
    | run c p print fit =>
      obtain ⟨o1, res, h1, h2, h3, h4, h5⟩ := sormRun_alone c p print fit o ev hb
      simp only [sormOutcomes, Option.map_eq_some_iff, Prod.exists, Prod.mk.injEq] at hh
      obtain ⟨F2, ev2, outs', hh, rfl, rfl, rfl⟩ := hh
      simp only [SormObj.history, h1]
      rw [← h2] at hh
      obtain ⟨o', k1, k2, k⟩ := ih o1 _ ev2 F2 outs' (by rw [h2]; exact hb) hh
      rw [h2] at k1
      obtain ⟨⟨rf, rb, rr⟩, hrun⟩ : ∃ r, r = (sormAlone c p fit o.form ev).2 := ⟨_, rfl⟩
      have hrf : rf = fit := congrArg SormRun.fit hrun
      subst hrf
      rw [← hrun] at h4 h5 ⊢
      dsimp only at h4 h5
      refine ⟨o', k1, k2, ?_⟩
      have hbegan : (((List.filter (fun x : SormRun m => x.began) (⟨rf, rb, rr⟩ :: outs')).getLast?).map (·.fit)) =
          (((outs'.filter (·.began)).getLast?).map (·.fit)).or (if rb then some rf else none) := by
        cases rb with
        | false => simp
        | true =>
          simp only [List.filter_cons, if_true]
          rw [List.getLast?_cons]
          cases (outs'.filter (·.began)).getLast? <;> simp
      cases rr with
      | error e =>
        obtain ⟨-, e2, e3, e4, e5, e6⟩ := h5
        have d1 : sormDone (⟨rf, rb, .error e⟩ :: outs') = sormDone outs' := by
          unfold sormDone; rw [List.map_cons, lastCompleted_cons]; simp
        have d2 : sormDonePf (⟨rf, rb, .error e⟩ :: outs') = sormDonePf outs' := by
          unfold sormDonePf
          by_cases hp : rf = "pf"
          · simp only [List.filter_cons, hp, decide_true, if_true]; rw [List.map_cons, lastCompleted_cons]; simp
          · simp [List.filter_cons, hp]
        refine ⟨by rw [d1, k.betaHL, e2], by rw [d1, k.kappa, e3], by rw [d1, k.breitung, e4], by rw [d1, k.breitungM, e5],
          by rw [d2, k.kappaPf, e6], ?_, by rw [k.valid, h3]; simp, by simp, ?_⟩
        · rw [hbegan, k.fitType, h4]
          cases rb <;> cases (outs'.filter (·.began)).getLast? <;> simp
        · intro a b ha hab
          rcases outs' with _ | ⟨x, outs'⟩
          · simp only [List.getLast?_singleton, Option.some.injEq] at ha
            subst ha
            cases hab
          · rw [List.getLast?_cons_cons] at ha
            exact k.last a b ha hab
      | ok a1 =>
        obtain ⟨e1, -, e2, -, e3, -, v1, v2, e4, e5, e6, -, -⟩ := h5
        subst e1
        have d1 : sormDone (⟨rf, true, .ok a1⟩ :: outs') = (sormDone outs').or (some a1) := by
          unfold sormDone; rw [List.map_cons, lastCompleted_cons]
        have d2 : sormDonePf (⟨rf, true, .ok a1⟩ :: outs') = (sormDonePf outs').or (if rf = "pf" then some a1 else none) := by
          unfold sormDonePf
          by_cases hp : rf = "pf"
          · simp only [List.filter_cons, hp, decide_true, if_true]; rw [List.map_cons, lastCompleted_cons]
          · simp [List.filter_cons, hp]
        refine ⟨?_, ?_, ?_, ?_, ?_, ?_, by rw [k.valid, h3]; simp, by simp, ?_⟩
        · rw [d1, k.betaHL, e2]; cases sormDone outs' <;> rfl
        · rw [d1, k.kappa, e3]; cases sormDone outs' <;> rfl
        · rw [d1, k.breitung, e4]; cases sormDone outs' <;> rfl
        · rw [d1, k.breitungM, e5]; cases sormDone outs' <;> rfl
        · rw [d2, k.kappaPf, e6]
          by_cases hp : rf = "pf"
          · simp only [hp, if_true]; cases sormDonePf outs' <;> rfl
          · simp only [hp, if_false]; cases sormDonePf outs' <;> rfl
        · rw [hbegan, k.fitType, h4]
          cases (outs'.filter (·.began)).getLast? <;> simp
        · intro a b ha hab
          rcases outs' with _ | ⟨x, outs'⟩
          · simp only [List.getLast?_singleton, Option.some.injEq] at ha
            subst ha
            dsimp only at hab
            injection hab with hab
            subst hab
            obtain ⟨f, hf⟩ := k.none rfl
            have g1 : o'.resultsValid = true := by rw [hf]; exact h3
            have g2 : o'.breitung = a1.breitung := by rw [hf]; exact e4
            have g3 : o'.fitType = some rf := by rw [hf]; simpa using h4
            have g4 : o'.kappa = a1.kappa := by rw [hf]; exact e3
            have g5 : o'.kappaPf = (if rf = "pf" then a1.kappaPf else o.kappaPf) := by rw [hf]; exact e6
            unfold SormObj.showResults
            rw [g1, g2, g3, g4, g5, v1, v2]
            by_cases hp : rf = "pf"
            · simp only [hp, if_true]
            · simp only [hp, if_false, Option.some.injEq, false_and]
          · rw [List.getLast?_cons_cons] at ha
            exact k.last a b ha hab

/-- C78: whatever was done with a `Sorm` object that was given (or has itself computed) a FORM object with results — any number
of runs of either kind, completed or raising, printed or not, the FORM object run again, the model changed — `betaHL`,
`kappa` and the four Breitung numbers are those of the last run that was completed, `kappa_pf` those of the last completed
*point fit*, `fit_type` the argument of the last run that got past `init_run`, each of these runs being the run of a new
object with the FORM object and the model of that moment.  If the very last run was completed, the printed report is the one
the new object would print.  Before the first run it is `ValueError`, before the first completed one `TypeError`. -/
theorem C78_history (h : List SormObj.Event) (F : FormObj.Obj (m + 1)) (hF : F.beta.isSome) (ev ev' : Ev Marginal)
    (F' : FormObj.Obj (m + 1)) (outs : List (SormRun m)) (hh : sormOutcomes h F ev = some (F', ev', outs)) :
    ∃ o, SormObj.history h (SormObj.fresh F) ev = some (o, ev') ∧ o.form = F' ∧
      (∀ a, lastCompleted (outs.map (·.result)) = some a →
        o.betaHL = a.betaHL ∧ o.kappa = a.kappa ∧ o.breitung = a.breitung ∧ o.breitungM = a.breitungM) ∧
      o.kappaPf = (lastCompleted ((outs.filter (fun r => r.fit = "pf")).map (·.result))).bind (·.kappaPf) ∧
      o.fitType = ((outs.filter (·.began)).getLast?).map (·.fit) ∧
      (∀ a b, outs.getLast? = some a → a.result = .ok b → SormObj.showResults o = SormObj.showResults b) ∧
      (outs = [] → SormObj.showResults o = .error .valueError) ∧
      (outs ≠ [] → lastCompleted (outs.map (·.result)) = none → SormObj.showResults o = .error .typeError) := by
  obtain ⟨o, h1, h2, k⟩ := sormHistory_from h (SormObj.fresh F) ev ev' F' outs hF hh
  refine ⟨o, h1, h2, ?_, ?_, ?_, k.last, ?_, ?_⟩
  · intro a ha
    have hd : sormDone outs = some a := ha
    refine ⟨?_, ?_, ?_, ?_⟩
    · rw [k.betaHL, hd]; rfl
    · rw [k.kappa, hd]; rfl
    · rw [k.breitung, hd]; rfl
    · rw [k.breitungM, hd]; rfl
  · rw [k.kappaPf]
    unfold sormDonePf
    cases lastCompleted ((outs.filter (fun r => r.fit = "pf")).map (·.result)) <;> rfl
  · rw [k.fitType]
    cases ((outs.filter (·.began)).getLast?).map (·.fit) <;> rfl
  · rintro rfl
    have hv : o.resultsValid = false := by rw [k.valid]; rfl
    simp [SormObj.showResults, hv]
  · intro hne hl
    have hd : sormDone outs = none := hl
    have hv : o.resultsValid = true := by
      rw [k.valid]; cases outs <;> simp_all
    have hb : o.breitung.isArray = false := by rw [k.breitung, hd]; rfl
    simp [SormObj.showResults, hv, hb]

/-- C78: `run` never runs FORM again.  Whatever the model, the limit state or the options have become, the reliability index of
every completed run is the one of the FORM object the `Sorm` object was constructed with, and that object is unchanged. -/
theorem C78_form_kept (h : List SormObj.Event) : ∀ (o : SormObj.Obj m) (ev ev' : Ev Marginal) (o' : SormObj.Obj m),
    o.form.beta.isSome → (∀ c fopt, .form c fopt ∉ h) → SormObj.history h o ev = some (o', ev') →
    o'.form = o.form ∧ (o'.betaHL = o.betaHL ∨ o'.betaHL = o.form.beta) := by
  induction h with
  | nil =>
    intro o ev ev' o' _ _ hh
    simp only [SormObj.history, Option.some.injEq, Prod.mk.injEq] at hh
    obtain ⟨rfl, -⟩ := hh
    exact ⟨rfl, Or.inl rfl⟩
  | cons a h ih =>
    intro o ev ev' o' hb hn hh
    cases a with
    | world f => exact ih o (f ev) ev' o' hb (fun c fopt hm => hn c fopt (List.mem_cons_of_mem _ hm)) hh
    | form c fopt => exact absurd (List.mem_cons_self) (hn c fopt)
    | run c p print fit =>
      obtain ⟨o1, res, h1, h2, -, -, h5⟩ := sormRun_alone c p print fit o ev hb
      simp only [SormObj.history, h1] at hh
      obtain ⟨k1, k2⟩ := ih o1 _ ev' o' (by rw [h2]; exact hb) (fun c fopt hm => hn c fopt (List.mem_cons_of_mem _ hm)) hh
      rw [h2] at k1 k2
      refine ⟨k1, ?_⟩
      rcases k2 with k2 | k2
      · rw [k2]
        split at h5
        · exact Or.inr h5.2.2.2.1
        · exact Or.inl h5.2.1
      · exact Or.inr k2

/-- C78: a point fit that raises after a completed curve fit (and no completed point fit) leaves a report headed
"(Point-Fitting)" with the numbers and curvatures of the curve fit; an unknown `fit_type` raises `ValueError`, and the report
then shows the previous results.  Neither report complains. -/
theorem C78_mixed (c : Session.Setup) (p : ℝ) (print : Bool) (fit : String) (o : SormObj.Obj m) (ev : Ev Marginal) (ks : List ℝ)
    (hb : o.form.beta.isSome) (hk : o.kappa = some ks) (ha : o.breitung.isArray = true) (hpf : o.kappaPf = none) (e : PyErr)
    (hr : (sormAlone c p fit o.form ev).2 = ⟨fit, true, .error e⟩) :
    ∃ o' ev', SormObj.run c p print fit o ev = (o', ev', .error e) ∧
      SormObj.showResults o' = .ok ⟨decide (fit = "pf"), o.breitung.betag, o.breitung.pf, .inr ks⟩ := by
  obtain ⟨o', res, h1, -, h3, h4, h5⟩ := sormRun_alone c p print fit o ev hb
  rw [hr] at h4 h5
  obtain ⟨rfl, -, e3, e4, -, e6⟩ := h5
  refine ⟨o', _, h1, ?_⟩
  simp [SormObj.showResults, h3, h4, e3, e4, e6, hpf, hk, ha]

/-- The attributes of a `Sorm` object after a run with result `r`. -/
structure HoldsSorm (o : SormObj.Obj m) (r : Sorm.SResult) : Prop where
  betaHL : o.betaHL = some r.betaHL
  kappa : o.kappa = some r.kappa
  kappaPf : o.kappaPf = r.kappaPf
  breitung : o.breitung = r.breitung
  breitungM : o.breitungM = r.breitungM
  valid : o.resultsValid = true

/-- The run of a new object that holds the FORM result `r` of the same transformation. -/
theorem sormRun_fresh {c : Session.Setup} {F : FormObj.Obj (m + 1)} {r : Form.Result (m + 1)} {t : Mats (m + 1)}
    (hF : HoldsForm F r) (hT : F.transform = some t) {ev ev1 : Ev Marginal} (hI : Session.initRun c (m + 1) ev = (ev1, .ok t))
    (p : ℝ) (fit : String) :
    match Sorm.run (c.eig m) t (Session.margN (m + 1) c.default ev1.model) (Session.evaluator c (m + 1) ev1.model) r p false fit
        ev1 with
    | (ev', .ok s) => ∃ o', SormObj.run c p false fit (SormObj.fresh F) ev = (o', ev', .ok ()) ∧ HoldsSorm o' s ∧
        o'.fitType = some fit ∧ o'.form = F
    | (ev', .error e) => ∃ o', SormObj.run c p false fit (SormObj.fresh F) ev = (o', ev', .error e) := by
  unfold SormObj.run Sorm.run
  rw [hI]
  dsimp only [SormObj.fresh]
  by_cases hcf : fit = "cf"
  · subst hcf
    simp only [if_true]
    unfold SormObj.runCurvefit Sorm.runCurvefit designPoint
    dsimp only
    rw [hF.alpha, hF.u, hF.gradient, hF.beta, hT]
    simp only [Option.getD_some, Bool.false_eq_true, if_false, if_true]
    obtain ⟨⟨ev2, x⟩, hx⟩ : ∃ y, Sorm.fitCurvatures (c.eig m) t (Session.margN (m + 1) c.default ev1.model)
      (Session.evaluator c (m + 1) ev1.model) (uToX t (Session.margN (m + 1) c.default ev1.model)
      r.point.u) r.point.u r.alpha r.point.gradient p ev1 = y := ⟨_, rfl⟩
    rw [hx]
    rcases x with e | kappa
    · exact ⟨_, rfl⟩
    · exact ⟨_, rfl, ⟨rfl, rfl, rfl, rfl, rfl, rfl⟩, rfl, rfl⟩
  · by_cases hpf : fit = "pf"
    · subst hpf
      simp only [hcf, if_true, if_false]
      unfold SormObj.runPointfit Sorm.runPointfit
      dsimp only
      rw [hF.alpha, hF.beta]
      dsimp only
      obtain ⟨⟨ev2, x⟩, hx⟩ : ∃ y, Sorm.fitPoints t (Session.margN (m + 1) c.default ev1.model)
        (Session.evaluator c (m + 1) ev1.model) r.alpha r.beta ev1 = y := ⟨_, rfl⟩
      rw [hx]
      rcases x with e | l
      · exact ⟨_, rfl⟩
      · exact ⟨_, rfl, ⟨rfl, rfl, rfl, rfl, rfl, rfl⟩, rfl, rfl⟩
    · simp only [hcf, hpf, if_false]
      exact ⟨_, rfl⟩

/-- C78: constructing a `Sorm` object and running it once is the analysis `Session.runJob` describes (to which C46–C49 and C70
apply): FORM in the constructor, then the fit; the object then holds its result. -/
theorem C78_fresh (c : Session.Setup) (fopt : Form.Options) (p : ℝ) (fit : String) (ev : Ev Marginal) :
    match Session.runJob c (.sorm fopt p fit : Session.Job (m + 1)) ev with
    | some (ev', .sorm s) => ∃ (ev1 : Ev Marginal) (o o' : SormObj.Obj m), SormObj.new c fopt ev = some (ev1, .ok o) ∧
        SormObj.run c p false fit o ev1 = (o', ev', .ok ()) ∧ HoldsSorm o' s ∧ o'.fitType = some fit
    | some (ev', .raised e) => SormObj.new (m := m) c fopt ev = some (ev', .error e) ∨
        ∃ (ev1 : Ev Marginal) (o o' : SormObj.Obj m), SormObj.new c fopt ev = some (ev1, .ok o) ∧
          SormObj.run c p false fit o ev1 = (o', ev', .error e)
    | some (_, .nan) => SormObj.new (m := m) c fopt ev = none
    | none => SormObj.new (m := m) c fopt ev = none
    | some _ => False := by
  have hr := C76_run (n := m + 1) c fopt FormObj.fresh ev
  unfold Session.runJob SormObj.new
  dsimp only
  rcases hf : Session.formRun c (m + 1) fopt ev with _ | ⟨ev1, r | out⟩
  · rw [hf] at hr
    dsimp only at hr
    rw [hr]
  · obtain ⟨F, ev0, t, hI, h1, h2, h3, h4, -⟩ := formRun_inl (o := FormObj.fresh) hf
    obtain ⟨-, -, -, -, j, T, hS⟩ := formRun_done hf
    obtain ⟨Ro, hI1⟩ := initRun_again hI hS.definition
    obtain ⟨ev2, hev2⟩ : ∃ ev2 : Ev Marginal, ev2 = { ev1 with model := ev1.model.setModifiedCorrelation Ro } := ⟨_, rfl⟩
    rw [← hev2] at hI1
    have hs := sormRun_fresh h2 h4 hI1 p fit
    dsimp only
    unfold Session.withInit
    rw [h1, hI1]
    dsimp only
    obtain ⟨⟨ev3, x⟩, hx⟩ : ∃ y, Sorm.run (c.eig m) t (Session.margN (m + 1) c.default ev2.model)
      (Session.evaluator c (m + 1) ev2.model) r p false fit ev2 = y := ⟨_, rfl⟩
    rw [hx] at hs ⊢
    rcases x with e | s
    · obtain ⟨o', k⟩ := hs
      exact Or.inr ⟨ev1, _, o', rfl, k⟩
    · obtain ⟨o', k, k2, k3, -⟩ := hs
      exact ⟨ev1, _, o', rfl, k, k2, k3⟩
  · rw [hf] at hr
    cases out with
    | raised e =>
      obtain ⟨o', h1, -⟩ := hr
      rw [h1]
      exact Or.inl rfl
    | nan =>
      obtain ⟨o', h1⟩ := hr
      rw [h1]
    | _ => exact hr.elim

/-- C79: after a completed run of an object that holds the FORM result `r`, with both Breitung results valid, on any reachable
model with the same random variables: the detailed report shows the FORM and the SORM numbers of that run, the curvatures, and
one line for every random variable with its own name, its own coordinates of the FORM design point and its own component of
`alpha`, then the constants. -/
theorem C79_detailed {c : Session.Setup} {fopt : Form.Options} {ev ev1 : Ev Marginal} {r : Form.Result (m + 1)}
    (h : Session.formRun c (m + 1) fopt ev = some (ev1, .inl r)) :
    ∃ o : SormObj.Obj m, SormObj.new c fopt ev = some (ev1, .ok o) ∧
      ∀ (p : ℝ) (fit : String) (o' : SormObj.Obj m) (ev' : Ev Marginal),
        SormObj.run c p false fit o ev1 = (o', ev', .ok ()) → o'.breitung.isArray = true → o'.breitungM.isArray = true →
        ∀ md : StochModel Marginal ℝ, Reachable md → md.marg = ev.model.marg → (hn : md.marg.length = m + 1) →
        ∃ rows ks, o'.kappa = some ks ∧
          SormObj.showDetailedOutput md o' = .ok ⟨decide (fit = "pf"), r.Pf, o'.breitung.pf, o'.breitungM.pf, r.beta,
            o'.breitung.betag, o'.breitungM.betag, md.callFunction,
            (match o'.kappaPf with | some k => .inl k | none => .inr ks), rows, md.consts⟩ ∧
          (o'.kappaPf.isSome ↔ fit = "pf") ∧ rows.length = m + 1 ∧
          ∀ i : Fin (m + 1), rows[i.val]? = some ((md.marg[i.val]'(by omega)).name, r.point.u i, r.point.x i, r.alpha i) := by
  obtain ⟨F, ev0, t, hI, h1, h2, h3, h4, h5, h6⟩ := formRun_inl (o := FormObj.fresh) h
  refine ⟨SormObj.fresh F, by unfold SormObj.new; rw [h1], ?_⟩
  intro p fit o' ev' hrun hb hbM md hm hmarg hn
  have hx : r.point.x = uToX t (Session.margN (m + 1) c.default ev0.model) r.point.u := (C29_identities h6).1
  obtain ⟨hX, rows, hr, hl, hrow⟩ := form_table h2 h4 hx hm (h5.trans hmarg.symm) hn
  obtain ⟨-, -, -, -, j, T, hS⟩ := formRun_done h
  obtain ⟨Ro, hI1⟩ := initRun_again hI hS.definition
  have hs := sormRun_fresh h2 h4 hI1 p fit
  have ha := sormRun_alone c p false fit (SormObj.fresh F) ev1 (by show F.beta.isSome; rw [h2.beta]; rfl)
  obtain ⟨o1, res, a1, -, -, -, a5⟩ := ha
  rw [hrun] at a1
  have e1 : o1 = o' := (Prod.mk.inj a1).1.symm
  have e2 : res = .ok () := (Prod.mk.inj (Prod.mk.inj a1).2).2.symm
  subst e1 e2
  split at hs
  · obtain ⟨o2, s1, s2, s3, s4⟩ := hs
    rw [hrun] at s1
    have e3 : o2 = o1 := (Prod.mk.inj s1).1.symm
    subst e3
    have hpf : o2.kappaPf.isSome ↔ fit = "pf" := by
      split at a5
      · obtain ⟨-, -, -, -, -, -, -, -, -, -, q1, q2, -⟩ := a5
        rw [q1]
        by_cases hp : fit = "pf"
        · simp [hp, q2 hp]
        · simp [hp, SormObj.fresh]
      · simp at a5
    refine ⟨rows, _, s2.kappa, ?_, hpf, hl, hrow⟩
    unfold SormObj.showDetailedOutput
    rw [s4, hX, FormObj.getAlpha, FormObj.getBeta, h2.alpha, h2.beta, h2.Pf, h2.u, hb, hbM]
    have hsh : SormObj.showResults o2 = .ok ⟨decide (fit = "pf"), o2.breitung.betag, o2.breitung.pf,
        (match o2.kappaPf with | some k => .inl k | none => .inr (by assumption : Sorm.SResult).kappa)⟩ := by
      unfold SormObj.showResults
      rw [s2.valid, hb, s3, s2.kappa]
      by_cases hp : fit = "pf"
      · obtain ⟨k, hk⟩ := Option.isSome_iff_exists.1 (hpf.2 hp)
        simp [hp, hk]
      · have : o2.kappaPf = none := by
          rw [← Option.not_isSome_iff_eq_none]; exact fun h => hp (hpf.1 h)
        simp [hp, this]
    rw [hsh]
    simp only [s2.valid, Bool.not_true, Bool.or_self, Bool.false_eq_true, if_false, Option.getD_some, hr]
    rfl
  · obtain ⟨o2, s1⟩ := hs
    rw [hrun] at s1
    simp at s1

/-- A run with an unknown `fit_type`, on its own. -/
theorem sormAlone_unknown {c : Session.Setup} {F : FormObj.Obj (m + 1)} {ev ev1 : Ev Marginal} {t : Mats (m + 1)}
    (hI : Session.initRun c (m + 1) ev = (ev1, .ok t)) (p : ℝ) {fit : String} (h1 : fit ≠ "cf") (h2 : fit ≠ "pf") :
    sormAlone c p fit F ev = (ev1, ⟨fit, true, .error .valueError⟩) := by
  unfold sormAlone SormObj.run
  rw [hI]
  simp [h1, h2]

/-- A point fit whose limit state raises everywhere, on its own. -/
theorem sormAlone_raising {c : Session.Setup} {F : FormObj.Obj (m + 1)} {r : Form.Result (m + 1)} (hF : HoldsForm F r)
    {ev ev1 : Ev Marginal} {t : Mats (m + 1)} (hI : Session.initRun c (m + 1) ev = (ev1, .ok t)) (hm : m ≠ 0)
    {R : Matrix (Fin (m + 1)) (Fin (m + 1)) ℝ} (hR : Sorm.orthonormalMatrix r.alpha = .ok R) (hb : r.beta ≠ 0) {e : PyErr}
    (he : ∀ x, ∃ ev2, (Session.evaluator c (m + 1) ev1.model).withGrad ev1 x = (ev2, .error e)) (p : ℝ) :
    ∃ ev2, sormAlone c p "pf" F ev = (ev2, ⟨"pf", true, .error e⟩) := by
  unfold sormAlone SormObj.run
  rw [hI]
  dsimp only [SormObj.fresh]
  rw [if_neg (by decide), if_pos rfl]
  unfold SormObj.runPointfit
  dsimp only
  rw [hF.beta, hF.alpha]
  dsimp only
  have : ∃ ev2, Sorm.fitPoints t (Session.margN (m + 1) c.default ev1.model) (Session.evaluator c (m + 1) ev1.model) r.alpha r.beta
      ev1 = (ev2, .error e) := by
    unfold Sorm.fitPoints
    rw [hR]
    dsimp only
    rw [if_neg hb]
    obtain ⟨k, rfl⟩ := Nat.exists_eq_succ_of_ne_zero hm
    rw [List.finRange_succ]
    unfold Sorm.fitAxes Sorm.findFittingPoint
    rw [Sorm.newton]
    unfold Sorm.evaluateLSF
    obtain ⟨ev2, h2⟩ := he (uToX t (Session.margN (k + 1 + 1) c.default ev1.model)
      (Rᵀ.mulVec (Sorm.trialPoint (0 : Fin (k + 1)) (-1 * Sorm.stepCoeff r.beta * r.beta) r.beta)))
    rw [h2]
    exact ⟨ev2, rfl⟩
  obtain ⟨ev2, h2⟩ := this
  rw [h2]
  exact ⟨ev2, rfl⟩

/-- C78, a concrete case (two normal variables, `g = 7 - X - 2Y`): a completed curve fit, then `run("xyz")`, then a point fit
of a limit state that raises.  The three reports show the same numbers, the last one under the heading "(Point-Fitting)". -/
example : ∃ (c c' : Session.Setup) (ev ev1 ev2 ev3 ev4 : Ev Marginal) (o o1 o2 o3 : SormObj.Obj 1) (b : Fl),
    SormObj.new c ⟨100, 0.001, 0.001, 1, 1⟩ ev = some (ev1, .ok o) ∧
    SormObj.run c 1000 false "cf" o ev1 = (o1, ev2, .ok ()) ∧
    SormObj.run c 1000 false "xyz" o1 ev2 = (o2, ev3, .error .valueError) ∧
    SormObj.run c' 1000 false "pf" o2 ev3 = (o3, ev4, .error .indexError) ∧
    SormObj.showResults o1 = .ok ⟨false, b, .fin (StdNormal.cdf (-(2 / √5))), .inr []⟩ ∧
    SormObj.showResults o2 = .ok ⟨false, b, .fin (StdNormal.cdf (-(2 / √5))), .inr []⟩ ∧
    SormObj.showResults o3 = .ok ⟨true, b, .fin (StdNormal.cdf (-(2 / √5))), .inr []⟩ := by
  obtain ⟨c, ev, ev1, r, m1, m2, hla, hreach, hmarg, hconsts, hcor, hfuel, hls, hnames, h1, h2, hF, hb, heig, ⟨g, hg, hq⟩, hal,
    hal1, -⟩ := formObject_world
  obtain ⟨F, ev0, t, hI, k1, k2, k3, k4, -⟩ := formRun_inl (o := FormObj.fresh) hF
  obtain ⟨-, -, -, -, j, T, hS⟩ := formRun_done hF
  have hd := hS.definition
  obtain ⟨Ro, hI1⟩ := initRun_again hI hd
  obtain ⟨ev1', hev1'⟩ : ∃ e : Ev Marginal, e = { ev1 with model := ev1.model.setModifiedCorrelation Ro } := ⟨_, rfl⟩
  rw [← hev1'] at hI1
  have hd1 : SameDefinition ev1'.model ev.model := by
    rw [hev1']; exact ⟨hd.vars, hd.names, hd.marg, hd.correlation, hd.consts⟩
  have hr1 : Reachable ev1'.model := by rw [hev1']; exact reachable_setRo (hS.reachable hreach) _
  obtain ⟨R, hR⟩ := (C47_defined (m := 1) r.alpha hal).2.1 (by norm_num) hal1
  have hmg : ∀ i : Fin 2, Normal.new (![1, 2] i) (.fin ((fun _ => 1 : Fin 2 → ℝ) i)) ((fun _ => none : Fin 2 → Option ℝ) i) =
      .ok (Session.margN 2 c.default ev1'.model i) := by
    intro i
    unfold Session.margN
    rw [hd1.marg, hmarg]
    fin_cases i
    · simpa using h1
    · simpa using h2
  -- the curve fit
  obtain ⟨Ro', t', hI', ht'⟩ := initRun_eye (c := c) (n := 2) (ev := ev1) hla (by rw [hd.marg, hmarg]; rfl)
    (by rw [hd.correlation, hcor])
  rw [hI1] at hI'
  have htt : t = t' := by
    have := (Prod.mk.inj hI').2
    injection this
  subst htt
  obtain ⟨ev2, H, -, -, hH, -, -, -, hcalls⟩ := C48_ffd ht' (μ := ![1, 2]) (sd := fun _ => 1)
    (fun _ => one_pos) hmg hg c.lsopt (by rw [hls]; norm_num) (by rw [hls]; norm_num) (by rw [hls]; norm_num) (by rw [hls]; simp)
    (by rw [hls]; simp) ev1' hr1 (by unfold StochModel.nMarg; rw [hd1.marg, hmarg]; rfl)
    (by unfold StochModel.getNames; rw [hd1.names, hnames]; simp) 7 ![-1, -2] (K := 0) (by simp [Matrix.IsSymm])
    (fun p => by rw [pointArgs_same hd1, hq]; simp [quad, dotProduct]) r (para := 1000) (by norm_num)
  have hs := sormRun_fresh k2 k4 hI1 1000 "cf"
  have hrun : Sorm.run (c.eig 1) t (Session.margN 2 c.default ev1'.model) (Session.evaluator c 2 ev1'.model) r 1000 false "cf" ev1' =
      (ev2, .ok ⟨r.beta, [], none, Sorm.pfBreitung r.beta [], Sorm.pfBreitungM r.beta []⟩) := by
    unfold Sorm.run
    rw [if_pos rfl, Sorm.runCurvefit_eq]
    unfold Session.evaluator
    rw [hH, hR, heig]
    simp [Sorm.sort, Sorm.finish]
  rw [hrun] at hs
  obtain ⟨o1, s1, s2, s3, s4⟩ := hs
  have harr : o1.breitung = Sorm.pfBreitung r.beta [] := s2.breitung
  have hbr : Sorm.pfBreitung r.beta [] = ⟨.fin (StdNormal.cdf (-(2 / √5))), Sorm.negPpf (.fin (StdNormal.cdf (-(2 / √5)))), true⟩ := by
    unfold Sorm.pfBreitung Sorm.prodPow
    rw [hb]
    simp [Sorm.scale]
  have hsh1 : SormObj.showResults o1 = .ok ⟨false, Sorm.negPpf (.fin (StdNormal.cdf (-(2 / √5)))),
      .fin (StdNormal.cdf (-(2 / √5))), .inr []⟩ := by
    simp [SormObj.showResults, s2.valid, harr, hbr, s2.kappa, s3]
  have hbs : o1.form.beta.isSome := by rw [s4, k2.beta]; rfl
  -- the unknown kind
  have hd2 : SameDefinition ev2.model ev.model := by
    rw [hcalls]; exact ⟨hd1.vars, hd1.names, hd1.marg, hd1.correlation, hd1.consts⟩
  obtain ⟨Ro2, hI2⟩ := initRun_again hI hd2
  obtain ⟨o2, ev3, q1, q2⟩ := C78_mixed c 1000 false "xyz" o1 ev2 [] hbs s2.kappa (by rw [harr, hbr]) s2.kappaPf .valueError
    (by rw [sormAlone_unknown hI2 1000 (by decide) (by decide)])
  obtain ⟨o2', res, q3, q4, q5, q6, q7⟩ := sormRun_alone c 1000 false "xyz" o1 ev2 hbs
  rw [sormAlone_unknown hI2 1000 (by decide) (by decide)] at q3 q7
  rw [q1] at q3
  obtain ⟨e1, e2⟩ := Prod.mk.inj q3
  obtain ⟨e2, -⟩ := Prod.mk.inj e2
  subst e1
  obtain ⟨-, -, z1, z2, -, z3⟩ := q7
  -- the point fit
  obtain ⟨c', hc'⟩ : ∃ c' : Session.Setup, c' = { c with expr := fun _ => .tuple [] } := ⟨_, rfl⟩
  have hd3 : SameDefinition ev3.model ev.model := by
    rw [e2]; exact ⟨hd2.vars, hd2.names, hd2.marg, hd2.correlation, hd2.consts⟩
  obtain ⟨Ro3, t3, hI3, -⟩ := initRun_eye (c := c') (n := 2) (ev := ev3) (by rw [hc']; exact hla) (by rw [hd3.marg, hmarg]; rfl)
    (by rw [hd3.correlation, hcor])
  have hF2 : HoldsForm o2.form r := by rw [q4, s4]; exact k2
  obtain ⟨ev4, w⟩ := sormAlone_raising hF2 hI3 (by norm_num) hR (by rw [hb]; positivity)
    (raising_grad (c' := c') (by rw [hc', hls]) (by rw [hc']) _) 1000
  obtain ⟨o3, ev5, w1, w2⟩ := C78_mixed c' 1000 false "pf" o2 ev3 [] (by rw [q4]; exact hbs) (by rw [z1, s2.kappa])
    (by rw [z2, harr, hbr]) (by rw [z3, s2.kappaPf]) .indexError (by rw [w])
  refine ⟨c, c', ev, ev1, ev2, ev3, ev5, SormObj.fresh F, o1, o2, o3, _, ?_, s1, q1, w1, hsh1, ?_, ?_⟩
  · unfold SormObj.new; rw [k1]
  · rw [q2, harr, hbr]; simp
  · rw [w2, z2, harr, hbr]; simp

end Pystra.Props
