import Verif.Spec.Objects
import Verif.Props.FormLinear
import Verif.Props.Stochastic
import Verif.Props.Importance

/-! C76: the life of a `Form` object; C77: its printed reports. -/

namespace Pystra.Props
open Spec Transformation Form Matrix FormObj

variable {σ : Type} {n : ℕ}

/-- The object holds the result `r`. -/
structure HoldsForm (o : Obj n) (r : Form.Result n) : Prop where
  i : o.i = some r.i
  u : o.u = some r.point.u
  J : o.J = some r.point.J
  G : o.G = some r.point.G
  Go : o.Go = some r.Go
  gradient : o.gradient = some r.point.gradient
  alpha : o.alpha = some r.alpha
  beta : o.beta = some r.beta
  Pf : o.Pf = some r.Pf

/-- The reported numbers of `o` are still in `o'`. -/
structure KeptForm (o o' : Obj n) : Prop where
  i : o'.i = o.i
  beta : o'.beta = o.beta
  Pf : o'.Pf = o.Pf
  valid : o'.resultsValid = o.resultsValid
  transform : o'.transform = o.transform

theorem KeptForm.trans {a b c : Obj n} (h : KeptForm a b) (k : KeptForm b c) : KeptForm a c :=
  ⟨k.i.trans h.i, k.beta.trans h.beta, k.Pf.trans h.Pf, k.valid.trans h.valid, k.transform.trans h.transform⟩

/-- A pass of the object's loop does what `Form.iteration` says. -/
theorem pass_eq (t : Mats n) (marg : Fin n → Marginal) (ev : Evaluator σ n) (opt : Form.Options) (i : ℕ) (Go : ℝ)
    (u : Fin n → ℝ) (o : Obj n) (s : σ) (hu : o.u = some u) (hGo : i = 1 ∨ o.Go = some Go) :
    match iteration t marg ev opt i Go u s with
    | .done r s' => ∃ o', pass t marg ev opt i o s = (o', s', .finished) ∧ HoldsForm o' r ∧
        o'.resultsValid = o.resultsValid ∧ o'.transform = o.transform
    | .raised e s' => ∃ o', pass t marg ev opt i o s = (o', s', .raised e) ∧ KeptForm o o'
    | .nan s' => ∃ o', pass t marg ev opt i o s = (o', s', .nan)
    | .next Go' u' s' => ∃ o', pass t marg ev opt i o s = (o', s', .again) ∧ o'.u = some u' ∧ o'.Go = some Go' ∧
        KeptForm o o' := by
  unfold iteration pass linearise
  dsimp only
  have hu' : o.u.getD 0 = u := by rw [hu]; rfl
  rw [hu']
  cases hJ : npInv (jacobian t marg u (uToX t marg u)) with
  | error e => exact ⟨o, rfl, rfl, rfl, rfl, rfl, rfl⟩
  | ok J =>
    dsimp only
    rcases hv : ev.withGrad s (uToX t marg u) with ⟨s1, e | ⟨G, grad, xa⟩⟩
    · exact ⟨_, rfl, rfl, rfl, rfl, rfl, rfl⟩
    · dsimp only
      obtain ⟨o0, ho0⟩ : ∃ o0 : Obj n, o0 = { o with J := some J, G := some G, gradient := some (vecMul grad J) } := ⟨_, rfl⟩
      obtain ⟨o1, ho1⟩ : ∃ o1, o1 = setScale i G o0 := ⟨_, rfl⟩
      have hGo' : o1.Go = some (if i = 1 then G else Go) := by
        by_cases hi : i = 1
        · simp [ho1, setScale, hi]
        · simp [ho1, ho0, setScale, hi, hGo.resolve_left hi]
      have e1 : setScale i G { o with J := some J, G := some G, gradient := some (vecMul grad J) } = o1 := by rw [ho1, ho0]
      rw [e1]
      have hk1 : KeptForm o o1 := by
        rw [ho1, ho0]; by_cases hi : i = 1 <;> simp only [setScale, hi, if_true, if_false] <;> exact ⟨rfl, rfl, rfl, rfl, rfl⟩
      have ho1' : o1.J = some J ∧ o1.G = some G ∧ o1.gradient = some (vecMul grad J) ∧ o1.u = some u := by
        rw [ho1, ho0]; by_cases hi : i = 1 <;> simp [setScale, hi, hu]
      clear ho1 ho0 e1
      by_cases hg : vecMul grad J = 0
      · simp only [if_pos hg]; exact ⟨_, rfl⟩
      · simp only [if_neg hg, hGo', Option.getD_some]
        by_cases hc : ((cond1 opt G (if i = 1 then G else Go) && cond2 opt u (Form.alpha (vecMul grad J))) ||
            decide (i = opt.iMax)) = true
        · simp only [hc, if_true]
          exact ⟨_, rfl, ⟨rfl, ho1'.2.2.2, ho1'.1, ho1'.2.1, rfl, ho1'.2.2.1, rfl, rfl, rfl⟩, hk1.valid, hk1.transform⟩
        · simp only [Bool.not_eq_true] at hc
          simp only [hc]
          simp only [Bool.false_eq_true, if_false]
          rcases hst : Form.getStepSize t marg ev opt G (vecMul grad J) u
            (direction G (vecMul grad J) (Form.alpha (vecMul grad J)) u) s1 with ⟨s2, e | step⟩
          · exact ⟨_, rfl, hk1.i, hk1.beta, hk1.Pf, hk1.valid, hk1.transform⟩
          · exact ⟨_, rfl, rfl, rfl, hk1.i, hk1.beta, hk1.Pf, hk1.valid, hk1.transform⟩

/-- The object's loop does what `Form.loop` says. -/
theorem objLoop_eq (t : Mats n) (marg : Fin n → Marginal) (ev : Evaluator σ n) (opt : Form.Options) (fuel : ℕ) :
    ∀ (i : ℕ) (Go : ℝ) (u : Fin n → ℝ) (o : Obj n) (s : σ), o.u = some u → (i = 1 ∨ o.Go = some Go) →
    match Form.loop t marg ev opt fuel i Go u s with
    | some (.done r s') => ∃ o', FormObj.loop t marg ev opt fuel i o s = some (o', s', .finished) ∧ HoldsForm o' r ∧
        o'.resultsValid = o.resultsValid ∧ o'.transform = o.transform
    | some (.raised e s') => ∃ o', FormObj.loop t marg ev opt fuel i o s = some (o', s', .raised e) ∧ KeptForm o o'
    | some (.nan s') => ∃ o', FormObj.loop t marg ev opt fuel i o s = some (o', s', .nan)
    | some (.next _ _ _) => False
    | none => FormObj.loop t marg ev opt fuel i o s = none := by
  induction fuel with
  | zero => intro i Go u o s _ _; rfl
  | succ fuel ih =>
    intro i Go u o s hu hGo
    have hp := pass_eq t marg ev opt i Go u o s hu hGo
    rw [Form.loop, FormObj.loop]
    cases hi : iteration t marg ev opt i Go u s with
    | done r s' =>
      rw [hi] at hp
      obtain ⟨o', h1, h2⟩ := hp
      exact ⟨o', by rw [h1], h2⟩
    | raised e s' =>
      rw [hi] at hp
      obtain ⟨o', h1, h2⟩ := hp
      exact ⟨o', by rw [h1], h2⟩
    | nan s' =>
      rw [hi] at hp
      obtain ⟨o', h1⟩ := hp
      exact ⟨o', by rw [h1]⟩
    | next Go' u' s' =>
      rw [hi] at hp
      obtain ⟨o1, h1, h2, h3, h4⟩ := hp
      have := ih (i + 1) Go' u' o1 s' h2 (Or.inr h3)
      rw [h1]
      dsimp only
      revert this
      rcases Form.loop t marg ev opt fuel (i + 1) Go' u' s' with _ | (⟨r, s''⟩ | ⟨e, s''⟩ | s'' | ⟨a, b, c⟩)
      · exact id
      · rintro ⟨o', k1, k2, k3, k4⟩
        exact ⟨o', k1, k2, k3.trans h4.valid, k4.trans h4.transform⟩
      · rintro ⟨o', k1, k2⟩
        exact ⟨o', k1, h4.trans k2⟩
      · exact id
      · exact id

/-- C76: a run of an object that has any earlier history does what a new object's run does (`Session.formRun`): it ends in
the same way, with the same evaluations.  If it is completed, the object holds its results — all of them.  If it raises,
index, failure probability and number of iterations are still the earlier ones.  In either case the object passes for
one that has results. -/
theorem C76_run (c : Session.Setup) (opt : Form.Options) (o : Obj n) (ev : Ev Marginal) :
    match Session.formRun c n opt ev with
    | some (ev', .inl r) => ∃ o', FormObj.run c opt o ev = some (o', ev', .finished) ∧ HoldsForm o' r ∧
        o'.resultsValid = true
    | some (ev', .inr (.raised e)) => ∃ o', FormObj.run c opt o ev = some (o', ev', .raised e) ∧ o'.i = o.i ∧
        o'.beta = o.beta ∧ o'.Pf = o.Pf ∧ o'.resultsValid = true
    | some (ev', .inr .nan) => ∃ o', FormObj.run c opt o ev = some (o', ev', .nan)
    | some (_, .inr _) => False
    | none => FormObj.run c opt o ev = none := by
  unfold Session.formRun Session.withInit FormObj.run
  dsimp only
  rcases hI : Session.initRun c n ev with ⟨ev1, e | t⟩
  · exact ⟨_, rfl, rfl, rfl, rfl, rfl⟩
  · dsimp only
    have h := objLoop_eq t (Session.margN n c.default ev1.model) (Session.evaluator c n ev1.model) opt c.fuel 1 0
      (startingPoint t (Session.margN n c.default ev1.model))
      { o with resultsValid := true, transform := some t, u := some (startingPoint t (Session.margN n c.default ev1.model)) }
      ev1 rfl (Or.inl rfl)
    unfold Form.runFrom
    revert h
    rcases Form.loop t (Session.margN n c.default ev1.model) (Session.evaluator c n ev1.model) opt c.fuel 1 0
      (startingPoint t (Session.margN n c.default ev1.model)) ev1 with _ | (⟨r, s''⟩ | ⟨e, s''⟩ | s'' | ⟨a, b, c⟩)
    · exact id
    · rintro ⟨o', k1, k2, k3, -⟩
      exact ⟨o', k1, k2, k3⟩
    · rintro ⟨o', k1, k2⟩
      exact ⟨o', k1, k2.i, k2.beta, k2.Pf, k2.valid⟩
    · exact id
    · exact False.elim

/-- What has been completed after one more outcome. -/
theorem lastCompleted_cons {α : Type} (a : Except PyErr α) (l : List (Except PyErr α)) :
    lastCompleted (a :: l) = (lastCompleted l).or (match a with | .ok r => some r | .error _ => none) := by
  unfold lastCompleted
  cases a with
  | error e => simp
  | ok r => 
    simp only [List.filterMap_cons]
    rcases h : List.filterMap (fun o : Except PyErr α => match o with | .ok r => some r | .error _ => none) l with _ | ⟨b, t⟩
    · simp
    · rw [List.getLast?_cons_cons, List.getLast?_cons]
      rfl

/-- Generalisation of `C76_history` to any starting object. -/
theorem formHistory_from (h : List FormObj.Event) : ∀ (o : Obj n) (ev ev' : Ev Marginal)
    (outs : List (Except PyErr (Form.Result n))), formOutcomes n h ev = some (ev', outs) →
    ∃ o', FormObj.history h o ev = some (o', ev') ∧
      o'.beta = ((lastCompleted outs).map (·.beta)).or o.beta ∧
      o'.Pf = ((lastCompleted outs).map (·.Pf)).or o.Pf ∧
      o'.i = ((lastCompleted outs).map (·.i)).or o.i ∧
      o'.resultsValid = (o.resultsValid || !outs.isEmpty) ∧ (outs = [] → o' = o) ∧
      ∀ r, outs.getLast? = some (.ok r) → HoldsForm o' r := by
  induction h with
  | nil =>
    intro o ev ev' outs hh
    simp only [formOutcomes, Option.some.injEq, Prod.mk.injEq] at hh
    obtain ⟨rfl, rfl⟩ := hh
    exact ⟨o, rfl, by simp [lastCompleted], by simp [lastCompleted], by simp [lastCompleted], by simp, fun _ => rfl, by simp⟩
  | cons a h ih =>
    intro o ev ev' outs hh
    cases a with
    | world f => exact ih o (f ev) ev' outs hh
    | run c opt =>
      have hr := C76_run c opt o ev
      simp only [formOutcomes] at hh
      simp only [FormObj.history]
      rcases hf : Session.formRun c n opt ev with _ | ⟨ev1, r | out⟩
      · simp [hf] at hh
      · rw [hf] at hh hr
        obtain ⟨o1, h1, h2, h3⟩ := hr
        simp only [Option.map_eq_some_iff, Prod.exists, Prod.mk.injEq] at hh
        obtain ⟨ev2, outs', hh, rfl, rfl⟩ := hh
        obtain ⟨o', k1, k2, k3, k4, k5, k7, k6⟩ := ih o1 ev1 ev2 outs' hh
        refine ⟨o', by rw [h1]; exact k1, ?_, ?_, ?_, ?_, by simp, ?_⟩
        · rw [k2, h2.beta, lastCompleted_cons]; cases lastCompleted outs' <;> rfl
        · rw [k3, h2.Pf, lastCompleted_cons]; cases lastCompleted outs' <;> rfl
        · rw [k4, h2.i, lastCompleted_cons]; cases lastCompleted outs' <;> rfl
        · rw [k5, h3]; simp
        · intro r' hl
          rcases outs' with _ | ⟨x, outs'⟩
          · simp only [List.getLast?_singleton, Option.some.injEq, Except.ok.injEq] at hl
            subst hl
            rw [k7 rfl]
            exact h2
          · rw [List.getLast?_cons_cons] at hl
            exact k6 r' hl
      · rw [hf] at hh hr
        cases out with
        | raised e =>
          obtain ⟨o1, h1, h2, h3, h4, h5⟩ := hr
          simp only [Option.map_eq_some_iff, Prod.exists, Prod.mk.injEq] at hh
          obtain ⟨ev2, outs', hh, rfl, rfl⟩ := hh
          obtain ⟨o', k1, k2, k3, k4, k5, k7, k6⟩ := ih o1 ev1 ev2 outs' hh
          refine ⟨o', by rw [h1]; exact k1, ?_, ?_, ?_, ?_, by simp, ?_⟩
          · rw [k2, h3, lastCompleted_cons]; cases lastCompleted outs' <;> rfl
          · rw [k3, h4, lastCompleted_cons]; cases lastCompleted outs' <;> rfl
          · rw [k4, h2, lastCompleted_cons]; cases lastCompleted outs' <;> rfl
          · rw [k5, h5]; simp
          · intro r' hl
            rcases outs' with _ | ⟨x, outs'⟩
            · simp at hl
            · rw [List.getLast?_cons_cons] at hl
              exact k6 r' hl
        | _ => simp at hh

/-- C76: whatever was done with a `Form` object — any number of runs, completed or raising, with the model, the limit state or
the options changed in between — `getBeta`, `getFailure` and `showResults` report the last run that was *completed*, even
when later runs raised; before the first completed run `getBeta` raises `TypeError` and `getFailure` is `None`.  The check
"Analysis not yet run" fires exactly if `run` has never been called: a first run that raises disables it, and the report
then fails with `TypeError`. -/
theorem C76_history (h : List FormObj.Event) (ev ev' : Ev Marginal) (outs : List (Except PyErr (Form.Result n)))
    (hh : formOutcomes n h ev = some (ev', outs)) :
    ∃ o : Obj n, FormObj.history h fresh ev = some (o, ev') ∧
      FormObj.getBeta o = (match lastCompleted outs with | some r => .ok r.beta | none => .error .typeError) ∧
      FormObj.getFailure o = (lastCompleted outs).map (·.Pf) ∧
      FormObj.showResults ev'.model o =
        (if outs = [] then .error .valueError
         else match lastCompleted outs with
          | some r => .ok ⟨some r.i, r.beta, r.Pf, ev'.model.callFunction⟩
          | none => .error .typeError) ∧
      ∀ r, outs.getLast? = some (.ok r) →
        getDesignPoint o = some r.point.u ∧ FormObj.getAlpha o = .ok r.alpha ∧ FormObj.getBeta o = .ok r.beta ∧
        FormObj.getFailure o = some r.Pf := by
  obtain ⟨o, h1, h2, h3, h4, h5, -, h6⟩ := formHistory_from h fresh ev ev' outs hh
  refine ⟨o, h1, ?_, ?_, ?_, ?_⟩
  · rw [FormObj.getBeta, h2]
    cases lastCompleted outs <;> rfl
  · rw [FormObj.getFailure, h3]
    cases lastCompleted outs <;> rfl
  · rw [FormObj.showResults, h2, h3, h4, h5]
    rcases outs with _ | ⟨a, l⟩
    · rfl
    · cases lastCompleted (a :: l) <;> simp [fresh, StochModel.getCallFunction]
  · intro r hr
    have := h6 r hr
    exact ⟨this.u, by rw [FormObj.getAlpha, this.alpha], by rw [FormObj.getBeta, this.beta], by rw [FormObj.getFailure, this.Pf]⟩

/-- C76: a run that raises at its very first limit-state evaluation leaves an object that mixes two analyses: `getBeta` and
`showResults` still give the earlier run's numbers, `getDesignPoint` gives the starting point of the failed run and
`getAlpha` the earlier direction. -/
theorem C76_mixed (c : Session.Setup) (opt : Form.Options) (o : Obj n) (ev ev1 : Ev Marginal) (r : Form.Result n)
    (ho : HoldsForm o r) (t : Mats n) (hI : Session.initRun c n ev = (ev1, .ok t)) (hf : 1 ≤ c.fuel) (J : Matrix (Fin n) (Fin n) ℝ)
    (hJ : npInv (jacobian t (Session.margN n c.default ev1.model)
      (startingPoint t (Session.margN n c.default ev1.model))
      (uToX t (Session.margN n c.default ev1.model) (startingPoint t (Session.margN n c.default ev1.model)))) = .ok J)
    (ev2 : Ev Marginal) (e : PyErr)
    (he : (Session.evaluator c n ev1.model).withGrad ev1 (uToX t (Session.margN n c.default ev1.model)
      (startingPoint t (Session.margN n c.default ev1.model))) = (ev2, .error e)) :
    ∃ o', FormObj.run c opt o ev = some (o', ev2, .raised e) ∧
      FormObj.getBeta o' = .ok r.beta ∧ FormObj.getAlpha o' = .ok r.alpha ∧
      FormObj.showResults ev2.model o' = .ok ⟨some r.i, r.beta, r.Pf, ev2.model.callFunction⟩ ∧
      getDesignPoint o' = some (startingPoint t (Session.margN n c.default ev1.model)) := by
  obtain ⟨k, hk⟩ := Nat.exists_eq_add_of_le hf
  unfold FormObj.run
  rw [hI, hk, Nat.add_comm]
  dsimp only
  rw [FormObj.loop, pass]
  dsimp only [Option.getD_some]
  rw [hJ]
  dsimp only
  rw [he]
  refine ⟨_, rfl, ?_, ?_, ?_, rfl⟩
  · simp only [FormObj.getBeta, ho.beta]
  · simp only [FormObj.getAlpha, ho.alpha]
  · simp [FormObj.showResults, ho.beta, ho.Pf, ho.i, StochModel.getCallFunction]

/-- A completed run: the transformation stored on the object and the loop that produced the result. -/
theorem formRun_inl {c : Session.Setup} {opt : Form.Options} {o : Obj n} {ev ev' : Ev Marginal} {r : Form.Result n}
    (h : Session.formRun c n opt ev = some (ev', .inl r)) :
    ∃ o' ev1 t, Session.initRun c n ev = (ev1, .ok t) ∧ FormObj.run c opt o ev = some (o', ev', .finished) ∧ HoldsForm o' r ∧ o'.resultsValid = true ∧
      o'.transform = some t ∧ ev1.model.marg = ev.model.marg ∧
      Form.runFrom t (Session.margN n c.default ev1.model) (Session.evaluator c n ev1.model) opt c.fuel ev1 =
        some (.done r ev') := by
  obtain ⟨ev1, t, hI, hl, -⟩ := formRun_done h
  obtain ⟨Ro, -, he⟩ := initRun_ok hI
  have hd : SameDefinition ev1.model ev.model := by rw [he]; exact ⟨rfl, rfl, rfl, rfl, rfl⟩
  have h' := objLoop_eq t (Session.margN n c.default ev1.model) (Session.evaluator c n ev1.model) opt c.fuel 1 0
    (startingPoint t (Session.margN n c.default ev1.model))
    { o with resultsValid := true, transform := some t, u := some (startingPoint t (Session.margN n c.default ev1.model)) }
    ev1 rfl (Or.inl rfl)
  rw [← margN_same hd, ← evaluator_same hd] at hl
  have hl' := hl
  unfold Form.runFrom at hl
  rw [hl] at h'
  obtain ⟨o', k1, k2, k3, k4⟩ := h'
  refine ⟨o', ev1, t, hI, ?_, k2, k3, k4, hd.marg, hl'⟩
  unfold FormObj.run
  rw [hI]
  exact k1

/-- The lines of the table, when there are enough numbers. -/
theorem tableRows_ok (u : Fin n → ℝ) (x : List ℝ) (al : Fin n → ℝ) (hx : n ≤ x.length) : ∀ (names : List String) (i : ℕ),
    i + names.length ≤ n → ∃ rows, tableRows u x al names i = .ok rows ∧ rows.length = names.length ∧
      ∀ (k : ℕ) (hk : k < names.length) (hn : i + k < n),
        rows[k]? = some (names[k], u ⟨i + k, hn⟩, x[i + k]'(hn.trans_le hx), al ⟨i + k, hn⟩) := by
  intro names
  induction names with
  | nil => intro i _; exact ⟨[], rfl, rfl, by simp⟩
  | cons a names ih =>
    intro i hi
    simp only [List.length_cons] at hi
    have h1 : i < n := by omega
    obtain ⟨rows, hr, hl, hrow⟩ := ih (i + 1) (by omega)
    refine ⟨(a, u ⟨i, h1⟩, x[i]'(h1.trans_le hx), al ⟨i, h1⟩) :: rows, ?_, ?_, ?_⟩
    · rw [tableRows]
      simp only [dif_pos h1, List.getElem?_eq_getElem (h1.trans_le hx), hr]
    · simp [hl]
    · intro k hk hn
      rcases k with _ | k
      · rfl
      · simp only [List.length_cons] at hk
        have := hrow k (by omega) (by omega)
        simp only [List.getElem?_cons_succ, this, List.getElem_cons_succ]
        have e : i + 1 + k = i + (k + 1) := by omega
        simp only [e]

/-- The table of a FORM object that holds `r`: one line for every random variable. -/
theorem form_table {o' : Obj n} {r : Form.Result n} {t : Mats n} (h2 : HoldsForm o' r) (h4 : o'.transform = some t)
    {d : Marginal} {m0 : StochModel Marginal ℝ} (hx : r.point.x = uToX t (Session.margN n d m0) r.point.u)
    {m : StochModel Marginal ℝ} (hm : Reachable m) (h5 : m0.marg = m.marg) (hn : m.marg.length = n) :
    getDesignPointX (m.getMarginalDistributions.map DistObj.body) o' = .ok (List.ofFn r.point.x) ∧
    ∃ rows, tableRows r.point.u (List.ofFn r.point.x) r.alpha m.getVariables.keys 0 = .ok rows ∧ rows.length = n ∧
      ∀ i : Fin n, rows[i.val]? = some ((m.marg[i.val]'(by omega)).name, r.point.u i, r.point.x i, r.alpha i) := by
  have hX : getDesignPointX (m.getMarginalDistributions.map DistObj.body) o' = .ok (List.ofFn r.point.x) := by
    unfold getDesignPointX
    rw [h4, h2.u]
    dsimp only
    rw [if_pos (by simp [StochModel.getMarginalDistributions, hn])]
    congr 1
    apply List.ext_getElem
    · simp [StochModel.getMarginalDistributions, hn]
    · intro i hi1 hi2
      simp only [List.length_ofFn] at hi2
      simp only [List.getElem_zipWith, List.getElem_ofFn, hx, uToX, Session.margN, StochModel.getMarginalDistributions,
        List.getElem_map]
      have : i < m.marg.length := by omega
      have e : (m0.marg.map DistObj.body).getD i d = (m.marg[i]'this).body := by
        rw [h5]
        simp [this]
      exact congrArg (fun d : Marginal => d.uToX ((t.invT *ᵥ r.point.u) ⟨i, hi2⟩)) e.symm
  have hkeys : m.getVariables.keys = m.marg.map DistObj.name := by
    obtain ⟨hh, rfl⟩ := hm
    obtain ⟨-, k2, k3, -⟩ := C01_registry hh
    rw [k3]
    simp only [StochModel.getMarginalDistributions] at k2
    rw [k2]
    simp [Dict.keys, List.map_map, Function.comp_def]
  obtain ⟨rows, hr, hl, hrow⟩ := tableRows_ok r.point.u (List.ofFn r.point.x) r.alpha (by simp)
    (m.marg.map DistObj.name) 0 (by simp [hn])
  refine ⟨hX, rows, by rw [hkeys]; exact hr, by rw [hl]; simp [hn], ?_⟩
  intro i
  have := hrow i.val (by simp [hn]) (by simp)
  rw [this]
  simp

/-- C77: after a completed run, as long as the model has the same random variables, `showDetailedOutput` prints `Pf`,
`beta` and the number of evaluations of that run, then one line for every random variable, with its own name (in the order of
addition, whatever constants were added in between), its own coordinate of the design point in standard and in physical space
and its own component of `alpha`, then the constants. -/
theorem C77_detailed {c : Session.Setup} {opt : Form.Options} (o : Obj n) {ev ev' : Ev Marginal} {r : Form.Result n}
    (h : Session.formRun c n opt ev = some (ev', .inl r)) {m : StochModel Marginal ℝ} (hm : Reachable m)
    (hmarg : m.marg = ev.model.marg) (hn : m.marg.length = n) :
    ∃ o', FormObj.run c opt o ev = some (o', ev', .finished) ∧ ∃ rows,
      showDetailedOutput m o' = .ok ⟨r.Pf, r.beta, m.callFunction, rows, m.consts⟩ ∧ rows.length = n ∧
      ∀ i : Fin n, rows[i.val]? = some ((m.marg[i.val]'(by omega)).name, r.point.u i, r.point.x i, r.alpha i) := by
  obtain ⟨o', ev1, t, -, h1, h2, h3, h4, h5, h6⟩ := formRun_inl (o := o) h
  refine ⟨o', h1, ?_⟩
  have hx : r.point.x = uToX t (Session.margN n c.default ev1.model) r.point.u := (C29_identities h6).1
  obtain ⟨hX, rows, hr, hl, hrow⟩ := form_table h2 h4 hx hm (h5.trans hmarg.symm) hn
  have hA : FormObj.getAlpha o' = .ok r.alpha := by rw [FormObj.getAlpha, h2.alpha]
  have hS : FormObj.showResults m o' = .ok ⟨some r.i, r.beta, r.Pf, m.callFunction⟩ := by
    simp [FormObj.showResults, h3, h2.beta, h2.Pf, h2.i, StochModel.getCallFunction]
  refine ⟨rows, ?_, hl, hrow⟩
  unfold showDetailedOutput
  rw [h3, hX, hA, hS, h2.u]
  simp only [Bool.not_true, Bool.false_eq_true, if_false, Option.getD_some]
  rw [hr]
  rfl

/-- C77, right after the run. -/
theorem C77_after_run {c : Session.Setup} {opt : Form.Options} (o : Obj n) {ev ev' : Ev Marginal} {r : Form.Result n}
    (h : Session.formRun c n opt ev = some (ev', .inl r)) (hm : Reachable ev.model) (hn : ev.model.marg.length = n) :
    ∃ o', FormObj.run c opt o ev = some (o', ev', .finished) ∧ ∃ rows,
      showDetailedOutput ev'.model o' = .ok ⟨r.Pf, r.beta, ev'.model.callFunction, rows, ev.model.consts⟩ ∧
      rows.length = n ∧ ∀ i : Fin n, ∃ d, ev.model.marg[i.val]? = some d ∧
        rows[i.val]? = some (d.name, r.point.u i, r.point.x i, r.alpha i) := by
  obtain ⟨-, -, -, -, j, T, hS⟩ := formRun_done h
  have hd := hS.definition
  obtain ⟨o', h1, rows, h2, h3, h4⟩ := C77_detailed o h (hS.reachable hm) hd.marg (by rw [hd.marg]; exact hn)
  refine ⟨o', h1, rows, by rw [h2, hd.consts], h3, fun i => ⟨ev.model.marg[i.val]'(by omega), by simp, ?_⟩⟩
  rw [h4 i]
  simp only [hd.marg]

/-- C77: a random variable added after the run makes the detailed report (and the design point in physical space) fail with
`IndexError`, for every object that has ever started an iteration. -/
theorem C77_added_variable (o : Obj n) {t : Mats n} (ht : o.transform = some t) {u : Fin n → ℝ} (hu : o.u = some u)
    (hv : o.resultsValid = true) {m : StochModel Marginal ℝ} (hn : n < m.marg.length) :
    showDetailedOutput m o = .error .indexError ∧
    getDesignPointX (m.getMarginalDistributions.map DistObj.body) o = .error .indexError := by
  have hX : getDesignPointX (m.getMarginalDistributions.map DistObj.body) o = .error .indexError := by
    unfold getDesignPointX
    rw [ht, hu]
    dsimp only
    rw [if_neg (by simp [StochModel.getMarginalDistributions]; omega)]
  exact ⟨by unfold showDetailedOutput; rw [hv, hX]; rfl, hX⟩

/-- A model with a constant and two independent normal variables, `g = 7 - X - 2Y`, analysed by FORM. -/
theorem formObject_world : ∃ (c : Session.Setup) (ev ev' : Ev Marginal) (r : Form.Result 2) (m1 m2 : Marginal),
    LinAlgOK c.la ∧ Reachable ev.model ∧ ev.model.marg = [⟨"X", m1⟩, ⟨"Y", m2⟩] ∧ ev.model.consts = [("k", 3)] ∧
    ev.model.correlation = some (NDArray2.eye 2) ∧ c.fuel = 1000 ∧ c.lsopt = ⟨"ffd", 1, 1000, 1000⟩ ∧
    ev.model.names = ["k", "X", "Y"] ∧
    Normal.new 1 (.fin (1 : ℝ)) none = .ok m1 ∧ Normal.new 2 (.fin (1 : ℝ)) none = .ok m2 ∧
    Session.formRun c 2 ⟨100, 0.001, 0.001, 1, 1⟩ ev = some (ev', .inl r) ∧ r.beta = 2 / √5 ∧
    c.eig = (fun _ _ => []) ∧ (∃ g, Pointwise c.expr g ∧ ∀ p : Fin 2 → ℝ, g (pointArgs ev.model p) = 7 + ∑ i, ![-1, -2] i * p i) ∧
    r.alpha ⬝ᵥ r.alpha = 1 ∧ 1e-8 < |r.alpha 1| ∧ r.alpha = Form.alpha ![-1, -2] ∧
    ∀ t, Transformation.compute c.la c.ty (1 : Matrix (Fin 2) (Fin 2) ℝ) = .ok t → t.invT = 1 := by
  obtain ⟨la, hla⟩ := linAlgOK_exists
  obtain ⟨m1, h1⟩ : ∃ m, Normal.new 1 (.fin (1 : ℝ)) none = .ok m := ⟨_, rfl⟩
  obtain ⟨m2, h2⟩ : ∃ m, Normal.new 2 (.fin (1 : ℝ)) none = .ok m := ⟨_, rfl⟩
  obtain ⟨g, hg⟩ : ∃ g : Dict String ℝ → ℝ, g = fun d => 7 - (d.map Prod.snd).getD 0 0 - 2 * (d.map Prod.snd).getD 1 0 :=
    ⟨_, rfl⟩
  obtain ⟨c, hc⟩ : ∃ c : Session.Setup, c = ⟨fun _ x => x, m1, la, fun _ _ => [], .cholesky, vectorised g,
      ⟨"ffd", 1, 1000, 1000⟩, 1000⟩ := ⟨_, rfl⟩
  obtain ⟨ev, hev⟩ : ∃ ev : Ev Marginal, ev = ⟨StochModel.init.run
      [.add (.constant "k" 3), .add (.distribution ⟨"X", m1⟩), .add (.distribution ⟨"Y", m2⟩)], []⟩ := ⟨_, rfl⟩
  have hmarg : ev.model.marg = [⟨"X", m1⟩, ⟨"Y", m2⟩] := by
    rw [hev]; simp [StochModel.run, StochModel.step, StochModel.addVariable, StochModel.init]
  have hvars : ev.model.vars = [("X", ⟨"X", m1⟩), ("Y", ⟨"Y", m2⟩)] := by
    rw [hev]; simp [StochModel.run, StochModel.step, StochModel.addVariable, StochModel.init, Dict.set]
  have hnames : ev.model.names = ["k", "X", "Y"] := by
    rw [hev]; simp [StochModel.run, StochModel.step, StochModel.addVariable, StochModel.init]
  have hconsts : ev.model.consts = [("k", 3)] := by
    rw [hev]; simp [StochModel.run, StochModel.step, StochModel.addVariable, StochModel.init, Dict.set]
  have hcor : ev.model.correlation = some (NDArray2.eye 2) := by
    rw [hev]; simp [StochModel.run, StochModel.step, StochModel.addVariable, StochModel.init]
  have hreach : Reachable ev.model := by rw [hev]; exact ⟨_, rfl⟩
  have hp : Pointwise c.expr g := by rw [hc]; exact vectorised_pointwise g
  have hargs : ∀ p : Fin 2 → ℝ, g (pointArgs ev.model p) = 7 + ∑ i, ![-1, -2] i * p i := by
    intro p
    rw [hg]
    unfold pointArgs StochModel.getVariables StochModel.getConstants
    rw [hvars, hconsts]
    simp [Dict.keys, List.ofFn_succ, Fin.sum_univ_two]
    ring
  have hm : ∀ i : Fin 2, Normal.new (![1, 2] i) (.fin ((fun _ => 1 : Fin 2 → ℝ) i)) ((fun _ => none : Fin 2 → Option ℝ) i) =
      .ok (Session.margN 2 c.default ev.model i) := by
    intro i
    unfold Session.margN
    rw [hmarg]
    fin_cases i
    · simpa using h1
    · simpa using h2
  have hcla : LinAlgOK c.la := by rw [hc]; exact hla
  obtain ⟨Ro, t, h0, ht⟩ := initRun_eye (c := c) (n := 2) hcla (by rw [hmarg]; rfl) hcor
  obtain ⟨ev0, he0⟩ : ∃ ev0 : Ev Marginal, ev0 = { ev with model := ev.model.setModifiedCorrelation Ro } := ⟨_, rfl⟩
  have hd0 : SameDefinition ev0.model ev.model := by rw [he0]; exact ⟨rfl, rfl, rfl, rfl, rfl⟩
  obtain ⟨r, ev1, r1, r2, -, -, -, -, r3⟩ := C30_ffd hcla (Matrix.PosDef.one (n := Fin 2) (R := ℝ)) ht (μ := ![1, 2]) (sd := fun _ => 1)
    (fun _ => one_pos) hm hp c.lsopt (by rw [hc]; norm_num) (by rw [hc]; norm_num) (by rw [hc]; norm_num) (by rw [hc]; simp)
    (by rw [hc]; simp) ev0 (by rw [he0]; exact reachable_setRo hreach _)
    (by unfold StochModel.nMarg; rw [hd0.marg, hmarg]; rfl) (by unfold StochModel.getNames; rw [hd0.names, hnames]; simp) 7
    ![-1, -2] (by intro h; simpa using congrFun h 0) (fun p => by rw [pointArgs_same hd0, hargs]) ⟨100, 0.001, 0.001, 1, 1⟩ rfl
    (by norm_num) (by norm_num) (by norm_num) (by norm_num) c.fuel (by rw [hc]; norm_num)
  refine ⟨c, ev, ev1, r, m1, m2, hcla, hreach, hmarg, hconsts, hcor, by rw [hc], by rw [hc], hnames, h1, h2, ?_, ?_,
    by rw [hc], ⟨g, hp, hargs⟩, ?_⟩
  · unfold Session.formRun Session.withInit
    rw [h0]
    dsimp only
    rw [← he0]
    rw [margN_same (s := ev.model.setModifiedCorrelation Ro) (t := ev.model) ⟨rfl, rfl, rfl, rfl, rfl⟩,
      evaluator_same (s := ev.model.setModifiedCorrelation Ro) (t := ev.model) ⟨rfl, rfl, rfl, rfl, rfl⟩]
    unfold Session.evaluator
    rw [r1]
  · rw [r2]
    congr 1
    · simp [Fin.sum_univ_two]; norm_num
    · congr 1
      simp [Fin.sum_univ_two]; norm_num
  · obtain ⟨L, hL1, hL2⟩ := hcla.chol (1 : Matrix (Fin 2) (Fin 2) ℝ) Matrix.PosDef.one
    have hLt : ∀ t, Transformation.compute c.la c.ty (1 : Matrix (Fin 2) (Fin 2) ℝ) = .ok t → t.invT = L := by
      intro t ht
      have : c.ty = .cholesky := by rw [hc]
      rw [this] at ht
      unfold Transformation.compute computeCholesky at ht
      dsimp only at ht
      rw [hL1] at ht
      dsimp only at ht
      split at ht
      · cases ht
      · injection ht with ht; rw [← ht]
    have h01 : L 0 1 = 0 := hL2.lower 0 1 (by decide)
    have e00 := congrFun (congrFun hL2.fact 0) 0
    have e10 := congrFun (congrFun hL2.fact 1) 0
    have e11 := congrFun (congrFun hL2.fact 1) 1
    simp only [Matrix.mul_apply, Fin.sum_univ_two, Matrix.transpose_apply, h01, Matrix.one_apply] at e00 e10 e11
    have d0 := hL2.diag 0
    have d1 := hL2.diag 1
    have l00 : L 0 0 = 1 := by simp at e00; nlinarith
    have l10 : L 1 0 = 0 := by simp [l00] at e10; exact e10
    have l11 : L 1 1 = 1 := by simp [l10] at e11; nlinarith
    have hv : vecMul (fun i => (![-1, -2] : Fin 2 → ℝ) i * 1) t.invT = ![-1, -2] := by
      rw [hLt t ht]
      funext i
      fin_cases i <;> simp [Matrix.vecMul, dotProduct, Fin.sum_univ_two, h01, l00, l10, l11]
    rw [r3, hv]
    have hne : (![-1, -2] : Fin 2 → ℝ) ≠ 0 := by intro h; simpa using congrFun h 0
    refine ⟨alpha_unit hne, ?_, rfl, fun t' ht' => by
      rw [hLt t' ht']; ext i j; fin_cases i <;> fin_cases j <;> simp [h01, l00, l10, l11]⟩
    have hu := alpha_unit hne
    have ha : Form.alpha (![-1, -2] : Fin 2 → ℝ) 1 = 2 * Form.alpha (![-1, -2] : Fin 2 → ℝ) 0 := by
      simp [Form.alpha]
    simp only [dotProduct, Fin.sum_univ_two] at hu
    rw [ha] at hu ⊢
    by_contra hcon
    push Not at hcon
    have h2 := abs_le.1 hcon
    nlinarith [h2.1, h2.2]

/-- A limit state that returns an empty tuple raises `IndexError` at every point. -/
theorem raising_grad {c' : Session.Setup} (hls' : c'.lsopt = ⟨"ffd", 1, 1000, 1000⟩) (hex : c'.expr = fun _ => .tuple [])
    (ev0 : Ev Marginal) (x : Fin 2 → ℝ) :
    ∃ ev2, (Session.evaluator c' 2 ev0.model).withGrad ev0 x = (ev2, .error .indexError) := by
  have hcomp : ∀ (xs : List (Fin 2 → ℝ)) (e : Ev Marginal), ∃ e',
      LimitState.computeLsf c'.expr xs false e = (e', .error .indexError) := by
    intro xs e
    unfold LimitState.computeLsf
    have hb : ∀ (vs : List String) (i : ℕ) (d : Kwargs) (err : PyErr), LimitState.bindVars xs vs i d = .error err →
        err = .indexError := by
      intro vs
      induction vs with
      | nil => intro i d err hh; simp [LimitState.bindVars] at hh
      | cons v vs ih =>
        intro i d err hh
        unfold LimitState.bindVars at hh
        split at hh
        · exact ih _ _ _ hh
        · injection hh with hh; exact hh.symm
    unfold LimitState.inpdict
    rcases hx : LimitState.bindVars xs e.model.getVariables.keys 0 [] with err | d
    · exact ⟨e, by rw [hb _ _ _ _ hx]⟩
    · exact ⟨_, by rw [hex]; rfl⟩
  unfold Session.evaluator lsEvaluator
  dsimp only
  unfold LimitState.evaluateLsf
  rw [hls']
  simp only [one_ne_zero, if_false]
  rw [if_neg (by decide), if_neg (by decide)]
  unfold LimitState.evaluateFfd
  dsimp only
  have hlen := (LimitState.ffdPerturb_spec (fun j => (Session.margN 2 c'.default ev0.model j).stdv / 1000) (List.finRange 2)
    x (List.replicate (1 + 2) x) (List.nodup_finRange 2)).2.1
  · rcases hP : LimitState.ffdPerturb (fun j => (Session.margN 2 c'.default ev0.model j).stdv / 1000) (List.finRange 2)
      (x, List.replicate (1 + 2) x) with ⟨xa, allx⟩
    rw [hP] at hlen
    dsimp only at hlen ⊢
    rw [LimitState.blockLoop, if_pos (by rw [hlen]; simp)]
    dsimp only
    obtain ⟨e', he'⟩ := hcomp (List.take (min 1000 (allx.length - 0)) (List.drop 0 allx)) ev0
    rw [he']
    exact ⟨e', rfl⟩

/-- C76, C77, a concrete case: FORM is run, the limit state is then replaced by one that raises, FORM is run again.  The
object still reports `beta = 2/√5`, but its design point is the mean (the origin of standard space); before the second run the
detailed report has the two lines of `X` and `Y` although a constant was added first. -/
example : ∃ (c c' : Session.Setup) (ev ev1 ev2 : Ev Marginal) (r : Form.Result 2) (o1 o2 : Obj 2),
    formOutcomes 2 [.run c ⟨100, 0.001, 0.001, 1, 1⟩, .run c' ⟨100, 0.001, 0.001, 1, 1⟩] ev =
      some (ev2, [.ok r, .error .indexError]) ∧ r.beta = 2 / √5 ∧
    FormObj.run c ⟨100, 0.001, 0.001, 1, 1⟩ fresh ev = some (o1, ev1, .finished) ∧
    FormObj.run c' ⟨100, 0.001, 0.001, 1, 1⟩ o1 ev1 = some (o2, ev2, .raised .indexError) ∧
    (∃ d, showDetailedOutput ev1.model o1 = .ok d ∧ d.rows.map Prod.fst = ["X", "Y"] ∧ d.consts = [("k", 3)]) ∧
    FormObj.getBeta o2 = .ok (2 / √5) ∧ getDesignPoint o2 = some 0 := by
  obtain ⟨c, ev, ev1, r, m1, m2, hla, hreach, hmarg, hconsts, hcor, hfuel, hls, hnames, h1, h2, hF, hb, -⟩ := formObject_world
  obtain ⟨c', hc'⟩ : ∃ c' : Session.Setup, c' = { c with expr := fun _ => .tuple [] } := ⟨_, rfl⟩
  obtain ⟨-, -, -, -, j, T, hS⟩ := formRun_done hF
  have hd := hS.definition
  obtain ⟨o1, k1, rows, k2, k3, k4⟩ := C77_after_run fresh hF hreach (by rw [hmarg]; rfl)
  have hr := C76_run (n := 2) c ⟨100, 0.001, 0.001, 1, 1⟩ fresh ev
  rw [hF] at hr
  obtain ⟨o1', q1, q2, q3⟩ := hr
  rw [k1] at q1
  obtain ⟨rfl, -⟩ := Prod.mk.inj (Option.some.inj q1)
  -- the second run
  have hla' : LinAlgOK c'.la := by rw [hc']; exact hla
  obtain ⟨Ro, t, h0, ht⟩ := initRun_eye (c := c') (n := 2) (ev := ev1) hla' (by rw [hd.marg, hmarg]; rfl)
    (by rw [hd.correlation, hcor])
  obtain ⟨ev0, he0⟩ : ∃ ev0 : Ev Marginal, ev0 = { ev1 with model := ev1.model.setModifiedCorrelation Ro } := ⟨_, rfl⟩
  rw [← he0] at h0
  have hd0 : SameDefinition ev0.model ev1.model := by rw [he0]; exact ⟨rfl, rfl, rfl, rfl, rfl⟩
  have hmg : ∀ i : Fin 2, Normal.new (![1, 2] i) (.fin (1 : ℝ)) none = .ok (Session.margN 2 c'.default ev0.model i) := by
    intro i
    unfold Session.margN
    rw [hd0.marg, hd.marg, hmarg]
    fin_cases i
    · simpa using h1
    · simpa using h2
  obtain ⟨t', ht', -, -, hTi⟩ := C22_posdef hla' c'.ty (Matrix.PosDef.one (n := Fin 2) (R := ℝ))
  rw [ht] at ht'; injection ht' with ht'; subst ht'
  have hstart : startingPoint t (Session.margN 2 c'.default ev0.model) = 0 := by
    unfold startingPoint xToU
    have : (fun i => (Session.margN 2 c'.default ev0.model i).xToU (Session.margN 2 c'.default ev0.model i).startpoint) = 0 := by
      funext i
      have hn := normal_ok (hmg i)
      rw [hn.2.2.1, hn.2.2.2.2.2]
      simp [Normal.xToU]
    rw [this, Matrix.mulVec_zero]
  have hJ : ∃ J, npInv (jacobian t (Session.margN 2 c'.default ev0.model)
      (startingPoint t (Session.margN 2 c'.default ev0.model))
      (uToX t (Session.margN 2 c'.default ev0.model) (startingPoint t (Session.margN 2 c'.default ev0.model)))) = .ok J := by
    refine ⟨_, npInv_of_unit ?_⟩
    unfold jacobian
    dsimp only
    rw [Matrix.det_mul, Matrix.det_diagonal]
    refine (Matrix.isUnits_det_units ⟨t.T, t.invT, mul_eq_one_comm.1 hTi, hTi⟩).mul (isUnit_iff_ne_zero.2 ?_)
    rw [Finset.prod_ne_zero_iff]
    intro i _
    rw [(normal_ok (hmg i)).2.1]
    simp [Normal.jac]
  obtain ⟨J, hJ⟩ := hJ
  have hev := raising_grad (c' := c') (by rw [hc', hls]) (by rw [hc']) ev0
  obtain ⟨ev2, he⟩ := hev (uToX t (Session.margN 2 c'.default ev0.model) (startingPoint t (Session.margN 2 c'.default ev0.model)))
  obtain ⟨o2, w1, w2, w3, w4, w5⟩ := C76_mixed c' ⟨100, 0.001, 0.001, 1, 1⟩ o1 ev1 ev0 r q2 t h0 (by rw [hc', hfuel]; norm_num) J hJ
    ev2 .indexError he
  have hr2 := C76_run c' ⟨100, 0.001, 0.001, 1, 1⟩ o1 ev1
  refine ⟨c, c', ev, ev1, ev2, r, o1, o2, ?_, hb, k1, w1, ⟨_, k2, ?_, hconsts⟩, by rw [w2, hb], by rw [w5, hstart]⟩
  · simp only [formOutcomes, hF]
    rcases hf2 : Session.formRun c' 2 ⟨100, 0.001, 0.001, 1, 1⟩ ev1 with _ | ⟨ev3, r2 | out⟩
    · rw [hf2, w1] at hr2
      cases hr2
    · rw [hf2, w1] at hr2
      obtain ⟨_, hr2, -⟩ := hr2
      simp at hr2
    · rw [hf2, w1] at hr2
      cases out with
      | raised e =>
        obtain ⟨_, hr2, -⟩ := hr2
        simp only [Option.some.injEq, Prod.mk.injEq, Ending.raised.injEq] at hr2
        obtain ⟨-, rfl, rfl⟩ := hr2
        rfl
      | nan => obtain ⟨_, hr2⟩ := hr2; simp at hr2
      | _ => exact hr2.elim
  · apply List.ext_getElem
    · simp [k3]
    · intro i hi1 hi2
      simp only [List.length_map, k3] at hi1
      obtain ⟨d, d1, d2⟩ := k4 ⟨i, hi1⟩
      dsimp only at d1 d2
      rw [hmarg] at d1
      have hi3 : i < rows.length := by omega
      rw [List.getElem?_eq_getElem hi3, Option.some.injEq] at d2
      simp only [List.getElem_map, d2]
      rcases i with _ | _ | i
      · simp at d1; simp [← d1]
      · simp at d1; simp [← d1]
      · omega

end Pystra.Props
