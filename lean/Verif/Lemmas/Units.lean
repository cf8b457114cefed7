import Verif.Spec.Units
import Verif.Lemmas.SameModel
import Verif.Lemmas.AnalysisSim
import Verif.Lemmas.Transformation
import Verif.Lemmas.LimitState

/-! Evaluations of the limit-state function in other units. -/

namespace Pystra
open LimitState Spec Form Matrix Transformation

variable {D : Type} {n : ℕ} {U : Units} {names : Fin n → String}

theorem Units.kwargs_set (U : Units) (d : Kwargs) (k : String) (v : List ℝ) :
    U.kwargs (d.set k v) = Dict.set (U.kwargs d) k (v.map (U.conv k)) := by
  induction d with
  | nil => rfl
  | cons p t ih =>
    obtain ⟨k', v'⟩ := p
    by_cases h : k' = k
    · simp [Dict.set, Units.kwargs, h]
    · simp only [Units.kwargs] at ih
      simp [Dict.set, Units.kwargs, h, ih]

theorem bindVars_units (U : Units) (names : Fin n → String) (x : List (Fin n → ℝ)) : ∀ (l : List String) (i : ℕ) (d : Kwargs),
    (∀ k (h : k < l.length) (hn : i + k < n), l[k] = names ⟨i + k, hn⟩) →
    bindVars (x.map (U.point names)) l i (U.kwargs d) = (bindVars x l i d).map U.kwargs := by
  intro l
  induction l with
  | nil => intro i d _; rfl
  | cons v t ih =>
    intro i d h
    unfold bindVars
    by_cases hi : i < n
    · rw [dif_pos hi, dif_pos hi]
      have hv : v = names ⟨i, hi⟩ := h 0 (by simp) (by simpa using hi)
      have hr : rowOf (x.map (U.point names)) ⟨i, hi⟩ = (rowOf x ⟨i, hi⟩).map (U.conv v) := by
        simp [rowOf, Units.point, hv, Function.comp_def]
      rw [hr, ← Units.kwargs_set]
      refine ih (i + 1) _ fun k hk hn => ?_
      have := h (k + 1) (by simpa using hk) (by omega)
      simp only [List.getElem_cons_succ] at this
      rw [this]
      congr 2
      omega
    · rw [dif_neg hi, dif_neg hi]; rfl

theorem bindConsts_units (U : Units) (nc : ℕ) : ∀ (c : Dict String ℝ) (d : Kwargs),
    bindConsts nc (c.map fun p => (p.1, U.conv p.1 p.2)) (U.kwargs d) = U.kwargs (bindConsts nc c d) := by
  intro c
  induction c with
  | nil => intro d; rfl
  | cons p t ih =>
    intro d
    obtain ⟨k, v⟩ := p
    simp only [List.map_cons, bindConsts]
    rw [← ih, Units.kwargs_set, List.map_replicate]

/-- What an evaluation reads of the two models. -/
structure VarsInUnits (U : Units) (names : Fin n → String) (a b : StochModel D ℝ) : Prop where
  keys : a.vars.keys = List.ofFn names
  vars : b.vars.keys = a.vars.keys
  consts : b.consts = a.consts.map (fun p => (p.1, U.conv p.1 p.2))

theorem VarsInUnits.advance {a b : Ev D} (h : VarsInUnits U names a.model b.model) (j k : ℕ) (S T : List Kwargs) :
    VarsInUnits U names (a.advance j S).model (b.advance k T).model := ⟨h.keys, h.vars, h.consts⟩

theorem inpdict_units {a b : StochModel D ℝ} (h : VarsInUnits U names a b) (x : List (Fin n → ℝ)) :
    inpdict b (x.map (U.point names)) = (inpdict a x).map U.kwargs := by
  unfold inpdict StochModel.getVariables StochModel.getConstants
  rw [h.vars, h.consts, h.keys]
  have hb := bindVars_units U names x (List.ofFn names) 0 [] (by intro k hk hn; simp)
  rw [show U.kwargs [] = [] from rfl] at hb
  rw [hb]
  cases bindVars x (List.ofFn names) 0 [] with
  | error e => rfl
  | ok d =>
    show Except.ok _ = Except.ok _
    rw [List.length_map, bindConsts_units]

theorem computeLsf_units {expr expr' : Kwargs → GRet} {x : List (Fin n → ℝ)} {ddm : Bool} {a b : Ev D}
    (h : VarsInUnits U names a.model b.model) :
    ∃ T, (∃ kw, computeLsf expr x ddm a = (a.advance 0 T, unpackRet ddm (expr kw)) ∧
        computeLsf expr' (x.map (U.point names)) ddm b = (b.advance 0 (T.map U.kwargs), unpackRet ddm (expr' (U.kwargs kw)))) ∨
      (∃ e, computeLsf expr x ddm a = (a.advance 0 T, .error e) ∧
        computeLsf expr' (x.map (U.point names)) ddm b = (b.advance 0 (T.map U.kwargs), .error e)) := by
  unfold computeLsf
  rw [inpdict_units h]
  cases inpdict a.model x with
  | error e => exact ⟨[], Or.inr ⟨e, by rw [a.advance_zero], by rw [List.map_nil, b.advance_zero]; rfl⟩⟩
  | ok kw => exact ⟨[kw], Or.inl ⟨kw, rfl, rfl⟩⟩

theorem unpack_same {mode : String} {expr expr' : Kwargs → GRet} (hf : SameFunction U names mode expr expr') (kw : Kwargs) :
    (∃ e, unpackRet false (expr kw) = .error e ∧ unpackRet false (expr' (U.kwargs kw)) = .error e) ∨
    ∃ g, unpackRet false (expr kw) = .ok (g, none) ∧ unpackRet false (expr' (U.kwargs kw)) = .ok (g, none) := by
  unfold SameFunction at hf
  split at hf
  · obtain ⟨g, dg, h1, h2⟩ := hf kw
    rw [h1, h2]
    exact Or.inr ⟨g, rfl, rfl⟩
  · rw [hf kw]
    rcases expr kw with g | _ | ⟨g, l⟩
    · exact Or.inr ⟨g, rfl, rfl⟩
    · exact Or.inl ⟨_, rfl, rfl⟩
    · exact Or.inr ⟨g, rfl, rfl⟩

theorem blockLoop_units {mode : String} {expr expr' : Kwargs → GRet} (hf : SameFunction U names mode expr expr')
    {assign : ℕ → GVal → Except PyErr (List ℝ)} {x : List (Fin n → ℝ)}
    (fuel : ℕ) : ∀ (bs k : ℕ) (acc : List ℝ) {a b : Ev D}, VarsInUnits U names a.model b.model →
    (blockLoop assign expr x fuel bs k acc a = none ∧ blockLoop assign expr' (x.map (U.point names)) fuel bs k acc b = none) ∨
    ∃ T out, blockLoop assign expr x fuel bs k acc a = some (a.advance 0 T, out) ∧
      blockLoop assign expr' (x.map (U.point names)) fuel bs k acc b = some (b.advance 0 (T.map U.kwargs), out) := by
  induction fuel with
  | zero =>
    intro bs k acc a b h
    unfold blockLoop
    rw [List.length_map]
    by_cases hk : k < x.length
    · left; simp [if_pos hk]
    · right; simp only [if_neg hk]
      exact ⟨[], .ok acc, by rw [a.advance_zero], by rw [List.map_nil, b.advance_zero]⟩
  | succ fuel ih =>
    intro bs k acc a b h
    unfold blockLoop
    rw [List.length_map]
    by_cases hk : k < x.length
    · simp only [if_pos hk]
      rw [← List.map_drop, ← List.map_take]
      obtain ⟨T, ⟨kw, h1, h2⟩ | ⟨e, h1, h2⟩⟩ := computeLsf_units (expr := expr) (expr' := expr')
        (x := (x.drop k).take (min bs (x.length - k))) (ddm := false) h
      · rw [h1, h2]
        rcases unpack_same hf kw with ⟨e, e1, e2⟩ | ⟨g, e1, e2⟩ <;> rw [e1, e2]
        · right; exact ⟨T, .error e, rfl, rfl⟩
        · simp only
          cases assign (min bs (x.length - k)) g with
          | error e => right; exact ⟨T, .error e, rfl, rfl⟩
          | ok vals =>
            rcases ih (min bs (x.length - k)) (k + min bs (x.length - k)) (acc ++ vals) (h.advance 0 0 T (T.map U.kwargs)) with
              ⟨e1, e2⟩ | ⟨T', out, e1, e2⟩
            · left; exact ⟨e1, e2⟩
            · right
              rw [Ev.advance_advance] at e1 e2
              exact ⟨T ++ T', out, e1, by rw [List.map_append]; exact e2⟩
      · rw [h1, h2]
        right; exact ⟨T, .error e, rfl, rfl⟩
    · right; simp only [if_neg hk]
      exact ⟨[], .ok acc, by rw [a.advance_zero], by rw [List.map_nil, b.advance_zero]⟩

/-- The gradient with respect to the numbers of the old units. -/
def Units.grad (U : Units) (names : Fin n → String) (g : Fin n → ℝ) : Fin n → ℝ := fun i => U.fac (names i) * g i

theorem ffdPerturb_units (U : Units) (names : Fin n → String) (h : Fin n → ℝ) : ∀ (js : List (Fin n)) (x : Fin n → ℝ)
    (allx : List (Fin n → ℝ)),
    ffdPerturb (fun j => U.fac (names j) * h j) js (U.point names x, allx.map (U.point names)) =
      (U.point names (ffdPerturb h js (x, allx)).1, (ffdPerturb h js (x, allx)).2.map (U.point names)) := by
  intro js
  induction js with
  | nil => intro x allx; rfl
  | cons j t ih =>
    intro x allx
    simp only [ffdPerturb]
    have hu : ∀ (y : Fin n → ℝ) (v : ℝ), Function.update (U.point names y) j (U.conv (names j) v) =
        U.point names (Function.update y j v) := by
      intro y v
      funext i
      by_cases hij : i = j
      · subst hij; simp [Units.point]
      · simp [Units.point, Function.update_of_ne hij]
    have hc : U.point names x j + U.fac (names j) * h j = U.conv (names j) (x j + h j) := by
      simp [Units.point, Units.conv]; ring
    have h1 : Function.update (U.point names x) j (U.point names x j + U.fac (names j) * h j) =
        U.point names (Function.update x j (x j + h j)) := by rw [hc, hu]
    rw [h1]
    have h2 : (allx.map (U.point names)).modify (j.val + 1)
        (fun col => Function.update col j (U.point names (Function.update x j (x j + h j)) j)) =
        (allx.modify (j.val + 1) (fun col => Function.update col j (Function.update x j (x j + h j) j))).map (U.point names) := by
      apply List.ext_getElem?
      intro k
      simp only [List.getElem?_modify, List.getElem?_map]
      by_cases hk : j.val + 1 = k
      · simp only [hk, if_true]
        cases allx[k]? with
        | none => rfl
        | some c =>
          show some _ = some _
          congr 1
          exact hu c _
      · simp only [hk, if_false]
        cases allx[k]? <;> rfl
    rw [h2, ih]

/-- The gradient with respect to the numbers of the new units. -/
noncomputable def Units.newGrad (U : Units) (names : Fin n → String) (g : Fin n → ℝ) : Fin n → ℝ := fun i => g i / U.fac (names i)

theorem Units.newGrad_zero (U : Units) (names : Fin n → String) : Units.newGrad U names 0 = 0 := by
  funext i; simp [Units.newGrad]

/-- The result of an evaluation, in the new units. -/
noncomputable def Units.out (U : Units) (names : Fin n → String) (o : EvalOut n) : EvalOut n :=
  ⟨o.G, o.grad.map (Units.newGrad U names), o.xAfter.map (U.point names)⟩

theorem gradColumn_ofFn (v : Fin n → ℝ) : gradColumn (.arr (List.ofFn v)) = .ok v := by
  unfold gradColumn
  simp only [List.length_ofFn, dite_true]
  congr 1
  funext i
  simp

theorem ddmLoop_units {expr expr' : Kwargs → GRet} (hf : SameFunction U names "ddm" expr expr') {nx : ℕ}
    (xs : List (Fin n → ℝ)) : ∀ (k : ℕ) (G : List ℝ) (grad : List (Fin n → ℝ)) {a b : Ev D}, VarsInUnits U names a.model b.model →
    ∃ T out, ddmLoop expr nx xs k G grad a = (a.advance 0 T, out) ∧
      ddmLoop expr' nx (xs.map (U.point names)) k G (grad.map (Units.newGrad U names)) b =
        (b.advance 0 (T.map U.kwargs), out.map fun p => (p.1, p.2.map (Units.newGrad U names))) := by
  induction xs with
  | nil =>
    intro k G grad a b h
    exact ⟨[], .ok (G, grad), by rw [a.advance_zero]; rfl, by rw [List.map_nil, List.map_nil, b.advance_zero]; rfl⟩
  | cons p t ih =>
    intro k G grad a b h
    simp only [List.map_cons]
    unfold ddmLoop
    obtain ⟨T, ⟨kw, h1, h2⟩ | ⟨e, h1, h2⟩⟩ := computeLsf_units (expr := expr) (expr' := expr') (x := [p]) (ddm := true) h
    · simp only [List.map_cons, List.map_nil] at h2
      rw [h1, h2]
      simp only [SameFunction, if_true] at hf
      obtain ⟨g, dg, e1, e2⟩ := hf kw
      rw [e1, e2]
      simp only [unpackRet, if_true]
      cases ddmAssignG nx k g with
      | error e => exact ⟨T, .error e, rfl, rfl⟩
      | ok G' =>
        simp only [Option.getD_some, gradColumn_ofFn]
        obtain ⟨T', out, e1, e2⟩ := ih (k + 1) G' (grad ++ [dg]) (h.advance 0 0 T (T.map U.kwargs))
        rw [Ev.advance_advance] at e1 e2
        refine ⟨T ++ T', out, e1, ?_⟩
        rw [List.map_append] at e2 ⊢
        exact e2
    · simp only [List.map_cons, List.map_nil] at h2
      rw [h1, h2]
      exact ⟨T, .error e, rfl, rfl⟩

theorem evaluateLsf_units (fuel : ℕ) {expr expr' : Kwargs → GRet} (opt : LSOptions) (stdv : Fin n → ℝ)
    (hf : SameFunction U names opt.diffMode expr expr')
    (mode : Option String) (x : List (Fin n → ℝ)) {a b : Ev D} (h : VarsInUnits U names a.model b.model) :
    (evaluateLsf fuel expr opt stdv mode x a = none ∧
      evaluateLsf fuel expr' opt (Units.grad U names stdv) mode (x.map (U.point names)) b = none) ∨
    ∃ j T out, (∀ o, out = .ok o → o.xAfter.length = x.length) ∧
      evaluateLsf fuel expr opt stdv mode x a = some (a.advance j T, out) ∧
      evaluateLsf fuel expr' opt (Units.grad U names stdv) mode (x.map (U.point names)) b =
        some (b.advance j (T.map U.kwargs), out.map (Units.out U names)) := by
  have hadv : ∀ (c : Ev D) T m, ({ c.advance 0 T with model := (c.advance 0 T).model.addCallFunction m } : Ev D) =
      c.advance m T := by
    intro c T m
    simp [Ev.advance, StochModel.addCallFunction]
  have core : ∀ md : String, (md = "ddm" → opt.diffMode = "ddm") →
      let F : (Kwargs → GRet) → (Fin n → ℝ) → List (Fin n → ℝ) → Ev D → Option (Ev D × Except PyErr (EvalOut n)) :=
        fun expr stdv x ev =>
        if opt.multiProc = 0 then some (ev, .error .notImplemented)
        else if md = "no" then evaluateNogradient fuel expr opt x ev
        else if md = "ddm" then some (evaluateDdm expr x ev)
        else evaluateFfd fuel expr opt stdv x ev
      (F expr stdv x a = none ∧ F expr' (Units.grad U names stdv) (x.map (U.point names)) b = none) ∨
      ∃ j T out, (∀ o, out = .ok o → o.xAfter.length = x.length) ∧ F expr stdv x a = some (a.advance j T, out) ∧
        F expr' (Units.grad U names stdv) (x.map (U.point names)) b =
          some (b.advance j (T.map U.kwargs), out.map (Units.out U names)) := by
   intro md hmd
   dsimp only
   split
   · right
     exact ⟨0, [], .error _, by simp, by rw [a.advance_zero], by rw [List.map_nil, b.advance_zero]; rfl⟩
   · split
     · unfold evaluateNogradient
       rcases blockLoop_units hf (assign := broadcastTo) (x := x) fuel opt.blockSize 0 [] h with
         ⟨e1, e2⟩ | ⟨T, out, e1, e2⟩
       · left; rw [e1, e2]; exact ⟨rfl, rfl⟩
       · right
         rw [e1, e2]
         cases out with
         | error e => exact ⟨0, T, .error e, by simp, rfl, rfl⟩
         | ok G =>
           refine ⟨x.length, T, .ok ⟨G, List.replicate x.length (fun _ => 0), x⟩, ?_, by simp only [hadv], ?_⟩
           · rintro o ho; cases ho; rfl
           · simp only [hadv, List.length_map]
             congr 2
             show Except.ok _ = Except.ok _
             congr 1
             simp only [Units.out, List.map_replicate]
             have := Units.newGrad_zero U names
             simp only [show (fun _ : Fin n => (0:ℝ)) = 0 from rfl, this]
     · split
       · rename_i hd
         rw [hmd hd] at hf
         right
         unfold evaluateDdm
         obtain ⟨T, out, e1, e2⟩ := ddmLoop_units hf (nx := x.length) x 0 [] [] h
         rw [List.map_nil] at e2
         rw [List.length_map, e1, e2]
         rcases out with e | ⟨G, grad⟩
         · exact ⟨0, T, .error e, by simp, rfl, rfl⟩
         · refine ⟨x.length, T, .ok ⟨G, grad, x⟩, ?_, by simp only [hadv], ?_⟩
           · rintro o ho; cases ho; rfl
           · show some (_, _) = some (_, _)
             simp only [hadv]
             rfl
       · unfold evaluateFfd
         rcases x with _ | ⟨x0, _ | ⟨x1, t⟩⟩
         · right
           refine ⟨0, [], .ok ⟨[], [], []⟩, ?_, by rw [a.advance_zero], by simp only [List.map_nil, b.advance_zero]; rfl⟩
           rintro o ho; cases ho; rfl
         · simp only [List.map_cons, List.map_nil]
           have hh : (fun j => Units.grad U names stdv j / opt.ffdpara) = fun j => U.fac (names j) * (stdv j / opt.ffdpara) := by
             funext j; simp only [Units.grad]; ring
           have hp' := ffdPerturb_units U names (fun j => stdv j / opt.ffdpara) (List.finRange n) x0 (List.replicate (1 + n) x0)
           rw [← hh, List.map_replicate] at hp'
           rcases hp : ffdPerturb (fun j => stdv j / opt.ffdpara) (List.finRange n) (x0, List.replicate (1 + n) x0)
             with ⟨xa, allx⟩
           rw [hp] at hp'
           rw [hp']
           simp only
           rcases blockLoop_units hf (assign := squeezeTo) (x := allx) fuel opt.blockSize 0 [] h with
             ⟨e1, e2⟩ | ⟨T, out, e1, e2⟩
           · left; rw [e1, e2]; exact ⟨rfl, rfl⟩
           · right
             rw [e1, e2]
             cases out with
             | error e => exact ⟨0, T, .error e, by simp, rfl, rfl⟩
             | ok G =>
               refine ⟨1 + n, T, .ok ⟨[G.getD 0 0], [fun j => (G.getD (j.val + 1) 0 - G.getD 0 0) / (stdv j / opt.ffdpara)], [xa]⟩,
                 ?_, by simp only [hadv], ?_⟩
               · rintro o ho; cases ho; rfl
               · simp only [hadv]
                 congr 2
                 show Except.ok _ = Except.ok _
                 congr 1
                 simp only [Units.out, List.map_cons, List.map_nil, EvalOut.mk.injEq, List.cons.injEq, and_true, true_and]
                 funext j
                 simp only [Units.newGrad, Units.grad]
                 rw [div_div, mul_div_assoc, mul_comm (U.fac (names j))]
         · right
           exact ⟨0, [], .error _, by simp, by rw [a.advance_zero], by rw [List.map_nil, b.advance_zero]; rfl⟩
  unfold evaluateLsf
  cases mode with
  | none => exact core _ id
  | some _ => exact core _ (by simp)

/-- An evaluator of the new units, asked and answering in the old ones. -/
noncomputable def Units.pull {τ : Type} (U : Units) (names : Fin n → String) (ev : Evaluator τ n) : Evaluator τ n where
  withGrad := fun s x => ((ev.withGrad s (U.point names x)).1, (ev.withGrad s (U.point names x)).2.map fun o =>
    (o.1, Units.grad U names o.2.1, fun i => (o.2.2 i - U.off (names i)) / U.fac (names i)))
  values := fun s xs => ev.values s (xs.map (U.point names))

/-- The two states have advanced by the same evaluations and the same calls. -/
def Units.Advance (U : Units) (a b : Ev D) (s t : Ev D) : Prop := ∃ j T, s = a.advance j T ∧ t = b.advance j (T.map U.kwargs)

theorem ls_units {expr expr' : Kwargs → GRet} (opt : LSOptions) (stdv : Fin n → ℝ) (hU : ∀ i, U.fac (names i) ≠ 0)
    (hf : SameFunction U names opt.diffMode expr expr') {a b : Ev D} (h : VarsInUnits U names a.model b.model) :
    Sim (Units.Advance U a b) (lsEvaluator expr opt stdv) (Units.pull U names (lsEvaluator expr' opt (Units.grad U names stdv))) := by
  constructor
  · rintro s t ⟨j, T, rfl, rfl⟩ x
    simp only [lsEvaluator, Units.pull]
    rcases evaluateLsf_units (7 + n) opt stdv hf none [x] (h.advance j j T (T.map U.kwargs)) with
      ⟨e1, e2⟩ | ⟨j', T', out, hl, e1, e2⟩
    · simp only [List.map_cons, List.map_nil] at e2
      rw [e1, e2]; exact ⟨⟨j, T, rfl, rfl⟩, rfl⟩
    · simp only [List.map_cons, List.map_nil] at e2
      rw [e1, e2, Ev.advance_advance, Ev.advance_advance, ← List.map_append]
      cases out with
      | error e => exact ⟨⟨_, _, rfl, rfl⟩, rfl⟩
      | ok o =>
        refine ⟨⟨_, _, rfl, rfl⟩, ?_⟩
        have hl := hl o rfl
        show Except.ok _ = Except.ok _
        congr 1
        simp only [Units.out, Prod.mk.injEq, true_and]
        constructor
        · funext i
          simp only [Units.grad, List.getD_eq_getElem?_getD, List.getElem?_map]
          cases o.grad[0]? with
          | none => simp
          | some g => simp [Units.newGrad, mul_div_cancel₀ _ (hU i)]
        · funext i
          obtain ⟨y, hy⟩ : ∃ y, o.xAfter = [y] := List.length_eq_one_iff.1 hl
          rw [hy]
          have hU := hU i
          simp only [List.map_cons, List.map_nil, List.getD_cons_zero, Units.point, Units.conv]
          field_simp
          ring
  · rintro s t ⟨j, T, rfl, rfl⟩ xs
    simp only [lsEvaluator, Units.pull, List.length_map]
    rcases evaluateLsf_units (7 + n + xs.length) opt stdv hf (some "no") xs (h.advance j j T (T.map U.kwargs)) with
      ⟨e1, e2⟩ | ⟨j', T', out, hl, e1, e2⟩
    · rw [e1, e2]; exact ⟨⟨j, T, rfl, rfl⟩, rfl⟩
    · rw [e1, e2, Ev.advance_advance, Ev.advance_advance, ← List.map_append]
      cases out with
      | error e => exact ⟨⟨_, _, rfl, rfl⟩, rfl⟩
      | ok o => exact ⟨⟨_, _, rfl, rfl⟩, rfl⟩

end Pystra
