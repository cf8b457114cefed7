import Verif.Lemmas.Twin
import Verif.Props.Stochastic
import Verif.Spec.LimitState
import Verif.Spec.Labels

/-! C100: the names of the variables, and whether a fixed quantity is a constant of the model or part of the limit-state function, are
matters of presentation. -/

namespace Pystra.Props
open Spec Session Form LimitState
open StochModel (Op)

variable {D V : Type} {n m : ℕ}

/-! ### Other names -/

theorem set_renameKeys {ρ : String → String} (hρ : Function.Injective ρ) (d : Dict String V) (k : String) (v : V) :
    (renameKeys ρ d).set (ρ k) v = renameKeys ρ (d.set k v) := by
  induction d with
  | nil => rfl
  | cons e d ih =>
    obtain ⟨k', v'⟩ := e
    simp only [renameKeys, List.map_cons, Dict.set, hρ.eq_iff]
    split
    · rfl
    · simp only [renameKeys] at ih
      rw [ih]; rfl

theorem set_renameVars {ρ : String → String} (hρ : Function.Injective ρ) (d : Dict String (DistObj D)) (k : String) (v : DistObj D) :
    Dict.set (d.map fun e => (ρ e.1, renameDist ρ e.2)) (ρ k) (renameDist ρ v) =
      (d.set k v).map fun e => (ρ e.1, renameDist ρ e.2) := by
  induction d with
  | nil => rfl
  | cons e d ih =>
    obtain ⟨k', v'⟩ := e
    simp only [List.map_cons, Dict.set, hρ.eq_iff]
    split
    · rfl
    · rw [ih]; rfl

theorem step_rename {ρ : String → String} (hρ : Function.Injective ρ) (s : StochModel D V) (op : Op D V) :
    (renameModel ρ s).step (renameOp ρ op) = (renameModel ρ (s.step op).1, (s.step op).2) := by
  have hmem : ∀ k, ρ k ∈ s.names.map ρ ↔ k ∈ s.names := fun k => List.mem_map_of_injective hρ
  cases op with
  | setCorr A => rfl
  | setRo A => rfl
  | calls k => rfl
  | add o =>
    cases o with
    | other => rfl
    | distribution d =>
      simp only [renameOp, renameObj, StochModel.step, StochModel.addVariable, renameModel, renameDist, hmem]
      split
      · rfl
      · have := set_renameVars hρ s.vars d.name d
        simp only [renameDist] at this
        simp [renameDist, this]
    | constant k v =>
      simp only [renameOp, renameObj, StochModel.step, StochModel.addVariable, renameModel, hmem]
      split
      · rfl
      · simp [set_renameKeys hρ]

/-- C100: the model made with other names (any one-to-one renaming of variables and constants) is the model with other names; in
particular the same additions are refused. -/
theorem C100_rename_model {ρ : String → String} (hρ : Function.Injective ρ) (ops : List (Op D V)) :
    StochModel.init.run (ops.map (renameOp ρ)) = renameModel ρ (StochModel.init.run ops) := by
  have : ∀ (ops : List (Op D V)) (s : StochModel D V), (renameModel ρ s).run (ops.map (renameOp ρ)) = renameModel ρ (s.run ops) := by
    intro ops
    induction ops with
    | nil => intro s; rfl
    | cons op ops ih =>
      intro s
      simp only [List.map_cons, StochModel.run, step_rename hρ]
      exact ih _
  exact this ops .init

theorem bindVars_rename {ρ : String → String} (hρ : Function.Injective ρ) (x : List (Fin n → ℝ)) (vs : List String) :
    ∀ (i : ℕ) (d : Kwargs), bindVars x (vs.map ρ) i (renameKeys ρ d) = (bindVars x vs i d).map (renameKeys ρ) := by
  induction vs with
  | nil => intro i d; rfl
  | cons v vs ih =>
    intro i d
    simp only [List.map_cons, bindVars]
    split
    · rw [set_renameKeys hρ, ih]
    · rfl

theorem bindConsts_rename {ρ : String → String} (hρ : Function.Injective ρ) (nc : ℕ) (cs : Dict String ℝ) :
    ∀ d : Kwargs, bindConsts nc (renameKeys ρ cs) (renameKeys ρ d) = renameKeys ρ (bindConsts nc cs d) := by
  induction cs with
  | nil => intro d; rfl
  | cons e cs ih =>
    intro d
    obtain ⟨k, v⟩ := e
    simp only [renameKeys, List.map_cons, bindConsts] at ih ⊢
    have := set_renameKeys hρ d k (List.replicate nc v)
    simp only [renameKeys] at this
    rw [this, ih]

theorem inpdict_rename {ρ : String → String} (hρ : Function.Injective ρ) (m : StochModel D ℝ) (x : List (Fin n → ℝ)) :
    inpdict (renameModel ρ m) x = (inpdict m x).map (renameKeys ρ) := by
  unfold inpdict
  have hk : (renameModel ρ m).getVariables.keys = m.getVariables.keys.map ρ := by
    simp [renameModel, StochModel.getVariables, Dict.keys]
  have := bindVars_rename hρ x m.getVariables.keys 0 []
  have this : bindVars x (m.getVariables.keys.map ρ) 0 [] = (bindVars x m.getVariables.keys 0 []).map (renameKeys ρ) := this
  rw [hk, this]
  rcases bindVars x m.getVariables.keys 0 [] with er | d
  · rfl
  · exact congrArg Except.ok (bindConsts_rename hρ x.length m.getConstants d)

theorem rename_twin {c : Setup} {e : Kwargs → GRet} {ρ : String → String} (hρ : Function.Injective ρ)
    (he : ∀ kw, e (renameKeys ρ kw) = c.expr kw) : Twin c e (fun s t => t = renameEv ρ s) where
  call := by
    rintro s t rfl n x ddm
    unfold computeLsf
    have := inpdict_rename hρ s.model x
    simp only [renameEv] at this ⊢
    rw [this]
    cases inpdict s.model x with
    | error er => exact ⟨rfl, rfl⟩
    | ok kw => exact ⟨by simp [Except.map], by simp [Except.map, he]⟩
  count := by rintro s t rfl k; rfl
  setRo := by rintro s t rfl A; rfl
  marg := by rintro s t rfl; simp [renameEv, renameModel, renameDist, Function.comp_def]
  correlation := by rintro s t rfl; rfl

/-- What a relation that is a function says about two runs. -/
theorem optRel_fun {α : Type} {φ : Ev Marginal → Ev Marginal} {p q : Option (Ev Marginal × α)}
    (h : OptRel (RP fun s t => t = φ s) p q) : q = p.map fun r => (φ r.1, r.2) := by
  rcases h with ⟨rfl, rfl⟩ | ⟨a, b, rfl, rfl, h1, h2⟩
  · rfl
  · obtain ⟨a1, a2⟩ := a
    obtain ⟨b1, b2⟩ := b
    simp only at h1 h2
    subst h1 h2
    rfl

/-- C100: names are labels.  With the variables and constants renamed (one to one), and a limit-state function that takes the new names,
every sequence of analyses gives the same results or exceptions, makes the same calls (under the new names) and leaves the same model
(under the new names). -/
theorem C100_rename {c : Setup} {e : Kwargs → GRet} {ρ : String → String} (hρ : Function.Injective ρ)
    (he : ∀ kw, e (renameKeys ρ kw) = c.expr kw) (jobs : List (Job (m + 1))) (ev : Ev Marginal) :
    session { c with expr := e } jobs (renameEv ρ ev) = (session c jobs ev).map fun r => (renameEv ρ r.1, r.2) :=
  optRel_fun (session_twin (rename_twin hρ he) jobs rfl)

/-! ### A constant of the model, or of the limit-state function -/

theorem set_without (name : String) (d : Dict String V) (k : String) (v : V) (hk : k ≠ name) :
    (without name d).set k v = without name (d.set k v) := by
  induction d with
  | nil => simp [without, Dict.set, hk]
  | cons e d ih =>
    obtain ⟨k', v'⟩ := e
    by_cases h1 : k' = name
    · subst h1
      have h2 : ¬ k' = k := fun h => hk h.symm
      simp only [without, Dict.set, if_neg h2] at ih ⊢
      simpa using ih
    · by_cases h2 : k' = k
      · subst h2
        simp [without, Dict.set, h1]
      · simp only [without, Dict.set, if_neg h2] at ih ⊢
        simpa [h1, Dict.set, h2] using ih

theorem without_set (name : String) (d : Dict String V) (v : V) : without name (d.set name v) = without name d := by
  induction d with
  | nil => simp [without, Dict.set]
  | cons e d ih =>
    obtain ⟨k', v'⟩ := e
    by_cases h1 : k' = name
    · subst h1; simp [without, Dict.set]
    · simp only [without, Dict.set, if_neg h1] at ih ⊢
      simpa [h1] using ih

theorem without_names (name : String) (s : StochModel D V) (k : String) (hk : k ≠ name) :
    k ∈ s.names.filter (· ≠ name) ↔ k ∈ s.names := by simp [hk]

theorem step_without (name : String) (s : StochModel D V) (op : Op D V) (h : NotNamed name op) :
    (withoutConst name s).step op = (withoutConst name (s.step op).1, (s.step op).2) := by
  cases op with
  | setCorr A => rfl
  | setRo A => rfl
  | calls k => rfl
  | add o =>
    cases o with
    | other => rfl
    | distribution d =>
      have hd : d.name ≠ name := h
      simp only [StochModel.step, StochModel.addVariable, withoutConst, without_names name s _ hd]
      split
      · rfl
      · simp [hd]
    | constant k v =>
      have hk : k ≠ name := h
      simp only [StochModel.step, StochModel.addVariable, withoutConst, without_names name s _ hk]
      split
      · rfl
      · simp [hk, set_without name s.consts k v hk]

theorem run_without (name : String) (ops : List (Op D V)) : ∀ (s : StochModel D V), (∀ op ∈ ops, NotNamed name op) →
    (withoutConst name s).run ops = withoutConst name (s.run ops) := by
  induction ops with
  | nil => intro s _; rfl
  | cons op ops ih =>
    intro s h
    simp only [StochModel.run, step_without name s op (h op (by simp))]
    exact ih _ fun o ho => h o (by simp [ho])

theorem names_notin (name : String) (ops : List (Op D V)) : ∀ (s : StochModel D V), (∀ op ∈ ops, NotNamed name op) →
    name ∉ s.names → name ∉ (s.run ops).names ∧ (name ∉ Dict.keys s.consts → name ∉ Dict.keys (s.run ops).consts) := by
  induction ops with
  | nil => intro s _ h; exact ⟨h, id⟩
  | cons op ops ih =>
    intro s h hs
    have hop := h op (by simp)
    have hrest : ∀ o ∈ ops, NotNamed name o := fun o ho => h o (by simp [ho])
    have key : name ∉ (s.step op).1.names ∧ (name ∉ Dict.keys s.consts → name ∉ Dict.keys (s.step op).1.consts) := by
      cases op with
      | setCorr A => exact ⟨hs, id⟩
      | setRo A => exact ⟨hs, id⟩
      | calls k => exact ⟨hs, id⟩
      | add o =>
        cases o with
        | other => exact ⟨hs, id⟩
        | distribution d =>
          have hd : d.name ≠ name := hop
          simp only [StochModel.step, StochModel.addVariable]
          split
          · exact ⟨hs, id⟩
          · exact ⟨by simp [hs, Ne.symm hd], id⟩
        | constant k v =>
          have hk : k ≠ name := hop
          simp only [StochModel.step, StochModel.addVariable]
          split
          · exact ⟨hs, id⟩
          · refine ⟨by simp [hs, Ne.symm hk], fun hc => ?_⟩
            by_cases hm : k ∈ Dict.keys s.consts
            · show name ∉ (s.consts.set k v).map Prod.fst
              have : ∀ d : Dict String V, name ∉ d.map Prod.fst → name ∉ (d.set k v).map Prod.fst := by
                intro d
                induction d with
                | nil => intro _; simp [Dict.set, Ne.symm hk]
                | cons e d ih =>
                  intro hd
                  simp only [List.map_cons, List.mem_cons, not_or] at hd
                  unfold Dict.set
                  split
                  · simp [Ne.symm hk, hd.2]
                  · simp [hd.1, ih hd.2]
              exact this _ hc
            · rw [Dict.set_of_not_mem _ _ _ hm]
              simpa [Dict.keys, Ne.symm hk] using hc
    obtain ⟨k1, k2⟩ := key
    obtain ⟨g1, g2⟩ := ih _ hrest k1
    exact ⟨g1, fun hc => g2 (k2 hc)⟩

/-- C100: leaving out the addition of a constant gives the model without that constant, and everything else as it was (`name` is not
used for anything else; the constant may have been added anywhere in the history). -/
theorem C100_constant_model (name : String) (v : V) (h₁ h₂ : List (Op D V)) (hn₁ : ∀ op ∈ h₁, NotNamed name op)
    (hn₂ : ∀ op ∈ h₂, NotNamed name op) :
    StochModel.init.run (h₁ ++ h₂) = withoutConst name (StochModel.init.run (h₁ ++ .add (.constant name v) :: h₂)) := by
  obtain ⟨hn, hc⟩ := names_notin name h₁ (.init : StochModel D V) hn₁ (by simp [StochModel.init])
  have hc := hc (by simp [StochModel.init, Dict.keys])
  rw [StochModel.run_append, StochModel.run_append]
  simp only [StochModel.run]
  rw [← run_without name h₂ _ hn₂]
  congr 1
  simp only [StochModel.step, StochModel.addVariable, if_neg hn, withoutConst, without_set]
  set s := (StochModel.init : StochModel D V).run h₁ with hs
  have e1 : s.names.filter (· ≠ name) = s.names := List.filter_eq_self.2 fun a ha => by
    simp only [ne_eq, decide_not, Bool.not_eq_eq_eq_not, Bool.not_true, decide_eq_false_iff_not]
    exact fun h => hn (h ▸ ha)
  have e2 : without name s.consts = s.consts := List.filter_eq_self.2 fun a ha => by
    simp only [ne_eq, decide_not, Bool.not_eq_eq_eq_not, Bool.not_true, decide_eq_false_iff_not]
    exact fun h => hc (h ▸ List.mem_map_of_mem ha)
  have e3 : (s.names ++ [name]).filter (· ≠ name) = s.names := by
    rw [List.filter_append, e1]; simp
  rw [e2, e3]

theorem bindVars_without (name : String) (x : List (Fin n → ℝ)) (vs : List String) (hv : name ∉ vs) :
    ∀ (i : ℕ) (d : Kwargs), bindVars x vs i (without name d) = (bindVars x vs i d).map (without name) := by
  induction vs with
  | nil => intro i d; rfl
  | cons v vs ih =>
    intro i d
    simp only [List.mem_cons, not_or] at hv
    simp only [bindVars]
    split
    · rw [set_without name d v _ (Ne.symm hv.1), ih hv.2]
    · rfl

theorem bindConsts_without (name : String) (nc : ℕ) (cs : Dict String ℝ) :
    ∀ d : Kwargs, bindConsts nc (without name cs) (without name d) = without name (bindConsts nc cs d) := by
  induction cs with
  | nil => intro d; rfl
  | cons e cs ih =>
    intro d
    obtain ⟨k, v⟩ := e
    by_cases hk : k = name
    · subst hk
      rw [bindConsts, ← ih, without_set]
      simp [without]
    · rw [bindConsts, ← ih, ← set_without name d k _ hk]
      simp [without, hk, bindConsts]

theorem mem_set {d : Dict String V} {k : String} {v : V} {e : String × V} (h : e ∈ d.set k v) : e = (k, v) ∨ e ∈ d := by
  induction d with
  | nil => simp [Dict.set] at h; exact Or.inl h
  | cons a d ih =>
    obtain ⟨k', v'⟩ := a
    unfold Dict.set at h
    split at h
    · rcases List.mem_cons.1 h with h | h
      · exact Or.inl h
      · exact Or.inr (by simp [h])
    · rcases List.mem_cons.1 h with h | h
      · exact Or.inr (by simp [h])
      · rcases ih h with h | h
        · exact Or.inl h
        · exact Or.inr (by simp [h])

theorem bindVars_length (x : List (Fin n → ℝ)) (vs : List String) : ∀ (i : ℕ) (d d' : Kwargs), (∀ e ∈ d, e.2.length = x.length) →
    bindVars x vs i d = .ok d' → ∀ e ∈ d', e.2.length = x.length := by
  induction vs with
  | nil => intro i d d' h hb; injection hb with hb; subst hb; exact h
  | cons v vs ih =>
    intro i d d' h hb
    unfold bindVars at hb
    split at hb
    · refine ih _ _ _ (fun e he => ?_) hb
      rcases mem_set he with rfl | he
      · simp [rowOf]
      · exact h e he
    · cases hb

theorem bindConsts_length (nc : ℕ) (cs : Dict String ℝ) : ∀ d : Kwargs, (∀ e ∈ d, e.2.length = nc) →
    ∀ e ∈ bindConsts nc cs d, e.2.length = nc := by
  induction cs with
  | nil => intro d h; exact h
  | cons c cs ih =>
    intro d h
    obtain ⟨k, v⟩ := c
    refine ih _ fun e he => ?_
    rcases mem_set he with rfl | he
    · simp
    · exact h e he

theorem get?_set_self (d : Dict String V) (k : String) (v : V) : (d.set k v).get? k = some v := by
  induction d with
  | nil => simp [Dict.set, Dict.get?]
  | cons a d ih =>
    obtain ⟨k', v'⟩ := a
    unfold Dict.set
    split
    · simp [Dict.get?]
    · rename_i h
      simp only [Dict.get?, if_neg h]; exact ih

theorem get?_set_other (d : Dict String V) (k l : String) (v : V) (h : k ≠ l) : (d.set k v).get? l = d.get? l := by
  induction d with
  | nil => simp [Dict.set, Dict.get?, h]
  | cons a d ih =>
    obtain ⟨k', v'⟩ := a
    unfold Dict.set
    split
    · rename_i h'
      subst h'
      simp [Dict.get?, h]
    · simp only [Dict.get?]
      rw [ih]

/-- A name occurs once at most. -/
theorem bindConsts_get (nc : ℕ) (name : String) (v : ℝ) (cs : Dict String ℝ) (hcs : cs.keys.Nodup) :
    ∀ d : Kwargs, (cs.get? name = some v → (bindConsts nc cs d).get? name = some (List.replicate nc v)) ∧
      (cs.get? name = none → (bindConsts nc cs d).get? name = d.get? name) := by
  induction cs with
  | nil => intro d; exact ⟨fun h => by simp [Dict.get?] at h, fun _ => rfl⟩
  | cons e cs ih =>
    intro d
    obtain ⟨k, w⟩ := e
    simp only [Dict.keys, List.map_cons, List.nodup_cons] at hcs
    obtain ⟨hk, hcs⟩ := hcs
    obtain ⟨i1, i2⟩ := ih hcs (d.set k (List.replicate nc w))
    by_cases h : k = name
    · subst h
      have hn : Dict.get? cs k = none := by
        have : ∀ l : Dict String ℝ, k ∉ l.map Prod.fst → l.get? k = none := by
          intro l
          induction l with
          | nil => intro _; rfl
          | cons a l ih =>
            intro h
            simp only [List.map_cons, List.mem_cons, not_or] at h
            simp only [Dict.get?, if_neg (Ne.symm h.1)]
            exact ih h.2
        exact this cs hk
      refine ⟨fun hv => ?_, fun hv => by simp [Dict.get?] at hv⟩
      simp only [Dict.get?, if_true, Option.some.injEq] at hv
      subst hv
      rw [bindConsts, i2 hn, get?_set_self]
    · simp only [Dict.get?, if_neg h, bindConsts]
      refine ⟨i1, fun hv => ?_⟩
      rw [i2 hv, get?_set_other _ _ _ _ h]

/-- What stays true of the model during the analyses. -/
def HasConst (name : String) (v : ℝ) (m : StochModel Marginal ℝ) : Prop :=
  name ∉ m.vars.keys ∧ m.consts.keys.Nodup ∧ m.consts.get? name = some v

theorem inpdict_without {name : String} {v : ℝ} {m : StochModel Marginal ℝ} (hm : HasConst name v m) (x : List (Fin n → ℝ)) :
    inpdict (withoutConst name m) x = (inpdict m x).map (without name) ∧
    ∀ kw, inpdict m x = .ok kw → (∀ e ∈ kw, e.2.length = x.length) ∧ kw.get? name = some (List.replicate x.length v) := by
  obtain ⟨h1, h2, h3⟩ := hm
  have hb := bindVars_without name x m.vars.keys h1 0 []
  have hw : without name ([] : Kwargs) = [] := rfl
  rw [hw] at hb
  unfold inpdict
  simp only [withoutConst, StochModel.getVariables, StochModel.getConstants]
  rcases hd : bindVars x m.vars.keys 0 [] with er | d
  · exact ⟨rfl, fun kw h => by cases h⟩
  · rw [hd] at hb
    have hb : d = without name d := by injection hb
    have hw' := bindConsts_without name x.length m.consts d
    rw [← hb] at hw'
    refine ⟨congrArg Except.ok hw', fun kw h => ?_⟩
    injection h with h
    subst h
    exact ⟨bindConsts_length _ _ _ (bindVars_length x _ 0 [] _ (by simp) hd), (bindConsts_get _ _ _ _ h2 d).1 h3⟩

theorem constant_twin {c : Setup} {e : Kwargs → GRet} {name : String} {v : ℝ} (he : FixedArg name v c.expr e) :
    Twin c e (fun s t => HasConst name v s.model ∧ t = withoutEv name s) where
  call := by
    rintro s t ⟨hm, rfl⟩ n x ddm
    obtain ⟨h1, h2⟩ := inpdict_without hm x
    unfold computeLsf
    simp only [withoutEv]
    rw [h1]
    rcases hi : inpdict s.model x with er | kw
    · exact ⟨⟨hm, rfl⟩, rfl⟩
    · obtain ⟨g1, g2⟩ := h2 kw hi
      exact ⟨⟨hm, by simp [Except.map]⟩, by simp [Except.map, he kw _ g1 g2]⟩
  count := by rintro s t ⟨hm, rfl⟩ k; exact ⟨hm, rfl⟩
  setRo := by rintro s t ⟨hm, rfl⟩ A; exact ⟨hm, rfl⟩
  marg := by rintro s t ⟨hm, rfl⟩; rfl
  correlation := by rintro s t ⟨hm, rfl⟩; rfl

theorem constants_sub (objs : List (PyObj D V)) : ((constants objs).map Prod.fst).Sublist (objs.filterMap objName) := by
  induction objs with
  | nil => simp [constants]
  | cons o objs ih =>
    cases o with
    | distribution d => simp only [constants, List.filterMap_cons, objName]; exact ih.cons _
    | constant k v => simp only [constants, List.filterMap_cons, objName, List.map_cons]; exact ih.cons₂ _
    | other => simpa only [constants, List.filterMap_cons, objName] using ih

theorem constants_nodup (objs : List (PyObj D V)) (h : (objs.filterMap objName).Nodup) : ((constants objs).map Prod.fst).Nodup :=
  h.sublist (constants_sub objs)

/-- C100: a constant of the model is an argument fixed at a value.  Let the model have a constant `name` of value `v`, and let `e` be
the limit-state function with this keyword argument fixed to `v`.  Then every sequence of analyses of the model without the constant,
with `e`, gives the same results or exceptions, makes the same calls (without the argument) and leaves the same model (without the
constant). -/
theorem C100_constant {c : Setup} {e : Kwargs → GRet} {name : String} {v : ℝ} (he : FixedArg name v c.expr e)
    (jobs : List (Job (m + 1))) {ev : Ev Marginal} (hr : Reachable ev.model) (hc : ev.model.consts.get? name = some v) :
    session { c with expr := e } jobs (withoutEv name ev) = (session c jobs ev).map fun r => (withoutEv name r.1, r.2) := by
  obtain ⟨hs, he'⟩ := hr
  have hm : HasConst name v ev.model := by
    have hmem : name ∈ ev.model.consts.keys := by
      by_contra hn
      rw [(Dict.get?_eq_none _ _).2 hn] at hc
      cases hc
    have r : StochModel.Refines ev.model (registered hs) := by rw [he']; exact StochModel.refines_reachable hs
    refine ⟨fun hv => ?_, ?_, hc⟩
    · have := (C01_partition (D := Marginal) (V := ℝ) hs name).2
      rw [← he'] at this
      exact this ⟨hv, hmem⟩
    · rw [r.consts]
      exact constants_nodup _ (r.names ▸ r.nodup)
  have h := session_twin (constant_twin he) jobs (s := ev) (t := withoutEv name ev) ⟨hm, rfl⟩
  rcases h with ⟨h1, h2⟩ | ⟨p, q, h1, h2, ⟨-, h3⟩, h4⟩
  · rw [h1]; exact h2
  · rw [h1]
    refine h2.trans ?_
    obtain ⟨q1, q2⟩ := q
    simp only at h3 h4
    rw [h3, ← h4]; rfl

end Pystra.Props
