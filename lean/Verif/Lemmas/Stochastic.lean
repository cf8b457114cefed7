import Verif.Spec.Stochastic

namespace Pystra

namespace Dict
variable {K V : Type _} [DecidableEq K]

theorem set_of_not_mem (d : Dict K V) (k : K) (v : V) (h : k ∉ d.keys) : d.set k v = d ++ [(k, v)] := by
  induction d with
  | nil => rfl
  | cons p t ih =>
    obtain ⟨k', v'⟩ := p
    simp only [keys, List.map_cons, List.mem_cons, not_or] at h
    simp only [set, if_neg (Ne.symm h.1), List.cons_append]
    rw [ih h.2]

theorem get?_of_mem (d : Dict K V) (hd : d.keys.Nodup) (k : K) (v : V) (h : (k, v) ∈ d) :
    d.get? k = some v := by
  induction d with
  | nil => cases h
  | cons p t ih =>
    obtain ⟨k', v'⟩ := p
    simp only [keys, List.map_cons, List.nodup_cons] at hd
    rcases List.mem_cons.1 h with h | h
    · cases h; simp [get?]
    · have hk : k ∈ t.map Prod.fst := List.mem_map.2 ⟨(k, v), h, rfl⟩
      have hne : k' ≠ k := fun e => hd.1 (e ▸ hk)
      simp only [get?, if_neg hne]
      exact ih hd.2 h

theorem get?_eq_none (d : Dict K V) (k : K) : d.get? k = none ↔ k ∉ d.keys := by
  induction d with
  | nil => simp [get?, keys]
  | cons p t ih =>
    obtain ⟨k', v'⟩ := p
    by_cases h : k' = k
    · simp [get?, keys, h]
    · simp only [get?, if_neg h, ih, keys, List.map_cons, List.mem_cons, not_or]
      exact ⟨fun h' => ⟨fun e => h e.symm, h'⟩, fun h' => h'.2⟩

theorem mem_of_get? (d : Dict K V) (k : K) (v : V) (h : d.get? k = some v) : (k, v) ∈ d := by
  induction d with
  | nil => simp [get?] at h
  | cons p t ih =>
    obtain ⟨k', v'⟩ := p
    by_cases hk : k' = k
    · simp only [get?, if_pos hk, Option.some.injEq] at h
      subst hk h; exact List.mem_cons_self
    · simp only [get?, if_neg hk] at h
      exact List.mem_cons_of_mem _ (ih h)

end Dict

namespace StochModel
variable {D V : Type}
open Spec

/-- The refinement invariant: the state is the one computed from the registered objects. -/
structure Refines (s : StochModel D V) (objs : List (PyObj D V)) : Prop where
  names : s.names = objs.filterMap objName
  marg : s.marg = dists objs
  vars : s.vars = (dists objs).map (fun d => (d.name, d))
  consts : s.consts = constants objs
  nodup : s.names.Nodup

theorem dists_append (a b : List (PyObj D V)) : dists (a ++ b) = dists a ++ dists b := by
  induction a with
  | nil => rfl
  | cons o t ih => cases o <;> simp [dists, ih]

theorem constants_append (a b : List (PyObj D V)) : constants (a ++ b) = constants a ++ constants b := by
  induction a with
  | nil => rfl
  | cons o t ih => cases o <;> simp [constants, ih]

theorem mem_dists (objs : List (PyObj D V)) (d : DistObj D) :
    d ∈ dists objs ↔ PyObj.distribution d ∈ objs := by
  induction objs with
  | nil => simp [dists]
  | cons o t ih => cases o <;> simp [dists, ih]

theorem mem_constants (objs : List (PyObj D V)) (n : String) (v : V) :
    (n, v) ∈ constants objs ↔ PyObj.constant n v ∈ objs := by
  induction objs with
  | nil => simp [constants]
  | cons o t ih => cases o <;> simp [constants, ih]

theorem refines_init : Refines (init : StochModel D V) [] :=
  ⟨rfl, rfl, rfl, rfl, List.nodup_nil⟩

theorem refines_add {s : StochModel D V} {objs : List (PyObj D V)} (h : Refines s objs)
    (o : PyObj D V) (n : String) (hn : objName o = some n) (hf : n ∉ s.names) :
    Refines (s.addVariable o).1 (objs ++ [o]) := by
  cases o with
  | other => simp [objName] at hn
  | distribution d =>
    simp only [objName, Option.some.injEq] at hn
    subst hn
    have hk : d.name ∉ Dict.keys s.vars := by
      intro hm
      simp only [Dict.keys, h.vars, List.map_map, List.mem_map] at hm
      obtain ⟨d', hd', he⟩ := hm
      apply hf
      rw [h.names, List.mem_filterMap]
      exact ⟨_, (mem_dists _ _).1 hd', by simpa [objName] using he⟩
    simp only [addVariable, if_neg hf]
    refine ⟨?_, ?_, ?_, ?_, ?_⟩
    · simp [h.names, objName]
    · simp [h.marg, dists_append, dists]
    · show Dict.set s.vars d.name d = _
      rw [Dict.set_of_not_mem _ _ _ hk, h.vars, dists_append, List.map_append]
      simp [dists]
    · simp [h.consts, constants_append, constants]
    · exact List.nodup_append.2 ⟨h.nodup, by simp, by
        intro a ha b hb; simp at hb; subst hb; exact fun e => hf (e ▸ ha)⟩
  | constant m v =>
    simp only [objName, Option.some.injEq] at hn
    subst hn
    have hk : m ∉ Dict.keys s.consts := by
      intro hm
      simp only [Dict.keys, h.consts, List.mem_map] at hm
      obtain ⟨⟨m', v'⟩, hd', he⟩ := hm
      apply hf
      rw [h.names, List.mem_filterMap]
      exact ⟨_, (mem_constants _ _ _).1 hd', by simpa [objName] using he⟩
    simp only [addVariable, if_neg hf]
    refine ⟨?_, ?_, ?_, ?_, ?_⟩
    · simp [h.names, objName]
    · simp [h.marg, dists_append, dists]
    · simp [h.vars, dists_append, dists]
    · show Dict.set s.consts m v = _
      rw [Dict.set_of_not_mem _ _ _ hk, h.consts, constants_append]
      simp [constants]
    · exact List.nodup_append.2 ⟨h.nodup, by simp, by
        intro a ha b hb; simp at hb; subst hb; exact fun e => hf (e ▸ ha)⟩

theorem add_rejected (s : StochModel D V) (o : PyObj D V)
    (h : ∀ n, objName o = some n → n ∈ s.names) : s.addVariable o = (s, .error .exception) := by
  cases o with
  | other => rfl
  | distribution d => simp [addVariable, h d.name rfl]
  | constant m v => simp [addVariable, h m rfl]

theorem refines_run (h : List (Op D V)) : ∀ (s : StochModel D V) (objs : List (PyObj D V))
    (seen : List String), (∀ n, n ∈ seen ↔ n ∈ s.names) → Refines s objs →
    Refines (s.run h) (objs ++ keepFirst seen (offered h)) := by
  induction h with
  | nil => intro s objs seen _ hr; simpa [run, offered, keepFirst] using hr
  | cons op t ih =>
    intro s objs seen hs hr
    cases op with
    | add o =>
      simp only [run, step, offered, keepFirst]
      cases hn : objName o with
      | none =>
        simp only [add_rejected s o (by simp [hn])]
        exact ih s objs seen hs hr
      | some n =>
        by_cases hm : n ∈ seen
        · simp only [if_pos hm]
          have : s.addVariable o = (s, .error .exception) :=
            add_rejected s o (by intro m e; rw [hn] at e; cases e; exact (hs _).1 hm)
          simp only [this]
          exact ih s objs seen hs hr
        · simp only [if_neg hm]
          have hf : n ∉ s.names := fun h' => hm ((hs n).2 h')
          have hr' := refines_add hr o n hn hf
          have := ih (s.addVariable o).1 (objs ++ [o]) (n :: seen) ?_ hr'
          · simpa using this
          · intro k
            rw [hr'.names, List.filterMap_append, ← hr.names]
            simp [hn, hs k, or_comm]
    | setCorr m =>
      exact ih _ objs seen hs ⟨hr.names, hr.marg, hr.vars, hr.consts, hr.nodup⟩
    | setRo m =>
      exact ih _ objs seen hs ⟨hr.names, hr.marg, hr.vars, hr.consts, hr.nodup⟩
    | calls n =>
      exact ih _ objs seen hs ⟨hr.names, hr.marg, hr.vars, hr.consts, hr.nodup⟩

theorem refines_reachable (h : List (Op D V)) :
    Refines ((init : StochModel D V).run h) (registered h) := by
  simpa [registered] using refines_run h init [] [] (by simp [init]) refines_init

theorem run_append (s : StochModel D V) (a b : List (Op D V)) : s.run (a ++ b) = (s.run a).run b := by
  induction a generalizing s with
  | nil => rfl
  | cons op t ih => simp [run, ih]

theorem callFunction_addVariable (s : StochModel D V) (o : PyObj D V) :
    (s.addVariable o).1.callFunction = s.callFunction := by
  cases o <;> simp only [addVariable] <;> split <;> rfl

theorem callFunction_run (h : List (Op D V)) (s : StochModel D V) :
    (s.run h).callFunction = s.callFunction + totalCalls h := by
  induction h generalizing s with
  | nil => rfl
  | cons op t ih =>
    cases op with
    | add o => simp [run, step, totalCalls, ih, callFunction_addVariable]
    | setCorr m => simp [run, step, totalCalls, ih, setCorrelation]
    | setRo m => simp [run, step, totalCalls, ih, setModifiedCorrelation]
    | calls n => simp [run, step, totalCalls, ih, addCallFunction, Nat.add_assoc]

end StochModel
end Pystra
