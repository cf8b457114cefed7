import Verif.Spec.Options
import Verif.Lemmas.LoadComb

/-! Lemmas about options objects. -/

namespace Pystra.Opts
open Spec

theorem get?_filter_ne (o : Obj) (a name : String) :
    Dict.get? (o.filter (fun p : String × PyVal => p.1 ≠ a)) name = if name = a then none else Dict.get? o name := by
  induction o with
  | nil => simp [Dict.get?]
  | cons p t ih =>
    obtain ⟨k, v⟩ := p
    by_cases hk : k = a
    · subst hk
      by_cases hn : name = k
      · subst hn; simpa [List.filter_cons, Dict.get?] using ih
      · have hn' : k ≠ name := fun h => hn h.symm
        simpa [List.filter_cons, Dict.get?, hn, hn'] using ih
    · by_cases hn : name = a
      · subst hn
        simp [List.filter_cons, Dict.get?, hk] at ih ⊢
        exact ih
      · by_cases hkn : k = name
        · subst hkn; simp [List.filter_cons, Dict.get?, hk]
        · simpa [List.filter_cons, Dict.get?, hk, hn, hkn] using ih

/-- Which attribute each setter writes. -/
theorem callSetter_get? (o : Obj) (m : String) (v : PyVal) (name : String) :
    Dict.get? (act o (.call m v)) name = (effect name (.call m v)).getD (Dict.get? o name) := by
  dsimp only [act]
  unfold callSetter
  split
  case h_2 e h =>
    split at h <;> first | (cases h; done) | skip
    simp only [effect]
    rw [if_neg]
    · rfl
    · simp only [optionTable, List.map_cons, List.map_nil, List.mem_cons, Prod.mk.injEq, reduceCtorEq, Option.some.injEq,
        List.not_mem_nil, or_false, and_false, false_or, not_or, not_and]
      simp_all
  case h_1 o' h =>
    split at h <;> first | (cases h; done) | skip
    all_goals
      injection h with h
      subst h
      rw [Dict.get?_set]
      simp [effect, optionTable]
      split <;> rfl

theorem act_get? (o : Obj) (a : Action) (name : String) :
    Dict.get? (act o a) name = (effect name a).getD (Dict.get? o name) := by
  cases a with
  | call m v => exact callSetter_get? o m v name
  | assign n v =>
    simp only [act, effect]
    rw [Dict.get?_set]
    by_cases h : name = n
    · subst h; simp
    · have h' : n ≠ name := fun e => h e.symm
      simp [h, h']
  | del n =>
    simp only [act, effect, delete]
    cases hn : Dict.get? o n with
    | none =>
      by_cases h : n = name
      · subst h; simp [hn]
      · simp [h]
    | some v =>
      simp only [get?_filter_ne]
      by_cases h : name = n
      · subst h; simp
      · have h' : n ≠ name := fun e => h e.symm
        simp [h, h']

theorem history_get? (h : List Action) (o : Obj) (name : String) :
    Dict.get? (history o h) name = lastValue (Dict.get? o name) name h := by
  induction h using List.reverseRecOn with
  | nil => rfl
  | append_singleton h a ih =>
    simp only [history, List.foldl_append, List.foldl_cons, List.foldl_nil] at ih ⊢
    rw [act_get?, ih]
    simp only [lastValue, List.reverse_append, List.reverse_cons, List.reverse_nil, List.nil_append, List.singleton_append,
      List.findSome?_cons]
    cases effect name a <;> rfl

end Pystra.Opts
