import Verif.Model.LoadComb
import Verif.Lemmas.Stochastic
import Mathlib.Tactic.Common

/-! Facts about dictionaries and the construction of a load case. -/

namespace Pystra

namespace Dict
variable {K V : Type _} [DecidableEq K]

theorem get?_set (d : Dict K V) (k : K) (v : V) (k' : K) : (d.set k v).get? k' = if k' = k then some v else d.get? k' := by
  induction d with
  | nil =>
    by_cases h : k' = k
    · simp [set, get?, h]
    · simp [set, get?, h, Ne.symm h]
  | cons p t ih =>
    obtain ⟨a, b⟩ := p
    by_cases h : a = k
    · subst h
      by_cases h' : k' = a
      · simp [set, get?, h']
      · simp [set, get?, h', Ne.symm h']
    · by_cases h' : k' = a
      · subst h'
        simp [set, get?, h]
      · by_cases h2 : k' = k
        · subst h2; simp [set, get?, h, ih]
        · simp [set, get?, h, h2, ih]

theorem mem_keys_set (d : Dict K V) (k : K) (v : V) (k' : K) : k' ∈ (d.set k v).keys ↔ k' = k ∨ k' ∈ d.keys := by
  have h1 := get?_eq_none (d.set k v) k'
  have h2 := get?_eq_none d k'
  rw [get?_set] at h1
  by_cases h : k' = k
  · subst h; simp at h1; simp [h1]
  · simp only [if_neg h] at h1
    constructor
    · intro hm; right; by_contra hn; exact (h1.1 (h2.2 hn)) hm
    · rintro (hk | hm)
      · exact absurd hk h
      · by_contra hn; exact (h2.1 (h1.2 hn)) hm

theorem keys_set (d : Dict K V) (k : K) (v : V) (h : k ∈ d.keys) : (d.set k v).keys = d.keys := by
  induction d with
  | nil => simp [keys] at h
  | cons p t ih =>
    obtain ⟨a, b⟩ := p
    by_cases e : a = k
    · subst e; simp [set, keys]
    · have ht : k ∈ keys t := by
        rcases List.mem_cons.1 h with h | h
        · exact absurd h.symm e
        · exact h
      have := ih ht
      simp only [keys] at this
      simp [set, e, keys, this]

theorem nodup_set (d : Dict K V) (k : K) (v : V) (h : d.keys.Nodup) : (d.set k v).keys.Nodup := by
  by_cases hk : k ∈ d.keys
  · rw [keys_set d k v hk]; exact h
  · rw [set_of_not_mem d k v hk]
    unfold keys at hk h ⊢
    rw [List.map_append]
    exact List.nodup_append.2 ⟨h, by simp, by intro a ha b hb; simp at hb; subst hb; exact fun e => hk (e ▸ ha)⟩

theorem get?_of_mem_keys (d : Dict K V) {k : K} (h : k ∈ d.keys) : ∃ v, d.get? k = some v := by
  cases e : d.get? k with
  | none => exact absurd h ((get?_eq_none d k).1 e)
  | some v => exact ⟨v, rfl⟩

/-- Setting every pair of a list in turn: a key of the list gets its last value. -/
theorem get?_foldl_set {A : Type*} (f : A → K) (g : A → V) (l : List A) : ∀ (d : Dict K V) (k : K),
    (l.foldl (fun d x => d.set (f x) (g x)) d).get? k =
      match l.reverse.find? (fun x => f x = k) with
      | some x => some (g x)
      | none => d.get? k := by
  induction l with
  | nil => intro d k; simp
  | cons a t ih =>
    intro d k
    rw [List.foldl_cons, ih, List.reverse_cons, List.find?_append]
    cases h : t.reverse.find? (fun x => f x = k) with
    | some x => simp
    | none =>
      by_cases e : f a = k
      · subst e; simp [get?_set]
      · simp [get?_set, e, Ne.symm e]

/-- With distinct keys, each pair is found again. -/
theorem get?_foldl_mem {A : Type*} (f : A → K) (g : A → V) (l : List A) (hl : (l.map f).Nodup) : ∀ (d : Dict K V) (a : A), a ∈ l →
    (l.foldl (fun d x => d.set (f x) (g x)) d).get? (f a) = some (g a) := by
  intro d a ha
  rw [get?_foldl_set]
  cases h : l.reverse.find? (fun x => f x = f a) with
  | none => exact absurd (List.find?_eq_none.1 h a (by simpa using ha)) (by simp)
  | some x =>
    have h1 := List.find?_some h
    have h2 := List.mem_of_find?_eq_some h
    rw [List.mem_reverse] at h2
    simp only [decide_eq_true_eq] at h1
    have := List.inj_on_of_nodup_map hl h2 ha h1
    rw [this]

theorem get?_foldl_other {A : Type*} (f : A → K) (g : A → V) (l : List A) (d : Dict K V) (k : K) (hk : k ∉ l.map f) :
    (l.foldl (fun d x => d.set (f x) (g x)) d).get? k = d.get? k := by
  rw [get?_foldl_set]
  have : l.reverse.find? (fun x => f x = k) = none := by
    rw [List.find?_eq_none]
    intro x hx
    simp only [decide_eq_true_eq]
    intro e
    exact hk (List.mem_map.2 ⟨x, by simpa using hx, e⟩)
  rw [this]

theorem mem_keys_foldl {A : Type*} (f : A → K) (g : A → V) (l : List A) : ∀ (d : Dict K V) (k : K),
    k ∈ (l.foldl (fun d x => d.set (f x) (g x)) d).keys ↔ k ∈ d.keys ∨ k ∈ l.map f := by
  induction l with
  | nil => intro d k; simp
  | cons a t ih =>
    intro d k
    rw [List.foldl_cons, ih, mem_keys_set]
    simp only [List.map_cons, List.mem_cons]
    tauto

theorem nodup_foldl {A : Type*} (f : A → K) (g : A → V) (l : List A) : ∀ (d : Dict K V), d.keys.Nodup →
    (l.foldl (fun d x => d.set (f x) (g x)) d).keys.Nodup := by
  induction l with
  | nil => intro d h; exact h
  | cons a t ih => intro d h; exact ih _ (nodup_set _ _ _ h)

/-- New distinct keys are appended in order. -/
theorem foldl_append {A : Type*} (f : A → K) (g : A → V) (l : List A) : ∀ (d : Dict K V), (d.keys ++ l.map f).Nodup →
    l.foldl (fun d x => d.set (f x) (g x)) d = d ++ l.map (fun x => (f x, g x)) := by
  induction l with
  | nil => intro d _; simp
  | cons a t ih =>
    intro d h
    have hk : f a ∉ d.keys := by
      rw [List.nodup_append] at h
      intro hm
      exact h.2.2 _ hm _ (by simp) rfl
    rw [List.foldl_cons, set_of_not_mem _ _ _ hk, ih]
    · simp
    · simpa [keys] using h

end Dict

namespace LoadComb
variable {D : Type}

theorem pick_ok (which : MaxPit D → Option (DistObj D)) : ∀ (l : Dict String (MaxPit D)) (r : Dict String (DistObj D)),
    pick which l = .ok r → r.keys = l.keys ∧ (∀ k e, (k, e) ∈ l → ∃ d, which e = some d ∧ (k, d) ∈ r) := by
  intro l
  induction l with
  | nil => intro r h; simp only [pick] at h; injection h with h; subst h; simp [Dict.keys]
  | cons p t ih =>
    obtain ⟨k, e⟩ := p
    intro r h
    simp only [pick] at h
    split at h
    · cases h
    · next d hd =>
      split at h
      · cases h
      · next r' hr' =>
        injection h with h
        subst h
        obtain ⟨h1, h2⟩ := ih r' hr'
        refine ⟨by simp [Dict.keys] at h1 ⊢; exact h1, fun k' e' hm => ?_⟩
        rcases List.mem_cons.1 hm with hm | hm
        · cases hm; exact ⟨d, hd, List.mem_cons_self⟩
        · obtain ⟨d', h3, h4⟩ := h2 _ _ hm
          exact ⟨d', h3, List.mem_cons_of_mem _ h4⟩

theorem pick_iff (which : MaxPit D → Option (DistObj D)) (l : Dict String (MaxPit D)) :
    ((∃ r, pick which l = .ok r) ↔ ∀ p ∈ l, (which p.2).isSome) ∧ ∀ e, pick which l = .error e → e = .keyError := by
  induction l with
  | nil => simp [pick]
  | cons p t ih =>
    obtain ⟨k, e⟩ := p
    simp only [pick]
    cases h : which e with
    | none => simp [h]
    | some d =>
      cases h' : pick which t with
      | error x =>
        rw [h'] at ih
        refine ⟨?_, fun e' he => by simp at he; subst he; exact ih.2 x rfl⟩
        simp only [reduceCtorEq, exists_false, false_iff] at ih ⊢
        intro hall
        exact ih.1 fun q hq => hall q (List.mem_cons_of_mem _ hq)
      | ok r =>
        rw [h'] at ih
        refine ⟨?_, fun e' he => by simp at he⟩
        simp only [Except.ok.injEq, exists_eq', true_iff] at ih ⊢
        intro q hq
        rcases List.mem_cons.1 hq with hq | hq
        · subst hq; simp [h]
        · exact ih.1 q hq

/-- The loop over the combination variables sets each of them to its maximum or point-in-time distribution. -/
theorem combLoop_eq (loadc : List String) (distPit : Dict String (DistObj D)) : ∀ (l acc : Dict String (DistObj D)),
    (∀ k ∈ l.keys, k ∈ distPit.keys) →
    ∃ v : String × DistObj D → DistObj D,
      (∀ p ∈ l, v p = p.2 ∧ p.1 ∈ loadc ∨ distPit.get? p.1 = some (v p) ∧ p.1 ∉ loadc) ∧
      combLoop loadc distPit l acc = .ok (l.foldl (fun d p => d.set p.1 (v p)) acc) := by
  intro l acc hl
  classical
  refine ⟨fun p => if p.1 ∈ loadc then p.2 else (distPit.get? p.1).getD p.2, ?_, ?_⟩
  · intro p hp
    by_cases h : p.1 ∈ loadc
    · left; simp [h]
    · right
      obtain ⟨d, hd⟩ := Dict.get?_of_mem_keys distPit (hl p.1 (List.mem_map.2 ⟨p, hp, rfl⟩))
      simp [h, hd]
  · induction l generalizing acc with
    | nil => rfl
    | cons p t ih =>
      obtain ⟨k, d⟩ := p
      have ht : ∀ k ∈ Dict.keys t, k ∈ distPit.keys := fun k hk => hl k (List.mem_cons_of_mem _ hk)
      simp only [combLoop, List.foldl_cons]
      by_cases h : k ∈ loadc
      · simp only [if_pos h]
        exact ih _ ht
      · obtain ⟨d', hd'⟩ := Dict.get?_of_mem_keys distPit (hl k (by simp [Dict.keys]))
        simp only [if_neg h, hd', Option.getD_some]
        exact ih _ ht

/-- `addAll` succeeds exactly for objects with new distinct names. -/
theorem addAll_refines : ∀ (l : List (PyObj D ℝ)) (m : StochModel D ℝ) (objs : List (PyObj D ℝ)), StochModel.Refines m objs →
    ((∃ m', addAll m l = .ok m') ↔ (∀ o ∈ l, (Spec.objName o).isSome) ∧ (m.names ++ l.filterMap Spec.objName).Nodup) ∧
    (∀ m', addAll m l = .ok m' → StochModel.Refines m' (objs ++ l) ∧ m'.callFunction = m.callFunction ∧
      m' = m.run (l.map StochModel.Op.add) ∧
      (Spec.dists l = [] → m'.correlation = m.correlation) ∧
      (Spec.dists l ≠ [] → m'.correlation = some (NDArray2.eye m'.marg.length))) ∧
    ∀ e, addAll m l = .error e → e = .exception := by
  intro l
  induction l with
  | nil =>
    intro m objs hr
    refine ⟨by simp [addAll, hr.nodup], fun m' h => ?_, by simp [addAll]⟩
    simp only [addAll, Except.ok.injEq] at h
    subst h
    simpa [Spec.dists, StochModel.run] using hr
  | cons o t ih =>
    intro m objs hr
    simp only [addAll]
    by_cases hn : ∃ n, Spec.objName o = some n ∧ n ∉ m.names
    · obtain ⟨n, hn, hf⟩ := hn
      have hr' := StochModel.refines_add hr o n hn hf
      have hadd : m.addVariable o = ((m.addVariable o).1, .ok ()) := by
        cases o with
        | other => simp [Spec.objName] at hn
        | distribution d =>
          simp only [Spec.objName, Option.some.injEq] at hn; subst hn
          simp [StochModel.addVariable, hf]
        | constant c v =>
          simp only [Spec.objName, Option.some.injEq] at hn; subst hn
          simp [StochModel.addVariable, hf]
      rw [hadd]
      obtain ⟨h1, h2, h3⟩ := ih _ _ hr'
      refine ⟨?_, ?_, h3⟩
      · rw [h1, hr'.names]
        rw [List.filterMap_append, ← hr.names]
        simp [hn]
      · intro m' hm'
        obtain ⟨a, b, c, d, d2⟩ := h2 m' hm'
        refine ⟨by simpa using a, by rw [b, StochModel.callFunction_addVariable], ?_, ?_⟩
        · rw [List.map_cons]
          simp only [StochModel.run, StochModel.step]
          exact c
        · cases o with
          | other => simp [Spec.objName] at hn
          | distribution d' =>
            simp only [Spec.objName, Option.some.injEq] at hn; subst hn
            refine ⟨fun h => by simp [Spec.dists] at h, fun _ => ?_⟩
            by_cases hd : Spec.dists t = []
            · have e : m'.marg = Spec.dists (objs ++ [.distribution d'] ++ t) := a.marg
              rw [d hd, e, StochModel.dists_append, hd, List.append_nil, ← hr'.marg]
              simp [StochModel.addVariable, hf]
            · exact d2 hd
          | constant c' v =>
            simp only [Spec.objName, Option.some.injEq] at hn; subst hn
            simp only [Spec.dists]
            refine ⟨fun h => ?_, d2⟩
            rw [d h]
            simp [StochModel.addVariable, hf]
    · have hrej := StochModel.add_rejected m o (fun n h => by
        by_contra h'
        exact hn ⟨n, h, h'⟩)
      rw [hrej]
      refine ⟨?_, by simp, by simp⟩
      simp only [reduceCtorEq, exists_false, false_iff, not_and]
      intro hs hnd
      apply hn
      obtain ⟨n, hn'⟩ := Option.isSome_iff_exists.1 (hs o (by simp))
      refine ⟨n, hn', fun hm => ?_⟩
      rw [List.filterMap_cons, hn', List.nodup_append] at hnd
      exact hnd.2.2 n hm n (by simp) rfl

end LoadComb
end Pystra
