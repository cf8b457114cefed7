import Verif.Spec.Aliasing
import Verif.Lemmas.ModelMap

/-! C95: which objects share data. -/

namespace Pystra.Props
open Spec Aliasing

variable {D V : Type}

/-- No two owners of an array. -/
structure Apart (w : World D V) (s : ValueWorld D V) : Prop where
  len : w.handles.length = s.arrays.length
  nodup : w.handles.Nodup
  hlt : ∀ a ∈ w.handles, a < w.next
  cms : List.Forall₂ (fun (a u : ℕ) => w.handles[u]? = some a) w.cms s.cms
  arrays : ∀ (u : ℕ) (a : ℕ), w.handles[u]? = some a → s.arrays[u]? = some (w.arrays a)
  dists : w.dists = s.dists
  models : ∀ k, shown w k = s.models k
  corr : ∀ k a, (w.models k).correlation = some a → a < w.next ∧ a ∉ w.handles
  ro : ∀ k a, (w.models k).Ro = some a → a < w.next ∧ a ∉ w.handles
  sep : ∀ k k' a, (w.models k).correlation = some a → (w.models k').correlation = some a → k = k'
  sepRo : ∀ k k' a, (w.models k).correlation = some a → (w.models k').Ro ≠ some a

theorem cms_get {w : World D V} {s : ValueWorld D V} (h : Apart w s) (c : ℕ) :
    (w.cms[c]? = none ∧ s.cms[c]? = none) ∨ ∃ a u, w.cms[c]? = some a ∧ s.cms[c]? = some u ∧ w.handles[u]? = some a := by
  have hl := h.cms.length_eq
  by_cases hc : c < w.cms.length
  · right
    refine ⟨w.cms[c], s.cms[c]'(by omega), List.getElem?_eq_getElem hc, List.getElem?_eq_getElem _, ?_⟩
    exact (List.forall₂_iff_get.1 h.cms).2 c hc (by omega)
  · left
    exact ⟨List.getElem?_eq_none (by omega), List.getElem?_eq_none (by omega)⟩

theorem Apart.shows {w : World D V} {s : ValueWorld D V} (h : Apart w s) : Shows w s := by
  have ha : ∀ u, userArray w u = s.arrays[u]? := by
    intro u
    unfold userArray
    rcases hu : w.handles[u]? with _ | a
    · have : s.arrays.length ≤ u := by rw [← h.len]; exact List.getElem?_eq_none_iff.1 hu
      rw [List.getElem?_eq_none this]; rfl
    · rw [h.arrays u a hu]; rfl
  refine ⟨ha, fun c => ?_, h.dists, h.models⟩
  unfold matrixOf
  rcases cms_get h c with ⟨e1, e2⟩ | ⟨a, u, e1, e2, e3⟩
  · rw [e1, e2]; rfl
  · rw [e1, e2]
    simp only [Option.map_some, Option.bind_some, h.arrays u a e3]

/-- A model is seen unchanged if its own arrays are. -/
theorem shown_eq {w w' : World D V} {k k' : ℕ} (hm : w'.models k' = w.models k)
    (hc : ∀ a, (w.models k).correlation = some a → w'.arrays a = w.arrays a) (hr : ∀ a, (w.models k).Ro = some a → w'.arrays a = w.arrays a) :
    shown w' k' = shown w k := by
  unfold shown
  rw [hm]
  have e1 : Option.map w'.arrays (w.models k).correlation = Option.map w.arrays (w.models k).correlation := by
    rcases hx : (w.models k).correlation with _ | a
    · rfl
    · simp [hc a hx]
  have e2 : Option.map w'.arrays (w.models k).Ro = Option.map w.arrays (w.models k).Ro := by
    rcases hx : (w.models k).Ro with _ | a
    · rfl
    · simp [hr a hx]
  simp only [e1, e2]

/-- A new array changes nothing else. -/
theorem Apart.alloc {w : World D V} {s : ValueWorld D V} (h : Apart w s) (A : NDArray2) : Apart (w.alloc A) s := by
  have hne : ∀ a, a < w.next → (w.alloc A).arrays a = w.arrays a := fun a ha => Function.update_of_ne ha.ne _ _
  refine ⟨h.len, h.nodup, fun a ha => (h.hlt a ha).trans (Nat.lt_succ_self _), h.cms, fun u a hu => ?_, h.dists, fun k => ?_,
    fun k a hk => ⟨(h.corr k a hk).1.trans (Nat.lt_succ_self _), (h.corr k a hk).2⟩,
    fun k a hk => ⟨(h.ro k a hk).1.trans (Nat.lt_succ_self _), (h.ro k a hk).2⟩, h.sep, h.sepRo⟩
  · have : a < w.next := h.hlt a (List.mem_of_getElem? hu)
    rw [hne a this]
    exact h.arrays u a hu
  · rw [← h.models k]
    exact shown_eq rfl (fun a ha => hne a (h.corr k a ha).1) (fun a ha => hne a (h.ro k a ha).1)

/-- Writing the user's array number `u`. -/
theorem Apart.writeUser {w : World D V} {s : ValueWorld D V} (h : Apart w s) {u a : ℕ} (hu : w.handles[u]? = some a) (i j : ℕ) (v : ℝ) :
    Apart (w.writeAt a i j v).1 (s.writeUser u i j v).1 ∧ (w.writeAt a i j v).2 = (s.writeUser u i j v).2 := by
  have hmem : a ∈ w.handles := List.mem_of_getElem? hu
  unfold World.writeAt ValueWorld.writeUser
  rw [h.arrays u a hu]
  dsimp only
  rcases hw : Aliasing.write (w.arrays a) i j v with e | A
  · exact ⟨h, rfl⟩
  · refine ⟨⟨by simp [h.len], h.nodup, h.hlt, h.cms, fun u' a' hu' => ?_, h.dists, fun k => ?_, h.corr, h.ro, h.sep, h.sepRo⟩, rfl⟩
    · have hlt : u < s.arrays.length := by rw [← h.len]; exact (List.getElem?_eq_some_iff.1 hu).1
      by_cases e : u' = u
      · subst e
        rw [hu] at hu'
        injection hu' with hu'
        subst hu'
        simp [hlt]
      · have hne : a' ≠ a := by
          rintro rfl
          obtain ⟨l1, e1⟩ := List.getElem?_eq_some_iff.1 hu
          obtain ⟨l2, e2⟩ := List.getElem?_eq_some_iff.1 hu'
          exact e ((List.Nodup.getElem_inj_iff h.nodup).1 (e2.trans e1.symm))
        simp only [Function.update_of_ne hne]
        rw [List.getElem?_set_ne (Ne.symm e)]
        exact h.arrays u' a' hu'
    · rw [← h.models k]
      refine shown_eq rfl (fun b hb => ?_) (fun b hb => ?_)
      · exact Function.update_of_ne (fun e => (h.corr k b hb).2 (by rw [e]; exact hmem)) _ _
      · exact Function.update_of_ne (fun e => (h.ro k b hb).2 (by rw [e]; exact hmem)) _ _

/-- A call on one model that gives it a new array or leaves its arrays alone. -/
theorem Apart.setModel {w : World D V} {s : ValueWorld D V} (h : Apart w s) (k : ℕ) (m : RefModel V) (m' : StochModel ℕ V)
    (hm : shown (w.setModel k m) k = m')
    (hc : ∀ a, m.correlation = some a → (w.models k).correlation = some a ∨
      (a < w.next ∧ a ∉ w.handles ∧ ∀ k', (w.models k').correlation ≠ some a ∧ (w.models k').Ro ≠ some a))
    (hr : ∀ a, m.Ro = some a → (w.models k).Ro = some a ∨
      (a < w.next ∧ a ∉ w.handles ∧ (∀ k', (w.models k').correlation ≠ some a) ∧ m.correlation ≠ some a)) :
    Apart (w.setModel k m) { s with models := Function.update s.models k m' } := by
  have hself : (w.setModel k m).models k = m := Function.update_self ..
  have hother : ∀ k', k' ≠ k → (w.setModel k m).models k' = w.models k' := fun k' hk => Function.update_of_ne hk _ _
  refine ⟨h.len, h.nodup, h.hlt, h.cms, h.arrays, h.dists, fun k' => ?_, fun k' a ha => ?_, fun k' a ha => ?_, fun k1 k2 a h1 h2 => ?_,
    fun k1 k2 a h1 h2 => ?_⟩
  · by_cases hk : k' = k
    · subst hk; rw [hm]; simp
    · simp only [Function.update_of_ne hk]
      rw [← h.models k']
      exact shown_eq (hother k' hk) (fun _ _ => rfl) (fun _ _ => rfl)
  · by_cases hk : k' = k
    · subst hk
      rw [hself] at ha
      rcases hc a ha with h1 | ⟨h1, h2, -⟩
      · exact h.corr _ a h1
      · exact ⟨h1, h2⟩
    · rw [hother k' hk] at ha; exact h.corr k' a ha
  · by_cases hk : k' = k
    · subst hk
      rw [hself] at ha
      rcases hr a ha with h1 | ⟨h1, h2, -⟩
      · exact h.ro _ a h1
      · exact ⟨h1, h2⟩
    · rw [hother k' hk] at ha; exact h.ro k' a ha
  · by_cases e1 : k1 = k
    · by_cases e2 : k2 = k
      · rw [e1, e2]
      · subst e1
        rw [hself] at h1
        rw [hother k2 e2] at h2
        rcases hc a h1 with h3 | ⟨-, -, h3⟩
        · exact h.sep _ _ a h3 h2
        · exact absurd h2 (h3 k2).1
    · by_cases e2 : k2 = k
      · subst e2
        rw [hself] at h2
        rw [hother k1 e1] at h1
        rcases hc a h2 with h3 | ⟨-, -, h3⟩
        · exact h.sep _ _ a h1 h3
        · exact absurd h1 (h3 k1).1
      · rw [hother k1 e1] at h1
        rw [hother k2 e2] at h2
        exact h.sep _ _ a h1 h2
  · by_cases e1 : k1 = k
    · by_cases e2 : k2 = k
      · subst e1; subst e2
        rw [hself] at h1 h2
        rcases hc a h1 with h3 | ⟨-, -, h3⟩
        · rcases hr a h2 with h4 | ⟨-, -, -, h4⟩
          · exact h.sepRo _ _ a h3 h4
          · exact h4 h1
        · rcases hr a h2 with h4 | ⟨-, -, -, h4⟩
          · exact (h3 _).2 h4
          · exact h4 h1
      · subst e1
        rw [hself] at h1
        rw [hother k2 e2] at h2
        rcases hc a h1 with h3 | ⟨-, -, h3⟩
        · exact h.sepRo _ _ a h3 h2
        · exact (h3 k2).2 h2
    · rw [hother k1 e1] at h1
      by_cases e2 : k2 = k
      · subst e2
        rw [hself] at h2
        rcases hr a h2 with h4 | ⟨-, -, h4, -⟩
        · exact h.sepRo _ _ a h1 h4
        · exact h4 k1 h1
      · rw [hother k2 e2] at h2
        exact h.sepRo _ _ a h1 h2

/-- The address just handed out belongs to nobody. -/
theorem Apart.fresh {w : World D V} {s : ValueWorld D V} (h : Apart w s) (A : NDArray2) :
    w.next < (w.alloc A).next ∧ w.next ∉ (w.alloc A).handles ∧
    ∀ k', ((w.alloc A).models k').correlation ≠ some w.next ∧ ((w.alloc A).models k').Ro ≠ some w.next :=
  ⟨Nat.lt_succ_self _, fun hm => absurd (h.hlt _ hm) (lt_irrefl _), fun k' =>
    ⟨fun e => absurd (h.corr k' _ e).1 (lt_irrefl _), fun e => absurd (h.ro k' _ e).1 (lt_irrefl _)⟩⟩

/-- One action. -/
theorem Apart.step {w : World D V} {s : ValueWorld D V} (h : Apart w s) {a : Act D V} (ha : NoAssign a) :
    Apart (Aliasing.step w a).1 (s.step a).1 ∧ (Aliasing.step w a).2 = (s.step a).2 := by
  cases a with
  | newArray A =>
    refine ⟨?_, rfl⟩
    have h1 := h.alloc A
    have hnew : ∀ x ∈ w.handles, x ≠ w.next := fun x hx => (h.hlt x hx).ne
    refine ⟨by simp [Aliasing.step, ValueWorld.step, World.alloc, h.len], ?_, ?_, ?_, fun u a hu => ?_, h.dists, fun k => ?_, fun k a hk => ?_,
      fun k a hk => ?_, h.sep, h.sepRo⟩
    · refine List.nodup_append.2 ⟨h.nodup, by simp, fun x hx y hy => ?_⟩
      simp only [List.mem_singleton] at hy
      subst hy
      exact hnew x hx
    · intro a ha
      rcases List.mem_append.1 ha with ha | ha
      · exact (h.hlt a ha).trans (Nat.lt_succ_self _)
      · simp only [List.mem_singleton] at ha
        subst ha
        exact Nat.lt_succ_self _
    · refine h.cms.imp fun a u hu => ?_
      exact (List.getElem?_append_left (List.getElem?_eq_some_iff.1 hu).1).trans hu
    · have hu : (w.handles ++ [w.next])[u]? = some a := hu
      show (s.arrays ++ [A])[u]? = some (Function.update w.arrays w.next A a)
      rcases lt_trichotomy u w.handles.length with hl | hl | hl
      · rw [List.getElem?_append_left hl] at hu
        rw [List.getElem?_append_left (by rw [← h.len]; exact hl), Function.update_of_ne (hnew a (List.mem_of_getElem? hu))]
        exact h.arrays u a hu
      · subst hl
        rw [List.getElem?_append_right le_rfl, Nat.sub_self] at hu
        rw [h.len, List.getElem?_append_right le_rfl, Nat.sub_self]
        simp only [List.getElem?_cons_zero, Option.some.injEq] at hu ⊢
        rw [← hu, Function.update_self]
      · rw [List.getElem?_eq_none (by simp; omega)] at hu
        cases hu
    · exact h1.models k
    · refine ⟨(h.corr k a hk).1.trans (Nat.lt_succ_self _), fun hm => ?_⟩
      rcases List.mem_append.1 hm with hm | hm
      · exact (h.corr k a hk).2 hm
      · simp only [List.mem_singleton] at hm
        exact absurd (h.corr k a hk).1 (by rw [hm]; exact lt_irrefl _)
    · refine ⟨(h.ro k a hk).1.trans (Nat.lt_succ_self _), fun hm => ?_⟩
      rcases List.mem_append.1 hm with hm | hm
      · exact (h.ro k a hk).2 hm
      · simp only [List.mem_singleton] at hm
        exact absurd (h.ro k a hk).1 (by rw [hm]; exact lt_irrefl _)
  | write u i j v =>
    simp only [Aliasing.step, ValueWorld.step]
    rcases hu : w.handles[u]? with _ | a
    · have : s.arrays.length ≤ u := by rw [← h.len]; exact List.getElem?_eq_none_iff.1 hu
      unfold ValueWorld.writeUser
      rw [List.getElem?_eq_none this]
      exact ⟨h, rfl⟩
    · exact h.writeUser hu i j v
  | newMatrix u =>
    simp only [Aliasing.step, ValueWorld.step]
    rcases hu : w.handles[u]? with _ | a
    · have : s.arrays.length ≤ u := by rw [← h.len]; exact List.getElem?_eq_none_iff.1 hu
      rw [if_neg (by omega)]
      exact ⟨h, rfl⟩
    · have hlt : u < s.arrays.length := by rw [← h.len]; exact (List.getElem?_eq_some_iff.1 hu).1
      rw [if_pos hlt]
      exact ⟨⟨h.len, h.nodup, h.hlt, List.rel_append h.cms (.cons hu .nil), h.arrays, h.dists, h.models, h.corr, h.ro, h.sep, h.sepRo⟩, rfl⟩
  | writeMatrix c i j v =>
    simp only [Aliasing.step, ValueWorld.step]
    rcases cms_get h c with ⟨e1, e2⟩ | ⟨a, u, e1, e2, e3⟩
    · rw [e1, e2]; exact ⟨h, rfl⟩
    · rw [e1, e2]; exact h.writeUser e3 i j v
  | change d body =>
    refine ⟨⟨h.len, h.nodup, h.hlt, h.cms, h.arrays, ?_, h.models, h.corr, h.ro, h.sep, h.sepRo⟩, rfl⟩
    simp only [Aliasing.step, ValueWorld.step, h.dists]
  | add k o =>
    have hn : (s.models k).names = (w.models k).names := by rw [← h.models k]; rfl
    simp only [Aliasing.step, ValueWorld.step]
    cases o with
    | other =>
      refine ⟨?_, rfl⟩
      simp only [Aliasing.addVariable, ValueWorld.arg, StochModel.addVariable, Function.update_eq_self]
      exact h
    | distribution d =>
      simp only [Aliasing.addVariable, ValueWorld.arg, StochModel.addVariable]
      have hd0 : (s.dists d).name = (w.dists d).name := by rw [h.dists]
      rw [hn, hd0]
      by_cases hd : (w.dists d).name ∈ (w.models k).names
      · rw [if_pos hd, if_pos hd]
        refine ⟨?_, rfl⟩
        simp only [Function.update_eq_self]
        exact h
      · rw [if_neg hd, if_neg hd]
        refine ⟨?_, rfl⟩
        have hf := h.fresh (NDArray2.eye ((w.models k).marg.length + 1))
        dsimp only
        refine (h.alloc _).setModel k _ _ ?_ (fun a ha => ?_) (fun a ha => .inl ha)
        · rw [← h.models k]
          have e2 := (h.alloc (NDArray2.eye ((w.models k).marg.length + 1))).models k
          rw [← h.models k] at e2
          have e3 : Option.map (w.alloc (NDArray2.eye ((w.models k).marg.length + 1))).arrays (w.models k).Ro =
            Option.map w.arrays (w.models k).Ro := congrArg StochModel.Ro e2
          simp only [shown, World.setModel, Function.update_self, Option.map_some, List.length_append, List.length_cons, List.length_nil,
            zero_add]
          rw [e3]
          simp only [World.alloc, Function.update_self]
        · injection ha with ha
          subst ha
          exact .inr hf
    | constant n v =>
      simp only [Aliasing.addVariable, ValueWorld.arg, StochModel.addVariable]
      rw [hn]
      by_cases hd : n ∈ (w.models k).names
      · rw [if_pos hd, if_pos hd]
        refine ⟨?_, rfl⟩
        simp only [Function.update_eq_self]
        exact h
      · rw [if_neg hd, if_neg hd]
        refine ⟨?_, rfl⟩
        refine h.setModel k _ _ ?_ (fun a ha => .inl ha) (fun a ha => .inl ha)
        rw [← h.models k]
        simp only [shown, World.setModel, Function.update_self]
  | setCorrelation k c =>
    simp only [Aliasing.step, ValueWorld.step]
    rcases cms_get h c with ⟨e1, e2⟩ | ⟨a, u, e1, e2, e3⟩
    · rw [e1, e2]; exact ⟨h, rfl⟩
    · rw [e1, e2]
      simp only [Option.bind_some, h.arrays u a e3]
      refine ⟨?_, trivial⟩
      have hf := h.fresh (w.arrays a)
      refine (h.alloc _).setModel k _ _ ?_ (fun a ha => ?_) (fun a ha => .inl ha)
      · rw [← h.models k]
        have e2 := (h.alloc (w.arrays a)).models k
        rw [← h.models k] at e2
        have e3 : Option.map (w.alloc (w.arrays a)).arrays (w.models k).Ro = Option.map w.arrays (w.models k).Ro := congrArg StochModel.Ro e2
        simp only [shown, World.setModel, Function.update_self, Option.map_some, StochModel.setCorrelation]
        rw [e3]
        simp only [World.alloc, Function.update_self]
      · injection ha with ha
        subst ha
        exact .inr hf
  | assign k u => exact ha.elim
  | writeThrough k i j v =>
    simp only [Aliasing.step, ValueWorld.step]
    have hk : (s.models k).correlation = (w.models k).correlation.map w.arrays := by rw [← h.models k]; rfl
    rw [hk]
    rcases hc : (w.models k).correlation with _ | a
    · exact ⟨h, rfl⟩
    · simp only [Option.map_some, World.writeAt]
      rcases hw : Aliasing.write (w.arrays a) i j v with e | A
      · exact ⟨h, rfl⟩
      · refine ⟨⟨h.len, h.nodup, h.hlt, h.cms, fun u b hu => ?_, h.dists, fun k' => ?_, h.corr, h.ro, h.sep, h.sepRo⟩, rfl⟩
        · have : b ≠ a := fun e => (h.corr k a hc).2 (by rw [← e]; exact List.mem_of_getElem? hu)
          simp only [Function.update_of_ne this]
          exact h.arrays u b hu
        · by_cases e : k' = k
          · subst e
            simp only [Function.update_self]
            rw [← h.models]
            have hr : Option.map (Function.update w.arrays a A) (w.models k').Ro = Option.map w.arrays (w.models k').Ro := by
              rcases hx : (w.models k').Ro with _ | b
              · rfl
              · have : b ≠ a := fun e => h.sepRo k' k' a hc (by rw [← e]; exact hx)
                simp [this]
            simp only [shown, StochModel.setCorrelation, hc, Option.map_some, Function.update_self, hr]
          · simp only [Function.update_of_ne e]
            rw [← h.models k']
            refine shown_eq rfl (fun b hb => ?_) (fun b hb => ?_)
            · exact Function.update_of_ne (fun e' => e (h.sep k' k a (by rw [← e']; exact hb) hc)) _ _
            · exact Function.update_of_ne (fun e' => h.sepRo k k' a hc (by rw [← e']; exact hb)) _ _
  | setRo k A =>
    refine ⟨?_, rfl⟩
    have hf := h.fresh A
    refine (h.alloc A).setModel k _ _ ?_ (fun a ha => .inl ha) (fun a ha => ?_)
    · rw [← h.models k]
      have e2 := (h.alloc A).models k
      rw [← h.models k] at e2
      have e3 : Option.map (w.alloc A).arrays (w.models k).correlation = Option.map w.arrays (w.models k).correlation :=
        congrArg StochModel.correlation e2
      simp only [shown, World.setModel, Function.update_self, Option.map_some, StochModel.setModifiedCorrelation]
      rw [e3]
      simp only [World.alloc, Function.update_self]
    · injection ha with ha
      subst ha
      exact .inr ⟨hf.1, hf.2.1, fun k' => (hf.2.2 k').1, (hf.2.2 k).1⟩
  | calls k n =>
    refine ⟨?_, rfl⟩
    refine h.setModel k _ _ ?_ (fun a ha => .inl ha) (fun a ha => .inl ha)
    rw [← h.models k]
    simp only [shown, World.setModel, Function.update_self, StochModel.addCallFunction]

theorem apart_start (dists : ℕ → DistObj D) : Apart (World.start dists : World D V) (ValueWorld.start dists) :=
  ⟨rfl, List.nodup_nil, by simp [World.start], .nil, by simp [World.start], rfl, fun _ => rfl,
    fun _ _ h => by simp [World.start, RefModel.init] at h, fun _ _ h => by simp [World.start, RefModel.init] at h,
    fun _ _ _ h => by simp [World.start, RefModel.init] at h, fun _ _ _ h => by simp [World.start, RefModel.init] at h⟩

theorem apart_run (l : List (Act D V)) : ∀ {w : World D V} {s : ValueWorld D V}, Apart w s → (∀ a ∈ l, NoAssign a) →
    Apart (Aliasing.run w l) (s.run l) := by
  induction l with
  | nil => intro w s h _; exact h
  | cons a l ih =>
    intro w s h hl
    exact ih (h.step (hl a (by simp))).1 (fun b hb => hl b (by simp [hb]))

/-- **C95: values.**  As long as no array is assigned to the property `model.correlation`, a program sees what it would see if every array
were a value of its own: after every history the user's arrays, the `CorrelationMatrix` objects, the distribution objects and the models show
the same, and every further action has the same outcome.  In particular `setCorrelation` copies. -/
theorem C95_values (dists : ℕ → DistObj D) (l : List (Act D V)) (hl : ∀ a ∈ l, NoAssign a) :
    Shows (Aliasing.run (World.start dists) l) ((ValueWorld.start dists).run l) ∧
    ∀ a, NoAssign a → (Aliasing.step (Aliasing.run (World.start dists) l) a).2 = (((ValueWorld.start dists : ValueWorld D V).run l).step a).2 := by
  have h := apart_run l (apart_start dists) hl
  exact ⟨h.shows, fun a ha => (h.step ha).2⟩

/-- **C95: what an action leaves alone.**  After every such history: an action on one model changes neither the other models nor the user's
arrays and matrices; actions on arrays, matrices and distribution objects change no model; `setCorrelation` stores what the matrix holds. -/
theorem C95_separate (dists : ℕ → DistObj D) (l : List (Act D V)) (hl : ∀ a ∈ l, NoAssign a) :
    let w := Aliasing.run (World.start dists) l
    (∀ a k, NoAssign a → onModel a ≠ some k → shown (Aliasing.step w a).1 k = shown w k) ∧
    (∀ a, NoAssign a → onModel a ≠ none → (∀ u, userArray (Aliasing.step w a).1 u = userArray w u) ∧
      ∀ c, matrixOf (Aliasing.step w a).1 c = matrixOf w c) ∧
    ∀ k c A, matrixOf w c = some A → (shown (Aliasing.step w (.setCorrelation k c)).1 k).correlation = some A := by
  intro w
  have h : Apart w ((ValueWorld.start dists).run l) := apart_run l (apart_start dists) hl
  generalize (ValueWorld.start dists : ValueWorld D V).run l = s at h
  refine ⟨fun a k ha hk => ?_, fun a ha hk => ⟨fun u => ?_, fun c => ?_⟩, fun k c A hA => ?_⟩
  · have h1 := (h.step ha).1
    rw [h1.models k, h.models k]
    cases a <;> simp only [onModel, ne_eq, Option.some.injEq, reduceCtorEq, not_false_eq_true] at hk <;>
      simp only [ValueWorld.step, ValueWorld.writeUser] <;> (repeat' split) <;> first | rfl | exact Function.update_of_ne (Ne.symm hk) _ _
  · have h1 := (h.step ha).1
    rw [h1.shows.arrays u, h.shows.arrays u]
    cases a <;> simp only [onModel, ne_eq, not_true_eq_false] at hk <;> simp only [ValueWorld.step] <;> (repeat' split) <;> rfl
  · have h1 := (h.step ha).1
    rw [h1.shows.matrices c, h.shows.matrices c]
    cases a <;> simp only [onModel, ne_eq, not_true_eq_false] at hk <;> simp only [ValueWorld.step] <;> (repeat' split) <;> rfl
  · have h1 := (h.step (a := .setCorrelation k c) trivial).1
    rw [h1.models k]
    rw [h.shows.matrices c] at hA
    simp only [ValueWorld.step, hA, Function.update_self, StochModel.setCorrelation]

theorem values_run (l : List (Act D V)) (k : ℕ) : ∀ (s : ValueWorld D V) (h : List (StochModel.Op ℕ V)), s.models k = StochModel.init.run h →
    ∃ h', (s.run l).models k = StochModel.init.run h' := by
  induction l with
  | nil => intro s h e; exact ⟨h, e⟩
  | cons a l ih =>
    intro s h e
    have key : ∃ h', (s.step a).1.models k = StochModel.init.run h' := by
      have hop : ∀ (k' : ℕ) (op : StochModel.Op ℕ V),
          ∃ h', Function.update s.models k' ((s.models k').step op).1 k = StochModel.init.run h' := by
        intro k' op
        by_cases hk : k = k'
        · subst hk
          refine ⟨h ++ [op], ?_⟩
          rw [Function.update_self, StochModel.run_append, ← e]
          rfl
        · exact ⟨h, by rw [Function.update_of_ne hk]; exact e⟩
      cases a with
      | newArray A => exact ⟨h, e⟩
      | write u i j v => refine ⟨h, ?_⟩; rw [← e]; simp only [ValueWorld.step, ValueWorld.writeUser]; (repeat' split) <;> rfl
      | newMatrix u => refine ⟨h, ?_⟩; rw [← e]; simp only [ValueWorld.step]; split <;> rfl
      | writeMatrix c i j v => refine ⟨h, ?_⟩; rw [← e]; simp only [ValueWorld.step, ValueWorld.writeUser]; (repeat' split) <;> rfl
      | change d body => exact ⟨h, e⟩
      | add k' o => exact hop k' (.add (s.arg o))
      | setCorrelation k' c =>
        simp only [ValueWorld.step]
        split
        · exact ⟨h, e⟩
        · next A _ => exact hop k' (.setCorr A)
      | assign k' u =>
        simp only [ValueWorld.step]
        split
        · exact ⟨h, e⟩
        · next A _ => exact hop k' (.setCorr A)
      | writeThrough k' i j v =>
        simp only [ValueWorld.step]
        split
        · exact ⟨h, e⟩
        · split
          · exact ⟨h, e⟩
          · next A _ => exact hop k' (.setCorr A)
      | setRo k' A => exact hop k' (.setRo A)
      | calls k' n => exact hop k' (.calls n)
    obtain ⟨h', e'⟩ := key
    exact ih _ h' e'

/-- **C95: the models of the analyses.**  The model an analysis works on (with the current contents of the distribution objects) can always
be built by calls of the methods of one `StochasticModel`, so that everything proved about such models applies. -/
theorem C95_reachable (dists : ℕ → DistObj D) (l : List (Act D ℝ)) (hl : ∀ a ∈ l, NoAssign a) (k : ℕ) :
    let w := Aliasing.run (World.start dists) l
    Reachable (modelMap (fun _ d => (w.dists d).body) (shown w k)) := by
  intro w
  have h : Apart w ((ValueWorld.start dists).run l) := apart_run l (apart_start dists) hl
  obtain ⟨h', e⟩ := values_run l k (ValueWorld.start dists : ValueWorld D ℝ) [] rfl
  rw [h.models k, e]
  exact reachable_map _ ⟨h', rfl⟩

/-- **C95: variables are shared.**  The setters of a distribution object change it in every model it was added to, and nothing else, whatever
the history. -/
theorem C95_shared (w : World D V) (d : ℕ) (body : D) (k : ℕ) :
    shown (Aliasing.step w (.change d body)).1 k = shown w k ∧
    ∀ o ∈ (shown w k).marg, (o.body = d → contents (Aliasing.step w (.change d body)).1 o = ⟨(w.dists d).name, body⟩) ∧
      (o.body ≠ d → contents (Aliasing.step w (.change d body)).1 o = contents w o) := by
  refine ⟨rfl, fun o _ => ⟨fun e => ?_, fun e => ?_⟩⟩
  · simp only [contents, Aliasing.step, e, Function.update_self]
  · simp only [contents, Aliasing.step, Function.update_of_ne e]

/-- **C95 (finding): the property does not copy.**  Whatever the history: after `model.correlation = A` for two models, an element written
through one of them changes the other one and the user's array; and an element of `A` written later by the user changes both models. -/
theorem C95_assign (w : World D V) {u : ℕ} {A B : NDArray2} (hu : userArray w u = some A) {k k' : ℕ} (i j : ℕ) (v : ℝ)
    (hB : Aliasing.write A i j v = .ok B) :
    let w1 := Aliasing.run w [.assign k u, .assign k' u]
    (shown w1 k).correlation = some A ∧ (shown w1 k').correlation = some A ∧
    ∀ a, (a = .writeThrough k i j v ∨ a = .write u i j v) →
      (shown (Aliasing.step w1 a).1 k).correlation = some B ∧ (shown (Aliasing.step w1 a).1 k').correlation = some B ∧
      userArray (Aliasing.step w1 a).1 u = some B := by
  intro w1
  unfold userArray at hu
  rcases ha : w.handles[u]? with _ | a
  · rw [ha] at hu; cases hu
  · rw [ha] at hu
    injection hu with hu
    have e1 : w1.arrays = w.arrays := by simp only [w1, Aliasing.run, Aliasing.step, ha, World.setModel]
    have e2 : w1.handles = w.handles := by simp only [w1, Aliasing.run, Aliasing.step, ha, World.setModel]
    have e3 : (w1.models k').correlation = some a := by
      simp only [w1, Aliasing.run, Aliasing.step, ha, World.setModel, Function.update_self]
    have e4 : (w1.models k).correlation = some a := by
      by_cases h : k = k'
      · rw [h]; exact e3
      · simp only [w1, Aliasing.run, Aliasing.step, ha, World.setModel, Function.update_of_ne h, Function.update_self]
    clear_value w1
    refine ⟨by simp [shown, e4, e1, hu], by simp [shown, e3, e1, hu], fun act hact => ?_⟩
    have key : (Aliasing.step w1 act).1 = { w1 with arrays := Function.update w1.arrays a B } := by
      rcases hact with rfl | rfl
      · simp only [Aliasing.step, e4, World.writeAt, e1, hu, hB]
      · simp only [Aliasing.step, e2, ha, World.writeAt, e1, hu, hB]
    rw [key]
    simp [shown, userArray, e3, e4, e2, ha]

/-- The hypotheses are met: a matrix is given to a model by `setCorrelation` and changed afterwards; the model keeps what it got, the user's
array is the one that changes. -/
example (d : DistObj D) (e : DistObj D) (hde : e.name ≠ d.name) :
    let l : List (Act D ℝ) := [.add 0 (.distribution 0), .add 0 (.distribution 1), .newArray (NDArray2.eye 2), .newMatrix 0, .setCorrelation 0 0,
      .writeMatrix 0 0 1 0.5, .writeMatrix 0 1 0 0.5]
    let w := Aliasing.run (World.start fun k => if k = 0 then d else e) l
    (∀ a ∈ l, NoAssign a) ∧ (shown w 0).names = [d.name, e.name] ∧ (shown w 0).correlation = some (NDArray2.eye 2) ∧
    ∃ A, userArray w 0 = some ⟨2, 2, A⟩ ∧ A 0 1 = 0.5 ∧ A 1 0 = 0.5 ∧ A 0 0 = 1 := by
  intro l w
  have hl : ∀ a ∈ l, NoAssign a := by simp [l, NoAssign]
  have hS := (C95_values (fun k => if k = 0 then d else e) l hl).1
  have hw0 : Aliasing.write (NDArray2.eye 2) 0 1 0.5 = .ok ⟨2, 2, fun a b => if a = 0 ∧ b = 1 then 0.5 else (1 : Matrix (Fin 2) (Fin 2) ℝ) a b⟩ := by
    unfold Aliasing.write
    exact dif_pos ⟨by decide, by decide⟩
  have hw1 : Aliasing.write ⟨2, 2, fun a b => if a = 0 ∧ b = 1 then 0.5 else (1 : Matrix (Fin 2) (Fin 2) ℝ) a b⟩ 1 0 0.5 =
      .ok ⟨2, 2, fun a b => if a = 1 ∧ b = 0 then 0.5 else if a = 0 ∧ b = 1 then 0.5 else (1 : Matrix (Fin 2) (Fin 2) ℝ) a b⟩ := by
    unfold Aliasing.write
    exact dif_pos ⟨by decide, by decide⟩
  have e : (ValueWorld.start (fun k => if k = 0 then d else e)).run l =
      ⟨[⟨2, 2, fun a b => if a = 1 ∧ b = 0 then 0.5 else if a = 0 ∧ b = 1 then 0.5 else (1 : Matrix (Fin 2) (Fin 2) ℝ) a b⟩], [0],
        fun k => if k = 0 then d else e, ((ValueWorld.start (fun k => if k = 0 then d else e)).run l).models⟩ := by
    simp [l, ValueWorld.run, ValueWorld.step, ValueWorld.start, ValueWorld.writeUser, hw0, hw1]
  refine ⟨hl, ?_, ?_, _, (hS.arrays 0).trans (by rw [e]; rfl), by simp, by simp, by simp⟩
  all_goals
    rw [hS.models 0]
    simp [l, ValueWorld.run, ValueWorld.step, ValueWorld.start, ValueWorld.writeUser, ValueWorld.arg, StochModel.addVariable, StochModel.init, hde, hw0, hw1,
      StochModel.setCorrelation]

end Pystra.Props
