import Verif.Spec.Mutable
import Verif.Lemmas.Families

namespace Pystra.Mutable
open Spec.Mut

variable (E : Env)

theorem current_cons (a v : ℝ) (l : List ℝ) : current a (v :: l) = current v l := by
  cases l with
  | nil => rfl
  | cons b l => simp [current, List.getLast?_cons]

theorem reaches_le {w : List Obj} (hw : WF w) {j i : ℕ} (h : Reaches w j i) : i ≤ j := by
  induction h with
  | self => exact le_rfl
  | wrapped o h1 h2 _ ih => exact ih.trans (hw _ _ h1 _ h2).le

theorem reaches_leaf {w : List Obj} {j i : ℕ} (h : Reaches w j i) {o : Obj} (ho : w[j]? = some o)
    (hc : o.body.child = none) : i = j := by
  cases h with
  | self => rfl
  | wrapped o' h1 h2 _ => rw [h1] at ho; cases ho; rw [h2] at hc; cases hc

theorem reaches_step {w : List Obj} {j i : ℕ} {o : Obj} (ho : w[j]? = some o) {k : ℕ}
    (hc : o.body.child = some k) : Reaches w j i ↔ i = j ∨ Reaches w k i := by
  constructor
  · intro h
    cases h with
    | self => exact .inl rfl
    | wrapped o' h1 h2 h3 => rw [h1] at ho; cases ho; rw [h2] at hc; cases hc; exact .inr h3
  · rintro (rfl | h)
    · exact .self _
    · exact .wrapped o ho hc h

theorem refresh_objs (w : World) (i : ℕ) (o : Obj) :
    (refresh E w i o).objs = w.objs.set i { o with moments := (newStats E w o.body).1 } := rfl

theorem setLeaf_child (k : Param) (v : ℝ) (o : Obj) (h : o.body.child = none) :
    (setLeaf k v o).1.body.child = none := by
  rcases o with ⟨b, m, sp⟩
  cases b <;> simp only [Body.child, reduceCtorEq] at h <;> cases m <;> simp [setLeaf, rebuilt, Body.child]

/-- Lengths never shrink and setters keep them. -/
theorem set_length (k : Param) (v : ℝ) (w : World) (i : ℕ) : (set E k v w i).1.objs.length = w.objs.length := by
  induction i using Nat.strong_induction_on with
  | _ i ih =>
    rw [set]
    cases h : w.objs[i]? with
    | none => rfl
    | some o =>
      dsimp only
      cases hc : o.body.child with
      | none => simp
      | some j =>
        dsimp only
        split
        · next hj =>
          split
          · simp [refresh_objs, ih j hj]
          · exact ih j hj
        · rfl

/-- Objects off the chain are untouched. -/
theorem set_frame (k : Param) (v : ℝ) (w : World) (j i : ℕ) (h : ¬Reaches w.objs j i) :
    (set E k v w j).1.objs[i]? = w.objs[i]? := by
  induction j using Nat.strong_induction_on with
  | _ j ih =>
    have hne : j ≠ i := fun e => h (e ▸ .self _)
    rw [set]
    cases ho : w.objs[j]? with
    | none => rfl
    | some o =>
      dsimp only
      cases hc : o.body.child with
      | none => simp [List.getElem?_set, hne]
      | some l =>
        dsimp only
        split
        · next hl =>
          have h' : ¬Reaches w.objs l i := fun e => h (.wrapped o ho hc e)
          split
          · simp only [refresh_objs, List.getElem?_set, hne, if_false]
            exact ih l hl h'
          · exact ih l hl h'
        · rfl

/-- A leaf on the chain receives the call. -/
theorem set_leaf (k : Param) (v : ℝ) (w : World) (hw : WF w.objs) (j i : ℕ) (h : Reaches w.objs j i) {o : Obj}
    (ho : w.objs[i]? = some o) (hc : o.body.child = none) :
    (set E k v w j).1.objs[i]? = some (setLeaf k v o).1 := by
  induction j using Nat.strong_induction_on with
  | _ j ih =>
    rw [set]
    cases h with
    | self =>
      have hl : i < w.objs.length := (List.getElem?_eq_some_iff.1 ho).1
      simp only [ho, hc]
      simp [hl]
    | @wrapped _ l _ o' h1 h2 h3 =>
      have hl := hw j o' h1 l h2
      have hi : i ≠ j := fun e => absurd (reaches_le hw h3) (by omega)
      simp only [h1, h2, hl, dite_true]
      split
      · simp only [refresh_objs, List.getElem?_set, hi.symm, if_false]
        exact ih l hl h3
      · exact ih l hl h3

/-- The class structure of the existing objects never changes. -/
def Shape (w w' : List Obj) : Prop :=
  ∀ (i : ℕ) (o : Obj), w[i]? = some o → ∃ o', w'[i]? = some o' ∧ o'.body.child = o.body.child

theorem Shape.refl (w : List Obj) : Shape w w := fun _ o h => ⟨o, h, rfl⟩

theorem Shape.set (w : List Obj) (i : ℕ) (o o' : Obj) (h : w[i]? = some o) (hc : o'.body.child = o.body.child) :
    Shape w (w.set i o') := by
  intro j p hp
  by_cases e : i = j
  · subst e
    rw [h] at hp; cases hp
    have hl : i < w.length := (List.getElem?_eq_some_iff.1 h).1
    exact ⟨o', by simp [hl], hc⟩
  · exact ⟨p, by simp [List.getElem?_set, e, hp], rfl⟩

theorem Shape.append (w l : List Obj) : Shape w (w ++ l) := by
  intro j p hp
  have hl : j < w.length := (List.getElem?_eq_some_iff.1 hp).1
  exact ⟨p, by rw [List.getElem?_append_left hl]; exact hp, rfl⟩

theorem Shape.trans {a b c : List Obj} (h1 : Shape a b) (h2 : Shape b c) : Shape a c := by
  intro i o h
  obtain ⟨o1, h3, e1⟩ := h1 i o h
  obtain ⟨o2, h4, e2⟩ := h2 i o1 h3
  exact ⟨o2, h4, e2.trans e1⟩

theorem set_shape (k : Param) (v : ℝ) (w : World) (j : ℕ) : Shape w.objs (Mutable.set E k v w j).1.objs := by
  induction j using Nat.strong_induction_on with
  | _ j ih =>
    rw [Mutable.set]
    cases ho : w.objs[j]? with
    | none => exact .refl _
    | some o =>
      dsimp only
      cases hc : o.body.child with
      | none => exact Shape.set _ _ _ _ ho ((setLeaf_child k v o hc).trans hc.symm)
      | some l =>
        dsimp only
        split
        · next hl =>
          split
          · obtain ⟨o1, h1, h2⟩ := ih l hl j o ho
            exact (ih l hl).trans (Shape.set _ _ o1 _ h1 h2.symm)
          · exact ih l hl
        · exact .refl _

theorem construct_objs (c : Ctor) (sp : Option ℝ) (w : World) :
    (construct E c sp w).1.objs = w.objs ∨ ∃ o, (construct E c sp w).1.objs = w.objs ++ [o] ∧
      (o.body.child = none ∨ (∃ j p, c = .zeroInflated j p ∧ o.body.child = some j) ∨
        (∃ j p, c = .maximum j p ∧ o.body.child = some j) ∨ (∃ j p, c = .maxParent j p ∧ o.body.child = some j)) := by
  cases c <;> simp only [construct, initFrz, initStats, alloc] <;> (repeat' split) <;>
    first
    | exact .inl rfl
    | exact .inr ⟨_, rfl, .inl rfl⟩
    | exact .inr ⟨_, rfl, .inr (.inl ⟨_, _, rfl, rfl⟩)⟩
    | exact .inr ⟨_, rfl, .inr (.inr (.inl ⟨_, _, rfl, rfl⟩))⟩
    | exact .inr ⟨_, rfl, .inr (.inr (.inr ⟨_, _, rfl, rfl⟩))⟩

theorem run_shape (op : Op) (w : World) : Shape w.objs (op.run E w).1.objs := by
  cases op with
  | new c sp =>
    rcases construct_objs E c sp w with h | ⟨o, h, _⟩ <;> simp only [Op.run, h]
    · exact .refl _
    · exact .append _ _
  | set k i v => exact set_shape E k v w i
  | setZero i p =>
    simp only [Op.run, setZero]
    split
    · exact .refl _
    · next o ho =>
      split
      · next j q hb => exact Shape.set _ _ _ _ ho (by simp [hb, Body.child])
      · exact .refl _
  | setExponent i p =>
    simp only [Op.run, setExponent]
    split
    · exact .refl _
    · next o ho =>
      split
      · next j q hb => exact Shape.set _ _ _ _ ho (by simp [hb, Body.child])
      · exact .refl _
  | setLower i l =>
    simp only [Op.run, setLower]
    split
    · exact .refl _
    · next o ho =>
      split
      · next hb hm => exact Shape.set _ _ _ _ ho (by simp [hb, Body.child])
      · exact .refl _
      · exact .refl _
  | setStart i sp =>
    simp only [Op.run, setStart]
    split
    · exact .refl _
    · next o ho => exact Shape.set _ _ _ _ ho rfl
  | sample i n => exact .refl _

theorem WF.of_shape {w w' : List Obj} (hl : w'.length = w.length) (hs : Shape w w') (hw : WF w) : WF w' := by
  intro j o' ho' k hk
  have hj : j < w.length := hl ▸ (List.getElem?_eq_some_iff.1 ho').1
  obtain ⟨o1, h1, h2⟩ := hs j _ (List.getElem?_eq_getElem hj)
  rw [h1] at ho'; cases ho'
  exact hw j _ (List.getElem?_eq_getElem hj) k (h2 ▸ hk)

theorem run_wf (op : Op) (w : World) (hr : Refers w.objs op) (hw : WF w.objs) : WF (op.run E w).1.objs := by
  have hs := run_shape E op w
  cases op with
  | new c sp =>
    rcases construct_objs E c sp w with h | ⟨o, h, hc⟩ <;> simp only [Op.run, h]
    · exact hw
    · intro j o' ho' k hk
      rcases Nat.lt_or_ge j w.objs.length with hj | hj
      · rw [List.getElem?_append_left hj] at ho'
        exact hw j o' ho' k hk
      · rw [List.getElem?_append_right hj] at ho'
        obtain ⟨hlt, e⟩ := List.getElem?_eq_some_iff.1 ho'
        have hj0 : j - w.objs.length = 0 := by simpa using hlt
        have e' : o = o' := by simpa [hj0] using e
        subst e'
        rcases hc with hc | ⟨_, _, rfl, hc⟩ | ⟨_, _, rfl, hc⟩ | ⟨_, _, rfl, hc⟩ <;> rw [hc] at hk <;> cases hk <;>
          simp only [Refers] at hr <;> omega
  | set k i v => exact WF.of_shape (set_length E k v w i) hs hw
  | setZero i p =>
    refine WF.of_shape ?_ hs hw
    simp only [Op.run, setZero]
    repeat' split
    all_goals simp [refresh_objs]
  | setExponent i p =>
    refine WF.of_shape ?_ hs hw
    simp only [Op.run, setExponent]
    repeat' split
    all_goals simp [refresh_objs]
  | setLower i l =>
    refine WF.of_shape ?_ hs hw
    simp only [Op.run, setLower]
    repeat' split
    all_goals simp
  | setStart i sp =>
    refine WF.of_shape ?_ hs hw
    simp only [Op.run, setStart]
    repeat' split
    all_goals simp
  | sample i n => exact hw

theorem reaches_shape {w w' : List Obj} (hs : Shape w w') {j i : ℕ} (h : Reaches w j i) : Reaches w' j i := by
  induction h with
  | self => exact .self _
  | wrapped o h1 h2 _ ih =>
    obtain ⟨o', h3, h4⟩ := hs _ _ h1
    exact .wrapped o' h3 (h4.trans h2) ih

/-- The part of an object that only `setStartPoint` changes is left alone by all other calls; a leaf's record changes
only through the calls that reach it. -/
noncomputable def leafStep (w : List Obj) (i : ℕ) (o : Obj) (op : Op) : Obj :=
  open Classical in
  match op with
  | .set k j v => if Reaches w j i then (setLeaf k v o).1 else o
  | .setLower j l => if j = i then
      match o.body, o.moments with
      | .shiftedLognormal f _ _ _, some ms =>
        { o with body := .shiftedLognormal f (Lognormal.params (ms.1 - l) ms.2).1 (Lognormal.params (ms.1 - l) ms.2).2 l }
      | _, _ => o
    else o
  | .setStart j sp => if j = i then { o with startpoint := sp.or (o.moments.map Prod.fst) } else o
  | _ => o

theorem run_leaf (op : Op) (w : World) (hw : WF w.objs) {i : ℕ} {o : Obj} (ho : w.objs[i]? = some o)
    (hc : o.body.child = none) : (op.run E w).1.objs[i]? = some (leafStep w.objs i o op) := by
  have hl : i < w.objs.length := (List.getElem?_eq_some_iff.1 ho).1
  cases op with
  | new c sp =>
    rcases construct_objs E c sp w with h | ⟨o', h, _⟩ <;> simp only [Op.run, h, leafStep]
    · exact ho
    · rw [List.getElem?_append_left hl]; exact ho
  | set k j v =>
    simp only [Op.run, leafStep]
    split
    · next h => exact set_leaf E k v w hw j i h ho hc
    · next h => rw [set_frame E k v w j i h, ho]
  | setZero j p =>
    simp only [Op.run, leafStep, setZero]
    cases hj : w.objs[j]? with
    | none => exact ho
    | some o' =>
      dsimp only
      have hne : ∀ l q, o'.body = .zeroInflated l q → j ≠ i := by
        rintro l q hb rfl
        rw [ho] at hj; cases hj; rw [hb] at hc; cases hc
      split
      · next hb => simp [refresh_objs, List.getElem?_set, hne _ _ hb, ho]
      · exact ho
  | setExponent j p =>
    simp only [Op.run, leafStep, setExponent]
    cases hj : w.objs[j]? with
    | none => exact ho
    | some o' =>
      dsimp only
      have hne : ∀ l q, o'.body = .maxParent l q → j ≠ i := by
        rintro l q hb rfl
        rw [ho] at hj; cases hj; rw [hb] at hc; cases hc
      split
      · next hb => simp [refresh_objs, List.getElem?_set, hne _ _ hb, ho]
      · exact ho
  | setLower j l =>
    simp only [Op.run, leafStep, setLower]
    cases hj : w.objs[j]? with
    | none =>
      have : j ≠ i := by rintro rfl; rw [ho] at hj; cases hj
      simp [this, ho]
    | some o' =>
      by_cases e : j = i
      · subst e
        rw [ho] at hj; cases hj
        simp only [if_true]
        rcases o with ⟨b, m, sp⟩
        cases b <;> cases m <;> first | exact ho | simp [hl]
      · simp only [e, if_false]
        split <;> simp [List.getElem?_set, e, ho]
  | setStart j sp =>
    simp only [Op.run, leafStep, setStart]
    cases hj : w.objs[j]? with
    | none =>
      have : j ≠ i := by rintro rfl; rw [ho] at hj; cases hj
      simp [this, ho]
    | some o' =>
      by_cases e : j = i
      · subst e
        rw [ho] at hj; cases hj
        simp [hl]
      · simp [List.getElem?_set, e, ho]
  | sample j n => exact ho

/-- What a user sees of an object depends only on it and what it wraps. -/
theorem view_congr {w w' : List Obj} (i : ℕ) (h : ∀ k, Reaches w i k → w'[k]? = w[k]?) : view E w' i = view E w i := by
  induction i using Nat.strong_induction_on with
  | _ i ih =>
    rw [view, view, h i (.self i)]
    cases ho : w[i]? with
    | none => rfl
    | some o =>
      simp only [Option.bind_some]
      congr 1; funext ms; congr 1; funext sp
      have key : ∀ j, o.body.child = some j → (if _h : j < i then view E w' j else none) =
          (if _h : j < i then view E w j else none) := by
        intro j hj
        split
        · next hlt => exact ih j hlt fun k hk => h k (.wrapped o ho hj hk)
        · rfl
      rcases o with ⟨b, m, sp'⟩
      cases b <;> simp only [Body.child, reduceCtorEq, Option.some.injEq, IsEmpty.forall_iff, implies_true, forall_eq'] at key <;>
        simp only [methods, key]

/-- What a program does to an object that wraps nothing. -/
theorem leaf_history (emb : ℝ → ℝ → ℝ → Obj) (hloc : ∀ a b c v, (setLeaf .loc v (emb a b c)).1 = emb v b c)
    (hscale : ∀ a b c v, (setLeaf .scale v (emb a b c)).1 = emb a v c) (hchild : ∀ a b c, (emb a b c).body.child = none)
    (hlow : ∀ w i a b c l, leafStep w i (emb a b c) (.setLower i l) = emb a b l) (i : ℕ) (ops : List Op) :
    ∀ (w : World) (a b c : ℝ), WF w.objs → Program E w ops → KeepsStart i ops → w.objs[i]? = some (emb a b c) →
      (runAll E w ops).objs[i]? = some (emb (current a (settings E .loc i w ops))
        (current b (settings E .scale i w ops)) (current c (lowers i ops))) := by
  induction ops with
  | nil => intro w a b c _ _ _ h; exact h
  | cons op ops ih =>
    intro w a b c hw hp hk ho
    have h1 := run_leaf E op w hw ho (hchild a b c)
    have hw1 := run_wf E op w hp.1 hw
    have hk1 : KeepsStart i ops := fun sp h => hk sp (List.mem_cons_of_mem _ h)
    have ih' := fun a b c h => ih (op.run E w).1 a b c hw1 hp.2 hk1 h
    cases op with
    | set k j v =>
      simp only [leafStep] at h1
      simp only [runAll, settings, lowers]
      by_cases hr : Reaches w.objs j i
      · rw [if_pos hr] at h1
        cases k with
        | loc =>
          rw [hloc] at h1
          simpa [hr, current_cons] using ih' _ _ _ h1
        | scale =>
          rw [hscale] at h1
          simpa [hr, current_cons] using ih' _ _ _ h1
      · rw [if_neg hr] at h1
        simpa [hr] using ih' _ _ _ h1
    | setLower j l =>
      simp only [runAll, settings, lowers, List.nil_append]
      by_cases e : j = i
      · subst e
        rw [hlow] at h1
        simpa [current_cons] using ih' _ _ _ h1
      · simp only [leafStep, if_neg e] at h1
        simpa [e] using ih' _ _ _ h1
    | setStart j sp =>
      have e : j ≠ i := by rintro rfl; exact hk sp (List.mem_cons_self ..)
      simp only [leafStep, if_neg e] at h1
      simpa [runAll, settings, lowers] using ih' _ _ _ h1
    | new c' sp => simpa [runAll, settings, lowers] using ih' _ _ _ h1
    | setZero j p => simpa [runAll, settings, lowers] using ih' _ _ _ h1
    | setExponent j p => simpa [runAll, settings, lowers] using ih' _ _ _ h1
    | sample j p => simpa [runAll, settings, lowers] using ih' _ _ _ h1

/-- The view of an object that wraps nothing. -/
theorem view_leaf {w : List Obj} {i : ℕ} {o : Obj} (ho : w[i]? = some o) {m s sp : ℝ} (hm : o.moments = some (m, s))
    (hs : o.startpoint = some sp) (look : ℕ → Option Marginal) (hc : o.body.child = none) :
    view E w i = methods E look o.body m s sp := by
  rw [view, ho, Option.bind_some, hm, Option.bind_some, hs, Option.bind_some]
  rcases o with ⟨b, _, _⟩
  cases b <;> simp only [Body.child, reduceCtorEq] at hc <;> simp only [methods]

theorem moments_of_std {f : Frz} (h : 0 < f.scale) {s : ℝ} (hs : f.frozen.std = .fin s) :
    f.moments = some (f.frozen.mean, s) := by
  simp [Frz.moments, h, hs]

theorem moments_none {f : Frz} (h : ¬0 < f.scale) : f.moments = none := by simp [Frz.moments, h]

theorem scale_of_moments {f : Frz} {ms : ℝ × ℝ} (h : f.moments = some ms) :
    0 < f.scale ∧ f.frozen.mean = ms.1 ∧ f.frozen.std = .fin ms.2 := by
  unfold Frz.moments at h
  split at h
  · next hs =>
    cases e : f.frozen.std with
    | fin s => simp only [e, Option.some.injEq] at h; subst h; exact ⟨hs, rfl, rfl⟩
    | nonfinite => simp [e] at h
  · cases h

end Pystra.Mutable
