import Verif.Spec.GenericModel
import Verif.Props.GenericCalib

/-! C61: the setters of `GenericModel`. -/

namespace Pystra.Props
open Spec

variable {D : Type}

/-- C61: after any sequence of setter calls on a new `GenericModel`, every attribute has the value that the last call naming it gave, and
is `None` if no call has named it. -/
theorem C61_setters (calls : List (GCall D)) (a : GAttr) :
    read (calls.foldl GCall.apply GenericModel.init) a = calls.reverse.findSome? (fun c => c.assigns a) := by
  induction calls using List.reverseRecOn with
  | nil => cases a <;> rfl
  | append_singleton cs c ih =>
    rw [List.foldl_append, List.reverse_append]
    simp only [List.foldl_cons, List.foldl_nil, List.reverse_cons, List.reverse_nil, List.nil_append, List.cons_append,
      List.findSome?_cons]
    rw [← ih]
    cases c <;> cases a <;> rfl

/-- C61: so the grid of reliabilities (`C61_grid`) belongs to the last values, however the model was filled in: a model in which all
attributes were set is the complete model of these values. -/
theorem C61_filled (calls : List (GCall D)) (h : ∀ a, ∃ c ∈ calls, (c.assigns a).isSome) :
    ∃ phi gg gp gq wR wS R G P Q Rk Gk Pk Qk,
      calls.foldl GCall.apply GenericModel.init = complete phi gg gp gq wR wS R G P Q Rk Gk Pk Qk := by
  have hs : ∀ a, (read (calls.foldl GCall.apply GenericModel.init) a).isSome := by
    intro a
    rw [C61_setters]
    obtain ⟨c, hc, h1⟩ := h a
    rw [List.findSome?_isSome_iff]
    exact ⟨c, by simpa using hc, h1⟩
  generalize calls.foldl GCall.apply GenericModel.init = m at hs
  obtain ⟨phi, gG, gP, gQ, wR, wS, R, G, P, Q, Rk, Gk, Pk, Qk⟩ := m
  have e : ∀ {A : Type} {f : A → GVal D} {o : Option A}, (o.map f).isSome → ∃ x, o = some x := by
    intro A f o ho
    cases o with
    | none => cases ho
    | some x => exact ⟨x, rfl⟩
  obtain ⟨a1, rfl⟩ := e (hs .phi)
  obtain ⟨a2, rfl⟩ := e (hs .gamma_g)
  obtain ⟨a3, rfl⟩ := e (hs .gamma_p)
  obtain ⟨a4, rfl⟩ := e (hs .gamma_q)
  obtain ⟨a5, rfl⟩ := e (hs .wR)
  obtain ⟨a6, rfl⟩ := e (hs .wS)
  obtain ⟨a7, rfl⟩ := e (hs .R)
  obtain ⟨a8, rfl⟩ := e (hs .G)
  obtain ⟨a9, rfl⟩ := e (hs .P)
  obtain ⟨b1, rfl⟩ := e (hs .Q)
  obtain ⟨b2, rfl⟩ := e (hs .Rk)
  obtain ⟨b3, rfl⟩ := e (hs .Gk)
  obtain ⟨b4, rfl⟩ := e (hs .Pk)
  obtain ⟨b5, rfl⟩ := e (hs .Qk)
  exact ⟨a1, a2, a3, a4, a5, a6, a7, a8, a9, b1, b2, b3, b4, b5, rfl⟩

/-- A case: the parameters are set load by load, and the resistance twice. -/
example (wR wS R R' G P Q : DistObj Unit) :
    let m := ([.set_model_errors wR wS, .set_resistance_params R 10 0.9, .set_dead_params G 1 1.2, .set_permanent_params P 2 1.3,
      .set_live_params Q 3 1.6, .set_resistance_params R' 11 0.8] : List (GCall Unit)).foldl GCall.apply GenericModel.init
    read m .phi = some (.num 0.8) ∧ read m .R = some (.dist R') ∧ read m .Gk = some (.num 1) := by
  intro m
  refine ⟨?_, ?_, ?_⟩ <;> exact C61_setters _ _

end Pystra.Props
