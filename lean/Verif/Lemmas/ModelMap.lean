import Verif.Props.FormLinear
import Verif.Spec.Sensitivity

/-! Exchanging the distributions of a model keeps it reachable. -/

namespace Pystra.Props
open Spec StochModel

variable {D E : Type}

/-- A variable with another distribution under the same name. -/
def objMap (f : String → D → E) (d : DistObj D) : DistObj E := ⟨d.name, f d.name d.body⟩

/-- A model with other distributions under the same names. -/
def modelMap (f : String → D → E) (m : StochModel D ℝ) : StochModel E ℝ :=
  { vars := m.vars.map (fun p => (p.1, objMap f p.2)), names := m.names, marg := m.marg.map (objMap f)
    correlation := m.correlation, Ro := m.Ro, callFunction := m.callFunction, consts := m.consts }

/-- The same call with other distributions. -/
def opMap (f : String → D → E) : Op D ℝ → Op E ℝ
  | .add (.distribution d) => .add (.distribution (objMap f d))
  | .add (.constant n v) => .add (.constant n v)
  | .add .other => .add .other
  | .setCorr m => .setCorr m
  | .setRo m => .setRo m
  | .calls k => .calls k

theorem set_objMap (f : String → D → E) (d : Dict String (DistObj D)) (k : String) (v : DistObj D) :
    Dict.set (d.map (fun p => (p.1, objMap f p.2)) : Dict String (DistObj E)) k (objMap f v) = (d.set k v).map (fun p => (p.1, objMap f p.2)) := by
  induction d with
  | nil => rfl
  | cons p t ih =>
    obtain ⟨k', v'⟩ := p
    simp only [List.map_cons, Dict.set]
    split
    · rfl
    · rw [ih]; rfl

theorem step_map (f : String → D → E) (m : StochModel D ℝ) (op : Op D ℝ) :
    ((modelMap f m).step (opMap f op)).1 = modelMap f (m.step op).1 := by
  cases op with
  | add o =>
    cases o with
    | distribution d =>
      simp only [opMap, step, addVariable]
      have e : (objMap f d).name = d.name := rfl
      by_cases h : d.name ∈ m.names
      · rw [if_pos h, if_pos (by rw [e]; exact h)]
      · rw [if_neg h, if_neg (by rw [e]; exact h)]
        simp only [e, modelMap, set_objMap, List.map_append, List.map_cons, List.map_nil, List.length_append, List.length_map, List.length_cons,
          List.length_nil]
    | constant n v =>
      simp only [opMap, step, addVariable]
      by_cases h : n ∈ m.names
      · rw [if_pos h, if_pos (show n ∈ (modelMap f m).names from h)]
      · rw [if_neg h, if_neg (show ¬ n ∈ (modelMap f m).names from h)]
        rfl
    | other => rfl
  | setCorr R => rfl
  | setRo R => rfl
  | calls k => rfl

theorem run_map (f : String → D → E) (h : List (Op D ℝ)) : ∀ m : StochModel D ℝ,
    (modelMap f m).run (h.map (opMap f)) = modelMap f (m.run h) := by
  induction h with
  | nil => intro m; rfl
  | cons op ops ih =>
    intro m
    simp only [List.map_cons, StochModel.run, step_map, ih]

theorem reachable_map (f : String → D → E) {m : StochModel D ℝ} (h : Reachable m) : Reachable (modelMap f m) := by
  obtain ⟨l, rfl⟩ := h
  exact ⟨l.map (opMap f), (run_map f l StochModel.init).symm⟩

theorem reachable_ro {m : StochModel D ℝ} (h : Reachable m) (R : NDArray2) : Reachable { m with Ro := some R } := by
  obtain ⟨l, rfl⟩ := h
  exact ⟨l ++ [.setRo R], by rw [StochModel.run_append]; rfl⟩

/-- Whatever an analysis leaves in the counter and in the stored `Ro`. -/
theorem reachable_after {m : StochModel D ℝ} (h : Reachable m) (k : ℕ) (R : Option NDArray2) :
    Reachable { m with callFunction := k, Ro := R } := by
  obtain ⟨l, rfl⟩ := h
  have key : ∀ (l : List (Op D ℝ)) (s : StochModel D ℝ), ∃ l' : List (Op D ℝ),
      ({ s with callFunction := 0, Ro := none } : StochModel D ℝ).run l' = { s.run l with callFunction := 0, Ro := none } := by
    intro l
    induction l with
    | nil => intro s; exact ⟨[], rfl⟩
    | cons op ops ih =>
      intro s
      cases op with
      | calls n =>
        obtain ⟨l', hl'⟩ := ih (s.step (.calls n)).1
        exact ⟨l', hl'⟩
      | setCorr R =>
        obtain ⟨l', hl'⟩ := ih (s.step (.setCorr R)).1
        exact ⟨.setCorr R :: l', hl'⟩
      | setRo R =>
        obtain ⟨l', hl'⟩ := ih (s.step (.setRo R)).1
        exact ⟨l', hl'⟩
      | add o =>
        obtain ⟨l', hl'⟩ := ih (s.step (.add o)).1
        refine ⟨.add o :: l', ?_⟩
        have e : (({ s with callFunction := 0, Ro := none } : StochModel D ℝ).step (.add o)).1 =
            { (s.step (.add o)).1 with callFunction := 0, Ro := none } := by
          cases o with
          | other => rfl
          | distribution d =>
            simp only [step, addVariable]
            split <;> rfl
          | constant n v =>
            simp only [step, addVariable]
            split <;> rfl
        simp only [StochModel.run]
        rw [e]
        exact hl'
  obtain ⟨l', hl'⟩ := key l StochModel.init
  have h0 : ({ (StochModel.init : StochModel D ℝ) with callFunction := 0, Ro := none } : StochModel D ℝ) = StochModel.init := rfl
  rw [h0] at hl'
  cases R with
  | none =>
    refine ⟨l' ++ [.calls k], ?_⟩
    rw [StochModel.run_append, hl']
    simp [StochModel.run, step, addCallFunction]
  | some R =>
    refine ⟨l' ++ [.calls k, .setRo R], ?_⟩
    rw [StochModel.run_append, hl']
    simp [StochModel.run, step, addCallFunction, setModifiedCorrelation]

open Sensitivity in
theorem toMarg_eq (m : StochModel Dist ℝ) : toMarg m = modelMap (fun _ d => d.marg) m := rfl

/-- The exchange of the finite differences. -/
theorem exchanged_eq {m : StochModel Dist ℝ} (hm : Consistent m) (name : String) (d : Dist) :
    exchanged m name d = modelMap (fun k b => if k = name then d else b) m := by
  have h1 : ∀ e : DistObj Dist, (if e.name = name then (⟨name, d⟩ : DistObj Dist) else e) = objMap (fun k b => if k = name then d else b) e := by
    intro e
    unfold objMap
    split
    · next h => simp [h]
    · next h => simp [h]
  unfold exchanged modelMap
  congr 1
  · rw [hm.vars, List.map_map, List.map_map]
    refine List.map_congr_left fun e _ => ?_
    simp only [Function.comp, ← h1]
    split <;> rfl
  · exact List.map_congr_left fun e _ => h1 e

end Pystra.Props
