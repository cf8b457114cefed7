import Verif.Lemmas.Stochastic

/-! Properties C01–C04 (registry part) of `StochasticModel`, for every history of calls. -/

namespace Pystra.Props
open StochModel Spec

variable {D V : Type}

/-- C01: after any history the registry lists exactly the first offers of each name, in order. -/
theorem C01_registry (h : List (Op D V)) :
    (init.run h).getNames = (registered h).filterMap objName ∧
    (init.run h).getMarginalDistributions = dists (registered h) ∧
    (init.run h).getVariables = (dists (registered h)).map (fun d => (d.name, d)) ∧
    (init.run h).getConstants = constants (registered h) := by
  have r := refines_reachable h
  exact ⟨r.names, r.marg, r.vars, r.consts⟩

/-- C01: names never repeat. -/
theorem C01_names_nodup (h : List (Op D V)) : (init.run h).getNames.Nodup :=
  (refines_reachable h).nodup

/-- C01: each registered name is a key of exactly one of the two dictionaries, and conversely. -/
theorem C01_partition (h : List (Op D V)) (n : String) :
    let s : StochModel D V := init.run h
    (n ∈ s.getNames ↔ n ∈ s.getVariables.keys ∨ n ∈ s.getConstants.keys) ∧
    ¬ (n ∈ s.getVariables.keys ∧ n ∈ s.getConstants.keys) := by
  intro s
  have r : Refines s (registered h) := refines_reachable h
  have hv : s.getVariables.keys = (dists (registered h)).map DistObj.name := by
    simp [getVariables, r.vars, Dict.keys, List.map_map, Function.comp_def]
  have hc : s.getConstants.keys = (constants (registered h)).map Prod.fst := by
    simp [getConstants, r.consts, Dict.keys]
  have hn : s.getNames = (registered h).filterMap objName := r.names
  have hnd : ((registered h).filterMap objName).Nodup := r.names ▸ r.nodup
  rw [hv, hc, hn]
  constructor
  · simp only [List.mem_filterMap, List.mem_map, mem_dists, Prod.exists, mem_constants]
    constructor
    · rintro ⟨o, ho, e⟩
      cases o with
      | other => simp [objName] at e
      | distribution d => exact .inl ⟨d, ho, by simpa [objName] using e⟩
      | constant m v => exact .inr ⟨m, v, ho, by simpa [objName] using e⟩
    · rintro (⟨d, hd, rfl⟩ | ⟨m, v, hm, rfl⟩)
      · exact ⟨_, hd, rfl⟩
      · exact ⟨_, hm, rfl⟩
  · generalize registered h = objs at hnd
    induction objs with
    | nil => simp [dists]
    | cons o t ih =>
      cases o with
      | other =>
        simp only [List.filterMap_cons, objName] at hnd
        simpa [dists, constants] using ih hnd
      | distribution d =>
        simp only [List.filterMap_cons, objName, List.nodup_cons] at hnd
        simp only [dists, constants, List.map_cons, List.mem_cons]
        rintro ⟨rfl | h1, h2⟩
        · obtain ⟨⟨m, v⟩, hm, rfl⟩ := List.mem_map.1 h2
          exact hnd.1 (List.mem_filterMap.2 ⟨_, (mem_constants _ _ _).1 hm, rfl⟩)
        · exact ih hnd.2 ⟨h1, h2⟩
      | constant m v =>
        simp only [List.filterMap_cons, objName, List.nodup_cons] at hnd
        simp only [dists, constants, List.map_cons, List.mem_cons]
        rintro ⟨h1, rfl | h2⟩
        · obtain ⟨d, hd, he⟩ := List.mem_map.1 h1
          exact hnd.1 (List.mem_filterMap.2 ⟨_, (mem_dists _ _).1 hd, by simp [objName, he]⟩)
        · exact ih hnd.2 ⟨h1, h2⟩

/-- C01: variable number `i` of the dictionary and marginal number `i` are the same object, under the
object's own name; `getVariable` finds it by that name. -/
theorem C01_alignment (h : List (Op D V)) (i : ℕ) (d : DistObj D)
    (hi : (init.run h).getMarginalDistributions[i]? = some d) :
    (init.run h).getVariables[i]? = some (d.name, d) ∧
    (init.run h).getVariable d.name = .ok d := by
  have r : Refines (init.run h) (registered h) := refines_reachable h
  have h1 : (init.run h).getVariables[i]? = some (d.name, d) := by
    simp only [getMarginalDistributions, r.marg] at hi
    simp [getVariables, r.vars, List.getElem?_map, hi]
  refine ⟨h1, ?_⟩
  have hnd : Dict.keys (init.run h).vars |>.Nodup := by
    have hsub : List.Sublist ((dists (registered h)).map DistObj.name)
        ((registered h).filterMap objName) := by
      generalize registered h = objs
      induction objs with
      | nil => exact List.Sublist.slnil
      | cons o t ih =>
        cases o with
        | other => simpa [dists, List.filterMap_cons, objName] using ih
        | distribution d => simpa [dists, objName] using ih
        | constant m v => simpa [dists, objName] using List.Sublist.cons _ ih
    have := hsub.nodup (r.names ▸ r.nodup)
    simpa [Dict.keys, r.vars, List.map_map, Function.comp_def] using this
  have hm : (d.name, d) ∈ (init.run h).vars := List.mem_of_getElem? h1
  simp [getVariable, Dict.get?_of_mem _ hnd _ _ hm]

/-- C02: `addVariable` raises exactly on foreign objects and on names already registered. -/
theorem C02_rejects_iff (s : StochModel D V) (o : PyObj D V) :
    (∃ e, (s.addVariable o).2 = .error e) ↔
      (objName o = none ∨ ∃ n, objName o = some n ∧ n ∈ s.getNames) := by
  cases o with
  | other => simp [addVariable, objName]
  | distribution d => by_cases h : d.name ∈ s.names <;> simp [addVariable, objName, getNames, h]
  | constant n v => by_cases h : n ∈ s.names <;> simp [addVariable, objName, getNames, h]

/-- C02: a raising call leaves every observable of the model as it was. -/
theorem C02_rejected_unchanged (s : StochModel D V) (o : PyObj D V) (e : PyErr)
    (he : (s.addVariable o).2 = .error e) : (s.addVariable o).1 = s := by
  cases o with
  | other => rfl
  | distribution d =>
    by_cases h : d.name ∈ s.names <;> simp [addVariable, h] at he ⊢
  | constant n v =>
    by_cases h : n ∈ s.names <;> simp [addVariable, h] at he ⊢

/-- C02: an accepted call registers the object: its name is now known, and it is the last one. -/
theorem C02_accepted_registered (s : StochModel D V) (o : PyObj D V)
    (ho : (s.addVariable o).2 = .ok ()) :
    ∃ n, objName o = some n ∧ (s.addVariable o).1.getNames = s.getNames ++ [n] := by
  cases o with
  | other => simp [addVariable] at ho
  | distribution d =>
    by_cases h : d.name ∈ s.names
    · simp [addVariable, h] at ho
    · exact ⟨d.name, rfl, by simp [addVariable, h, getNames]⟩
  | constant n v =>
    by_cases h : n ∈ s.names
    · simp [addVariable, h] at ho
    · exact ⟨n, rfl, by simp [addVariable, h, getNames]⟩

/-- C03: right after an accepted `Distribution` the correlation is the identity of the new size,
whatever had been set before. -/
theorem C03_distribution_resets (h : List (Op D V)) (d : DistObj D)
    (ho : ((init.run h).addVariable (.distribution d)).2 = .ok ()) :
    (init.run (h ++ [.add (.distribution d)])).getCorrelation =
      some (NDArray2.eye ((init.run h).nMarg + 1)) := by
  rw [run_append]
  by_cases hn : d.name ∈ (init.run h).names
  · simp [addVariable, hn] at ho
  · simp [run, step, addVariable, hn, getCorrelation, nMarg]

/-- C03: `setCorrelation` installs exactly the given matrix. -/
theorem C03_setCorrelation (h : List (Op D V)) (m : NDArray2) :
    (init.run (h ++ [.setCorr m])).getCorrelation = some m := by
  simp [run_append, run, step, setCorrelation, getCorrelation]

/-- C03: no other call changes the correlation: constants, rejected calls, the counter, `Ro`. -/
theorem C03_otherwise_kept (h : List (Op D V)) (op : Op D V)
    (hop : (∃ n v, op = .add (.constant n v)) ∨ (∃ o e, op = .add o ∧ ((init.run h).addVariable o).2 = .error e)
      ∨ (∃ m, op = .setRo m) ∨ (∃ k, op = .calls k)) :
    (init.run (h ++ [op])).getCorrelation = (init.run h).getCorrelation := by
  rw [run_append]
  rcases hop with ⟨n, v, rfl⟩ | ⟨o, e, rfl, he⟩ | ⟨m, rfl⟩ | ⟨k, rfl⟩
  · by_cases hn : n ∈ (init.run h : StochModel D V).names <;>
      simp [run, step, addVariable, hn, getCorrelation]
  · simp only [run, step]
    rw [C02_rejected_unchanged _ _ _ he]
  · simp [run, step, setModifiedCorrelation, getCorrelation]
  · simp [run, step, addCallFunction, getCorrelation]

/-- C03: a user-set correlation is lost when a further variable is added. -/
theorem C03_setCorrelation_lost (h : List (Op D V)) (m : NDArray2) (d : DistObj D)
    (hd : d.name ∉ (init.run h : StochModel D V).getNames) :
    (init.run (h ++ [.setCorr m, .add (.distribution d)])).getCorrelation =
      some (NDArray2.eye ((init.run h).nMarg + 1)) := by
  have hd' : d.name ∉ (init.run h : StochModel D V).names := hd
  simp [run_append, run, step, setCorrelation, addVariable, hd', getCorrelation, nMarg]

/-- C04 (registry part): the counter is the sum of everything ever added to it. -/
theorem C04_counter_total (h : List (Op D V)) :
    ((init : StochModel D V).run h).getCallFunction = totalCalls h := by
  simp [getCallFunction, callFunction_run, init]

/-! Non-vacuity: a history with an accepted variable, a constant, a duplicate and a foreign object. -/

/-- A history exercising all branches. -/
def sampleHistory : List (Op Unit ℚ) :=
  [.add (.constant "c" 3), .add (.distribution ⟨"x", ()⟩), .calls 5, .add (.distribution ⟨"c", ()⟩),
    .add .other, .add (.distribution ⟨"y", ()⟩), .calls 2]

example : ((init.run sampleHistory).getNames = ["c", "x", "y"]) ∧
    ((init.run sampleHistory).getCallFunction = 7) ∧
    ((init.run sampleHistory).getMarginalDistributions[1]? = some ⟨"y", ()⟩) ∧
    ((init.run sampleHistory).addVariable (.distribution ⟨"z", ()⟩)).2 = .ok () ∧
    ((init.run sampleHistory).addVariable (.constant "y" 1)).2 = .error .exception := by
  refine ⟨?_, ?_, ?_, ?_, ?_⟩ <;>
    simp [sampleHistory, run, step, addVariable, init, addCallFunction, getNames, getCallFunction,
      getMarginalDistributions]

end Pystra.Props
