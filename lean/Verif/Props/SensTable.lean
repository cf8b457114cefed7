import Verif.Spec.SensTable
import Verif.Props.SensFDAffine
import Verif.Props.Sensitivity

/-! C94: `SensitivityAnalysis` objects and their tables. -/

namespace Pystra.Props
open Spec Matrix Transformation Form Sensitivity StochModel SensObj

variable {n : ℕ}

theorem tableOf_ofDict (d : Dict String (Dict String ℝ)) :
    tableOf (d.map fun p => (p.1, Val.ofDict p.2)) = .ok (expectedRows d) := by
  induction d with
  | nil => rfl
  | cons e t ih =>
    simp only [List.map_cons, tableOf, Val.ofDict, rowsOf] at ih ⊢
    rw [ih]
    simp [expectedRows, List.map_map, Function.comp_def]

theorem get?_ofDict (d : Dict String (Dict String ℝ)) (k : String) :
    Dict.get? (d.map (fun p => (p.1, Val.ofDict p.2)) : Dict String Val) k = (Dict.get? d k).map Val.ofDict := by
  induction d with
  | nil => rfl
  | cons e t ih =>
    simp only [List.map_cons, Dict.get?]
    split
    · rfl
    · exact ih

theorem tableOf_nums (d : Dict String ℝ) (h : d ≠ []) : tableOf (d.map fun p => (p.1, Val.num p.2)) = .error .attributeError := by
  cases d with
  | nil => exact absurd rfl h
  | cons e t => rfl

/-- **C94: the table.**  The table of a closed-form result has one row for every entry, in order; so has the table of a finite-difference
result in which no variable is called `"marginal"`.  With a variable of that name the table of the finite differences raises
`AttributeError` (its parameters are mistaken for the variables). -/
theorem C94_table :
    (∀ {n : ℕ} (r : CfResult n), summary (.ofCf r) = .ok (expectedRows r.marginal)) ∧
    (∀ d : Dict String (Dict String ℝ), "marginal" ∉ Dict.keys d → summary (.ofFd d) = .ok (expectedRows d)) ∧
    ∀ (d : Dict String (Dict String ℝ)) (ps : Dict String ℝ), Dict.get? d "marginal" = some ps → ps ≠ [] →
      summary (.ofFd d) = .error .attributeError := by
  refine ⟨fun r => ?_, fun d h => ?_, fun d ps h hp => ?_⟩
  · simp only [Val.ofCf, summary, Dict.get?, if_true, Option.getD_some, Val.ofFd]
    exact tableOf_ofDict _
  · have : Dict.get? d "marginal" = none := (Dict.get?_eq_none d "marginal").2 h
    simp only [Val.ofFd, summary]
    have e := get?_ofDict d "marginal"
    rw [this] at e
    rw [e]
    simp only [Option.map_none, Option.getD_none]
    exact tableOf_ofDict d
  · simp only [Val.ofFd, summary]
    have e := get?_ofDict d "marginal"
    rw [h] at e
    rw [e]
    simp only [Option.map_some, Option.getD_some, Val.ofDict]
    exact tableOf_nums ps hp

/-- The entries of a result. -/
def entries (d : Dict String (Dict String ℝ)) : List (String × String) := d.flatMap fun e => (Dict.keys e.2).map fun p => (e.1, p)

theorem expectedRows_spec (d : Dict String (Dict String ℝ)) :
    (expectedRows d).map (fun r => (r.var, r.parameter)) = entries d ∧ ∀ r ∈ expectedRows d, ∃ x, r.value = .num x := by
  constructor
  · simp [expectedRows, entries, List.map_flatMap, Dict.keys, List.map_map, Function.comp_def]
  · intro r hr
    simp only [expectedRows, List.mem_flatMap, List.mem_map] at hr
    obtain ⟨e, -, p, -, rfl⟩ := hr
    exact ⟨_, rfl⟩

theorem marginalVar_keys {dist : Fin n → Dist} {R Ro : Matrix (Fin n) (Fin n) ℝ} {t : Mats n} {al u : Fin n → ℝ} {k : Fin n} :
    ∀ (ps : List String) (r : Dict String ℝ), marginalVar dist R Ro t al u k ps = .ok r → Dict.keys r = ps := by
  intro ps
  induction ps with
  | nil => intro r h; simp only [marginalVar] at h; injection h with h; rw [← h]; rfl
  | cons p ps ih =>
    intro r h
    simp only [marginalVar] at h
    split at h
    · cases h
    · split at h
      · cases h
      · next r' hr' =>
        injection h with h
        rw [← h]
        simp only [Dict.keys, List.map_cons]
        rw [← ih r' hr']
        rfl

theorem marginalAll_entries {dist : Fin n → Dist} {R Ro : Matrix (Fin n) (Fin n) ℝ} {t : Mats n} {al u : Fin n → ℝ} {names : Fin n → String} :
    ∀ (ks : List (Fin n)) (r : Dict String (Dict String ℝ)), marginalAll dist R Ro t al u names ks = .ok r →
      entries r = ks.flatMap fun k => (Dict.keys (dist k).sensitivityParams).map fun p => (names k, p) := by
  intro ks
  induction ks with
  | nil => intro r h; simp only [marginalAll] at h; injection h with h; rw [← h]; rfl
  | cons k ks ih =>
    intro r h
    simp only [marginalAll] at h
    split at h
    · cases h
    · next v hv =>
      split at h
      · cases h
      · next r' hr' =>
        injection h with h
        rw [← h]
        simp only [entries, List.flatMap_cons] at ih ⊢
        rw [ih r' hr', marginalVar_keys _ _ hv]

theorem cf_entries {dist : Fin n → Dist} {R Ro : Matrix (Fin n) (Fin n) ℝ} {t : Mats n} {al u : Fin n → ℝ} {names : Fin n → String}
    {c : CfResult n} (h : cfSens dist names R Ro t al u = .ok c) :
    entries c.marginal = (List.finRange n).flatMap fun k => (Dict.keys (dist k).sensitivityParams).map fun p => (names k, p) := by
  unfold cfSens at h
  split at h
  · cases h
  · next m hm =>
    split at h
    · cases h
    · injection h with h
      rw [← h]
      exact marginalAll_entries _ _ hm

theorem fd_entries {form : FormOracle} {m : StochModel Dist ℝ} {δ b : ℝ} {ds : List (DistObj Dist)} {r : Dict String (Dict String ℝ)}
    (h : List.Forall₂ (FDVariable form m δ b) ds r) :
    entries r = ds.flatMap (fun d => (Dict.keys d.body.sensitivityParams).map fun p => (d.name, p)) ∧ Dict.keys r = ds.map DistObj.name := by
  induction h with
  | nil => exact ⟨rfl, rfl⟩
  | @cons d e ds r hd _ ih =>
    obtain ⟨h1, h2⟩ := hd
    have h3 : Dict.keys e.2 = Dict.keys d.body.sensitivityParams := by
      have : ∀ {ps q : Dict String ℝ}, List.Forall₂ (fun (pv : String × ℝ) (e : String × ℝ) => e.1 = pv.1 ∧
          FDEntry form m δ b d pv.1 pv.2 e.2) ps q → Dict.keys q = Dict.keys ps := by
        intro ps q h
        induction h with
        | nil => rfl
        | cons hx _ ih =>
          simp only [Dict.keys, List.map_cons] at ih ⊢
          rw [hx.1, ih]
      exact this h2
    constructor
    · simp only [entries, List.flatMap_cons] at ih ⊢
      rw [ih.1, h3, h1]
    · have := ih.2
      simp only [Dict.keys, List.map_cons] at this ⊢
      rw [this, h1]

/-- What `_cf_sens` computes when it succeeds: one FORM run with the object's options, then its post-processing. -/
theorem cfSensModel_ok {lib : Lib} {o : Obj} {m m' : StochModel Dist ℝ} {c : CfResult n} (h : cfSensModel lib o n m = (m', .ok c)) :
    ∃ ev t r ev', Session.initRun (o.setup lib) n ⟨toMarg m, []⟩ = (ev, .ok t) ∧
      Form.runFrom t (Session.margN n lib.default ev.model) (Session.evaluator (o.setup lib) n ev.model) o.options.form lib.fuel ev =
        some (.done r ev') ∧ m' = afterForm m ev' ∧
      cfSens (distN lib n m) (namesN n m) (matrixOf n m.getCorrelation) (matrixOf n ev'.model.Ro) t r.alpha r.point.u = .ok c := by
  unfold cfSensModel at h
  rcases hi : Session.initRun (o.setup lib) n ⟨toMarg m, []⟩ with ⟨ev, e | t⟩ <;> rw [hi] at h <;> dsimp only at h
  · injection h with _ h; cases h
  · rcases hr : Form.runFrom t (Session.margN n lib.default ev.model) (Session.evaluator (o.setup lib) n ev.model) o.options.form lib.fuel ev
      with _ | out
    · rw [hr] at h; injection h with _ h; cases h
    · rw [hr] at h
      cases out with
      | done r ev' =>
        injection h with h1 h2
        exact ⟨ev, t, r, ev', rfl, hr, h1.symm, h2⟩
      | raised e ev' => injection h with _ h; cases h
      | nan ev' => injection h with _ h; cases h
      | next _ _ _ => injection h with _ h; cases h

theorem cfSensModel_contents (lib : Lib) (o : Obj) (m : StochModel Dist ℝ) : SameContents m (cfSensModel lib o n m).1 := by
  have ha : ∀ ev, SameContents m (afterForm m ev) := fun ev => ⟨rfl, rfl, rfl, rfl, rfl⟩
  unfold cfSensModel
  rcases hi : Session.initRun (o.setup lib) n ⟨toMarg m, []⟩ with ⟨ev, e | t⟩ <;> dsimp only
  · exact ha _
  · rcases hr : Form.runFrom t (Session.margN n lib.default ev.model) (Session.evaluator (o.setup lib) n ev.model) o.options.form lib.fuel ev
      with _ | out
    · exact ⟨rfl, rfl, rfl, rfl, rfl⟩
    · cases out with
      | done r ev' => exact ha _
      | raised e ev' => exact ha _
      | nan ev' => exact ha _
      | next _ _ _ => exact ⟨rfl, rfl, rfl, rfl, rfl⟩

/-- **C94: the analysis does not change the user's model** (only the counter of evaluations and the stored modified correlation matrix), nor
any other model, whether it raises or not, with either method and any options. -/
theorem C94_user_model (lib : Lib) (o : Obj) (numerical : Bool) (δ : ℝ) {fresh : ℕ} (hf : 0 < fresh) (H : Heap) (hm : Consistent (H 0)) :
    SameContents (H 0) ((run lib o numerical δ fresh H).1 0) ∧
    ∀ k, k ≠ 0 → k < fresh → (run lib o numerical δ fresh H).1 k = H k := by
  cases numerical with
  | true =>
    obtain ⟨-, h2, h3⟩ := C52_user_model (formDefault lib o.limitstate) (fun m => formOracle_contents ..) δ hf H hm
    have e : (run lib o true δ fresh H).1 = (numericalSens (formDefault lib o.limitstate) δ fresh H).1 := by
      unfold SensObj.run
      rw [if_pos rfl]
      rcases numericalSens (formDefault lib o.limitstate) δ fresh H with ⟨H', e | r⟩ <;> rfl
    rw [e]
    exact ⟨h2, h3⟩
  | false =>
    have h := cfSensModel_contents (n := (H 0).marg.length) lib o (H 0)
    have e : (run lib o false δ fresh H).1 = Function.update H 0 (cfSensModel lib o (H 0).marg.length (H 0)).1 := by
      unfold SensObj.run
      rw [if_neg (by simp)]
      rcases cfSensModel lib o (H 0).marg.length (H 0) with ⟨m', e | r⟩ <;> rfl
    rw [e]
    exact ⟨by rw [Function.update_self]; exact h, fun k hk _ => Function.update_of_ne hk _ _⟩

/-- **C94: the table of a run.**  Whatever the object, its options, the model and the method: when the analysis returns a result, the table
made from it has exactly one row for every variable of the model and every parameter of its distribution, in order, and the values are
numbers — unless finite differences are asked for and a variable is called `"marginal"`: then there is no table (`AttributeError`). -/
theorem C94_rows (lib : Lib) (o : Obj) (numerical : Bool) (δ : ℝ) {fresh : ℕ} (hf : 0 < fresh) (H : Heap) (hm : Consistent (H 0)) {v : Val}
    (h : (run lib o numerical δ fresh H).2 = .ok v) :
    ((numerical = true → "marginal" ∉ (H 0).marg.map DistObj.name) →
      ∃ rows, summary v = .ok rows ∧ rows.map (fun r => (r.var, r.parameter)) = entriesOf (H 0) ∧ ∀ r ∈ rows, ∃ x, r.value = .num x) ∧
    (numerical = true → "marginal" ∈ (H 0).marg.map DistObj.name → summary v = .error .attributeError) := by
  obtain ⟨t1, t2, t3⟩ := C94_table
  cases numerical with
  | true =>
    unfold SensObj.run at h
    rw [if_pos rfl] at h
    rcases hx : numericalSens (formDefault lib o.limitstate) δ fresh H with ⟨H', e | r⟩ <;> rw [hx] at h <;> dsimp only at h
    · cases h
    · injection h with h
      subst h
      obtain ⟨b, -, hb⟩ := C52_entries (formDefault lib o.limitstate) (fun m => formOracle_contents ..) δ hf H hm
        (show (numericalSens (formDefault lib o.limitstate) δ fresh H).2 = .ok r by rw [hx])
      obtain ⟨e1, e2⟩ := fd_entries hb
      constructor
      · intro hn
        refine ⟨_, t2 r (by rw [e2]; exact hn rfl), ?_, (expectedRows_spec r).2⟩
        rw [(expectedRows_spec r).1, e1]
        rfl
      · intro _ hn
        rw [← e2] at hn
        obtain ⟨ps, hps⟩ : ∃ ps, Dict.get? r "marginal" = some ps := by
          rcases hg : Dict.get? r "marginal" with _ | ps
          · exact absurd hn ((Dict.get?_eq_none r "marginal").1 hg)
          · exact ⟨ps, rfl⟩
        refine t3 r ps hps ?_
        have hmem := Dict.mem_of_get? r _ _ hps
        obtain ⟨i, hi⟩ := List.get_of_mem hmem
        obtain ⟨-, hget⟩ := List.forall₂_iff_get.1 hb
        have hlen := (List.forall₂_iff_get.1 hb).1
        have := hget i.1 (by rw [hlen]; exact i.2) i.2
        have hi' : r.get ⟨i.1, i.2⟩ = ("marginal", ps) := hi
        rw [hi'] at this
        intro h0
        have h5 := this.2
        simp only [h0] at h5
        cases h5
  | false =>
    unfold SensObj.run at h
    rw [if_neg (by simp)] at h
    rcases hx : cfSensModel lib o (H 0).marg.length (H 0) with ⟨m', e | c⟩ <;> rw [hx] at h <;> dsimp only at h
    · cases h
    · injection h with h
      subst h
      refine ⟨fun _ => ⟨_, t1 c, ?_, (expectedRows_spec _).2⟩, fun h => by cases h⟩
      obtain ⟨ev, t, r, ev', -, -, -, hc⟩ := cfSensModel_ok hx
      rw [(expectedRows_spec _).1, cf_entries hc]
      unfold entriesOf
      have e : (H 0).marg = (List.finRange (H 0).marg.length).map fun k => (H 0).marg[k.1] := by
        rw [← List.ofFn_eq_map, List.ofFn_getElem]
      conv_rhs => rw [e, List.flatMap_map]
      congr 1
      funext k
      have e1 : distN lib (H 0).marg.length (H 0) k = ((H 0).marg[k.1]).body := by
        simp [distN, List.getD_eq_getElem?_getD]
      have e2 : namesN (H 0).marg.length (H 0) k = ((H 0).marg[k.1]).name := by
        simp [namesN, hm.vars, Dict.keys, List.getD_eq_getElem?_getD]
      simp only [e1, e2]

end Pystra.Props
