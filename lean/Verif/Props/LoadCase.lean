import Verif.Props.LoadComb
import Verif.Spec.LoadComb

/-! C57: the model of a load case, and evaluations with defaults. -/

namespace Pystra.Props
open LoadComb Spec

variable {D : Type}

theorem withOverrides_eq (consts : Dict String ConstObj) (vars : Dict String (DistObj D)) (kw : Dict String (PyObj D ℝ)) :
    withOverrides (fun c : ConstObj => PyObj.constant c.name c.val) kw consts ++ withOverrides PyObj.distribution kw vars =
      caseObjects consts vars kw := by
  unfold withOverrides caseObjects labelled
  rw [List.map_append, List.map_map, List.map_map]
  congr 1
  · apply List.map_congr_left
    intro p _
    simp only [Function.comp]
    cases Dict.get? kw p.1 <;> rfl
  · apply List.map_congr_left
    intro p _
    simp only [Function.comp]
    cases Dict.get? kw p.1 <;> rfl

theorem reindex_get (f : Frame) {rows cols : List String} {r c : String} (hr : r ∈ rows) (hc : c ∈ cols) :
    (f.reindex rows cols).get r c = f.get r c := by
  unfold Frame.reindex
  rw [Frame.get, if_pos ⟨hr, hc⟩]

/-- C57: the stochastic model of a load case: registered are exactly the constants and then the variables of the case, each replaced by
the keyword argument with its label if there is one; the order is kept; and the correlation matrix is the table of correlations, looked
up by the names of the model's variables (the identity when there is no table).  The call fails exactly when an object is neither a
distribution nor a constant, when two objects have the same name, or when a variable is missing in the table. -/
theorem C57_model (lc : LoadComb D) {case : String} {vars : Dict String (DistObj D)} (hv : lc.dictDistComb.get? case = some vars)
    (kw : Dict String (PyObj D ℝ)) :
    (∀ m, lc.caseModel (some case) kw = .ok m →
      let objs := caseObjects (lc.constant.getD []) vars kw
      m.getNames = objs.filterMap objName ∧ m.getMarginalDistributions = dists objs ∧
      m.getVariables = (dists objs).map (fun d => (d.name, d)) ∧ m.getConstants = constants objs ∧ m.getCallFunction = 0 ∧
      (lc.dfCorr = none → dists objs ≠ [] → m.getCorrelation = some (NDArray2.eye (dists objs).length)) ∧
      (∀ f, lc.dfCorr = some f → ∃ R, m.getCorrelation = some R ∧ R.nrow = (dists objs).length ∧ R.ncol = (dists objs).length ∧
        ∀ (i : Fin R.nrow) (j : Fin R.ncol) (di dj : DistObj D), (dists objs)[i.val]? = some di → (dists objs)[j.val]? = some dj →
          f.get di.name dj.name = some (R.val i j))) ∧
    ((∃ m, lc.caseModel (some case) kw = .ok m) ↔
      let objs := caseObjects (lc.constant.getD []) vars kw
      (∀ o ∈ objs, (objName o).isSome) ∧ (objs.filterMap objName).Nodup ∧
      ∀ f, lc.dfCorr = some f → ∀ a ∈ dists objs, ∀ b ∈ dists objs, (f.get a.name b.name).isSome) := by
  have hobjs := withOverrides_eq (lc.constant.getD []) vars kw
  set objs := caseObjects (lc.constant.getD []) vars kw with hobjsdef
  set c := withOverrides (fun c : ConstObj => PyObj.constant c.name c.val) kw (lc.constant.getD []) with hc
  set d := withOverrides PyObj.distribution kw vars with hd
  have hcm : lc.caseModel (some case) kw =
      match addAll StochModel.init objs with
      | .error e => .error e
      | .ok m =>
        match lc.dfCorr with
        | none => .ok m
        | some f =>
          match (f.reindex m.getVariables.keys m.getVariables.keys).values? with
          | none => .error .linAlgError
          | some R => .ok (m.setCorrelation R) := by
    have hsplit : ∀ (l l' : List (PyObj D ℝ)) (m : StochModel D ℝ), addAll m (l ++ l') =
        match addAll m l with
        | .error e => .error e
        | .ok m => addAll m l' := by
      intro l
      induction l with
      | nil => intro l' m; rfl
      | cons o t ih =>
        intro l' m
        simp only [List.cons_append, addAll]
        split
        · rfl
        · exact ih _ _
    unfold caseModel
    simp only [hv]
    rw [← hc, ← hobjs, hsplit]
    cases addAll StochModel.init c <;> rfl
  obtain ⟨h1, h2, h3⟩ := addAll_refines objs StochModel.init [] StochModel.refines_init
  rw [hcm]
  have hkeys : ∀ m : StochModel D ℝ, StochModel.Refines m objs → m.getVariables.keys = (dists objs).map DistObj.name := by
    intro m hr
    show (m.vars).map Prod.fst = _
    rw [hr.vars, List.map_map]
    rfl
  have hvals : ∀ (f : Frame) (m : StochModel D ℝ), StochModel.Refines m objs →
      (∀ a ∈ dists objs, ∀ b ∈ dists objs, (f.get a.name b.name).isSome) →
      ∃ R, (f.reindex m.getVariables.keys m.getVariables.keys).values? = some R ∧ R.nrow = (dists objs).length ∧
        R.ncol = (dists objs).length ∧
        ∀ (i : Fin R.nrow) (j : Fin R.ncol) (di dj : DistObj D), (dists objs)[i.val]? = some di → (dists objs)[j.val]? = some dj →
          f.get di.name dj.name = some (R.val i j) := by
    intro f m hr hall
    have hk := hkeys m hr
    have hall' : ∀ r ∈ m.getVariables.keys, ∀ c ∈ m.getVariables.keys,
        ((f.reindex m.getVariables.keys m.getVariables.keys).get r c).isSome := by
      intro r hr' c hc'
      rw [reindex_get f hr' hc']
      rw [hk, List.mem_map] at hr' hc'
      obtain ⟨a, ha, rfl⟩ := hr'
      obtain ⟨b, hb, rfl⟩ := hc'
      exact hall a ha b hb
    refine ⟨_, if_pos hall', ?_, ?_, ?_⟩
    · show List.length m.getVariables.keys = _
      rw [hk, List.length_map]
    · show List.length m.getVariables.keys = _
      rw [hk, List.length_map]
    · intro i j di dj hi hj
      have e : ∀ (q : ℕ) (hq : q < m.getVariables.keys.length) (x : DistObj D), (dists objs)[q]? = some x →
          m.getVariables.keys[q] = x.name := by
        intro q hq x hx
        have : m.getVariables.keys[q]? = some x.name := by rw [hk, List.getElem?_map, hx]; rfl
        rw [List.getElem?_eq_getElem hq] at this
        injection this
      have e1 : (f.reindex m.getVariables.keys m.getVariables.keys).index[i] = di.name := e i.val i.isLt di hi
      have e2 : (f.reindex m.getVariables.keys m.getVariables.keys).columns[j] = dj.name := e j.val j.isLt dj hj
      dsimp only
      rw [e1, e2]
      have hm1 : di.name ∈ m.getVariables.keys := by rw [← e1]; exact List.getElem_mem _
      have hm2 : dj.name ∈ m.getVariables.keys := by rw [← e2]; exact List.getElem_mem _
      have hs := hall' _ hm1 _ hm2
      have hg : (f.reindex m.getVariables.keys m.getVariables.keys).get di.name dj.name = f.get di.name dj.name :=
        reindex_get f hm1 hm2
      rw [hg] at hs ⊢
      obtain ⟨v, hv⟩ := Option.isSome_iff_exists.1 hs
      rw [hv]; rfl
  constructor
  · intro m hm
    split at hm
    · cases hm
    · next m0 hm0 =>
      obtain ⟨hr, hcalls, -, -, hcorr⟩ := h2 m0 hm0
      simp only [List.nil_append] at hr
      have hr0 := hr
      cases hf : lc.dfCorr with
      | none =>
        rw [hf] at hm
        injection hm with hm
        subst hm
        refine ⟨hr.names, hr.marg, hr.vars, hr.consts, hcalls, fun _ hne => ?_, fun f hf' => by cases hf'⟩
        show m0.correlation = _
        rw [hcorr hne, hr.marg]
      | some f =>
        rw [hf] at hm
        dsimp only at hm
        split at hm
        · cases hm
        · next R hR =>
          injection hm with hm
          subst hm
          refine ⟨hr.names, hr.marg, hr.vars, hr.consts, hcalls, (fun h => by cases h), ?_⟩
          intro f' hf'
          injection hf' with hf'
          subst hf'
          have hall : ∀ a ∈ dists objs, ∀ b ∈ dists objs, (f.get a.name b.name).isSome := by
            unfold Frame.values? at hR
            split at hR
            · next hcond =>
              intro a ha b hb
              have hm1 : a.name ∈ m0.getVariables.keys := by rw [hkeys m0 hr0]; exact List.mem_map_of_mem ha
              have hm2 : b.name ∈ m0.getVariables.keys := by rw [hkeys m0 hr0]; exact List.mem_map_of_mem hb
              have := hcond _ hm1 _ hm2
              rwa [reindex_get f hm1 hm2] at this
            · cases hR
          obtain ⟨R', hR', p1, p2, p3⟩ := hvals f m0 hr0 hall
          rw [hR] at hR'
          injection hR' with hR'
          subst hR'
          exact ⟨R, rfl, p1, p2, p3⟩
  · simp only [StochModel.init, List.nil_append] at h1
    constructor
    · rintro ⟨m, hm⟩
      split at hm
      · cases hm
      · next m0 hm0 =>
        obtain ⟨a, b⟩ := h1.1 ⟨m0, hm0⟩
        refine ⟨a, b, fun f hf => ?_⟩
        rw [hf] at hm
        dsimp only at hm
        split at hm
        · cases hm
        · next R hR =>
          obtain ⟨hr, -⟩ := h2 m0 hm0
          simp only [List.nil_append] at hr
          unfold Frame.values? at hR
          split at hR
          · next hcond =>
            intro a ha b hb
            have hm1 : a.name ∈ m0.getVariables.keys := by rw [hkeys m0 hr]; exact List.mem_map_of_mem ha
            have hm2 : b.name ∈ m0.getVariables.keys := by rw [hkeys m0 hr]; exact List.mem_map_of_mem hb
            have := hcond _ hm1 _ hm2
            rwa [reindex_get f hm1 hm2] at this
          · cases hR
    · rintro ⟨a, b, c'⟩
      obtain ⟨m0, hm0⟩ := h1.2 ⟨a, b⟩
      obtain ⟨hr, -⟩ := h2 m0 hm0
      simp only [List.nil_append] at hr
      change addAll StochModel.init objs = .ok m0 at hm0
      rw [hm0]
      dsimp only
      cases hf : lc.dfCorr with
      | none => exact ⟨_, rfl⟩
      | some f =>
        obtain ⟨R, hR, -⟩ := hvals f m0 hr (c' f hf)
        dsimp only
        rw [hR]
        exact ⟨_, rfl⟩

/-- C57: when every object is named by its label, an override replaces the variable or constant it names and leaves all others as
they are; the labels of the model are the constants' and then the case's. -/
theorem C57_overrides (lc : LoadComb D) {case : String} {vars : Dict String (DistObj D)} (hv : lc.dictDistComb.get? case = some vars)
    (hnd : ((lc.constant.getD []).keys ++ vars.keys).Nodup)
    (hself : SelfNamed (labelled (lc.constant.getD []) vars))
    {kw : Dict String (PyObj D ℝ)} (hkw : SelfNamed kw) {m : StochModel D ℝ} (hm : lc.caseModel (some case) kw = .ok m) :
    m.getNames = (lc.constant.getD []).keys ++ vars.keys ∧
    (∀ k d, (k, d) ∈ vars → kw.get? k = none → m.getVariable k = .ok d) ∧
    (∀ k d, k ∈ (lc.constant.getD []).keys ++ vars.keys → kw.get? k = some (.distribution d) → m.getVariable k = .ok d) ∧
    (∀ k c, (k, c) ∈ lc.constant.getD [] → kw.get? k = none → m.getConstants.get? k = some c.val) ∧
    (∀ k n v, k ∈ (lc.constant.getD []).keys ++ vars.keys → kw.get? k = some (.constant n v) → m.getConstants.get? k = some v) := by
  obtain ⟨h1, h2, h3, h4, -⟩ := (C57_model lc hv kw).1 m hm
  set entries := labelled (lc.constant.getD []) vars with hent
  have hobjs : caseObjects (lc.constant.getD []) vars kw = entries.map (fun p => (kw.get? p.1).getD p.2) := rfl
  set objs := caseObjects (lc.constant.getD []) vars kw with hobjsdef
  have hname : ∀ p ∈ entries, objName ((kw.get? p.1).getD p.2) = some p.1 := by
    intro p hp
    cases hk : kw.get? p.1 with
    | none => exact hself p hp
    | some o => exact hkw (p.1, o) (Dict.mem_of_get? _ _ _ hk)
  have hek : entries.map Prod.fst = (lc.constant.getD []).keys ++ vars.keys := by
    rw [hent, labelled, List.map_append, List.map_map, List.map_map]
    rfl
  have hnames : m.getNames = (lc.constant.getD []).keys ++ vars.keys := by
    rw [h1, hobjs, ← hek, List.filterMap_map]
    have : ∀ l : List (String × PyObj D ℝ), (∀ p ∈ l, objName ((kw.get? p.1).getD p.2) = some p.1) →
        l.filterMap (objName ∘ fun p => (kw.get? p.1).getD p.2) = l.map Prod.fst := by
      intro l
      induction l with
      | nil => intro _; rfl
      | cons p t ih =>
        intro hl
        rw [List.filterMap_cons, Function.comp, hl p (by simp), ih fun q hq => hl q (List.mem_cons_of_mem _ hq)]
        rfl
    exact this entries hname
  have hmem : ∀ k o, (k, o) ∈ entries → (kw.get? k).getD o ∈ objs := by
    intro k o hk
    rw [hobjs]
    exact List.mem_map.2 ⟨(k, o), hk, rfl⟩
  have hndv : m.getVariables.keys.Nodup := by
    have e : m.getVariables.keys = (dists objs).map DistObj.name := by rw [h3]; simp [Dict.keys, Function.comp_def]
    rw [e]
    have hsub : ∀ l : List (PyObj D ℝ), List.Sublist ((dists l).map DistObj.name) (l.filterMap objName) := by
      intro l
      induction l with
      | nil => simp [dists]
      | cons o t ih =>
        cases o with
        | distribution d => simpa [dists, objName] using ih
        | constant n v => simp only [dists, List.filterMap_cons, objName]; exact ih.cons _
        | other => rw [List.filterMap_cons]; exact ih
    have := hsub objs
    rw [← h1, hnames] at this
    exact this.nodup hnd
  have hndc : m.getConstants.keys.Nodup := by
    rw [h4]
    have hsub : ∀ l : List (PyObj D ℝ), List.Sublist (Dict.keys (constants l)) (l.filterMap objName) := by
      intro l
      induction l with
      | nil => simp [constants, Dict.keys]
      | cons o t ih =>
        cases o with
        | distribution d => simp only [constants, List.filterMap_cons, objName]; exact ih.cons _
        | constant n v => simpa [constants, objName, Dict.keys] using ih
        | other => rw [List.filterMap_cons]; exact ih
    have := hsub objs
    rw [← h1, hnames] at this
    exact this.nodup hnd
  have hvar : ∀ d, PyObj.distribution d ∈ objs → m.getVariable d.name = .ok d := by
    intro d hd
    have : (d.name, d) ∈ m.getVariables := by
      rw [h3]
      exact List.mem_map.2 ⟨d, (StochModel.mem_dists _ _).2 hd, rfl⟩
    unfold StochModel.getVariable
    have := Dict.get?_of_mem m.vars hndv d.name d this
    rw [this]
  have hcon : ∀ n v, PyObj.constant n v ∈ objs → m.getConstants.get? n = some v := by
    intro n v hd
    exact Dict.get?_of_mem _ hndc n v (by rw [h4]; exact (StochModel.mem_constants _ _ _).2 hd)
  have hkey : ∀ k, k ∈ (lc.constant.getD []).keys ++ vars.keys → ∃ o, (k, o) ∈ entries := by
    intro k hk
    rw [← hek, List.mem_map] at hk
    obtain ⟨⟨a, b⟩, h, rfl⟩ := hk
    exact ⟨b, h⟩
  refine ⟨hnames, ?_, ?_, ?_, ?_⟩
  · intro k d hk hn
    have he : (k, PyObj.distribution d) ∈ entries := by
      rw [hent, labelled]; exact List.mem_append_right _ (List.mem_map.2 ⟨(k, d), hk, rfl⟩)
    have h := hmem _ _ he
    rw [hn] at h
    have hnm := hself _ he
    simp only [objName, Option.some.injEq] at hnm
    rw [← hnm]
    exact hvar d h
  · intro k d hk hn
    obtain ⟨o, ho⟩ := hkey k hk
    have h := hmem _ _ ho
    rw [hn] at h
    have hnm := hkw (k, .distribution d) (Dict.mem_of_get? _ _ _ hn)
    simp only [objName, Option.some.injEq] at hnm
    rw [← hnm]
    exact hvar d h
  · intro k c hk hn
    have he : (k, PyObj.constant c.name c.val) ∈ entries := by
      rw [hent, labelled]; exact List.mem_append_left _ (List.mem_map.2 ⟨(k, c), hk, rfl⟩)
    have h := hmem _ _ he
    rw [hn] at h
    have hnm := hself _ he
    simp only [objName, Option.some.injEq] at hnm
    rw [← hnm]
    exact hcon _ _ h
  · intro k n v hk hn
    obtain ⟨o, ho⟩ := hkey k hk
    have h := hmem _ _ ho
    rw [hn] at h
    have hnm := hkw (k, .constant n v) (Dict.mem_of_get? _ _ _ hn)
    simp only [objName, Option.some.injEq] at hnm
    rw [← hnm]
    exact hcon _ _ h

/-- C57: a keyword argument that is no label of the case has no effect (and is not reported). -/
theorem C57_unknown_ignored (lc : LoadComb D) {case : String} {vars : Dict String (DistObj D)}
    (hv : lc.dictDistComb.get? case = some vars) (kw kw' : Dict String (PyObj D ℝ))
    (h : ∀ k, k ∈ (lc.constant.getD []).keys ++ vars.keys → kw.get? k = kw'.get? k) :
    lc.caseModel (some case) kw = lc.caseModel (some case) kw' := by
  have e : ∀ {A : Type} (obj : A → PyObj D ℝ) (d : Dict String A), (∀ k ∈ d.keys, kw.get? k = kw'.get? k) →
      withOverrides obj kw d = withOverrides obj kw' d := by
    intro A obj d hd
    unfold withOverrides
    refine List.map_congr_left fun p hp => ?_
    rw [hd p.1 (List.mem_map.2 ⟨p, hp, rfl⟩)]
  unfold caseModel
  simp only [hv]
  rw [e PyObj.distribution vars fun k hk => h k (List.mem_append_right _ hk)]
  rw [e (fun c : ConstObj => PyObj.constant c.name c.val) (lc.constant.getD []) fun k hk => h k (List.mem_append_left _ hk)]

/-- C57: without a case name the first case is analysed; an unknown case is a `KeyError`. -/
theorem C57_default_case (lc : LoadComb D) (kw : Dict String (PyObj D ℝ)) :
    (∀ l t, lc.labelCombCases = l :: t → lc.caseModel none kw = lc.caseModel (some l) kw) ∧
    (lc.constant = none → ∀ case, case ∉ lc.dictDistComb.keys → lc.caseModel (some case) kw = .error .keyError) := by
  constructor
  · intro l t h
    unfold caseModel
    rw [h]
  · intro hc case hcase
    unfold caseModel
    dsimp only
    rw [hc, (Dict.get?_eq_none _ _).2 hcase]
    rfl

/-- C57: the limit-state function is evaluated with the given values, the constants at their own values (or at `set_const`), and all
other labels at `set_value`; the result is the function's. -/
theorem C57_evaluation (lsf : (String → Option ℝ) → Except PyErr ℝ) (lc : LoadComb D) {consts : Dict String ConstObj}
    (hc : lc.constant = some consts) (hnd : consts.keys.Nodup) (setValue : ℝ) (setConst : Option ℝ) (given : String → Option ℝ) :
    lc.evalLsfKwargs lsf setValue setConst given = lsf (defaultArgs lc.labelAll consts setValue setConst given) := by
  have hloop : ∀ (l : Dict String ConstObj) (kw : Args), l.keys.Nodup → constLoop setConst l kw = fun k =>
      match kw k with
      | some v => some v
      | none =>
        match l.get? k with
        | some c => some (setConst.getD c.val)
        | none => none := by
    intro l
    induction l with
    | nil => intro kw _; funext k; simp only [constLoop, Dict.get?]; cases kw k <;> rfl
    | cons p t ih =>
      obtain ⟨key, c⟩ := p
      intro kw hl
      simp only [Dict.keys, List.map_cons, List.nodup_cons] at hl
      have hnt : Dict.get? t key = none := (Dict.get?_eq_none _ _).2 hl.1
      funext k
      simp only [constLoop]
      by_cases hk : kw key = none
      · by_cases hs : setConst = none
        · rw [if_pos ⟨hk, hs⟩, ih _ hl.2]
          by_cases e : k = key
          · subst e; simp [hk, Dict.get?, hs]
          · simp [e, Dict.get?, Ne.symm e]
        · obtain ⟨v, hv⟩ := Option.ne_none_iff_exists'.1 hs
          rw [if_neg (by simp [hs]), if_pos hk, ih _ hl.2]
          by_cases e : k = key
          · subst e; simp [hk, Dict.get?, hv]
          · simp [e, Dict.get?, Ne.symm e]
      · rw [if_neg (by simp [hk]), if_neg hk, ih _ hl.2]
        obtain ⟨v, hv⟩ := Option.ne_none_iff_exists'.1 hk
        by_cases e : k = key
        · subst e; simp [hv]
        · simp [Dict.get?, Ne.symm e]
  unfold evalLsfKwargs
  simp only [hc]
  congr 1
  rw [hloop _ _ hnd]
  funext k
  unfold defaultArgs fill
  cases hg : given k with
  | some v => simp [List.mem_filter, hg]
  | none =>
    cases hk : Dict.get? consts k with
    | some c =>
      have : k ∈ consts.keys := by
        by_contra h
        rw [(Dict.get?_eq_none _ _).2 h] at hk
        cases hk
      simp [List.mem_filter, hg, this]
    | none =>
      have := (Dict.get?_eq_none consts k).1 hk
      by_cases hl : k ∈ lc.labelAll
      · simp [List.mem_filter, hg, this, hl]
      · simp [List.mem_filter, hg, hl]

/-- C57, finding: without constants every evaluation raises `AttributeError`, although the constructor accepts `list_const=None`. -/
theorem C57_no_constants (lsf : (String → Option ℝ) → Except PyErr ℝ) (lc : LoadComb D) (hc : lc.constant = none)
    (setValue : ℝ) (setConst : Option ℝ) (given : String → Option ℝ) :
    lc.evalLsfKwargs lsf setValue setConst given = .error .attributeError := by
  unfold evalLsfKwargs
  simp only [hc]

/-! A concrete load combination: resistance `R`, permanent load `G`, two variable loads, a design parameter `z`, two cases. -/

/-- The two variable loads. -/
def exComb : Dict String (MaxPit ℕ) := [("Q1", ⟨some ⟨"Q1", 1⟩, some ⟨"Q1", 2⟩⟩), ("Q2", ⟨some ⟨"Q2", 3⟩, some ⟨"Q2", 4⟩⟩)]

/-- The cases. -/
def exCases : Dict String (List String) := [("Q1_max", ["Q1"]), ("Q2_max", ["Q2"])]

/-- The load combination. -/
def exNew : Except PyErr (LoadComb ℕ) :=
  LoadComb.new exComb [⟨"R", 5⟩] (some [⟨"G", 6⟩]) none (some [⟨"z", 1⟩]) (some exCases)

example : exComb.keys.Nodup ∧ exCases.keys.Nodup ∧ ("Q2_max", ["Q2"]) ∈ exCases ∧
    ∃ lc, exNew = .ok lc ∧ lc.dictDistComb.get? "Q2_max" =
      some [("R", ⟨"R", 5⟩), ("G", ⟨"G", 6⟩), ("Q1", ⟨"Q1", 2⟩), ("Q2", ⟨"Q2", 3⟩)] := by
  refine ⟨by decide, by decide, by simp [exCases], _, rfl, by rfl⟩

/-- Overriding the design parameter and one load in this case meets the hypotheses of `C57_overrides`. -/
example : ∃ lc m, exNew = .ok lc ∧
    lc.caseModel (some "Q2_max") [("z", .constant "z" 2), ("Q1", .distribution ⟨"Q1", 7⟩)] = .ok m ∧
    m.getNames = ["z", "R", "G", "Q1", "Q2"] ∧ m.getConstants.get? "z" = some 2 ∧ m.getVariable "Q1" = .ok ⟨"Q1", 7⟩ ∧
    m.getVariable "Q2" = .ok ⟨"Q2", 3⟩ := by
  obtain ⟨lc, hlc, hdd⟩ : ∃ lc, exNew = .ok lc ∧ lc.dictDistComb.get? "Q2_max" =
      some [("R", ⟨"R", 5⟩), ("G", ⟨"G", 6⟩), ("Q1", ⟨"Q1", 2⟩), ("Q2", ⟨"Q2", 3⟩)] ∧
      lc.constant = some [("z", ⟨"z", 1⟩)] ∧ lc.dfCorr = none := ⟨_, rfl, by rfl, by rfl, by rfl⟩
  obtain ⟨hdd, hc, hf⟩ := hdd
  set kw : Dict String (PyObj ℕ ℝ) := [("z", .constant "z" 2), ("Q1", .distribution ⟨"Q1", 7⟩)] with hkw
  obtain ⟨m, hm⟩ := (C57_model lc hdd kw).2.2 (by
    simp only [hc, hf, caseObjects, labelled, hkw]
    refine ⟨?_, by simp [Dict.get?, objName], by simp⟩
    intro o ho
    simp [Dict.get?] at ho
    rcases ho with rfl | rfl | rfl | rfl | rfl <;> rfl)
  have hself : SelfNamed (labelled (lc.constant.getD []) [("R", (⟨"R", 5⟩ : DistObj ℕ)), ("G", ⟨"G", 6⟩), ("Q1", ⟨"Q1", 2⟩),
      ("Q2", ⟨"Q2", 3⟩)]) := by
    intro p hp
    rw [hc] at hp
    simp [labelled] at hp
    rcases hp with rfl | rfl | rfl | rfl | rfl <;> rfl
  have hkws : SelfNamed kw := by
    intro p hp
    simp [hkw] at hp
    rcases hp with rfl | rfl <;> rfl
  obtain ⟨h1, h2, h3, -, h5⟩ := C57_overrides lc hdd (by rw [hc]; decide) hself hkws hm
  refine ⟨lc, m, hlc, hm, by rw [h1, hc]; rfl, h5 "z" "z" 2 (by rw [hc]; simp [Dict.keys]) (by simp [hkw, Dict.get?]),
    h3 "Q1" ⟨"Q1", 7⟩ (by rw [hc]; simp [Dict.keys]) (by simp [hkw, Dict.get?]),
    h2 "Q2" ⟨"Q2", 3⟩ (by simp) (by simp [hkw, Dict.get?])⟩

end Pystra.Props
