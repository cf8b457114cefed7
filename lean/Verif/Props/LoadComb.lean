import Verif.Lemmas.LoadComb
import Verif.Props.Stochastic

/-! C56, C57: load combinations. -/

namespace Pystra.Props
open LoadComb Spec

variable {D : Type}

/-- The loop over the cases stores each case's dictionary under its name. -/
theorem createDictDistComb_eq (resist : Dict String (DistObj D)) (other : Option (Dict String (DistObj D)))
    (dmax dpit : Dict String (DistObj D)) (hk : ∀ k ∈ dmax.keys, k ∈ dpit.keys) (cases : Dict String (List String)) :
    ∀ acc, ∃ f : List String → Dict String (DistObj D), (∀ l, caseDists resist other dmax dpit l = .ok (f l)) ∧
      createDictDistComb resist other dmax dpit cases acc = .ok (cases.foldl (fun d p => d.set p.1 (f p.2)) acc) := by
  intro acc
  have hf : ∀ l, ∃ d, caseDists resist other dmax dpit l = .ok d := by
    intro l
    unfold caseDists
    obtain ⟨v, -, h2⟩ := combLoop_eq l dpit dmax (baseDists resist other) hk
    exact ⟨_, h2⟩
  choose f hf using hf
  refine ⟨f, hf, ?_⟩
  induction cases generalizing acc with
  | nil => rfl
  | cons p t ih =>
    obtain ⟨name, l⟩ := p
    simp only [createDictDistComb, hf, List.foldl_cons]
    exact ih _

/-- C56: in each load combination case the leading actions named by the case use their maximum distribution, every other combination
variable its point-in-time distribution; the static loads and resistances are the given ones; nothing else is in the case; and when all
names are distinct the order is resistances, static loads, combination variables.  (`Nodup` of the keys holds for every Python
dictionary.) -/
theorem C56_case {comb : Dict String (MaxPit D)} (hcomb : comb.keys.Nodup) {resist : List (DistObj D)}
    {other : Option (List (DistObj D))} {corr : Option Frame} {consts : Option (List ConstObj)}
    {cases : Dict String (List String)} (hcases : cases.keys.Nodup) {lc : LoadComb D}
    (h : LoadComb.new comb resist other corr consts (some cases) = .ok lc) {name : String} {leading : List String}
    (hc : (name, leading) ∈ cases) :
    ∃ dd, lc.dictDistComb.get? name = some dd ∧
      (∀ k e, (k, e) ∈ comb → dd.get? k = if k ∈ leading then e.max else e.pit) ∧
      ((other.getD []).map DistObj.name |>.Nodup → ∀ o ∈ other.getD [], o.name ∉ comb.keys → dd.get? o.name = some o) ∧
      ((resist.map DistObj.name).Nodup → ∀ r ∈ resist, r.name ∉ comb.keys → r.name ∉ (other.getD []).map DistObj.name →
        dd.get? r.name = some r) ∧
      (∀ k, k ∈ dd.keys ↔ k ∈ resist.map DistObj.name ∨ k ∈ (other.getD []).map DistObj.name ∨ k ∈ comb.keys) ∧
      dd.keys.Nodup ∧
      ((resist.map DistObj.name ++ (other.getD []).map DistObj.name ++ comb.keys).Nodup →
        dd.keys = resist.map DistObj.name ++ (other.getD []).map DistObj.name ++ comb.keys) := by
  unfold LoadComb.new at h
  split at h
  · cases h
  next dmax hmax =>
  split at h
  · cases h
  next dpit hpit =>
  dsimp only at h
  split at h
  · cases h
  split at h
  · cases h
  next dd hdd =>
  injection h with h
  obtain ⟨k1, m1⟩ := pick_ok _ _ _ hmax
  obtain ⟨k2, m2⟩ := pick_ok _ _ _ hpit
  have hk : ∀ k ∈ dmax.keys, k ∈ dpit.keys := by rw [k1, k2]; exact fun k hk => hk
  obtain ⟨f, hf, hfold⟩ := createDictDistComb_eq (byName DistObj.name resist) (other.map (byName DistObj.name)) dmax dpit hk cases []
  rw [hdd] at hfold
  injection hfold with hfold
  have hget : lc.dictDistComb.get? name = some (f leading) := by
    rw [← h]
    dsimp only
    rw [hfold]
    exact Dict.get?_foldl_mem Prod.fst (fun p : String × List String => f p.2) cases hcases [] (name, leading) hc
  refine ⟨f leading, hget, ?_⟩
  have hfl := hf leading
  set base : Dict String (DistObj D) := baseDists (byName DistObj.name resist) (other.map (byName DistObj.name)) with hbase
  obtain ⟨v, hv1, hv2⟩ := combLoop_eq leading dpit dmax base hk
  have hfv : f leading = dmax.foldl (fun d p => d.set p.1 (v p)) base := by
    unfold caseDists at hfl
    rw [← hbase, hv2] at hfl
    injection hfl with hfl
    exact hfl.symm
  have hmaxnd : (dmax.map Prod.fst).Nodup := by
    have : dmax.map Prod.fst = dmax.keys := rfl
    rw [this, k1]; exact hcomb
  -- lookups below the combination variables
  have hR : ∀ k, (Dict.updateAll [] (byName DistObj.name resist)).get? k = (byName DistObj.name resist).get? k := by
    intro k
    have hnd : (byName DistObj.name resist).keys.Nodup := Dict.nodup_foldl _ _ _ _ (by simp [Dict.keys])
    by_cases hk : k ∈ (byName DistObj.name resist).keys
    · obtain ⟨d, hd⟩ := Dict.get?_of_mem_keys _ hk
      rw [hd]
      exact Dict.get?_foldl_mem Prod.fst Prod.snd (byName DistObj.name resist) hnd [] (k, d) (Dict.mem_of_get? _ _ _ hd)
    · rw [(Dict.get?_eq_none _ _).2 hk]
      exact Dict.get?_foldl_other Prod.fst Prod.snd _ _ _ hk
  have hbR : ∀ k, k ∉ (other.getD []).map DistObj.name → base.get? k = (byName DistObj.name resist).get? k := by
    intro k hk
    rw [hbase, baseDists.eq_def]
    cases other with
    | none => exact hR k
    | some o =>
      simp only [Option.map_some, Option.getD_some] at hk ⊢
      rw [← hR k]
      refine Dict.get?_foldl_other Prod.fst Prod.snd _ _ _ ?_
      intro hm
      have : k ∈ (byName DistObj.name o).keys := hm
      rw [byName, Dict.mem_keys_foldl DistObj.name (fun x => x)] at this
      simp only [Dict.keys, List.map_nil, List.not_mem_nil, false_or] at this
      exact hk this
  have hbO : ∀ o, (o.map DistObj.name).Nodup → other = some o → ∀ d ∈ o, base.get? d.name = some d := by
    intro o hnd ho d hd
    rw [hbase, baseDists.eq_def, ho]
    simp only [Option.map_some]
    have h1 : (byName DistObj.name o).get? d.name = some d := Dict.get?_foldl_mem DistObj.name (fun x => x) o hnd [] d hd
    exact Dict.get?_foldl_mem Prod.fst Prod.snd (byName DistObj.name o)
      (Dict.nodup_foldl _ _ _ _ (by simp [Dict.keys])) _ (d.name, d) (Dict.mem_of_get? _ _ _ h1)
  have hbkeys : ∀ k, k ∈ base.keys ↔ k ∈ resist.map DistObj.name ∨ k ∈ (other.getD []).map DistObj.name := by
    intro k
    have e1 : ∀ (l : List (DistObj D)) (d : Dict String (DistObj D)), k ∈ (Dict.updateAll d (byName DistObj.name l)).keys ↔
        k ∈ d.keys ∨ k ∈ l.map DistObj.name := by
      intro l d
      unfold Dict.updateAll
      rw [Dict.mem_keys_foldl Prod.fst Prod.snd]
      have : k ∈ (byName DistObj.name l).map Prod.fst ↔ k ∈ l.map DistObj.name := by
        have h2 := Dict.mem_keys_foldl DistObj.name (fun x : DistObj D => x) l [] k
        simp only [Dict.keys, List.map_nil, List.not_mem_nil, false_or] at h2
        exact h2
      rw [this]
    rw [hbase, baseDists.eq_def]
    cases other with
    | none => simp only [Option.map_none, e1, Option.getD_none]; simp [Dict.keys]
    | some o => simp only [Option.map_some, e1, Option.getD_some]; simp [Dict.keys]
  have hnotdmax : ∀ k, k ∉ comb.keys → k ∉ dmax.map Prod.fst := by
    intro k hk
    have : dmax.map Prod.fst = comb.keys := k1
    rw [this]; exact hk
  refine ⟨?_, ?_, ?_, ?_, ?_, ?_⟩
  · intro k e hke
    obtain ⟨dm, hdm, hdm'⟩ := m1 k e hke
    obtain ⟨dp, hdp, hdp'⟩ := m2 k e hke
    rw [hfv]
    have := Dict.get?_foldl_mem Prod.fst v dmax hmaxnd base (k, dm) hdm'
    rw [this]
    rcases hv1 (k, dm) hdm' with ⟨h1, h2⟩ | ⟨h1, h2⟩
    · rw [h1, if_pos h2, hdm]
    · rw [if_neg h2, hdp]
      have hpnd : dpit.keys.Nodup := by rw [k2]; exact hcomb
      have := Dict.get?_of_mem dpit hpnd k dp hdp'
      rw [this] at h1
      exact h1.symm
  · intro hnd o ho hoc
    rw [hfv, Dict.get?_foldl_other Prod.fst v _ _ _ (hnotdmax _ hoc)]
    cases ho' : other with
    | none => rw [ho'] at ho; simp at ho
    | some l =>
      rw [ho'] at ho hnd
      exact hbO l hnd ho' o ho
  · intro hnd r hr hrc hro
    rw [hfv, Dict.get?_foldl_other Prod.fst v _ _ _ (hnotdmax _ hrc), hbR _ hro]
    exact Dict.get?_foldl_mem DistObj.name (fun x => x) resist hnd [] r hr
  · intro k
    rw [hfv, Dict.mem_keys_foldl Prod.fst v, hbkeys]
    have : dmax.map Prod.fst = comb.keys := k1
    rw [this, or_assoc]
  · rw [hfv]
    refine Dict.nodup_foldl _ _ _ _ ?_
    rw [hbase, baseDists.eq_def]
    cases other with
    | none => exact Dict.nodup_foldl _ _ _ _ (by simp [Dict.keys])
    | some o => exact Dict.nodup_foldl _ _ _ _ (Dict.nodup_foldl _ _ _ _ (by simp [Dict.keys]))
  · intro hnd
    rw [List.nodup_append] at hnd
    obtain ⟨hnd1, -, hnd3⟩ := hnd
    have hnd1' := hnd1
    rw [List.nodup_append] at hnd1
    have b1 : byName DistObj.name resist = resist.map (fun x => (x.name, x)) :=
      Dict.foldl_append DistObj.name (fun x => x) resist [] (by simpa [Dict.keys] using hnd1.1)
    have b2 : Dict.updateAll [] (byName DistObj.name resist) = resist.map (fun x => (x.name, x)) := by
      rw [b1]
      have := Dict.foldl_append Prod.fst Prod.snd (resist.map (fun x => (x.name, x))) [] (by
        simp only [Dict.keys, List.map_nil, List.nil_append, List.map_map]
        exact hnd1.1)
      unfold Dict.updateAll
      rw [this]
      simp
    have hbk : base.keys = resist.map DistObj.name ++ (other.getD []).map DistObj.name := by
      rw [hbase, baseDists.eq_def]
      cases ho : other with
      | none =>
        simp only [Option.map_none, Option.getD_none, List.map_nil, List.append_nil]
        rw [b2]; simp [Dict.keys]
      | some o =>
        rw [ho] at hnd1 hnd1'
        simp only [Option.getD_some] at hnd1 hnd1'
        simp only [Option.map_some, Option.getD_some]
        have b3 : byName DistObj.name o = o.map (fun x => (x.name, x)) :=
          Dict.foldl_append DistObj.name (fun x => x) o [] (by simpa [Dict.keys] using hnd1.2.1)
        rw [b2, b3]
        unfold Dict.updateAll
        rw [Dict.foldl_append Prod.fst Prod.snd (o.map (fun x => (x.name, x)))]
        · simp [Dict.keys, Function.comp_def]
        · simpa [Dict.keys, Function.comp_def] using hnd1'
    rw [hfv, Dict.foldl_append Prod.fst v dmax base]
    · simp only [Dict.keys, List.map_append, List.map_map] at hbk k1 ⊢
      rw [hbk, ← k1]
      rfl
    · have : dmax.map Prod.fst = comb.keys := k1
      rw [this, hbk]
      exact List.nodup_append.2 ⟨hnd1', hcomb, hnd3⟩

/-- C56: a `LoadCombination` can be created exactly when load cases are given and every combination variable has both distributions;
the labels are those of the inputs. -/
theorem C56_created (comb : Dict String (MaxPit D)) (resist : List (DistObj D)) (other : Option (List (DistObj D)))
    (corr : Option Frame) (consts : Option (List ConstObj)) (cases : Option (Dict String (List String))) :
    ((∃ lc, LoadComb.new comb resist other corr consts cases = .ok lc) ↔
      cases ≠ none ∧ ∀ p ∈ comb, p.2.max.isSome ∧ p.2.pit.isSome) ∧
    (∀ lc, LoadComb.new comb resist other corr consts cases = .ok lc →
      some lc.labelCombCases = cases.map Dict.keys ∧ some lc.numComb = cases.map List.length ∧
      lc.getLabel "comb_vrs" = .ok (some comb.keys) ∧ (∀ k, k ∈ lc.labelResist ↔ k ∈ resist.map DistObj.name) ∧
      (∀ k, k ∈ lc.labelOther ↔ k ∈ (other.getD []).map DistObj.name) ∧
      (∀ k, k ∈ lc.labelAll ↔ k ∈ resist.map DistObj.name ∨ k ∈ (other.getD []).map DistObj.name ∨ k ∈ comb.keys ∨
        k ∈ (consts.getD []).map ConstObj.name)) := by
  have hp1 := pick_iff (D := D) MaxPit.max comb
  have hp2 := pick_iff (D := D) MaxPit.pit comb
  have hkeys : ∀ (k : String) {A : Type} (nm : A → String) (l : List A), k ∈ (byName nm l).keys ↔ k ∈ l.map nm := by
    intro k A nm l
    have h2 := Dict.mem_keys_foldl nm (fun x : A => x) l [] k
    simp only [Dict.keys, List.map_nil, List.not_mem_nil, false_or] at h2
    exact h2
  unfold LoadComb.new
  cases h1 : pick MaxPit.max comb with
  | error e =>
    rw [h1] at hp1
    refine ⟨?_, by simp⟩
    simp only [reduceCtorEq, exists_false, false_iff, not_and] at hp1 ⊢
    exact fun _ h => hp1.1 fun p hp => (h p hp).1
  | ok dmax =>
    rw [h1] at hp1
    cases h2 : pick MaxPit.pit comb with
    | error e =>
      rw [h2] at hp2
      refine ⟨?_, by simp⟩
      simp only [reduceCtorEq, exists_false, false_iff, not_and] at hp2 ⊢
      exact fun _ h => hp2.1 fun p hp => (h p hp).2
    | ok dpit =>
      rw [h2] at hp2
      obtain ⟨k1, -⟩ := pick_ok _ _ _ h1
      obtain ⟨k2, -⟩ := pick_ok _ _ _ h2
      have hlen : dmax.length = dpit.length := by
        have := congrArg List.length (k1.trans k2.symm)
        simpa [Dict.keys] using this
      cases cases with
      | none => simp
      | some cs =>
        obtain ⟨f, -, hfold⟩ := createDictDistComb_eq (byName DistObj.name resist) (other.map (byName DistObj.name)) dmax dpit
          (by rw [k1, k2]; exact fun k hk => hk) cs []
        simp only [ne_eq, hlen, not_true_eq_false, if_false, hfold, Except.ok.injEq, exists_eq', reduceCtorEq, not_false_eq_true,
          true_and, true_iff]
        refine ⟨fun p hp => ⟨hp1.1.1 ⟨dmax, rfl⟩ p hp, hp2.1.1 ⟨dpit, rfl⟩ p hp⟩, ?_⟩
        rintro lc rfl
        have ho : ∀ k, k ∈ ((other.map (byName DistObj.name)).map Dict.keys).getD [] ↔ k ∈ (other.getD []).map DistObj.name := by
          intro k
          cases other with
          | none => simp
          | some o => simpa using hkeys k DistObj.name o
        refine ⟨rfl, rfl, by simp [getLabel], fun k => hkeys k _ _, ho, fun k => ?_⟩
        cases consts with
        | none =>
          simp only [Option.map_none, List.mem_append, hkeys, ho]
          simp [or_assoc]
        | some c =>
          simp only [Option.map_some, List.mem_append, hkeys, ho, Option.getD_some]
          simp only [or_assoc]

/-- The names of a list in order of their first occurrence. -/
theorem byName_keys {A : Type} (nm : A → String) (l : List A) : (byName nm l).keys = (l.map nm).eraseDups := by
  have : ∀ (l : List A) (d : Dict String A), (l.foldl (fun d x => d.set (nm x) x) d).keys =
      d.keys ++ ((l.map nm).filter (fun k => !(d.keys.contains k))).eraseDups := by
    intro l
    induction l with
    | nil => intro d; simp
    | cons a l ih =>
      intro d
      rw [List.foldl_cons, ih]
      by_cases h : nm a ∈ d.keys
      · rw [Dict.keys_set d (nm a) a h]
        simp [h]
      · rw [Dict.set_of_not_mem d (nm a) a h]
        simp only [Dict.keys, List.map_append, List.map_cons, List.map_nil] at h ⊢
        rw [List.filter_cons_of_pos (by simpa using h), List.eraseDups_cons, List.append_assoc]
        congr 1
        simp only [List.singleton_append, List.filter_filter]
        congr 2
        apply List.filter_congr
        intro x _
        rw [Bool.eq_iff_iff]
        simp [not_or, and_comm]
  simpa [Dict.keys, byName] using this l []

/-- C56: the answers of `get_label`, for every created object: the names of the resistances, of the other variables, of the combination
variables, of the load cases, of the constants (`None` if no list of constants was given), each in the order given (a repeated name
once), and all of them except the cases, in this order; any other label type raises `KeyError`. -/
theorem C56_labels {comb : Dict String (MaxPit D)} {resist : List (DistObj D)} {other : Option (List (DistObj D))}
    {corr : Option Frame} {consts : Option (List ConstObj)} {cases : Dict String (List String)} {lc : LoadComb D}
    (h : LoadComb.new comb resist other corr consts (some cases) = .ok lc) :
    let rs := (resist.map DistObj.name).eraseDups
    let os := ((other.getD []).map DistObj.name).eraseDups
    let ks := consts.map fun l => (l.map ConstObj.name).eraseDups
    lc.getLabel "resist" = .ok (some rs) ∧ lc.getLabel "other" = .ok (some os) ∧ lc.getLabel "comb_vrs" = .ok (some comb.keys) ∧
    lc.getLabel "comb_cases" = .ok (some cases.keys) ∧ lc.getLabel "const" = .ok ks ∧
    lc.getLabel "all" = .ok (some (rs ++ os ++ comb.keys ++ ks.getD [])) ∧
    ∀ t, t ∉ ["resist", "other", "comb_vrs", "comb_cases", "const", "all"] → lc.getLabel t = .error .keyError := by
  unfold LoadComb.new at h
  split at h
  · cases h
  split at h
  · cases h
  dsimp only at h
  split at h
  · cases h
  split at h
  · cases h
  injection h with h
  subst h
  refine ⟨?_, ?_, ?_, ?_, ?_, ?_, ?_⟩
  · simp [getLabel, byName_keys]
  · cases other <;> simp [getLabel, byName_keys]
  · simp [getLabel]
  · simp [getLabel]
  · cases consts <;> simp [getLabel, byName_keys]
  · cases other <;> cases consts <;> simp [getLabel, byName_keys]
  · intro t ht
    simp only [List.mem_cons, List.not_mem_nil, or_false, not_or] at ht
    simp [getLabel, ht]

/-- C56, finding: without `dict_comb_cases` (documented as optional, "by default, each combination load effect is taken as maximum in a
load case") the constructor raises `TypeError`. -/
theorem C56_default_fails (comb : Dict String (MaxPit D)) (h : ∀ p ∈ comb, p.2.max.isSome ∧ p.2.pit.isSome)
    (resist : List (DistObj D)) (other : Option (List (DistObj D))) (corr : Option Frame) (consts : Option (List ConstObj)) :
    LoadComb.new comb resist other corr consts none = .error .typeError := by
  obtain ⟨r1, h1⟩ := (pick_iff (D := D) MaxPit.max comb).1.2 fun p hp => (h p hp).1
  obtain ⟨r2, h2⟩ := (pick_iff (D := D) MaxPit.pit comb).1.2 fun p hp => (h p hp).2
  simp [LoadComb.new, h1, h2]

end Pystra.Props
