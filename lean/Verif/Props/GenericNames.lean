import Verif.Props.GenericForm

/-! C61, C117: the names of the variables of a generic model. -/

namespace Pystra.Props
open Spec StochModel GenericCalib Session

/-- **C61 (keywords of the limit-state function).**  A call with named arguments computes the margin exactly if the names are the nine of
the signature; a missing name and an unexpected name are both a `TypeError`. -/
theorem C61_keywords (a : LoadComb.Args) :
    ((∀ k, a k ≠ none ↔ k ∈ (["z", "aq", "ag", "wR", "R", "wS", "G", "P", "Q"] : List String)) →
      ∃ z aq ag wR R wS G P Q, a "z" = some z ∧ a "aq" = some aq ∧ a "ag" = some ag ∧ a "wR" = some wR ∧ a "R" = some R ∧ a "wS" = some wS ∧
        a "G" = some G ∧ a "P" = some P ∧ a "Q" = some Q ∧
        lsfKw a = .ok (z * wR * R - wS * ((1 - aq) * (ag * G + (1 - ag) * P) + aq * Q))) ∧
    ((¬ ∀ k, a k ≠ none ↔ k ∈ (["z", "aq", "ag", "wR", "R", "wS", "G", "P", "Q"] : List String)) → lsfKw a = .error .typeError) := by
  constructor
  · intro h
    have hg : ∀ k ∈ (["z", "aq", "ag", "wR", "R", "wS", "G", "P", "Q"] : List String), ∃ v, a k = some v := fun k hk =>
      Option.ne_none_iff_exists'.1 ((h k).2 hk)
    obtain ⟨z, hz⟩ := hg "z" (by simp)
    obtain ⟨aq, haq⟩ := hg "aq" (by simp)
    obtain ⟨ag, hag⟩ := hg "ag" (by simp)
    obtain ⟨wR, hwR⟩ := hg "wR" (by simp)
    obtain ⟨R, hR⟩ := hg "R" (by simp)
    obtain ⟨wS, hwS⟩ := hg "wS" (by simp)
    obtain ⟨G, hG⟩ := hg "G" (by simp)
    obtain ⟨P, hP⟩ := hg "P" (by simp)
    obtain ⟨Q, hQ⟩ := hg "Q" (by simp)
    refine ⟨z, aq, ag, wR, R, wS, G, P, Q, hz, haq, hag, hwR, hR, hwS, hG, hP, hQ, ?_⟩
    unfold lsfKw
    rw [if_neg fun ⟨k, h1, h2⟩ => h2 ((h k).1 h1), hz, haq, hag, hwR, hR, hwS, hG, hP, hQ]
    rfl
  · intro h
    unfold lsfKw
    by_cases hx : ∃ k, a k ≠ none ∧ k ∉ (["z", "aq", "ag", "wR", "R", "wS", "G", "P", "Q"] : List String)
    · rw [if_pos hx]
    · rw [if_neg hx]
      push Not at h hx
      obtain ⟨k, hk⟩ := h
      have hk' : k ∈ (["z", "aq", "ag", "wR", "R", "wS", "G", "P", "Q"] : List String) ∧ a k = none := by
        rcases hk with ⟨h1, h2⟩ | ⟨h1, h2⟩
        · exact absurd (hx k h1) h2
        · exact ⟨h2, h1⟩
      obtain ⟨hm, hn⟩ := hk'
      simp only [List.mem_cons, List.not_mem_nil, or_false] at hm
      split
      · rcases hm with rfl | rfl | rfl | rfl | rfl | rfl | rfl | rfl | rfl <;> simp_all
      · rfl

theorem names_perm {names : List String} (hn : (names ++ ["z", "aq", "ag"]).Nodup) :
    (∀ k, k ∈ names ++ ["z", "aq", "ag"] ↔ k ∈ (["z", "aq", "ag", "wR", "R", "wS", "G", "P", "Q"] : List String)) ↔
      names.Perm ["wR", "R", "wS", "G", "P", "Q"] := by
  have h9 : (["wR", "R", "wS", "G", "P", "Q"] ++ ["z", "aq", "ag"] : List String).Perm ["z", "aq", "ag", "wR", "R", "wS", "G", "P", "Q"] := by
    decide
  rw [← List.perm_append_right_iff ["z", "aq", "ag"], ← List.perm_ext_iff_of_nodup hn (by decide)]
  exact ⟨fun h => h.trans h9.symm, fun h => h.trans h9⟩

/-- **C61, C117 (the names of the variables).**  The limit-state function is called by name, so the six variables of a model must have the
names of its signature, in any order.  Otherwise every entry of the table raises: two variables of one name (or one called `z`, `aq`, `ag`)
are refused by the stochastic model, any other wrong name is a `TypeError` of the limit-state function. -/
theorem C117_names {c : Setup} {o : Form.Options} {m : GenericModel Marginal} {wR R wS G P Q : DistObj Marginal} (h1 : m.wR = some wR)
    (h2 : m.R = some R) (h3 : m.wS = some wS) (h4 : m.G = some G) (h5 : m.P = some P) (h6 : m.Q = some Q) {aq ag z : ℝ}
    (hz : designOf aq ag m = .ok z) :
    let names := [wR.name, R.name, wS.name, G.name, P.name, Q.name]
    (¬ (names ++ ["z", "aq", "ag"]).Nodup → cell (formBeta c o) m ag aq = .error .exception) ∧
    ((names ++ ["z", "aq", "ag"]).Nodup → ¬ names.Perm ["wR", "R", "wS", "G", "P", "Q"] →
      cell (formBeta c o) m ag aq = .error .typeError) ∧
    (names.Perm ["wR", "R", "wS", "G", "P", "Q"] → ∃ sm, cell (formBeta c o) m ag aq =
        (formObject { c with expr := arrayFn lsfKw } o sm).map (fun f => f.beta) ∧
      sm.getMarginalDistributions = [wR, R, wS, G, P, Q] ∧ sm.getConstants = [("z", z), ("aq", aq), ("ag", ag)]) := by
  intro names
  obtain ⟨objs, hobjs⟩ : ∃ l : List (PyObj Marginal ℝ), l = [toObj (some wR), toObj (some R), toObj (some wS), toObj (some G), toObj (some P),
    toObj (some Q), .constant "z" z, .constant "aq" aq, .constant "ag" ag] := ⟨_, rfl⟩
  have hce : ∀ e, LoadComb.addAll StochModel.init objs = .error e → cell (formBeta c o) m ag aq = .error e := by
    intro e he
    unfold cell
    rw [hz]
    dsimp only
    unfold analyseDesign
    rw [h1, h2, h3, h4, h5, h6, ← hobjs, he]
  have hco : ∀ sm, LoadComb.addAll StochModel.init objs = .ok sm → cell (formBeta c o) m ag aq = formBeta c o sm lsfKw := by
    intro sm he
    unfold cell
    rw [hz]
    dsimp only
    unfold analyseDesign
    rw [h1, h2, h3, h4, h5, h6, ← hobjs, he]
  have hr0 : StochModel.Refines (StochModel.init : StochModel Marginal ℝ) [] := ⟨rfl, rfl, rfl, rfl, by simp [StochModel.init]⟩
  obtain ⟨a1, a2, a3⟩ := LoadComb.addAll_refines objs StochModel.init [] hr0
  have hnm : (StochModel.init : StochModel Marginal ℝ).names ++ objs.filterMap objName = names ++ ["z", "aq", "ag"] := by
    rw [hobjs]; simp [toObj, objName, StochModel.init, names]
  have hsome : ∀ o ∈ objs, (objName o).isSome = true := by
    rw [hobjs]; simp [toObj, objName]
  rw [hnm] at a1
  have hok : (names ++ ["z", "aq", "ag"]).Nodup → ∃ sm, LoadComb.addAll StochModel.init objs = .ok sm ∧
      sm.getNames = names ++ ["z", "aq", "ag"] ∧
      sm.getMarginalDistributions = [wR, R, wS, G, P, Q] ∧ sm.getConstants = [("z", z), ("aq", aq), ("ag", ag)] := by
    intro hn
    obtain ⟨sm, hsm⟩ := a1.2 ⟨hsome, hn⟩
    obtain ⟨hR, -⟩ := a2 sm hsm
    rw [hobjs] at hR
    exact ⟨sm, hsm, hR.names, hR.marg, hR.consts⟩
  have hper : names.Perm ["wR", "R", "wS", "G", "P", "Q"] → (names ++ ["z", "aq", "ag"]).Nodup := by
    intro hp
    rw [(hp.append_right _).nodup_iff]
    decide
  refine ⟨fun hn => ?_, fun hn hp => ?_, fun hp => ?_⟩
  · cases hadd : LoadComb.addAll StochModel.init objs with
    | error e => rw [hce e hadd, a3 e hadd]
    | ok sm => exact absurd (a1.1 ⟨sm, hadd⟩).2 hn
  · obtain ⟨sm, hsm, hnames, -⟩ := hok hn
    rw [hco sm hsm]
    unfold formBeta
    rw [(C61_keywords _).2]
    intro hall
    apply hp
    refine (names_perm hn).1 fun k => ?_
    have e : ((if k ∈ sm.getNames then some (0 : ℝ) else none) ≠ none) ↔ k ∈ names ++ ["z", "aq", "ag"] := by
      rw [hnames]; split <;> simp_all
    rw [← e]
    exact hall k
  · obtain ⟨sm, hsm, hnames, hmarg, hconst⟩ := hok (hper hp)
    refine ⟨sm, ?_, hmarg, hconst⟩
    rw [hco sm hsm]
    unfold formBeta
    obtain ⟨_, _, _, _, _, _, _, _, _, -, -, -, -, -, -, -, -, -, hv⟩ := (C61_keywords (fun k => if k ∈ sm.getNames then some 0 else none)).1 (by
      intro k
      rw [hnames]
      have e : ((if k ∈ names ++ ["z", "aq", "ag"] then some (0 : ℝ) else none) ≠ none) ↔ k ∈ names ++ ["z", "aq", "ag"] := by
        split <;> simp_all
      rw [e]
      exact (names_perm (hper hp)).2 hp k)
    rw [hv]
    dsimp only
    cases formObject { c with expr := arrayFn lsfKw } o sm <;> rfl

/-- Six normal variables; one name is wrong, or one is used twice. -/
example (c : Setup) (o : Form.Options) (d : Marginal) (m : GenericModel Marginal)
    (h1 : m.wR = some ⟨"wR", d⟩) (h2 : m.R = some ⟨"Res", d⟩) (h3 : m.wS = some ⟨"wS", d⟩) (h4 : m.G = some ⟨"G", d⟩)
    (h5 : m.P = some ⟨"P", d⟩) (h6 : m.Q = some ⟨"Q", d⟩) (hz : designOf (1/2) (1/2) m = .ok 1) :
    cell (formBeta c o) m (1/2) (1/2) = .error .typeError :=
  (C117_names h1 h2 h3 h4 h5 h6 hz).2.1 (by simp) (fun h => by have := h.mem_iff (a := "Res"); simp at this)

example (c : Setup) (o : Form.Options) (d : Marginal) (m : GenericModel Marginal)
    (h1 : m.wR = some ⟨"wR", d⟩) (h2 : m.R = some ⟨"wR", d⟩) (h3 : m.wS = some ⟨"wS", d⟩) (h4 : m.G = some ⟨"G", d⟩)
    (h5 : m.P = some ⟨"P", d⟩) (h6 : m.Q = some ⟨"Q", d⟩) (hz : designOf (1/2) (1/2) m = .ok 1) :
    cell (formBeta c o) m (1/2) (1/2) = .error .exception :=
  (C117_names h1 h2 h3 h4 h5 h6 hz).1 (by simp)

end Pystra.Props
