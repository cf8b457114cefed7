import Verif.Model.CalibrationForm
import Verif.Props.GenericCalib
import Verif.Props.UnitsSession
import Verif.Props.Labels
import Verif.Props.EndToEnd

/-! C117: the generic calibration with the FORM analysis it runs. -/

namespace Pystra.Spec

/-- The same probability model with the resistance measured in another unit, `a` new units to an old one: the nominal resistance and
the law of the resistance are converted, everything else is the same. -/
structure ResistanceInUnit (a : ℝ) (D : Set ℝ) (m m' : GenericModel Marginal) : Prop where
  rest : m' = { m with R := m'.R, Rk := m'.Rk }
  nominal : m'.Rk = m.Rk.map (a * ·)
  law : (m.R = none ∧ m'.R = none) ∨ ∃ b b', m.R = some ⟨"R", b⟩ ∧ m'.R = some ⟨"R", b'⟩ ∧ Rescaled 0 a D b b'

/-- The distributions are named after the arguments of the limit-state function. -/
structure ProperlyNamed {D : Type} (m : GenericModel D) : Prop where
  wR : ∀ d, m.wR = some d → d.name = "wR"
  R : ∀ d, m.R = some d → d.name = "R"
  wS : ∀ d, m.wS = some d → d.name = "wS"
  G : ∀ d, m.G = some d → d.name = "G"
  P : ∀ d, m.P = some d → d.name = "P"
  Q : ∀ d, m.Q = some d → d.name = "Q"

end Pystra.Spec

namespace Pystra.Props
open Spec StochModel GenericCalib Session Transformation LimitState

/-- The index of a FORM run, or the exception. -/
def indexOf {n : ℕ} : Option (Ev Marginal × (Form.Result n ⊕ Out n)) → Except PyErr ℝ
  | some (_, .inl r) => .ok r.beta
  | some (_, .inr (.raised e)) => .error e
  | _ => .error .exception

/-- What `formBeta` reports. -/
theorem formBeta_eq (c : Setup) (o : Form.Options) (m : StochModel Marginal ℝ) (lsf : LoadComb.Args → Except PyErr ℝ) {n : ℕ}
    (hn : m.marg.length = n) :
    formBeta c o m lsf =
      match lsf (fun k => if k ∈ m.getNames then some 0 else none) with
      | .error e => .error e
      | .ok _ => indexOf (formRun { c with expr := arrayFn lsf } n o ⟨m, []⟩) := by
  subst hn
  unfold formBeta
  rcases lsf (fun k => if k ∈ m.getNames then some 0 else none) with e | v
  · rfl
  dsimp only
  unfold formObject formRun withInit
  rcases initRun { c with expr := arrayFn lsf } m.marg.length ⟨m, []⟩ with ⟨ev, e | t⟩
  · rfl
  dsimp only
  rcases Form.runFrom t (margN m.marg.length c.default ev.model) (evaluator { c with expr := arrayFn lsf } m.marg.length ev.model) o c.fuel ev
    with _ | ⟨r, s⟩ | ⟨e, s⟩ | ⟨s⟩ | ⟨Go, u, s⟩ <;> rfl

/-- The units in which `z` and `R` are measured when the resistance has another unit. -/
noncomputable def resistanceUnits (a : ℝ) : Units where
  off := fun _ => 0
  fac := fun k => if k = "R" then a else if k = "z" then 1 / a else 1

theorem resistanceUnits_ne {a : ℝ} (ha : a ≠ 0) (k : String) : (resistanceUnits a).fac k ≠ 0 := by
  unfold resistanceUnits
  dsimp only
  split_ifs
  · exact ha
  · exact one_div_ne_zero ha
  · exact one_ne_zero

theorem kwargs_get (U : Units) (kw : Kwargs) (k : String) :
    Dict.get? (U.kwargs kw) k = (Dict.get? kw k).map fun row => row.map (U.conv k) := by
  induction kw with
  | nil => rfl
  | cons e t ih =>
    obtain ⟨k', v⟩ := e
    by_cases h : k' = k
    · subst h; simp [Units.kwargs, Dict.get?]
    · have := ih
      simp only [Units.kwargs, Dict.get?, List.map_cons] at this ⊢
      simpa [h] using this

/-- The generic limit state is the same function in both units. -/
theorem lsfKw_units {a : ℝ} (ha : a ≠ 0) (A : LoadComb.Args) :
    lsfKw (fun k => (A k).map ((resistanceUnits a).conv k)) = lsfKw A := by
  have hc : (∃ k, (A k).map ((resistanceUnits a).conv k) ≠ none ∧ k ∉ (["z", "aq", "ag", "wR", "R", "wS", "G", "P", "Q"] : List String)) ↔
      ∃ k, A k ≠ none ∧ k ∉ (["z", "aq", "ag", "wR", "R", "wS", "G", "P", "Q"] : List String) := by
    simp only [ne_eq, Option.map_eq_none_iff]
  unfold lsfKw
  by_cases h : ∃ k, A k ≠ none ∧ k ∉ (["z", "aq", "ag", "wR", "R", "wS", "G", "P", "Q"] : List String)
  · rw [if_pos (hc.2 h), if_pos h]
  · rw [if_neg (fun h' => h (hc.1 h')), if_neg h]
    dsimp only
    rcases A "z" with _ | z
    · rfl
    rcases A "aq" with _ | aq
    · rfl
    rcases A "ag" with _ | ag
    · rfl
    rcases A "wR" with _ | wR
    · rfl
    rcases A "R" with _ | R
    · rfl
    rcases A "wS" with _ | wS
    · rfl
    rcases A "G" with _ | G
    · rfl
    rcases A "P" with _ | P
    · rfl
    rcases A "Q" with _ | Q
    · rfl
    simp only [Option.map_some, Units.conv, resistanceUnits, lsf]
    congr 1
    simp
    field_simp

theorem arrayFn_units {a : ℝ} (ha : a ≠ 0) (kw : Kwargs) : arrayFn lsfKw ((resistanceUnits a).kwargs kw) = arrayFn lsfKw kw := by
  unfold arrayFn
  have hl : (((resistanceUnits a).kwargs kw).head?.map fun e => e.2.length) = kw.head?.map fun e => e.2.length := by
    cases kw <;> simp [Units.kwargs]
  rw [hl]
  congr 2
  refine List.map_congr_left fun i _ => ?_
  have : (fun k => (Dict.get? ((resistanceUnits a).kwargs kw) k).map fun row => row.getD i 0) =
      fun k => (((Dict.get? kw k).map fun row => row.getD i 0).map ((resistanceUnits a).conv k)) := by
    funext k
    rw [kwargs_get]
    rcases Dict.get? kw k with _ | row
    · rfl
    · simp only [Option.map_some]
      congr 1
      rw [List.getD_eq_getElem?_getD, List.getD_eq_getElem?_getD, List.getElem?_map]
      rcases row[i]? with _ | v
      · simp [Units.conv, resistanceUnits]
      · rfl
  rw [this, lsfKw_units ha]

theorem rescaled_self (D : Marginal) : Rescaled 0 1 Set.univ D D where
  mean := by simp
  stdv := by simp
  startpoint := by simp
  pdf := fun x _ => by simp
  cdf := fun x _ => by simp
  uToX := fun u => by simp
  xToU := fun x _ => by simp
  jac := fun u x _ => by simp
  support := fun _ => Set.mem_univ _
  start := Set.mem_univ _

/-- The objects that `analyse_design` adds to its model. -/
def designObjs {D : Type} (z aq ag : ℝ) (m : GenericModel D) : List (PyObj D ℝ) :=
  [toObj m.wR, toObj m.R, toObj m.wS, toObj m.G, toObj m.P, toObj m.Q, .constant "z" z, .constant "aq" aq, .constant "ag" ag]

theorem op_self {a : ℝ} {D : String → Set ℝ} {name : String} (hD : D name = Set.univ) (hR : name ≠ "R") (hz : name ≠ "z")
    {x : Option (DistObj Marginal)} (hx : ∀ d, x = some d → d.name = name) :
    OpInUnits (resistanceUnits a) D (Op.add (toObj x)) (Op.add (toObj x)) := by
  rcases x with _ | ⟨k, b⟩
  · exact .other
  · have := hx _ rfl
    simp only at this
    subst this
    refine .variable _ _ _ ?_
    have : (resistanceUnits a).fac k = 1 := by simp [resistanceUnits, hR, hz]
    rw [this, hD]
    exact rescaled_self b

theorem objs_units {a : ℝ} {D : Set ℝ} {m m' : GenericModel Marginal} (h : ResistanceInUnit a D m m') (hn : ProperlyNamed m) (z aq ag : ℝ) :
    List.Forall₂ (OpInUnits (resistanceUnits a) (fun k => if k = "R" then D else Set.univ)) ((designObjs z aq ag m).map Op.add)
      ((designObjs (1 / a * z) aq ag m').map Op.add) := by
  have e : ∀ x, OpInUnits (resistanceUnits a) (fun k => if k = "R" then D else Set.univ) (Op.add (.constant "aq" x)) (Op.add (.constant "aq" x)) := by
    intro x
    have := OpInUnits.constant (U := resistanceUnits a) (D := fun k => if k = "R" then D else Set.univ) "aq" x
    simpa [Units.conv, resistanceUnits] using this
  have e' : ∀ x, OpInUnits (resistanceUnits a) (fun k => if k = "R" then D else Set.univ) (Op.add (.constant "ag" x)) (Op.add (.constant "ag" x)) := by
    intro x
    have := OpInUnits.constant (U := resistanceUnits a) (D := fun k => if k = "R" then D else Set.univ) "ag" x
    simpa [Units.conv, resistanceUnits] using this
  have e'' : OpInUnits (resistanceUnits a) (fun k => if k = "R" then D else Set.univ) (Op.add (.constant "z" z)) (Op.add (.constant "z" (1 / a * z))) := by
    have := OpInUnits.constant (U := resistanceUnits a) (D := fun k => if k = "R" then D else Set.univ) "z" z
    simpa [Units.conv, resistanceUnits] using this
  have hr : OpInUnits (resistanceUnits a) (fun k => if k = "R" then D else Set.univ) (Op.add (toObj m.R)) (Op.add (toObj m'.R)) := by
    rcases h.law with ⟨h1, h2⟩ | ⟨b, b', h1, h2, h3⟩
    · rw [h1, h2]; exact .other
    · rw [h1, h2]
      refine .variable _ _ _ ?_
      simpa [resistanceUnits] using h3
  have e1 : m'.wR = m.wR := by rw [h.rest]
  have e2 : m'.wS = m.wS := by rw [h.rest]
  have e3 : m'.G = m.G := by rw [h.rest]
  have e4 : m'.P = m.P := by rw [h.rest]
  have e5 : m'.Q = m.Q := by rw [h.rest]
  unfold designObjs
  rw [e1, e2, e3, e4, e5]
  refine .cons (op_self (by simp) (by simp) (by simp) hn.wR) (.cons hr (.cons (op_self (by simp) (by simp) (by simp) hn.wS)
    (.cons (op_self (by simp) (by simp) (by simp) hn.G) (.cons (op_self (by simp) (by simp) (by simp) hn.P)
    (.cons (op_self (by simp) (by simp) (by simp) hn.Q) (.cons e'' (.cons (e _) (.cons (e' _) .nil))))))))

theorem objs_names {a : ℝ} {D : Set ℝ} {m m' : GenericModel Marginal} (h : ResistanceInUnit a D m m') (z z' aq ag : ℝ) :
    (designObjs z' aq ag m').map objName = (designObjs z aq ag m).map objName := by
  have e1 : m'.wR = m.wR := by rw [h.rest]
  have e2 : m'.wS = m.wS := by rw [h.rest]
  have e3 : m'.G = m.G := by rw [h.rest]
  have e4 : m'.P = m.P := by rw [h.rest]
  have e5 : m'.Q = m.Q := by rw [h.rest]
  have e6 : objName (toObj m'.R) = objName (toObj m.R) := by
    rcases h.law with ⟨h1, h2⟩ | ⟨b, b', h1, h2, h3⟩ <;> rw [h1, h2]
    simp [toObj, objName]
  unfold designObjs
  simp only [List.map_cons, e1, e2, e3, e4, e5, e6, List.map_nil]
  simp [objName]

theorem addAll_outcome {D : Type} (l l' : List (PyObj D ℝ)) (h : l'.map objName = l.map objName) :
    (LoadComb.addAll init l = .error .exception ∧ LoadComb.addAll init l' = .error .exception) ∨
    (LoadComb.addAll init l = .ok (init.run (l.map Op.add)) ∧ LoadComb.addAll init l' = .ok (init.run (l'.map Op.add))) := by
  obtain ⟨a1, a2, a3⟩ := LoadComb.addAll_refines (D := D) l init [] (refines_reachable [])
  obtain ⟨b1, b2, b3⟩ := LoadComb.addAll_refines (D := D) l' init [] (refines_reachable [])
  have hf : ∀ l : List (PyObj D ℝ), l.filterMap objName = (l.map objName).filterMap id := by
    intro l; rw [List.filterMap_map]; rfl
  have hs : ∀ l : List (PyObj D ℝ), (∀ o ∈ l, (objName o).isSome) ↔ ∀ x ∈ l.map objName, x.isSome := by
    intro l; simp
  rw [hf, hs] at a1 b1
  rw [h] at b1
  by_cases hc : (∀ x ∈ l.map objName, x.isSome) ∧ ((init : StochModel D ℝ).names ++ (l.map objName).filterMap id).Nodup
  · obtain ⟨m, hm⟩ := a1.2 hc
    obtain ⟨m', hm'⟩ := b1.2 hc
    right
    exact ⟨by rw [hm, (a2 m hm).2.2.1], by rw [hm', (b2 m' hm').2.2.1]⟩
  · left
    constructor
    · rcases hx : LoadComb.addAll init l with e | m
      · rw [a3 e hx]
      · exact absurd (a1.1 ⟨m, hx⟩) hc
    · rcases hx : LoadComb.addAll init l' with e | m
      · rw [b3 e hx]
      · exact absurd (b1.1 ⟨m, hx⟩) hc

/-- The reliability index of one design. -/
theorem analyseDesign_units {c : Setup} (hmode : c.lsopt.diffMode ≠ "ddm") (o : Form.Options) {a : ℝ} (ha : a ≠ 0) {D : Set ℝ}
    {m m' : GenericModel Marginal} (h : ResistanceInUnit a D m m') (hn : ProperlyNamed m) (z aq ag : ℝ) :
    analyseDesign (formBeta c o) (1 / a * z) aq ag m'.wR m'.R m'.wS m'.G m'.P m'.Q =
      analyseDesign (formBeta c o) z aq ag m.wR m.R m.wS m.G m.P m.Q := by
  unfold analyseDesign
  rcases addAll_outcome _ _ (objs_names h z (1 / a * z) aq ag) with ⟨h1, h2⟩ | ⟨h1, h2⟩
  · unfold designObjs at h1 h2
    rw [h1, h2]
  have h1' := h1
  have h2' := h2
  unfold designObjs at h1' h2'
  rw [h1', h2']
  dsimp only
  change formBeta c o (init.run ((designObjs (1 / a * z) aq ag m').map Op.add)) lsfKw =
    formBeta c o (init.run ((designObjs z aq ag m).map Op.add)) lsfKw
  have hh := objs_units h hn z aq ag
  have hM := C90_model hh
  obtain ⟨M, hM1⟩ : ∃ M : StochModel Marginal ℝ, M = init.run ((designObjs z aq ag m).map Op.add) := ⟨_, rfl⟩
  obtain ⟨M', hM2⟩ : ∃ M : StochModel Marginal ℝ, M = init.run ((designObjs (1 / a * z) aq ag m').map Op.add) := ⟨_, rfl⟩
  have hr : StochModel.Refines M (registered ((designObjs z aq ag m).map Op.add)) := by rw [hM1]; exact refines_reachable _
  rw [← hM1, ← hM2] at hM ⊢
  have hk : M.vars.keys = M.marg.map DistObj.name := by
    rw [hr.vars, hr.marg]
    simp [Dict.keys, Function.comp_def]
  have hlen : M'.marg.length = M.marg.length := hM.marg.length_eq.symm
  have hofn : M.marg.map DistObj.name = List.ofFn fun i : Fin M.marg.length => (M.marg.get i).name := by
    conv_lhs => rw [← List.ofFn_get M.marg]
    rw [List.map_ofFn]; rfl
  have hready : Ready (resistanceUnits a) (fun k => if k = "R" then D else Set.univ) (fun i : Fin M.marg.length => (M.marg.get i).name)
      M.marg ⟨M, []⟩ ⟨M', []⟩ := ⟨⟨hM, rfl⟩, hk.trans hofn, hofn, rfl⟩
  have hf := formRun_units hready (resistanceUnits_ne ha) { c with expr := arrayFn lsfKw } (expr' := arrayFn lsfKw)
    (by rw [SameFunction, if_neg hmode]; exact arrayFn_units ha) o
  rw [formBeta_eq c o M' lsfKw hlen, formBeta_eq c o M lsfKw rfl]
  have hnames : M'.getNames = M.getNames := hM.names
  rw [hnames]
  rcases lsfKw (fun k => if k ∈ M.getNames then some 0 else none) with e | v
  · rfl
  dsimp only at hf ⊢
  rcases g1 : formRun { c with expr := arrayFn lsfKw } M.marg.length o ⟨M, []⟩ with _ | ⟨s, r⟩ <;>
    rcases g2 : formRun { c with expr := arrayFn lsfKw } M.marg.length o ⟨M', []⟩ with _ | ⟨s', r'⟩ <;> rw [g1, g2] at hf
  · exact hf.elim
  · exact hf.elim
  · rcases hf with ⟨x, y, q, -, h3, h4⟩ | ⟨x, y, q, -, h3, h4, h5⟩
    · simp only [Prod.mk.injEq] at h3 h4
      rw [h3.2, h4.2]; rfl
    · simp only [Prod.mk.injEq] at h3 h4
      rw [h3.2, h4.2]
      rcases h5 with rfl | ⟨e, rfl⟩ <;> rfl

theorem designOf_units {D : Type} {a : ℝ} (ha : a ≠ 0) {m m' : GenericModel D} (hR : m'.Rk = m.Rk.map (a * ·))
    (hrest : m'.phi = m.phi ∧ m'.gammaG = m.gammaG ∧ m'.gammaP = m.gammaP ∧ m'.gammaQ = m.gammaQ ∧ m'.Gk = m.Gk ∧ m'.Pk = m.Pk ∧
      m'.Qk = m.Qk) (aq ag : ℝ) :
    designOf aq ag m' = (designOf aq ag m).map (1 / a * ·) := by
  obtain ⟨h1, h2, h3, h4, h5, h6, h7⟩ := hrest
  unfold designOf
  rw [hR, h1, h2, h3, h4, h5, h6, h7]
  rcases m.phi with _ | phi
  · rfl
  rcases m.Rk with _ | Rk
  · rfl
  simp only [Option.map_some]
  have e : phi * (a * Rk) = 0 ↔ phi * Rk = 0 := by
    simp [ha]
  by_cases h : phi * Rk = 0
  · rw [if_pos (e.2 h), if_pos h]; rfl
  rw [if_neg (fun h' => h (e.1 h')), if_neg h]
  rcases m.gammaG with _ | gg
  · rfl
  rcases m.Gk with _ | Gk
  · rfl
  rcases m.gammaP with _ | gp
  · rfl
  rcases m.Pk with _ | Pk
  · rfl
  rcases m.gammaQ with _ | gq
  · rfl
  rcases m.Qk with _ | Qk
  · rfl
  simp only [design]
  rw [if_neg (fun h' => h (e.1 h')), if_neg h]
  simp only [Except.map]
  congr 1
  rw [show phi * (a * Rk) = a * (phi * Rk) by ring]
  field_simp

theorem mapE_congr {A B : Type} {f g : A → Except PyErr B} (h : ∀ x, f x = g x) (l : List A) : mapE f l = mapE g l := by
  rw [funext h]

/-- **C117 (unit of the resistance).**  With the FORM analysis of the code, whatever its options: writing the resistance — its law and
its nominal value — in another unit changes nothing in the reliability indices that `get_reliabilities` reports over the whole grid of
load ratios, nor in whether it raises, and what. -/
theorem C117_units {c : Setup} (hmode : c.lsopt.diffMode ≠ "ddm") (o : Form.Options) {a : ℝ} (ha : a ≠ 0) {D : Set ℝ}
    {m m' : GenericModel Marginal} (h : ResistanceInUnit a D m m') (hn : ProperlyNamed m) (aqs ags : List ℝ) :
    getReliabilities (formBeta c o) aqs ags m' = getReliabilities (formBeta c o) aqs ags m := by
  unfold getReliabilities
  refine mapE_congr (fun ag => mapE_congr (fun aq => ?_) _) _
  unfold cell
  have hr := h.rest
  rw [designOf_units ha h.nominal (by rw [hr]; exact ⟨rfl, rfl, rfl, rfl, rfl, rfl, rfl⟩) aq ag]
  rcases designOf aq ag m with e | z
  · rfl
  · exact analyseDesign_units hmode o ha h hn z aq ag

/-- **C117 (partial factors).**  Whatever the analysis: multiplying the resistance factor and all load factors by the same number changes
nothing — only their ratios matter. -/
theorem C117_factors {D : Type} (form : StochModel D ℝ → (LoadComb.Args → Except PyErr ℝ) → Except PyErr ℝ) (m : GenericModel D)
    {k : ℝ} (hk : k ≠ 0) (phi gg gp gq : ℝ) (aqs ags : List ℝ) :
    getReliabilities form aqs ags (m.setFactors (k * phi) (k * gg) (k * gp) (k * gq)) =
      getReliabilities form aqs ags (m.setFactors phi gg gp gq) := by
  unfold getReliabilities
  refine mapE_congr (fun ag => mapE_congr (fun aq => ?_) _) _
  unfold cell
  have e : designOf aq ag (m.setFactors (k * phi) (k * gg) (k * gp) (k * gq)) = designOf aq ag (m.setFactors phi gg gp gq) := by
    unfold designOf GenericModel.setFactors
    dsimp only
    rcases m.Rk with _ | Rk
    · rfl
    dsimp only
    have e : k * phi * Rk = 0 ↔ phi * Rk = 0 := by simp [hk]
    by_cases h : phi * Rk = 0
    · rw [if_pos (e.2 h), if_pos h]
    rw [if_neg (fun h' => h (e.1 h')), if_neg h]
    rcases m.Gk with _ | Gk
    · rfl
    rcases m.Pk with _ | Pk
    · rfl
    rcases m.Qk with _ | Qk
    · rfl
    simp only [design]
    rw [if_neg (fun h' => h (e.1 h')), if_neg h]
    congr 1
    rw [show k * phi * Rk = k * (phi * Rk) by ring]
    field_simp
  rw [e]
  rfl

/-- With the live load alone, the limit-state function does not depend on the dead load ratio. -/
theorem lsfKw_live {A B : LoadComb.Args} (h : ∀ k, k ≠ "ag" → A k = B k) {v w : ℝ} (hA : A "ag" = some v) (hB : B "ag" = some w)
    (hq : A "aq" = some 1) : lsfKw A = lsfKw B := by
  have hc : (∃ k, A k ≠ none ∧ k ∉ (["z", "aq", "ag", "wR", "R", "wS", "G", "P", "Q"] : List String)) ↔
      ∃ k, B k ≠ none ∧ k ∉ (["z", "aq", "ag", "wR", "R", "wS", "G", "P", "Q"] : List String) := by
    refine exists_congr fun k => ?_
    by_cases hk : k = "ag"
    · subst hk; simp
    · rw [h k hk]
  unfold lsfKw
  by_cases h' : ∃ k, A k ≠ none ∧ k ∉ (["z", "aq", "ag", "wR", "R", "wS", "G", "P", "Q"] : List String)
  · rw [if_pos (hc.1 h'), if_pos h']
  · rw [if_neg (fun h'' => h' (hc.2 h'')), if_neg h']
    rw [← h "z" (by simp), ← h "aq" (by simp), ← h "wR" (by simp), ← h "R" (by simp), ← h "wS" (by simp), ← h "G" (by simp),
      ← h "P" (by simp), ← h "Q" (by simp), hA, hB, hq]
    rcases A "z" with _ | z
    · rfl
    rcases A "wR" with _ | wR
    · rfl
    rcases A "R" with _ | R
    · rfl
    rcases A "wS" with _ | wS
    · rfl
    rcases A "G" with _ | G
    · rfl
    rcases A "P" with _ | P
    · rfl
    rcases A "Q" with _ | Q
    · rfl
    simp [lsf]

theorem head_length {kw : Kwargs} {nc : ℕ} (h : ∀ e ∈ kw, e.2.length = nc) {k : String} (hk : Dict.get? kw k ≠ none) :
    (kw.head?.map fun e => e.2.length) = some nc := by
  cases kw with
  | nil => exact absurd rfl hk
  | cons e t => simp [h e (by simp)]

theorem getD_replicate {nc i : ℕ} (v : ℝ) (h : i < nc) : (List.replicate nc v).getD i 0 = v := by
  simp [List.getD_eq_getElem?_getD, h]

/-- The constants of the model of a design. -/
def designConsts (z aq ag : ℝ) : Dict String ℝ := [("z", z), ("aq", aq), ("ag", ag)]

theorem designConsts_get (nc : ℕ) (z aq ag : ℝ) (d : Kwargs) :
    Dict.get? (bindConsts nc (designConsts z aq ag) d) "ag" = some (List.replicate nc ag) ∧
    Dict.get? (bindConsts nc (designConsts z aq ag) d) "aq" = some (List.replicate nc aq) ∧
    Dict.get? (bindConsts nc (designConsts z aq ag) d) "z" = some (List.replicate nc z) ∧
    ∀ k, k ≠ "z" → k ≠ "aq" → k ≠ "ag" → Dict.get? (bindConsts nc (designConsts z aq ag) d) k = Dict.get? d k := by
  simp only [designConsts, bindConsts]
  refine ⟨get?_set_self _ _ _, ?_, ?_, fun k h1 h2 h3 => ?_⟩
  · rw [get?_set_other _ _ _ _ (by simp), get?_set_self]
  · rw [get?_set_other _ _ _ _ (by simp), get?_set_other _ _ _ _ (by simp), get?_set_self]
  · rw [get?_set_other _ _ _ _ h3.symm, get?_set_other _ _ _ _ h2.symm, get?_set_other _ _ _ _ h1.symm]

theorem arrayFn_live {nc : ℕ} (z ag ag' : ℝ) {d : Kwargs} (hd : ∀ e ∈ d, e.2.length = nc) :
    arrayFn lsfKw (bindConsts nc (designConsts z 1 ag) d) = arrayFn lsfKw (bindConsts nc (designConsts z 1 ag') d) := by
  obtain ⟨a1, a2, a3, a4⟩ := designConsts_get nc z 1 ag d
  obtain ⟨b1, b2, b3, b4⟩ := designConsts_get nc z 1 ag' d
  unfold arrayFn
  rw [head_length (bindConsts_length _ _ _ hd) (k := "ag") (by rw [a1]; simp),
    head_length (bindConsts_length _ _ _ hd) (k := "ag") (by rw [b1]; simp)]
  congr 2
  refine List.map_congr_left fun i hi => ?_
  have hi : i < nc := by simpa using hi
  rw [lsfKw_live (B := fun k => (Dict.get? (bindConsts nc (designConsts z 1 ag') d) k).map fun row => row.getD i 0) (v := ag) (w := ag')]
  · intro k hk
    by_cases h1 : k = "z"
    · subst h1; rw [a3, b3]
    by_cases h2 : k = "aq"
    · subst h2; rw [a2, b2]
    · rw [a4 k h1 h2 hk, b4 k h1 h2 hk]
  · rw [a1, Option.map_some, getD_replicate _ hi]
  · rw [b1, Option.map_some, getD_replicate _ hi]
  · rw [a2, Option.map_some, getD_replicate _ hi]

/-- The same model with other constants. -/
def withConsts {D : Type} (cs : Dict String ℝ) (m : StochModel D ℝ) : StochModel D ℝ :=
  ⟨m.vars, m.names, m.marg, m.correlation, m.Ro, m.callFunction, cs⟩

/-- Two analyses of the same design that differ in the dead load ratio only, with the live load alone. -/
def LivePair (z ag ag' : ℝ) (s t : Ev Marginal) : Prop :=
  s.model.consts = designConsts z 1 ag ∧ t.model = withConsts (designConsts z 1 ag') s.model

theorem live_twin {c : Setup} (hc : c.expr = arrayFn lsfKw) (z ag ag' : ℝ) : Twin c (arrayFn lsfKw) (LivePair z ag ag') where
  call := by
    rintro s t ⟨h1, h2⟩ n x ddm
    unfold computeLsf
    rw [hc, h2]
    have hi : inpdict s.model x = match bindVars x s.model.vars.keys 0 [] with
      | .ok d => .ok (bindConsts x.length (designConsts z 1 ag) d)
      | .error e => .error e := by
      unfold inpdict StochModel.getVariables StochModel.getConstants
      rw [h1]; rfl
    have hi' : inpdict (withConsts (designConsts z 1 ag') s.model) x = match bindVars x s.model.vars.keys 0 [] with
      | .ok d => .ok (bindConsts x.length (designConsts z 1 ag') d)
      | .error e => .error e := rfl
    rw [hi, hi']
    rcases hb : bindVars x s.model.vars.keys 0 [] with e | d <;> dsimp only
    · exact ⟨⟨h1, h2⟩, rfl⟩
    · refine ⟨⟨h1, rfl⟩, ?_⟩
      rw [arrayFn_live z ag ag' (bindVars_length x _ 0 [] _ (by simp) hb)]
  count := by rintro s t ⟨h1, h2⟩ k; exact ⟨h1, by simp only [h2]; rfl⟩
  setRo := by rintro s t ⟨h1, h2⟩ A; exact ⟨h1, by simp only [h2]; rfl⟩
  marg := by rintro s t ⟨h1, h2⟩; rw [h2]; rfl
  correlation := by rintro s t ⟨h1, h2⟩; rw [h2]; rfl

/-- The models of a design for two dead load ratios. -/
theorem design_consts {D : Type} (z aq ag ag' : ℝ) (m : GenericModel D) (hn : ProperlyNamed m)
    (h : LoadComb.addAll init (designObjs z aq ag m) = .ok (init.run ((designObjs z aq ag m).map Op.add))) :
    (init.run ((designObjs z aq ag m).map Op.add)).consts = designConsts z aq ag ∧
    init.run ((designObjs z aq ag' m).map Op.add) =
      withConsts (designConsts z aq ag') (init.run ((designObjs z aq ag m).map Op.add)) := by
  have hs : ∀ x ∈ designObjs z aq ag m, (objName x).isSome :=
    ((LoadComb.addAll_refines (D := D) (designObjs z aq ag m) init [] (refines_reachable [])).1.1 ⟨_, h⟩).1
  have key : ∀ x : Option (DistObj D), toObj x ∈ designObjs z aq ag m → ∃ d, x = some d := by
    intro x hx
    rcases x with _ | d
    · have := hs _ hx
      simp [toObj, objName] at this
    · exact ⟨d, rfl⟩
  obtain ⟨⟨k1, b1⟩, e1⟩ := key m.wR (by simp [designObjs])
  obtain ⟨⟨k2, b2⟩, e2⟩ := key m.R (by simp [designObjs])
  obtain ⟨⟨k3, b3⟩, e3⟩ := key m.wS (by simp [designObjs])
  obtain ⟨⟨k4, b4⟩, e4⟩ := key m.G (by simp [designObjs])
  obtain ⟨⟨k5, b5⟩, e5⟩ := key m.P (by simp [designObjs])
  obtain ⟨⟨k6, b6⟩, e6⟩ := key m.Q (by simp [designObjs])
  obtain rfl : k1 = "wR" := hn.wR _ e1
  obtain rfl : k2 = "R" := hn.R _ e2
  obtain rfl : k3 = "wS" := hn.wS _ e3
  obtain rfl : k4 = "G" := hn.G _ e4
  obtain rfl : k5 = "P" := hn.P _ e5
  obtain rfl : k6 = "Q" := hn.Q _ e6
  unfold designObjs
  rw [e1, e2, e3, e4, e5, e6]
  simp [toObj, StochModel.run, StochModel.step, withConsts, StochModel.addVariable, StochModel.init, designConsts, Dict.set, Dict.keys]

/-- **C117 (live load alone).**  In the column of the load ratio `aq = 1` every dead load ratio gives the same reliability index, or the
same exception. -/
theorem C117_live (c : Setup) (o : Form.Options) {m : GenericModel Marginal} (hn : ProperlyNamed m) (ag ag' : ℝ) :
    cell (formBeta c o) m ag 1 = cell (formBeta c o) m ag' 1 := by
  have hd : designOf 1 ag m = designOf 1 ag' m := by
    unfold designOf design
    simp
  unfold cell
  rw [hd]
  rcases designOf 1 ag' m with e | z
  · rfl
  dsimp only
  unfold analyseDesign
  rcases addAll_outcome (designObjs z 1 ag m) (designObjs z 1 ag' m) (by simp [designObjs, objName]) with ⟨h1, h2⟩ | ⟨h1, h2⟩
  · unfold designObjs at h1 h2
    rw [h1, h2]
  obtain ⟨hc, hw⟩ := design_consts z 1 ag ag' m hn h1
  have h1' := h1
  have h2' := h2
  unfold designObjs at h1' h2'
  rw [h1', h2']
  dsimp only
  change formBeta c o (init.run ((designObjs z 1 ag m).map Op.add)) lsfKw =
    formBeta c o (init.run ((designObjs z 1 ag' m).map Op.add)) lsfKw
  rw [hw]
  obtain ⟨M, hM⟩ : ∃ M : StochModel Marginal ℝ, M = init.run ((designObjs z 1 ag m).map Op.add) := ⟨_, rfl⟩
  rw [← hM] at hc ⊢
  rw [formBeta_eq c o M lsfKw rfl, formBeta_eq c o (withConsts (designConsts z 1 ag') M) lsfKw (n := M.marg.length) rfl]
  have hnames : (withConsts (designConsts z 1 ag') M).getNames = M.getNames := rfl
  rw [hnames]
  rcases lsfKw (fun k => if k ∈ M.getNames then some 0 else none) with e | v
  · rfl
  dsimp only
  have ht := formRun_twin (n := M.marg.length) (live_twin (c := { c with expr := arrayFn lsfKw }) rfl z ag ag') o
    (s := ⟨M, []⟩) (t := ⟨withConsts (designConsts z 1 ag') M, []⟩) ⟨hc, rfl⟩
  have hw' : ({ c with expr := arrayFn lsfKw } : Setup).withExpr (arrayFn lsfKw) = { c with expr := arrayFn lsfKw } := rfl
  rw [hw'] at ht
  rcases ht with ⟨g1, g2⟩ | ⟨⟨a1, a2⟩, ⟨b1, b2⟩, g1, g2, hR, hab⟩
  · rw [g1, g2]
  · rw [g1, g2]
    have hab : a2 = b2 := hab
    rw [hab]
    rcases b2 with r | (_ | _) <;> rfl

end Pystra.Props
