import Verif.Model.GenericCalib
import Verif.Lemmas.LoadComb
import Mathlib.Tactic.Linarith
import Mathlib.Tactic.FieldSimp
import Mathlib.Tactic.NormNum

/-! C61, C62: the generic code calibration. -/

namespace Pystra.Props
open GenericCalib

variable {D : Type}

/-- C61: the design parameter.  `design` fails exactly when the factored resistance `φ R_k` is zero; otherwise it returns the one number `z`
for which the factored resistance times `z` equals the factored load effect. -/
theorem C61_design (aq ag phi gg gp gq Rk Gk Pk Qk z : ℝ) :
    design aq ag phi gg gp gq Rk Gk Pk Qk = .ok z ↔
      phi * Rk ≠ 0 ∧ phi * Rk * z = (1 - aq) * (ag * (gg * Gk) + (1 - ag) * (gp * Pk)) + aq * (gq * Qk) := by
  unfold design
  split
  · next h => simp [h]
  · next h =>
    simp only [Except.ok.injEq, h, ne_eq, not_false_eq_true, true_and]
    constructor
    · rintro rfl
      rw [← mul_assoc, mul_one_div_cancel h]
      ring
    · intro e
      have : z = 1 / (phi * Rk) * (phi * Rk * z) := by rw [← mul_assoc, one_div_mul_cancel h, one_mul]
      rw [this, e]
      ring

/-- C61: the design is exactly on the limit state at the factored values: with model errors 1, resistance `φ R_k` and loads `γ S_k`, the
limit-state function vanishes. -/
theorem C61_limit_state {aq ag phi gg gp gq Rk Gk Pk Qk z : ℝ} (h : design aq ag phi gg gp gq Rk Gk Pk Qk = .ok z) :
    lsf z aq ag 1 (phi * Rk) 1 (gg * Gk) (gp * Pk) (gq * Qk) = 0 := by
  obtain ⟨-, h⟩ := (C61_design ..).1 h
  unfold lsf
  linarith

/-- C61: for load ratios between 0 and 1 the factored resistance needed lies between the smallest and the largest factored load. -/
theorem C61_between {aq ag phi gg gp gq Rk Gk Pk Qk z lo hi : ℝ} (h : design aq ag phi gg gp gq Rk Gk Pk Qk = .ok z)
    (hq : 0 ≤ aq ∧ aq ≤ 1) (hg : 0 ≤ ag ∧ ag ≤ 1) (hG : lo ≤ gg * Gk ∧ gg * Gk ≤ hi) (hP : lo ≤ gp * Pk ∧ gp * Pk ≤ hi)
    (hQ : lo ≤ gq * Qk ∧ gq * Qk ≤ hi) : lo ≤ phi * Rk * z ∧ phi * Rk * z ≤ hi := by
  obtain ⟨-, h⟩ := (C61_design ..).1 h
  rw [h]
  have a1 : lo ≤ ag * (gg * Gk) + (1 - ag) * (gp * Pk) := by
    nlinarith [mul_le_mul_of_nonneg_left hG.1 hg.1, mul_le_mul_of_nonneg_left hP.1 (sub_nonneg.2 hg.2)]
  have a2 : ag * (gg * Gk) + (1 - ag) * (gp * Pk) ≤ hi := by
    nlinarith [mul_le_mul_of_nonneg_left hG.2 hg.1, mul_le_mul_of_nonneg_left hP.2 (sub_nonneg.2 hg.2)]
  constructor
  · nlinarith [mul_le_mul_of_nonneg_left a1 (sub_nonneg.2 hq.2), mul_le_mul_of_nonneg_left hQ.1 hq.1]
  · nlinarith [mul_le_mul_of_nonneg_left a2 (sub_nonneg.2 hq.2), mul_le_mul_of_nonneg_left hQ.2 hq.1]

theorem mapE_ok {A B : Type} (f : A → Except PyErr B) : ∀ (l : List A) (r : List B), mapE f l = .ok r →
    r.length = l.length ∧ ∀ (i : ℕ) (a : A), l[i]? = some a → ∃ b, r[i]? = some b ∧ f a = .ok b := by
  intro l
  induction l with
  | nil =>
    intro r h
    simp only [mapE, Except.ok.injEq] at h
    subst h
    exact ⟨rfl, fun i a h => by cases i <;> cases h⟩
  | cons x t ih =>
    intro r h
    rw [mapE] at h
    split at h
    · cases h
    · next b hb =>
      split at h
      · cases h
      · next r' hr' =>
        injection h with h
        subst h
        obtain ⟨h1, h2⟩ := ih r' hr'
        refine ⟨by simp [h1], fun i a hi => ?_⟩
        cases i with
        | zero =>
          simp only [List.getElem?_cons_zero, Option.some.injEq] at hi
          subst hi
          exact ⟨b, rfl, hb⟩
        | succ i => exact h2 i a hi

theorem mapE_error {A B : Type} (f : A → Except PyErr B) : ∀ (l : List A) (e : PyErr), mapE f l = .error e → ∃ a ∈ l, f a = .error e := by
  intro l
  induction l with
  | nil => intro e h; cases h
  | cons x t ih =>
    intro e h
    rw [mapE] at h
    split at h
    · next e' he =>
      injection h with h
      subst h
      exact ⟨x, by simp, he⟩
    · split at h
      · next e' he =>
        injection h with h
        subst h
        obtain ⟨a, ha, h⟩ := ih _ he
        exact ⟨a, List.mem_cons_of_mem _ ha, h⟩
      · cases h

/-- A model with all its attributes. -/
def complete (phi gg gp gq : ℝ) (wR wS R G P Q : DistObj D) (Rk Gk Pk Qk : ℝ) : GenericModel D :=
  ((GenericModel.init.setFactors phi gg gp gq).setDistributions wR wS R G P Q).setNominals Rk Gk Pk Qk

/-- C61: the reliabilities on the grid.  Entry `(i, j)` belongs to the `i`-th dead load ratio and the `j`-th live load ratio: it is the
index that FORM reports for the six random variables of the model and the constants `z`, `aq`, `ag`, where `z` solves the design
equation for these ratios, with the generic limit-state function. -/
theorem C61_grid (form : StochModel D ℝ → (LoadComb.Args → Except PyErr ℝ) → Except PyErr ℝ) (aqs ags : List ℝ)
    {phi gg gp gq : ℝ} {wR wS R G P Q : DistObj D} {Rk Gk Pk Qk : ℝ} {B : List (List ℝ)}
    (h : getReliabilities form aqs ags (complete phi gg gp gq wR wS R G P Q Rk Gk Pk Qk) = .ok B) :
    B.length = ags.length ∧
    ∀ (i : ℕ) (ag : ℝ), ags[i]? = some ag → ∃ row, B[i]? = some row ∧ row.length = aqs.length ∧
    ∀ (j : ℕ) (aq : ℝ), aqs[j]? = some aq → ∃ β z sm, row[j]? = some β ∧
      phi * Rk * z = (1 - aq) * (ag * (gg * Gk) + (1 - ag) * (gp * Pk)) + aq * (gq * Qk) ∧
      form sm lsfKw = .ok β ∧
      sm.getMarginalDistributions = [wR, R, wS, G, P, Q] ∧ sm.getConstants = [("z", z), ("aq", aq), ("ag", ag)] ∧
      sm.getNames = [wR.name, R.name, wS.name, G.name, P.name, Q.name, "z", "aq", "ag"] ∧
      sm.correlation = some (NDArray2.eye 6) := by
  obtain ⟨h1, h2⟩ := mapE_ok _ _ _ h
  refine ⟨h1, fun i ag hi => ?_⟩
  obtain ⟨row, hr, hrow⟩ := h2 i ag hi
  obtain ⟨r1, r2⟩ := mapE_ok _ _ _ hrow
  refine ⟨row, hr, r1, fun j aq hj => ?_⟩
  obtain ⟨β, hβ, hcell⟩ := r2 j aq hj
  unfold cell at hcell
  split at hcell
  · cases hcell
  · next z hz =>
    have hz' : design aq ag phi gg gp gq Rk Gk Pk Qk = .ok z := by
      unfold designOf complete at hz
      simp only [GenericModel.setFactors, GenericModel.setDistributions, GenericModel.setNominals] at hz
      split at hz
      · cases hz
      · exact hz
    unfold analyseDesign at hcell
    split at hcell
    · cases hcell
    · next sm hsm =>
      have hr0 : StochModel.Refines (StochModel.init : StochModel D ℝ) [] := ⟨rfl, rfl, rfl, rfl, by simp [StochModel.init]⟩
      obtain ⟨hR, -, -, -, hcor⟩ := (LoadComb.addAll_refines _ _ [] hr0).2.1 sm hsm
      refine ⟨β, z, sm, hβ, ((C61_design ..).1 hz').2, hcell, hR.marg, hR.consts, hR.names, ?_⟩
      have hmarg : sm.marg.length = 6 := by rw [hR.marg]; rfl
      rw [hcor (by simp [complete, GenericModel.setFactors, GenericModel.setDistributions, GenericModel.setNominals, toObj, Spec.dists]),
        hmarg]

/-- C61: when the six variables are named `wR`, `R`, `wS`, `G`, `P`, `Q` the limit state that FORM evaluates is the generic one. -/
theorem C61_arguments (z aq ag wR R wS G P Q : ℝ) :
    lsfKw (fun k => Dict.get? [("wR", wR), ("R", R), ("wS", wS), ("G", G), ("P", P), ("Q", Q), ("z", z), ("aq", aq), ("ag", ag)] k) =
      .ok (z * wR * R - wS * ((1 - aq) * (ag * G + (1 - ag) * P) + aq * Q)) := by
  unfold lsfKw
  rw [if_neg]
  · simp [Dict.get?, lsf]
  · rintro ⟨k, hk, hn⟩
    apply hk
    simp only [List.mem_cons, not_or, List.not_mem_nil, not_false_eq_true, and_true] at hn
    obtain ⟨n1, n2, n3, n4, n5, n6, n7, n8, n9⟩ := hn
    simp [Dict.get?, Ne.symm n1, Ne.symm n2, Ne.symm n3, Ne.symm n4, Ne.symm n5, Ne.symm n6, Ne.symm n7, Ne.symm n8, Ne.symm n9]

/-- C61: a model with a missing number, or with no resistance (`φ R_k = 0`), is rejected in every cell. -/
theorem C61_incomplete (m : GenericModel D) (aq ag : ℝ)
    (h : m.phi = none ∨ m.Rk = none ∨ m.gammaG = none ∨ m.Gk = none ∨ m.gammaP = none ∨ m.Pk = none ∨ m.gammaQ = none ∨ m.Qk = none ∨
      (∃ a b, m.phi = some a ∧ m.Rk = some b ∧ a * b = 0)) :
    ∃ e, designOf aq ag m = .error e ∧ (e = .typeError ∨ e = .zeroDivision) := by
  obtain ⟨phi, gG, gP, gQ, wR, wS, R, G, P, Q, Rk, Gk, Pk, Qk⟩ := m
  simp only [designOf]
  dsimp only at h
  cases phi with
  | none => exact ⟨_, rfl, Or.inl rfl⟩
  | some phi =>
  cases Rk with
  | none => exact ⟨_, rfl, Or.inl rfl⟩
  | some Rk =>
  by_cases h0 : phi * Rk = 0
  · exact ⟨.zeroDivision, by simp [h0], Or.inr rfl⟩
  · simp only [if_neg h0]
    split
    · next hh =>
      simp at h
      exact absurd (mul_eq_zero.2 h) h0
    · exact ⟨_, rfl, Or.inl rfl⟩

/-! ### C62 -/

theorem analyseLoop_ok (form : StochModel D ℝ → (LoadComb.Args → Except PyErr ℝ) → Except PyErr ℝ) (heap : ℕ → GenericModel D)
    (aqs ags : List ℝ) : ∀ (l l' : List ProbModel), analyseLoop form heap aqs ags l = (l', .ok ()) →
      List.Forall₂ (fun p p' => ∃ b, getReliabilities form aqs ags (heap p.model) = .ok b ∧ p' = { p with betas := some b }) l l' := by
  intro l
  induction l with
  | nil => intro l' h; simp only [analyseLoop, Prod.mk.injEq] at h; rw [← h.1]; exact List.Forall₂.nil
  | cons p t ih =>
    intro l' h
    rw [analyseLoop] at h
    split at h
    · simp at h
    · next b hb =>
      simp only [Prod.mk.injEq] at h
      obtain ⟨rfl, h2⟩ := h
      exact List.Forall₂.cons ⟨b, hb, rfl⟩ (ih (analyseLoop form heap aqs ags t).1 (by rw [← h2]))

theorem analyseLoop_error (form : StochModel D ℝ → (LoadComb.Args → Except PyErr ℝ) → Except PyErr ℝ) (heap : ℕ → GenericModel D)
    (aqs ags : List ℝ) : ∀ (l l' : List ProbModel) (e : PyErr), analyseLoop form heap aqs ags l = (l', .error e) →
      ∃ done p rest done', l = done ++ p :: rest ∧ l' = done' ++ p :: rest ∧
        getReliabilities form aqs ags (heap p.model) = .error e ∧
        List.Forall₂ (fun p p' => ∃ b, getReliabilities form aqs ags (heap p.model) = .ok b ∧ p' = { p with betas := some b }) done done' := by
  intro l
  induction l with
  | nil => intro l' e h; simp [analyseLoop] at h
  | cons p t ih =>
    intro l' e h
    rw [analyseLoop] at h
    split at h
    · next e' he =>
      simp only [Prod.mk.injEq, Except.error.injEq] at h
      obtain ⟨rfl, rfl⟩ := h
      exact ⟨[], p, t, [], rfl, rfl, he, List.Forall₂.nil⟩
    · next b hb =>
      simp only [Prod.mk.injEq] at h
      obtain ⟨rfl, h2⟩ := h
      obtain ⟨done, q, rest, done', e1, e2, e3, e4⟩ := ih (analyseLoop form heap aqs ags t).1 e (by rw [← h2])
      exact ⟨p :: done, q, rest, { p with betas := some b } :: done', by rw [e1]; rfl, by rw [e2]; rfl, e3, List.Forall₂.cons ⟨b, hb, rfl⟩ e4⟩

/-- C62: `analyse`.  Without models it raises `ValueError` and changes nothing.  If it succeeds, the calibration is marked as analysed
and every model has, in place, the reliabilities of its current parameters on the grid. -/
theorem C62_analyse (form : StochModel D ℝ → (LoadComb.Args → Except PyErr ℝ) → Except PyErr ℝ) (heap : ℕ → GenericModel D)
    (g : GenericCalib) :
    (g.probModels = [] → g.analyse form heap = (g, .error .valueError)) ∧
    ∀ g', g.analyse form heap = (g', .ok ()) → g'.isAnalysed = true ∧ g'.aqPoints = g.aqPoints ∧ g'.agPoints = g.agPoints ∧
      List.Forall₂ (fun p p' => ∃ b, getReliabilities form g.aqPoints g.agPoints (heap p.model) = .ok b ∧ p' = { p with betas := some b })
        g.probModels g'.probModels := by
  constructor
  · intro h; rw [analyse, if_pos h]
  · intro g' h
    unfold analyse at h
    split at h
    · simp at h
    · dsimp only at h
      split at h
      · simp at h
      · next hok =>
        simp only [Prod.mk.injEq, and_true] at h
        subst h
        exact ⟨rfl, rfl, rfl, analyseLoop_ok form heap _ _ _ _ (Prod.ext rfl hok)⟩

/-- C62: adding a model invalidates the results: `plot` raises until the calibration has been analysed again. -/
theorem C62_add (g : GenericCalib) (i : ℕ) (color label : String) :
    (g.addModel i color label).plot = .error .valueError ∧
    (g.addModel i color label).probModels = g.probModels ++ [⟨i, none, color, label⟩] := ⟨rfl, rfl⟩

/-- C62: what `plot` draws, over all histories.  Starting from a new calibration, after any sequence of `add_model`, `analyse` (with
exceptions caught), `plot` and changes of the models, `plot` succeeds exactly if some `analyse` call has succeeded after the last
`add_model`; and then it draws every model that was added, in order, each with a table of reliabilities. -/
theorem C62_history (form : StochModel D ℝ → (LoadComb.Args → Except PyErr ℝ) → Except PyErr ℝ) (heap : ℕ → GenericModel D)
    (aqs ags : List ℝ) (ops : List (Op D)) :
    let s := runOps form ⟨heap, GenericCalib.new aqs ags⟩ ops
    ((∃ d, s.calib.plot = .ok d) ↔
      ∃ before after, ops = before ++ Op.analyse :: after ∧
        (let s1 := runOps form ⟨heap, GenericCalib.new aqs ags⟩ before
         (s1.calib.analyse form s1.heap).2 = .ok ()) ∧
        ∀ o ∈ after, ∀ i c l, o ≠ Op.addModel i c l) ∧
    (∀ d, s.calib.plot = .ok d → ∀ p ∈ d, p.betas.isSome) ∧
    (s.calib.probModels.map (fun p => (p.model, p.color, p.label)) =
      ops.filterMap (fun o => match o with
        | Op.addModel i c l => some (i, c, l)
        | _ => none)) ∧
    s.calib.aqPoints = aqs ∧ s.calib.agPoints = ags := by
  intro s
  have hplot : ∀ g : GenericCalib, (∃ d, g.plot = .ok d) ↔ g.isAnalysed = true := by
    intro g
    unfold plot
    split
    · next h => simp [h]
    · next h => simp [h]
  suffices H : ∀ ops : List (Op D), let s := runOps form ⟨heap, GenericCalib.new aqs ags⟩ ops
      (s.calib.isAnalysed = true ↔
        ∃ before after, ops = before ++ Op.analyse :: after ∧
          (let s1 := runOps form ⟨heap, GenericCalib.new aqs ags⟩ before
           (s1.calib.analyse form s1.heap).2 = .ok ()) ∧
          ∀ o ∈ after, ∀ i c l, o ≠ Op.addModel i c l) ∧
      (s.calib.isAnalysed = true → ∀ p ∈ s.calib.probModels, p.betas.isSome) ∧
      (s.calib.probModels.map (fun p => (p.model, p.color, p.label)) =
        ops.filterMap (fun o => match o with
          | Op.addModel i c l => some (i, c, l)
          | _ => none)) ∧
      s.calib.aqPoints = aqs ∧ s.calib.agPoints = ags by
    obtain ⟨h1, h2, h3⟩ := H ops
    refine ⟨(hplot _).trans h1, fun d hd => ?_, h3⟩
    have hia := (hplot s.calib).1 ⟨d, hd⟩
    have : d = s.calib.probModels := by
      rw [plot, if_pos hia] at hd
      injection hd with hd
      exact hd.symm
    rw [this]
    exact h2 hia
  clear hplot s ops
  intro ops
  induction ops using List.reverseRecOn with
  | nil =>
    refine ⟨?_, ?_, rfl, rfl, rfl⟩
    · refine ⟨fun h => ?_, ?_⟩
      · simp [runOps, GenericCalib.new] at h
      · rintro ⟨b, a, h, -⟩
        simp at h
    · intro h
      simp [runOps, GenericCalib.new] at h
  | append_singleton ops o ih =>
    obtain ⟨h1, h2, h3, h4, h5⟩ := ih
    intro s'
    have hs' : s' = step form (runOps form ⟨heap, GenericCalib.new aqs ags⟩ ops) o := by
      simp only [s', runOps, List.foldl_append, List.foldl_cons, List.foldl_nil]
    set s := runOps form ⟨heap, GenericCalib.new aqs ags⟩ ops with hs
    -- splitting off the last operation
    have hsplit : ∀ (b a : List (Op D)), ops ++ [o] = b ++ Op.analyse :: a →
        (a = [] ∧ b = ops ∧ o = Op.analyse) ∨ ∃ a', a = a' ++ [o] ∧ ops = b ++ Op.analyse :: a' := by
      intro b a h
      rcases List.eq_nil_or_concat a with rfl | ⟨a', x, rfl⟩
      · left
        have := List.append_inj' h rfl
        exact ⟨rfl, this.1.symm, by simpa using this.2⟩
      · right
        have h' : ops ++ [o] = (b ++ Op.analyse :: a') ++ [x] := by rw [h]; simp
        have := List.append_inj' h' rfl
        refine ⟨a', ?_, this.1⟩
        have : o = x := by simpa using this.2
        rw [this]; simp
    -- operations that leave the calibration alone
    have hkeep : s'.calib = s.calib → (∀ i c l, o ≠ Op.addModel i c l) → o ≠ Op.analyse →
        ((s'.calib.isAnalysed = true ↔
        ∃ before after, ops ++ [o] = before ++ Op.analyse :: after ∧
          (let s1 := runOps form ⟨heap, GenericCalib.new aqs ags⟩ before
           (s1.calib.analyse form s1.heap).2 = .ok ()) ∧
          ∀ o ∈ after, ∀ i c l, o ≠ Op.addModel i c l) ∧
      (s'.calib.isAnalysed = true → ∀ p ∈ s'.calib.probModels, p.betas.isSome) ∧
      (s'.calib.probModels.map (fun p => (p.model, p.color, p.label)) =
        (ops ++ [o]).filterMap (fun o => match o with
          | Op.addModel i c l => some (i, c, l)
          | _ => none)) ∧
      s'.calib.aqPoints = aqs ∧ s'.calib.agPoints = ags) := by
      intro e hn ha
      rw [e]
      refine ⟨?_, h2, ?_, h4, h5⟩
      · rw [h1]
        constructor
        · rintro ⟨b, a, e, hb, hA⟩
          refine ⟨b, a ++ [o], by rw [e]; simp, hb, fun x hx => ?_⟩
          rcases List.mem_append.1 hx with hx | hx
          · exact hA x hx
          · rw [List.mem_singleton.1 hx]; exact hn
        · rintro ⟨b, a, e, hb, hA⟩
          rcases hsplit b a e with ⟨-, -, e'⟩ | ⟨a', rfl, e'⟩
          · exact absurd e' ha
          · exact ⟨b, a', e', hb, fun x hx => hA x (List.mem_append_left _ hx)⟩
      · rw [h3, List.filterMap_append]
        cases o with
        | addModel i c l => exact absurd rfl (hn i c l)
        | analyse => simp
        | plot => simp
        | mutate i f => simp
    cases o with
    | plot => exact hkeep (by rw [hs']; rfl) (fun _ _ _ h => by cases h) (fun h => by cases h)
    | mutate i f => exact hkeep (by rw [hs']; rfl) (fun _ _ _ h => by cases h) (fun h => by cases h)
    | addModel i c l =>
      have e : s'.calib = s.calib.addModel i c l := by rw [hs']; rfl
      rw [e]
      refine ⟨?_, (fun h => by simp [addModel] at h), ?_, h4, h5⟩
      · refine ⟨(fun h => by simp [addModel] at h), ?_⟩
        rintro ⟨b, a, e', -, hA⟩
        rcases hsplit b a e' with ⟨-, -, e''⟩ | ⟨a', rfl, -⟩
        · cases e''
        · exact absurd rfl (hA (Op.addModel i c l) (by simp) i c l)
      · simp only [addModel, List.map_append, h3, List.filterMap_append, List.map_cons, List.map_nil, List.filterMap_cons,
          List.filterMap_nil]
    | analyse =>
      have e : s'.calib = (s.calib.analyse form s.heap).1 := by rw [hs']; rfl
      have hfm : (ops ++ [Op.analyse]).filterMap (fun o : Op D => match o with
          | Op.addModel i c l => some (i, c, l)
          | _ => none) = ops.filterMap (fun o => match o with
          | Op.addModel i c l => some (i, c, l)
          | _ => none) := by rw [List.filterMap_append]; simp
      have hrel : ∀ {l l' : List ProbModel}, List.Forall₂ (fun p p' => ∃ b, getReliabilities form s.calib.aqPoints s.calib.agPoints
          (s.heap p.model) = .ok b ∧ p' = { p with betas := some b }) l l' →
          l'.map (fun p => (p.model, p.color, p.label)) = l.map (fun p => (p.model, p.color, p.label)) ∧ ∀ p ∈ l', p.betas.isSome := by
        intro l l' h
        induction h with
        | nil => exact ⟨rfl, by simp⟩
        | cons h _ ih =>
          obtain ⟨b, -, rfl⟩ := h
          exact ⟨by simp [ih.1], by
            intro p hp
            rcases List.mem_cons.1 hp with rfl | hp
            · rfl
            · exact ih.2 p hp⟩
      cases hres : (s.calib.analyse form s.heap).2 with
      | ok u =>
        have hsome := (C62_analyse form s.heap s.calib).2 (s.calib.analyse form s.heap).1 (Prod.ext rfl hres)
        obtain ⟨ha, hq, hg, hf⟩ := hsome
        obtain ⟨hmap, hb⟩ := hrel hf
        rw [e]
        refine ⟨?_, fun _ => hb, by rw [hmap, h3, hfm], by rw [hq, h4], by rw [hg, h5]⟩
        exact ⟨fun _ => ⟨ops, [], rfl, by rw [← hs]; exact hres, by simp⟩, fun _ => ha⟩
      | error er =>
        -- the flag is unchanged; entries before the failing one are new
        have hfail : (s.calib.analyse form s.heap).1.isAnalysed = s.calib.isAnalysed ∧
            (s.calib.analyse form s.heap).1.aqPoints = s.calib.aqPoints ∧ (s.calib.analyse form s.heap).1.agPoints = s.calib.agPoints ∧
            (s.calib.analyse form s.heap).1.probModels.map (fun p => (p.model, p.color, p.label)) =
              s.calib.probModels.map (fun p => (p.model, p.color, p.label)) ∧
            ((∀ p ∈ s.calib.probModels, p.betas.isSome) → ∀ p ∈ (s.calib.analyse form s.heap).1.probModels, p.betas.isSome) := by
          unfold analyse at hres ⊢
          split
          · exact ⟨rfl, rfl, rfl, rfl, id⟩
          · next hne =>
            rw [if_neg hne] at hres
            dsimp only at hres ⊢
            split
            · next e' he' =>
              obtain ⟨done, p, rest, done', e1, e2, -, e4⟩ := analyseLoop_error form s.heap s.calib.aqPoints s.calib.agPoints s.calib.probModels
                (analyseLoop form s.heap s.calib.aqPoints s.calib.agPoints s.calib.probModels).1 e' (by rw [← he'])
              obtain ⟨hm, hb⟩ := hrel e4
              refine ⟨rfl, rfl, rfl, ?_, ?_⟩
              · dsimp only at e2 ⊢
                rw [e2, e1]; simp [hm]
              · intro hall q hq
                dsimp only at e2 hq
                rw [e2] at hq
                rcases List.mem_append.1 hq with hq | hq
                · exact hb q hq
                · exact hall q (by rw [e1]; exact List.mem_append_right _ hq)
            · next he' =>
              rw [he'] at hres
              cases hres
        obtain ⟨f1, f2, f3, f4, f5⟩ := hfail
        rw [e]
        refine ⟨?_, fun h => f5 (h2 (f1 ▸ h)), by rw [f4, h3, hfm], by rw [f2, h4], by rw [f3, h5]⟩
        rw [f1, h1]
        constructor
        · rintro ⟨b, a, e', hb, hA⟩
          refine ⟨b, a ++ [Op.analyse], by rw [e']; simp, hb, fun x hx => ?_⟩
          rcases List.mem_append.1 hx with hx | hx
          · exact hA x hx
          · rw [List.mem_singleton.1 hx]
            intro i c l h
            cases h
        · rintro ⟨b, a, e', hb, hA⟩
          rcases hsplit b a e' with ⟨-, rfl, -⟩ | ⟨a', rfl, e''⟩
          · have hb' : (s.calib.analyse form s.heap).2 = .ok () := hb
            rw [hres] at hb'
            cases hb'
          · exact ⟨b, a', e'', hb, fun x hx => hA x (List.mem_append_left _ hx)⟩

/-- C62: a table drawn right after a successful `analyse` is the one of the current models: entry `k` holds the reliabilities of the
`k`-th model on the grid. -/
theorem C62_current (form : StochModel D ℝ → (LoadComb.Args → Except PyErr ℝ) → Except PyErr ℝ) (s : State D)
    (h : (s.calib.analyse form s.heap).2 = .ok ()) {d : List ProbModel} (hd : (step form s .analyse).calib.plot = .ok d) {k : ℕ}
    {p : ProbModel} (hp : d[k]? = some p) :
    ∃ b, p.betas = some b ∧ getReliabilities form s.calib.aqPoints s.calib.agPoints (s.heap p.model) = .ok b := by
  obtain ⟨h1, -, -, h4⟩ := (C62_analyse form s.heap s.calib).2 _ (Prod.ext rfl h)
  have hd' : d = (s.calib.analyse form s.heap).1.probModels := by
    have : (step form s .analyse).calib = (s.calib.analyse form s.heap).1 := rfl
    rw [this, plot, if_pos h1] at hd
    injection hd with hd
    exact hd.symm
  subst hd'
  obtain ⟨hk, e⟩ := List.getElem?_eq_some_iff.1 hp
  have hk' : k < s.calib.probModels.length := by rw [h4.length_eq]; exact hk
  obtain ⟨b, hb, hp'⟩ := List.forall₂_iff_get.1 h4 |>.2 k hk' hk
  simp only [List.get_eq_getElem] at hb hp'
  rw [e] at hp'
  refine ⟨b, by rw [hp'], by rw [hp']; exact hb⟩

/-- C62 (finding): changing a model's parameters after the analysis does not invalidate the results: `plot` still draws the old ones. -/
theorem C62_stale (form : StochModel D ℝ → (LoadComb.Args → Except PyErr ℝ) → Except PyErr ℝ) (s : State D) (i : ℕ)
    (f : GenericModel D → GenericModel D) : (step form s (.mutate i f)).calib.plot = s.calib.plot := rfl

/-- C62 (finding): an `analyse` call that fails in the middle after an earlier success leaves the calibration marked as analysed, with
new results for the models before the failing one and old results from there on. -/
theorem C62_mixed (form : StochModel D ℝ → (LoadComb.Args → Except PyErr ℝ) → Except PyErr ℝ) (s : State D) (hs : s.calib.isAnalysed = true)
    {e : PyErr} (h : (s.calib.analyse form s.heap).2 = .error e) (hne : s.calib.probModels ≠ []) :
    ∃ done p rest done', s.calib.probModels = done ++ p :: rest ∧ (step form s .analyse).calib.plot = .ok (done' ++ p :: rest) ∧
      getReliabilities form s.calib.aqPoints s.calib.agPoints (s.heap p.model) = .error e ∧
      List.Forall₂ (fun p p' => ∃ b, getReliabilities form s.calib.aqPoints s.calib.agPoints (s.heap p.model) = .ok b ∧
        p' = { p with betas := some b }) done done' := by
  have hstep : (step form s .analyse).calib = (s.calib.analyse form s.heap).1 := rfl
  rw [hstep]
  unfold analyse at h ⊢
  rw [if_neg hne] at h ⊢
  dsimp only at h ⊢
  split at h
  · next e' he' =>
    injection h with h
    subst h
    obtain ⟨done, p, rest, done', e1, e2, e3, e4⟩ := analyseLoop_error form s.heap s.calib.aqPoints s.calib.agPoints s.calib.probModels
                (analyseLoop form s.heap s.calib.aqPoints s.calib.agPoints s.calib.probModels).1 e' (by rw [← he'])
    refine ⟨done, p, rest, done', e1, ?_, e3, e4⟩
    simp only [he']
    rw [plot, if_pos hs, ← e2]
  · cases h

/-! A concrete calibration: one model, a 1×2 grid; the reliability reported by the stand-in for FORM is the design parameter. -/

/-- The model: `φ R_k = 1/2`, factored loads 2, 2 and 4. -/
noncomputable def exModel : GenericModel ℕ :=
  complete (1 / 2) 2 2 4 ⟨"wR", 0⟩ ⟨"wS", 0⟩ ⟨"R", 0⟩ ⟨"G", 0⟩ ⟨"P", 0⟩ ⟨"Q", 0⟩ 1 1 1 1

/-- The stand-in for FORM. -/
noncomputable def exGenForm (sm : StochModel ℕ ℝ) (_ : LoadComb.Args → Except PyErr ℝ) : Except PyErr ℝ := .ok ((sm.getConstants.get? "z").getD 0)

theorem exCell (ag aq : ℝ) : cell exGenForm exModel ag aq = .ok (2 * ((1 - aq) * (ag * 2 + (1 - ag) * 2) + aq * 4)) := by
  have hz : designOf aq ag exModel = .ok (2 * ((1 - aq) * (ag * 2 + (1 - ag) * 2) + aq * 4)) := by
    simp [designOf, exModel, complete, GenericModel.setFactors, GenericModel.setDistributions, GenericModel.setNominals, design]
  have hr0 : StochModel.Refines (StochModel.init : StochModel ℕ ℝ) [] := ⟨rfl, rfl, rfl, rfl, by simp [StochModel.init]⟩
  unfold cell analyseDesign
  rw [hz]
  dsimp only
  obtain ⟨h1, h2, -⟩ := LoadComb.addAll_refines [toObj exModel.wR, toObj exModel.R, toObj exModel.wS, toObj exModel.G, toObj exModel.P,
    toObj exModel.Q, .constant "z" (2 * ((1 - aq) * (ag * 2 + (1 - ag) * 2) + aq * 4)), .constant "aq" aq, .constant "ag" ag] _ [] hr0
  obtain ⟨sm, hsm⟩ := h1.2 (by
    simp [toObj, exModel, complete, GenericModel.setFactors, GenericModel.setDistributions, GenericModel.setNominals, Spec.objName,
      StochModel.init])
  rw [hsm]
  have hc := (h2 sm hsm).1.consts
  have e : sm.getConstants = _ := hc
  simp [exGenForm, e, toObj, exModel, complete, GenericModel.setFactors, GenericModel.setDistributions, GenericModel.setNominals,
    Spec.constants, Dict.get?]

/-- The history `add_model; analyse; plot` draws the design parameters of the two cells. -/
example : ∃ d p, (runOps exGenForm ⟨fun _ => exModel, GenericCalib.new [0, 1] [1]⟩ [.addModel 0 "b" "m", .analyse]).calib.plot = .ok d ∧
    d = [p] ∧ p.betas = some [[4, 8]] := by
  have hg : getReliabilities exGenForm [0, 1] [1] exModel = .ok [[4, 8]] := by
    simp only [getReliabilities, mapE, exCell]
    norm_num
  refine ⟨[⟨0, some [[4, 8]], "b", "m"⟩], _, ?_, rfl, rfl⟩
  simp [runOps, step, addModel, GenericCalib.new, analyse, analyseLoop, hg, plot]

end Pystra.Props
