import Verif.Props.CalibrationMatrix
import Verif.Props.LoadCase

/-! C60 (the model that is analysed), C67 and C68: a whole calibration. -/

namespace Pystra
namespace Props
open Calib Spec Frame LoadComb

variable {D : Type}

theorem Spec.dists_append (a b : List (PyObj D ℝ)) : dists (a ++ b) = dists a ++ dists b := by
  induction a with
  | nil => rfl
  | cons o t ih => cases o <;> simp [dists, ih]

theorem Spec.constants_append (a b : List (PyObj D ℝ)) : constants (a ++ b) = constants a ++ constants b := by
  induction a with
  | nil => rfl
  | cons o t ih => cases o <;> simp [constants, ih]

/-- Overriding one constant: the objects of the case. -/
theorem caseObjects_const {consts : Dict String ConstObj} {vars : Dict String (DistObj D)} {cvar : String} (z : ℝ)
    (hv : cvar ∉ vars.keys) (hself : ∀ p ∈ consts, p.2.name = p.1) :
    dists (caseObjects consts vars [(cvar, .constant cvar z)]) = vars.map Prod.snd ∧
    constants (caseObjects consts vars [(cvar, .constant cvar z)]) =
      consts.map (fun p : String × ConstObj => (p.1, if p.1 = cvar then z else p.2.val)) := by
  have h1 : ∀ l : Dict String ConstObj, (∀ p ∈ l, p.2.name = p.1) →
      dists ((List.map (fun p : String × ConstObj => (p.1, (PyObj.constant p.2.name p.2.val : PyObj D ℝ))) l).map
        (fun p => (Dict.get? [(cvar, (PyObj.constant cvar z : PyObj D ℝ))] p.1).getD p.2)) = [] ∧
      constants ((List.map (fun p : String × ConstObj => (p.1, (PyObj.constant p.2.name p.2.val : PyObj D ℝ))) l).map
        (fun p => (Dict.get? [(cvar, (PyObj.constant cvar z : PyObj D ℝ))] p.1).getD p.2)) =
        l.map (fun p : String × ConstObj => (p.1, if p.1 = cvar then z else p.2.val)) := by
    intro l
    induction l with
    | nil => intro _; exact ⟨rfl, rfl⟩
    | cons p t ih =>
      intro hl
      obtain ⟨i1, i2⟩ := ih fun q hq => hl q (List.mem_cons_of_mem _ hq)
      have hn := hl p (by simp)
      simp only [Dict.get?] at i1 i2
      simp only [List.map_cons]
      by_cases hp : cvar = p.1
      · subst hp
        simp only [Dict.get?, if_true, Option.getD_some, dists, constants, i1, i2, and_self]
      · simp only [Dict.get?, if_neg hp, Option.getD_none, dists, constants, i1, i2, hn, if_neg (Ne.symm hp), and_self]
  have h2 : ∀ l : Dict String (DistObj D), cvar ∉ l.keys →
      dists ((List.map (fun p : String × DistObj D => (p.1, (PyObj.distribution p.2 : PyObj D ℝ))) l).map
        (fun p => (Dict.get? [(cvar, (PyObj.constant cvar z : PyObj D ℝ))] p.1).getD p.2)) = l.map Prod.snd ∧
      constants ((List.map (fun p : String × DistObj D => (p.1, (PyObj.distribution p.2 : PyObj D ℝ))) l).map
        (fun p => (Dict.get? [(cvar, (PyObj.constant cvar z : PyObj D ℝ))] p.1).getD p.2)) = [] := by
    intro l
    induction l with
    | nil => intro _; exact ⟨rfl, rfl⟩
    | cons p t ih =>
      intro hl
      have hp : cvar ≠ p.1 := fun e => hl (by simp [Dict.keys, e])
      obtain ⟨i1, i2⟩ := ih fun hq => hl (by
        simp only [Dict.keys, List.map_cons, List.mem_cons]; exact Or.inr hq)
      simp only [Dict.get?] at i1 i2
      simp only [List.map_cons, Dict.get?, if_neg hp, Option.getD_none, dists, constants, i1, i2, and_self]
  unfold caseObjects labelled
  rw [List.map_append, Spec.dists_append, Spec.constants_append]
  obtain ⟨a, b⟩ := h1 consts hself
  obtain ⟨c, d⟩ := h2 vars hv
  rw [a, b, c, d]
  simp

/-- C60: what is analysed for a case at a design parameter `z`.  The FORM object is the result of FORM on a model whose random variables are
those of *that* case (see C56 for which), in order, with the correlations of the table, and whose constants are the load
combination's, except that the calibration variable has the value `z`. -/
theorem C60_case {C : Calib D} {case : String} {z : ℝ} {f : FormObj D} (h : C.relFunc case z = .ok f)
    (hself : ∀ p ∈ C.lc.constant.getD [], p.2.name = p.1)
    (hfresh : ∀ vars, C.lc.dictDistComb.get? case = some vars → C.cvar ∉ vars.keys) :
    ∃ vars m, C.lc.dictDistComb.get? case = some vars ∧ C.form m = .ok f ∧
      m.getMarginalDistributions = vars.map Prod.snd ∧
      m.getVariables = vars.map (fun p : String × DistObj D => (p.2.name, p.2)) ∧
      m.getConstants = (C.lc.constant.getD []).map (fun p : String × ConstObj => (p.1, if p.1 = C.cvar then z else p.2.val)) ∧
      (C.lc.dfCorr = none → vars ≠ [] → m.getCorrelation = some (NDArray2.eye vars.length)) ∧
      (∀ t, C.lc.dfCorr = some t → ∃ R, m.getCorrelation = some R ∧ R.nrow = vars.length ∧ R.ncol = vars.length ∧
        ∀ (i : Fin R.nrow) (j : Fin R.ncol) (a b : String × DistObj D), vars[i.val]? = some a → vars[j.val]? = some b →
          t.get a.2.name b.2.name = some (R.val i j)) := by
  unfold relFunc runCase at h
  split at h
  · cases h
  · next m hm =>
    cases hv : C.lc.dictDistComb.get? case with
    | none =>
      unfold caseModel at hm
      dsimp only at hm
      rw [hv] at hm
      split at hm <;> cases hm
    | some vars =>
      obtain ⟨-, a2, a3, a4, -, a6, a7⟩ := (C57_model C.lc hv [(C.cvar, .constant C.cvar z)]).1 m hm
      obtain ⟨b1, b2⟩ := caseObjects_const z (hfresh vars hv) hself
      rw [b1] at a2 a3 a6 a7
      rw [b2] at a4
      refine ⟨vars, m, rfl, h, a2, by rw [a3, List.map_map]; rfl, a4, fun h1 h2 => ?_, fun t ht => ?_⟩
      · have := a6 h1 (by simpa using h2)
        rw [this, List.length_map]
      · obtain ⟨R, r1, r2, r3, r4⟩ := a7 t ht
        refine ⟨R, r1, by rw [r2, List.length_map], by rw [r3, List.length_map], fun i j a b ha hb => ?_⟩
        exact r4 i j a.2 b.2 (by rw [List.getElem?_map, ha]; rfl) (by rw [List.getElem?_map, hb]; rfl)

/-- C68: `calc_beta_design_param(z)`: one reliability index per case, in the order of the cases, each that of the case's analysis at `z`. -/
theorem C68_betas {C : Calib D} {z : ℝ} {cases : List String} :
    (∀ bs, C.betasAt z cases = .ok bs → bs.length = cases.length ∧
      ∀ (i : ℕ) (case : String), cases[i]? = some case → ∃ f, C.relFunc case z = .ok f ∧ bs[i]? = some f.beta) ∧
    ((∃ bs, C.betasAt z cases = .ok bs) ↔ ∀ case ∈ cases, ∃ f, C.relFunc case z = .ok f) := by
  induction cases with
  | nil =>
    refine ⟨fun bs h => ?_, by simp [betasAt]⟩
    cases h
    exact ⟨rfl, fun i case hi => by simp at hi⟩
  | cons q t ih =>
    obtain ⟨i1, i2⟩ := ih
    simp only [betasAt]
    cases hq : C.relFunc q z with
    | error e =>
      refine ⟨(fun bs h => by cases h), by simp [hq]⟩
    | ok f =>
      cases ht : betasAt C z t with
      | error e =>
        refine ⟨(fun bs h => by cases h), ?_⟩
        rw [ht] at i2
        simp only [reduceCtorEq, exists_false, false_iff, List.mem_cons, forall_eq_or_imp, not_and] at i2 ⊢
        exact fun _ => i2
      | ok r =>
        rw [ht] at i1 i2
        refine ⟨fun bs h => ?_, ?_⟩
        · injection h with h
          subst h
          obtain ⟨j1, j2⟩ := i1 r rfl
          refine ⟨by simp [j1], fun i case hi => ?_⟩
          cases i with
          | zero => simp only [List.getElem?_cons_zero, Option.some.injEq] at hi; subst hi; exact ⟨f, hq, rfl⟩
          | succ i => exact j2 i case (by simpa using hi)
        · simp only [Except.ok.injEq, exists_eq', true_iff, List.mem_cons, forall_eq_or_imp] at i2 ⊢
          exact ⟨⟨f, hq⟩, i2⟩

/-- C67: what `run` stores.  The table of design points is that of the calibrated cases.  With `est_method` (the argument if one is
given, else the one of the constructor) `"coeff"` or `"matrix"` the factors are those of the respective method, unchanged without
`set_max`; with `set_max` every resistance factor is replaced by the smallest of its column and the combination factors by those of
`get_psi_max` (see C59), while load factors are unchanged.  For any other method nothing is stored and no error is raised. -/
theorem C67_run {C : Calib D} {fsolve : Fsolve} {em : Option String} {setMax : Bool} {fuel : ℕ} {x : Frame} {fo : Option Factors}
    (h : C.run fsolve em setMax fuel = some (.ok (x, fo))) :
    (∃ zs fs, calibrateDesignParam fsolve C fuel = some (.ok (zs, fs)) ∧ dfXstar C.labelCombCases zs fs = .ok x) ∧
    (∀ name, name = em.getD C.estMethod → name ≠ "coeff" → name ≠ "matrix" → fo = none) ∧
    ∀ method, (em.getD C.estMethod = "coeff" ∧ method = calcPgCoeff C) ∨ (em.getD C.estMethod = "matrix" ∧ method = calcPgMatrix C) →
      ∃ F phi gamma psi, fo = some F ∧ method x = .ok (phi, gamma, psi) ∧ F.gamma = gamma ∧
        (setMax = false → F.phi = phi ∧ F.psi = psi) ∧
        (setMax = true → C.getPsiMax psi = .ok F.psi ∧ F.phi.index = phi.index ∧ F.phi.columns = phi.columns ∧
          ∀ r c v, phi.get r c = some v → ∃ l, F.phi.get r c = some l ∧ IsLeast {w | ∃ r' ∈ phi.index, phi.get r' c = some w} l) := by
  have hest : ∀ (method : Calib D → Frame → Except PyErr (Frame × Frame × Frame)) F, estimate C method x setMax = .ok F →
      ∃ phi gamma psi, method C x = .ok (phi, gamma, psi) ∧ F.gamma = gamma ∧
        (setMax = false → F.phi = phi ∧ F.psi = psi) ∧
        (setMax = true → C.getPsiMax psi = .ok F.psi ∧ F.phi.index = phi.index ∧ F.phi.columns = phi.columns ∧
          ∀ r c v, phi.get r c = some v → ∃ l, F.phi.get r c = some l ∧ IsLeast {w | ∃ r' ∈ phi.index, phi.get r' c = some w} l) := by
    intro method F hF
    unfold estimate at hF
    split at hF
    · cases hF
    · next phi gamma psi hm =>
      cases setMax with
      | false =>
        simp only [Bool.false_eq_true, if_false, Except.ok.injEq] at hF
        subst hF
        exact ⟨phi, gamma, psi, hm, rfl, fun _ => ⟨rfl, rfl⟩, fun h => by cases h⟩
      | true =>
        simp only [if_true] at hF
        split at hF
        · cases hF
        · next p hp =>
          injection hF with hF
          subst hF
          refine ⟨phi, gamma, psi, hm, rfl, (fun h => by cases h), fun _ => ⟨hp, rfl, rfl, fun r c v hv => ?_⟩⟩
          exact (C59_phi_min phi r c).2.2.2 v hv
  unfold run at h
  dsimp only at h
  split at h
  · cases h
  · cases h
  · next x' hx' =>
    have hx : x' = x := by
      split_ifs at h
      · split at h <;> simp at h; exact h.1
      · split at h <;> simp at h; exact h.1
      · simp at h; exact h.1
    subst hx
    refine ⟨?_, ?_, ?_⟩
    · unfold runCalibration at hx'
      split at hx'
      · cases hx'
      · cases hx'
      · next zs fs hz => exact ⟨zs, fs, hz, by injection hx'⟩
    · rintro name rfl h1 h2
      rw [if_neg h1, if_neg h2] at h
      simp at h
      exact h.symm
    · intro method hm
      rcases hm with ⟨e, rfl⟩ | ⟨e, rfl⟩
      · rw [if_pos e] at h
        split at h
        · cases h
        · next F hF =>
          simp only [Option.some.injEq, Except.ok.injEq, Prod.mk.injEq, true_and] at h
          obtain ⟨phi, gamma, psi, a⟩ := hest _ F hF
          exact ⟨F, phi, gamma, psi, h.symm, a⟩
      · rw [if_neg (by rw [e]; decide), if_pos e] at h
        split at h
        · cases h
        · next F hF =>
          simp only [Option.some.injEq, Except.ok.injEq, Prod.mk.injEq, true_and] at h
          obtain ⟨phi, gamma, psi, a⟩ := hest _ F hF
          exact ⟨F, phi, gamma, psi, h.symm, a⟩

/-- C67: a whole calibration by the coefficient method.  For every case there is a design parameter `z` at which FORM was run on the
case, with a reliability index within the tolerance of the target unless 100 rounds were used up (`n` rounds, see `C60_rounds`); and for every load, nominal value
times load factor times combination factor is exactly its coordinate of that design point (for every resistance, nominal value times
resistance factor), provided the design value in the load's leading case and the nominal value are not zero. -/
theorem C67_coeff {C : Calib D} {fsolve : Fsolve} {em : Option String} {fuel : ℕ} {x : Frame} {fo : Option Factors}
    (h : C.run fsolve em false fuel = some (.ok (x, fo))) (hm : C.calibMethod = "alpha") (hem : em.getD C.estMethod = "coeff")
    (hx : DesignTable C x) (hnd : C.labelCombCases.Nodup) :
    ∃ F zs fs, fo = some F ∧ calibrateDesignParam fsolve C fuel = some (.ok (zs, fs)) ∧
      ∀ f0, fs[0]? = some f0 → (xstarLabels f0).Nodup → "z" ∉ xstarLabels f0 →
      ∀ (i : ℕ) (case : String), C.labelCombCases[i]? = some case → ∃ z f n, zs[i]? = some z ∧ fs[i]? = some f ∧
        C.relFunc case z = .ok f ∧ (∃ consts c, C.lc.constant = some consts ∧ consts.get? C.cvar = some c ∧
          C.calibrationAlpha case c.val C.betaT 1e-4 100 fuel = some (.ok (.arr z, f, n))) ∧
        n ≤ 100 ∧ (n ≠ 100 → |f.beta - C.betaT| ≤ 1e-4 + 1e-5 * |C.betaT|) ∧
        (∀ (j : ℕ) (c : String) (xs nom : ℝ), (xstarLabels f0)[j]? = some c → f.designX[j]? = some xs → nom ≠ 0 →
          (∀ r' ∈ C.labelCombCases, C.dfNom.get r' c = some nom) →
          (c ∈ C.labelS → ∀ (k : ℕ) (fl : FormObj D) (xl : ℝ), C.labelCombCases[k]? = some (leadCase C.lc.combCases case c) →
            fs[k]? = some fl → fl.designX[j]? = some xl → xl ≠ 0 →
            ∃ g p, F.gamma.get case c = some g ∧ F.psi.get case c = some p ∧ nom * g = xl ∧ nom * g * p = xs ∧
              (leadCase C.lc.combCases case c = case → p = 1)) ∧
          (c ∈ C.labelR → (∀ p ∈ C.lc.combCases, c ∉ p.2) → ∃ φ, F.phi.get case c = some φ ∧ nom * φ = xs)) := by
  obtain ⟨⟨zs, fs, hz, hdf⟩, -, h3⟩ := C67_run h
  obtain ⟨F, phi, gamma, psi, rfl, hc, hG, hF, -⟩ := h3 _ (Or.inl ⟨hem, rfl⟩)
  obtain ⟨hP, hS⟩ := hF rfl
  obtain ⟨phi', gamma', psi', hc', k1, k2⟩ := C58_coefficient hx
  rw [hc] at hc'
  simp only [Except.ok.injEq, Prod.mk.injEq] at hc'
  obtain ⟨rfl, rfl, rfl⟩ := hc'
  refine ⟨F, zs, fs, rfl, hz, fun f0 hf0 hcols hzn i case hi => ?_⟩
  obtain ⟨-, -, hall⟩ := C60_all_cases fsolve C hm hz
  obtain ⟨z, f, hzi, hfi, hrel, consts, c, n, hco, hcv, -, hn, hrun, htol⟩ := hall i case hi
  refine ⟨z, f, n, hzi, hfi, hrel, ⟨consts, c, hco, hcv, hrun⟩, hn, htol, fun j c xs nom hj hxs hnom hnoms => ?_⟩
  have hcell : ∀ {k : ℕ} {r : String} {g : FormObj D}, C.labelCombCases[k]? = some r → fs[k]? = some g →
      x.get r c = g.designX[j]? := by
    intro k r g hk hg
    cases fs with
    | nil => simp at hf0
    | cons a t =>
      simp only [List.getElem?_cons_zero, Option.some.injEq] at hf0
      subst hf0
      obtain ⟨-, -, -, g', hg', -, hget⟩ := C58_table hdf hnd hcols hzn hk
      rw [hg] at hg'
      injection hg' with hg'
      subst hg'
      exact hget j c hj
  have hmem := List.mem_of_getElem? hi
  rw [hG, hP, hS]
  refine ⟨fun hcS k fl xl hk hfl hxl hxl0 => ?_, fun hcR hno => ?_⟩
  · exact k1 case hmem c hcS xs xl nom ((hcell hi hfi).trans hxs) ((hcell hk hfl).trans hxl) hxl0 hnoms hnom
  · exact k2 case hmem c hcR hno xs nom ((hcell hi hfi).trans hxs) (hnoms case hmem) hnom

/-! The concrete calibration of C60: one case, `g = z R - Q`, index = design parameter. -/

/-- The design point and the labels of its calibrated case. -/
theorem exCalib1_labels {f : FormObj ℕ} (h : calibrateDesignParam (fun _ _ => .error .exception) exCalib1 100 = some (.ok ([3], [f]))) :
    f.designX = [1, 3] ∧ xstarLabels f = ["R", "Q"] := by
  obtain ⟨-, -, h3⟩ := C60_all_cases _ exCalib1 rfl h
  obtain ⟨z, g, -, hg, hrel, -⟩ := h3 0 "A" rfl
  simp only [List.getElem?_cons_zero, Option.some.injEq] at hg
  subst hg
  obtain ⟨m, hm, n, c⟩ := exCalib1_rel z
  rw [hm] at hrel
  injection hrel with hrel
  subst hrel
  exact ⟨rfl, by unfold xstarLabels; rw [n, c]; rfl⟩

/-- Its hypotheses are met, and the factors are the ratios of the design point (1, 3) to the nominal values 2. -/
example : ∃ x F, exCalib1.run (fun _ _ => .error .exception) none false 100 = some (.ok (x, some F)) ∧
    F.phi.get "A" "R" = some (1 / 2) ∧ F.gamma.get "A" "Q" = some (3 / 2) ∧ F.psi.get "A" "Q" = some 1 := by
  obtain ⟨f, hcal, hb⟩ := exCalib1_calibrated
  obtain ⟨hmem, hlab⟩ := exCalib1_labels hcal
  have hdx : f.designX = [1, 3] := hmem
  obtain ⟨x, hdf, hxi, hxc⟩ : ∃ x, dfXstar exCalib1.labelCombCases [3] [f] = .ok x ∧ x.index = ["A"] ∧ x.columns = ["R", "Q", "z"] := by
    have e : exCalib1.labelCombCases = ["A"] := rfl
    rw [e]
    simp only [dfXstar, hlab]
    rw [if_neg (by simp [hdx])]
    exact ⟨_, rfl, rfl, by simp⟩
  have hrc : exCalib1.runCalibration (fun _ _ => .error .exception) 100 = some (.ok x) := by
    unfold runCalibration
    rw [hcal]
    dsimp only
    rw [hdf]
  have hx : DesignTable exCalib1 x := by
    constructor <;> simp [hxi, hxc, exCalib1, exLC1, Calib.labelCombCases, Calib.labelR, Calib.labelOther, Calib.labelCombVrs, Dict.keys]
  obtain ⟨phi, gamma, psi, hpg, -⟩ := C58_coefficient hx
  have hrun : exCalib1.run (fun _ _ => .error .exception) none false 100 = some (.ok (x, some ⟨phi, gamma, psi⟩)) := by
    unfold run
    dsimp only
    rw [hrc]
    dsimp only
    rw [if_pos (show (none : Option String).getD exCalib1.estMethod = "coeff" from rfl)]
    simp only [estimate, hpg, Bool.false_eq_true, if_false]
  obtain ⟨F, zs, fs, hF, hc2, hall⟩ := C67_coeff hrun rfl rfl hx (by decide)
  injection hF with hF
  subst hF
  rw [hcal] at hc2
  simp only [Option.some.injEq, Except.ok.injEq, Prod.mk.injEq] at hc2
  obtain ⟨rfl, rfl⟩ := hc2
  obtain ⟨z, f', n, -, hf', -, -, -, hv⟩ := hall f rfl (by rw [hlab]; decide) (by rw [hlab]; decide) 0 "A" rfl
  simp only [List.getElem?_cons_zero, Option.some.injEq] at hf'
  subst hf'
  have hnom : ∀ c ∈ ["R", "Q"], ∀ r' ∈ exCalib1.labelCombCases, exCalib1.dfNom.get r' c = some 2 := by
    intro c hc r' hr'
    have hr : r' = "A" := by simpa [exCalib1, exLC1, Calib.labelCombCases] using hr'
    subst hr
    simp only [exCalib1, Frame.get]
    simp at hc
    rcases hc with rfl | rfl <;> simp
  obtain ⟨-, hR⟩ := hv.2 0 "R" 1 2 (by rw [hlab]; rfl) (by rw [hdx]; rfl) (by norm_num) (hnom "R" (by simp))
  obtain ⟨hQ, -⟩ := hv.2 1 "Q" 3 2 (by rw [hlab]; rfl) (by rw [hdx]; rfl) (by norm_num) (hnom "Q" (by simp))
  obtain ⟨φ, hφ, eφ⟩ := hR (by simp [exCalib1, exLC1, Calib.labelR]) (by simp [exCalib1, exLC1])
  have hlead : leadCase exCalib1.lc.combCases "A" "Q" = "A" := by decide
  rw [hlead] at hQ
  obtain ⟨g, p, hg, hp, eg, -, ep⟩ := hQ (by simp [exCalib1, exLC1, Calib.labelS, Calib.labelOther, Calib.labelCombVrs]) 0 f 3 rfl rfl (by rw [hdx]; rfl) (by norm_num)
  refine ⟨x, _, hrun, ?_, ?_, ?_⟩
  · rw [hφ, Option.some.injEq]; clear hall hv; linarith
  · rw [hg, Option.some.injEq]; clear hall hv; linarith
  · rw [hp, ep rfl]

/-- C60_case and C68_betas on it: the case's model has the variables R and Q and the constant z at the chosen value. -/
example : ∃ f vars m, exCalib1.relFunc "A" 5 = .ok f ∧ exCalib1.lc.dictDistComb.get? "A" = some vars ∧ exCalib1.form m = .ok f ∧
    m.getMarginalDistributions = [⟨"R", 0⟩, ⟨"Q", 1⟩] ∧ m.getConstants = [("z", 5)] := by
  obtain ⟨m0, h0, -⟩ := exCalib1_rel 5
  obtain ⟨vars, m, h1, h2, h3, -, h5, -⟩ := C60_case h0 (by intro p hp; simp [exCalib1, exLC1] at hp; rw [hp]) (by
    intro vars hv
    have : vars = [("R", ⟨"R", 0⟩), ("Q", ⟨"Q", 1⟩)] := by
      have e : exCalib1.lc.dictDistComb.get? "A" = some [("R", ⟨"R", 0⟩), ("Q", ⟨"Q", 1⟩)] := rfl
      rw [e] at hv
      injection hv with hv
      exact hv.symm
    rw [this]
    decide)
  have hv : vars = [("R", ⟨"R", 0⟩), ("Q", ⟨"Q", 1⟩)] := by
    have e : exCalib1.lc.dictDistComb.get? "A" = some [("R", ⟨"R", 0⟩), ("Q", ⟨"Q", 1⟩)] := rfl
    rw [e] at h1
    injection h1 with h1
    exact h1.symm
  exact ⟨_, vars, m, h0, h1, h2, by rw [h3, hv]; rfl, by rw [h5]; rfl⟩

example : exCalib1.betasAt 5 exCalib1.labelCombCases = .ok [5] := by
  obtain ⟨m0, h0, -⟩ := exCalib1_rel 5
  obtain ⟨b1, b2⟩ := C68_betas (C := exCalib1) (z := 5) (cases := ["A"])
  obtain ⟨bs, hbs⟩ := b2.2 (by intro c hc; simp at hc; subst hc; exact ⟨_, h0⟩)
  obtain ⟨l, hl⟩ := b1 bs hbs
  obtain ⟨f, hf, hf2⟩ := hl 0 "A" rfl
  rw [h0] at hf
  injection hf with hf
  subst hf
  show exCalib1.betasAt 5 ["A"] = _
  rw [hbs]
  match bs, l, hf2 with
  | [b], _, h => simp at h; rw [h]

end Props
end Pystra
