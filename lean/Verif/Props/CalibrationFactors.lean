import Verif.Spec.Calibration
import Verif.Props.LoadCase

/-! C58: the factors of the coefficient method. -/

namespace Pystra
namespace Frame

theorem get_of_mem (f : Frame) {r c : String} (hr : r ∈ f.index) (hc : c ∈ f.columns) : f.get r c = f.cell r c := by
  rw [get, if_pos ⟨hr, hc⟩]

theorem get_not_row (f : Frame) {r c : String} (hr : r ∉ f.index) : f.get r c = none := by
  rw [get, if_neg (fun h => hr h.1)]

theorem get_not_col (f : Frame) {r c : String} (hc : c ∉ f.columns) : f.get r c = none := by
  rw [get, if_neg (fun h => hc h.2)]

theorem mem_unionLabels {a b : List String} {x : String} : x ∈ unionLabels a b ↔ x ∈ a ∨ x ∈ b := by
  unfold unionLabels
  rw [List.mem_append, List.mem_filter]
  constructor
  · rintro (h | h)
    · exact Or.inl h
    · exact Or.inr h.1
  · rintro (h | h)
    · exact Or.inl h
    · by_cases ha : x ∈ a
      · exact Or.inl ha
      · exact Or.inr ⟨h, by simpa using ha⟩

theorem get_div (f g : Frame) (r c : String) : (f.div g).get r c = cdiv (f.get r c) (g.get r c) := by
  by_cases hr : r ∈ f.index
  · by_cases hc : c ∈ f.columns
    · rw [get_of_mem (f.div g) (mem_unionLabels.2 (Or.inl hr)) (mem_unionLabels.2 (Or.inl hc))]
      rfl
    · by_cases hrc : r ∈ (f.div g).index ∧ c ∈ (f.div g).columns
      · rw [get, if_pos hrc]; rfl
      · rw [get, if_neg hrc, get_not_col f hc]; rfl
  · by_cases hrc : r ∈ (f.div g).index ∧ c ∈ (f.div g).columns
    · rw [get, if_pos hrc]; rfl
    · rw [get, if_neg hrc, get_not_row f hr]; rfl

theorem get_mul (f g : Frame) (r c : String) : (f.mul g).get r c = cmul (f.get r c) (g.get r c) := by
  by_cases hr : r ∈ f.index
  · by_cases hc : c ∈ f.columns
    · rw [get_of_mem (f.mul g) (mem_unionLabels.2 (Or.inl hr)) (mem_unionLabels.2 (Or.inl hc))]
      rfl
    · by_cases hrc : r ∈ (f.mul g).index ∧ c ∈ (f.mul g).columns
      · rw [get, if_pos hrc]; rfl
      · rw [get, if_neg hrc, get_not_col f hc]; rfl
  · by_cases hrc : r ∈ (f.mul g).index ∧ c ∈ (f.mul g).columns
    · rw [get, if_pos hrc]; rfl
    · rw [get, if_neg hrc, get_not_row f hr]; rfl

theorem select_ok (f : Frame) {cols : List String} (h : ∀ c ∈ cols, c ∈ f.columns) :
    ∃ g, f.select cols = .ok g ∧ g.index = f.index ∧ g.columns = cols ∧ ∀ r, ∀ c ∈ cols, g.get r c = f.get r c := by
  refine ⟨⟨f.index, cols, f.get⟩, by rw [select, if_pos h], rfl, rfl, fun r c hc => ?_⟩
  by_cases hr : r ∈ f.index
  · rw [get, if_pos ⟨hr, hc⟩]
  · rw [get_not_row f hr]; exact get_not_row _ hr

theorem select_inv {f g : Frame} {cols : List String} (h : f.select cols = .ok g) : ∀ c ∈ cols, c ∈ f.columns := by
  unfold select at h
  split at h
  · assumption
  · cases h

theorem get_concat (f g : Frame) (hi : f.index = g.index) (r c : String) :
    (f.concat g).get r c = if c ∈ f.columns then f.get r c else g.get r c := by
  by_cases hr : r ∈ f.index
  · by_cases hc : c ∈ f.columns ∨ c ∈ g.columns
    · rw [get, if_pos ⟨hr, List.mem_append.2 hc⟩]
      rfl
    · rw [get, if_neg (fun h => hc (List.mem_append.1 h.2))]
      push Not at hc
      rw [if_neg hc.1, get_not_col g hc.2]
  · rw [get_not_row (f.concat g) hr, get_not_row f hr, get_not_row g (hi ▸ hr), ite_self]

end Frame

namespace Props
open Calib Spec Frame

variable {D : Type}

/-- The copying loop: after it each row holds the ratio of the case that leads the column. -/
theorem copyLeading_eq (cases : List String) : ∀ (l : Dict String (List String)) (f : Frame), (∀ r ∈ cases, r ∈ f.index) →
    (∀ p ∈ l, p.1 ∈ cases ∧ ∀ v ∈ p.2, v ∈ f.columns) →
    ∃ g, copyLeading cases l f = .ok g ∧ g.index = f.index ∧ g.columns = f.columns ∧
      ∀ r ∈ cases, ∀ c, g.get r c = f.get (leadCase l r c) c := by
  intro l
  induction l with
  | nil => intro f _ _; exact ⟨f, rfl, rfl, rfl, fun r _ c => rfl⟩
  | cons p t ih =>
    obtain ⟨comb, vrs⟩ := p
    intro f hf hl
    obtain ⟨hcomb, hv⟩ := hl (comb, vrs) (by simp)
    have hcond : ¬ (comb ∉ f.index ∨ ∃ v ∈ vrs, v ∉ f.columns) := by
      push Not
      exact ⟨hf comb hcomb, fun v h => hv v h⟩
    set f1 : Frame := { f with cell := fun r c => if r ∈ cases ∧ r ≠ comb ∧ c ∈ vrs then f.get comb c else f.cell r c } with hf1
    obtain ⟨g, hg, h1, h2, h3⟩ := ih f1 hf (fun q hq => hl q (List.mem_cons_of_mem _ hq))
    refine ⟨g, by rw [copyLeading, if_neg hcond]; exact hg, h1, h2, fun r hr c => ?_⟩
    rw [h3 r hr c]
    have hlead : leadCase t r c ∈ cases := by
      unfold leadCase
      split
      · next q hq => exact (hl q (List.mem_cons_of_mem _ (List.mem_of_find?_eq_some hq))).1
      · exact hr
    have hget : ∀ r' ∈ cases, f1.get r' c = if c ∈ vrs then f.get comb c else f.get r' c := by
      intro r' hr'
      have hi := hf r' hr'
      by_cases hc : c ∈ vrs
      · rw [if_pos hc, get_of_mem f1 hi (hv c hc)]
        show (if r' ∈ cases ∧ r' ≠ comb ∧ c ∈ vrs then f.get comb c else f.cell r' c) = _
        by_cases e : r' = comb
        · subst e
          rw [if_neg (by simp), get_of_mem f hi (hv c hc)]
        · rw [if_pos ⟨hr', e, hc⟩]
      · rw [if_neg hc]
        by_cases hcc : c ∈ f.columns
        · rw [get_of_mem f1 hi hcc, get_of_mem f hi hcc]
          show (if r' ∈ cases ∧ r' ≠ comb ∧ c ∈ vrs then f.get comb c else f.cell r' c) = _
          rw [if_neg (by tauto)]
        · rw [get_not_col f1 hcc, get_not_col f hcc]
    rw [hget _ hlead]
    by_cases hc : c ∈ vrs
    · rw [if_pos hc]
      simp [leadCase, hc]
    · rw [if_neg hc]
      simp [leadCase, hc]

/-- The ratios of design points to nominal values. -/
theorem calcXstNom_eq {C : Calib D} {x : Frame} (hx : DesignTable C x) :
    ∃ q, C.calcXstNom x = .ok q ∧ q.index = unionLabels x.index C.dfNom.index ∧ q.columns = x.columns ∧
      ∀ r ∈ C.labelCombCases, ∀ c ∈ x.columns,
        q.get r c = cdiv (x.get (leadCase C.lc.combCases r c) c) (C.dfNom.get (leadCase C.lc.combCases r c) c) := by
  obtain ⟨g, hg, h1, h2, h3⟩ := copyLeading_eq C.labelCombCases C.lc.combCases (x.div C.dfNom)
    (fun r hr => mem_unionLabels.2 (Or.inl (by rw [hx.rows]; exact hr)))
    (fun p hp => ⟨by rw [← hx.cases]; exact List.mem_map.2 ⟨p, hp, rfl⟩, fun v hv => mem_unionLabels.2 (Or.inl (hx.leading p hp v hv))⟩)
  obtain ⟨q, hq, q1, q2, q3⟩ := select_ok g (cols := x.columns) (fun c hc => by rw [h2]; exact mem_unionLabels.2 (Or.inl hc))
  refine ⟨q, by rw [calcXstNom, hg]; exact hq, by rw [q1, h1]; rfl, q2, fun r hr c hc => ?_⟩
  rw [q3 r c hc, h3 r hr c, get_div]

/-- The resistance and load factors of both methods. -/
theorem calcPhiGamma_eq {C : Calib D} {x : Frame} (hx : DesignTable C x) :
    ∃ phi gamma, C.calcPhiGamma x = .ok (phi, gamma) ∧ phi.columns = C.labelR ∧ gamma.columns = C.labelS ∧
      phi.index = unionLabels x.index C.dfNom.index ∧ gamma.index = unionLabels x.index C.dfNom.index ∧
      (∀ r ∈ C.labelCombCases, ∀ c ∈ C.labelR,
        phi.get r c = cdiv (x.get (leadCase C.lc.combCases r c) c) (C.dfNom.get (leadCase C.lc.combCases r c) c)) ∧
      ∀ r ∈ C.labelCombCases, ∀ c ∈ C.labelS,
        gamma.get r c = cdiv (x.get (leadCase C.lc.combCases r c) c) (C.dfNom.get (leadCase C.lc.combCases r c) c) := by
  obtain ⟨q, hq, q1, q2, q3⟩ := calcXstNom_eq hx
  obtain ⟨p, hp, p1, p2, p3⟩ := select_ok q (cols := C.labelR) (by rw [q2]; exact hx.resist)
  obtain ⟨s, hs, s1, s2, s3⟩ := select_ok q (cols := C.labelOther) (by rw [q2]; exact hx.other)
  obtain ⟨c', hc', c1, c2, c3⟩ := select_ok q (cols := C.labelCombVrs) (by rw [q2]; exact hx.comb)
  refine ⟨p, s.concat c', by simp only [calcPhiGamma, hq, hp, hs, hc'], p2, ?_, by rw [p1, q1], ?_, fun r hr c hc => ?_, fun r hr c hc => ?_⟩
  · show s.columns ++ c'.columns = _
    rw [s2, c2]; rfl
  · show s.index = _
    rw [s1, q1]
  · rw [p3 r c hc, q3 r hr c (hx.resist c hc)]
  · rw [get_concat s c' (by rw [s1, c1]), s2]
    by_cases h : c ∈ C.labelOther
    · rw [if_pos h, s3 r c h, q3 r hr c (hx.other c h)]
    · have h' : c ∈ C.labelCombVrs := by
        rcases List.mem_append.1 hc with h' | h'
        · exact absurd h' h
        · exact h'
      rw [if_neg h, c3 r c h', q3 r hr c (hx.comb c h')]

/-- C58: the coefficient method.  For every table of design points the method succeeds; the load factor of a variable is the ratio of
its design value in the case that leads it to the nominal value; and nominal value × load factor × combination factor is the design
value, in every case.  In the case that leads the variable (and for variables that lead no case) the combination factor is 1.
Resistances: nominal value × resistance factor is the design value. -/
theorem C58_coefficient {C : Calib D} {x : Frame} (hx : DesignTable C x) :
    ∃ phi gamma psi, C.calcPgCoeff x = .ok (phi, gamma, psi) ∧
      (∀ r ∈ C.labelCombCases, ∀ c ∈ C.labelS, ∀ xs xl n : ℝ, x.get r c = some xs →
        x.get (leadCase C.lc.combCases r c) c = some xl → xl ≠ 0 → (∀ r' ∈ C.labelCombCases, C.dfNom.get r' c = some n) → n ≠ 0 →
        ∃ g p, gamma.get r c = some g ∧ psi.get r c = some p ∧ n * g = xl ∧ n * g * p = xs ∧
          (leadCase C.lc.combCases r c = r → p = 1)) ∧
      (∀ r ∈ C.labelCombCases, ∀ c ∈ C.labelR, (∀ p ∈ C.lc.combCases, c ∉ p.2) → ∀ xs n : ℝ, x.get r c = some xs →
        C.dfNom.get r c = some n → n ≠ 0 → ∃ f, phi.get r c = some f ∧ n * f = xs) := by
  obtain ⟨phi, gamma, h, hpc, hgc, hpi, hgi, hphi, hgam⟩ := calcPhiGamma_eq hx
  obtain ⟨psi, hpsi, s1, s2, s3⟩ := select_ok ((x.div gamma).div C.dfNom) (cols := C.labelS) (fun c hc => by
    refine mem_unionLabels.2 (Or.inl (mem_unionLabels.2 (Or.inr ?_)))
    rw [hgc]; exact hc)
  refine ⟨phi, gamma, psi, by simp only [calcPgCoeff, h, hpsi], ?_, ?_⟩
  · intro r hr c hc xs xl n hxs hxl hxl0 hn hn0
    have hlead : leadCase C.lc.combCases r c ∈ C.labelCombCases := by
      unfold leadCase
      split
      · next q hq => rw [← hx.cases]; exact List.mem_map.2 ⟨q, List.mem_of_find?_eq_some hq, rfl⟩
      · exact hr
    have hg : gamma.get r c = some (xl / n) := by
      rw [hgam r hr c hc, hxl, hn _ hlead, cdiv, if_neg hn0]
    have hg0 : xl / n ≠ 0 := div_ne_zero hxl0 hn0
    have hp : psi.get r c = some (xs / (xl / n) / n) := by
      rw [s3 r c hc, get_div, get_div, hxs, hg, hn r hr]
      simp only [cdiv, if_neg hg0, if_neg hn0]
    refine ⟨_, _, hg, hp, by field_simp, by field_simp, fun he => ?_⟩
    rw [he, hxs] at hxl
    injection hxl with hxl
    subst hxl
    field_simp
  · intro r hr c hc hnl xs n hxs hn hn0
    have he : leadCase C.lc.combCases r c = r := by
      unfold leadCase
      rw [List.find?_eq_none.2 (fun p hp => by simpa using hnl p hp)]
    refine ⟨xs / n, ?_, by field_simp⟩
    rw [hphi r hr c hc, he, hxs, hn, cdiv, if_neg hn0]

/-- C58: the table of design points of a calibration.  Its rows are the load cases; the cell of case `i` and variable `c` is that
variable's coordinate of the design point of case `i`'s FORM analysis, and the column `z` holds the calibrated design parameters. -/
theorem C58_table {cases : List String} {zs : List ℝ} {f0 : FormObj D} {t : List (FormObj D)} {x : Frame}
    (h : dfXstar cases zs (f0 :: t) = .ok x) (hnd : cases.Nodup) (hcols : (xstarLabels f0).Nodup) (hz : "z" ∉ xstarLabels f0)
    {i : ℕ} {case : String} (hi : cases[i]? = some case) :
    x.index = cases ∧ x.columns = xstarLabels f0 ++ ["z"] ∧ x.get case "z" = zs[i]? ∧
    ∃ f, (f0 :: t)[i]? = some f ∧ f.designX.length = (xstarLabels f0).length ∧
      ∀ (j : ℕ) (c : String), (xstarLabels f0)[j]? = some c → x.get case c = f.designX[j]? := by
  unfold dfXstar at h
  dsimp only at h
  split at h
  · cases h
  · next hcond =>
    push Not at hcond
    obtain ⟨h1, h2, h3⟩ := hcond
    injection h with h
    subst h
    have hlt : i < cases.length := (List.getElem?_eq_some_iff.1 hi).1
    have hmem : case ∈ cases := List.mem_of_getElem? hi
    have hidx : cases.idxOf case = i := by
      have := (List.getElem?_eq_some_iff.1 hi).2
      rw [← this]; exact hnd.idxOf_getElem i hlt
    refine ⟨rfl, by simp only [if_neg hz], ?_, ?_⟩
    · rw [get_of_mem _ hmem (by simp)]
      dsimp only
      rw [if_pos rfl, hidx]
    · have hlf : i < (f0 :: t).length := by omega
      refine ⟨(f0 :: t)[i], List.getElem?_eq_getElem hlf, ?_, ?_⟩
      · by_contra hne
        exact h1 (List.any_eq_true.2 ⟨_, List.getElem_mem hlf, by simpa using hne⟩)
      · intro j c hj
        have hc : c ∈ xstarLabels f0 := List.mem_of_getElem? hj
        have hcz : c ≠ "z" := fun e => hz (e ▸ hc)
        have hjl := (List.getElem?_eq_some_iff.1 hj).1
        have hjx : (xstarLabels f0).idxOf c = j := by
          rw [← (List.getElem?_eq_some_iff.1 hj).2]; exact hcols.idxOf_getElem j hjl
        rw [get_of_mem _ hmem (by simp only [if_neg hz]; exact List.mem_append_left _ hc)]
        dsimp only
        rw [if_neg hcz, hidx, List.getElem?_eq_getElem hlf]
        dsimp only
        rw [hjx]

/-- A concrete load combination: one resistance, one static load, two combination variables, each leading one case. -/
def exLC : LoadComb ℕ :=
  { distMax := [], distPit := [], distOther := none, distResist := [], combCases := [("A", ["Q1"]), ("B", ["Q2"])], numComb := 2
    dictDistComb := [], dfCorr := none, constant := some [("z", ⟨"z", 1⟩)], labelCombCases := ["A", "B"], labelCombVrs := ["Q1", "Q2"]
    labelResist := ["R"], labelOther := ["G"], labelConst := some ["z"], labelAll := ["R", "G", "Q1", "Q2", "z"] }

/-- A calibration with it. -/
noncomputable def exCalib : Calib ℕ :=
  { lc := exLC, lsf := fun _ => .ok 0, form := fun _ => .error .exception, betaT := 3, calibMethod := "alpha", estMethod := "coeff"
    dfNom := ⟨["A", "B"], ["R", "G", "Q1", "Q2"], fun _ _ => some 2⟩, cvar := "z" }

/-- Its design points. -/
noncomputable def exTable : Frame :=
  ⟨["A", "B"], ["R", "G", "Q1", "Q2", "z"], fun r c => if r = "A" ∧ c = "Q1" then some 6 else if r = "B" ∧ c = "Q2" then some 8 else some 3⟩

theorem exTable_ok : DesignTable exCalib exTable := by
  constructor <;> simp [exCalib, exLC, exTable, Calib.labelCombCases, Calib.labelR, Calib.labelOther, Calib.labelCombVrs, Dict.keys]

/-- In case B the variable Q1 accompanies: load factor 6/2 = 3 from case A, combination factor 3/3/2 = 1/2. -/
example : ∃ phi gamma psi, exCalib.calcPgCoeff exTable = .ok (phi, gamma, psi) ∧ gamma.get "B" "Q1" = some 3 ∧
    psi.get "B" "Q1" = some (1 / 2) := by
  obtain ⟨phi, gamma, psi, h, h1, -⟩ := C58_coefficient exTable_ok
  obtain ⟨g, p, hg, hp, e1, e2, -⟩ := h1 "B" (by decide) "Q1" (by decide) 3 6 2 (by simp [exTable, Frame.get]) (by
    have : leadCase exCalib.lc.combCases "B" "Q1" = "A" := by decide
    rw [this]; simp [exTable, Frame.get]) (by norm_num) (by
    intro r' hr'
    have : r' = "A" ∨ r' = "B" := by simpa [exCalib, exLC, Calib.labelCombCases] using hr'
    rcases this with rfl | rfl <;> simp [exCalib, Frame.get]) (by norm_num)
  have eg : g = 3 := by linarith
  subst eg
  have ep : p = 1 / 2 := by linarith
  subst ep
  exact ⟨phi, gamma, psi, h, hg, hp⟩

end Props
end Pystra
