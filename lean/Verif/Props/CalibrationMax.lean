import Verif.Props.CalibrationFactors
import Mathlib.Order.Bounds.Basic

/-! C59: the largest combination factors and the smallest resistance factors over the load cases. -/

namespace Pystra

namespace Frame

theorem listMax_eq : ∀ {l : List ℝ}, l ≠ [] → ∃ m, listMax l = some m ∧ m ∈ l ∧ ∀ x ∈ l, x ≤ m
  | [], h => absurd rfl h
  | [a], _ => ⟨a, rfl, by simp, by simp⟩
  | a :: b :: t, _ => by
    obtain ⟨m, h1, h2, h3⟩ := listMax_eq (l := b :: t) (by simp)
    refine ⟨max a m, by rw [listMax, h1], ?_, ?_⟩
    · rcases max_choice a m with h | h <;> rw [h]
      · simp
      · exact List.mem_cons_of_mem _ h2
    · intro x hx
      rcases List.mem_cons.1 hx with rfl | hx
      · exact le_max_left _ _
      · exact (h3 x hx).trans (le_max_right _ _)

theorem listMin_eq : ∀ {l : List ℝ}, l ≠ [] → ∃ m, listMin l = some m ∧ m ∈ l ∧ ∀ x ∈ l, m ≤ x
  | [], h => absurd rfl h
  | [a], _ => ⟨a, rfl, by simp, by simp⟩
  | a :: b :: t, _ => by
    obtain ⟨m, h1, h2, h3⟩ := listMin_eq (l := b :: t) (by simp)
    refine ⟨min a m, by rw [listMin, h1], ?_, ?_⟩
    · rcases min_choice a m with h | h <;> rw [h]
      · simp
      · exact List.mem_cons_of_mem _ h2
    · intro x hx
      rcases List.mem_cons.1 hx with rfl | hx
      · exact min_le_left _ _
      · exact (min_le_right _ _).trans (h3 x hx)

theorem mem_colValues {f : Frame} {c : String} {v : ℝ} : v ∈ f.colValues c ↔ ∃ r ∈ f.index, f.get r c = some v := by
  simp [colValues]

theorem clipToMax_none {f : Frame} {r c : String} (h : f.get r c = none) : f.clipToMax.get r c = none := by
  by_cases hrc : r ∈ f.index ∧ c ∈ f.columns
  · rw [get_of_mem f.clipToMax hrc.1 hrc.2]
    simp only [clipToMax, h]
  · rw [get]; exact if_neg hrc

theorem clipToMax_some {f : Frame} {r c : String} {x : ℝ} (h : f.get r c = some x) :
    ∃ m, f.clipToMax.get r c = some m ∧ IsGreatest {v | ∃ r' ∈ f.index, f.get r' c = some v} m := by
  have hrc : r ∈ f.index ∧ c ∈ f.columns := by
    by_contra hn
    rw [get, if_neg hn] at h
    cases h
  have hx : x ∈ f.colValues c := mem_colValues.2 ⟨r, hrc.1, h⟩
  obtain ⟨m, h1, h2, h3⟩ := listMax_eq (List.ne_nil_of_mem hx)
  refine ⟨m, ?_, mem_colValues.1 h2, fun v hv => h3 v (mem_colValues.2 hv)⟩
  rw [get_of_mem f.clipToMax hrc.1 hrc.2]
  simp only [clipToMax, h, h1, max_eq_right (h3 x hx)]

theorem clipToMin_none {f : Frame} {r c : String} (h : f.get r c = none) : f.clipToMin.get r c = none := by
  by_cases hrc : r ∈ f.index ∧ c ∈ f.columns
  · rw [get_of_mem f.clipToMin hrc.1 hrc.2]
    simp only [clipToMin, h]
  · rw [get]; exact if_neg hrc

theorem clipToMin_some {f : Frame} {r c : String} {x : ℝ} (h : f.get r c = some x) :
    ∃ m, f.clipToMin.get r c = some m ∧ IsLeast {v | ∃ r' ∈ f.index, f.get r' c = some v} m := by
  have hrc : r ∈ f.index ∧ c ∈ f.columns := by
    by_contra hn
    rw [get, if_neg hn] at h
    cases h
  have hx : x ∈ f.colValues c := mem_colValues.2 ⟨r, hrc.1, h⟩
  obtain ⟨m, h1, h2, h3⟩ := listMin_eq (List.ne_nil_of_mem hx)
  refine ⟨m, ?_, mem_colValues.1 h2, fun v hv => h3 v (mem_colValues.2 hv)⟩
  rw [get_of_mem f.clipToMin hrc.1 hrc.2]
  simp only [clipToMin, h, h1, min_eq_right (h3 x hx)]

theorem setDiag_get (f : Frame) (v : ℝ) {r c : String} (hr : r ∈ f.index) (hc : c ∈ f.columns) :
    (f.setDiag v).get r c = if f.index.idxOf r = f.columns.idxOf c then some v else f.get r c := by
  rw [get_of_mem (f.setDiag v) hr hc, get_of_mem f hr hc]
  by_cases h : f.index.idxOf r = f.columns.idxOf c <;> simp [setDiag, h, hr, hc]

end Frame

namespace Props
open Calib Spec Frame

variable {D : Type}

/-- C59: `get_phi_min` replaces every resistance factor by the smallest one of its column; missing cells stay missing. -/
theorem C59_phi_min (phi : Frame) (r c : String) :
    (getPhiMin phi).index = phi.index ∧ (getPhiMin phi).columns = phi.columns ∧
    (phi.get r c = none → (getPhiMin phi).get r c = none) ∧
    ∀ x, phi.get r c = some x → ∃ m, (getPhiMin phi).get r c = some m ∧ IsLeast {v | ∃ r' ∈ phi.index, phi.get r' c = some v} m :=
  ⟨rfl, rfl, clipToMin_none, fun _ h => clipToMin_some h⟩

/-- `get_psi_max`, by positions: row `i`, column `j`. -/
theorem getPsiMax_eq (C : Calib D) {psi : Frame} (hcols : ∀ c ∈ C.labelS, c ∈ psi.columns) (hrows : psi.index.Nodup)
    (hvrs : C.labelCombVrs.Nodup) (hdisj : ∀ c ∈ C.labelOther, c ∉ C.labelCombVrs) :
    ∃ res, C.getPsiMax psi = .ok res ∧ res.index = psi.index ∧ res.columns = C.labelCombVrs ++ C.labelOther ∧
      (∀ r, ∀ c ∈ C.labelOther, res.get r c = psi.get r c) ∧
      ∀ (i j : ℕ) (r c : String), psi.index[i]? = some r → C.labelCombVrs[j]? = some c →
        (i = j → res.get r c = some 1) ∧
        (i ≠ j → psi.get r c = none → res.get r c = none) ∧
        (i ≠ j → ∀ x, psi.get r c = some x → ∃ m, res.get r c = some m ∧
          IsGreatest ({v | ∃ (k : ℕ) (r' : String), k ≠ j ∧ psi.index[k]? = some r' ∧ psi.get r' c = some v} ∪
            {v | v = 0 ∧ j < psi.index.length}) m) := by
  obtain ⟨f, hf, f1, f2, f3⟩ := select_ok psi (cols := C.labelCombVrs) (fun c hc => hcols c (List.mem_append_right _ hc))
  set d0 := f.setDiag 0 with hd0
  set g := d0.clipToMax with hg
  set d1 := g.setDiag 1 with hd1
  have i1 : d1.index = psi.index := f1
  have i2 : d1.columns = C.labelCombVrs := f2
  have main : ∀ (i j : ℕ) (r c : String), psi.index[i]? = some r → C.labelCombVrs[j]? = some c →
        (i = j → d1.get r c = some 1) ∧
        (i ≠ j → psi.get r c = none → d1.get r c = none) ∧
        (i ≠ j → ∀ x, psi.get r c = some x → ∃ m, d1.get r c = some m ∧
          IsGreatest ({v | ∃ (k : ℕ) (r' : String), k ≠ j ∧ psi.index[k]? = some r' ∧ psi.get r' c = some v} ∪
            {v | v = 0 ∧ j < psi.index.length}) m) := by
    intro i j r c hi hj
    have hr : r ∈ psi.index := List.mem_of_getElem? hi
    have hc : c ∈ C.labelCombVrs := List.mem_of_getElem? hj
    have posr : ∀ {k : ℕ} {r' : String}, psi.index[k]? = some r' → psi.index.idxOf r' = k := by
      intro k r' hk
      obtain ⟨hlt, e⟩ := List.getElem?_eq_some_iff.1 hk
      rw [← e]; exact hrows.idxOf_getElem k hlt
    have posc : C.labelCombVrs.idxOf c = j := by
      obtain ⟨hlt, e⟩ := List.getElem?_eq_some_iff.1 hj
      rw [← e]; exact hvrs.idxOf_getElem j hlt
    have hd : d1.get r c = if i = j then some 1 else g.get r c := by
      rw [hd1, setDiag_get g 1 (show r ∈ f.index by rw [f1]; exact hr) (show c ∈ f.columns by rw [f2]; exact hc)]
      have e1 : g.index = psi.index := f1
      have e2 : g.columns = C.labelCombVrs := f2
      rw [e1, e2, posr hi, posc]
    have hd0g : ∀ {k : ℕ} {r' : String}, psi.index[k]? = some r' → d0.get r' c = if k = j then some 0 else psi.get r' c := by
      intro k r' hk
      rw [hd0, setDiag_get f 0 (by rw [f1]; exact List.mem_of_getElem? hk) (by rw [f2]; exact hc), f1, f2, posr hk, posc, f3 r' c hc]
    refine ⟨fun h => by rw [hd, if_pos h], fun h hn => ?_, fun h x hx => ?_⟩
    · rw [hd, if_neg h]
      exact clipToMax_none (by rw [hd0g hi, if_neg h, hn])
    · obtain ⟨m, h1, h2⟩ := clipToMax_some (f := d0) (r := r) (c := c) (x := x) (by rw [hd0g hi, if_neg h, hx])
      refine ⟨m, by rw [hd, if_neg h]; exact h1, ?_⟩
      have hset : {v | ∃ r' ∈ d0.index, d0.get r' c = some v} =
          {v | ∃ (k : ℕ) (r' : String), k ≠ j ∧ psi.index[k]? = some r' ∧ psi.get r' c = some v} ∪ {v | v = 0 ∧ j < psi.index.length} := by
        have e0 : d0.index = psi.index := f1
        ext v
        simp only [Set.mem_setOf_eq, Set.mem_union, e0]
        constructor
        · rintro ⟨r', hr', hv⟩
          obtain ⟨k, hk, e⟩ := List.getElem_of_mem hr'
          have hk' : psi.index[k]? = some r' := by rw [List.getElem?_eq_getElem hk, e]
          rw [hd0g hk'] at hv
          by_cases hkj : k = j
          · rw [if_pos hkj] at hv
            injection hv with hv
            exact Or.inr ⟨hv.symm, hkj ▸ hk⟩
          · rw [if_neg hkj] at hv
            exact Or.inl ⟨k, r', hkj, hk', hv⟩
        · rintro (⟨k, r', hkj, hk, hv⟩ | ⟨rfl, hlt⟩)
          · exact ⟨r', List.mem_of_getElem? hk, by rw [hd0g hk, if_neg hkj, hv]⟩
          · refine ⟨psi.index[j], List.getElem_mem hlt, ?_⟩
            rw [hd0g (List.getElem?_eq_getElem hlt), if_pos rfl]
      rw [← hset]
      exact h2
  by_cases ho : C.labelOther = []
  · refine ⟨d1, by simp only [getPsiMax, hf, if_pos ho]; rfl, i1, by rw [ho, List.append_nil]; exact i2, by rw [ho]; simp, main⟩
  · obtain ⟨o, ho', o1, o2, o3⟩ := select_ok psi (cols := C.labelOther) (fun c hc => hcols c (List.mem_append_left _ hc))
    have hi : d1.index = o.index := by rw [i1, o1]
    refine ⟨d1.concat o, by simp only [getPsiMax, hf, if_neg ho, ho']; rfl, i1, ?_, ?_, ?_⟩
    · show d1.columns ++ o.columns = _
      rw [i2, o2]
    · intro r c hc
      rw [get_concat _ _ hi, i2, if_neg (hdisj c hc), o3 r c hc]
    · intro i j r c hri hcj
      rw [get_concat _ _ hi, i2, if_pos (List.mem_of_getElem? hcj)]
      exact main i j r c hri hcj

/-- C59: `get_psi_max`.  Suppose the `i`-th case is led by the `i`-th combination variable alone.  Then the result is 1 where a
variable leads; elsewhere, when the variable's combination factors are not negative, it is the largest combination factor of the variable over the
cases that it does not lead; static loads keep their factors. -/
theorem C59_psi_max (C : Calib D) {psi : Frame} (hcols : ∀ c ∈ C.labelS, c ∈ psi.columns) (hrows : psi.index.Nodup)
    (hvrs : C.labelCombVrs.Nodup) (hdisj : ∀ c ∈ C.labelOther, c ∉ C.labelCombVrs)
    {leads : String → String → Prop}
    (hlead : ∀ (i j : ℕ) (r c : String), psi.index[i]? = some r → C.labelCombVrs[j]? = some c → (leads r c ↔ i = j)) :
    ∃ res, C.getPsiMax psi = .ok res ∧
      (∀ r, ∀ c ∈ C.labelOther, res.get r c = psi.get r c) ∧
      ∀ r ∈ psi.index, ∀ c ∈ C.labelCombVrs,
        (leads r c → res.get r c = some 1) ∧
        (¬ leads r c → ∀ x, psi.get r c = some x → (∀ r' ∈ psi.index, ¬ leads r' c → ∀ v, psi.get r' c = some v → 0 ≤ v) →
          ∃ m, res.get r c = some m ∧ IsGreatest {v | ∃ r' ∈ psi.index, ¬ leads r' c ∧ psi.get r' c = some v} m) := by
  obtain ⟨res, h, -, -, hs, hm⟩ := getPsiMax_eq C hcols hrows hvrs hdisj
  refine ⟨res, h, hs, fun r hr c hc => ?_⟩
  obtain ⟨i, hi, rfl⟩ := List.getElem_of_mem hr
  obtain ⟨j, hj, rfl⟩ := List.getElem_of_mem hc
  have hi' := List.getElem?_eq_getElem hi
  have hj' := List.getElem?_eq_getElem hj
  obtain ⟨h1, -, h3⟩ := hm i j _ _ hi' hj'
  refine ⟨fun hl => h1 ((hlead i j _ _ hi' hj').1 hl), fun hl x hx hpos => ?_⟩
  have hij : i ≠ j := fun e => hl ((hlead i j _ _ hi' hj').2 e)
  obtain ⟨m, hm1, hm2⟩ := h3 hij x hx
  have hx0 : 0 ≤ x := hpos _ hr hl x hx
  have hxm : x ≤ m := hm2.2 (Or.inl ⟨i, _, hij, hi', hx⟩)
  have hxs : x ∈ {v | ∃ r' ∈ psi.index, ¬ leads r' C.labelCombVrs[j] ∧ psi.get r' C.labelCombVrs[j] = some v} := ⟨_, hr, hl, hx⟩
  refine ⟨m, hm1, ?_, ?_⟩
  · rcases hm2.1 with ⟨k, r', hkj, hk, hv⟩ | ⟨h0, -⟩
    · exact ⟨r', List.mem_of_getElem? hk, fun hl' => hkj ((hlead k j _ _ hk hj').1 hl'), hv⟩
    · have : m = x := le_antisymm (by rw [h0]; exact hx0) hxm
      rw [this]; exact hxs
  · rintro v ⟨r', hr', hl', hv⟩
    obtain ⟨k, hk, rfl⟩ := List.getElem_of_mem hr'
    exact hm2.2 (Or.inl ⟨k, _, fun e => hl' ((hlead k j _ _ (List.getElem?_eq_getElem hk) hj').2 e), List.getElem?_eq_getElem hk, hv⟩)

/-- C59 (finding): the leading action is recognised by position only, the `i`-th row with the `i`-th column.  When the cases are listed in
another order than the variables, the 1 is put where it does not belong and the true combination factor is lost. -/
theorem C59_positional (C : Calib D) {psi : Frame} (hcols : ∀ c ∈ C.labelS, c ∈ psi.columns) (hrows : psi.index.Nodup)
    (hvrs : C.labelCombVrs.Nodup) (hdisj : ∀ c ∈ C.labelOther, c ∉ C.labelCombVrs) {i : ℕ} {r c : String}
    (hr : psi.index[i]? = some r) (hc : C.labelCombVrs[i]? = some c) :
    ∃ res, C.getPsiMax psi = .ok res ∧ res.get r c = some 1 := by
  obtain ⟨res, h, -, -, -, hm⟩ := getPsiMax_eq C hcols hrows hvrs hdisj
  exact ⟨res, h, (hm i i r c hr hc).1 rfl⟩

/-- C59 (finding): negative combination factors (a design value below zero) are replaced by 0, which is none of them. -/
theorem C59_negative (C : Calib D) {psi : Frame} (hcols : ∀ c ∈ C.labelS, c ∈ psi.columns) (hrows : psi.index.Nodup)
    (hvrs : C.labelCombVrs.Nodup) (hdisj : ∀ c ∈ C.labelOther, c ∉ C.labelCombVrs) {i j : ℕ} {r c : String} {x : ℝ}
    (hr : psi.index[i]? = some r) (hc : C.labelCombVrs[j]? = some c) (hij : i ≠ j) (hj : j < psi.index.length)
    (hx : psi.get r c = some x)
    (hneg : ∀ (k : ℕ) (r' : String), k ≠ j → psi.index[k]? = some r' → ∀ v, psi.get r' c = some v → v < 0) :
    ∃ res, C.getPsiMax psi = .ok res ∧ res.get r c = some 0 := by
  obtain ⟨res, h, -, -, -, hm⟩ := getPsiMax_eq C hcols hrows hvrs hdisj
  obtain ⟨m, hm1, hm2⟩ := (hm i j r c hr hc).2.2 hij x hx
  have h0 : (0 : ℝ) ≤ m := hm2.2 (Or.inr ⟨rfl, hj⟩)
  rcases hm2.1 with ⟨k, r', hkj, hk, hv⟩ | ⟨e, -⟩
  · exact absurd (hneg k r' hkj hk m hv) (not_lt.2 h0)
  · exact ⟨res, h, by rw [hm1, e]⟩

/-- The cases of the example are led by the variables in the same order; the accompanying factor of Q1 is the one of case B. -/
example : ∃ res, exCalib.getPsiMax exTable = .ok res ∧ res.get "A" "Q1" = some 1 ∧ res.get "B" "Q1" = some 3 ∧ res.get "B" "G" = some 3 := by
  obtain ⟨res, h, hs, hm⟩ := C59_psi_max exCalib (psi := exTable) (by decide) (by decide) (by decide) (by decide)
    (leads := fun r c => ∃ v, exCalib.lc.combCases.get? r = some v ∧ c ∈ v) (by
      intro i j r c hi hj
      have h1 : (i = 0 ∧ r = "A") ∨ (i = 1 ∧ r = "B") := by
        rcases i with _ | _ | i <;> simp [exTable] at hi <;> simp [hi]
      have h2 : (j = 0 ∧ c = "Q1") ∨ (j = 1 ∧ c = "Q2") := by
        rcases j with _ | _ | j <;> simp [exCalib, exLC, Calib.labelCombVrs] at hj <;> simp [hj]
      rcases h1 with ⟨rfl, rfl⟩ | ⟨rfl, rfl⟩ <;> rcases h2 with ⟨rfl, rfl⟩ | ⟨rfl, rfl⟩ <;> simp [exCalib, exLC, Dict.get?])
  refine ⟨res, h, (hm "A" (by decide) "Q1" (by decide)).1 ⟨["Q1"], by simp [exCalib, exLC, Dict.get?], by simp⟩, ?_, ?_⟩
  · have hn : ¬ ∃ v, exCalib.lc.combCases.get? "B" = some v ∧ "Q1" ∈ v := by simp [exCalib, exLC, Dict.get?]
    have hall : ∀ r' ∈ exTable.index, ∀ v, exTable.get r' "Q1" = some v → v = 6 ∧ r' = "A" ∨ v = 3 := by
      intro r' hr' v hv
      have : r' = "A" ∨ r' = "B" := by simpa [exTable] using hr'
      rcases this with rfl | rfl <;> simp [exTable, Frame.get] at hv <;> simp [← hv]
    obtain ⟨m, hm1, hm2⟩ := (hm "B" (by decide) "Q1" (by decide)).2 hn 3 (by simp [exTable, Frame.get]) (by
      intro r' hr' _ v hv
      rcases hall r' hr' v hv with ⟨h, -⟩ | h <;> rw [h] <;> norm_num)
    obtain ⟨r', hr', hl, hv⟩ := hm2.1
    rcases hall r' hr' m hv with ⟨-, rfl⟩ | rfl
    · exact absurd ⟨["Q1"], by simp [exCalib, exLC, Dict.get?], by simp⟩ hl
    · exact hm1
  · rw [hs "B" "G" (by decide)]; simp [exTable, Frame.get]

end Props
end Pystra
