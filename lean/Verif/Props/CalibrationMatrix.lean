import Verif.Props.CalibrationDesign
import Mathlib.LinearAlgebra.Matrix.ToLinearEquiv

/-! C65: the matrix method of estimating the combination factors. -/

namespace Pystra

namespace Spec

variable {D : Type}

/-- A limit state `h - Σ coef_c · X_c` over the combination variables, where `h` (resistance, static loads, design parameter, constants)
does not depend on the combination variables. -/
structure LinearLoads (C : Calib D) (h : (String → ℝ) → ℝ) (coef : String → ℝ) : Prop where
  /-- the function -/
  lsf : ∀ a, C.lsf a = .ok (h (nums a) - (C.labelCombVrs.map (fun c => coef c * nums a c)).sum)
  /-- independence -/
  indep : ∀ v w, (∀ k, k ∉ C.labelCombVrs → v k = w k) → h v = h w

/-- The `i`-th case is led by the `i`-th combination variable alone. -/
structure OrderedCases (C : Calib D) : Prop where
  /-- as many cases as variables -/
  length : C.labelCombCases.length = C.labelCombVrs.length
  /-- no case twice -/
  cases : C.labelCombCases.Nodup
  /-- no variable twice -/
  labels : (C.labelOther ++ C.labelCombVrs).Nodup
  /-- the leading variable -/
  leads : ∀ (i : ℕ) (r c : String), C.labelCombCases[i]? = some r → C.labelCombVrs[i]? = some c → C.lc.combCases.get? r = some [c]

/-- The factored values of a case: resistances `φ · nominal`, loads `ψ · γ · nominal`, and the case's calibrated design parameter. -/
noncomputable def factoredArgs (C : Calib D) (phi gamma psi x : Frame) (row : String) : LoadComb.Args := fun k =>
  if k = C.cvar then x.get row k
  else if k ∈ C.labelR then Frame.cmul (phi.get row k) (C.dfNom.get row k)
  else if k ∈ C.labelS then Frame.cmul (Frame.cmul (psi.get row k) (gamma.get row k)) (C.dfNom.get row k)
  else none

end Spec

namespace Props
open Calib Spec Frame

variable {D : Type}

/-- The matrix with zero diagonal and constant columns is regular when the columns are not zero and there are at least two. -/
theorem zeroDiag_det {n : ℕ} (hn : 2 ≤ n) (d : Fin n → ℝ) (hd : ∀ j, d j ≠ 0) :
    (Matrix.of (fun i j => if i = j then 0 else d j) : Matrix (Fin n) (Fin n) ℝ).det ≠ 0 := by
  intro h0
  obtain ⟨v, hv, hAv⟩ := Matrix.exists_mulVec_eq_zero_iff.2 h0
  have hrow : ∀ i, (∑ j, d j * v j) = d i * v i := by
    intro i
    have := congrFun hAv i
    simp only [Matrix.mulVec, dotProduct, Matrix.of_apply, Pi.zero_apply] at this
    rw [← Finset.add_sum_erase _ _ (Finset.mem_univ i)] at this ⊢
    rw [if_pos rfl, zero_mul, zero_add] at this
    have e : ∑ j ∈ Finset.univ.erase i, d j * v j = 0 := by
      rw [← this]
      refine Finset.sum_congr rfl fun j hj => ?_
      rw [if_neg (Finset.ne_of_mem_erase hj).symm]
    rw [e, add_zero]
  set S := ∑ j, d j * v j with hS
  have hS0 : S = 0 := by
    have : S = n * S := by
      conv_lhs => rw [hS]
      rw [Finset.sum_congr rfl fun j _ => (hrow j).symm]
      simp
    have hn' : (2 : ℝ) ≤ n := by exact_mod_cast hn
    have h2 : ((n : ℝ) - 1) * S = 0 := by linarith
    rcases mul_eq_zero.1 h2 with h | h
    · linarith
    · exact h
  apply hv
  funext i
  have := hrow i
  rw [hS0] at this
  rcases mul_eq_zero.1 this.symm with h | h
  · exact absurd h (hd i)
  · exact h

theorem solveZeroDiag_ok {n : ℕ} {d b psi : Fin n → ℝ} (h : solveZeroDiag n d b = .ok psi) (i : Fin n) :
    ∑ j, (if i = j then 0 else d j) * psi j = b i := by
  unfold solveZeroDiag at h
  dsimp only at h
  split at h
  · cases h
  · next hdet =>
    injection h with h
    subst h
    set A : Matrix (Fin n) (Fin n) ℝ := fun i j => if i = j then 0 else d j with hA
    have : A.mulVec (A⁻¹.mulVec b) = b := by
      rw [Matrix.mulVec_mulVec, Matrix.mul_nonsing_inv _ (isUnit_iff_ne_zero.2 hdet), Matrix.one_mulVec]
    exact congrFun this i

theorem solveZeroDiag_exists {n : ℕ} (hn : 2 ≤ n) (d b : Fin n → ℝ) (hd : ∀ j, d j ≠ 0) : ∃ psi, solveZeroDiag n d b = .ok psi := by
  unfold solveZeroDiag
  dsimp only
  rw [if_neg (show ¬ Matrix.det (fun i j => if i = j then 0 else d j : Matrix (Fin n) (Fin n) ℝ) = 0 from zeroDiag_det hn d hd)]
  exact ⟨_, rfl⟩

theorem unionLabels_self (l : List String) : unionLabels l l = l := by
  unfold unionLabels
  rw [List.filter_eq_nil_iff.2 (by simp), List.append_nil]

theorem phiRzVect_ok {C : Calib D} {x : Frame} : ∀ (l : List String) (rs : List ℝ), phiRzVect C x l = .ok rs →
    rs.length = l.length ∧ ∀ (i : ℕ) (r : String), l[i]? = some r → ∃ sl a v, C.lc.combCases.get? r = some sl ∧
      rowArgs x r ((C.labelR ++ C.labelCombVrs ++ C.labelOther ++ [C.cvar]).filter (fun v => ¬ (v ∈ C.labelCombVrs ∧ v ∉ sl))) = .ok a ∧
      C.eval a = .ok v ∧ rs[i]? = some v := by
  intro l
  induction l with
  | nil =>
    intro rs h
    simp only [phiRzVect, Except.ok.injEq] at h
    subst h
    exact ⟨rfl, fun i r h => by cases i <;> cases h⟩
  | cons comb t ih =>
    intro rs h
    rw [phiRzVect] at h
    split at h
    · cases h
    · next sl hsl =>
      dsimp only at h
      split at h
      · cases h
      · next a ha =>
        split at h
        · cases h
        · next v hv =>
          split at h
          · cases h
          · next r' hr' =>
            injection h with h
            subst h
            obtain ⟨h1, h2⟩ := ih r' hr'
            refine ⟨by simp [h1], fun i r hi => ?_⟩
            cases i with
            | zero =>
              simp only [List.getElem?_cons_zero, Option.some.injEq] at hi
              subst hi
              exact ⟨sl, a, v, hsl, ha, hv, rfl⟩
            | succ i => exact h2 i r hi

theorem epgSCols_ok {C : Calib D} {gn : Frame} : ∀ (l : List String) (rs : List ℝ), epgSCols C gn l = .ok rs →
    rs.length = l.length ∧ ∀ (i : ℕ) (r : String), l[i]? = some r → ∃ sl a b va vb, C.lc.combCases.get? r = some sl ∧
      rowArgs gn r (C.labelOther ++ sl) = .ok a ∧ rowArgs gn r C.labelOther = .ok b ∧ C.eval a = .ok va ∧ C.eval b = .ok vb ∧
      rs[i]? = some (-1 * (va - vb)) := by
  intro l
  induction l with
  | nil =>
    intro rs h
    simp only [epgSCols, Except.ok.injEq] at h
    subst h
    exact ⟨rfl, fun i r h => by cases i <;> cases h⟩
  | cons comb t ih =>
    intro rs h
    rw [epgSCols] at h
    split at h
    · cases h
    · next sl hsl =>
      split at h
      · cases h
      · next a ha =>
        split at h
        · cases h
        · next b hb =>
          split at h
          · cases h
          · next va hva =>
            split at h
            · cases h
            · next vb hvb =>
              split at h
              · cases h
              · next r' hr' =>
                injection h with h
                subst h
                obtain ⟨h1, h2⟩ := ih r' hr'
                refine ⟨by simp [h1], fun i r hi => ?_⟩
                cases i with
                | zero =>
                  simp only [List.getElem?_cons_zero, Option.some.injEq] at hi
                  subst hi
                  exact ⟨sl, a, b, va, vb, hsl, ha, hb, hva, hvb, rfl⟩
                | succ i => exact h2 i r hi

/-- The case that leads the `j`-th variable is the `j`-th. -/
theorem leadCase_ordered {C : Calib D} (ho : OrderedCases C) (hkeys : C.lc.combCases.keys = C.labelCombCases) {j : ℕ} {q c : String}
    (hq : C.labelCombCases[j]? = some q) (hc : C.labelCombVrs[j]? = some c) (r : String) : leadCase C.lc.combCases r c = q := by
  have hvn : C.labelCombVrs.Nodup := (List.nodup_append.1 ho.labels).2.1
  have hknd : C.lc.combCases.keys.Nodup := by rw [hkeys]; exact ho.cases
  have hentry : ∀ p ∈ C.lc.combCases, c ∈ p.2 → p.1 = q := by
    rintro ⟨k, vs⟩ hp hcv
    have hk : k ∈ C.labelCombCases := by rw [← hkeys]; exact List.mem_map.2 ⟨_, hp, rfl⟩
    obtain ⟨i, hi, rfl⟩ := List.getElem_of_mem hk
    have hi' : i < C.labelCombVrs.length := by rw [← ho.length]; exact hi
    have := ho.leads i _ _ (List.getElem?_eq_getElem hi) (List.getElem?_eq_getElem hi')
    rw [Dict.get?_of_mem _ hknd _ _ hp] at this
    injection this with this
    dsimp only at hcv
    rw [this, List.mem_singleton] at hcv
    have hij : i = j := by
      obtain ⟨hj, e⟩ := List.getElem?_eq_some_iff.1 hc
      rw [hcv] at e
      exact ((hvn.getElem_inj_iff (hi := hj) (hj := hi')).1 e).symm
    subst hij
    exact (List.getElem?_eq_some_iff.1 hq).2
  unfold leadCase
  split
  · next p hp =>
    have := List.find?_some hp
    simp only [decide_eq_true_eq] at this
    exact hentry p (List.mem_of_find?_eq_some hp) this
  · next hnone =>
    exfalso
    have hmem := Dict.mem_of_get? _ _ _ (ho.leads j q c hq hc)
    have := List.find?_eq_none.1 hnone _ hmem
    simp at this

theorem sum_map_eq_fin (l : List String) (f : String → ℝ) : (l.map f).sum = ∑ j : Fin l.length, f l[j] := by
  rw [← List.sum_ofFn]
  congr 1
  exact (List.ofFn_getElem_eq_map l f).symm

/-- Factored values of resistances, static loads and leading variables are the design values. -/
theorem phiGamma_facts
    {C : Calib D} {consts : Dict String ConstObj} (hg : GoodLabels C consts) (ho : OrderedCases C) {x : Frame}
    (hx : DesignTable C x)
    (hcell : ∀ r ∈ C.labelCombCases, ∀ c, c ∈ C.labelR ∨ c ∈ C.labelS → ∃ v, x.get r c = some v)
    (hnom : ∀ r ∈ C.labelCombCases, ∀ c, c ∈ C.labelR ∨ c ∈ C.labelS → ∃ n, n ≠ 0 ∧ ∀ r' ∈ C.labelCombCases, C.dfNom.get r' c = some n) :
    ∃ phi gamma, C.calcPhiGamma x = .ok (phi, gamma) ∧ phi.columns = C.labelR ∧ gamma.columns = C.labelS ∧
      phi.index = C.labelCombCases ∧ gamma.index = C.labelCombCases ∧
      (∀ r ∈ C.labelCombCases, ∀ c ∈ C.labelR, cmul (phi.get r c) (C.dfNom.get r c) = x.get r c) ∧
      (∀ r ∈ C.labelCombCases, ∀ c ∈ C.labelOther, cmul (gamma.get r c) (C.dfNom.get r c) = x.get r c ∧ ∃ g, gamma.get r c = some g) ∧
      (∀ r ∈ C.labelCombCases, ∀ (j : ℕ) (q c : String), C.labelCombCases[j]? = some q → C.labelCombVrs[j]? = some c →
        cmul (gamma.get r c) (C.dfNom.get r c) = x.get q c ∧ ∃ g, gamma.get r c = some g) := by
  obtain ⟨phi', gamma', hpg, hpc, hgc, hpi, hgi, hphi, hgam⟩ := calcPhiGamma_eq hx
  have hix : unionLabels x.index C.dfNom.index = C.labelCombCases := by rw [hx.rows, hx.nom, unionLabels_self]
  rw [hix] at hpi hgi
  -- labels
  have hvn : C.labelCombVrs.Nodup := (List.nodup_append.1 ho.labels).2.1
  have hon : C.labelOther.Nodup := (List.nodup_append.1 ho.labels).1
  have hoc : ∀ c ∈ C.labelOther, c ∉ C.labelCombVrs := fun c h1 h2 => (List.nodup_append.1 ho.labels).2.2 c h1 c h2 rfl
  have hSmem : ∀ {c}, c ∈ C.labelS ↔ c ∈ C.labelOther ∨ c ∈ C.labelCombVrs := List.mem_append
  have hcv : ∀ k, k ∈ C.labelR ∨ k ∈ C.labelS → k ≠ C.cvar := by
    rintro k (hk | hk) rfl
    · exact hg.resist _ hk hg.cvar
    · exact hg.load _ hk hg.cvar
  have hleadself : ∀ r c, c ∉ C.labelCombVrs → leadCase C.lc.combCases r c = r := by
    intro r c hc
    unfold leadCase
    rw [List.find?_eq_none.2]
    rintro ⟨k, vs⟩ hp
    simp only [decide_eq_true_eq]
    intro hcv
    have hk : k ∈ C.labelCombCases := by rw [← hx.cases]; exact List.mem_map.2 ⟨_, hp, rfl⟩
    obtain ⟨i, hi, rfl⟩ := List.getElem_of_mem hk
    have hi' : i < C.labelCombVrs.length := by rw [← ho.length]; exact hi
    have := ho.leads i _ _ (List.getElem?_eq_getElem hi) (List.getElem?_eq_getElem hi')
    rw [Dict.get?_of_mem _ (by rw [hx.cases]; exact ho.cases) _ _ hp] at this
    injection this with this
    rw [this, List.mem_singleton] at hcv
    exact hc (hcv ▸ List.getElem_mem hi')
  -- factored values of resistances, static loads and leading variables are the design values
  have hphiv : ∀ r ∈ C.labelCombCases, ∀ c ∈ C.labelR, cmul (phi'.get r c) (C.dfNom.get r c) = x.get r c := by
    intro r hr c hc
    obtain ⟨v, hv⟩ := hcell r hr c (Or.inl hc)
    obtain ⟨n, hn0, hn⟩ := hnom r hr c (Or.inl hc)
    have hcc : c ∉ C.labelCombVrs := fun hcc => hg.disjoint c hc (hSmem.2 (Or.inr hcc))
    rw [hphi r hr c hc, hleadself r c hcc, hv, hn r hr, cdiv, if_neg hn0, cmul, div_mul_cancel₀ _ hn0]
  have hgamo : ∀ r ∈ C.labelCombCases, ∀ c ∈ C.labelOther, cmul (gamma'.get r c) (C.dfNom.get r c) = x.get r c ∧ ∃ g, gamma'.get r c = some g := by
    intro r hr c hc
    obtain ⟨v, hv⟩ := hcell r hr c (Or.inr (hSmem.2 (Or.inl hc)))
    obtain ⟨n, hn0, hn⟩ := hnom r hr c (Or.inr (hSmem.2 (Or.inl hc)))
    rw [hgam r hr c (hSmem.2 (Or.inl hc)), hleadself r c (hoc c hc), hv, hn r hr, cdiv, if_neg hn0, cmul, div_mul_cancel₀ _ hn0]
    exact ⟨rfl, _, rfl⟩
  have hgamc : ∀ r ∈ C.labelCombCases, ∀ (j : ℕ) (q c : String), C.labelCombCases[j]? = some q → C.labelCombVrs[j]? = some c →
      cmul (gamma'.get r c) (C.dfNom.get r c) = x.get q c ∧ ∃ g, gamma'.get r c = some g := by
    intro r hr j q c hq hc
    have hcm := List.mem_of_getElem? hc
    have hqm := List.mem_of_getElem? hq
    obtain ⟨v, hv⟩ := hcell q hqm c (Or.inr (hSmem.2 (Or.inr hcm)))
    obtain ⟨n, hn0, hn⟩ := hnom r hr c (Or.inr (hSmem.2 (Or.inr hcm)))
    rw [hgam r hr c (hSmem.2 (Or.inr hcm)), leadCase_ordered ho hx.cases hq hc, hv, hn q hqm, hn r hr, cdiv, if_neg hn0, cmul,
      div_mul_cancel₀ _ hn0]
    exact ⟨rfl, _, rfl⟩
  exact ⟨phi', gamma', hpg, hpc, hgc, hpi, hgi, hphiv, hgamo, hgamc⟩

/-- The columns of the matrix: coefficient times leading design value. -/
theorem epgS_value
    {C : Calib D} {consts : Dict String ConstObj} (hg : GoodLabels C consts) (ho : OrderedCases C) {x : Frame}
    {h : (String → ℝ) → ℝ} {coef : String → ℝ} (hl : LinearLoads C h coef) {phi' gamma' : Frame}
    (hpc : phi'.columns = C.labelR) (hpi : phi'.index = C.labelCombCases) (hgi : gamma'.index = C.labelCombCases)
    (hgamc : ∀ r ∈ C.labelCombCases, ∀ (j : ℕ) (q c : String), C.labelCombCases[j]? = some q → C.labelCombVrs[j]? = some c →
        cmul (gamma'.get r c) (C.dfNom.get r c) = x.get q c ∧ ∃ g, gamma'.get r c = some g)
    {cols : List ℝ} (hcols : epgSCols C ((phi'.concat gamma').mul C.dfNom) C.labelCombCases = .ok cols) :
    ∀ (j : ℕ) (q c : String) (xv : ℝ), C.labelCombCases[j]? = some q → C.labelCombVrs[j]? = some c → x.get q c = some xv →
      cols[j]? = some (coef c * xv) := by
  -- labels
  have hvn : C.labelCombVrs.Nodup := (List.nodup_append.1 ho.labels).2.1
  have hon : C.labelOther.Nodup := (List.nodup_append.1 ho.labels).1
  have hoc : ∀ c ∈ C.labelOther, c ∉ C.labelCombVrs := fun c h1 h2 => (List.nodup_append.1 ho.labels).2.2 c h1 c h2 rfl
  have hSmem : ∀ {c}, c ∈ C.labelS ↔ c ∈ C.labelOther ∨ c ∈ C.labelCombVrs := List.mem_append
  have hcv : ∀ k, k ∈ C.labelR ∨ k ∈ C.labelS → k ≠ C.cvar := by
    rintro k (hk | hk) rfl
    · exact hg.resist _ hk hg.cvar
    · exact hg.load _ hk hg.cvar
  obtain ⟨hcl, hcv'⟩ := epgSCols_ok _ _ hcols
  intro j q c xv hq hc hxv
  obtain ⟨sl, a, b, va, vb, hsl, ha, hb, hva, hvb, hres⟩ := hcv' j q hq
  rw [ho.leads j q c hq hc] at hsl
  injection hsl with hsl
  subst hsl
  obtain ⟨-, -, hak⟩ := rowArgs_ok ha
  obtain ⟨-, -, hbk⟩ := rowArgs_ok hb
  have hcm := List.mem_of_getElem? hc
  have hqm := List.mem_of_getElem? hq
  rw [eval_eq hg, hl.lsf] at hva hvb
  injection hva with hva
  injection hvb with hvb
  have hacomb : ∀ k ∈ C.labelCombVrs, nums (defaultArgs C.lc.labelAll consts 0 none a) k = if k = c then xv else 0 := by
    intro k hk
    by_cases hkc : k = c
    · rw [if_pos hkc]
      subst hkc
      apply nums_given
      rw [hak, if_pos (by simp), get_mul, get_concat _ _ (by rw [hpi, hgi]), hpc,
        if_neg (fun hR => hg.disjoint k hR (hSmem.2 (Or.inr hk))), (hgamc q hqm j q k hq hc).1, hxv]
    · rw [if_neg hkc]
      refine nums_zero ?_ (hg.load k (hSmem.2 (Or.inr hk)))
      rw [hak, if_neg]
      simp only [List.mem_append, List.mem_singleton, not_or]
      exact ⟨fun hko => hoc k hko hk, hkc⟩
  have hbcomb : ∀ k ∈ C.labelCombVrs, nums (defaultArgs C.lc.labelAll consts 0 none b) k = 0 := by
    intro k hk
    refine nums_zero ?_ (hg.load k (hSmem.2 (Or.inr hk)))
    rw [hbk, if_neg (fun hko => hoc k hko hk)]
  have hh : h (nums (defaultArgs C.lc.labelAll consts 0 none a)) = h (nums (defaultArgs C.lc.labelAll consts 0 none b)) := by
    apply hl.indep
    intro k hk
    apply nums_congr
    rw [hak, hbk]
    have hkc : k ≠ c := fun e => hk (e ▸ hcm)
    by_cases hko : k ∈ C.labelOther
    · rw [if_pos hko, if_pos (List.mem_append_left _ hko)]
    · rw [if_neg hko, if_neg]
      simp only [List.mem_append, List.mem_singleton, not_or]
      exact ⟨hko, hkc⟩
  rw [hres, ← hva, ← hvb, hh]
  congr 1
  have e1 : (C.labelCombVrs.map (fun k => coef k * nums (defaultArgs C.lc.labelAll consts 0 none a) k)).sum = coef c * xv := by
    rw [List.map_congr_left (g := fun k => if k = c then coef c * xv else 0) (fun k hk => by
      rw [hacomb k hk]
      by_cases hkc : k = c
      · rw [if_pos hkc, if_pos hkc, hkc]
      · rw [if_neg hkc, if_neg hkc, mul_zero])]
    rw [List.sum_map_ite_eq, List.count_eq_one_of_mem hvn hcm]
    simp
  have e2 : (C.labelCombVrs.map (fun k => coef k * nums (defaultArgs C.lc.labelAll consts 0 none b) k)).sum = 0 := by
    rw [List.map_congr_left (g := fun _ => (0 : ℝ)) (fun k hk => by rw [hbcomb k hk, mul_zero])]
    simp
  rw [e1, e2]
  ring

/-- C65: the matrix method.  Suppose the `i`-th case is led by the `i`-th combination variable alone, and the limit state is
`h - Σ coef · X` over the combination variables with `h` independent of them.  If the method succeeds, then in every case the
factored values (`φ · nominal` resistances, `ψ · γ · nominal` loads, the case's design parameter) lie exactly on the limit state: the
design equation holds with one set of combination factors for all cases. -/
theorem C65_design_equation {C : Calib D} {consts : Dict String ConstObj} (hg : GoodLabels C consts) {h : (String → ℝ) → ℝ}
    {coef : String → ℝ} (hl : LinearLoads C h coef) (ho : OrderedCases C) {x : Frame} (hx : DesignTable C x)
    (hcell : ∀ r ∈ C.labelCombCases, ∀ c, c ∈ C.labelR ∨ c ∈ C.labelS → ∃ v, x.get r c = some v)
    (hnom : ∀ r ∈ C.labelCombCases, ∀ c, c ∈ C.labelR ∨ c ∈ C.labelS → ∃ n, n ≠ 0 ∧ ∀ r' ∈ C.labelCombCases, C.dfNom.get r' c = some n)
    {phi gamma psi : Frame} (hm : C.calcPgMatrix x = .ok (phi, gamma, psi)) :
    (∀ r ∈ C.labelCombCases, C.eval (factoredArgs C phi gamma psi x r) = .ok 0) ∧
    (∀ r ∈ C.labelCombCases, ∀ c ∈ C.labelOther, psi.get r c = some 1) ∧
    (∀ (i : ℕ) (r c : String), C.labelCombCases[i]? = some r → C.labelCombVrs[i]? = some c → psi.get r c = some 1) ∧
    (∀ (i k j : ℕ) (r r' c : String), C.labelCombCases[i]? = some r → C.labelCombCases[k]? = some r' → C.labelCombVrs[j]? = some c →
      i ≠ j → k ≠ j → psi.get r c = psi.get r' c) := by
  obtain ⟨phi', gamma', hpg, hpc, hgc, hpi, hgi, hphiv, hgamo, hgamc⟩ := phiGamma_facts hg ho hx hcell hnom
  unfold calcPgMatrix at hm
  rw [hpg] at hm
  dsimp only at hm
  split at hm
  · cases hm
  · next rhs hrhs =>
  split at hm
  · cases hm
  · next cols hcols =>
  split at hm
  · cases hm
  · next hgt =>
  split at hm
  · cases hm
  · next hlt =>
  split at hm
  · cases hm
  · next ps hps =>
  simp only [Except.ok.injEq, Prod.mk.injEq] at hm
  obtain ⟨rfl, rfl, hpsi⟩ := hm
  -- labels
  have hvn : C.labelCombVrs.Nodup := (List.nodup_append.1 ho.labels).2.1
  have hon : C.labelOther.Nodup := (List.nodup_append.1 ho.labels).1
  have hoc : ∀ c ∈ C.labelOther, c ∉ C.labelCombVrs := fun c h1 h2 => (List.nodup_append.1 ho.labels).2.2 c h1 c h2 rfl
  have hSmem : ∀ {c}, c ∈ C.labelS ↔ c ∈ C.labelOther ∨ c ∈ C.labelCombVrs := List.mem_append
  have hcv : ∀ k, k ∈ C.labelR ∨ k ∈ C.labelS → k ≠ C.cvar := by
    rintro k (hk | hk) rfl
    · exact hg.resist _ hk hg.cvar
    · exact hg.load _ hk hg.cvar
  -- the table of combination factors
  have hpsiother : ∀ r ∈ C.labelCombCases, ∀ c ∈ C.labelOther, psi.get r c = some 1 := by
    intro r hr c hc
    have hcS : c ∈ gamma'.columns := by rw [hgc]; exact hSmem.2 (Or.inl hc)
    have e := get_of_mem psi (r := r) (c := c) (by rw [← hpsi]; rw [hgi]; exact hr) (by rw [← hpsi]; exact hcS)
    rw [e, ← hpsi]
    dsimp only
    rw [if_pos]
    rw [hgc]
    show (C.labelOther ++ C.labelCombVrs).idxOf c < _
    rw [List.idxOf_append_of_mem hc]
    exact List.idxOf_lt_length_iff.2 hc
  have hpsicomb : ∀ (i j : ℕ) (r c : String), C.labelCombCases[i]? = some r → ∀ (hc : C.labelCombVrs[j]? = some c),
      psi.get r c = if j = i then some 1 else some (ps ⟨j, (List.getElem?_eq_some_iff.1 hc).1⟩) := by
    intro i j r c hi hc
    have hcm := List.mem_of_getElem? hc
    have hcS : c ∈ gamma'.columns := by rw [hgc]; exact hSmem.2 (Or.inr hcm)
    have hrm := List.mem_of_getElem? hi
    have e := get_of_mem psi (r := r) (c := c) (by rw [← hpsi]; rw [hgi]; exact hrm) (by rw [← hpsi]; exact hcS)
    have hidx : gamma'.columns.idxOf c = C.labelOther.length + j := by
      rw [hgc]
      show (C.labelOther ++ C.labelCombVrs).idxOf c = _
      rw [List.idxOf_append_of_notMem (fun h => hoc c h hcm)]
      obtain ⟨hj, e⟩ := List.getElem?_eq_some_iff.1 hc
      rw [← e, hvn.idxOf_getElem j hj]
    have hridx : gamma'.index.idxOf r = i := by
      rw [hgi]
      obtain ⟨hj, e⟩ := List.getElem?_eq_some_iff.1 hi
      rw [← e, ho.cases.idxOf_getElem i hj]
    rw [e, ← hpsi]
    dsimp only
    rw [hidx, hridx, if_neg (by omega)]
    have hsub : C.labelOther.length + j - C.labelOther.length = j := by omega
    simp only [hsub]
    by_cases hji : j = i
    · rw [if_pos hji, if_pos hji]
    · rw [if_neg hji, if_neg hji, dif_pos (List.getElem?_eq_some_iff.1 hc).1]
  -- right-hand side
  obtain ⟨hrl, hrv⟩ := phiRzVect_ok _ _ hrhs
  have hgnidx : ((phi'.concat gamma').mul C.dfNom).index = C.labelCombCases := by
    show unionLabels phi'.index C.dfNom.index = _
    rw [hpi, hx.nom, unionLabels_self]
  rw [hgnidx] at hcols
  rw [hx.rows] at hrl hrv
  have hcolval := epgS_value hg ho hl hpc hpi hgi hgamc hcols
  refine ⟨?_, hpsiother, ?_, ?_⟩
  · intro r hr
    obtain ⟨i, hi, hie⟩ := List.getElem_of_mem hr
    have hri : C.labelCombCases[i]? = some r := by rw [List.getElem?_eq_getElem hi, hie]
    have hin : i < C.labelCombVrs.length := by rw [← ho.length]; exact hi
    set ci := C.labelCombVrs[i] with hci
    have hcvi : C.labelCombVrs[i]? = some ci := List.getElem?_eq_getElem hin
    obtain ⟨sl, a, v, hsl, ha, hv, hres⟩ := hrv i r hri
    rw [ho.leads i r ci hri hcvi] at hsl
    injection hsl with hsl
    subst hsl
    obtain ⟨-, hav, hak⟩ := rowArgs_ok ha
    have hmemf : ∀ k, k ∈ (C.labelR ++ C.labelCombVrs ++ C.labelOther ++ [C.cvar]).filter (fun v => ¬ (v ∈ C.labelCombVrs ∧ v ∉ [ci])) ↔
        (k ∈ C.labelR ∨ k ∈ C.labelCombVrs ∨ k ∈ C.labelOther ∨ k = C.cvar) ∧ (k ∈ C.labelCombVrs → k = ci) := by
      intro k
      simp only [List.mem_filter, List.mem_append, List.mem_singleton, decide_eq_true_eq]
      tauto
    -- the factored arguments
    set F := factoredArgs C phi' gamma' psi x r with hF
    have hciS : ci ∈ C.labelS := hSmem.2 (Or.inr (List.getElem_mem hin))
    have hFcomb : ∀ (j : ℕ) (hj : j < C.labelCombVrs.length) (q : String) (xv : ℝ), C.labelCombCases[j]? = some q → x.get q C.labelCombVrs[j] = some xv →
        F C.labelCombVrs[j] = some (if j = i then xv else ps ⟨j, hj⟩ * xv) := by
      intro j hj q xv hq hxv
      have hcj : C.labelCombVrs[j]? = some C.labelCombVrs[j] := List.getElem?_eq_getElem hj
      have hS : C.labelCombVrs[j] ∈ C.labelS := hSmem.2 (Or.inr (List.getElem_mem hj))
      rw [hF, factoredArgs, if_neg (hcv _ (Or.inr hS)), if_neg (fun hR => hg.disjoint _ hR hS), if_pos hS,
        hpsicomb i j r _ hri hcj]
      obtain ⟨h1, g, hgg⟩ := hgamc r hr j q _ hq hcj
      obtain ⟨nn, -, hnn⟩ := hnom r hr _ (Or.inr hS)
      rw [hgg, hnn r hr, cmul, hxv] at h1
      injection h1 with h1
      rw [hgg, hnn r hr]
      by_cases hji : j = i
      · rw [if_pos hji, if_pos hji]
        simp only [cmul, one_mul, h1]
      · rw [if_neg hji, if_neg hji]
        simp only [cmul, mul_assoc, h1]
    have hFoff : ∀ k, k ∉ C.labelCombVrs → nums (defaultArgs C.lc.labelAll consts 0 none F) k = nums (defaultArgs C.lc.labelAll consts 0 none a) k := by
      intro k hk
      apply nums_congr
      rw [hak]
      by_cases hkc : k = C.cvar
      · rw [if_pos ((hmemf k).2 ⟨by tauto, by tauto⟩), hF, factoredArgs, if_pos hkc]
      · by_cases hkR : k ∈ C.labelR
        · rw [if_pos ((hmemf k).2 ⟨by tauto, by tauto⟩), hF, factoredArgs, if_neg hkc, if_pos hkR, hphiv r hr k hkR]
        · by_cases hko : k ∈ C.labelOther
          · rw [if_pos ((hmemf k).2 ⟨by tauto, by tauto⟩), hF, factoredArgs, if_neg hkc, if_neg hkR, if_pos (hSmem.2 (Or.inl hko)),
              hpsiother r hr k hko]
            obtain ⟨h1, g, hgg⟩ := hgamo r hr k hko
            rw [← h1, hgg]
            simp [cmul]
          · have hkS : k ∉ C.labelS := fun hS => (hSmem.1 hS).elim hko hk
            rw [if_neg (fun hf => by
              have := ((hmemf k).1 hf).1
              tauto), hF, factoredArgs, if_neg hkc, if_neg hkR, if_neg hkS]
    -- design values of the leading variables
    have hxj : ∀ j : Fin C.labelCombVrs.length, ∃ q xv, C.labelCombCases[(j : ℕ)]? = some q ∧ x.get q C.labelCombVrs[(j : ℕ)] = some xv := by
      intro j
      have hj : (j : ℕ) < C.labelCombCases.length := by rw [ho.length]; exact j.2
      obtain ⟨xv, hxv⟩ := hcell C.labelCombCases[(j : ℕ)] (List.getElem_mem hj) C.labelCombVrs[(j : ℕ)] (Or.inr (hSmem.2 (Or.inr (List.getElem_mem j.2))))
      exact ⟨_, xv, List.getElem?_eq_getElem hj, hxv⟩
    choose qj xj hqj hxj using hxj
    have hcoldef : ∀ j : Fin C.labelCombVrs.length, cols.getD (j : ℕ) 0 = coef C.labelCombVrs[(j : ℕ)] * xj j := by
      intro j
      rw [List.getD_eq_getElem?_getD, hcolval j (qj j) _ (xj j) (hqj j) (List.getElem?_eq_getElem j.2) (hxj j)]
      rfl
    have hsolve := solveZeroDiag_ok hps ⟨i, hin⟩
    simp only [hcoldef] at hsolve
    have hqi : qj ⟨i, hin⟩ = r := by
      have := hqj ⟨i, hin⟩
      rw [hri] at this
      injection this with this
      exact this.symm
    -- value of the right-hand side
    rw [eval_eq hg, hl.lsf] at hv
    injection hv with hv
    have hrhsv : rhs.getD i 0 = v := by rw [List.getD_eq_getElem?_getD, hres]; rfl
    have hsumA : (C.labelCombVrs.map (fun c => coef c * nums (defaultArgs C.lc.labelAll consts 0 none a) c)).sum = coef ci * xj ⟨i, hin⟩ := by
      have hcim : ci ∈ C.labelCombVrs := List.getElem_mem hin
      rw [List.map_congr_left (g := fun k => if k = ci then coef ci * xj ⟨i, hin⟩ else 0) (fun k hk => by
        by_cases hkc : k = ci
        · rw [if_pos hkc, hkc]
          congr 1
          apply nums_given
          rw [hak, if_pos ((hmemf ci).2 ⟨by tauto, fun _ => rfl⟩)]
          have := hxj ⟨i, hin⟩
          rw [hqi] at this
          exact this
        · rw [if_neg hkc]
          rw [nums_zero (by rw [hak, if_neg (fun hf => hkc (((hmemf k).1 hf).2 hk))]) (hg.load k (hSmem.2 (Or.inr hk))), mul_zero])]
      rw [List.sum_map_ite_eq, List.count_eq_one_of_mem hvn hcim]
      simp
    have hsumF : (C.labelCombVrs.map (fun c => coef c * nums (defaultArgs C.lc.labelAll consts 0 none F) c)).sum =
        coef ci * xj ⟨i, hin⟩ + ∑ j : Fin C.labelCombVrs.length, (if (⟨i, hin⟩ : Fin C.labelCombVrs.length) = j then 0 else coef C.labelCombVrs[(j : ℕ)] * xj j) * ps j := by
      rw [sum_map_eq_fin]
      have hterm : ∀ j : Fin C.labelCombVrs.length, coef C.labelCombVrs[(j : ℕ)] * nums (defaultArgs C.lc.labelAll consts 0 none F) C.labelCombVrs[(j : ℕ)] =
          (if (⟨i, hin⟩ : Fin C.labelCombVrs.length) = j then coef ci * xj ⟨i, hin⟩ else 0) +
            (if (⟨i, hin⟩ : Fin C.labelCombVrs.length) = j then 0 else coef C.labelCombVrs[(j : ℕ)] * xj j) * ps j := by
        intro j
        rw [nums_given (hFcomb j j.2 (qj j) (xj j) (hqj j) (hxj j))]
        by_cases hji : (⟨i, hin⟩ : Fin C.labelCombVrs.length) = j
        · subst hji
          simp [hci]
        · have hji' : (j : ℕ) ≠ i := fun e => hji (Fin.ext e.symm)
          rw [if_neg hji', if_neg hji, if_neg hji]
          ring
      have : ∑ j : Fin C.labelCombVrs.length, coef C.labelCombVrs[j] * nums (defaultArgs C.lc.labelAll consts 0 none F) C.labelCombVrs[j] =
          ∑ j : Fin C.labelCombVrs.length, ((if (⟨i, hin⟩ : Fin C.labelCombVrs.length) = j then coef ci * xj ⟨i, hin⟩ else 0) +
            (if (⟨i, hin⟩ : Fin C.labelCombVrs.length) = j then 0 else coef C.labelCombVrs[(j : ℕ)] * xj j) * ps j) :=
        Finset.sum_congr rfl fun j _ => hterm j
      rw [this, Finset.sum_add_distrib]
      simp
    rw [eval_eq hg, hl.lsf, hl.indep _ _ hFoff, hsumF, hsolve, hrhsv, ← hv, hsumA]
    congr 1
    ring
  · intro i r c hi hc
    rw [hpsicomb i i r c hi hc, if_pos rfl]
  · intro i k j r r' c hi hk hc hij hkj
    rw [hpsicomb i j r c hi hc, hpsicomb k j r' c hk hc, if_neg (Ne.symm hij), if_neg (Ne.symm hkj)]

theorem rowArgs_exists {f : Frame} {row : String} {labels : List String} (h1 : row ∈ f.index) (h2 : ∀ c ∈ labels, c ∈ f.columns)
    (h3 : ∀ c ∈ labels, ∃ v, f.get row c = some v) : ∃ a, rowArgs f row labels = .ok a := by
  unfold rowArgs
  rw [if_neg (by push Not; exact ⟨h1, h2⟩), if_neg (by
    push Not
    intro c hc
    obtain ⟨v, hv⟩ := h3 c hc
    rw [hv]; simp)]
  exact ⟨_, rfl⟩

/-- C65: when the method succeeds.  At least two combination variables, complete tables with a column for the design parameter, and
a nonzero effect of every leading variable are enough. -/
theorem C65_succeeds {C : Calib D} {consts : Dict String ConstObj} (hg : GoodLabels C consts) {h : (String → ℝ) → ℝ}
    {coef : String → ℝ} (hl : LinearLoads C h coef) (ho : OrderedCases C) {x : Frame} (hx : DesignTable C x)
    (hcell : ∀ r ∈ C.labelCombCases, ∀ c, c ∈ C.labelR ∨ c ∈ C.labelS → ∃ v, x.get r c = some v)
    (hcv : ∀ r ∈ C.labelCombCases, ∃ v, x.get r C.cvar = some v)
    (hnom : ∀ r ∈ C.labelCombCases, ∀ c, c ∈ C.labelR ∨ c ∈ C.labelS → ∃ n, n ≠ 0 ∧ ∀ r' ∈ C.labelCombCases, C.dfNom.get r' c = some n)
    (hnomcol : ∀ c ∈ C.labelS, c ∈ C.dfNom.columns)
    (h2 : 2 ≤ C.labelCombVrs.length)
    (hd : ∀ (j : ℕ) (q c : String) (xv : ℝ), C.labelCombCases[j]? = some q → C.labelCombVrs[j]? = some c → x.get q c = some xv →
      coef c * xv ≠ 0) :
    ∃ phi gamma psi, C.calcPgMatrix x = .ok (phi, gamma, psi) := by
  obtain ⟨phi', gamma', hpg, hpc, hgc, hpi, hgi, hphiv, hgamo, hgamc⟩ := phiGamma_facts hg ho hx hcell hnom
  have hSmem : ∀ {c}, c ∈ C.labelS ↔ c ∈ C.labelOther ∨ c ∈ C.labelCombVrs := List.mem_append
  have hget : ∀ {r c} {v : ℝ}, x.get r c = some v → c ∈ x.columns := by
    intro r c v hv
    by_contra hn
    rw [Frame.get, if_neg (fun hh => hn hh.2)] at hv
    cases hv
  have hgnidx : ((phi'.concat gamma').mul C.dfNom).index = C.labelCombCases := by
    show unionLabels phi'.index C.dfNom.index = _
    rw [hpi, hx.nom, unionLabels_self]
  have hlead : ∀ r ∈ C.labelCombCases, ∃ c ∈ C.labelCombVrs, C.lc.combCases.get? r = some [c] ∧
      ∃ j : ℕ, C.labelCombCases[j]? = some r ∧ C.labelCombVrs[j]? = some c := by
    intro r hr
    obtain ⟨i, hi, rfl⟩ := List.getElem_of_mem hr
    have hi' : i < C.labelCombVrs.length := by rw [← ho.length]; exact hi
    exact ⟨_, List.getElem_mem hi', ho.leads i _ _ (List.getElem?_eq_getElem hi) (List.getElem?_eq_getElem hi'), i,
      List.getElem?_eq_getElem hi, List.getElem?_eq_getElem hi'⟩
  have hrhs : ∀ l : List String, (∀ r ∈ l, r ∈ C.labelCombCases) → ∃ rs, phiRzVect C x l = .ok rs := by
    intro l
    induction l with
    | nil => intro _; exact ⟨[], rfl⟩
    | cons r t ih =>
      intro hr
      obtain ⟨rs, hrs⟩ := ih fun q hq => hr q (List.mem_cons_of_mem _ hq)
      have hrm := hr r (by simp)
      obtain ⟨c, -, hc, -⟩ := hlead r hrm
      have hval : ∀ k ∈ (C.labelR ++ C.labelCombVrs ++ C.labelOther ++ [C.cvar]).filter (fun v => ¬ (v ∈ C.labelCombVrs ∧ v ∉ [c])),
          ∃ v, x.get r k = some v := by
        intro k hk
        simp only [List.mem_filter, List.mem_append, List.mem_singleton] at hk
        rcases hk.1 with ((hk | hk) | hk) | rfl
        · exact hcell r hrm k (Or.inl hk)
        · exact hcell r hrm k (Or.inr (hSmem.2 (Or.inr hk)))
        · exact hcell r hrm k (Or.inr (hSmem.2 (Or.inl hk)))
        · exact hcv r hrm
      obtain ⟨a, ha⟩ := rowArgs_exists (f := x) (row := r) (by rw [hx.rows]; exact hrm) (fun k hk => by
        obtain ⟨v, hv⟩ := hval k hk
        exact hget hv) hval
      have hev : C.eval a = _ := (eval_eq hg a).trans (hl.lsf _)
      simp only [phiRzVect, hc, ha, hev, hrs]
      exact ⟨_, rfl⟩
  have hcol : ∀ l : List String, (∀ r ∈ l, r ∈ C.labelCombCases) → ∃ rs, epgSCols C ((phi'.concat gamma').mul C.dfNom) l = .ok rs := by
    intro l
    induction l with
    | nil => intro _; exact ⟨[], rfl⟩
    | cons r t ih =>
      intro hr
      obtain ⟨rs, hrs⟩ := ih fun q hq => hr q (List.mem_cons_of_mem _ hq)
      have hrm := hr r (by simp)
      obtain ⟨c, hcm, hc, j, hj1, hj2⟩ := hlead r hrm
      have hcolm : ∀ k ∈ C.labelS, k ∈ ((phi'.concat gamma').mul C.dfNom).columns := by
        intro k hk
        exact mem_unionLabels.2 (Or.inr (hnomcol k hk))
      have hvo : ∀ k ∈ C.labelOther, ∃ v, ((phi'.concat gamma').mul C.dfNom).get r k = some v := by
        intro k hk
        have hkS := hSmem.2 (Or.inl hk)
        obtain ⟨v, hv⟩ := hcell r hrm k (Or.inr hkS)
        refine ⟨v, ?_⟩
        rw [get_mul, get_concat _ _ (by rw [hpi, hgi]), hpc, if_neg (fun hR => hg.disjoint k hR hkS), (hgamo r hrm k hk).1, hv]
      have hvc : ∃ v, ((phi'.concat gamma').mul C.dfNom).get r c = some v := by
        have hkS := hSmem.2 (Or.inr hcm)
        obtain ⟨v, hv⟩ := hcell r hrm c (Or.inr hkS)
        refine ⟨v, ?_⟩
        rw [get_mul, get_concat _ _ (by rw [hpi, hgi]), hpc, if_neg (fun hR => hg.disjoint c hR hkS), (hgamc r hrm j r c hj1 hj2).1, hv]
      obtain ⟨a, ha⟩ := rowArgs_exists (f := (phi'.concat gamma').mul C.dfNom) (row := r) (labels := C.labelOther ++ [c])
        (by rw [hgnidx]; exact hrm) (fun k hk => by
          rcases List.mem_append.1 hk with hk | hk
          · exact hcolm k (hSmem.2 (Or.inl hk))
          · rw [List.mem_singleton.1 hk]; exact hcolm c (hSmem.2 (Or.inr hcm))) (fun k hk => by
          rcases List.mem_append.1 hk with hk | hk
          · exact hvo k hk
          · rw [List.mem_singleton.1 hk]; exact hvc)
      obtain ⟨b, hb⟩ := rowArgs_exists (f := (phi'.concat gamma').mul C.dfNom) (row := r) (labels := C.labelOther)
        (by rw [hgnidx]; exact hrm) (fun k hk => hcolm k (hSmem.2 (Or.inl hk))) hvo
      have hea : C.eval a = _ := (eval_eq hg a).trans (hl.lsf _)
      have heb : C.eval b = _ := (eval_eq hg b).trans (hl.lsf _)
      simp only [epgSCols, hc, ha, hb, hea, heb, hrs]
      exact ⟨_, rfl⟩
  obtain ⟨rhs, hrhs⟩ := hrhs x.index (by rw [hx.rows]; exact fun _ h => h)
  obtain ⟨cols, hcols⟩ := hcol C.labelCombCases (fun _ h => h)
  have hlen : cols.length = C.labelCombVrs.length := by rw [(epgSCols_ok _ _ hcols).1, ho.length]
  have hcolval := epgS_value hg ho hl hpc hpi hgi hgamc hcols
  obtain ⟨ps, hps⟩ := solveZeroDiag_exists h2 (fun j => cols.getD (j : ℕ) 0) (fun j => rhs.getD (j : ℕ) 0) (by
    intro j
    have hj : (j : ℕ) < C.labelCombCases.length := by rw [ho.length]; exact j.2
    obtain ⟨v, hv⟩ := hcell C.labelCombCases[(j : ℕ)] (List.getElem_mem hj) C.labelCombVrs[(j : ℕ)]
      (Or.inr (hSmem.2 (Or.inr (List.getElem_mem j.2))))
    have e := hcolval j _ _ v (List.getElem?_eq_getElem hj) (List.getElem?_eq_getElem j.2) hv
    rw [List.getD_eq_getElem?_getD, e]
    exact hd j _ _ v (List.getElem?_eq_getElem hj) (List.getElem?_eq_getElem j.2) hv)
  refine ⟨phi', gamma', ?_⟩
  unfold calcPgMatrix
  rw [hpg]
  dsimp only
  rw [hrhs]
  dsimp only
  rw [hgnidx, hcols]
  dsimp only
  rw [if_neg (by omega), if_neg (by omega), hps]
  exact ⟨_, rfl⟩

/-- C65: the method needs as many cases as combination variables, and not just one of them: in all other situations it raises. -/
theorem C65_square {C : Calib D} {x : Frame} (hx : DesignTable C x)
    (hne : C.labelCombCases.length ≠ C.labelCombVrs.length ∨ C.labelCombVrs.length = 1) : ∃ e, C.calcPgMatrix x = .error e := by
  cases hm : C.calcPgMatrix x with
  | error e => exact ⟨e, rfl⟩
  | ok p =>
  exfalso
  obtain ⟨phi', gamma', hpg, -, -, hpi, -⟩ := calcPhiGamma_eq hx
  unfold calcPgMatrix at hm
  rw [hpg] at hm
  dsimp only at hm
  split at hm
  · cases hm
  split at hm
  · cases hm
  · next cols hcols =>
  split at hm
  · cases hm
  · next hgt =>
  split at hm
  · cases hm
  · next hlt =>
  split at hm
  · cases hm
  · next ps hps =>
  have hgnidx : ((phi'.concat gamma').mul C.dfNom).index = C.labelCombCases := by
    show unionLabels phi'.index C.dfNom.index = _
    rw [hpi, hx.rows, hx.nom, unionLabels_self, unionLabels_self]
  rw [hgnidx] at hcols
  have hl := (epgSCols_ok _ _ hcols).1
  rcases hne with h | h
  · omega
  · rw [solveZeroDiag] at hps
    rw [if_pos] at hps
    · cases hps
    · refine Matrix.det_eq_zero_of_row_eq_zero ⟨0, by omega⟩ fun j => ?_
      rw [if_pos]
      exact Fin.ext (by have := j.2; simp only; omega)

/-- It applies: the example of C58 with one of its two cases left out of the tables. -/
example : ∃ e, Calib.calcPgMatrix { exCalib with
      lc := { exLC with combCases := [("A", ["Q1"])], labelCombCases := ["A"] }
      dfNom := ⟨["A"], ["R", "G", "Q1", "Q2"], fun _ _ => some 2⟩ }
    ⟨["A"], ["R", "G", "Q1", "Q2", "z"], fun _ _ => some 3⟩ = .error e :=
  C65_square (by
    constructor <;> simp [exCalib, exLC, Calib.labelCombCases, Calib.labelR, Calib.labelOther, Calib.labelCombVrs, Dict.keys])
    (Or.inl (by simp [exLC, Calib.labelCombCases, Calib.labelCombVrs]))

/-- The example of C58 with a concrete limit state: `z R - G - Q1 - Q2`. -/
noncomputable def exCalibM : Calib ℕ :=
  { exCalib with lsf := fun a => .ok (nums a "z" * nums a "R" - nums a "G" - (nums a "Q1" + (nums a "Q2" + 0))) }

/-- All hypotheses hold for it, so the factored values of case A lie on the limit state. -/
example : ∃ phi gamma psi, exCalibM.calcPgMatrix exTable = .ok (phi, gamma, psi) ∧
    exCalibM.eval (factoredArgs exCalibM phi gamma psi exTable "A") = .ok 0 := by
  have hg : GoodLabels exCalibM [("z", ⟨"z", 1⟩)] := ⟨rfl, by decide, by decide, by decide, by decide, by decide⟩
  have hl : LinearLoads exCalibM (fun v => v "z" * v "R" - v "G") (fun _ => 1) := by
    refine ⟨fun a => ?_, fun v w h => ?_⟩
    · simp [exCalibM, exCalib, exLC, Calib.labelCombVrs]
    · rw [h "z" (by decide), h "R" (by decide), h "G" (by decide)]
  have ho : OrderedCases exCalibM := by
    refine ⟨rfl, by decide, by decide, ?_⟩
    intro i r c hi hc
    rcases i with _ | _ | i <;> simp [exCalibM, exCalib, exLC, Calib.labelCombCases, Calib.labelCombVrs] at hi hc
    · subst hi; subst hc; rfl
    · subst hi; subst hc; rfl
  have hx : DesignTable exCalibM exTable := by
    constructor <;>
      simp [exCalibM, exCalib, exLC, exTable, Calib.labelCombCases, Calib.labelR, Calib.labelOther, Calib.labelCombVrs, Dict.keys]
  have hval : ∀ r c, r ∈ exTable.index → c ∈ exTable.columns → ∃ v : ℝ, v ≠ 0 ∧ exTable.get r c = some v := by
    intro r c hr hc
    rw [get_of_mem _ hr hc]
    simp only [exTable]
    split_ifs
    · exact ⟨6, by norm_num, rfl⟩
    · exact ⟨8, by norm_num, rfl⟩
    · exact ⟨3, by norm_num, rfl⟩
  have hcols : ∀ c, c ∈ exCalibM.labelR ∨ c ∈ exCalibM.labelS → c ∈ exTable.columns ∧ c ∈ exCalibM.dfNom.columns := by
    intro c hc
    have : c = "R" ∨ c = "G" ∨ c = "Q1" ∨ c = "Q2" := by
      simpa [exCalibM, exCalib, exLC, Calib.labelR, Calib.labelS, Calib.labelOther, Calib.labelCombVrs] using hc
    rcases this with rfl | rfl | rfl | rfl <;> decide
  have hcell : ∀ r ∈ exCalibM.labelCombCases, ∀ c, c ∈ exCalibM.labelR ∨ c ∈ exCalibM.labelS → ∃ v, exTable.get r c = some v :=
    fun r hr c hc => (hval r c hr (hcols c hc).1).imp fun v h => h.2
  have hnom : ∀ r ∈ exCalibM.labelCombCases, ∀ c, c ∈ exCalibM.labelR ∨ c ∈ exCalibM.labelS →
      ∃ n, n ≠ 0 ∧ ∀ r' ∈ exCalibM.labelCombCases, exCalibM.dfNom.get r' c = some n :=
    fun r _ c hc => ⟨2, by norm_num, fun r' hr' => get_of_mem _ hr' (hcols c hc).2⟩
  obtain ⟨phi, gamma, psi, hm⟩ := C65_succeeds hg hl ho hx hcell
    (fun r hr => (hval r "z" hr (by decide)).imp fun v h => h.2) hnom (fun c hc => (hcols c (Or.inr hc)).2) (by decide) (by
      intro j q c xv hq hc hxv
      obtain ⟨v, hv, e⟩ := hval q c (List.mem_of_getElem? hq) (hcols c (Or.inr (List.mem_append_right _ (List.mem_of_getElem? hc)))).1
      rw [hxv] at e
      injection e with e
      rw [one_mul, e]; exact hv)
  exact ⟨phi, gamma, psi, hm, (C65_design_equation hg hl ho hx hcell hnom hm).1 "A" (by decide)⟩

/-- C65 (finding): the calibrated design parameters are stored in a column named `"z"`, but the matrix method looks for a column named
like the calibration variable: with another name it raises `KeyError`. -/
theorem C65_other_name {C : Calib D} {x : Frame} (hz : C.cvar ∉ x.columns) {comb : String} {t : List String} {sl : List String}
    (hsl : C.lc.combCases.get? comb = some sl) (hcv : C.cvar ∉ C.labelCombVrs) : phiRzVect C x (comb :: t) = .error .keyError := by
  rw [phiRzVect, hsl]
  dsimp only
  rw [rowArgs, if_pos]
  right
  refine ⟨C.cvar, ?_, hz⟩
  simp only [List.mem_filter, List.mem_append, List.mem_singleton, decide_eq_true_eq]
  tauto

end Props
end Pystra
