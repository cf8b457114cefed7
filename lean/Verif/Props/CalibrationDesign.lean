import Verif.Props.CalibrationLoop

/-! C66: the design parameter computed from factored values, or from a projected design point, satisfies the design equation. -/

namespace Pystra

namespace Spec

variable {D : Type}

/-- The arguments as plain numbers (0 when missing). -/
def nums (a : LoadComb.Args) (k : String) : ℝ := (a k).getD 0

/-- A limit state of the form `z · r - s`: `r` is the resistance effect (it vanishes when all resistances are zero and does not depend on
loads or on the design parameter), `s` the load effect (it vanishes when all loads are zero and does not depend on
resistances or on the design parameter).  Both may depend on the other constants. -/
structure Separated (C : Calib D) (r s : (String → ℝ) → ℝ) : Prop where
  /-- the function -/
  lsf : ∀ a, C.lsf a = .ok (nums a C.cvar * r (nums a) - s (nums a))
  /-- the resistance effect depends on resistances and constants -/
  resist : ∀ v w, (∀ k, k ∉ C.labelS → k ≠ C.cvar → v k = w k) → r v = r w
  /-- without resistances there is none -/
  resist_zero : ∀ v, (∀ k ∈ C.labelR, v k = 0) → r v = 0
  /-- the load effect depends on loads and constants -/
  load : ∀ v w, (∀ k, k ∉ C.labelR → k ≠ C.cvar → v k = w k) → s v = s w
  /-- without loads there is none -/
  load_zero : ∀ v, (∀ k ∈ C.labelS, v k = 0) → s v = 0

/-- The labels of a calibration problem: constants are no variables, and the design parameter is a constant. -/
structure GoodLabels (C : Calib D) (consts : Dict String ConstObj) : Prop where
  /-- the constants -/
  constant : C.lc.constant = some consts
  /-- their names are different -/
  nodup : consts.keys.Nodup
  /-- no resistance is a constant -/
  resist : ∀ k ∈ C.labelR, k ∉ consts.keys
  /-- no load is a constant -/
  load : ∀ k ∈ C.labelS, k ∉ consts.keys
  /-- the design parameter is a constant -/
  cvar : C.cvar ∈ consts.keys
  /-- no resistance is a load -/
  disjoint : ∀ k ∈ C.labelR, k ∉ C.labelS

/-- All values of a row, with the design parameter `z`. -/
def fullArgs (C : Calib D) (f : Frame) (row : String) (z : ℝ) : LoadComb.Args := fun k =>
  if k = C.cvar then some z else if k ∈ C.labelR ∨ k ∈ C.labelS then f.get row k else none

end Spec

namespace Props
open Calib Spec Frame

variable {D : Type}

theorem rowArgs_ok {f : Frame} {row : String} {labels : List String} {a : LoadComb.Args} (h : rowArgs f row labels = .ok a) :
    row ∈ f.index ∧ (∀ c ∈ labels, c ∈ f.columns ∧ ∃ v, f.get row c = some v) ∧ ∀ k, a k = if k ∈ labels then f.get row k else none := by
  unfold rowArgs at h
  split at h
  · cases h
  · next h1 =>
    split at h
    · cases h
    · next h2 =>
      push Not at h1 h2
      injection h with h
      subst h
      exact ⟨h1.1, fun c hc => ⟨h1.2 c hc, Option.ne_none_iff_exists'.1 (h2 c hc)⟩, fun k => rfl⟩

theorem eval_eq {C : Calib D} {consts : Dict String ConstObj} (hg : GoodLabels C consts) (a : LoadComb.Args) :
    C.eval a = C.lsf (defaultArgs C.lc.labelAll consts 0 none a) := C57_evaluation _ C.lc hg.constant hg.nodup 0 none a

theorem nums_given {labels : List String} {consts : Dict String ConstObj} {a : LoadComb.Args} {k : String} {v : ℝ} (h : a k = some v) :
    nums (defaultArgs labels consts 0 none a) k = v := by
  simp [nums, defaultArgs, h]

theorem nums_zero {labels : List String} {consts : Dict String ConstObj} {a : LoadComb.Args} {k : String} (h : a k = none)
    (hk : k ∉ consts.keys) : nums (defaultArgs labels consts 0 none a) k = 0 := by
  simp only [nums, defaultArgs, h, (Dict.get?_eq_none _ _).2 hk]
  split <;> rfl

theorem nums_congr {labels : List String} {consts : Dict String ConstObj} {a b : LoadComb.Args} {k : String} (h : a k = b k) :
    nums (defaultArgs labels consts 0 none a) k = nums (defaultArgs labels consts 0 none b) k := by
  simp only [nums, defaultArgs, h]

/-- The two evaluations of `calc_design_param_Xst`: without resistances, and without loads. -/
theorem design_effects {C : Calib D} {consts : Dict String ConstObj} (hg : GoodLabels C consts) {r s : (String → ℝ) → ℝ}
    (hs : Separated C r s) {c : ConstObj} (hc : consts.get? C.cvar = some c) {f : Frame} {row : String} {aS aR : LoadComb.Args}
    (haS : rowArgs f row (C.labelOther ++ C.labelCombVrs) = .ok aS) (haR : rowArgs f row C.labelR = .ok aR) (z : ℝ) :
    let v := nums (defaultArgs C.lc.labelAll consts 0 none (fullArgs C f row z))
    C.eval aS = .ok (- s v) ∧ C.eval aR = .ok (c.val * r v) := by
  intro v
  obtain ⟨-, hS, hSk⟩ := rowArgs_ok haS
  obtain ⟨-, hR, hRk⟩ := rowArgs_ok haR
  have hcv : ∀ k, k ∈ C.labelR ∨ k ∈ C.labelS → k ≠ C.cvar := by
    rintro k (hk | hk) rfl
    · exact hg.resist _ hk hg.cvar
    · exact hg.load _ hk hg.cvar
  have hzS : nums (defaultArgs C.lc.labelAll consts 0 none aS) C.cvar = c.val := by
    have : aS C.cvar = none := by rw [hSk, if_neg (show C.cvar ∉ C.labelOther ++ C.labelCombVrs from fun hk => hcv _ (Or.inr hk) rfl)]
    simp [nums, defaultArgs, this, hc]
  have hzR : nums (defaultArgs C.lc.labelAll consts 0 none aR) C.cvar = c.val := by
    have : aR C.cvar = none := by rw [hRk, if_neg (fun hk => hcv _ (Or.inl hk) rfl)]
    simp [nums, defaultArgs, this, hc]
  constructor
  · rw [eval_eq hg, hs.lsf]
    congr 1
    rw [hs.resist_zero _ (fun k hk => ?_), hs.load _ v (fun k hk hkc => ?_)]
    · ring
    · by_cases hkS : k ∈ C.labelS
      · apply nums_congr
        rw [hSk, if_pos (show k ∈ C.labelOther ++ C.labelCombVrs from hkS), fullArgs, if_neg hkc, if_pos (Or.inr hkS)]
      · apply nums_congr
        rw [hSk, if_neg (show k ∉ C.labelOther ++ C.labelCombVrs from hkS), fullArgs, if_neg hkc, if_neg (by tauto)]
    · refine nums_zero ?_ (hg.resist k hk)
      rw [hSk, if_neg (show k ∉ C.labelOther ++ C.labelCombVrs from hg.disjoint k hk)]
  · rw [eval_eq hg, hs.lsf, hzR]
    congr 1
    rw [hs.load_zero _ (fun k hk => ?_), hs.resist _ v (fun k hk hkc => ?_), sub_zero]
    · by_cases hkR : k ∈ C.labelR
      · apply nums_congr
        rw [hRk, if_pos hkR, fullArgs, if_neg hkc, if_pos (Or.inl hkR)]
      · apply nums_congr
        rw [hRk, if_neg hkR, fullArgs, if_neg hkc, if_neg (by tauto)]
    · refine nums_zero ?_ (hg.load k hk)
      rw [hRk, if_neg (fun hk' => hg.disjoint k hk' hk)]

/-- C66: `calc_design_param_Xst`.  For a limit state `z r - s` whose design parameter's own constant is 1, the computed parameter puts
the given point on the limit state: the limit-state function vanishes there, provided load effect and resistance effect have the
same sign. -/
theorem C66_design_param {C : Calib D} {consts : Dict String ConstObj} (hg : GoodLabels C consts) {r s : (String → ℝ) → ℝ}
    (hs : Separated C r s) {c : ConstObj} (hc : consts.get? C.cvar = some c) {f : Frame} {row : String} {z : ℝ}
    (h : C.calcDesignParam f row = .ok z) :
    let v := nums (defaultArgs C.lc.labelAll consts 0 none (fullArgs C f row z))
    z = |s v / (c.val * r v)| ∧ 0 ≤ z ∧ c.val * r v ≠ 0 ∧
    (c.val = 1 → 0 ≤ s v * r v → C.eval (fullArgs C f row z) = .ok 0) := by
  intro v
  unfold calcDesignParam at h
  split at h
  · cases h
  · next aS haS =>
  split at h
  · cases h
  · next gS hgS =>
  split at h
  · cases h
  · next aR haR =>
  split at h
  · cases h
  · next gR hgR =>
  split at h
  · cases h
  · next hne =>
  injection h with h
  obtain ⟨eS, eR⟩ := design_effects hg hs hc haS haR z
  rw [hgS] at eS
  rw [hgR] at eR
  injection eS with eS
  injection eR with eR
  have ez : z = |s v / (c.val * r v)| := by rw [← h, eS, eR, neg_div, abs_neg]
  refine ⟨ez, by rw [ez]; exact abs_nonneg _, by rw [← eR]; exact hne, fun hc1 hsr => ?_⟩
  have hr0 : r v ≠ 0 := by rw [eR, hc1, one_mul] at hne; exact hne
  have hq : 0 ≤ s v / r v := by
    have : s v / r v = s v * r v / (r v * r v) := by field_simp
    rw [this]
    exact div_nonneg hsr (mul_self_nonneg _)
  rw [eval_eq hg, hs.lsf]
  congr 1
  have hzv : nums (defaultArgs C.lc.labelAll consts 0 none (fullArgs C f row z)) C.cvar = z :=
    nums_given (by rw [fullArgs, if_pos rfl])
  rw [hzv]
  show z * r v - s v = 0
  rw [ez, hc1, one_mul, abs_of_nonneg hq]
  field_simp
  ring

/-- C66: the row of factored values.  A resistance is its nominal value times its (smallest, on request) factor; a load is its nominal
value times the largest load factor over the cases times its combination factor. -/
theorem C66_factored_values {C : Calib D} {F : Factors} {minPhi maxPsi : Bool} {t : Frame} (h : C.calcDfPgRS F minPhi maxPsi = .ok t)
    (hdisj : ∀ k ∈ C.labelR, k ∉ C.labelS) :
    ∃ psi, (maxPsi = true → C.getPsiMax F.psi = .ok psi) ∧ (maxPsi = false → psi = F.psi) ∧
    t.index = C.dfNom.index ∧ t.columns = C.dfNom.columns ∧
    (∀ r, ∀ c ∈ C.labelR, ∀ n p, C.dfNom.get r c = some n → (if minPhi then getPhiMin F.phi else F.phi).get r c = some p →
      t.get r c = some (n * p)) ∧
    ∀ r, ∀ c ∈ C.labelS, ∀ n g p, C.dfNom.get r c = some n → IsGreatest {v | ∃ r' ∈ F.gamma.index, F.gamma.get r' c = some v} g →
      psi.get r c = some p → t.get r c = some (n * g * p) := by
  unfold calcDfPgRS at h
  have hpsi : ∃ psi, (if maxPsi then C.getPsiMax F.psi else .ok F.psi) = .ok psi := by
    cases hp : (if maxPsi then C.getPsiMax F.psi else .ok F.psi) with
    | error e => rw [hp] at h; cases h
    | ok psi => exact ⟨psi, rfl⟩
  obtain ⟨psi, hpsi⟩ := hpsi
  rw [hpsi] at h
  dsimp only at h
  split at h
  · cases h
  · next hcols =>
    push Not at hcols
    injection h with h
    refine ⟨psi, fun hm => by rw [hm] at hpsi; exact hpsi, fun hm => ?_, by rw [← h], by rw [← h], ?_, ?_⟩
    · rw [hm] at hpsi
      simp only [Bool.false_eq_true, if_false, Except.ok.injEq] at hpsi
      exact hpsi.symm
    · intro r c hc n p hn hp
      have hrc : r ∈ C.dfNom.index ∧ c ∈ C.dfNom.columns := by
        by_contra hx
        rw [Frame.get, if_neg hx] at hn
        cases hn
      have e := get_of_mem t (r := r) (c := c) (by rw [← h]; exact hrc.1) (by rw [← h]; exact hrc.2)
      rw [e, ← h]
      simp only [if_pos hc, hn, hp, cmul]
    · intro r c hc n g p hn hgr hp
      have hrc : r ∈ C.dfNom.index ∧ c ∈ C.dfNom.columns := by
        by_contra hx
        rw [Frame.get, if_neg hx] at hn
        cases hn
      have hcR : c ∉ C.labelR := fun hcR => hdisj c hcR hc
      have hmax : Frame.listMax (F.gamma.colValues c) = some g := by
        have hgm : g ∈ F.gamma.colValues c := mem_colValues.2 hgr.1
        obtain ⟨m, h1, h2, h3⟩ := listMax_eq (List.ne_nil_of_mem hgm)
        rw [h1]
        congr 1
        exact le_antisymm (hgr.2 (mem_colValues.1 h2)) (h3 g hgm)
      have e := get_of_mem t (r := r) (c := c) (by rw [← h]; exact hrc.1) (by rw [← h]; exact hrc.2)
      rw [e, ← h]
      simp only [if_neg hcR, if_pos hc, hn, hmax, hp, cmul]

/-- C66: `get_design_param_factor`.  For a limit state `z r - s` (design parameter's constant 1), the design parameter returned for each case puts
the factored values of that case on the limit state. -/
theorem C66_factor {C : Calib D} {consts : Dict String ConstObj} (hg : GoodLabels C consts) {r s : (String → ℝ) → ℝ}
    (hs : Separated C r s) {c : ConstObj} (hc : consts.get? C.cvar = some c) (hc1 : c.val = 1) {F : Factors} {minPhi maxPsi : Bool}
    {zs : List ℝ} (h : C.getDesignParamFactor F minPhi maxPsi = .ok zs) :
    ∃ t, C.calcDfPgRS F minPhi maxPsi = .ok t ∧ zs.length = C.labelCombCases.length ∧
    ∀ (i : ℕ) (case : String), C.labelCombCases[i]? = some case → ∃ z, zs[i]? = some z ∧ 0 ≤ z ∧
      (let v := nums (defaultArgs C.lc.labelAll consts 0 none (fullArgs C t case z))
       0 ≤ s v * r v → C.eval (fullArgs C t case z) = .ok 0) := by
  unfold getDesignParamFactor at h
  split at h
  · cases h
  · next t ht =>
    refine ⟨t, ht, ?_⟩
    have key : ∀ (l : List String) (zs : List ℝ), C.designParams t l = .ok zs → zs.length = l.length ∧
        ∀ (i : ℕ) (case : String), l[i]? = some case → ∃ z, zs[i]? = some z ∧ C.calcDesignParam t case = .ok z := by
      intro l
      induction l with
      | nil =>
        intro zs h
        simp only [designParams, Except.ok.injEq] at h
        subst h
        exact ⟨rfl, fun i case h => by cases i <;> cases h⟩
      | cons a l ih =>
        intro zs h
        rw [designParams] at h
        split at h
        · cases h
        · next z hz =>
          split at h
          · cases h
          · next rs hrs =>
            injection h with h
            subst h
            obtain ⟨h1, h2⟩ := ih rs hrs
            refine ⟨by simp [h1], fun i case hi => ?_⟩
            cases i with
            | zero =>
              simp only [List.getElem?_cons_zero, Option.some.injEq] at hi
              subst hi
              exact ⟨z, rfl, hz⟩
            | succ i => exact h2 i case hi
    obtain ⟨h1, h2⟩ := key _ _ h
    refine ⟨h1, fun i case hi => ?_⟩
    obtain ⟨z, hz, hd⟩ := h2 i case hi
    obtain ⟨-, h0, -, hev⟩ := C66_design_param hg hs hc hd
    exact ⟨z, hz, h0, fun hsr => hev hc1 hsr⟩

/-- C66 (finding): when the design parameter's own constant is not 1, the computed parameter is off by that factor: for resistance effect
and load effect of the same sign the limit state at the computed parameter is `s (1/|c| - 1)`, not 0. -/
theorem C66_start_matters {C : Calib D} {consts : Dict String ConstObj} (hg : GoodLabels C consts) {r s : (String → ℝ) → ℝ}
    (hs : Separated C r s) {c : ConstObj} (hc : consts.get? C.cvar = some c) {f : Frame} {row : String} {z : ℝ}
    (h : C.calcDesignParam f row = .ok z) :
    let v := nums (defaultArgs C.lc.labelAll consts 0 none (fullArgs C f row z))
    0 ≤ s v * r v → C.eval (fullArgs C f row z) = .ok (s v * (1 / |c.val| - 1)) := by
  intro v hsr
  obtain ⟨hz, -, hne, -⟩ := C66_design_param hg hs hc h
  have hr0 : r v ≠ 0 := fun e => hne (by show c.val * r v = 0; rw [e, mul_zero])
  have hc0 : c.val ≠ 0 := fun e => hne (by rw [e, zero_mul])
  have hq : 0 ≤ s v / r v := by
    have : s v / r v = s v * r v / (r v * r v) := by field_simp
    rw [this]
    exact div_nonneg hsr (mul_self_nonneg _)
  have hzv : nums (defaultArgs C.lc.labelAll consts 0 none (fullArgs C f row z)) C.cvar = z :=
    nums_given (by rw [fullArgs, if_pos rfl])
  rw [eval_eq hg, hs.lsf, hzv]
  congr 1
  show z * r v - s v = _
  have ez : z = s v / r v * (1 / |c.val|) := by
    rw [hz]
    show |s v / (c.val * r v)| = _
    have : s v / (c.val * r v) = s v / r v * (1 / c.val) := by field_simp
    rw [this, abs_mul, abs_of_nonneg hq, abs_div, abs_one]
  rw [ez]
  have : |c.val| ≠ 0 := abs_ne_zero.2 hc0
  field_simp

/-- The concrete calibration of C60 has this form, with `r = R` and `s = Q`. -/
example : GoodLabels exCalib1 [("z", ⟨"z", 1⟩)] ∧ Separated exCalib1 (fun v => v "R") (fun v => v "Q") ∧
    Dict.get? [("z", (⟨"z", 1⟩ : ConstObj))] exCalib1.cvar = some ⟨"z", 1⟩ ∧
    exCalib1.calcDesignParam ⟨["A"], ["R", "Q"], fun _ c => if c = "R" then some 2 else some 8⟩ "A" = .ok 4 := by
  have hg : GoodLabels exCalib1 [("z", ⟨"z", 1⟩)] :=
    ⟨rfl, by decide, by decide, by decide, by decide, by decide⟩
  refine ⟨hg, ?_, rfl, ?_⟩
  · refine ⟨fun a => rfl, fun v w h => h "R" (by decide) (by decide), fun v h => h "R" (by decide), fun v w h => h "Q" (by decide) (by decide),
      fun v h => h "Q" (by decide)⟩
  · have hev : ∀ a, exCalib1.eval a = .ok ((defaultArgs ["R", "Q", "z"] [("z", ⟨"z", 1⟩)] 0 none a "z").getD 0 *
        (defaultArgs ["R", "Q", "z"] [("z", ⟨"z", 1⟩)] 0 none a "R").getD 0 -
        (defaultArgs ["R", "Q", "z"] [("z", ⟨"z", 1⟩)] 0 none a "Q").getD 0) := fun a => eval_eq hg a
    unfold calcDesignParam
    simp only [rowArgs, Frame.get, exCalib1, exLC1, Calib.labelOther, Calib.labelCombVrs, Calib.labelR]
    simp
    have := hev
    simp only [exCalib1, exLC1] at this
    rw [this, this]
    simp [defaultArgs, Dict.get?]
    norm_num

end Props
end Pystra
