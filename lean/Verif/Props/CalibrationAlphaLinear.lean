import Verif.Spec.CalibrationAlpha
import Verif.Props.CalibrationAlpha
import Verif.Props.CalibrationRun
import Verif.Props.EndToEnd

/-! C110: the alpha calibration of linear limit states with independent normal variables. -/

namespace Pystra.Props
open Calib Pystra.Spec Frame AlphaNewton Session StochModel Transformation Matrix LoadComb

theorem addAll_run {D : Type} : ∀ (l : List (PyObj D ℝ)) (m m' : StochModel D ℝ), addAll m l = .ok m' →
    m' = m.run (l.map StochModel.Op.add)
  | [], m, m', h => by
    simp only [addAll, Except.ok.injEq] at h
    rw [← h]; rfl
  | o :: l, m, m', h => by
    rw [addAll] at h
    split at h
    · cases h
    · next m1 h1 =>
      have := addAll_run l m1 m' h
      rw [this, List.map_cons]
      have e : m1 = (m.step (.add o)).1 := by
        simp only [StochModel.step, h1]
      rw [e]; rfl

theorem run_reachable {D : Type} {m : StochModel D ℝ} (h : Reachable m) (ops : List (StochModel.Op D ℝ)) : Reachable (m.run ops) := by
  obtain ⟨hist, rfl⟩ := h
  exact ⟨hist ++ ops, (StochModel.run_append _ _ _).symm⟩

/-- The model of a case. -/
theorem case_model {C : Calib Marginal} {c : Setup} {o : Form.Options} {consts : Dict String ConstObj} {ρ σ : String → ℝ}
    (L : LinearCalib C c o consts ρ σ) {case : String} {μ sd : String → ℝ} {sp : String → Option ℝ} {vars : Dict String (DistObj Marginal)}
    (hv : C.lc.dictDistComb.get? case = some vars) (hnd : vars.keys.Nodup) (hperm : vars.keys.Perm (C.labelR ++ C.labelS))
    (hvars : ∀ p ∈ vars, p.2.name = p.1 ∧ Normal.new (μ p.1) (.fin (sd p.1)) (sp p.1) = .ok p.2.body) (z : ℝ) : ∃ m,
    C.relFunc case z = C.form m ∧ Reachable m ∧
    m.getNames = consts.keys ++ vars.keys ∧ m.marg = vars.map Prod.snd ∧
    m.getVariables.keys = vars.keys ∧
    m.getConstants = consts.map (fun p : String × ConstObj => (p.1, if p.1 = C.cvar then z else p.2.val)) ∧
    (vars ≠ [] → m.correlation = some (NDArray2.eye vars.length)) := by
  have hcon : C.lc.constant.getD [] = consts := by rw [L.labels.constant]; rfl
  have hdisj : ∀ k ∈ consts.keys, k ∉ vars.keys := by
    intro k hk hk'
    have := hperm.mem_iff.1 hk'
    rcases List.mem_append.1 this with h | h
    · exact L.labels.resist k h hk
    · exact L.labels.load k h hk
  have hself : SelfNamed (labelled (C.lc.constant.getD []) vars) := by
    rw [hcon]
    intro p hp
    unfold labelled at hp
    rcases List.mem_append.1 hp with h | h
    · obtain ⟨q, hq, rfl⟩ := List.mem_map.1 h
      simp only [objName, L.selfNamed q hq]
    · obtain ⟨q, hq, rfl⟩ := List.mem_map.1 h
      simp only [objName, (hvars q hq).1]
  have hkw : SelfNamed ([(C.cvar, .constant C.cvar z)] : Dict String (PyObj Marginal ℝ)) := by
    intro p hp
    rw [List.mem_singleton] at hp
    rw [hp]; rfl
  have hnd2 : ((C.lc.constant.getD []).keys ++ vars.keys).Nodup := by
    rw [hcon]
    exact List.Nodup.append L.labels.nodup hnd (fun k h1 h2 => hdisj k h1 h2)
  have hex : ∃ m, C.lc.caseModel (some case) [(C.cvar, .constant C.cvar z)] = .ok m := by
    refine (C57_model C.lc hv _).2.2 ?_
    have hname : ∀ p ∈ labelled (C.lc.constant.getD []) vars,
        objName ((Dict.get? ([(C.cvar, .constant C.cvar z)] : Dict String (PyObj Marginal ℝ)) p.1).getD p.2) = some p.1 := by
      intro p hp
      cases hk : Dict.get? ([(C.cvar, .constant C.cvar z)] : Dict String (PyObj Marginal ℝ)) p.1 with
      | none => exact hself p hp
      | some o => exact hkw (p.1, o) (Dict.mem_of_get? _ _ _ hk)
    refine ⟨?_, ?_, fun f hf => ?_⟩
    · intro o ho
      obtain ⟨p, hp, rfl⟩ := List.mem_map.1 ho
      rw [hname p hp]; rfl
    · have e : (caseObjects (C.lc.constant.getD []) vars [(C.cvar, .constant C.cvar z)]).filterMap objName =
          (labelled (C.lc.constant.getD []) vars).map Prod.fst := by
        unfold caseObjects
        rw [List.filterMap_map, ← List.filterMap_eq_map]
        refine List.filterMap_congr fun p hp => ?_
        exact hname p hp
      rw [e]
      have e2 : (labelled (C.lc.constant.getD []) vars).map Prod.fst = (C.lc.constant.getD []).keys ++ vars.keys := by
        unfold labelled
        rw [List.map_append, List.map_map, List.map_map]
        rfl
      rw [e2]; exact hnd2
    · rw [L.uncorrelated] at hf; cases hf
  obtain ⟨m, hm⟩ := hex
  obtain ⟨-, a2, a3, a4, -, a6, -⟩ := (C57_model C.lc hv _).1 m hm
  have hcv : C.cvar ∉ vars.keys := hdisj _ L.labels.cvar
  obtain ⟨b1, b2⟩ := caseObjects_const (consts := C.lc.constant.getD []) z hcv (by rw [hcon]; exact L.selfNamed)
  rw [b1] at a2 a3 a6
  rw [b2, hcon] at a4
  obtain ⟨c1, -⟩ := C57_overrides C.lc hv hnd2 hself hkw hm
  rw [hcon] at c1
  have hreach : Reachable m := by
    unfold caseModel at hm
    dsimp only at hm
    split at hm
    · cases hm
    · next m1 h1 =>
      rw [hv] at hm
      dsimp only at hm
      split at hm
      · cases hm
      · next m2 h2 =>
        rw [L.uncorrelated] at hm
        injection hm with hm
        rw [← hm, addAll_run _ _ _ h2, addAll_run _ _ _ h1]
        exact run_reachable (run_reachable ⟨[], rfl⟩ _) _
  refine ⟨m, ?_, hreach, c1, a2, ?_, a4, fun hne => ?_⟩
  · unfold relFunc runCase
    rw [hm]
  · rw [a3, List.map_map]
    unfold Dict.keys
    rw [List.map_map]
    refine List.map_congr_left fun p hp => ?_
    exact (hvars p hp).1
  · have := a6 L.uncorrelated (by simpa using hne)
    rw [List.length_map] at this
    exact this

/-- A sum over the variables of a case, by resistances and loads. -/
theorem sum_labels {R S keys : List String} (hperm : keys.Perm (R ++ S)) (hdisj : ∀ k ∈ R, k ∉ S) (F G : String → ℝ) :
    (keys.map fun k => if k ∈ R then F k else G k).sum = (R.map F).sum + (S.map G).sum := by
  rw [(hperm.map _).sum_eq, List.map_append, List.sum_append]
  congr 2
  · exact List.map_congr_left fun k hk => if_pos hk
  · exact List.map_congr_left fun k hk => if_neg fun h => hdisj k h hk

theorem linear_separated {C : Calib Marginal} {c : Setup} {o : Form.Options} {consts : Dict String ConstObj} {ρ σ : String → ℝ}
    (L : LinearCalib C c o consts ρ σ) : Separated C (linearEffect C.labelR ρ) (linearEffect C.labelS σ) where
  lsf := L.lsf
  resist := fun v w h => by
    unfold linearEffect
    congr 1
    refine List.map_congr_left fun k hk => ?_
    rw [h k (L.labels.disjoint k hk) (fun e => L.labels.resist k hk (e ▸ L.labels.cvar))]
  resist_zero := fun v h => by
    unfold linearEffect
    apply List.sum_eq_zero
    intro x hx
    obtain ⟨k, hk, rfl⟩ := List.mem_map.1 hx
    rw [h k hk, mul_zero]
  load := fun v w h => by
    unfold linearEffect
    congr 1
    refine List.map_congr_left fun k hk => ?_
    rw [h k (fun hk' => L.labels.disjoint k hk' hk) (fun e => L.labels.load k hk (e ▸ L.labels.cvar))]
  load_zero := fun v h => by
    unfold linearEffect
    apply List.sum_eq_zero
    intro x hx
    obtain ⟨k, hk, rfl⟩ := List.mem_map.1 hx
    rw [h k hk, mul_zero]

theorem effectDev_sq (l : List String) (w sd : String → ℝ) : effectDev l w sd ^ 2 = (l.map fun k => (w k * sd k) ^ 2).sum := by
  unfold effectDev
  apply Real.sq_sqrt
  apply List.sum_nonneg
  intro x hx
  obtain ⟨k, -, rfl⟩ := List.mem_map.1 hx
  positivity

theorem effectDev_nonneg (l : List String) (w sd : String → ℝ) : 0 ≤ effectDev l w sd := Real.sqrt_nonneg _

theorem caseIndex_eq (C : Calib Marginal) (ρ σ μ sd : String → ℝ) (z : ℝ) : caseIndex C ρ σ μ sd z =
    (z * linearEffect C.labelR ρ μ - linearEffect C.labelS σ μ) / dev (effectDev C.labelR ρ sd) (effectDev C.labelS σ sd) 0 z := by
  unfold caseIndex dev
  rw [mul_zero, sub_zero]

/-- The analyses of a case, and the projected points. -/
theorem linear_projects {C : Calib Marginal} {c : Setup} {o : Form.Options} {consts : Dict String ConstObj} {ρ σ : String → ℝ}
    (L : LinearCalib C c o consts ρ σ) {k0 : ConstObj} (hk0 : consts.get? C.cvar = some k0) {case : String} {μ sd : String → ℝ}
    {sp : String → Option ℝ} (N : NormalCase C case μ sd sp) (hB : 0 < effectDev C.labelS σ sd) :
    Projects C case (linearEffect C.labelR ρ μ) (linearEffect C.labelS σ μ) (effectDev C.labelR ρ sd) (effectDev C.labelS σ sd) 0
      k0.val := by
  obtain ⟨vars, hv, hnd, hperm, hvars⟩ := N.vars
  refine ⟨vars.keys, fun z hz => ?_⟩
  obtain ⟨m, hrel, hreach, hnames, hmarg, hkeys, hcons, hcor⟩ := case_model L hv hnd hperm hvars z
  obtain ⟨n, hn⟩ : ∃ n, n = m.marg.length := ⟨_, rfl⟩
  have hlen : vars.length = n := by rw [hn, hmarg, List.length_map]
  -- the label of a variable
  obtain ⟨key, hkey⟩ : ∃ key : Fin n → String, ∀ i, key i = (vars[i.val]'(by omega)).1 := ⟨_, fun i => rfl⟩
  have hkl : List.ofFn key = vars.keys := by
    apply List.ext_getElem
    · simp [Dict.keys, hlen]
    · intro i h1 h2
      simp [Dict.keys, hkey]
  have hsum : ∀ F : String → ℝ, ∑ i, F (key i) = (vars.keys.map F).sum := by
    intro F
    rw [← hkl, List.map_ofFn, List.sum_ofFn]
    rfl
  have hdis := L.labels.disjoint
  have hcv : C.cvar ∉ vars.keys := by
    intro h
    rcases List.mem_append.1 (hperm.mem_iff.1 h) with h | h
    · exact L.labels.resist _ h L.labels.cvar
    · exact L.labels.load _ h L.labels.cvar
  have hcv2 : ∀ k ∈ vars.keys, k ∉ consts.keys := by
    intro k hk
    rcases List.mem_append.1 (hperm.mem_iff.1 hk) with h | h
    · exact L.labels.resist _ h
    · exact L.labels.load _ h
  obtain ⟨coef, hcoef⟩ : ∃ coef : String → ℝ, ∀ k, coef k = if k ∈ C.labelR then z * ρ k else -σ k := ⟨_, fun k => rfl⟩
  have hne : vars ≠ [] := by
    rintro rfl
    have : C.labelS = [] := by
      have := hperm.symm.eq_nil
      simp at this
      exact this.2
    rw [this] at hB
    simp [effectDev] at hB
  have hmargi : ∀ i : Fin n, Normal.new (μ (key i)) (.fin (sd (key i))) (sp (key i)) = .ok (margN n c.default m i) := by
    intro i
    have hi : i.val < vars.length := by omega
    have e : margN n c.default m i = (vars[i.val]'hi).2.body := by
      unfold margN
      rw [hmarg]
      simp [List.getD_eq_getElem?_getD, hi]
    rw [e, hkey]
    exact (hvars _ (List.getElem_mem _)).2
  have hlinsum : ∀ X : String → ℝ, ∑ i, coef (key i) * X (key i) = z * linearEffect C.labelR ρ X - linearEffect C.labelS σ X := by
    intro X
    rw [hsum (fun k => coef k * X k)]
    have e : (fun k => coef k * X k) = fun k => if k ∈ C.labelR then z * (ρ k * X k) else (-1) * (σ k * X k) := by
      funext k
      rw [hcoef]
      split <;> ring
    rw [e, sum_labels hperm hdis]
    unfold linearEffect
    rw [List.sum_map_mul_left, List.sum_map_mul_left]
    ring
  have hsqsum : ∑ i, (coef (key i) * sd (key i)) ^ 2 =
      z ^ 2 * effectDev C.labelR ρ sd ^ 2 + effectDev C.labelS σ sd ^ 2 := by
    rw [hsum (fun k => (coef k * sd k) ^ 2)]
    have e : (fun k => (coef k * sd k) ^ 2) = fun k => if k ∈ C.labelR then z ^ 2 * (ρ k * sd k) ^ 2 else (σ k * sd k) ^ 2 := by
      funext k
      rw [hcoef]
      split <;> ring
    rw [e, sum_labels hperm hdis, effectDev_sq, effectDev_sq, List.sum_map_mul_left]
  have hane : (fun i => coef (key i)) ≠ 0 := by
    intro h
    have : ∑ i, (coef (key i) * sd (key i)) ^ 2 = 0 := by
      refine Finset.sum_eq_zero fun i _ => ?_
      have := congrFun h i
      simp only [Pi.zero_apply] at this
      rw [this]; ring
    rw [hsqsum] at this
    nlinarith [mul_nonneg (sq_nonneg z) (sq_nonneg (effectDev C.labelR ρ sd)), pow_pos hB 2]
  have hargs : ∀ p : Fin n → ℝ, (∀ i, argNums (pointArgs m p) (key i) = p i) ∧ argNums (pointArgs m p) C.cvar = z := by
    intro p
    have hz1 : m.getVariables.keys.zip (List.ofFn p) = List.ofFn (fun i => (key i, p i)) := by
      rw [hkeys, ← hkl]
      apply List.ext_getElem
      · simp
      · intro i _ _; simp
    have hpa : pointArgs m p = List.ofFn (fun i => (key i, p i)) ++
        consts.map (fun q : String × ConstObj => (q.1, if q.1 = C.cvar then z else q.2.val)) := by
      unfold pointArgs
      rw [hz1, hcons]
    have hck : (Dict.keys (consts.map (fun q : String × ConstObj => (q.1, if q.1 = C.cvar then z else q.2.val)))) = consts.keys := by
      unfold Dict.keys
      rw [List.map_map]
      rfl
    have hnd3 : (Dict.keys (pointArgs m p)).Nodup := by
      rw [hpa]
      unfold Dict.keys at *
      rw [List.map_append, hck, List.map_ofFn]
      have e : List.ofFn (Prod.fst ∘ fun i => (key i, p i)) = vars.map Prod.fst := by rw [← hkl]; rfl
      rw [e]
      exact List.Nodup.append hnd L.labels.nodup hcv2
    refine ⟨fun i => ?_, ?_⟩
    · unfold argNums
      rw [(Dict.get?_iff _ hnd3 _ _).2 (by rw [hpa]; exact List.mem_append_left _ (List.mem_ofFn.2 ⟨i, rfl⟩))]
      rfl
    · unfold argNums
      obtain ⟨q, hq, hq1⟩ := List.mem_map.1 L.labels.cvar
      rw [(Dict.get?_iff _ hnd3 _ z).2 (by
        rw [hpa]
        exact List.mem_append_right _ (List.mem_map.2 ⟨q, hq, by rw [hq1, if_pos rfl]⟩))]
      rfl
  have S : LinSetting c n (fun d => argNums d C.cvar * linearEffect C.labelR ρ (argNums d) - linearEffect C.labelS σ (argNums d)) 0
      (fun i => coef (key i)) (fun i => μ (key i)) (fun i => sd (key i)) (fun i => sp (key i)) ⟨m, []⟩ :=
    { la := L.la, point := L.expr, block := L.block, para := L.para, mp := L.mp, d1 := L.d1, d2 := L.d2, reach := hreach, len := hn.symm
      names := by
        show m.getNames ≠ []
        rw [hnames]
        intro h
        have := (List.append_eq_nil_iff.1 h).2
        exact hne (List.map_eq_nil_iff.1 this)
      cor := by rw [← hlen]; exact hcor hne
      sdpos := fun i => N.pos _ (hperm.mem_iff.1 (by rw [← hkl]; exact List.mem_ofFn.2 ⟨i, rfl⟩))
      marg := hmargi
      ane := hane
      aff := fun p => by
        show argNums (pointArgs m p) C.cvar * linearEffect C.labelR ρ (argNums (pointArgs m p)) -
          linearEffect C.labelS σ (argNums (pointArgs m p)) = _
        obtain ⟨h1, h2⟩ := hargs p
        rw [h2, ← hlinsum, zero_add]
        exact Finset.sum_congr rfl fun i _ => by rw [h1] }
  obtain ⟨Ro, t, h0, ht, hTi, hT, hu, hsumw⟩ := S.init
  obtain ⟨r, ev1, hF, hd1, hr1, hb, -, hal⟩ := S.form L.good h0 ht
  subst hn
  have hform : C.relFunc case z = .ok ⟨ev1.model, r.beta, List.ofFn r.alpha, List.ofFn r.point.u,
      fun u => List.ofFn (uToX t (margN m.marg.length c.default m) (fun i => u.getD i 0))⟩ := by
    rw [hrel, L.form]
    unfold formObject
    rw [h0]
    dsimp only
    rw [hF]
  refine ⟨_, hform, ?_, ?_, ?_⟩
  · -- labels
    unfold xstarLabels
    dsimp only
    have e1 : ev1.model.getNames = consts.keys ++ vars.keys := by
      have := hd1.names
      unfold StochModel.getNames at hnames ⊢
      rw [this, hnames]
    have e2 : ev1.model.getConstants.keys = consts.keys := by
      have := hd1.consts
      unfold StochModel.getConstants at hcons ⊢
      rw [this, hcons]
      unfold Dict.keys
      rw [List.map_map]
      rfl
    rw [e1, e2, List.filter_append, List.filter_eq_nil_iff.2 (by simp), List.nil_append, List.filter_eq_self]
    intro k hk
    simpa using hcv2 k hk
  · dsimp only
    rw [hb]
    unfold linearIndex dev
    rw [zero_add, hlinsum, hsqsum, mul_zero, sub_zero]
  · have hdev : √(∑ i, vecMul (fun i => coef (key i) * sd (key i)) t.invT i ^ 2) =
        dev (effectDev C.labelR ρ sd) (effectDev C.labelS σ sd) 0 z := by
      rw [hsumw, hsqsum]
      unfold dev
      rw [mul_zero, sub_zero]
    obtain ⟨d, hd⟩ : ∃ d, d = dev (effectDev C.labelR ρ sd) (effectDev C.labelS σ sd) 0 z := ⟨_, rfl⟩
    have hd0 : 0 < d := by rw [hd]; exact dev_pos hB le_rfl hz
    rw [← hd] at hdev
    obtain ⟨X, hX⟩ : ∃ X : String → ℝ, ∀ k, X k = μ k + sd k * (C.betaT * -(coef k * sd k / d)) := ⟨_, fun k => rfl⟩
    have hfac : t.invT * t.invTᵀ = 1 := by
      obtain ⟨t', ht', hfac, -⟩ := C22_posdef S.la c.ty (Matrix.PosDef.one (n := Fin m.marg.length) (R := ℝ))
      rw [ht] at ht'
      injection ht' with ht'
      rw [ht']; exact hfac
    have hx : uToX t (margN m.marg.length c.default m) (fun i => ((List.ofFn r.alpha).map (fun a => a * C.betaT)).getD i 0) =
        fun i => X (key i) := by
      have hgetD : (fun i : Fin m.marg.length => ((List.ofFn r.alpha).map (fun a => a * C.betaT)).getD i 0) = C.betaT • r.alpha := by
        funext i
        simp [List.getD_eq_getElem?_getD, mul_comm]
      rw [hgetD]
      have hia : t.invT.mulVec (C.betaT • r.alpha) = fun i => C.betaT * -(coef (key i) * sd (key i) / d) := by
        have e1 : r.alpha = (-(1 / d)) • vecMul (fun i => coef (key i) * sd (key i)) t.invT := by
          rw [hal]
          funext i
          unfold Form.alpha norm2
          rw [hdev]
          simp only [Pi.smul_apply, smul_eq_mul]
          field_simp
        rw [e1, mulVec_smul, mulVec_smul, ← mulVec_transpose, mulVec_mulVec, hfac, one_mulVec]
        funext i
        simp only [Pi.smul_apply, smul_eq_mul]
        field_simp
      funext i
      unfold uToX
      rw [(normal_ok (hmargi i)).1, hia, hX]
      unfold Normal.uToX
      ring
    dsimp only
    rw [hx]
    have hxl : List.ofFn (fun i => X (key i)) = vars.keys.map X := by rw [← hkl, List.map_ofFn]; rfl
    rw [hxl]
    refine ⟨⟨["0"], vars.keys, fun _ c => (vars.keys.map X)[vars.keys.idxOf c]?⟩, by unfold oneRow; rw [if_pos (by simp)], ?_⟩
    obtain ⟨df, hdf⟩ : ∃ df : Frame, df = ⟨["0"], vars.keys, fun _ c => (vars.keys.map X)[vars.keys.idxOf c]?⟩ := ⟨_, rfl⟩
    rw [← hdf]
    have hget : ∀ k ∈ vars.keys, df.get "0" k = some (X k) := by
      intro k hk
      rw [hdf]
      unfold Frame.get
      rw [if_pos ⟨by simp, hk⟩]
      have hlt := List.idxOf_lt_length_iff.2 hk
      dsimp only
      rw [List.getElem?_map, List.getElem?_eq_getElem hlt, List.getElem_idxOf hlt]
      rfl
    have hin : ∀ k, k ∈ C.labelR ∨ k ∈ C.labelS → k ∈ vars.keys := fun k hk => hperm.mem_iff.2 (List.mem_append.2 hk)
    have hcol : df.columns = vars.keys := by rw [hdf]
    have hidx : "0" ∈ df.index := by rw [hdf]; simp
    obtain ⟨aS, haS⟩ := rowArgs_exists (f := df) (row := "0") (labels := C.labelOther ++ C.labelCombVrs) hidx
      (fun k hk => by rw [hcol]; exact hin k (Or.inr hk)) (fun k hk => ⟨_, hget k (hin k (Or.inr hk))⟩)
    obtain ⟨aR, haR⟩ := rowArgs_exists (f := df) (row := "0") (labels := C.labelR) hidx
      (fun k hk => by rw [hcol]; exact hin k (Or.inl hk)) (fun k hk => ⟨_, hget k (hin k (Or.inl hk))⟩)
    obtain ⟨eS, eR⟩ := design_effects L.labels (linear_separated L) hk0 haS haR 0
    have hv : ∀ k, k ∈ C.labelR ∨ k ∈ C.labelS →
        nums (defaultArgs C.lc.labelAll consts 0 none (fullArgs C df "0" 0)) k = X k := by
      intro k hk
      apply nums_given
      unfold fullArgs
      rw [if_neg (fun e : k = C.cvar => hcv (e ▸ hin k hk)), if_pos hk, hget k (hin k hk)]
    have vS : linearEffect C.labelS σ (nums (defaultArgs C.lc.labelAll consts 0 none (fullArgs C df "0" 0))) =
        load (linearEffect C.labelS σ μ) (effectDev C.labelR ρ sd) (effectDev C.labelS σ sd) 0 C.betaT z := by
      unfold load
      rw [← hd, mul_zero, sub_zero, effectDev_sq]
      unfold linearEffect
      rw [mul_div_left_comm, mul_comm _ (C.betaT / d), ← List.sum_map_mul_left, ← List.sum_map_add]
      congr 1
      refine List.map_congr_left fun k hk => ?_
      rw [hv k (Or.inr hk), hX, hcoef, if_neg (fun h => hdis k h hk)]
      ring
    have vR : linearEffect C.labelR ρ (nums (defaultArgs C.lc.labelAll consts 0 none (fullArgs C df "0" 0))) =
        resist (linearEffect C.labelR ρ μ) (effectDev C.labelR ρ sd) (effectDev C.labelS σ sd) 0 C.betaT z := by
      unfold resist
      rw [← hd, sub_zero, effectDev_sq]
      unfold linearEffect
      have e : ∀ q : ℝ, C.betaT * (z * q / d) = -((-(C.betaT * z / d)) * q) := fun q => by ring
      rw [e, sub_neg_eq_add, ← List.sum_map_mul_left, ← List.sum_map_add]
      congr 1
      refine List.map_congr_left fun k hk => ?_
      rw [hv k (Or.inl hk), hX, hcoef, if_pos hk]
      ring
    rw [vS] at eS
    rw [vR] at eR
    unfold calcDesignParam
    rw [haS]
    dsimp only
    rw [eS]
    dsimp only
    rw [haR]
    dsimp only
    rw [eR]
    dsimp only
    rw [neg_div, abs_neg]

/-- The reliability index that no design parameter reaches is the one of the resistance alone. -/
theorem linear_ok {C : Calib Marginal} {ρ σ μ sd : String → ℝ} (hb : 0 ≤ C.betaT) (hS : 0 ≤ linearEffect C.labelS σ μ)
    (hB : 0 < effectDev C.labelS σ sd) (hreach : C.betaT * effectDev C.labelR ρ sd < linearEffect C.labelR ρ μ) :
    Ok (linearEffect C.labelR ρ μ) (linearEffect C.labelS σ μ) (effectDev C.labelR ρ sd) (effectDev C.labelS σ sd) 0 C.betaT :=
  ⟨effectDev_nonneg _ _ _, hB, le_rfl, by rw [zero_pow two_ne_zero]; exact mul_nonneg (sq_nonneg _) (sq_nonneg _), hb, hS, hreach⟩

/-- C110: the alpha calibration of a case whose limit state is `z · resistance - load` with independent normal variables.  If the
target index is below the index `mean / deviation` of the resistance alone there is exactly one nonnegative design parameter `zs` with
the target index; from any start value the method ends without an exception; the index it reports is the case's index at the design
parameter it returns; from the first round on that design parameter is not above `zs` and is off by at most
`(β · deviation / mean)^(rounds - 1) · zs`; and if `K` rounds make the bound smaller than the tolerance the method stops within `K`
rounds at the target. -/
theorem C110_case {C : Calib Marginal} {c : Setup} {o : Form.Options} {consts : Dict String ConstObj} {ρ σ : String → ℝ}
    (L : LinearCalib C c o consts ρ σ) {k0 : ConstObj} (hk0 : consts.get? C.cvar = some k0) (hone : k0.val = 1) {case : String}
    {μ sd : String → ℝ} {sp : String → Option ℝ} (N : NormalCase C case μ sd sp) (hb : 0 ≤ C.betaT)
    (hS : 0 ≤ linearEffect C.labelS σ μ) (hB : 0 < effectDev C.labelS σ sd)
    (hreach : C.betaT * effectDev C.labelR ρ sd < linearEffect C.labelR ρ μ) {z0 : ℝ} (hz0 : 0 ≤ z0) (target : ℝ) {abstol : ℝ}
    {maxIter fuel : ℕ} (hmax : 1 ≤ maxIter) (hfuel : maxIter ≤ fuel) :
    ∃ zs, 0 ≤ zs ∧ caseIndex C ρ σ μ sd zs = C.betaT ∧ (∀ y, 0 ≤ y → caseIndex C ρ σ μ sd y = C.betaT → y = zs) ∧
    ∃ (z : ZVal) (f : FormObj Marginal) (n : ℕ), C.calibrationAlpha case z0 target abstol maxIter fuel = some (.ok (z, f, n)) ∧
      n ≤ maxIter ∧ 0 ≤ z.val ∧ f.beta = caseIndex C ρ σ μ sd z.val ∧
      (1 ≤ n → z.val ≤ zs ∧ zs - z.val ≤ (C.betaT * effectDev C.labelR ρ sd / linearEffect C.labelR ρ μ) ^ (n - 1) * zs ∧
        f.beta ≤ C.betaT) ∧
      ∀ K, 1 ≤ K → K ≤ maxIter →
        (C.betaT * effectDev C.labelR ρ sd / linearEffect C.labelR ρ μ) ^ (K - 1) *
          ((linearEffect C.labelS σ μ / effectDev C.labelS σ sd + C.betaT) /
            (1 - C.betaT * effectDev C.labelR ρ sd / linearEffect C.labelR ρ μ)) ≤ abstol + 1e-5 * |C.betaT| →
        n ≤ K ∧ |f.beta - C.betaT| ≤ abstol + 1e-5 * |C.betaT| := by
  have hP := linear_projects L hk0 N hB
  rw [hone] at hP
  obtain ⟨zs, h1, h2, h3, z, f, n, h4, h5, h6, h7, h8, h9⟩ := projects_converges hP (linear_ok hb hS hB hreach) hz0 target
    (abstol := abstol) hmax hfuel
  refine ⟨zs, h1, by rw [caseIndex_eq]; exact h2, fun y hy e => h3 y hy (by rw [← caseIndex_eq]; exact e), z, f, n, h4, h5, h6,
    by rw [caseIndex_eq]; exact h7, h8, h9⟩

/-- C110: a target the resistance cannot reach, however large the design parameter: the method uses up its rounds, reports no failure,
and the index of what it returns misses the target. -/
theorem C110_unreachable {C : Calib Marginal} {c : Setup} {o : Form.Options} {consts : Dict String ConstObj} {ρ σ : String → ℝ}
    (L : LinearCalib C c o consts ρ σ) {k0 : ConstObj} (hk0 : consts.get? C.cvar = some k0) {case : String}
    {μ sd : String → ℝ} {sp : String → Option ℝ} (N : NormalCase C case μ sd sp)
    (hA : 0 < effectDev C.labelR ρ sd) (hR : 0 < linearEffect C.labelR ρ μ)
    (hS : 0 ≤ linearEffect C.labelS σ μ) (hB : 0 < effectDev C.labelS σ sd) {z0 : ℝ} (hz0 : 0 ≤ z0) {target abstol : ℝ}
    {maxIter fuel : ℕ}
    (hb : linearEffect C.labelR ρ μ / effectDev C.labelR ρ sd + (abstol + 1e-5 * |C.betaT|) ≤ C.betaT)
    {z : ZVal} {f : FormObj Marginal} {n : ℕ}
    (h : C.calibrationAlpha case z0 target abstol maxIter fuel = some (.ok (z, f, n))) :
    n = maxIter ∧ f.beta < linearEffect C.labelR ρ μ / effectDev C.labelR ρ sd ∧
      ¬ |f.beta - C.betaT| ≤ abstol + 1e-5 * |C.betaT| :=
  projects_unreachable (linear_projects L hk0 N hB) hA hB le_rfl hR hS hz0 hb h

/-- C110 (finding): the projection evaluates the limit state at the start value of the design parameter, so with a start value above one
every computed design parameter is at most `zs / start`, where `zs` is the one with the target index: if the index there misses the
target by more than the tolerance the method uses up its rounds and returns a design parameter off the target. -/
theorem C110_start {C : Calib Marginal} {c : Setup} {o : Form.Options} {consts : Dict String ConstObj} {ρ σ : String → ℝ}
    (L : LinearCalib C c o consts ρ σ) {k0 : ConstObj} (hk0 : consts.get? C.cvar = some k0) (hone : 1 < k0.val) {case : String}
    {μ sd : String → ℝ} {sp : String → Option ℝ} (N : NormalCase C case μ sd sp) (hb : 0 ≤ C.betaT)
    (hS : 0 ≤ linearEffect C.labelS σ μ) (hB : 0 < effectDev C.labelS σ sd)
    (hreach : C.betaT * effectDev C.labelR ρ sd < linearEffect C.labelR ρ μ) {z0 : ℝ} (hz0 : 0 ≤ z0) {target abstol : ℝ}
    {maxIter fuel : ℕ} {zs : ℝ} (hzs : 0 ≤ zs) (h0 : caseIndex C ρ σ μ sd zs = C.betaT) {z : ZVal} {f : FormObj Marginal} {n : ℕ}
    (hn : 1 ≤ n) (h : C.calibrationAlpha case z0 target abstol maxIter fuel = some (.ok (z, f, n))) :
    z.val ≤ zs / k0.val ∧ f.beta ≤ caseIndex C ρ σ μ sd (zs / k0.val) ∧
    (abstol + 1e-5 * |C.betaT| < C.betaT - caseIndex C ρ σ μ sd (zs / k0.val) →
      n = maxIter ∧ ¬ |f.beta - C.betaT| ≤ abstol + 1e-5 * |C.betaT|) := by
  rw [caseIndex_eq] at h0 ⊢
  exact projects_start (linear_projects L hk0 N hB) hone (linear_ok hb hS hB hreach) hz0 hzs h0 hn h

theorem loop_all {D : Type} {fsolve : Fsolve} {C : Calib D} {startz : ℝ} {fuel : ℕ} {P : String → ℝ → FormObj D → Prop} :
    ∀ l : List String, (∀ case ∈ l, ∃ z f, calibrateCase fsolve C startz fuel case = some (.ok (.arr z, f)) ∧ P case z f) →
      ∃ rs : List (ZVal × FormObj D), calibrateLoop fsolve C startz fuel l = some (.ok rs) ∧
        List.Forall₂ (fun case (r : ZVal × FormObj D) => ∃ z, r.1 = .arr z ∧ P case z r.2) l rs
  | [], _ => ⟨[], rfl, .nil⟩
  | case :: l, h => by
    obtain ⟨z, f, h1, h2⟩ := h case (by simp)
    obtain ⟨rs, h3, h4⟩ := loop_all (P := P) l (fun c hc => h c (by simp [hc]))
    refine ⟨(.arr z, f) :: rs, ?_, .cons ⟨z, rfl, h2⟩ h4⟩
    rw [calibrateLoop, h1]
    dsimp only
    rw [h3]

/-- C110: `_calibrate_design_param` with the alpha method, all cases linear with independent normal variables, the targets reachable
within the 100 rounds and no case at the target already: it returns one design parameter and one analysis per case; each design parameter
is at most the one with the target index, and each case's index meets the target within the tolerance. -/
theorem C110_all {C : Calib Marginal} {c : Setup} {o : Form.Options} {consts : Dict String ConstObj} {ρ σ : String → ℝ}
    (L : LinearCalib C c o consts ρ σ) {k0 : ConstObj} (hk0 : consts.get? C.cvar = some k0) (hone : k0.val = 1)
    (hm : C.calibMethod = "alpha") (hne : C.labelCombCases ≠ []) {μ sd : String → String → ℝ} {sp : String → String → Option ℝ}
    (hb : 0 ≤ C.betaT) (N : ∀ case ∈ C.labelCombCases, NormalCase C case (μ case) (sd case) (sp case))
    (hS : ∀ case ∈ C.labelCombCases, 0 ≤ linearEffect C.labelS σ (μ case))
    (hB : ∀ case ∈ C.labelCombCases, 0 < effectDev C.labelS σ (sd case))
    (hreach : ∀ case ∈ C.labelCombCases, C.betaT * effectDev C.labelR ρ (sd case) < linearEffect C.labelR ρ (μ case))
    (hrounds : ∀ case ∈ C.labelCombCases, (C.betaT * effectDev C.labelR ρ (sd case) / linearEffect C.labelR ρ (μ case)) ^ 99 *
          ((linearEffect C.labelS σ (μ case) / effectDev C.labelS σ (sd case) + C.betaT) /
            (1 - C.betaT * effectDev C.labelR ρ (sd case) / linearEffect C.labelR ρ (μ case))) ≤ 1e-4 + 1e-5 * C.betaT)
    (hstart : ∀ case ∈ C.labelCombCases, ¬ |caseIndex C ρ σ (μ case) (sd case) 1 - C.betaT| ≤ 1e-4 + 1e-5 * C.betaT)
    (fsolve : Fsolve) {fuel : ℕ} (hfuel : 100 ≤ fuel) :
    ∃ zs fs, calibrateDesignParam fsolve C fuel = some (.ok (zs, fs)) ∧ zs.length = C.labelCombCases.length ∧
      fs.length = C.labelCombCases.length ∧
      ∀ (i : ℕ) (case : String), C.labelCombCases[i]? = some case → ∃ z f, zs[i]? = some z ∧ fs[i]? = some f ∧ 0 ≤ z ∧
        f.beta = caseIndex C ρ σ (μ case) (sd case) z ∧ f.beta ≤ C.betaT ∧
        |caseIndex C ρ σ (μ case) (sd case) z - C.betaT| ≤ 1e-4 + 1e-5 * C.betaT := by
  have habs : |C.betaT| = C.betaT := abs_of_nonneg hb
  obtain ⟨rs, h1, h2⟩ := loop_all (fsolve := fsolve) (C := C) (startz := k0.val) (fuel := fuel)
    (P := fun case z f => 0 ≤ z ∧ f.beta = caseIndex C ρ σ (μ case) (sd case) z ∧ f.beta ≤ C.betaT ∧
      |caseIndex C ρ σ (μ case) (sd case) z - C.betaT| ≤ 1e-4 + 1e-5 * C.betaT) C.labelCombCases (by
    intro case hcase
    obtain ⟨zs, -, -, -, z, f, n, a1, a2, a3, a4, a5, a6⟩ := C110_case L hk0 hone (N case hcase) hb (hS case hcase) (hB case hcase)
      (hreach case hcase) (z0 := k0.val) (by rw [hone]; norm_num) C.betaT (abstol := 1e-4) (maxIter := 100) (fuel := fuel) (by norm_num)
      hfuel
    obtain ⟨-, b2⟩ := a6 100 (by norm_num) le_rfl (by rw [habs]; exact hrounds case hcase)
    rw [habs] at b2
    obtain ⟨-, -, -, d4⟩ := C60_alpha C case k0.val C.betaT 1e-4 a1
    have hn : n ≠ 0 := by
      intro h0
      have := d4 h0
      rw [this] at a4
      refine hstart case hcase ?_
      have e : (ZVal.scalar k0.val).val = 1 := hone
      rw [e] at a4
      rw [← a4]
      exact b2
    obtain ⟨-, -, a7⟩ := a5 (by omega)
    have hz : z = .arr z.val := by
      unfold calibrationAlpha at a1
      split at a1
      · cases a1
      · next f0 hf0 =>
        have := (alphaLoop_ok C case _ _ 100 fuel 0 (.scalar k0.val) f0 z f n a1 hf0 (fun _ => rfl) (fun h => absurd rfl h)).2.2.2.2.2.2
        cases z with
        | scalar x => exact absurd (this.1 rfl) hn
        | arr x => rfl
    refine ⟨z.val, f, ?_, a3, a4, a7, by rw [← a4]; exact b2⟩
    unfold calibrateCase
    rw [if_neg (by rw [hm]; decide), if_pos hm, a1]
    dsimp only
    rw [← hz])
  have hlen := h2.length_eq
  have hconcat : concatZ (rs.map Prod.fst) = .ok (rs.map fun r => r.1.val) := by
    have hrs : rs ≠ [] := by
      intro h; rw [h] at hlen; exact hne (List.length_eq_zero_iff.1 (by simpa using hlen))
    have hany : (rs.map Prod.fst).any ZVal.isScalar = false := by
      rw [List.any_eq_false]
      intro x hx
      obtain ⟨r, hr, rfl⟩ := List.mem_map.1 hx
      obtain ⟨i, hi, rfl⟩ := List.getElem_of_mem hr
      obtain ⟨z, hz, -⟩ := (List.forall₂_iff_get.1 h2).2 i (by omega) hi
      have hz' : rs[i].1 = .arr z := hz
      rw [hz']
      simp [ZVal.isScalar]
    obtain ⟨r, t, rfl⟩ := List.exists_cons_of_ne_nil hrs
    rw [List.map_cons, concatZ]
    · rw [← List.map_cons, hany]
      simp
    · simp
  refine ⟨rs.map (fun r => r.1.val), rs.map Prod.snd, ?_, by simp [hlen], by simp [hlen], ?_⟩
  · unfold calibrateDesignParam
    rw [L.labels.constant]
    dsimp only
    rw [hk0]
    dsimp only
    rw [h1]
    dsimp only
    rw [hconcat]
  · intro i case hi
    obtain ⟨hi', hc⟩ := List.getElem?_eq_some_iff.1 hi
    have hir : i < rs.length := by omega
    obtain ⟨z, hz, h3, h4, h5, h6⟩ := (List.forall₂_iff_get.1 h2).2 i hi' hir
    have hz' : rs[i].1 = .arr z := hz
    refine ⟨z, rs[i].2, ?_, ?_, h3, ?_, h5, ?_⟩
    · rw [List.getElem?_map, List.getElem?_eq_getElem hir]
      simp [hz', ZVal.val]
    · rw [List.getElem?_map, List.getElem?_eq_getElem hir]
      rfl
    · rw [← hc]; exact h4
    · rw [← hc]; exact h6

/-! A concrete calibration: `g = z R - Q`, `R` normal (20, 4), `Q` normal (5, 3) in one case and (10, 3) in the other. -/

/-- The means in a case. -/
noncomputable def exNewtonMean (case k : String) : ℝ := if k = "R" then 20 else if case = "A" then 5 else 10

/-- The standard deviations. -/
noncomputable def exNewtonSd (k : String) : ℝ := if k = "R" then 4 else 3

/-- The load combination. -/
def exNewtonLC (R Q1 Q2 : Marginal) (z : ℝ) : LoadComb Marginal :=
  { distMax := [], distPit := [], distOther := none, distResist := [], combCases := [("A", ["Q"]), ("B", [])], numComb := 2
    dictDistComb := [("A", [("R", ⟨"R", R⟩), ("Q", ⟨"Q", Q1⟩)]), ("B", [("R", ⟨"R", R⟩), ("Q", ⟨"Q", Q2⟩)])]
    dfCorr := none, constant := some [("z", ⟨"z", z⟩)]
    labelCombCases := ["A", "B"], labelCombVrs := ["Q"]
    labelResist := ["R"], labelOther := [], labelConst := some ["z"], labelAll := ["R", "Q", "z"] }

/-- The calibration. -/
noncomputable def exNewton (R Q1 Q2 : Marginal) (target z : ℝ) (c : Setup) (o : Form.Options) : Calib Marginal :=
  { lc := exNewtonLC R Q1 Q2 z
    lsf := fun a => .ok (nums a "z" * linearEffect ["R"] (fun _ => 1) (nums a) - linearEffect ["Q"] (fun _ => 1) (nums a))
    form := formObject c o
    betaT := target, calibMethod := "alpha", estMethod := "coeff"
    dfNom := ⟨["A", "B"], ["R", "Q"], fun _ _ => some 2⟩, cvar := "z" }

theorem exNewton_linear {R Q1 Q2 : Marginal} {target z : ℝ} {c : Setup} {o : Form.Options} (hla : LinAlgOK c.la)
    (hexpr : c.expr = vectorised fun d => argNums d "z" * linearEffect ["R"] (fun _ => 1) (argNums d) -
      linearEffect ["Q"] (fun _ => 1) (argNums d)) (hopt : c.lsopt = ⟨"ffd", 1, 1000, 1000⟩) (ho : GoodForm c o) :
    LinearCalib (exNewton R Q1 Q2 target z c o) c o [("z", ⟨"z", z⟩)] (fun _ => 1) (fun _ => 1) where
  labels := ⟨rfl, by simp [Dict.keys], by simp [exNewton, exNewtonLC, Calib.labelR, Dict.keys],
    by simp [exNewton, exNewtonLC, Calib.labelS, Calib.labelOther, Calib.labelCombVrs, Dict.keys], by simp [exNewton, Dict.keys],
    by simp [exNewton, exNewtonLC, Calib.labelR, Calib.labelS, Calib.labelOther, Calib.labelCombVrs]⟩
  selfNamed := by simp
  form := rfl
  lsf := fun a => rfl
  expr := by rw [hexpr]; exact vectorised_pointwise _
  uncorrelated := rfl
  la := hla
  block := by rw [hopt]; norm_num
  para := by rw [hopt]; norm_num
  mp := by rw [hopt]; norm_num
  d1 := by rw [hopt]; simp
  d2 := by rw [hopt]; simp
  good := ho

/-- The hypotheses of `C110_all` are met; the library's default options of FORM. -/
example {la : LinAlg} (hla : LinAlgOK la) : ∃ (c : Setup) (R Q1 Q2 : Marginal), c.la = la ∧
    ∀ fsolve : Fsolve, ∃ z1 z2 f1 f2,
      calibrateDesignParam fsolve (exNewton R Q1 Q2 4 1 c ⟨100, 0.001, 0.001, 0, 1⟩) 100 = some (.ok ([z1, z2], [f1, f2])) ∧
      |(z1 * 20 - 5) / √(z1 ^ 2 * 4 ^ 2 + 3 ^ 2) - 4| ≤ 1.4e-4 ∧ |(z2 * 20 - 10) / √(z2 ^ 2 * 4 ^ 2 + 3 ^ 2) - 4| ≤ 1.4e-4 ∧
      f1.beta ≤ 4 ∧ f2.beta ≤ 4 := by
  obtain ⟨R, hR⟩ : ∃ m, Normal.new 20 (.fin (4 : ℝ)) none = .ok m := ⟨_, rfl⟩
  obtain ⟨Q1, hQ1⟩ : ∃ m, Normal.new 5 (.fin (3 : ℝ)) none = .ok m := ⟨_, rfl⟩
  obtain ⟨Q2, hQ2⟩ : ∃ m, Normal.new 10 (.fin (3 : ℝ)) none = .ok m := ⟨_, rfl⟩
  obtain ⟨c, hc⟩ : ∃ c : Setup, c = ⟨fun _ x => x, R, la, fun _ _ => [], .cholesky,
    vectorised fun d => argNums d "z" * linearEffect ["R"] (fun _ => 1) (argNums d) - linearEffect ["Q"] (fun _ => 1) (argNums d),
    ⟨"ffd", 1, 1000, 1000⟩, 1000⟩ := ⟨_, rfl⟩
  have ho : GoodForm c ⟨100, 0.001, 0.001, 0, 1⟩ :=
    ⟨by norm_num, by norm_num, by rw [hc]; norm_num, Or.inr ⟨rfl, rfl, by norm_num, by norm_num⟩⟩
  have L := exNewton_linear (R := R) (Q1 := Q1) (Q2 := Q2) (target := 4) (z := 1) (c := c) (by rw [hc]; exact hla) (by rw [hc]) (by rw [hc]) ho
  refine ⟨c, R, Q1, Q2, by rw [hc], fun fsolve => ?_⟩
  obtain ⟨C, hC⟩ : ∃ C, C = exNewton R Q1 Q2 4 1 c ⟨100, 0.001, 0.001, 0, 1⟩ := ⟨_, rfl⟩
  rw [← hC] at L ⊢
  have eR : C.labelR = ["R"] := by rw [hC]; rfl
  have eS : C.labelS = ["Q"] := by rw [hC]; rfl
  have eb : C.betaT = 4 := by rw [hC]; rfl
  have ec : C.labelCombCases = ["A", "B"] := by rw [hC]; rfl
  have ev : C.cvar = "z" := by rw [hC]; rfl
  have em : C.calibMethod = "alpha" := by rw [hC]; rfl
  have hN : ∀ case ∈ C.labelCombCases, NormalCase C case (exNewtonMean case) exNewtonSd (fun _ => none) := by
    intro case hcase
    rw [ec] at hcase
    simp only [List.mem_cons, List.not_mem_nil, or_false] at hcase
    refine ⟨?_, ?_⟩
    · rcases hcase with rfl | rfl
      · refine ⟨[("R", ⟨"R", R⟩), ("Q", ⟨"Q", Q1⟩)], by rw [hC]; rfl, by simp [Dict.keys], by rw [eR, eS]; simp [Dict.keys], ?_⟩
        intro p hp
        simp only [List.mem_cons, List.not_mem_nil, or_false] at hp
        rcases hp with rfl | rfl
        · exact ⟨rfl, by simpa [exNewtonMean, exNewtonSd] using hR⟩
        · exact ⟨rfl, by simpa [exNewtonMean, exNewtonSd] using hQ1⟩
      · refine ⟨[("R", ⟨"R", R⟩), ("Q", ⟨"Q", Q2⟩)], by rw [hC]; rfl, by simp [Dict.keys], by rw [eR, eS]; simp [Dict.keys], ?_⟩
        intro p hp
        simp only [List.mem_cons, List.not_mem_nil, or_false] at hp
        rcases hp with rfl | rfl
        · exact ⟨rfl, by simpa [exNewtonMean, exNewtonSd] using hR⟩
        · exact ⟨rfl, by simpa [exNewtonMean, exNewtonSd] using hQ2⟩
    · intro k _
      unfold exNewtonSd
      split <;> norm_num
  have hmR : ∀ case, linearEffect ["R"] (fun _ => 1) (exNewtonMean case) = 20 := fun case => by simp [linearEffect, exNewtonMean]
  have hmQ : ∀ case, linearEffect ["Q"] (fun _ => 1) (exNewtonMean case) = if case = "A" then 5 else 10 := fun case => by
    simp [linearEffect, exNewtonMean]
  have hdR : effectDev ["R"] (fun _ => 1) exNewtonSd = 4 := by
    unfold effectDev
    simp [exNewtonSd]
  have hdQ : effectDev ["Q"] (fun _ => 1) exNewtonSd = 3 := by
    unfold effectDev
    simp [exNewtonSd]
  have hidx : ∀ case z, caseIndex C (fun _ => 1) (fun _ => 1) (exNewtonMean case) exNewtonSd z =
      (z * 20 - if case = "A" then 5 else 10) / √(z ^ 2 * 4 ^ 2 + 3 ^ 2) := by
    intro case z
    unfold caseIndex
    rw [eR, eS, hmR, hmQ, hdR, hdQ]
  have h25 : √((1 : ℝ) ^ 2 * 4 ^ 2 + 3 ^ 2) = 5 := by
    rw [show (1 : ℝ) ^ 2 * 4 ^ 2 + 3 ^ 2 = 5 ^ 2 by norm_num, Real.sqrt_sq (by norm_num)]
  obtain ⟨zs, fs, h1, h2, h3, h4⟩ := C110_all L (k0 := ⟨"z", 1⟩) (by rw [ev]; rfl) rfl em (by rw [ec]; simp) (by rw [eb]; norm_num) hN
    (fun case _ => by rw [eS, hmQ]; split <;> norm_num) (fun case _ => by rw [eS, hdQ]; norm_num)
    (fun case _ => by rw [eR, eb, hdR, hmR]; norm_num)
    (fun case _ => by
      rw [eR, eS, eb, hdR, hmR, hmQ, hdQ]
      split <;> norm_num)
    (fun case _ => by
      rw [hidx, eb, h25]
      intro h
      have := (abs_le.1 h).1
      split at this <;> norm_num at this)
    fsolve (fuel := 100) le_rfl
  obtain ⟨z1, f1, a1, a2, a3, a4, a5, a6⟩ := h4 0 "A" (by rw [ec]; rfl)
  obtain ⟨z2, f2, b1, b2, b3, b4, b5, b6⟩ := h4 1 "B" (by rw [ec]; rfl)
  rw [ec] at h2 h3
  have hz : zs = [z1, z2] := by
    match zs, h2, a1, b1 with
    | [x, y], _, a1, b1 => simp at a1 b1; rw [a1, b1]
  have hf : fs = [f1, f2] := by
    match fs, h3, a2, b2 with
    | [x, y], _, a2, b2 => simp at a2 b2; rw [a2, b2]
  rw [hidx, eb] at a6 b6
  rw [eb] at a5 b5
  refine ⟨z1, z2, f1, f2, by rw [h1, hz, hf], ?_, ?_, a5, b5⟩
  · refine le_trans (by simpa using a6) (by norm_num)
  · refine le_trans (by simpa using b6) (by norm_num)

/-- The hypotheses of `C110_start` are met: with the start value 2 and the target index 3 (met by the design parameter 1), the method
ends in case A after all its 100 rounds with an index below 1.5. -/
example {la : LinAlg} (hla : LinAlgOK la) : ∃ (c : Setup) (R Q1 Q2 : Marginal), c.la = la ∧
    ∀ z f n, (exNewton R Q1 Q2 3 2 c ⟨100, 0.001, 0.001, 0, 1⟩).calibrationAlpha "A" 2 3 1e-4 100 100 = some (.ok (z, f, n)) →
      1 ≤ n → n = 100 ∧ f.beta ≤ 1.5 := by
  obtain ⟨R, hR⟩ : ∃ m, Normal.new 20 (.fin (4 : ℝ)) none = .ok m := ⟨_, rfl⟩
  obtain ⟨Q1, hQ1⟩ : ∃ m, Normal.new 5 (.fin (3 : ℝ)) none = .ok m := ⟨_, rfl⟩
  obtain ⟨c, hc⟩ : ∃ c : Setup, c = ⟨fun _ x => x, R, la, fun _ _ => [], .cholesky,
    vectorised fun d => argNums d "z" * linearEffect ["R"] (fun _ => 1) (argNums d) - linearEffect ["Q"] (fun _ => 1) (argNums d),
    ⟨"ffd", 1, 1000, 1000⟩, 1000⟩ := ⟨_, rfl⟩
  have ho : GoodForm c ⟨100, 0.001, 0.001, 0, 1⟩ :=
    ⟨by norm_num, by norm_num, by rw [hc]; norm_num, Or.inr ⟨rfl, rfl, by norm_num, by norm_num⟩⟩
  have L := exNewton_linear (R := R) (Q1 := Q1) (Q2 := Q1) (target := 3) (z := 2) (c := c) (by rw [hc]; exact hla) (by rw [hc])
    (by rw [hc]) ho
  refine ⟨c, R, Q1, Q1, by rw [hc], fun z f n h hn => ?_⟩
  obtain ⟨C, hC⟩ : ∃ C, C = exNewton R Q1 Q1 3 2 c ⟨100, 0.001, 0.001, 0, 1⟩ := ⟨_, rfl⟩
  rw [← hC] at L h
  have eR : C.labelR = ["R"] := by rw [hC]; rfl
  have eS : C.labelS = ["Q"] := by rw [hC]; rfl
  have eb : C.betaT = 3 := by rw [hC]; rfl
  have ev : C.cvar = "z" := by rw [hC]; rfl
  have hN : NormalCase C "A" (exNewtonMean "A") exNewtonSd (fun _ => none) := by
    refine ⟨⟨[("R", ⟨"R", R⟩), ("Q", ⟨"Q", Q1⟩)], by rw [hC]; rfl, by simp [Dict.keys], by rw [eR, eS]; simp [Dict.keys], ?_⟩, ?_⟩
    · intro p hp
      simp only [List.mem_cons, List.not_mem_nil, or_false] at hp
      rcases hp with rfl | rfl
      · exact ⟨rfl, by simpa [exNewtonMean, exNewtonSd] using hR⟩
      · exact ⟨rfl, by simpa [exNewtonMean, exNewtonSd] using hQ1⟩
    · intro k _
      unfold exNewtonSd
      split <;> norm_num
  have hmR : linearEffect ["R"] (fun _ => 1) (exNewtonMean "A") = 20 := by simp [linearEffect, exNewtonMean]
  have hmQ : linearEffect ["Q"] (fun _ => 1) (exNewtonMean "A") = 5 := by simp [linearEffect, exNewtonMean]
  have hdR : effectDev ["R"] (fun _ => 1) exNewtonSd = 4 := by
    unfold effectDev
    simp [exNewtonSd]
  have hdQ : effectDev ["Q"] (fun _ => 1) exNewtonSd = 3 := by
    unfold effectDev
    simp [exNewtonSd]
  have hidx : ∀ z, caseIndex C (fun _ => 1) (fun _ => 1) (exNewtonMean "A") exNewtonSd z =
      (z * 20 - 5) / √(z ^ 2 * 4 ^ 2 + 3 ^ 2) := by
    intro z
    unfold caseIndex
    rw [eR, eS, hmR, hmQ, hdR, hdQ]
  have h25 : √((1 : ℝ) ^ 2 * 4 ^ 2 + 3 ^ 2) = 5 := by
    rw [show (1 : ℝ) ^ 2 * 4 ^ 2 + 3 ^ 2 = 5 ^ 2 by norm_num, Real.sqrt_sq (by norm_num)]
  obtain ⟨h1, h2, h3⟩ := C110_start L (k0 := ⟨"z", 2⟩) (by rw [ev]; rfl) (by norm_num) hN (by rw [eb]; norm_num)
    (by rw [eS, hmQ]; norm_num) (by rw [eS, hdQ]; norm_num) (by rw [eR, eb, hdR, hmR]; norm_num) (by norm_num) (zs := 1) (by norm_num)
    (by rw [hidx, h25, eb]; norm_num) hn h
  have h13 : (7 / 2 : ℝ) ≤ √((1 / 2) ^ 2 * 4 ^ 2 + 3 ^ 2) := by
    apply Real.le_sqrt_of_sq_le
    norm_num
  have hlow : caseIndex C (fun _ => 1) (fun _ => 1) (exNewtonMean "A") exNewtonSd (1 / 2) ≤ 1.5 := by
    rw [hidx, div_le_iff₀ (by linarith)]
    linarith
  refine ⟨(h3 ?_).1, h2.trans hlow⟩
  rw [eb, abs_of_nonneg (by norm_num)]
  have : (1e-4 + 1e-5 * 3 : ℝ) < 3 - 1.5 := by norm_num
  exact lt_of_lt_of_le this (by linarith)

/-- The hypotheses of `C110_unreachable` are met: a resistance with mean 20 and standard deviation 4 cannot reach the target index 6; the
method ends in case A after all its 100 rounds, with an index below 5. -/
example {la : LinAlg} (hla : LinAlgOK la) : ∃ (c : Setup) (R Q1 Q2 : Marginal), c.la = la ∧
    ∀ z f n, (exNewton R Q1 Q2 6 1 c ⟨100, 0.001, 0.001, 0, 1⟩).calibrationAlpha "A" 1 6 1e-4 100 100 = some (.ok (z, f, n)) →
      n = 100 ∧ f.beta < 5 := by
  obtain ⟨R, hR⟩ : ∃ m, Normal.new 20 (.fin (4 : ℝ)) none = .ok m := ⟨_, rfl⟩
  obtain ⟨Q1, hQ1⟩ : ∃ m, Normal.new 5 (.fin (3 : ℝ)) none = .ok m := ⟨_, rfl⟩
  obtain ⟨c, hc⟩ : ∃ c : Setup, c = ⟨fun _ x => x, R, la, fun _ _ => [], .cholesky,
    vectorised fun d => argNums d "z" * linearEffect ["R"] (fun _ => 1) (argNums d) - linearEffect ["Q"] (fun _ => 1) (argNums d),
    ⟨"ffd", 1, 1000, 1000⟩, 1000⟩ := ⟨_, rfl⟩
  have ho : GoodForm c ⟨100, 0.001, 0.001, 0, 1⟩ :=
    ⟨by norm_num, by norm_num, by rw [hc]; norm_num, Or.inr ⟨rfl, rfl, by norm_num, by norm_num⟩⟩
  have L := exNewton_linear (R := R) (Q1 := Q1) (Q2 := Q1) (target := 6) (z := 1) (c := c) (by rw [hc]; exact hla) (by rw [hc])
    (by rw [hc]) ho
  refine ⟨c, R, Q1, Q1, by rw [hc], fun z f n h => ?_⟩
  obtain ⟨C, hC⟩ : ∃ C, C = exNewton R Q1 Q1 6 1 c ⟨100, 0.001, 0.001, 0, 1⟩ := ⟨_, rfl⟩
  rw [← hC] at L h
  have eR : C.labelR = ["R"] := by rw [hC]; rfl
  have eS : C.labelS = ["Q"] := by rw [hC]; rfl
  have eb : C.betaT = 6 := by rw [hC]; rfl
  have ev : C.cvar = "z" := by rw [hC]; rfl
  have hN : NormalCase C "A" (exNewtonMean "A") exNewtonSd (fun _ => none) := by
    refine ⟨⟨[("R", ⟨"R", R⟩), ("Q", ⟨"Q", Q1⟩)], by rw [hC]; rfl, by simp [Dict.keys], by rw [eR, eS]; simp [Dict.keys], ?_⟩, ?_⟩
    · intro p hp
      simp only [List.mem_cons, List.not_mem_nil, or_false] at hp
      rcases hp with rfl | rfl
      · exact ⟨rfl, by simpa [exNewtonMean, exNewtonSd] using hR⟩
      · exact ⟨rfl, by simpa [exNewtonMean, exNewtonSd] using hQ1⟩
    · intro k _
      unfold exNewtonSd
      split <;> norm_num
  have hmR : linearEffect ["R"] (fun _ => 1) (exNewtonMean "A") = 20 := by simp [linearEffect, exNewtonMean]
  have hmQ : linearEffect ["Q"] (fun _ => 1) (exNewtonMean "A") = 5 := by simp [linearEffect, exNewtonMean]
  have hdR : effectDev ["R"] (fun _ => 1) exNewtonSd = 4 := by
    unfold effectDev
    simp [exNewtonSd]
  have hdQ : effectDev ["Q"] (fun _ => 1) exNewtonSd = 3 := by
    unfold effectDev
    simp [exNewtonSd]
  obtain ⟨h1, h2, -⟩ := C110_unreachable L (k0 := ⟨"z", 1⟩) (by rw [ev]; rfl) hN (by rw [eR, hdR]; norm_num) (by rw [eR, hmR]; norm_num)
    (by rw [eS, hmQ]; norm_num) (by rw [eS, hdQ]; norm_num) (z0 := 1) (by norm_num) (by rw [eR, eb, hdR, hmR]; norm_num) h
  rw [eR, hdR, hmR] at h2
  exact ⟨h1, h2.trans_eq (by norm_num)⟩

end Pystra.Props
