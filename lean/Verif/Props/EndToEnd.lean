import Verif.Spec.EndToEnd
import Verif.Props.Importance
import Verif.Props.FormArmijo
import Verif.Props.LineSamplingRun
import Verif.Props.SormPointfit
import Verif.Props.SormCurvature
import Verif.Props.SensNormal
import Verif.Props.OrderModel

/-! C102: a linear problem with independent normal variables, from the user's script to the results of every analysis. -/

namespace Pystra.Props
open Spec Transformation Form Session StochModel MeasureTheory Matrix
open ProbabilityTheory hiding cdf

variable {n m : ℕ} {c : Setup}

/-! ### The model of the script -/

theorem run_adds : ∀ (l : List (DistObj Marginal)) (s : StochModel Marginal ℝ), (l.map DistObj.name).Nodup →
    (∀ d ∈ l, d.name ∉ s.names) →
    (s.run (l.map fun d => .add (.distribution d))).names = s.names ++ l.map DistObj.name ∧
    (s.run (l.map fun d => .add (.distribution d))).marg = s.marg ++ l ∧
    (s.run (l.map fun d => .add (.distribution d))).consts = s.consts ∧
    (l ≠ [] → (s.run (l.map fun d => .add (.distribution d))).correlation = some (NDArray2.eye (s.marg.length + l.length)))
  | [], s, _, _ => by simp [StochModel.run]
  | d :: l, s, hnd, hne => by
    have hd : d.name ∉ s.names := hne d (by simp)
    rw [List.map_cons, List.nodup_cons] at hnd
    obtain ⟨s1, hs1⟩ : ∃ s1, s1 = (s.step (.add (.distribution d))).1 := ⟨_, rfl⟩
    have e1 : s1.names = s.names ++ [d.name] ∧ s1.marg = s.marg ++ [d] ∧ s1.consts = s.consts ∧
        s1.correlation = some (NDArray2.eye (s.marg.length + 1)) := by
      rw [hs1]
      simp [StochModel.step, StochModel.addVariable, hd]
    obtain ⟨i1, i2, i3, i4⟩ := run_adds l s1 hnd.2 (fun x hx => by
      rw [e1.1, List.mem_append, not_or]
      refine ⟨hne x (by simp [hx]), ?_⟩
      rw [List.mem_singleton]
      intro h
      exact hnd.1 (h ▸ List.mem_map_of_mem hx))
    have hr : s.run ((d :: l).map fun d => .add (.distribution d)) = s1.run (l.map fun d => .add (.distribution d)) := by
      rw [hs1]; rfl
    rw [hr]
    refine ⟨by rw [i1, e1.1]; simp, by rw [i2, e1.2.1]; simp, by rw [i3, e1.2.2.1], fun _ => ?_⟩
    by_cases hl : l = []
    · subst hl
      simp only [List.map_nil, StochModel.run, e1.2.2.2, List.length_singleton]
    · rw [i4 hl, e1.2.1]
      congr 2
      simp; omega

theorem normalModel_spec {name : Fin n → String} (hname : Function.Injective name) (marg : Fin n → Marginal) (hn : 0 < n) :
    Reachable (normalModel name marg) ∧ (normalModel name marg).names = List.ofFn name ∧
    (normalModel name marg).marg = List.ofFn (fun i => ⟨name i, marg i⟩) ∧ (normalModel name marg).consts = [] ∧
    (normalModel name marg).correlation = some (NDArray2.eye n) := by
  have e : normalModel name marg =
      init.run ((List.ofFn fun i => (⟨name i, marg i⟩ : DistObj Marginal)).map fun d => .add (.distribution d)) := by
    rw [List.map_ofFn]; rfl
  obtain ⟨h1, h2, h3, h4⟩ := run_adds (List.ofFn fun i => (⟨name i, marg i⟩ : DistObj Marginal)) init
    (by rw [List.map_ofFn]; exact List.nodup_ofFn.2 hname) (by simp [init])
  rw [← e] at h1 h2 h3 h4
  refine ⟨⟨_, rfl⟩, by rw [h1, List.map_ofFn]; simp [init, Function.comp_def], by rw [h2]; simp [init], by rw [h3]; simp [init], ?_⟩
  rw [h4 (by rw [Ne, List.ofFn_eq_nil_iff]; omega)]
  congr 2
  simp [init]

/-- The script's limit state at a point. -/
theorem linearOf_point {name : Fin n → String} (hname : Function.Injective name) (marg : Fin n → Marginal) (hn : 0 < n)
    (a0 : ℝ) (a p : Fin n → ℝ) : linearOf name a0 a (pointArgs (normalModel name marg) p) = a0 + ∑ i, a i * p i := by
  obtain ⟨h1, -, h3, h4, -⟩ := normalModel_spec hname marg hn
  have hk := keys_of_reachable h1
  rw [h3, List.map_ofFn] at hk
  have hk' : (normalModel name marg).vars.keys = List.ofFn name := hk
  have hz : (List.ofFn name).zip (List.ofFn p) = List.ofFn (fun i => (name i, p i)) := by
    apply List.ext_getElem
    · simp
    · intro i _ _; simp
  have e : pointArgs (normalModel name marg) p = List.ofFn (fun i => (name i, p i)) := by
    unfold pointArgs getVariables getConstants
    rw [hk', hz, h4, List.append_nil]
  have hnd : (Dict.keys (List.ofFn (fun i => (name i, p i)) : Dict String ℝ)).Nodup := by
    unfold Dict.keys
    rw [List.map_ofFn]
    exact List.nodup_ofFn.2 hname
  unfold linearOf
  rw [e]
  congr 1
  refine Finset.sum_congr rfl fun i _ => ?_
  rw [(Dict.get?_iff _ hnd _ _).2 (List.mem_ofFn.2 ⟨i, rfl⟩)]
  rfl

/-! ### The exact probability -/

theorem halfspace_lt (w : Fin n → ℝ) (hw : 0 < ∑ i, w i ^ 2) (b : ℝ) :
    (stdGauss n).real {u | b + ∑ i, w i * u i < 0} = StdNormal.cdf (-(b / √(∑ i, w i ^ 2))) := by
  have h1 := halfspace_prob (fun i => -w i) (by simpa using hw) (-b)
  have hc : {u : Fin n → ℝ | b + ∑ i, w i * u i < 0} = {u : Fin n → ℝ | -b + ∑ i, -w i * u i ≤ 0}ᶜ := by
    ext u
    simp only [Set.mem_setOf_eq, Set.mem_compl_iff, not_le, neg_mul, Finset.sum_neg_distrib]
    constructor <;> intro h <;> linarith
  have hms : MeasurableSet {u : Fin n → ℝ | -b + ∑ i, -w i * u i ≤ 0} :=
    (show Measurable (fun u : Fin n → ℝ => -b + ∑ i, -w i * u i) by fun_prop) measurableSet_Iic
  rw [hc, measureReal_compl hms, h1]
  simp only [neg_sq, neg_div, neg_neg, probReal_univ, StdNormal.cdf_neg]

theorem linearPf_eq (a0 : ℝ) (a μ sd : Fin n → ℝ) (h : 0 < ∑ i, (a i * sd i) ^ 2) :
    linearPf a0 a μ sd = StdNormal.cdf (-linearIndex a0 a μ sd) := by
  have hmap : (stdGauss n).map (fun u i => μ i + sd i * u i) = Measure.pi fun i => gaussianReal (μ i) (sd i ^ 2).toNNReal := by
    unfold stdGauss
    have e1 : ∀ i, (gaussianReal 0 1).map (fun z => μ i + sd i * z) = gaussianReal (μ i) (sd i ^ 2).toNNReal := by
      intro i
      have : (fun z => μ i + sd i * z) = (fun z => μ i + z) ∘ (fun z => sd i * z) := rfl
      rw [this, ← Measure.map_map (by fun_prop) (by fun_prop), gaussianReal_map_const_mul, gaussianReal_map_const_add]
      congr 1
      · simp
      · rw [mul_one]; ext; simp [sq_nonneg]
    haveI : ∀ i, SigmaFinite ((gaussianReal 0 1).map (fun z => μ i + sd i * z)) := fun i => by rw [e1]; infer_instance
    rw [Measure.pi_map_pi (f := fun i z => μ i + sd i * z) (fun i => by fun_prop)]
    congr 1
    funext i
    exact e1 i
  have hms : MeasurableSet {x : Fin n → ℝ | a0 + ∑ i, a i * x i < 0} :=
    (show Measurable (fun u : Fin n → ℝ => a0 + ∑ i, a i * u i) by fun_prop) measurableSet_Iio
  unfold linearPf linearIndex
  rw [← hmap, map_measureReal_apply (by fun_prop) hms, ← halfspace_lt (fun i => a i * sd i) h]
  congr 1
  ext u
  simp only [Set.mem_preimage, Set.mem_setOf_eq]
  rw [add_assoc, ← Finset.sum_add_distrib]
  constructor <;> intro h <;> convert h using 3 <;> ring_nf

/-! ### The analyses on a model with this definition -/

/-- A model with independent normal variables, and a limit state that is affine in them. -/
structure LinSetting (c : Setup) (n : ℕ) (g : Dict String ℝ → ℝ) (a0 : ℝ) (a μ sd : Fin n → ℝ) (sp : Fin n → Option ℝ)
    (ev : Ev Marginal) : Prop where
  la : LinAlgOK c.la
  point : Pointwise c.expr g
  block : 1 ≤ c.lsopt.blockSize
  para : c.lsopt.ffdpara ≠ 0
  mp : c.lsopt.multiProc ≠ 0
  d1 : c.lsopt.diffMode ≠ "no"
  d2 : c.lsopt.diffMode ≠ "ddm"
  reach : Reachable ev.model
  len : ev.model.marg.length = n
  names : ev.model.getNames ≠ []
  cor : ev.model.correlation = some (NDArray2.eye n)
  sdpos : ∀ i, 0 < sd i
  marg : ∀ i, Normal.new (μ i) (.fin (sd i)) (sp i) = .ok (margN n c.default ev.model i)
  ane : a ≠ 0
  aff : ∀ p : Fin n → ℝ, g (pointArgs ev.model p) = a0 + ∑ i, a i * p i

variable {g : Dict String ℝ → ℝ} {a0 : ℝ} {a μ sd : Fin n → ℝ} {sp : Fin n → Option ℝ} {ev : Ev Marginal}

theorem LinSetting.again (S : LinSetting c n g a0 a μ sd sp ev) {s : Ev Marginal} (hd : SameDefinition s.model ev.model)
    (hr : Reachable s.model) : LinSetting c n g a0 a μ sd sp s where
  la := S.la
  point := S.point
  block := S.block
  para := S.para
  mp := S.mp
  d1 := S.d1
  d2 := S.d2
  reach := hr
  len := by rw [hd.marg, S.len]
  names := by have := S.names; unfold StochModel.getNames at this ⊢; rw [hd.names]; exact this
  cor := by rw [hd.correlation, S.cor]
  sdpos := S.sdpos
  marg := by rw [margN_same hd]; exact S.marg
  ane := S.ane
  aff := fun p => by rw [pointArgs_same hd, S.aff]

theorem LinSetting.sumPos (S : LinSetting c n g a0 a μ sd sp ev) : 0 < ∑ i, (a i * sd i) ^ 2 := by
  obtain ⟨i, hi⟩ : ∃ i, a i ≠ 0 := by
    by_contra h; push Not at h; exact S.ane (funext h)
  have : 0 < (a i * sd i) ^ 2 := by
    have := mul_ne_zero hi (S.sdpos i).ne'
    positivity
  exact lt_of_lt_of_le this (Finset.single_le_sum (f := fun i => (a i * sd i) ^ 2) (fun j _ => sq_nonneg _) (Finset.mem_univ i))

/-- The transformation, and the limit state in standard space. -/
theorem LinSetting.init (S : LinSetting c n g a0 a μ sd sp ev) : ∃ Ro t,
    initRun c n ev = ({ ev with model := ev.model.setModifiedCorrelation Ro }, .ok t) ∧
    Transformation.compute c.la c.ty (1 : Matrix (Fin n) (Fin n) ℝ) = .ok t ∧ t.invT * t.T = 1 ∧ t.T * t.invT = 1 ∧
    (∀ u, a0 + ∑ i, a i * uToX t (margN n c.default ev.model) u i =
      (a0 + ∑ i, a i * μ i) + ∑ i, vecMul (fun i => a i * sd i) t.invT i * u i) ∧
    ∑ i, vecMul (fun i => a i * sd i) t.invT i ^ 2 = ∑ i, (a i * sd i) ^ 2 := by
  obtain ⟨Ro, t, h0, ht⟩ := initRun_eye S.la S.len S.cor
  obtain ⟨t', ht', hfac, hT, hTi⟩ := C22_posdef S.la c.ty (Matrix.PosDef.one (n := Fin n) (R := ℝ))
  rw [ht] at ht'; injection ht' with ht'; subst ht'
  refine ⟨Ro, t, h0, ht, hTi, hT, fun u => ?_, ?_⟩
  · have e1 : ∑ i, vecMul (fun i => a i * sd i) t.invT i * u i = ∑ i, a i * sd i * (t.invT.mulVec u) i := by
      change vecMul (fun i => a i * sd i) t.invT ⬝ᵥ u = (fun i => a i * sd i) ⬝ᵥ (t.invT.mulVec u)
      rw [dotProduct_mulVec]
    rw [e1, add_assoc, ← Finset.sum_add_distrib]
    congr 1
    refine Finset.sum_congr rfl fun i _ => ?_
    simp only [uToX, (normal_ok (S.marg i)).1, Normal.uToX]
    ring
  · have e : vecMul (fun i => a i * sd i) t.invT ⬝ᵥ vecMul (fun i => a i * sd i) t.invT =
        (fun i => a i * sd i) ⬝ᵥ (fun i => a i * sd i) := by
      rw [← dotProduct_mulVec, ← mulVec_transpose, mulVec_mulVec, hfac, one_mulVec]
    simpa only [dotProduct, ← pow_two] using e

/-- FORM. -/
theorem LinSetting.form (S : LinSetting c n g a0 a μ sd sp ev) {o : Form.Options} (ho : GoodForm c o) {ev0 : Ev Marginal} {t : Mats n}
    (h0 : initRun c n ev = (ev0, .ok t)) (ht : Transformation.compute c.la c.ty (1 : Matrix (Fin n) (Fin n) ℝ) = .ok t) :
    ∃ r ev1, formRun c n o ev = some (ev1, .inl r) ∧ SameDefinition ev1.model ev.model ∧ Reachable ev1.model ∧
      r.beta = linearIndex a0 a μ sd ∧ r.Pf = linearPf a0 a μ sd ∧
      r.alpha = Form.alpha (vecMul (fun i => a i * sd i) t.invT) := by
  obtain ⟨Ro, t', h0', ht', hTi, hT, hu, hsum⟩ := S.init
  rw [ht] at ht'; injection ht' with ht'; subst ht'
  rw [h0] at h0'
  simp only [Prod.mk.injEq, and_true] at h0'
  have hd0 : SameDefinition ev0.model ev.model := by rw [h0']; exact ⟨rfl, rfl, rfl, rfl, rfl⟩
  have hr0 : Reachable ev0.model := by rw [h0']; exact reachable_setRo S.reach _
  have S0 := S.again hd0 hr0
  have hβ : (a0 + ∑ i, a i * μ i) / √(∑ i, ∑ j, a i * sd i * (1 : Matrix (Fin n) (Fin n) ℝ) i j * (a j * sd j)) =
      linearIndex a0 a μ sd := by
    unfold linearIndex
    congr 2
    refine Finset.sum_congr rfl fun i _ => ?_
    rw [Finset.sum_eq_single i (fun j _ h => by simp [Matrix.one_apply_ne h.symm]) (by simp)]
    simp [pow_two]
  have hp : (stdGauss n).real {u | g (pointArgs ev0.model (uToX t (margN n c.default ev.model) u)) ≤ 0} = linearPf a0 a μ sd := by
    simp only [S0.aff, hu]
    rw [halfspace_prob _ (by rw [hsum]; exact S.sumPos), hsum, linearPf_eq _ _ _ _ S.sumPos]
    rfl
  obtain ⟨r, ev1, r1, r2, r3, r7⟩ : ∃ r ev1, Form.runFrom t (margN n c.default ev.model)
      (lsEvaluator c.expr c.lsopt (fun i => (margN n c.default ev.model i).stdv)) o c.fuel ev0 = some (.done r ev1) ∧
      r.beta = linearIndex a0 a μ sd ∧ r.Pf = linearPf a0 a μ sd ∧
      r.alpha = Form.alpha (vecMul (fun i => a i * sd i) t.invT) := by
    rcases ho.rule with ⟨hst, he, hi⟩ | ⟨hst, hmp, he, hi⟩
    · obtain ⟨r, ev1, r1, r2, r3, r4, r5, r6, r7⟩ := C30_ffd S.la (Matrix.PosDef.one (n := Fin n) (R := ℝ)) ht S.sdpos S.marg
        S.point c.lsopt S.block S.para S.mp S.d1 S.d2 ev0 hr0 S0.len.le S0.names a0 a S.ane S0.aff o hst ho.e1 he ho.e2 hi
        c.fuel ho.fuel
      exact ⟨r, ev1, r1, by rw [r2, hβ], by rw [r3, hp], r7⟩
    · obtain ⟨r, ev1, r1, r2, r3, r4, r5, r6, r7⟩ := C30_default S.la (Matrix.PosDef.one (n := Fin n) (R := ℝ)) ht S.sdpos S.marg
        S.point c.lsopt S.block S.para S.mp S.d1 S.d2 ev0 hr0 S0.len.le S0.names a0 a S.ane S0.aff o hst hmp ho.e1 he ho.e2 hi
        c.fuel ho.fuel
      exact ⟨r, ev1, r1, by rw [r2, hβ], by rw [r3, hp], r7⟩
  have hF : formRun c n o ev = some (ev1, .inl r) := by
    unfold formRun withInit
    rw [h0]
    dsimp only
    rw [margN_same hd0, evaluator_same hd0]
    unfold evaluator
    rw [r1]
  obtain ⟨-, -, -, -, j, T, hS⟩ := formRun_done hF
  exact ⟨r, ev1, hF, hS.definition, hS.reachable S.reach, r2, r3, r7⟩

/-- The failure set is measurable, and has the exact probability. -/
theorem LinSetting.prob (S : LinSetting c n g a0 a μ sd sp ev) {ev0 : Ev Marginal} {t : Mats n} (h0 : initRun c n ev = (ev0, .ok t)) :
    MeasurableSet {u : Fin n → ℝ | g (pointArgs ev.model (uToX t (margN n c.default ev.model) u)) < 0} ∧
    (stdGauss n).real {u | g (pointArgs ev.model (uToX t (margN n c.default ev.model) u)) < 0} = linearPf a0 a μ sd := by
  obtain ⟨Ro, t', h0', ht, hTi, hT, hu, hsum⟩ := S.init
  rw [h0] at h0'
  simp only [Prod.mk.injEq, Except.ok.injEq] at h0'
  obtain ⟨-, rfl⟩ := h0'
  simp only [S.aff, hu]
  refine ⟨(show Measurable (fun u : Fin n → ℝ => (a0 + ∑ i, a i * μ i) + ∑ i, vecMul (fun i => a i * sd i) t.invT i * u i) by
    fun_prop) measurableSet_Iio, ?_⟩
  rw [halfspace_lt _ (by rw [hsum]; exact S.sumPos), hsum, linearPf_eq _ _ _ _ S.sumPos]
  rfl

section jobs

variable {g g' : Dict String ℝ → ℝ} {a0 a0' : ℝ} {a μ sd : Fin (m + 1) → ℝ} {sp : Fin (m + 1) → Option ℝ} {ev ev' : Ev Marginal}
  {a' μ' sd' : Fin n → ℝ} {sp' : Fin n → Option ℝ}

theorem LinSetting.lineJob (S : LinSetting c (m + 1) g a0 a μ sd sp ev) {fo : Form.Options} (ho : GoodForm c fo) {N : ℕ} (hN : 1 ≤ N)
    (ω : ℕ → ℝ) : ∃ ev' o, runJob (m := m) c (.line fo N ω) ev = some (ev', o) ∧
      Agrees (m := m) (linearIndex a0 a μ sd) (linearPf a0 a μ sd) (fun _ => 0) (.line fo N) ω o := by
  obtain ⟨Ro, t, h0, ht, hTi, hT, hu, hsum⟩ := S.init
  obtain ⟨ev0, he0⟩ : ∃ ev0 : Ev Marginal, ev0 = { ev with model := ev.model.setModifiedCorrelation Ro } := ⟨_, rfl⟩
  rw [← he0] at h0
  have hd0 : SameDefinition ev0.model ev.model := by rw [he0]; exact ⟨rfl, rfl, rfl, rfl, rfl⟩
  have hr0 : Reachable ev0.model := by rw [he0]; exact reachable_setRo S.reach _
  have S0 := S.again hd0 hr0
  obtain ⟨Ro', h0'⟩ := initRun_again h0 hd0
  obtain ⟨r, ev1, hF, hd1, hr1, hb, hP, hal⟩ := S0.form ho h0' ht
  have hd1' : SameDefinition ev1.model ev.model := hd1.trans hd0
  have S1 := S.again hd1' hr1
  have hval : Values (lsEvaluator c.expr c.lsopt (fun i => (margN (m + 1) c.default ev.model i).stdv))
      (fun e : Ev Marginal => ∃ k, e.model = ev1.model.addCallFunction k) (fun x => a0 + ∑ i, a i * x i) := by
    have := ls_values (n := m + 1) S.point c.lsopt S.block S.mp (fun i => (margN (m + 1) c.default ev.model i).stdv) ev1.model hr1
      S1.len.le S1.names
    simpa only [S1.aff] using this
  have hw : 0 < ∑ i, vecMul (fun i => a i * sd i) t.invT i ^ 2 := by rw [hsum]; exact S.sumPos
  have hdist : (a0 + ∑ i, a i * μ i) / √(∑ i, vecMul (fun i => a i * sd i) t.invT i ^ 2) = linearIndex a0 a μ sd := by
    rw [hsum]; rfl
  have halpha : r.alpha = fun i => -(vecMul (fun i => a i * sd i) t.invT i / √(∑ i, vecMul (fun i => a i * sd i) t.invT i ^ 2)) := by
    rw [hal]; funext i; simp only [Form.alpha, norm2, div_eq_mul_inv, neg_mul]
  have hin : |(a0 + ∑ i, a i * μ i) / √(∑ i, vecMul (fun i => a i * sd i) t.invT i ^ 2)| ≤ max (|r.beta| * 3 + 5) 15 := by
    rw [hdist, hb]
    exact le_max_of_le_left (by nlinarith [abs_nonneg (linearIndex a0 a μ sd)])
  obtain ⟨b, hc, hcl, -, hcb, hcov, hcP⟩ := C45_affine (t := t) (marg := margN (m + 1) c.default ev.model)
    (pointValues_of_values hval) hu hw r.beta hin hN ω 0 ev1 ⟨0, rfl⟩
  rw [hdist] at hcl
  rw [← halpha] at hc hcb hcov hcP
  have hprob : (stdGauss (m + 1)).real {u | a0 + ∑ i, a i * uToX t (margN (m + 1) c.default ev.model) u i ≤ 0} = linearPf a0 a μ sd := by
    simp only [hu]
    rw [halfspace_prob _ hw, hsum, linearPf_eq _ _ _ _ S.sumPos]
    rfl
  rw [hprob] at hcP
  rw [hb] at hcl
  have htol : (1e-6 : ℝ) + 4 * (1 / 2) ^ 52 * max (|r.beta| * 3 + 5) 15 = lineTol (linearIndex a0 a μ sd) := by rw [hb]; rfl
  rw [htol] at hcP
  refine ⟨(LineSampling.sample t (margN (m + 1) c.default ev.model)
    (lsEvaluator c.expr c.lsopt fun i => (margN (m + 1) c.default ev.model i).stdv) r.alpha r.beta N ω 0 ev1).1, _, ?_, _, b, rfl,
    ?_, hcl, hc, hcov, hcP⟩
  · unfold runJob withInit
    dsimp only
    rw [h0]
    dsimp only
    rw [hF]
    dsimp only
    rw [margN_same hd1', evaluator_same hd1']
    rfl
  · exact hcb

theorem LinSetting.gives (S : LinSetting c n g' a0' a' μ' sd' sp' ev') {t : Mats n} (hTi : t.invT * t.T = 1) :
    Gives t (margN n c.default ev'.model) (evaluator c n ev'.model) (fun e : Ev Marginal => ∃ k, e.model = ev'.model.addCallFunction k)
      (fun u => a0' + ∑ i, a' i * uToX t (margN n c.default ev'.model) u i) (fun _ => vecMul (fun i => a' i * sd' i) t.invT) := by
  have hs : ∀ j, (margN n c.default ev'.model j).stdv ≠ 0 := fun j => by
    rw [(normal_ok (S.marg j)).2.2.2.2.1]; exact (S.sdpos j).ne'
  have hex := ffd_exact S.point c.lsopt S.block S.para S.mp S.d1 S.d2 (fun i => (margN n c.default ev'.model i).stdv) hs ev'.model
    S.reach S.len.le S.names a0' a' S.aff
  intro s hs u
  obtain ⟨s', x0, h1, h2⟩ := hex s hs (uToX t (margN n c.default ev'.model) u)
  refine ⟨s', ?_, h2⟩
  unfold Sorm.evaluateLSF evaluator
  rw [h1]
  dsimp only
  rw [normal_jacobian_inv hTi S.sdpos S.marg]
  refine Prod.ext rfl (congrArg Except.ok (Prod.ext rfl ?_))
  dsimp only
  rw [← vecMul_vecMul]
  congr 1
  funext i
  rw [vecMul_diagonal]

theorem sort_zero (k : ℕ) : Sorm.sort (List.ofFn fun _ : Fin k => (0 : ℝ)) = List.replicate k 0 := by
  rw [List.ofFn_const]
  unfold Sorm.sort
  refine List.Perm.eq_of_pairwise' (List.pairwise_insertionSort (· ≤ ·) _) ?_ (List.perm_insertionSort _ _)
  exact List.pairwise_replicate.2 (Or.inr le_rfl)

theorem LinSetting.sormJob (S : LinSetting c (m + 1) g a0 a μ sd sp ev) {fo : Form.Options} {p : ℝ} {fit : String}
    (h : Plan.Good c a0 a μ sd (.sorm fo p fit)) (ω : ℕ → ℝ) : ∃ ev' o, runJob (m := m) c (.sorm fo p fit) ev = some (ev', o) ∧
      Agrees (m := m) (linearIndex a0 a μ sd) (linearPf a0 a μ sd) (fun _ => 0) (.sorm fo p fit) ω o := by
  obtain ⟨ho, hm, hty, hlast, hfit⟩ := h
  obtain ⟨Ro, t, h0, ht, hTi, hT, hu, hsum⟩ := S.init
  obtain ⟨r, ev1, hF, hd1, hr1, hb, hP, hal⟩ := S.form ho h0 ht
  obtain ⟨Ro', h0'⟩ := initRun_again h0 hd1
  obtain ⟨ev2, he2⟩ : ∃ ev2 : Ev Marginal, ev2 = { ev1 with model := ev1.model.setModifiedCorrelation Ro' } := ⟨_, rfl⟩
  rw [← he2] at h0'
  have hd2 : SameDefinition ev2.model ev.model := by
    rw [he2]; exact ⟨hd1.vars, hd1.names, hd1.marg, hd1.correlation, hd1.consts⟩
  have hr2 : Reachable ev2.model := by rw [he2]; exact reachable_setRo hr1 _
  have S2 := S.again hd2 hr2
  have hgiv := S2.gives hTi
  have ht1 : t = ⟨1, 1⟩ := by
    rw [hty, compute_one S.la] at ht
    injection ht with ht
    exact ht.symm
  have hwv : vecMul (fun i => a i * sd i) t.invT = fun i => a i * sd i := by rw [ht1]; simp
  have hpos := S.sumPos
  have hsq : 0 < √(∑ i, (a i * sd i) ^ 2) := Real.sqrt_pos.2 hpos
  have halpha : r.alpha = fun i => -(a i * sd i / √(∑ i, (a i * sd i) ^ 2)) := by
    rw [hal, hwv]; funext i; simp only [Form.alpha, norm2, div_eq_mul_inv, neg_mul]
  have hw0 : vecMul (fun i => a i * sd i) t.invT ≠ 0 := by
    intro h0
    rw [hwv] at h0
    simp [funext_iff] at h0
    rw [Finset.sum_eq_zero (fun i _ => by rcases h0 i with h | h <;> simp [h])] at hpos
    exact lt_irrefl _ hpos
  have haa : r.alpha ⬝ᵥ r.alpha = 1 := by rw [hal]; exact alpha_unit hw0
  have hl : 1e-8 < |r.alpha (Fin.last m)| := by
    rw [halpha]
    simp only [abs_neg, abs_div, abs_of_pos hsq]
    rw [lt_div_iff₀ hsq]
    exact hlast
  have hrun : ∀ s' res, Sorm.run (c.eig m) t (margN (m + 1) c.default ev2.model) (evaluator c (m + 1) ev2.model) r p false fit ev2 =
      (s', .ok res) → runJob (m := m) c (.sorm fo p fit) ev = some (s', .sorm res) := by
    intro s' res h
    unfold runJob
    dsimp only
    rw [hF]
    dsimp only
    unfold withInit
    rw [h0']
    dsimp only
    rw [h]
  obtain ⟨f1, f2, f3, f4, f5⟩ := C46_flat r.beta m
  rw [hb, ← linearPf_eq _ _ _ _ hpos] at f1 f2
  rcases hfit with ⟨rfl, hp, heig⟩ | ⟨rfl, hb0, hn0⟩
  · obtain ⟨s', hH, -⟩ := hessian_affine (b := vecMul (fun i => a i * sd i) t.invT) (K := 0)
      (by simpa only [zero_mulVec, add_zero] using hgiv) r hp ev2 (⟨0, rfl⟩ : ∃ k, ev2.model = ev2.model.addCallFunction k)
    obtain ⟨R, hRot⟩ := (C47_defined r.alpha haa).2.1 hm hl
    obtain ⟨hR, hR', hRl, -⟩ := C47_rotation haa hRot
    have hz : Sorm.sort (c.eig m (((norm2 r.point.gradient)⁻¹ • (R * 0 * Rᵀ)).submatrix Fin.castSucc Fin.castSucc)) =
        List.replicate m 0 := by
      have := curvatures heig hR hR' hR hR' rfl (fun _ => 0) one_ne_zero
      rw [sort_zero] at this
      rw [← this]
      congr 2
      have hsn : (Fin.snoc (fun _ => 0) 0 : Fin (m + 1) → ℝ) = 0 := by
        funext i
        refine Fin.lastCases ?_ (fun i => ?_) i
        · simp
        · simp
      rw [hsn]
      simp
    refine ⟨s', _, hrun s' ⟨r.beta, List.replicate m 0, none, Sorm.pfBreitung r.beta (List.replicate m 0),
      Sorm.pfBreitungM r.beta (List.replicate m 0)⟩ ?_, _, rfl, hb, rfl, ?_, ?_, ?_⟩
    · unfold Sorm.run
      rw [if_pos rfl, Sorm.runCurvefit_eq, hH]
      dsimp only
      rw [hRot]
      dsimp only
      rw [hz]
      rfl
    · dsimp only; rw [hb]; exact f2.1
    · dsimp only; rw [hb]; exact f2.2
    · dsimp only; rw [hb]; exact f1
  · have hpl : ∀ u, a0 + ∑ i, a i * uToX t (margN (m + 1) c.default ev2.model) u i =
        √(∑ i, (a i * sd i) ^ 2) * (r.beta - r.alpha ⬝ᵥ u) := by
      intro u
      rw [margN_same hd2, hu, hwv, hb, linearIndex, mul_sub, mul_div_cancel₀ _ hsq.ne', halpha]
      simp only [dotProduct]
      rw [sub_eq_add_neg, Finset.mul_sum, ← Finset.sum_neg_distrib]
      congr 1
      refine Finset.sum_congr rfl fun i _ => ?_
      have key : ∀ q x y : ℝ, q ≠ 0 → x * y = -(q * (-(x / q) * y)) := by intro q x y hq; field_simp
      exact key _ _ _ hsq.ne'
    have hder : ∀ u : Fin (m + 1) → ℝ, HasFDerivAt (fun u => a0 + ∑ i, a i * uToX t (margN (m + 1) c.default ev2.model) u i)
        (gradMap (vecMul (fun i => a i * sd i) t.invT)) u := by
      intro u
      rw [margN_same hd2]
      simp only [hu]
      have hq := quad_hasFDerivAt (a0 + ∑ i, a i * μ i) (vecMul (fun i => a i * sd i) t.invT) (K := 0) (by simp [IsSymm]) u
      simp only [zero_mulVec, add_zero] at hq
      convert hq using 1
      funext v
      simp [quad, dotProduct]
    obtain ⟨s', res, k1, k2, k3, k4, k5, k6, k7, k8⟩ := C49_plane hgiv hder haa hm hl hn0 (by
      rw [hb, linearIndex]; exact div_ne_zero hb0 hsq.ne') hpl false ev2 ⟨0, rfl⟩
    rw [hb] at k4 k5 k6 k7 k8
    rw [← linearPf_eq _ _ _ _ hpos] at k5 k7
    refine ⟨s', _, hrun s' res ?_, _, rfl, k4, k2, k7, k8, fun _ => ⟨k5, k6⟩⟩
    unfold Sorm.run
    rw [if_neg (by simp), if_pos rfl]
    exact k1

/-- One analysis. -/
theorem LinSetting.job (S : LinSetting c (m + 1) g a0 a μ sd sp ev) (plan : Plan (m + 1)) (h : plan.Good c a0 a μ sd) :
    ∃ est : (ℕ → ℝ) → ℝ, (plan.Random → Integrable est stream ∧ ∫ ω, est ω ∂stream = linearPf a0 a μ sd) ∧
      ∀ ω, ∃ ev' o, runJob c (plan.job ω) ev = some (ev', o) ∧
        Agrees (linearIndex a0 a μ sd) (linearPf a0 a μ sd) est plan ω o := by
  obtain ⟨Ro, t, h0, ht, -, -, -, -⟩ := S.init
  obtain ⟨hA, hprob⟩ := S.prob h0
  cases plan with
  | form o =>
    obtain ⟨r, ev1, hF, -, -, hb, hP, -⟩ := S.form h h0 ht
    refine ⟨fun _ => 0, fun h => h.elim, fun ω => ⟨ev1, .form r, ?_, r, rfl, hb, hP⟩⟩
    unfold Plan.job runJob
    dsimp only
    rw [hF]
  | crude o point =>
    obtain ⟨ev0, he0⟩ : ∃ ev0 : Ev Marginal, ev0 = { ev with model := ev.model.setModifiedCorrelation Ro } := ⟨_, rfl⟩
    rw [← he0] at h0
    have hd0 : SameDefinition ev0.model ev.model := by rw [he0]; exact ⟨rfl, rfl, rfl, rfl, rfl⟩
    have S0 := S.again hd0 (by rw [he0]; exact reachable_setRo S.reach _)
    have hv := ls_values (n := m + 1) S.point c.lsopt S.block S.mp (fun i => (margN (m + 1) c.default ev.model i).stdv) ev0.model
      S0.reach S0.len.le S0.names
    have hfe : (fun x : Fin (m + 1) → ℝ => g (pointArgs ev0.model x)) = fun x => g (pointArgs ev.model x) :=
      funext fun x => by rw [pointArgs_same hd0]
    rw [hfe] at hv
    obtain ⟨Pf, hPf, hint, hE⟩ := C38_unbiased (t := t) (marg := margN (m + 1) c.default ev.model) hv hA h.generator h.block
      h.samples h.stdv h.cov point 0 c.fuel h.fuel ev0 ⟨0, rfl⟩
    refine ⟨Pf, fun _ => ⟨hint, by rw [hE, hprob]⟩, fun ω => ?_⟩
    obtain ⟨r, h1, -, h2⟩ := hPf ω
    refine ⟨r.st.s, _, ?_, r.forget, rfl, h2⟩
    · unfold Plan.job runJob withInit
      dsimp only
      rw [h0]
      dsimp only
      rw [margN_same hd0, evaluator_same hd0]
      unfold evaluator
      rw [h1]
      rfl
  | importance fo o =>
    obtain ⟨hfo, hso⟩ := h
    obtain ⟨r, ev1, hF, hd1, hr1, -, -, -⟩ := S.form hfo h0 ht
    obtain ⟨u1, Pf, u2, u3, u4⟩ := C71_unbiased S.point S.block S.mp S.len S.names hF h0 hd1 hr1 hA hso.generator hso.block
      hso.samples hso.stdv hso.cov hso.fuel .fresh false
    refine ⟨Pf, fun _ => ⟨u3, by rw [u4, hprob]⟩, fun ω => ?_⟩
    obtain ⟨s', res, v1, -, v2⟩ := u2 ω
    refine ⟨s', .simulation res, ?_, res, rfl, v2⟩
    unfold Plan.job runJob
    dsimp only
    rw [u1]
    dsimp only
    rw [v1]
    rfl
  | line fo N => exact ⟨fun _ => 0, fun h => h.elim, fun ω => S.lineJob h.1 h.2 ω⟩
  | sorm fo p fit => exact ⟨fun _ => 0, fun h => h.elim, fun ω => S.sormJob h ω⟩

/-- C102: a linear problem, end to end.  The user creates a model, adds any number of normal variables (distinct names, any means,
positive standard deviations, any starting points), writes a vectorised function `a0 + Σ aᵢ Xᵢ` of them, not constant, and runs any
number of analyses on it, in any order, with any draws: FORM with full steps or with the default step rule, SORM with either fit,
line sampling, crude Monte Carlo about any point, importance sampling.  Every analysis finishes, and they all agree with the
exact probability `P(a0 + Σ aᵢ Xᵢ < 0)`: FORM and SORM report it exactly, and the exact index; line sampling reports it to the
tolerance of its root finder, with zero coefficient of variation, whatever the draws; and the expectation of what a simulation
reports is the exact probability. -/
theorem C102_agree (hla : LinAlgOK c.la) (hbs : 1 ≤ c.lsopt.blockSize) (hpara : c.lsopt.ffdpara ≠ 0) (hmp : c.lsopt.multiProc ≠ 0)
    (hd1 : c.lsopt.diffMode ≠ "no") (hd2 : c.lsopt.diffMode ≠ "ddm")
    {name : Fin (m + 1) → String} (hname : Function.Injective name) {μ sd : Fin (m + 1) → ℝ} {sp : Fin (m + 1) → Option ℝ}
    (hsd : ∀ i, 0 < sd i) {marg : Fin (m + 1) → Marginal} (hm : ∀ i, Normal.new (μ i) (.fin (sd i)) (sp i) = .ok (marg i))
    {a0 : ℝ} {a : Fin (m + 1) → ℝ} (ha : a ≠ 0) (hp : Pointwise c.expr (linearOf name a0 a)) :
    ∃ est : Plan (m + 1) → (ℕ → ℝ) → ℝ,
      (∀ plan, plan.Good c a0 a μ sd → plan.Random →
        Integrable (est plan) stream ∧ ∫ ω, est plan ω ∂stream = linearPf a0 a μ sd) ∧
      ∀ work : List (Plan (m + 1) × (ℕ → ℝ)), (∀ w ∈ work, w.1.Good c a0 a μ sd) →
        ∃ ev' outs, session c (work.map fun w => w.1.job w.2) ⟨normalModel name marg, []⟩ = some (ev', outs) ∧
          List.Forall₂ (fun w o => Agrees (linearIndex a0 a μ sd) (linearPf a0 a μ sd) (est w.1) w.1 w.2 o) work outs := by
  obtain ⟨q1, q2, q3, q4, q5⟩ := normalModel_spec hname marg (Nat.succ_pos m)
  have S : LinSetting c (m + 1) (linearOf name a0 a) a0 a μ sd sp ⟨normalModel name marg, []⟩ :=
    { la := hla, point := hp, block := hbs, para := hpara, mp := hmp, d1 := hd1, d2 := hd2, reach := q1
      len := by rw [q3]; simp
      names := by unfold StochModel.getNames; rw [q2]; simp
      cor := q5, sdpos := hsd
      marg := fun i => by
        rw [hm i]
        unfold margN
        dsimp only
        rw [q3, List.map_ofFn, List.getD_eq_getElem _ _ (by simp; omega), List.getElem_ofFn]
        rfl
      ane := ha
      aff := fun p => linearOf_point hname marg (Nat.succ_pos m) a0 a p }
  have hall : ∀ plan : Plan (m + 1), ∃ est : (ℕ → ℝ) → ℝ, plan.Good c a0 a μ sd →
      (plan.Random → Integrable est stream ∧ ∫ ω, est ω ∂stream = linearPf a0 a μ sd) ∧
      ∀ ω, ∃ ev' o, runJob c (plan.job ω) ⟨normalModel name marg, []⟩ = some (ev', o) ∧
        Agrees (linearIndex a0 a μ sd) (linearPf a0 a μ sd) est plan ω o := by
    intro plan
    by_cases h : plan.Good c a0 a μ sd
    · obtain ⟨est, h1⟩ := S.job plan h
      exact ⟨est, fun _ => h1⟩
    · exact ⟨fun _ => 0, fun h' => absurd h' h⟩
  choose est hest using hall
  refine ⟨est, fun plan h => (hest plan h).1, fun work hw => ?_⟩
  have hends : (session c (work.map fun w => w.1.job w.2) ⟨normalModel name marg, []⟩).isSome := by
    rw [C70_terminates]
    intro job hj
    obtain ⟨w, hw', rfl⟩ := List.mem_map.1 hj
    obtain ⟨ev', o, h1, -⟩ := (hest w.1 (hw w hw')).2 w.2
    rw [h1]; rfl
  obtain ⟨⟨ev', outs⟩, hs⟩ := Option.isSome_iff_exists.1 hends
  obtain ⟨runs, e1, e2, -⟩ := C70_session _ hs
  refine ⟨ev', outs, hs, ?_⟩
  rw [e2]
  clear hs hends e2
  induction work generalizing runs with
  | nil =>
    cases runs with
    | nil => exact List.Forall₂.nil
    | cons _ _ => simp at e1
  | cons w work ih =>
    cases runs with
    | nil => simp at e1
    | cons x runs =>
      simp only [List.map_cons, List.cons.injEq] at e1
      obtain ⟨ev1, o, h1, h2⟩ := (hest w.1 (hw w (by simp))).2 w.2
      rw [h1] at e1
      obtain ⟨e3, e4⟩ := e1
      injection e3 with e3
      subst e3
      exact List.Forall₂.cons h2 (ih (fun w h => hw w (by simp [h])) runs e4)

/-- The exact probability is that of the reliability index. -/
theorem C102_index (a0 : ℝ) {a μ sd : Fin n → ℝ} (ha : a ≠ 0) (hsd : ∀ i, 0 < sd i) :
    linearPf a0 a μ sd = StdNormal.cdf (-linearIndex a0 a μ sd) := by
  apply linearPf_eq
  obtain ⟨i, hi⟩ : ∃ i, a i ≠ 0 := by
    by_contra h; push Not at h; exact ha (funext h)
  have : 0 < (a i * sd i) ^ 2 := by
    have := mul_ne_zero hi (hsd i).ne'
    positivity
  exact lt_of_lt_of_le this (Finset.single_le_sum (f := fun i => (a i * sd i) ^ 2) (fun j _ => sq_nonneg _) (Finset.mem_univ i))

end jobs

/-- A concrete case: three variables, `g = R - S - 2T`, every kind of analysis with the library's default options where it has
them. -/
example {la : LinAlg} (hla : LinAlgOK la) {eig : (k : ℕ) → Matrix (Fin k) (Fin k) ℝ → List ℝ} (heig : EigOK (eig 2)) :
    ∃ (c : Setup) (marg : Fin 3 → Marginal), c.la = la ∧ c.eig = eig ∧
      ∀ ω : ℕ → ℝ, let work : List (Plan 3 × (ℕ → ℝ)) := [(.form ⟨100, 0.001, 0.001, 0, 1⟩, ω),
          (.line ⟨100, 0.001, 0.001, 0, 1⟩ 100, ω), (.sorm ⟨100, 0.001, 0.001, 0, 1⟩ 1000 "cf", ω),
          (.sorm ⟨100, 0.001, 0.001, 0, 1⟩ 1000 "pf", ω), (.crude ⟨1000, 100, 1, 0, 0⟩ none, ω),
          (.importance ⟨100, 0.001, 0.001, 1, 1⟩ ⟨1000, 100, 1, 0, 0⟩, ω)]
        ∃ ev' outs, session (m := 2) c (work.map fun w => w.1.job w.2) ⟨normalModel !["R", "S", "T"] marg, []⟩ = some (ev', outs) ∧
        List.Forall₂ (fun w o => ∃ est, Agrees (m := 2) (3 / 3) (StdNormal.cdf (-(3 / 3))) est w.1 w.2 o) work outs := by
  have hm : ∀ i : Fin 3, ∃ mm, Normal.new (![10, 3, 2] i) (.fin (![2, 1, 1] i : ℝ)) none = .ok mm := fun i => ⟨_, rfl⟩
  choose marg hmarg using hm
  obtain ⟨c, hc⟩ : ∃ c : Setup, c = ⟨fun _ x => x, marg 0, la, eig, .cholesky,
    vectorised (linearOf !["R", "S", "T"] 0 ![1, -1, -2]), ⟨"ffd", 1, 1000, 1000⟩, 1000⟩ := ⟨_, rfl⟩
  have hnd : Function.Injective !["R", "S", "T"] := by
    intro i j h
    fin_cases i <;> fin_cases j <;> simp_all
  have hsd : ∀ i : Fin 3, (0 : ℝ) < ![2, 1, 1] i := fun i => by fin_cases i <;> simp
  obtain ⟨est, -, h⟩ := C102_agree (c := c) (m := 2) (by rw [hc]; exact hla) (by rw [hc]; norm_num) (by rw [hc]; norm_num)
    (by rw [hc]; norm_num) (by rw [hc]; simp) (by rw [hc]; simp) hnd hsd hmarg (a0 := 0) (a := ![1, -1, -2])
    (by intro h; simpa using congrFun h 0) (by rw [hc]; exact vectorised_pointwise _)
  have hsum : ∑ i : Fin 3, ((![1, -1, -2] : Fin 3 → ℝ) i * (![2, 1, 1] : Fin 3 → ℝ) i) ^ 2 = 3 ^ 2 := by
    simp [Fin.sum_univ_three]; norm_num
  have hmean : (0 : ℝ) + ∑ i : Fin 3, (![1, -1, -2] : Fin 3 → ℝ) i * (![10, 3, 2] : Fin 3 → ℝ) i = 3 := by
    simp [Fin.sum_univ_three]; norm_num
  have hβ : linearIndex 0 ![1, -1, -2] ![10, 3, 2] ![2, 1, 1] = 3 / 3 := by
    unfold linearIndex
    rw [hsum, hmean, Real.sqrt_sq (by norm_num)]
  rw [C102_index 0 (by intro h; simpa using congrFun h 0) hsd, hβ] at h
  have hF : ∀ st : ℝ, st = 0 ∨ st = 1 → GoodForm c ⟨100, 0.001, 0.001, st, 1⟩ := by
    rintro st (rfl | rfl)
    · exact ⟨by norm_num, by norm_num, by rw [hc]; norm_num, Or.inr ⟨rfl, rfl, by norm_num, by norm_num⟩⟩
    · exact ⟨by norm_num, by norm_num, by rw [hc]; norm_num, Or.inl ⟨rfl, by norm_num, by norm_num⟩⟩
  have hS : GoodSim c ⟨1000, 100, 1, 0, 0⟩ := ⟨rfl, by norm_num, by norm_num, by norm_num, le_rfl, by rw [hc]⟩
  have hlast : 1e-8 * √(∑ i : Fin 3, ((![1, -1, -2] : Fin 3 → ℝ) i * (![2, 1, 1] : Fin 3 → ℝ) i) ^ 2) <
      |(![1, -1, -2] : Fin 3 → ℝ) (Fin.last 2) * (![2, 1, 1] : Fin 3 → ℝ) (Fin.last 2)| := by
    rw [hsum, Real.sqrt_sq (by norm_num)]
    have : (Fin.last 2) = (2 : Fin 3) := rfl
    rw [this]
    simp
    norm_num
  have hcf : (Plan.sorm ⟨100, 0.001, 0.001, 0, 1⟩ 1000 "cf" : Plan 3).Good (m := 2) c 0 ![1, -1, -2] ![10, 3, 2] ![2, 1, 1] :=
    ⟨hF 0 (Or.inl rfl), by norm_num, by rw [hc], hlast, Or.inl ⟨rfl, by norm_num, by rw [hc]; exact heig⟩⟩
  have hpf : (Plan.sorm ⟨100, 0.001, 0.001, 0, 1⟩ 1000 "pf" : Plan 3).Good (m := 2) c 0 ![1, -1, -2] ![10, 3, 2] ![2, 1, 1] :=
    ⟨hF 0 (Or.inl rfl), by norm_num, by rw [hc], hlast,
      Or.inr ⟨rfl, by rw [hmean]; norm_num, by rw [hsum, Real.sqrt_sq (by norm_num)]; norm_num⟩⟩
  refine ⟨c, marg, by rw [hc], by rw [hc], fun ω => ?_⟩
  intro work
  obtain ⟨ev', outs, h1, h2⟩ := h work (by
      intro w hw
      simp only [work, List.mem_cons, List.not_mem_nil, or_false] at hw
      rcases hw with rfl | rfl | rfl | rfl | rfl | rfl
      · exact hF 0 (Or.inl rfl)
      · exact ⟨hF 0 (Or.inl rfl), by norm_num⟩
      · exact hcf
      · exact hpf
      · exact hS
      · exact ⟨hF 1 (Or.inr rfl), hS⟩)
  exact ⟨ev', outs, h1, h2.imp fun w o h => ⟨_, h⟩⟩

end Pystra.Props
