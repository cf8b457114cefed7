import Verif.Lemmas.ModelMap
import Verif.Model.SensitivityObject
import Verif.Props.SensNormal
import Verif.Props.SensitivityFD
import Verif.Props.FormArmijo
import Verif.Props.Correlation

/-! C52 for affine limit states in independent normal variables, default options. -/

namespace Pystra.Props
open Spec Matrix Transformation Form Sensitivity StochModel SensObj Filter Topology

variable {n : ℕ} {D : Type}

/-- Without correlation the modified correlation matrix is the identity, whatever the optimiser does. -/
theorem setModified_eye (fmin : Correlation.Fmin) (d : Marginal) {m : StochModel Marginal ℝ} (hn : m.marg.length = n)
    (hc : m.correlation = some (NDArray2.eye n)) :
    Correlation.setModified fmin d m = ({ m with Ro := some ⟨n, n, 1⟩ }, .ok ()) := by
  have hc : m.correlation = some ⟨n, n, 1⟩ := hc
  have e : Correlation.compute fmin d m = .ok ⟨n, n, 1⟩ := by
    obtain ⟨A, hA, -⟩ := C25_entries fmin (fun i => (m.marg.map DistObj.body).getD i d) (1 : Matrix (Fin n) (Fin n) ℝ)
    have h1 := (C25_zero fmin _ _ _ hA).2 (fun i j hij => one_apply_ne hij.ne')
    unfold Correlation.compute getCorrelation
    rw [hc]
    simp only [dif_pos]
    rw [hn]
    have e : (fun a b => (1 : Matrix (Fin n) (Fin n) ℝ) a (Fin.cast (rfl : n = n).symm b)) = (1 : Matrix (Fin n) (Fin n) ℝ) := rfl
    rw [e, hA, h1]
  unfold Correlation.setModified
  rw [e]
  rfl

theorem affine_denominator (a sd : Fin n → ℝ) :
    ∑ i, ∑ j, a i * sd i * (1 : Matrix (Fin n) (Fin n) ℝ) i j * (a j * sd j) = ∑ i, (a i * sd i) ^ 2 := by
  refine Finset.sum_congr rfl fun i _ => ?_
  rw [Finset.sum_eq_single i]
  · simp; ring
  · intro j _ hj; rw [one_apply_ne hj.symm]; ring
  · simp

/-- The model the user built: normal variables without correlation, possibly constants. -/
structure NormalModel (m : StochModel Dist ℝ) (names : Fin n → String) (μ sd : Fin n → ℝ) (sp : Fin n → Option ℝ) : Prop where
  /-- built by the model's methods -/
  built : Reachable m
  /-- the variables -/
  vars : ∃ marg : Fin n → Marginal, (∀ i, Normal.new (μ i) (.fin (sd i)) (sp i) = .ok (marg i)) ∧
    m.marg = List.ofFn fun i => ⟨names i, normalDist (marg i)⟩
  /-- no correlation -/
  independent : m.correlation = some (NDArray2.eye n)

/-- A limit state that is affine in the variables of the model. -/
structure AffineIn (m : StochModel Dist ℝ) (expr : Kwargs → GRet) (a0 : ℝ) (a : Fin n → ℝ) : Prop where
  /-- vectorised -/
  affine : ∃ g, Pointwise expr g ∧ ∀ p : Fin n → ℝ, g (pointArgs m p) = a0 + ∑ i, a i * p i
  /-- not constant -/
  ne : a ≠ 0

theorem margs_ne {m : StochModel D ℝ} (h : Reachable m) (h0 : 0 < m.marg.length) : m.getNames ≠ [] := by
  obtain ⟨l, rfl⟩ := h
  have hw := LimitState.wf_of_reachable (⟨l, rfl⟩ : Reachable _)
  intro e
  have e' : ((StochModel.init : StochModel D ℝ).run l).names = [] := e
  rw [← hw.len] at h0
  obtain ⟨k, hk⟩ := List.exists_mem_of_length_pos h0
  have := (hw.names k).2 (.inl hk)
  rw [e'] at this
  cases this

/-- FORM with default options finds the exact index. -/
theorem formDefault_affine (lib : Lib) (hla : LinAlgOK lib.la) (hfuel : 100 ≤ lib.fuel) {m : StochModel Dist ℝ} {names : Fin n → String}
    {μ sd : Fin n → ℝ} {sp : Fin n → Option ℝ} (hm : NormalModel m names μ sd sp) (hsd : ∀ i, 0 < sd i) {expr : Kwargs → GRet} {a0 : ℝ}
    {a : Fin n → ℝ} (ha : AffineIn m expr a0 a) :
    ∃ k R, formDefault lib expr m = ({ m with callFunction := k, Ro := R }, .ok (affineBeta a0 a μ sd)) := by
  obtain ⟨marg, hnew, hmarg⟩ := hm.vars
  obtain ⟨g, hp, haff⟩ := ha.affine
  have hlen : (toMarg m).marg.length = n := by simp [toMarg, hmarg]
  have hn0 : 0 < n := by
    rcases Nat.eq_zero_or_pos n with h | h
    · subst h; exact absurd (funext fun i => i.elim0) ha.ne
    · exact h
  have hcor : (toMarg m).correlation = some (NDArray2.eye n) := hm.independent
  have hset := setModified_eye lib.fmin lib.default hlen hcor
  obtain ⟨m1, hm1⟩ : ∃ m1 : StochModel Marginal ℝ, m1 = { toMarg m with Ro := some ⟨n, n, 1⟩ } := ⟨_, rfl⟩
  rw [← hm1] at hset
  have hR : Reachable m1 := by
    rw [hm1]
    exact reachable_ro (by rw [toMarg_eq]; exact reachable_map _ hm.built) _
  have hpa : ∀ p : Fin n → ℝ, pointArgs m1 p = pointArgs m p := by
    intro p
    rw [hm1]
    simp [pointArgs, getVariables, getConstants, toMarg, Dict.keys, List.map_map, Function.comp_def]
  have hlen1 : m1.marg.length = n := by rw [hm1]; exact hlen
  have hne : m1.getNames ≠ [] := margs_ne hR (by omega)
  have hro : m1.Ro = some ⟨n, n, 1⟩ := by rw [hm1]
  have hmo : ∀ i (h : i < n), (margOf (toMarg m) ⟨i, by omega⟩) = marg ⟨i, h⟩ := by
    intro i h
    simp [margOf, toMarg, hmarg, normalDist]
  clear hmarg
  subst hlen
  have hmo' : margOf (toMarg m) = marg := funext fun i => hmo i.1 i.2
  obtain ⟨r, ev', h1, h2, -⟩ := C30_default hla PosDef.one (compute_one hla) hsd hnew hp Options.defaults.ls (by norm_num [Options.defaults])
    (by norm_num [Options.defaults]) (by norm_num [Options.defaults]) (by simp [Options.defaults]) (by simp [Options.defaults])
    (⟨m1, []⟩ : Ev Marginal) hR hlen1.le hne a0 a ha.ne (fun p => by rw [hpa]; exact haff p) Options.defaults.form rfl rfl
    (by norm_num [Options.defaults]) (by norm_num [Options.defaults]) (by norm_num [Options.defaults]) (by norm_num [Options.defaults])
    lib.fuel (by simpa [Options.defaults] using hfuel)
  rw [affine_denominator] at h2
  refine ⟨ev'.model.callFunction, ev'.model.Ro, ?_⟩
  have hrun : Form.run lib.fmin lib.default lib.la Options.defaults.ty expr Options.defaults.ls Options.defaults.form lib.fuel ⟨toMarg m, []⟩ =
      some (.done r ev') := by
    unfold Form.run
    simp only [hset, hro]
    rw [dif_pos ⟨trivial, trivial⟩]
    have e : (fun a b => (1 : Matrix (Fin (toMarg m).marg.length) (Fin (toMarg m).marg.length) ℝ) (Fin.cast rfl a) (Fin.cast rfl b)) =
        (1 : Matrix (Fin (toMarg m).marg.length) (Fin (toMarg m).marg.length) ℝ) := rfl
    have e2 : Transformation.compute lib.la Options.defaults.ty (1 : Matrix (Fin (toMarg m).marg.length) (Fin (toMarg m).marg.length) ℝ) =
        .ok ⟨1, 1⟩ := compute_one hla
    rw [e, e2]
    simp only [hmo']
    exact h1
  unfold formDefault formOracle
  rw [hrun]
  simp only [formOutcome]
  rw [h2]
  rfl

/-! ### The perturbed models -/

theorem NormalModel.after {m : StochModel Dist ℝ} {names : Fin n → String} {μ sd : Fin n → ℝ} {sp : Fin n → Option ℝ}
    (h : NormalModel m names μ sd sp) (k : ℕ) (R : Option NDArray2) : NormalModel { m with callFunction := k, Ro := R } names μ sd sp :=
  ⟨reachable_after h.built k R, h.vars, h.independent⟩

theorem AffineIn.after {m : StochModel Dist ℝ} {expr : Kwargs → GRet} {a0 : ℝ} {a : Fin n → ℝ} (h : AffineIn m expr a0 a) (k : ℕ)
    (R : Option NDArray2) : AffineIn { m with callFunction := k, Ro := R } expr a0 a := ⟨h.affine, h.ne⟩

theorem NormalModel.consistent {m : StochModel Dist ℝ} {names : Fin n → String} {μ sd : Fin n → ℝ} {sp : Fin n → Option ℝ}
    (h : NormalModel m names μ sd sp) : Consistent m := by
  obtain ⟨l, rfl⟩ := h.built
  exact consistent_reachable l

theorem NormalModel.names_inj {m : StochModel Dist ℝ} {names : Fin n → String} {μ sd : Fin n → ℝ} {sp : Fin n → Option ℝ}
    (h : NormalModel m names μ sd sp) : Function.Injective names := by
  obtain ⟨marg, -, hmarg⟩ := h.vars
  have := h.consistent.nodup
  rw [hmarg, List.map_ofFn, List.nodup_ofFn] at this
  exact this

theorem NormalModel.exchanged {m : StochModel Dist ℝ} {names : Fin n → String} {μ sd : Fin n → ℝ} {sp : Fin n → Option ℝ}
    (h : NormalModel m names μ sd sp) (k : Fin n) {v s : ℝ} {mk : Marginal} (hk : Normal.new v (.fin s) none = .ok mk) :
    NormalModel (exchanged m (names k) (normalDist mk)) names (Function.update μ k v) (Function.update sd k s) (Function.update sp k none) := by
  obtain ⟨marg, hnew, hmarg⟩ := h.vars
  refine ⟨?_, ⟨Function.update marg k mk, fun i => ?_, ?_⟩, h.independent⟩
  · rw [exchanged_eq h.consistent]
    exact reachable_map _ h.built
  · by_cases hi : i = k
    · subst hi; simpa using hk
    · simpa [hi] using hnew i
  · simp only [Spec.exchanged, hmarg, List.map_ofFn]
    congr 1
    funext i
    simp only [Function.comp]
    by_cases hi : i = k
    · subst hi; simp
    · simp [hi, h.names_inj.eq_iff]

theorem AffineIn.exchanged {m : StochModel Dist ℝ} {expr : Kwargs → GRet} {a0 : ℝ} {a : Fin n → ℝ} (h : AffineIn m expr a0 a)
    (name : String) (d : Dist) : AffineIn (exchanged m name d) expr a0 a := by
  obtain ⟨g, h1, h2⟩ := h.affine
  refine ⟨⟨g, h1, fun p => ?_⟩, h.ne⟩
  rw [← h2]
  congr 1
  simp only [pointArgs, getVariables, getConstants, Spec.exchanged, Dict.keys, List.map_map]
  congr 2
  refine List.map_congr_left fun e _ => ?_
  simp only [Function.comp]
  split <;> rfl

theorem normal_new_ok (v s : ℝ) : ∃ mk, Normal.new v (.fin s) none = .ok mk := ⟨_, rfl⟩

theorem normal_params {μ s : ℝ} {sp : Option ℝ} {m : Marginal} (h : Normal.new μ (.fin s) sp = .ok m) :
    (normalDist m).sensitivityParams = [("mean", μ), ("std", s)] := by
  obtain ⟨-, -, -, h4, h5, -⟩ := normal_ok h
  simp [normalDist, Dist.sensitivityParams, Normal.cls, h4, h5]

theorem normal_copies {μ s : ℝ} {sp : Option ℝ} {m : Marginal} (h : Normal.new μ (.fin s) sp = .ok m) (v : ℝ) :
    (∃ mk, Normal.new v (.fin s) none = .ok mk ∧ (normalDist m).makeCopy [("mean", v)] = .ok (normalDist mk)) ∧
    ∃ mk, Normal.new μ (.fin v) none = .ok mk ∧ (normalDist m).makeCopy [("std", v)] = .ok (normalDist mk) := by
  obtain ⟨-, -, -, h4, h5, -⟩ := normal_ok h
  obtain ⟨-, h1, h2, -⟩ := C52_copy (normalDist m) (by simp [normalDist, Dict.keys]) (by simp [normalDist, Dict.keys])
    (by simp [normalDist, Dict.keys]) v
  constructor
  · obtain ⟨mk, hk⟩ := normal_new_ok v s
    refine ⟨mk, hk, ?_⟩
    rw [h1]
    simp only [normalDist, Normal.cls, h5, hk]
    rfl
  · obtain ⟨mk, hk⟩ := normal_new_ok μ v
    refine ⟨mk, hk, ?_⟩
    rw [h2]
    simp only [normalDist, Normal.cls, h4, hk]
    rfl

/-! ### The loops succeed if every analysis does -/

/-- The analysis for one entry succeeds. -/
def EntryOK (form : FormOracle) (m : StochModel Dist ℝ) (delta : ℝ) (d : DistObj Dist) (p : String) (val : ℝ) : Prop :=
  ∃ d' beta1, d.body.makeCopy [(p, val + delta * d.body.marg.stdv)] = .ok d' ∧ (form (exchanged m d.name d')).2 = .ok beta1

theorem fdOne_ok (form : FormOracle) (beta0 delta : ℝ) (p : String) (val : ℝ) (fresh : ℕ) (H : Heap) (hm : Consistent (H 0))
    {d : DistObj Dist} (hd : d ∈ (H 0).marg) (he : EntryOK form (H 0) delta d p val) :
    ∃ v, (fdOne form beta0 delta d.name p val fresh H).2 = .ok v := by
  obtain ⟨d', beta1, hc, hb⟩ := he
  unfold fdOne
  have h1 : (Function.update H fresh (H 0)) fresh = H 0 := Function.update_self ..
  simp only [h1, getVariable_eq hm hd, hc]
  rw [replaceDist_eq hm (List.mem_map_of_mem hd), Function.update_self]
  rcases hform : form (exchanged (H 0) d.name d') with ⟨m, r⟩
  rw [hform] at hb
  simp only at hb
  subst hb
  exact ⟨_, rfl⟩

theorem fdVar_ok (form : FormOracle) (beta0 delta : ℝ) {d : DistObj Dist} (ps : Dict String ℝ) {fresh : ℕ} (hf : 0 < fresh)
    (H : Heap) (hm : Consistent (H 0)) (hd : d ∈ (H 0).marg) (he : ∀ pv ∈ ps, EntryOK form (H 0) delta d pv.1 pv.2) :
    ∃ r, (fdVar form beta0 delta d.name ps fresh H).2 = .ok r := by
  induction ps generalizing fresh H with
  | nil => exact ⟨_, rfl⟩
  | cons pv ps ih =>
    obtain ⟨p, val⟩ := pv
    obtain ⟨h1, -⟩ := fdOne_spec form beta0 delta p val hf H hm hd
    obtain ⟨v, hv⟩ := fdOne_ok form beta0 delta p val fresh H hm hd (he (p, val) (by simp))
    unfold fdVar
    rcases hx : fdOne form beta0 delta d.name p val fresh H with ⟨H1, r1⟩
    rw [hx] at h1 hv
    simp only at hv
    subst hv
    have h0 : H1 0 = H 0 := h1 0 hf.ne
    obtain ⟨⟨r, f⟩, hr⟩ := ih (Nat.succ_pos fresh) H1 (h0 ▸ hm) (h0 ▸ hd) (fun pv hpv => by rw [h0]; exact he pv (by simp [hpv]))
    simp only
    rcases hy : fdVar form beta0 delta d.name ps (fresh + 1) H1 with ⟨H2, r2⟩
    rw [hy] at hr
    simp only at hr
    subst hr
    exact ⟨_, rfl⟩

theorem fdAll_ok (form : FormOracle) (beta0 delta : ℝ) (ds : List (DistObj Dist)) {fresh : ℕ} (hf : 0 < fresh)
    (H : Heap) (hm : Consistent (H 0)) (hd : ∀ d ∈ ds, d ∈ (H 0).marg)
    (he : ∀ d ∈ ds, ∀ pv ∈ d.body.sensitivityParams, EntryOK form (H 0) delta d pv.1 pv.2) :
    ∃ r, (fdAll form beta0 delta (ds.map (fun d => (d.name, d))) fresh H).2 = .ok r := by
  induction ds generalizing fresh H with
  | nil => exact ⟨_, rfl⟩
  | cons d ds ih =>
    obtain ⟨h1, h2⟩ := fdVar_spec form beta0 delta d.body.sensitivityParams hf H hm (hd d (by simp))
    obtain ⟨⟨v, f⟩, hv⟩ := fdVar_ok form beta0 delta d.body.sensitivityParams hf H hm (hd d (by simp)) (he d (by simp))
    simp only [List.map_cons]
    unfold fdAll
    rcases hx : fdVar form beta0 delta d.name d.body.sensitivityParams fresh H with ⟨H1, r1⟩
    rw [hx] at h1 h2 hv
    simp only at hv
    subst hv
    have h0 : H1 0 = H 0 := h1 0 hf
    obtain ⟨hle, -⟩ := h2 v f rfl
    obtain ⟨r, hr⟩ := ih (fresh := f) (by omega) H1 (h0 ▸ hm) (fun d' h' => h0 ▸ hd d' (by simp [h']))
      (fun d' h' pv hpv => by rw [h0]; exact he d' (by simp [h']) pv hpv)
    simp only
    cases hy : fdAll form beta0 delta (ds.map (fun d => (d.name, d))) f H1 with
    | mk H2 r2 =>
      rw [hy] at hr
      simp only at hr
      subst hr
      exact ⟨_, rfl⟩

/-- A change of one mean changes the index in proportion. -/
theorem affineBeta_mean (a0 : ℝ) (a μ sd : Fin n → ℝ) (k : Fin n) (v : ℝ) :
    affineBeta a0 a (Function.update μ k v) sd - affineBeta a0 a μ sd = a k * (v - μ k) / √(∑ i, (a i * sd i) ^ 2) := by
  unfold affineBeta
  rw [← sub_div]
  congr 1
  have : ∀ i, a i * Function.update μ k v i = a i * μ i + if i = k then a k * (v - μ k) else 0 := by
    intro i
    by_cases h : i = k
    · subst h; simp; ring
    · simp [h]
  simp only [this, Finset.sum_add_distrib]
  simp

/-- **C52 (affine limit states).**  Independent normal variables, a limit state affine in them: the finite-difference analysis (which always
uses the default FORM options) succeeds and reports, for every variable in the order of the model, the exact derivative of the
reliability index with respect to the mean, whatever the step, and for the standard deviation the difference quotient of the exact
index. -/
theorem C52_affine (lib : Lib) (hla : LinAlgOK lib.la) (hfuel : 100 ≤ lib.fuel) (H : Heap) {names : Fin n → String}
    {μ sd : Fin n → ℝ} {sp : Fin n → Option ℝ} (hm : NormalModel (H 0) names μ sd sp) (hsd : ∀ i, 0 < sd i) {expr : Kwargs → GRet} {a0 : ℝ}
    {a : Fin n → ℝ} (ha : AffineIn (H 0) expr a0 a) {δ : ℝ} (hδ : 0 < δ) {fresh : ℕ} (hf : 0 < fresh) :
    (numericalSens (formDefault lib expr) δ fresh H).2 = .ok (List.ofFn fun k => (names k,
      [("mean", a k / √(∑ i, (a i * sd i) ^ 2)),
       ("std", (affineBeta a0 a μ (Function.update sd k (sd k + δ * sd k)) - affineBeta a0 a μ sd) / (δ * sd k))])) := by
  obtain ⟨k0, R0, hform⟩ := formDefault_affine lib hla hfuel hm hsd ha
  have hm1 := hm.after k0 R0
  have ha1 := ha.after k0 R0
  obtain ⟨m1, hm1e⟩ : ∃ m1 : StochModel Dist ℝ, m1 = { H 0 with callFunction := k0, Ro := R0 } := ⟨_, rfl⟩
  rw [← hm1e] at hm1 ha1 hform
  obtain ⟨marg, hnew, hmarg⟩ := hm1.vars
  have hstd : ∀ k, (marg k).stdv = sd k := fun k => (normal_ok (hnew k)).2.2.2.2.1
  -- the perturbed analyses
  have pmean : ∀ k, ∃ mk, Normal.new (μ k + δ * sd k) (.fin (sd k)) none = .ok mk ∧
      (normalDist (marg k)).makeCopy [("mean", μ k + δ * sd k)] = .ok (normalDist mk) ∧
      (formDefault lib expr (exchanged m1 (names k) (normalDist mk))).2 = .ok (affineBeta a0 a (Function.update μ k (μ k + δ * sd k)) sd) := by
    intro k
    obtain ⟨mk, h1, h2⟩ := (normal_copies (hnew k) (μ k + δ * sd k)).1
    have h3 := hm1.exchanged k h1
    rw [Function.update_eq_self] at h3
    obtain ⟨_, _, h4⟩ := formDefault_affine lib hla hfuel h3 hsd (ha1.exchanged (names k) (normalDist mk))
    exact ⟨mk, h1, h2, by rw [h4]⟩
  have pstd : ∀ k, ∃ mk, Normal.new (μ k) (.fin (sd k + δ * sd k)) none = .ok mk ∧
      (normalDist (marg k)).makeCopy [("std", sd k + δ * sd k)] = .ok (normalDist mk) ∧
      (formDefault lib expr (exchanged m1 (names k) (normalDist mk))).2 =
        .ok (affineBeta a0 a μ (Function.update sd k (sd k + δ * sd k))) := by
    intro k
    obtain ⟨mk, h1, h2⟩ := (normal_copies (hnew k) (sd k + δ * sd k)).2
    have h3 := hm1.exchanged k h1
    rw [Function.update_eq_self] at h3
    have hsd' : ∀ i, 0 < Function.update sd k (sd k + δ * sd k) i := by
      intro i
      by_cases hi : i = k
      · subst hi; simp only [Function.update_self]; have := hsd i; positivity
      · simpa [hi] using hsd i
    obtain ⟨_, _, h4⟩ := formDefault_affine lib hla hfuel h3 hsd' (ha1.exchanged (names k) (normalDist mk))
    exact ⟨mk, h1, h2, by rw [h4]⟩
  have hcontents : ∀ m, SameContents m (formDefault lib expr m).1 := fun m => formOracle_contents ..
  have hcons : Consistent (Function.update H 0 m1 0) := by rw [Function.update_self]; exact hm1.consistent
  -- it succeeds
  have hok : ∃ r, (numericalSens (formDefault lib expr) δ fresh H).2 = .ok r := by
    unfold numericalSens
    rw [hform]
    simp only
    have hv : m1.getVariables = m1.marg.map (fun d => (d.name, d)) := hm1.consistent.vars
    rw [hv]
    refine fdAll_ok _ _ _ _ hf _ hcons (fun d hd => by rw [Function.update_self]; exact hd) ?_
    intro d hd pv hpv
    rw [hmarg, List.mem_ofFn] at hd
    obtain ⟨k, rfl⟩ := hd
    rw [Function.update_self]
    simp only [normal_params (hnew k), List.mem_cons, List.not_mem_nil, or_false] at hpv
    rcases hpv with rfl | rfl
    · obtain ⟨mk, -, h2, h3⟩ := pmean k
      exact ⟨normalDist mk, _, by rw [show ((normalDist (marg k)).marg.stdv) = sd k from hstd k]; exact h2, h3⟩
    · obtain ⟨mk, -, h2, h3⟩ := pstd k
      exact ⟨normalDist mk, _, by rw [show ((normalDist (marg k)).marg.stdv) = sd k from hstd k]; exact h2, h3⟩
  obtain ⟨r, hr⟩ := hok
  obtain ⟨beta0, hb0, hall⟩ := C52_entries (formDefault lib expr) hcontents δ hf H hm.consistent hr
  rw [hform] at hb0 hall
  injection hb0 with hb0
  rw [hr]
  congr 1
  have hmarg0 : (H 0).marg = List.ofFn fun i => (⟨names i, normalDist (marg i)⟩ : DistObj Dist) := by rw [← hmarg, hm1e]
  rw [hmarg0] at hall
  obtain ⟨hlen, hget⟩ := List.forall₂_iff_get.1 hall
  refine List.ext_getElem (by rw [← hlen]; simp) fun i h1 h2 => ?_
  have hin : i < n := by simpa using h2
  have he := hget i (by simpa using hin) h1
  simp only [List.get_eq_getElem, List.getElem_ofFn] at he ⊢
  obtain ⟨k, hk⟩ : ∃ k : Fin n, k = ⟨i, hin⟩ := ⟨_, rfl⟩
  rw [← hk] at he ⊢
  generalize r[i] = e at he
  obtain ⟨nm, ent⟩ := e
  obtain ⟨e1, e2⟩ := he
  simp only at e1 e2
  rw [normal_params (hnew k)] at e2
  rcases e2 with _ | ⟨⟨q1, q2⟩, e3⟩
  rcases e3 with _ | ⟨⟨q3, q4⟩, e4⟩
  cases e4
  next p1 p2 =>
  obtain ⟨n1, v1⟩ := p1
  obtain ⟨n2, v2⟩ := p2
  simp only at q1 q3 q2 q4
  subst q1 q3 e1
  obtain ⟨d1, b1, c1, c2, c3⟩ := q2
  obtain ⟨d2, b2, c4, c5, c6⟩ := q4
  simp only [show ((normalDist (marg k)).marg.stdv) = sd k from hstd k] at c1 c4
  obtain ⟨mk1, w1, w2, w3⟩ := pmean k
  obtain ⟨mk2, w4, w5, w6⟩ := pstd k
  rw [w2] at c1
  injection c1 with c1
  subst c1
  rw [w3] at c2
  injection c2 with c2
  rw [w5] at c4
  injection c4 with c4
  subst c4
  rw [w6] at c5
  injection c5 with c5
  rw [normal_params w1] at c3
  rw [normal_params w4] at c6
  have hs0 := (hsd k).ne'
  have g1 : v1 = a k / √(∑ i, (a i * sd i) ^ 2) := by
    rw [c3, ← c2, ← hb0, affineBeta_mean]
    simp only [Dict.get?, if_true, Option.getD_some]
    have : μ k + δ * sd k - μ k = δ * sd k := by ring
    rw [this, mul_div_right_comm]
    have : δ * sd k ≠ 0 := mul_ne_zero hδ.ne' hs0
    field_simp
  have g2 : v2 = (affineBeta a0 a μ (Function.update sd k (sd k + δ * sd k)) - affineBeta a0 a μ sd) / (δ * sd k) := by
    rw [c6, ← c5, ← hb0]
    simp only [Dict.get?, Option.getD_some]
    have : sd k + δ * sd k - sd k = δ * sd k := by ring
    simp [this]
  rw [g1, g2]

/-- **C52 (affine limit states): the quotients converge to the derivative.** -/
theorem C52_affine_limit (a0 : ℝ) {a : Fin n → ℝ} (ha : a ≠ 0) (μ : Fin n → ℝ) {sd : Fin n → ℝ} (hsd : ∀ i, 0 < sd i) (k : Fin n) :
    ∃ d, HasDerivAt (fun s => affineBeta a0 a μ (Function.update sd k s)) d (sd k) ∧
      Tendsto (fun δ => (affineBeta a0 a μ (Function.update sd k (sd k + δ * sd k)) - affineBeta a0 a μ sd) / (δ * sd k)) (𝓝[>] 0) (𝓝 d) := by
  have hpos : 0 < ∑ i, (a i * sd i) ^ 2 := by
    obtain ⟨i, hi⟩ := Function.ne_iff.1 ha
    refine Finset.sum_pos' (fun i _ => sq_nonneg _) ⟨i, Finset.mem_univ _, ?_⟩
    exact sq_pos_of_ne_zero (mul_ne_zero hi (hsd i).ne')
  have hd := affine_std a0 a μ sd k hpos
  refine ⟨_, hd, ?_⟩
  have h1 := hasDerivAt_iff_tendsto_slope_zero.1 hd
  have h2 : Tendsto (fun δ : ℝ => δ * sd k) (𝓝[>] 0) (𝓝[≠] 0) := by
    refine tendsto_nhdsWithin_iff.2 ⟨?_, ?_⟩
    · have : Tendsto (fun δ : ℝ => δ * sd k) (𝓝 0) (𝓝 (0 * sd k)) := (continuous_id.mul continuous_const).tendsto 0
      rw [zero_mul] at this
      exact this.mono_left nhdsWithin_le_nhds
    · filter_upwards [self_mem_nhdsWithin] with δ hδ
      exact mul_ne_zero (ne_of_gt hδ) (hsd k).ne'
  refine (h1.comp h2).congr fun δ => ?_
  simp only [Function.comp, smul_eq_mul, Function.update_eq_self]
  rw [div_eq_inv_mul]

end Pystra.Props
