import Verif.Props.SensTable
import Verif.Props.LineSamplingRun
import Verif.Lemmas.SameModel

/-! C94: what a `SensitivityAnalysis` object reports for an affine limit state in independent normal variables, with both methods. -/

namespace Pystra.Props
open Spec Matrix Transformation Form Sensitivity StochModel SensObj Filter Topology

variable {n : ℕ}

/-- FORM leaves nothing on the model but the counter. -/
theorem runFrom_model {D : Type} {t : Mats n} {marg : Fin n → Marginal} {expr : Kwargs → GRet} {lo : LSOptions} {sd : Fin n → ℝ}
    {opt : Form.Options} {fuel : ℕ} {ev ev' : Ev D} {r : Form.Result n}
    (h : runFrom t marg (lsEvaluator expr lo sd) opt fuel ev = some (.done r ev')) : ∃ k, ev'.model = ev.model.addCallFunction k := by
  have hs := ls_sim expr lo sd (a := ev) (b := ev) ⟨rfl, rfl⟩
  have h0 : SameAdvance ev ev ev ev := ⟨0, [], (Ev.advance_zero ev).symm, (Ev.advance_zero ev).symm⟩
  rcases runFrom_sim hs t marg opt fuel h0 with ⟨h1, -⟩ | ⟨p, q, h1, h2, hq⟩
  · rw [h1] at h; cases h
  · rw [h1] at h
    injection h with h
    subst h
    cases hq with
    | done _ h =>
      obtain ⟨j, T, e, -⟩ := h
      exact ⟨j, by rw [e]; rfl⟩

/-- The exact sensitivities of the reliability index to the mean and to the standard deviation of variable `k`. -/
noncomputable def exactMean (a sd : Fin n → ℝ) (k : Fin n) : ℝ := a k / √(∑ i, (a i * sd i) ^ 2)

/-- See `exactMean`. -/
noncomputable def exactStd (a0 : ℝ) (a μ sd : Fin n → ℝ) (k : Fin n) : ℝ :=
  -(affineBeta a0 a μ sd) * (a k ^ 2 * sd k) / (∑ i, (a i * sd i) ^ 2)

/-- Options with which FORM solves affine problems: Cholesky, finite differences, the line search, and at least 37 iterations. -/
structure Ordinary (o : SensObj.Options) (fuel : ℕ) : Prop where
  ty : o.ty = .cholesky
  block : 1 ≤ o.ls.blockSize
  para : o.ls.ffdpara ≠ 0
  proc : o.ls.multiProc ≠ 0
  no : o.ls.diffMode ≠ "no"
  ddm : o.ls.diffMode ≠ "ddm"
  step : o.form.stepSize = 0
  proc1 : o.form.multiProc = 1
  e1 : 0 < o.form.e1
  e1' : o.form.e1 ≤ 1 / 6
  e2 : 0 < o.form.e2
  iMax : 37 ≤ o.form.iMax
  fuel : o.form.iMax ≤ fuel

theorem ordinary_defaults {fuel : ℕ} (h : 100 ≤ fuel) : Ordinary Options.defaults fuel := by
  constructor <;> first | exact h | (simp [Options.defaults]; done) | (norm_num [Options.defaults]; done)

/-- The closed-form analysis with ordinary options on the affine problem. -/
theorem cfSensModel_affine (lib : Lib) (hla : LinAlgOK lib.la) {options : Option SensObj.Options} {o : SensObj.Options}
    (hopt : options.getD Options.defaults = o) (ho : Ordinary o lib.fuel) {m : StochModel Dist ℝ} {names : Fin n → String}
    {μ sd : Fin n → ℝ} {sp : Fin n → Option ℝ} (hm : NormalModel m names μ sd sp) (hsd : ∀ i, 0 < sd i) {expr : Kwargs → GRet} {a0 : ℝ}
    {a : Fin n → ℝ} (ha : AffineIn m expr a0 a) (hb : |affineBeta a0 a μ sd| ≤ 37) :
    ∃ m' c, cfSensModel lib (Obj.new expr options) n m = (m', .ok c) ∧
      c.marginal = List.ofFn (fun k => (names k, [("mean", exactMean a sd k), ("std", exactStd a0 a μ sd k)])) := by
  obtain ⟨marg, hnew, hmarg⟩ := hm.vars
  obtain ⟨g, hp, haff⟩ := ha.affine
  have hlen : (toMarg m).marg.length = n := by simp [toMarg, hmarg]
  have hn0 : 0 < n := by
    rcases Nat.eq_zero_or_pos n with h | h
    · subst h; exact absurd (funext fun i => i.elim0) ha.ne
    · exact h
  have hset := setModified_eye lib.fmin lib.default hlen (show (toMarg m).correlation = some (NDArray2.eye n) from hm.independent)
  obtain ⟨m1, hm1⟩ : ∃ m1 : StochModel Marginal ℝ, m1 = { toMarg m with Ro := some ⟨n, n, 1⟩ } := ⟨_, rfl⟩
  rw [← hm1] at hset
  have hR : Reachable m1 := by
    rw [hm1]
    exact reachable_ro (by rw [toMarg_eq]; exact reachable_map _ hm.built) _
  have hpa : ∀ p : Fin n → ℝ, pointArgs m1 p = pointArgs m p := by
    intro p
    rw [hm1]
    simp [pointArgs, getVariables, getConstants, toMarg, Dict.keys, List.map_map, Function.comp_def]
  have hlen1 : m1.marg.length = n := by rw [hm1]; exact hlen
  have hne : m1.getNames ≠ [] := margs_ne hR (by omega)
  have hro : m1.Ro = some ⟨n, n, 1⟩ := by rw [hm1]
  have hmo : Session.margN n lib.default m1 = marg := by
    funext i
    rw [hm1]
    simp [Session.margN, toMarg, hmarg, normalDist, List.getD_eq_getElem?_getD]
  have hdist : distN lib n m = fun i => normalDist (marg i) := by
    funext i
    simp [distN, hmarg, List.getD_eq_getElem?_getD]
  have hnames : namesN n m = names := by
    funext i
    simp [namesN, hm.consistent.vars, hmarg, Dict.keys, List.getD_eq_getElem?_getD]
  have hcor : matrixOf n m.getCorrelation = 1 := by
    funext i j
    have : m.getCorrelation = some ⟨n, n, 1⟩ := hm.independent
    rw [this]
    simp [matrixOf]
  have hinit : Session.initRun ((Obj.new expr options).setup lib) n ⟨toMarg m, []⟩ = (⟨m1, []⟩, .ok ⟨1, 1⟩) := by
    unfold Session.initRun
    simp only [Obj.setup, hset, hro]
    rw [dif_pos ⟨trivial, trivial⟩]
    have e : (fun a b => (1 : Matrix (Fin n) (Fin n) ℝ) (Fin.cast rfl a) (Fin.cast rfl b)) = (1 : Matrix (Fin n) (Fin n) ℝ) := rfl
    have e2 : Transformation.compute lib.la (Obj.new expr options).options.ty (1 : Matrix (Fin n) (Fin n) ℝ) = .ok ⟨1, 1⟩ := by
      show Transformation.compute lib.la (options.getD Options.defaults).ty _ = _
      rw [hopt, ho.ty]; exact compute_one hla
    rw [e, e2]
  obtain ⟨r, ev', h1, h2, -, h4, -, -, h7⟩ := C30_default hla PosDef.one (compute_one hla) hsd hnew hp o.ls
    ho.block ho.para ho.proc ho.no ho.ddm (⟨m1, []⟩ : Ev Marginal) hR hlen1.le hne a0 a ha.ne (fun p => by rw [hpa]; exact haff p)
    o.form ho.step ho.proc1 ho.e1 ho.e1' ho.e2 ho.iMax lib.fuel ho.fuel
  rw [affine_denominator] at h2
  have h2 : r.beta = affineBeta a0 a μ sd := h2
  obtain ⟨k, hk⟩ := runFrom_model h1
  have hpos : 0 < ∑ i, (a i * sd i) ^ 2 := by
    obtain ⟨i, hi⟩ := Function.ne_iff.1 ha.ne
    refine Finset.sum_pos' (fun i _ => sq_nonneg _) ⟨i, Finset.mem_univ _, ?_⟩
    exact sq_pos_of_ne_zero (mul_ne_zero hi (hsd i).ne')
  have hnorm : norm2 (fun i => a i * sd i) = √(∑ i, (a i * sd i) ^ 2) := rfl
  have hal : ∀ k, r.alpha k = -(a k * sd k) / √(∑ i, (a i * sd i) ^ 2) := by
    intro k
    rw [h7, vecMul_one]
    simp only [alpha, hnorm, div_eq_mul_inv]
  have hroot : 0 < √(∑ i, (a i * sd i) ^ 2) := Real.sqrt_pos.2 hpos
  have hsq : √(∑ i, (a i * sd i) ^ 2) ^ 2 = ∑ i, (a i * sd i) ^ 2 := Real.sq_sqrt hpos.le
  have hle : ∀ k, |r.alpha k| ≤ 1 := by
    intro k
    rw [hal, abs_div, abs_neg, abs_of_pos hroot, div_le_one hroot]
    exact Real.abs_le_sqrt (Finset.single_le_sum (f := fun i => (a i * sd i) ^ 2) (fun i _ => sq_nonneg _) (Finset.mem_univ k))
  have hu : ∀ k, |r.point.u k| ≤ |affineBeta a0 a μ sd| := by
    intro k
    rw [h4, h2]
    simp only [Pi.smul_apply, smul_eq_mul, abs_mul]
    exact mul_le_of_le_one_right (abs_nonneg _) (hle k)
  obtain ⟨c, hc, hc2⟩ := C50_report hsd hnew names r.alpha r.point.u (fun k => pdf_not_tiny ((hu k).trans hb))
  refine ⟨afterForm m ev', c, ?_, ?_⟩
  · unfold cfSensModel
    rw [hinit]
    dsimp only
    have hev : Session.evaluator ((Obj.new expr options).setup lib) n m1 =
        lsEvaluator expr o.ls (fun i => (marg i).stdv) := by
      unfold Session.evaluator
      have e : ((Obj.new expr options).setup lib).default = lib.default := rfl
      rw [e, hmo]
      show lsEvaluator expr (options.getD Options.defaults).ls _ = _
      rw [hopt]
    have e3 : (Obj.new expr options).options.form = o.form := by
      show (options.getD Options.defaults).form = _
      rw [hopt]
    rw [hmo, hev, e3, h1]
    dsimp only
    have d1 : distN lib n (afterForm m ev') = distN lib n m := rfl
    have d2 : namesN n (afterForm m ev') = namesN n m := rfl
    have d3 : (afterForm m ev').getCorrelation = m.getCorrelation := rfl
    have d4 : matrixOf n (afterForm m ev').Ro = 1 := by
      have : (afterForm m ev').Ro = some ⟨n, n, 1⟩ := by
        simp only [afterForm, hk]
        exact hro
      rw [this]
      funext i j
      simp [matrixOf]
    rw [d1, d2, d3, d4, hdist, hnames, hcor, hc]
  · rw [hc2]
    congr 1
    funext k
    have h5 : r.point.u k = affineBeta a0 a μ sd * r.alpha k := by rw [h4, h2]; rfl
    have hs0 := (hsd k).ne'
    have e1 : -r.alpha k / sd k = exactMean a sd k := by
      rw [hal, exactMean]
      field_simp
    have e2 : -r.alpha k * r.point.u k / sd k = exactStd a0 a μ sd k := by
      rw [h5, hal, exactStd]
      generalize √(∑ i, (a i * sd i) ^ 2) = w at hroot hsq ⊢
      rw [← hsq]
      field_simp
    rw [e1, e2]

/-- **C94: both methods are right for affine limit states in independent normal variables.**  The analysis succeeds with either method.
The closed form (index at most 37, with every set of ordinary options, in particular the default ones) reports the exact derivatives of the reliability index.  The finite differences report
the same numbers for the means, whatever the step and whatever options the object was given (they are ignored), and the difference
quotients for the standard deviations. -/
theorem C94_affine (lib : Lib) (hla : LinAlgOK lib.la) (hfuel : 100 ≤ lib.fuel) (H : Heap) {names : Fin n → String}
    {μ sd : Fin n → ℝ} {sp : Fin n → Option ℝ} (hm : NormalModel (H 0) names μ sd sp) (hsd : ∀ i, 0 < sd i) {expr : Kwargs → GRet} {a0 : ℝ}
    {a : Fin n → ℝ} (ha : AffineIn (H 0) expr a0 a) {δ : ℝ} (hδ : 0 < δ) {fresh : ℕ} (hf : 0 < fresh) :
    (|affineBeta a0 a μ sd| ≤ 37 → ∀ options, (∀ o, options = some o → Ordinary o lib.fuel) →
      ∃ c : CfResult (H 0).marg.length, (SensObj.run lib (Obj.new expr options) false δ fresh H).2 = .ok (.ofCf c) ∧
      c.marginal = List.ofFn (fun k => (names k, [("mean", exactMean a sd k), ("std", exactStd a0 a μ sd k)]))) ∧
    (∀ options, (SensObj.run lib (Obj.new expr options) true δ fresh H).2 = .ok (.ofFd (List.ofFn fun k => (names k,
      [("mean", exactMean a sd k),
       ("std", (affineBeta a0 a μ (Function.update sd k (sd k + δ * sd k)) - affineBeta a0 a μ sd) / (δ * sd k))])))) ∧
    (∀ k, HasDerivAt (fun v => affineBeta a0 a (Function.update μ k v) sd) (exactMean a sd k) (μ k)) ∧
    ∀ k, HasDerivAt (fun v => affineBeta a0 a μ (Function.update sd k v)) (exactStd a0 a μ sd k) (sd k) := by
  refine ⟨fun hb options ho => ?_, fun options => ?_, fun k => affine_mean a0 a μ sd k, fun k => ?_⟩
  · have hlen : (H 0).marg.length = n := by
      obtain ⟨marg, -, h⟩ := hm.vars
      rw [h]; simp
    subst hlen
    obtain ⟨m', c, h1, h2⟩ := cfSensModel_affine lib hla (options := options) rfl (by
      cases options with
      | none => exact ordinary_defaults hfuel
      | some o => exact ho o rfl) hm hsd ha hb
    refine ⟨c, ?_, h2⟩
    unfold SensObj.run
    rw [if_neg (by simp), h1]
  · have h := C52_affine lib hla hfuel H hm hsd ha hδ hf
    unfold SensObj.run
    rw [if_pos rfl]
    have e : (Obj.new expr options).limitstate = expr := rfl
    rw [e]
    rcases hx : numericalSens (formDefault lib expr) δ fresh H with ⟨H', e | r⟩
    · rw [hx] at h; cases h
    · rw [hx] at h
      simp only at h
      injection h with h
      rw [h]
      rfl
  · refine affine_std a0 a μ sd k ?_
    obtain ⟨i, hi⟩ := Function.ne_iff.1 ha.ne
    refine Finset.sum_pos' (fun i _ => sq_nonneg _) ⟨i, Finset.mem_univ _, ?_⟩
    exact sq_pos_of_ne_zero (mul_ne_zero hi (hsd i).ne')

end Pystra.Props
