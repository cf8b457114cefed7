import Verif.Props.SensTable
import Verif.Props.SensObjectExample
import Verif.Props.Noninterference

/-! C94, continued: which options a `SensitivityAnalysis` object uses. -/

namespace Pystra.Props
open SensObj Sensitivity Session Spec Transformation Form

/-- **C94: the options of the object.**  The closed form post-processes the FORM run with the options the object was given (the documented
defaults if none were given) — by C70 the run that a `Form` object with these options makes on the model —, with the transformation, the
`alpha` and the design point of that run, and raises what that run raises; the finite differences ignore the options. -/
theorem C94_options (lib : Lib) (expr : Kwargs → GRet) (options : Option SensObj.Options) (o : SensObj.Options)
    (ho : options = some o ∨ options = none ∧ o = ⟨.cholesky, ⟨"ffd", 1, 1000, 1000⟩, ⟨100, 0.001, 0.001, 0, 1⟩⟩) (δ : ℝ) (fresh : ℕ) (H : Heap) :
    let n := (H 0).marg.length
    let c : Session.Setup := ⟨lib.fmin, lib.default, lib.la, fun _ _ => [], o.ty, expr, o.ls, lib.fuel⟩
    (∀ ev r, formRun c n o.form ⟨toMarg (H 0), []⟩ = some (ev, .inl r) → ∃ ev1 t, initRun c n ⟨toMarg (H 0), []⟩ = (ev1, .ok t) ∧
      (SensObj.run lib (Obj.new expr options) false δ fresh H).2 =
        (cfSens (distN lib n (H 0)) (namesN n (H 0)) (matrixOf n (H 0).getCorrelation) (matrixOf n ev.model.Ro) t r.alpha r.point.u).map
          Val.ofCf) ∧
    (∀ ev e, formRun c n o.form ⟨toMarg (H 0), []⟩ = some (ev, .inr (.raised e)) →
      (SensObj.run lib (Obj.new expr options) false δ fresh H).2 = .error e) ∧
    SensObj.run lib (Obj.new expr options) true δ fresh H = SensObj.run lib (Obj.new expr none) true δ fresh H := by
  intro n c
  have hopt : (Obj.new expr options).options = o := by
    rcases ho with h | ⟨h, h'⟩
    · rw [h]; rfl
    · rw [h, h']; rfl
  have hset : (Obj.new expr options).setup lib = c := by
    simp only [Obj.setup, hopt]; rfl
  have hrun : (SensObj.run lib (Obj.new expr options) false δ fresh H).2 =
      (cfSensModel lib (Obj.new expr options) n (H 0)).2.map Val.ofCf := by
    unfold SensObj.run
    rw [if_neg (by simp)]
    rcases cfSensModel lib (Obj.new expr options) n (H 0) with ⟨m', e | r⟩ <;> rfl
  refine ⟨fun ev r h => ?_, fun ev e h => ?_, rfl⟩
  · unfold formRun withInit at h
    rcases hi : initRun c n ⟨toMarg (H 0), []⟩ with ⟨ev1, e | t⟩ <;> rw [hi] at h <;> dsimp only at h
    · injection h with h; injection h with _ h; cases h
    · refine ⟨ev1, t, rfl, ?_⟩
      rw [hrun]
      unfold cfSensModel
      rw [hset, hi]
      dsimp only
      rw [hopt]
      have hd : c.default = lib.default := rfl
      have hf : c.fuel = lib.fuel := rfl
      rw [hd, hf] at h
      rcases hr : Form.runFrom t (margN n lib.default ev1.model) (evaluator c n ev1.model) o.form lib.fuel ev1 with _ | out
      · rw [hr] at h; cases h
      · rw [hr] at h
        cases out with
        | done r' ev' =>
          injection h with h
          injection h with h1 h2
          injection h2 with h2
          subst h1 h2
          rfl
        | raised e ev' => injection h with h; injection h with _ h; cases h
        | nan ev' => injection h with h; injection h with _ h; cases h
        | next _ _ _ => cases h
  · unfold formRun withInit at h
    rw [hrun]
    unfold cfSensModel
    rw [hset]
    rcases hi : initRun c n ⟨toMarg (H 0), []⟩ with ⟨ev1, e' | t⟩ <;> rw [hi] at h <;> dsimp only at h ⊢
    · injection h with h
      injection h with _ h
      injection h with h
      injection h with h
      rw [h]; rfl
    · rw [hopt]
      have hd : c.default = lib.default := rfl
      have hf : c.fuel = lib.fuel := rfl
      rw [hd, hf] at h
      rcases hr : Form.runFrom t (margN n lib.default ev1.model) (evaluator c n ev1.model) o.form lib.fuel ev1 with _ | out
      · rw [hr] at h; cases h
      · rw [hr] at h
        cases out with
        | done r' ev' => injection h with h; injection h with _ h; cases h
        | raised e' ev' =>
          injection h with h
          injection h with _ h
          injection h with h
          injection h with h
          dsimp only
          rw [h]; rfl
        | nan ev' =>
          injection h with h
          injection h with _ h
          injection h with h
          cases h
        | next _ _ _ => cases h

/-- Non-vacuity: the two-variable example of C94 analysed with options of one's own (other tolerances, 40 iterations, blocks of 3): the FORM
run with these options ends, as the hypothesis of the first clause asks, and the analysis succeeds. -/
example (lib : Lib) (hla : LinAlgOK lib.la) (hfuel : 100 ≤ lib.fuel) :
    let o : SensObj.Options := ⟨.cholesky, ⟨"ffd", 1, 3, 500⟩, ⟨40, 0.01, 0.02, 0, 1⟩⟩
    ∃ m1 m2 : Marginal, Normal.new 1 (.fin 3) none = .ok m1 ∧ Normal.new 2 (.fin 2) none = .ok m2 ∧
      (∃ ev r, formRun ⟨lib.fmin, lib.default, lib.la, fun _ _ => [], o.ty, tableG "x1", o.ls, lib.fuel⟩ (tableModel m1 m2 "x1").marg.length o.form
        ⟨toMarg (tableModel m1 m2 "x1"), []⟩ = some (ev, .inl r)) ∧
      ∃ c : CfResult (tableModel m1 m2 "x1").marg.length, (SensObj.run lib (Obj.new (tableG "x1") (some o)) false 0.01 1 (fun _ => tableModel m1 m2 "x1")).2 = .ok (.ofCf c) := by
  intro o
  obtain ⟨m1, h1⟩ : ∃ m, Normal.new 1 (.fin 3) none = .ok m := ⟨_, rfl⟩
  obtain ⟨m2, h2⟩ : ∃ m, Normal.new 2 (.fin 2) none = .ok m := ⟨_, rfl⟩
  obtain ⟨hm, ha⟩ := tableModel_normal h1 h2 (show "x1" ≠ "x2" by decide)
  have ho : Ordinary o lib.fuel := by
    constructor <;> first | (simp [o]; done) | (norm_num [o]; done) | (simp [o]; omega)
  have hV : ∑ i : Fin 2, ((![-1, -2] : Fin 2 → ℝ) i * (![3, 2] : Fin 2 → ℝ) i) ^ 2 = 5 ^ 2 := by
    simp [Fin.sum_univ_two]; norm_num
  have hr : √(∑ i : Fin 2, ((![-1, -2] : Fin 2 → ℝ) i * (![3, 2] : Fin 2 → ℝ) i) ^ 2) = 5 := by
    rw [hV]; exact Real.sqrt_sq (by norm_num)
  have hbeta : affineBeta 7 ![-1, -2] ![1, 2] ![3, 2] = 2 / 5 := by
    unfold affineBeta
    rw [hr]
    simp [Fin.sum_univ_two]; norm_num
  obtain ⟨c1, -⟩ := C94_affine lib hla hfuel (fun _ => tableModel m1 m2 "x1") hm (by intro i; fin_cases i <;> simp) ha
    (δ := 0.01) (by norm_num) (fresh := 1) one_pos
  obtain ⟨c, hc, -⟩ := c1 (by rw [hbeta]; norm_num [abs_of_pos]) (some o) (fun o' h => by injection h with h; rw [← h]; exact ho)
  refine ⟨m1, m2, h1, h2, ?_, c, hc⟩
  unfold SensObj.run at hc
  rw [if_neg (by simp)] at hc
  rcases hx : cfSensModel lib (Obj.new (tableG "x1") (some o)) (tableModel m1 m2 "x1").marg.length (tableModel m1 m2 "x1") with ⟨m', e | r⟩
  · rw [hx] at hc; cases hc
  · obtain ⟨ev, t, r, ev', hi, hr, -⟩ := cfSensModel_ok hx
    refine ⟨ev', r, ?_⟩
    unfold formRun withInit
    have hset : (Obj.new (tableG "x1") (some o)).setup lib = ⟨lib.fmin, lib.default, lib.la, fun _ _ => [], o.ty, tableG "x1", o.ls, lib.fuel⟩ := rfl
    rw [hset] at hi hr
    rw [hi]
    dsimp only
    have hopt : (Obj.new (tableG "x1") (some o)).options.form = o.form := rfl
    rw [hopt] at hr
    rw [hr]

end Pystra.Props
