import Verif.Props.SensObjectAffine
import Verif.Props.OrderExample

/-! C94 and C52 (affine limit states): a concrete case; a variable called `"marginal"`. -/

namespace Pystra.Props
open Spec Matrix Transformation Form Sensitivity StochModel SensObj

/-- Two normal variables, of which the first is called `n1`. -/
noncomputable def tableModel (m1 m2 : Marginal) (n1 : String) : StochModel Dist ℝ :=
  StochModel.init.run [.add (.distribution ⟨n1, normalDist m1⟩), .add (.distribution ⟨"x2", normalDist m2⟩)]

theorem tableModel_eq (m1 m2 : Marginal) {n1 : String} (h : n1 ≠ "x2") :
    tableModel m1 m2 n1 = ⟨[(n1, ⟨n1, normalDist m1⟩), ("x2", ⟨"x2", normalDist m2⟩)], [n1, "x2"],
      [⟨n1, normalDist m1⟩, ⟨"x2", normalDist m2⟩], some (NDArray2.eye 2), none, 0, []⟩ := by
  simp [tableModel, StochModel.run, StochModel.step, StochModel.init, addVariable, Dict.set, h, h.symm]

/-- `g = 7 - n1 - 2 x2`. -/
noncomputable def tableG (n1 : String) : Kwargs → GRet := vectorise fun a => 7 - (a n1).getD 0 - 2 * (a "x2").getD 0

theorem tableModel_normal {m1 m2 : Marginal} (h1 : Normal.new 1 (.fin 3) none = .ok m1) (h2 : Normal.new 2 (.fin 2) none = .ok m2)
    {n1 : String} (h : n1 ≠ "x2") :
    NormalModel (tableModel m1 m2 n1) ![n1, "x2"] ![1, 2] ![3, 2] (fun _ => none) ∧
    AffineIn (tableModel m1 m2 n1) (tableG n1) 7 ![-1, -2] := by
  have e := tableModel_eq m1 m2 h
  refine ⟨⟨⟨_, rfl⟩, ⟨![m1, m2], ?_, ?_⟩, by rw [e]⟩, ⟨⟨_, pointwise_of_byName (vectorise_byName _), ?_⟩, ?_⟩⟩
  · intro i; fin_cases i
    · exact h1
    · exact h2
  · rw [e]; simp
  · intro p
    rw [e]
    simp [pointArgs, getVariables, getConstants, Dict.keys, Dict.get?, h, Fin.sum_univ_two]
    ring
  · intro h0; simpa using congrFun h0 0

theorem get?_two (f : Fin 2 → Dict String ℝ) :
    Dict.get? (List.ofFn fun k => ((![ "marginal", "x2" ] : Fin 2 → String) k, f k) : Dict String (Dict String ℝ)) "marginal" = some (f 0) := by
  simp only [List.ofFn_succ, Dict.get?]
  simp

theorem rows_two {n1 : String} (f : Fin 2 → ℝ) : ∃ s1 s2, Except.ok (ε := PyErr) (expectedRows (List.ofFn fun k : Fin 2 =>
    ((![n1, "x2"] : Fin 2 → String) k, [("mean", (![-1, -2] : Fin 2 → ℝ) k / 5), ("std", f k)]))) =
    .ok [⟨n1, "mean", .num (-1 / 5)⟩, ⟨n1, "std", .num s1⟩, ⟨"x2", "mean", .num (-2 / 5)⟩, ⟨"x2", "std", .num s2⟩] := by
  refine ⟨f 0, f 1, ?_⟩
  simp [expectedRows, List.ofFn_succ]

/-- **C94, a concrete case**: means 1 and 2, standard deviations 3 and 2, `g = 7 - n1 - 2 x2`.  The closed form gives this table,
whatever the name of the first variable; finite differences succeed too, and give a table unless the first variable is called
`"marginal"`. -/
theorem C94_example (lib : Lib) (hla : LinAlgOK lib.la) (hfuel : 100 ≤ lib.fuel) {n1 : String} (h : n1 ≠ "x2") :
    ∃ m1 m2, Normal.new 1 (.fin 3) none = .ok m1 ∧ Normal.new 2 (.fin 2) none = .ok m2 ∧
    (∃ v, (SensObj.run lib (Obj.new (tableG n1) none) false 0.01 1 (fun _ => tableModel m1 m2 n1)).2 = .ok v ∧
      summary v = .ok [⟨n1, "mean", .num (-1 / 5)⟩, ⟨n1, "std", .num (-6 / 125)⟩, ⟨"x2", "mean", .num (-2 / 5)⟩,
        ⟨"x2", "std", .num (-16 / 125)⟩]) ∧
    ∀ options, ∃ v, (SensObj.run lib (Obj.new (tableG n1) options) true 0.01 1 (fun _ => tableModel m1 m2 n1)).2 = .ok v ∧
      (n1 = "marginal" → summary v = .error .attributeError) ∧
      (n1 ≠ "marginal" → ∃ s1 s2, summary v = .ok [⟨n1, "mean", .num (-1 / 5)⟩, ⟨n1, "std", .num s1⟩, ⟨"x2", "mean", .num (-2 / 5)⟩,
        ⟨"x2", "std", .num s2⟩]) := by
  obtain ⟨m1, h1⟩ : ∃ m, Normal.new 1 (.fin 3) none = .ok m := ⟨_, rfl⟩
  obtain ⟨m2, h2⟩ : ∃ m, Normal.new 2 (.fin 2) none = .ok m := ⟨_, rfl⟩
  obtain ⟨hm, ha⟩ := tableModel_normal h1 h2 h
  have hV : ∑ i : Fin 2, ((![-1, -2] : Fin 2 → ℝ) i * (![3, 2] : Fin 2 → ℝ) i) ^ 2 = 5 ^ 2 := by
    simp [Fin.sum_univ_two]; norm_num
  have hr : √(∑ i : Fin 2, ((![-1, -2] : Fin 2 → ℝ) i * (![3, 2] : Fin 2 → ℝ) i) ^ 2) = 5 := by
    rw [hV]; exact Real.sqrt_sq (by norm_num)
  have hbeta : affineBeta 7 ![-1, -2] ![1, 2] ![3, 2] = 2 / 5 := by
    unfold affineBeta
    rw [hr]
    simp [Fin.sum_univ_two]; norm_num
  obtain ⟨c1, c2, -⟩ := C94_affine lib hla hfuel (fun _ => tableModel m1 m2 n1) hm (by intro i; fin_cases i <;> simp) ha
    (δ := 0.01) (by norm_num) (fresh := 1) one_pos
  obtain ⟨t1, t2, t3⟩ := C94_table
  refine ⟨m1, m2, h1, h2, ?_, fun options => ⟨_, c2 options, fun hn => ?_, fun hn => ?_⟩⟩
  · obtain ⟨c, e1, e2⟩ := c1 (by rw [hbeta]; norm_num [abs_of_pos]) none (by simp)
    refine ⟨_, e1, ?_⟩
    rw [t1, e2]
    simp only [exactMean, exactStd, hbeta, hV, hr, List.ofFn_succ, List.ofFn_zero, expectedRows]
    simp
    norm_num
  · subst hn
    exact t3 _ _ (get?_two _) (List.cons_ne_nil _ _)
  · rw [t2 _ (by simp [List.ofFn_succ, Dict.keys, Ne.symm hn])]
    simp only [exactMean, hr]
    exact rows_two _

end Pystra.Props
