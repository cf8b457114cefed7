import Verif.Props.ExtraModel
import Verif.Props.OrderExample

/-! C92: normal extra variables, and a concrete pair of models. -/

namespace Pystra.Props
open Matrix Spec Transformation Form LimitState StochModel Session

/-- A normal variable with the default start point (its mean) is at rest. -/
theorem normal_rest {μ s : ℝ} (hs : 0 < s) {m : Marginal} (h : Normal.new μ (.fin s) none = .ok m) :
    m.xToU m.startpoint = 0 ∧ m.jac 0 (m.uToX 0) ≠ 0 := by
  obtain ⟨-, h2, h3, -, -, h6⟩ := normal_ok h
  rw [h6, h3, h2]
  simp [Normal.xToU, Normal.jac, hs.ne']

/-- Two correlated variables and an independent one. -/
noncomputable def extraR : Matrix (Fin 3) (Fin 3) ℝ := !![1, 1/2, 0; 1/2, 1, 0; 0, 0, 1]

theorem extraR_symm : extraR.IsSymm := by
  ext i j; fin_cases i <;> fin_cases j <;> simp [extraR]

theorem extraR_posDef : extraR.PosDef := by
  rw [posDef_iff_dotProduct_mulVec]
  refine ⟨by ext i j; fin_cases i <;> fin_cases j <;> simp [extraR], fun x hx => ?_⟩
  have e : star x ⬝ᵥ extraR *ᵥ x = x 0 ^ 2 + x 0 * x 1 + x 1 ^ 2 + x 2 ^ 2 := by
    simp only [star_trivial, dotProduct, mulVec, Fin.sum_univ_three, extraR]
    simp
    ring
  rw [e]
  have h0 : x 0 ≠ 0 ∨ x 1 ≠ 0 ∨ x 2 ≠ 0 := by
    by_contra h
    push Not at h
    apply hx
    funext i; fin_cases i <;> simp [h.1, h.2.1, h.2.2]
  rcases h0 with h | h | h <;>
    nlinarith [sq_nonneg (x 0 + x 1), sq_pos_of_ne_zero h, sq_nonneg (x 0), sq_nonneg (x 1), sq_nonneg (x 2)]

/-- The large model. -/
noncomputable def extraModel (m d : Marginal) : StochModel Marginal ℝ :=
  init.run [.add (.distribution ⟨"x1", m⟩), .add (.distribution ⟨"x2", m⟩), .add (.distribution ⟨"x3", d⟩), .setCorr ⟨3, 3, extraR⟩]

theorem extraModel_eq (m d : Marginal) :
    extraModel m d = ⟨[("x1", ⟨"x1", m⟩), ("x2", ⟨"x2", m⟩), ("x3", ⟨"x3", d⟩)], ["x1", "x2", "x3"], [⟨"x1", m⟩, ⟨"x2", m⟩, ⟨"x3", d⟩],
      some ⟨3, 3, extraR⟩, none, 0, []⟩ := by
  simp [extraModel, StochModel.run, StochModel.step, StochModel.init, addVariable, setCorrelation, Dict.set]

theorem extra_last {j : Fin 3} (h : IsExtra (n := 2) Fin.castSuccEmb j) : j = 2 := by
  have h0 := h 0
  have h1 := h 1
  fin_cases j
  · exact absurd rfl h0
  · exact absurd rfl h1
  · rfl

/-- The hypotheses of `C92_form` are met by these two models. -/
theorem extra_pair (m d : Marginal) :
    EvExtra (n := 2) (k := 3) Fin.castSuccEmb ⟨orderModel m "x1" "x2", []⟩ ⟨extraModel m d, []⟩ := by
  refine ⟨⟨_, rfl⟩, ⟨_, rfl⟩, ?_⟩
  rw [orderModel_eq m (by decide), extraModel_eq]
  refine ⟨⟨![⟨"x1", m⟩, ⟨"x2", m⟩], ![⟨"x1", m⟩, ⟨"x2", m⟩, ⟨"x3", d⟩], by simp [List.ofFn_succ], by simp [List.ofFn_succ], ?_⟩,
    ⟨extraR, extraR_symm, ?_, rfl, ?_⟩, fun k => rfl⟩
  · intro i; fin_cases i <;> rfl
  · intro i j hj
    rw [extra_last hj]
    fin_cases i <;> simp [extraR]
  · have : extraR.submatrix (Fin.castSuccEmb : Fin 2 ↪ Fin 3) (Fin.castSuccEmb : Fin 2 ↪ Fin 3) = orderR := by
      ext i j; fin_cases i <;> fin_cases j <;> simp [extraR, orderR]
    rw [this]

/-- **C92 (example).**  Two correlated standard normal variables and `g = 1 + x₁`; a third normal variable with any mean and standard
deviation is added: FORM ends on both models, with the same `β` and direction cosines, and 0 for the third variable. -/
theorem C92_example {la : LinAlg} (hla : LinAlgOK la) {m d : Marginal} (hm : Normal.new 0 (.fin 1) none = .ok m) {μ sd : ℝ} (hsd : 0 < sd)
    (hd : Normal.new μ (.fin sd) none = .ok d) (fuel : ℕ) (hfuel : 100 ≤ fuel) :
    ∃ s r s' r', formRun (orderSetup la m fuel) 2 ⟨100, 0.001, 0.001, 1, 1⟩ ⟨orderModel m "x1" "x2", []⟩ = some (s, .inl r) ∧
      formRun (orderSetup la m fuel) 3 ⟨100, 0.001, 0.001, 1, 1⟩ ⟨extraModel m d, []⟩ = some (s', .inl r') ∧
      r'.beta = r.beta ∧ r'.i = r.i ∧ r'.alpha 0 = r.alpha 0 ∧ r'.alpha 1 = r.alpha 1 ∧ r'.alpha 2 = 0 := by
  have e1 := orderModel_eq m (n1 := "x1") (n2 := "x2") (by decide)
  obtain ⟨s, r, L, h1, h2, h3⟩ := order_pair hla hm fuel hfuel ⟨orderModel m "x1" "x2", []⟩ ⟨_, rfl⟩ "x1" "x2" (by rw [e1]) (by rw [e1])
    ![1, 0] (by intro h; simpa using congrFun h 0)
    (by intro p; rw [e1]; simp [pointArgs, getVariables, getConstants, Dict.keys, Dict.get?, List.ofFn_succ])
  have hr := C92_cholesky (extra_pair m d) (by norm_num) (fun a b h => by simpa using h) (orderSetup la m fuel) hla rfl
    (vectorise_byName fun a => 1 + (a "x1").getD 0)
    (by
      intro a b hab
      dsimp only
      rw [hab "x1"]
      rintro ⟨j, hj, o, ho, hname⟩
      rw [extra_last hj, extraModel_eq] at ho
      simp at ho
      rw [← ho] at hname
      simp at hname)
    (by
      intro j hj o ho
      rw [extra_last hj, extraModel_eq] at ho
      simp at ho
      rw [← ho]
      exact normal_rest hsd hd)
    (by
      intro Ro hRo
      have := compute_start (n := 3) (m := extraModel m d) (R := extraR) (by rw [extraModel_eq]; rfl) (by rw [extraModel_eq]) extraR_symm
        (fun i => by fin_cases i <;> simp [extraR]) m
      change Correlation.compute (fun _ x => x) m (extraModel m d) = _ at hRo
      rw [this] at hRo
      simp only [Except.ok.injEq, NDArray2.mk.injEq, heq_eq_eq, true_and] at hRo
      rw [← hRo]
      exact extraR_posDef)
    (by norm_num [orderSetup]) (by simp [orderSetup]) ⟨100, 0.001, 0.001, 1, 1⟩
  rw [h1] at hr
  rcases e2 : formRun (orderSetup la m fuel) 3 ⟨100, 0.001, 0.001, 1, 1⟩ ⟨extraModel m d, []⟩ with _ | ⟨s', o⟩ <;> rw [e2] at hr
  · exact hr.elim
  · rcases hr.2 with ⟨q, q', x1, x2, hx⟩ | ⟨x1, -⟩ | ⟨e, x1, -⟩
    · simp only [Sum.inl.injEq] at x1 x2
      subst x1
      subst x2
      refine ⟨s, r, s', q', h1, rfl, hx.beta, hx.i, hx.alpha 0, hx.alpha 1, hx.alphaExtra 2 ?_⟩
      intro i; fin_cases i <;> decide
    · cases x1
    · cases x1

end Pystra.Props
