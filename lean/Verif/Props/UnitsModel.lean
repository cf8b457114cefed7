import Verif.Props.UnitsSim
import Verif.Lemmas.Stochastic

/-! C90: a model built and analysed in other units. -/

namespace Pystra.Props
open LimitState Spec Form Matrix Transformation StochModel

variable {U : Units} {D : String → Set ℝ}

/-! ### Building the model -/

theorem set_names {A B : Type} {a : Dict String A} {b : Dict String B} (h : List.Forall₂ (fun p p' => p'.1 = p.1) a b) (k : String)
    (v : A) (w : B) : List.Forall₂ (fun p p' => p'.1 = p.1) (a.set k v) (b.set k w) := by
  induction h with
  | nil => exact .cons rfl .nil
  | @cons p q s t hpq hst ih =>
    obtain ⟨k1, v1⟩ := p
    obtain ⟨k2, v2⟩ := q
    dsimp only at hpq
    subst hpq
    unfold Dict.set
    by_cases hk : k2 = k
    · rw [if_pos hk, if_pos hk]; exact .cons rfl hst
    · rw [if_neg hk, if_neg hk]; exact .cons rfl ih

theorem consts_set (U : Units) (c : Dict String ℝ) (k : String) (v : ℝ) :
    (c.set k v).map (fun p : String × ℝ => (p.1, U.conv p.1 p.2)) =
      Dict.set (c.map fun p : String × ℝ => (p.1, U.conv p.1 p.2)) k (U.conv k v) := by
  induction c with
  | nil => rfl
  | cons p t ih =>
    obtain ⟨k', v'⟩ := p
    by_cases h : k' = k
    · simp [Dict.set, h]
    · simp [Dict.set, h, ih]

theorem step_units {m m' : StochModel Marginal ℝ} (h : ModelInUnits U D m m') {op op' : Op Marginal ℝ} (ho : OpInUnits U D op op') :
    ModelInUnits U D (m.step op).1 (m'.step op').1 := by
  cases ho with
  | other => exact h
  | same _ hop =>
    cases op with
    | add o => exact absurd rfl (hop o)
    | setCorr c => exact ⟨h.vars, h.names, h.marg, rfl, h.Ro, h.callFunction, h.consts⟩
    | setRo c => exact ⟨h.vars, h.names, h.marg, h.correlation, rfl, h.callFunction, h.consts⟩
    | calls k => exact ⟨h.vars, h.names, h.marg, h.correlation, h.Ro, by simp [step, addCallFunction, h.callFunction], h.consts⟩
  | «variable» name b b' hb =>
    simp only [step, addVariable]
    rw [h.names]
    by_cases hn : name ∈ m.names
    · rw [if_pos hn, if_pos hn]; exact h
    · rw [if_neg hn, if_neg hn]
      refine ⟨set_names h.vars _ _ _, by simp [h.names], ?_, ?_, h.Ro, h.callFunction, h.consts⟩
      · exact List.rel_append h.marg (.cons ⟨rfl, hb⟩ .nil)
      · simp [h.marg.length_eq]
  | constant name v =>
    simp only [step, addVariable]
    rw [h.names]
    by_cases hn : name ∈ m.names
    · rw [if_pos hn, if_pos hn]; exact h
    · rw [if_neg hn, if_neg hn]
      refine ⟨h.vars, by simp [h.names], h.marg, h.correlation, h.Ro, h.callFunction, ?_⟩
      simp only [h.consts, consts_set]

theorem run_units {h h' : List (Op Marginal ℝ)} (hh : List.Forall₂ (OpInUnits U D) h h') :
    ∀ {m m' : StochModel Marginal ℝ}, ModelInUnits U D m m' → ModelInUnits U D (m.run h) (m'.run h') := by
  induction hh with
  | nil => intro m m' hm; exact hm
  | cons ho _ ih => intro m m' hm; exact ih (step_units hm ho)

/-- **C90 (building).**  The program that builds a model, with every number in the new units, builds the model in the new units. -/
theorem C90_model {h h' : List (Op Marginal ℝ)} (hh : List.Forall₂ (OpInUnits U D) h h') :
    ModelInUnits U D (init.run h) (init.run h') :=
  run_units hh ⟨.nil, rfl, .nil, rfl, rfl, rfl, rfl⟩

/-! ### The modified correlation -/

theorem standardised_units {off fac : ℝ} (hf : fac ≠ 0) {S : Set ℝ} {m m' : Marginal} (h : Rescaled off fac S m m') (z : ℝ) :
    (m'.uToX z - m'.mean) / m'.stdv = (m.uToX z - m.mean) / m.stdv := by
  rw [h.uToX, h.mean, h.stdv, show off + fac * m.uToX z - (off + fac * m.mean) = fac * (m.uToX z - m.mean) by ring,
    mul_div_mul_left _ _ hf]

theorem pairRho0_units {o1 f1 o2 f2 : ℝ} (h1 : f1 ≠ 0) (h2 : f2 ≠ 0) {S1 S2 : Set ℝ} {mi mi' mj mj' : Marginal}
    (hi : Rescaled o1 f1 S1 mi mi') (hj : Rescaled o2 f2 S2 mj mj') (fmin : Correlation.Fmin) (rho : ℝ) :
    Correlation.pairRho0 fmin rho mi' mj' = Correlation.pairRho0 fmin rho mi mj := by
  unfold Correlation.pairRho0 Integration.ziAndXi
  dsimp only
  cases Quadrature.quadratureRule (Correlation.selectNIP rho) with
  | error e => rfl
  | ok w =>
    dsimp only
    have e : ∀ (g g' : Integration.Grid), g'.nIP = g.nIP → g'.Z1 = g.Z1 → g'.Z2 = g.Z2 → g'.WIP = g.WIP → g'.detJ = g.detJ →
        (∀ i j, (g'.X1 i j - mi'.mean) / mi'.stdv = (g.X1 i j - mi.mean) / mi.stdv) →
        (∀ i j, (g'.X2 i j - mj'.mean) / mj'.stdv = (g.X2 i j - mj.mean) / mj.stdv) →
        Correlation.absoluteIntegralValue rho mi' mj' g' = Correlation.absoluteIntegralValue rho mi mj g := by
      intro g g' e1 e2 e3 e4 e5 e6 e7
      funext r
      unfold Correlation.absoluteIntegralValue Integration.rhoIntegral
      simp only [e1, e2, e3, e4, e5, e6, e7]
    by_cases hr : rho ≠ 0
    · rw [if_pos hr, if_pos hr]
      congr 2
      exact e _ _ rfl rfl rfl rfl rfl (fun i j => standardised_units h1 hi _) (fun i j => standardised_units h2 hj _)
    · rw [if_neg hr, if_neg hr]

theorem foldlM_congr {α β : Type} (f g : β → α → Except PyErr β) (l : List α) (h : ∀ b, ∀ a ∈ l, f b a = g b a) :
    ∀ b, l.foldlM f b = l.foldlM g b := by
  induction l with
  | nil => intro b; rfl
  | cons a l ih =>
    intro b
    rw [List.foldlM_cons, List.foldlM_cons, h b a (List.mem_cons_self)]
    cases g b a with
    | error e => rfl
    | ok b' => exact ih (fun b a ha => h b a (List.mem_cons_of_mem _ ha)) b'

theorem marg_units (hU : ∀ k, U.fac k ≠ 0) {m m' : StochModel Marginal ℝ} (h : ModelInUnits U D m m') (d : Marginal) {i : ℕ}
    (hi : i < m.marg.length) : ∃ o, o = m.marg[i] ∧ U.fac o.name ≠ 0 ∧
      Rescaled (U.off o.name) (U.fac o.name) (D o.name) ((m.marg.map DistObj.body).getD i d) ((m'.marg.map DistObj.body).getD i d) := by
  have hi' : i < m'.marg.length := h.marg.length_eq ▸ hi
  have := (h.marg.get hi hi').2
  refine ⟨_, rfl, hU _, ?_⟩
  simpa [List.getD_eq_getElem?_getD, hi, hi'] using this

theorem compute_units (hU : ∀ k, U.fac k ≠ 0) {m m' : StochModel Marginal ℝ} (h : ModelInUnits U D m m') (fmin : Correlation.Fmin)
    (d : Marginal) : Correlation.compute fmin d m' = Correlation.compute fmin d m := by
  unfold Correlation.compute getCorrelation
  rw [h.correlation]
  rcases m.correlation with _ | R
  · rfl
  dsimp only
  by_cases hR : R.ncol = R.nrow
  · rw [dif_pos hR, dif_pos hR]
    have e : Correlation.computeSquare fmin m'.marg.length (fun i => (m'.marg.map DistObj.body).getD i d) (n := R.nrow)
          (fun a b => R.val a (Fin.cast hR.symm b)) =
        Correlation.computeSquare fmin m.marg.length (fun i => (m.marg.map DistObj.body).getD i d) (n := R.nrow)
          (fun a b => R.val a (Fin.cast hR.symm b)) := by
      unfold Correlation.computeSquare
      rw [← h.marg.length_eq, foldlM_congr _ _ _ ?_]
      rintro Ro ⟨i, j⟩ hp
      unfold Correlation.pairs at hp
      simp only [List.mem_flatMap, List.mem_range, List.mem_map, Prod.mk.injEq] at hp
      obtain ⟨i', hi, j', hj, rfl, rfl⟩ := hp
      obtain ⟨o1, -, f1, r1⟩ := marg_units hU h d hi
      obtain ⟨o2, -, f2, r2⟩ := marg_units hU h d (hj.trans hi)
      unfold Correlation.loopBody
      simp only [pairRho0_units f1 f2 r1 r2]
    rw [e]
  · rw [dif_neg hR, dif_neg hR]

/-- **C90 (correlation).**  The modified correlation matrix does not depend on the units. -/
theorem C90_correlation (hU : ∀ k, U.fac k ≠ 0) {m m' : StochModel Marginal ℝ} (h : ModelInUnits U D m m') (fmin : Correlation.Fmin)
    (d : Marginal) :
    ModelInUnits U D (Correlation.setModified fmin d m).1 (Correlation.setModified fmin d m').1 ∧
      (Correlation.setModified fmin d m').2 = (Correlation.setModified fmin d m).2 := by
  unfold Correlation.setModified
  rw [compute_units hU h]
  cases Correlation.compute fmin d m with
  | error e => exact ⟨h, rfl⟩
  | ok Ro => exact ⟨⟨h.vars, h.names, h.marg, h.correlation, rfl, h.callFunction, h.consts⟩, rfl⟩

end Pystra.Props
