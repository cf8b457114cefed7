import Verif.Props.UnitsRuns

/-! C90: simulations of a model written down in other units. -/

namespace Pystra.Props
open LimitState Spec Form Matrix Transformation MonteCarlo

variable {n : ℕ} {σ τ : Type} {U : Units} {names : Fin n → String} {D : Fin n → Set ℝ} {marg marg' : Fin n → Marginal}
  {R : σ → τ → Prop} {ev : Evaluator σ n} {ev' : Evaluator τ n}

theorem keep_units {a b : Kept n} (h : KeptInUnits U names a b) (xs us : List (Fin n → ℝ)) :
    KeptInUnits U names (keep a xs us) (keep b (xs.map (U.point names)) us) := by
  cases h with
  | none => exact .cols xs
  | cols c => exact .flat c (rowMajor us)
  | flat c l =>
    simp only [keep, List.append_assoc]
    exact .flat c (l ++ rowMajor us)

theorem mcValues (h : MargInUnits U names D marg marg') (hs : Sim R ev (Units.pull U names ev')) (t : Mats n) {a : σ} {b : τ}
    (hR : R a b) (us : List (Fin n → ℝ)) :
    ∃ a' b' o, R a' b' ∧ ev.values a (us.map (uToX t marg)) = (a', o) ∧ ev'.values b (us.map (uToX t marg')) = (b', o) := by
  rw [pull_values h]
  obtain ⟨a', b', o, h1, h2, h3⟩ := (show RP R _ _ from hs.values a b hR (us.map (uToX t marg))).cases
  exact ⟨a', b', o, h1, h2, h3⟩

theorem mcPoints (h : MargInUnits U names D marg marg') (t : Mats n) (us : List (Fin n → ℝ)) :
    us.map (uToX t marg') = (us.map (uToX t marg)).map (U.point names) := by
  rw [List.map_map]
  exact List.map_congr_left fun u _ => uToX_units h t u

theorem mcBlock_units (h : MargInUnits U names D marg marg') (hs : Sim R ev (Units.pull U names ev')) (t : Mats n)
    (opt : MonteCarlo.Options) (point : Fin n → ℝ) (ω : ℕ → ℝ) {x : State σ n} {y : State τ n} (hR : SimStateInUnits U names R x y) :
    ExRel R (SimStateInUnits U names R) (block t marg ev opt point ω x) (block t marg' ev' opt point ω y) := by
  obtain ⟨k, pos, sq, sq2, qb, cov, uA, xA, aG, bA, s⟩ := x
  obtain ⟨k', pos', sq', sq2', qb', cov', uA', xA', aG', bA', s'⟩ := y
  obtain ⟨h1, h2, h3, h4, h5, h6, h7, hx, h8, h9, hs'⟩ := hR
  dsimp only at h1 h2 h3 h4 h5 h6 h7 hx h8 h9 hs'
  subst h1 h2 h3 h4 h5 h6 h7 h8 h9
  unfold block
  dsimp only
  cases randomNumbers opt point ω (min opt.blockSize (opt.samples - k')) pos' with
  | error e => exact .error _ hs'
  | ok us =>
    obtain ⟨a', b', o, hR', e1, e2⟩ := mcValues h hs t hs' us
    simp only [e1, e2]
    cases o with
    | error e => exact .error _ hR'
    | ok G =>
      refine .ok ⟨rfl, rfl, rfl, rfl, rfl, rfl, rfl, ?_, rfl, rfl, hR'⟩
      dsimp only
      rw [mcPoints h]
      exact keep_units hx _ _

theorem mcLoop_units (h : MargInUnits U names D marg marg') (hs : Sim R ev (Units.pull U names ev')) (t : Mats n)
    (opt : MonteCarlo.Options) (point : Fin n → ℝ) (ω : ℕ → ℝ) (fuel : ℕ) : ∀ {x : State σ n} {y : State τ n},
    SimStateInUnits U names R x y →
    RelOpt (ExRel R (SimStateInUnits U names R)) (loop t marg ev opt point ω fuel x) (loop t marg' ev' opt point ω fuel y) := by
  induction fuel with
  | zero =>
    intro x y hR
    unfold MonteCarlo.loop
    rw [hR.k]
    by_cases hk : x.k < opt.samples
    · rw [if_pos hk, if_pos hk]; exact trivial
    · rw [if_neg hk, if_neg hk]; exact .ok hR
  | succ fuel ih =>
    intro x y hR
    unfold MonteCarlo.loop
    rw [hR.k]
    by_cases hk : x.k < opt.samples
    · rw [if_pos hk, if_pos hk]
      have hb := mcBlock_units h hs t opt point ω hR
      rcases e1 : block t marg ev opt point ω x with p | p <;> rcases e2 : block t marg' ev' opt point ω y with q | q <;>
        rw [e1, e2] at hb
      · cases hb with | error e hR => exact .error _ hR
      · cases hb
      · cases hb
      · cases hb with
        | ok hq =>
          dsimp only
          rw [hq.covQBar]
          by_cases hc : p.covQBar ≤ opt.cov
          · rw [if_pos hc, if_pos hc]; exact .ok hq
          · rw [if_neg hc, if_neg hc]; exact ih hq
    · rw [if_neg hk, if_neg hk]; exact .ok hR

/-- Results of a simulation in the new units. -/
def SimResultInUnits (U : Units) (names : Fin n → String) (R : σ → τ → Prop) (r : MonteCarlo.Result σ n) (r' : MonteCarlo.Result τ n) :
    Prop := SimStateInUnits U names R r.st r'.st ∧ r'.Pf = r.Pf ∧ r'.beta = r.beta

theorem mcRun_units (h : MargInUnits U names D marg marg') (hs : Sim R ev (Units.pull U names ev')) (t : Mats n)
    (opt : MonteCarlo.Options) (point : Option (Fin n → ℝ)) (ω : ℕ → ℝ) (pos fuel : ℕ) {a : σ} {b : τ} (hR : R a b) :
    RelOpt (ExRel R (SimResultInUnits U names R)) (MonteCarlo.run t marg ev opt point ω pos fuel a)
      (MonteCarlo.run t marg' ev' opt point ω pos fuel b) := by
  unfold MonteCarlo.run runOn
  dsimp only
  by_cases h0 : opt.stdv = 0
  · rw [if_pos h0, if_pos h0]; exact .error _ hR
  rw [if_neg h0, if_neg h0]
  by_cases h1 : opt.samples = 0
  · rw [if_pos h1, if_pos h1]; exact .error _ hR
  rw [if_neg h1, if_neg h1]
  unfold Records.fresh
  dsimp only
  have hl := mcLoop_units h hs t opt (point.getD fun _ => 0) ω fuel (x := ⟨0, pos, 0, 0, 0, 1, .none, .none, [], [], a⟩)
    (y := ⟨0, pos, 0, 0, 0, 1, .none, .none, [], [], b⟩) ⟨rfl, rfl, rfl, rfl, rfl, rfl, rfl, .none, rfl, rfl, hR⟩
  rcases e1 : loop t marg ev opt (point.getD fun _ => 0) ω fuel ⟨0, pos, 0, 0, 0, 1, .none, .none, [], [], a⟩ with _ | p | p <;>
    rcases e2 : loop t marg' ev' opt (point.getD fun _ => 0) ω fuel ⟨0, pos, 0, 0, 0, 1, .none, .none, [], [], b⟩ with _ | q | q <;>
    rw [e1, e2] at hl
  · exact trivial
  · exact hl.elim
  · exact hl.elim
  · exact hl.elim
  · cases hl with | error e hR => exact .error _ hR
  · cases hl
  · exact hl.elim
  · cases hl
  · cases hl with
    | ok hq => exact .ok ⟨hq, by simp only [finish, hq.sumQ, hq.qBar], by simp only [finish, hq.sumQ, hq.qBar]⟩

/-- States of a distribution analysis in the new units. -/
def DStateInUnits (U : Units) (names : Fin n → String) (R : σ → τ → Prop) (x : DState σ n) (y : DState τ n) : Prop :=
  y.k = x.k ∧ y.pos = x.pos ∧ y.allX = x.allX.map (U.point names) ∧ y.allG = x.allG ∧ R x.s y.s

theorem dLoop_units (h : MargInUnits U names D marg marg') (hs : Sim R ev (Units.pull U names ev')) (t : Mats n)
    (opt : MonteCarlo.Options) (ω : ℕ → ℝ) (fuel : ℕ) : ∀ {x : DState σ n} {y : DState τ n},
    DStateInUnits U names R x y →
    RelOpt (ExRel R (DStateInUnits U names R)) (dLoop t marg ev opt ω fuel x) (dLoop t marg' ev' opt ω fuel y) := by
  induction fuel with
  | zero =>
    intro x y hR
    unfold dLoop
    rw [hR.1]
    by_cases hk : x.k < opt.samples
    · rw [if_pos hk, if_pos hk]; exact trivial
    · rw [if_neg hk, if_neg hk]; exact .ok hR
  | succ fuel ih =>
    intro x y hR
    obtain ⟨k, pos, X, G, s⟩ := x
    obtain ⟨k', pos', X', G', s'⟩ := y
    obtain ⟨h1, h2, h3, h4, hs'⟩ := hR
    dsimp only at h1 h2 h3 h4 hs'
    subst h1 h2 h3 h4
    unfold dLoop
    dsimp only
    by_cases hk : k' < opt.samples
    · rw [if_pos hk, if_pos hk]
      cases randomNumbers opt (fun _ => 0) ω (min opt.blockSize (opt.samples - k')) pos' with
      | error e => exact .error _ hs'
      | ok us =>
        obtain ⟨a', b', o, hR', e1, e2⟩ := mcValues h hs t hs' us
        simp only [e1, e2]
        cases o with
        | error e => exact .error _ hR'
        | ok G =>
          refine ih ⟨rfl, rfl, ?_, rfl, hR'⟩
          dsimp only
          rw [mcPoints h, List.map_append]
    · rw [if_neg hk, if_neg hk]; exact .ok ⟨rfl, rfl, rfl, rfl, hs'⟩

end Pystra.Props
