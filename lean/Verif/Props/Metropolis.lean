import Verif.Lemmas.Metropolis2
import Verif.Props.MonteCarlo

/-! C42: the Metropolis kernel of subset simulation. -/

namespace Pystra.Props
open Spec MeasureTheory ProbabilityTheory Form Transformation Subset
open scoped ENNReal NNReal

variable {σ : Type} {n : ℕ}

/-- C42: whatever the other draws, with the acceptance draw `b` uniform the component `d` of the proposal is the candidate
`ξ` with probability `min(1, φ(ξ)/φ(u))`, and stays at `u` otherwise. -/
theorem C42_acceptance (sigma : ℝ) (υ : ℕ → ℝ) (pos : ℕ) (u : Fin n → ℝ) (d : Fin n) :
    unif01 {b | proposal sigma (Function.update υ (pos + 2 * d.val + 1) b) pos u d =
        u d + sigma * (-1 + 2 * υ (pos + 2 * d.val))} =
      ENNReal.ofReal (min 1 (gaussianPDFReal 0 1 (u d + sigma * (-1 + 2 * υ (pos + 2 * d.val))) /
        gaussianPDFReal 0 1 (u d))) ∧
    ∀ b, proposal sigma (Function.update υ (pos + 2 * d.val + 1) b) pos u d =
        u d + sigma * (-1 + 2 * υ (pos + 2 * d.val)) ∨
      proposal sigma (Function.update υ (pos + 2 * d.val + 1) b) pos u d = u d := by
  set a := υ (pos + 2 * d.val) with ha
  have hp : ∀ b, proposal sigma (Function.update υ (pos + 2 * d.val + 1) b) pos u d = step1 sigma (u d) a b := by
    intro b
    unfold proposal step1 xiOf
    rw [Function.update_self, Function.update_of_ne (by omega)]
  have hxi : xiOf sigma (u d) a = u d + sigma * (-1 + 2 * a) := rfl
  simp only [hp, ← hxi]
  have hratio : gaussianPDFReal 0 1 (xiOf sigma (u d) a) / gaussianPDFReal 0 1 (u d) =
      Real.exp (-0.5 * (xiOf sigma (u d) a ^ 2 - u d ^ 2)) := by
    unfold gaussianPDFReal
    rw [mul_div_mul_left _ _ (by positivity), ← Real.exp_sub]
    congr 1
    simp only [NNReal.coe_one]
    ring
  constructor
  · rw [hratio]
    by_cases h : xiOf sigma (u d) a = u d
    · have : {b | step1 sigma (u d) a b = xiOf sigma (u d) a} = Set.univ := by
        ext b
        simp only [Set.mem_setOf_eq, Set.mem_univ, iff_true]
        unfold step1
        split_ifs
        · rfl
        · exact h.symm
      rw [this, h]
      simp
    · rw [← accept_set]
      congr 1
      ext b
      simp only [Set.mem_setOf_eq]
      unfold step1
      constructor
      · intro hb
        by_contra hc
        rw [if_neg hc] at hb
        exact h hb.symm
      · intro hb; rw [if_pos hb]
  · intro b
    unfold step1
    split_ifs
    · exact Or.inl rfl
    · exact Or.inr rfl

/-- C42: detailed balance.  Started from a standard normal state, the pair (state, proposal) has the same law as the pair
(proposal, state), for every width of the proposal and every position in the stream of draws. -/
theorem C42_detailed_balance (sigma : ℝ) (pos : ℕ) :
    ((stdGauss n).prod unifStream).map (fun p => (p.1, proposal sigma p.2 pos p.1)) =
    ((stdGauss n).prod unifStream).map (fun p => (proposal sigma p.2 pos p.1, p.1)) := by
  have h1 : MeasurePreserving (Prod.map id (fun υ : ℕ → ℝ => headDraws n (shiftDraws pos υ)))
      ((stdGauss n).prod unifStream) ((stdGauss n).prod (Measure.pi (fun _ : Fin n => unif01.prod unif01))) :=
    (MeasurePreserving.id _).prod (MeasurePreserving.comp ⟨measurable_headDraws, head_law⟩
      ⟨measurable_shiftDraws pos, shift_law pos⟩)
  have hp := measurable_propVec (n := n) sigma
  have hx := exchangeable (n := n) sigma
  rw [← h1.map_eq, Measure.map_map (hp.prodMk measurable_fst) h1.measurable,
    Measure.map_map (measurable_fst.prodMk hp) h1.measurable] at hx
  exact hx.symm

/-- The `k`-th state of the chain started at `u` (the value `0` when there is none). -/
noncomputable def chainState (t : Mats n) (marg : Fin n → Marginal) (ev : Evaluator σ n) (f : (Fin n → ℝ) → ℝ)
    (sigma y : ℝ) (m k pos : ℕ) (s : σ) (u : Fin n → ℝ) (υ : ℕ → ℝ) : Fin n → ℝ :=
  match chain t marg ev sigma y υ m (u, f (uToX t marg u)) pos s with
  | .ok (l, _, _) => ((l[k]?).map Prod.fst).getD 0
  | .error _ => 0

section
variable {t : Mats n} {marg : Fin n → Marginal} {ev : Evaluator σ n} {P : σ → Prop} {f : (Fin n → ℝ) → ℝ} {sigma y : ℝ}

theorem move_eq (hev : Values ev P f) {cur : Sample n} {υ : ℕ → ℝ} {pos : ℕ} {s : σ} (hP : P s) :
    ∃ cur' s', move t marg ev sigma y υ cur pos s = .ok (cur', pos + 2 * n, s') ∧
      cur'.1 = nextVec sigma {u | f (uToX t marg u) ≤ y} cur.1 (headDraws n (shiftDraws pos υ)) ∧ P s' := by
  obtain ⟨s', hv, hP'⟩ := hev s hP [uToX t marg (proposal sigma υ pos cur.1)]
  have hv' : ev.values s [uToX t marg (proposal sigma υ pos cur.1)] =
      (s', .ok [f (uToX t marg (proposal sigma υ pos cur.1))]) := hv
  unfold move
  simp only [hv']
  refine ⟨_, s', rfl, ?_, hP'⟩
  unfold nextVec
  rw [← proposal_eq]
  by_cases h : ([f (uToX t marg (proposal sigma υ pos cur.1))].headD 0) ≤ y
  · rw [if_pos h, if_pos (show proposal sigma υ pos cur.1 ∈ {u | f (uToX t marg u) ≤ y} from h)]
  · rw [if_neg h, if_neg (show ¬ proposal sigma υ pos cur.1 ∈ {u | f (uToX t marg u) ≤ y} from h)]

theorem chain_eq (hev : Values ev P f) (υ : ℕ → ℝ) : ∀ (m : ℕ) (cur : Sample n) (pos : ℕ) (s : σ), P s →
    ∃ l pos' s', chain t marg ev sigma y υ m cur pos s = .ok (l, pos', s') ∧ l.length = m ∧
      ∀ k < m, (l[k]?).map Prod.fst =
        some ((stepT sigma {u | f (uToX t marg u) ≤ y})^[k + 1] (cur.1, shiftDraws pos υ)).1
  | 0, cur, pos, s, _ => ⟨[], pos, s, rfl, rfl, by simp⟩
  | m + 1, cur, pos, s, hP => by
    obtain ⟨cur', s', h1, h2, h3⟩ := move_eq (t := t) (marg := marg) (sigma := sigma) (y := y) hev (cur := cur) (υ := υ)
      (pos := pos) hP
    obtain ⟨l, pos', s'', h4, h5, h6⟩ := chain_eq hev υ m cur' (pos + 2 * n) s' h3
    refine ⟨cur' :: l, pos', s'', ?_, by simp [h5], ?_⟩
    · unfold chain; simp only [h1, h4]
    · have hs : stepT sigma {u | f (uToX t marg u) ≤ y} (cur.1, shiftDraws pos υ) =
          (cur'.1, shiftDraws (pos + 2 * n) υ) := by
        unfold stepT
        rw [← h2]
        congr 1
        funext i
        simp only [shiftDraws, Nat.add_assoc]
      intro k hk
      rw [Function.iterate_succ_apply, hs]
      cases k with
      | zero => simp
      | succ k => rw [List.getElem?_cons_succ]; exact h6 k (by omega)

/-- C42: if the seed of a chain has the standard normal law conditioned on the subset `{g ≤ y}`, and the draws are
independent of it, then every state of the chain has that same law. -/
theorem C42_invariant (hev : Values ev P f) (hF : MeasurableSet {u | f (uToX t marg u) ≤ y}) (m k pos : ℕ) (hk : k < m)
    (s : σ) (hs : P s) :
    (((stdGauss n)[|{u | f (uToX t marg u) ≤ y}]).prod unifStream).map
      (fun p => chainState t marg ev f sigma y m k pos s p.1 p.2) = (stdGauss n)[|{u | f (uToX t marg u) ≤ y}] := by
  set F := {u | f (uToX t marg u) ≤ y} with hFdef
  have e : (fun p : (Fin n → ℝ) × (ℕ → ℝ) => chainState t marg ev f sigma y m k pos s p.1 p.2) =
      fun p => ((stepT sigma F)^[k + 1] (Prod.map id (shiftDraws pos) p)).1 := by
    funext p
    obtain ⟨l, pos', s', h1, -, h3⟩ := chain_eq (t := t) (marg := marg) (sigma := sigma) (y := y) hev p.2 m
      (p.1, f (uToX t marg p.1)) pos s hs
    unfold chainState
    simp only [h1, h3 k hk, Option.getD_some]
    rfl
  have hT := (stepT_preserving sigma hF).iterate (k + 1)
  have hsh : MeasurePreserving (Prod.map id (shiftDraws pos)) (((stdGauss n).restrict F).prod unifStream)
      (((stdGauss n).restrict F).prod unifStream) :=
    (MeasurePreserving.id _).prod ⟨measurable_shiftDraws pos, shift_law pos⟩
  have hfst : MeasurePreserving Prod.fst (((stdGauss n).restrict F).prod unifStream) ((stdGauss n).restrict F) :=
    measurePreserving_fst
  have hall := hfst.comp (hT.comp hsh)
  have h := hall.map_eq
  rw [e]
  unfold ProbabilityTheory.cond
  rw [Measure.prod_smul_left, Measure.map_smul]
  congr 1

end

/-- C42, concretely: the subset `{u | u ≤ 0}` of the line has positive probability, so the conditional law is a proper
law and the hypotheses of the theorems are met by a non-trivial case. -/
example : 0 < (stdGauss 1) {u : Fin 1 → ℝ | (fun x : Fin 1 → ℝ => x 0) u ≤ 0} := by
  have h1 : (stdGauss 1).map (fun u => u 0) = gaussianReal 0 1 := by
    unfold stdGauss
    exact (measurePreserving_eval (fun _ : Fin 1 => gaussianReal 0 1) 0).map_eq
  have h2 : {u : Fin 1 → ℝ | (fun x : Fin 1 → ℝ => x 0) u ≤ 0} = (fun u : Fin 1 → ℝ => u 0) ⁻¹' Set.Iic 0 := rfl
  rw [h2, ← Measure.map_apply (by fun_prop) measurableSet_Iic, h1]
  have h3 : (volume : Measure ℝ).AbsolutelyContinuous (gaussianReal 0 1) :=
    gaussianReal_absolutelyContinuous' 0 one_ne_zero
  rw [pos_iff_ne_zero]
  intro h
  have := h3 h
  simp at this

end Pystra.Props
