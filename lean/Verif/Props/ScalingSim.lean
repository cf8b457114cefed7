import Verif.Props.ScalingForm
import Verif.Model.MonteCarlo

/-! C89: simulation and the unit of the limit-state function. -/

namespace Pystra.Props
open Matrix Spec Transformation Form LimitState

variable {σ : Type} {n : ℕ} {c : ℝ} {R : ℝ → ℝ → Prop} {ev ev' : Evaluator σ n} {t : Mats n} {marg : Fin n → Marginal}

/-- A scaled evaluator is related by `b = c · a`. -/
theorem ScaledEval.rel (h : ScaledEval c ev ev') : RelValues (fun a b => b = c * a) ev ev' := by
  intro s xs
  rw [h.values]
  refine ⟨rfl, ?_⟩
  rcases (ev.values s xs).2 with e | l
  · rfl
  · show List.Forall₂ _ l (l.map (c * ·))
    rw [List.forall₂_map_right_iff]
    exact List.forall₂_same.2 (fun _ _ => rfl)

/-- Two states that differ in the recorded values only. -/
def simRel (R : ℝ → ℝ → Prop) (st st' : MonteCarlo.State σ n) : Prop :=
  st' = { st with allG := st'.allG } ∧ List.Forall₂ R st.allG st'.allG

theorem zip_indicator (hR : ∀ a b, R a b → (a < 0 ↔ b < 0)) (f : (Fin n → ℝ) → ℝ) {G G' : List ℝ} (h : List.Forall₂ R G G') :
    ∀ us, List.zipWith (fun g u => MonteCarlo.indicator g * f u) G' us = List.zipWith (fun g u => MonteCarlo.indicator g * f u) G us := by
  induction h with
  | nil => intro us; rfl
  | @cons a b l l' hab _ ih =>
    intro us
    cases us with
    | nil => rfl
    | cons u us =>
      simp only [List.zipWith_cons_cons, ih us]
      congr 2
      unfold MonteCarlo.indicator
      by_cases h : a < 0
      · rw [if_pos h, if_pos ((hR a b hab).1 h)]
      · rw [if_neg h, if_neg (fun h' => h ((hR a b hab).2 h'))]

theorem block_rel (hR : ∀ a b, R a b → (a < 0 ↔ b < 0)) (hev : RelValues R ev ev') (opt : MonteCarlo.Options) (point : Fin n → ℝ)
    (ω : ℕ → ℝ) {st st' : MonteCarlo.State σ n} (h : simRel R st st') :
    RelOk (simRel R) (MonteCarlo.block t marg ev opt point ω st) (MonteCarlo.block t marg ev' opt point ω st') := by
  obtain ⟨h1, hrec⟩ := h
  obtain ⟨G', hG'⟩ : ∃ G', st'.allG = G' := ⟨_, rfl⟩
  rw [hG'] at h1 hrec
  subst h1
  unfold MonteCarlo.block
  dsimp only
  rcases MonteCarlo.randomNumbers opt point ω (min opt.blockSize (opt.samples - st.k)) st.pos with e | us
  · rfl
  dsimp only
  obtain ⟨hs, hv⟩ := hev st.s (us.map (uToX t marg))
  rcases h1 : ev.values st.s (us.map (uToX t marg)) with ⟨s1, e | G⟩ <;>
    rcases h2 : ev'.values st.s (us.map (uToX t marg)) with ⟨s2, e' | G'⟩ <;> rw [h1, h2] at hs hv
  · simp only at hs; subst hs
    simp only [RelOk] at hv; subst hv
    rfl
  · exact hv.elim
  · exact hv.elim
  · simp only at hs; subst hs
    simp only [RelOk] at hv
    have hz := zip_indicator hR (fun u => MonteCarlo.weight opt.stdv point u) hv us
    simp only [RelOk, hz]
    refine ⟨rfl, ?_⟩
    exact List.rel_append hrec hv

theorem mcLoop_rel (hR : ∀ a b, R a b → (a < 0 ↔ b < 0)) (hev : RelValues R ev ev') (opt : MonteCarlo.Options) (point : Fin n → ℝ)
    (ω : ℕ → ℝ) (fuel : ℕ) : ∀ {st st' : MonteCarlo.State σ n}, simRel R st st' →
    RelOut (simRel R) (MonteCarlo.loop t marg ev opt point ω fuel st) (MonteCarlo.loop t marg ev' opt point ω fuel st') := by
  induction fuel with
  | zero =>
    intro st st' h
    have hk : st'.k = st.k := by rw [h.1]
    unfold MonteCarlo.loop
    rw [hk]
    split
    · trivial
    · exact h
  | succ fuel ih =>
    intro st st' h
    have hk : st'.k = st.k := by rw [h.1]
    unfold MonteCarlo.loop
    rw [hk]
    by_cases hlt : st.k < opt.samples
    · rw [if_pos hlt, if_pos hlt]
      have hb := block_rel (t := t) (marg := marg) hR hev opt point ω h
      rcases h1 : MonteCarlo.block t marg ev opt point ω st with e | a <;>
        rcases h2 : MonteCarlo.block t marg ev' opt point ω st' with e' | b <;> rw [h1, h2] at hb
      · exact hb
      · exact hb.elim
      · exact hb.elim
      · have hb' : simRel R a b := hb
        have hc : b.covQBar = a.covQBar := by rw [hb'.1]
        dsimp only
        rw [hc]
        split
        · exact hb
        · exact ih hb'
    · rw [if_neg hlt, if_neg hlt]; exact h

/-- **C89** (simulation).  The estimates of crude Monte Carlo and importance sampling -- number of samples, `Pf`, `β`, coefficient of
variation, samples kept, random numbers read, exceptions -- depend on the limit-state function only through the points where it is
negative: for two limit-state functions that are negative at the same points they are the same.  (`R a b` may be `b = c·a` with
`c > 0`: the recorded values are then multiplied by `c`.) -/
theorem C89_simulation (hR : ∀ a b, R a b → (a < 0 ↔ b < 0)) (hev : RelValues R ev ev') (opt : MonteCarlo.Options)
    (point : Option (Fin n → ℝ)) (ω : ℕ → ℝ) (pos fuel : ℕ) (s : σ) :
    RelOut (SameEstimate R) (MonteCarlo.run t marg ev opt point ω pos fuel s) (MonteCarlo.run t marg ev' opt point ω pos fuel s) := by
  unfold MonteCarlo.run MonteCarlo.runOn
  dsimp only
  by_cases h0 : opt.stdv = 0
  · rw [if_pos h0, if_pos h0]; rfl
  rw [if_neg h0, if_neg h0]
  by_cases h1 : opt.samples = 0
  · rw [if_pos h1, if_pos h1]; rfl
  rw [if_neg h1, if_neg h1]
  have h := mcLoop_rel (t := t) (marg := marg) hR hev opt (point.getD fun _ => 0) ω fuel (st := ⟨0, pos, 0, 0, 0, 1, .none, .none, [], [], s⟩)
    (st' := ⟨0, pos, 0, 0, 0, 1, .none, .none, [], [], s⟩) ⟨rfl, .nil⟩
  unfold MonteCarlo.Records.fresh
  rcases h1 : MonteCarlo.loop t marg ev opt (point.getD fun _ => 0) ω fuel ⟨0, pos, 0, 0, 0, 1, .none, .none, [], [], s⟩ with _ | e | a <;>
    rcases h2 : MonteCarlo.loop t marg ev' opt (point.getD fun _ => 0) ω fuel ⟨0, pos, 0, 0, 0, 1, .none, .none, [], [], s⟩ with _ | e' | b <;>
    rw [h1, h2] at h
  all_goals first | exact h | exact h.elim | skip
  obtain ⟨h3, h4⟩ : simRel R a b := h
  obtain ⟨G', hG'⟩ : ∃ G', b.allG = G' := ⟨_, rfl⟩
  rw [hG'] at h3 h4
  subst h3
  exact ⟨rfl, rfl, rfl, h4⟩

end Pystra.Props
