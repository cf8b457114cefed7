import Verif.Lemmas.SormRun
import Verif.Lemmas.SameModel
import Verif.Model.Session

/-! Every analysis run with two evaluators that answer alike gives the same outcome. -/

namespace Pystra
open Transformation Form

variable {σ τ : Type} {n : ℕ} {R : σ → τ → Prop} {e : Evaluator σ n} {f : Evaluator τ n}

/-- Related states and the same answer. -/
def RP {α : Type} (R : σ → τ → Prop) (p : σ × α) (q : τ × α) : Prop := R p.1 q.1 ∧ p.2 = q.2

/-- Case analysis: the two computations have the same answer and related states. -/
theorem RP.cases {α : Type} {p : σ × α} {q : τ × α} (h : RP R p q) : ∃ s t a, R s t ∧ p = (s, a) ∧ q = (t, a) := by
  obtain ⟨s, a⟩ := p
  obtain ⟨t, b⟩ := q
  obtain ⟨h1, h2⟩ := h
  exact ⟨s, t, a, h1, rfl, by rw [show a = b from h2]⟩

namespace Form

theorem linearise_sim (h : Sim R e f) (t : Mats n) (marg : Fin n → Marginal) (u : Fin n → ℝ) {a : σ} {b : τ} (hR : R a b) :
    RP R (linearise t marg e u a) (linearise t marg f u b) := by
  unfold linearise
  dsimp only
  cases npInv (jacobian t marg u (uToX t marg u)) with
  | error _ => exact ⟨hR, rfl⟩
  | ok J =>
    obtain ⟨a', b', o, hR', h1, h2⟩ := (show RP R _ _ from h.withGrad a b hR (uToX t marg u)).cases
    simp only [h1, h2]
    cases o with
    | error _ => exact ⟨hR', rfl⟩
    | ok o => obtain ⟨G, grad, xA⟩ := o; exact ⟨hR', rfl⟩

theorem computeStepSize_sim (h : Sim R e f) (t : Mats n) (marg : Fin n → Marginal) (opt : Options) (G : ℝ)
    (gradient u d : Fin n → ℝ) {a : σ} {b : τ} (hR : R a b) :
    RP R (computeStepSize t marg e opt G gradient u d a) (computeStepSize t marg f opt G gradient u d b) := by
  unfold computeStepSize
  dsimp only
  split
  · obtain ⟨a', b', o, hR', h1, h2⟩ := (show RP R _ _ from h.values a b hR
      ((List.range 6).map (fun j => uToX t marg (fun i => u i * 1 + d i * 0.5 ^ j)))).cases
    simp only [h1, h2]
    cases o with
    | error _ => exact ⟨hR', rfl⟩
    | ok o => exact ⟨hR', rfl⟩
  · exact ⟨hR, rfl⟩

theorem getStepSize_sim (h : Sim R e f) (t : Mats n) (marg : Fin n → Marginal) (opt : Options) (G : ℝ)
    (gradient u d : Fin n → ℝ) {a : σ} {b : τ} (hR : R a b) :
    RP R (getStepSize t marg e opt G gradient u d a) (getStepSize t marg f opt G gradient u d b) := by
  unfold getStepSize
  split
  · exact computeStepSize_sim h t marg opt G gradient u d hR
  · exact ⟨hR, rfl⟩

/-- The same way of ending a pass, in related states. -/
inductive OutcomeRel (R : σ → τ → Prop) : Outcome σ n → Outcome τ n → Prop
  | done (r : Form.Result n) {a : σ} {b : τ} : R a b → OutcomeRel R (.done r a) (.done r b)
  | raised (e : PyErr) {a : σ} {b : τ} : R a b → OutcomeRel R (.raised e a) (.raised e b)
  | nan {a : σ} {b : τ} : R a b → OutcomeRel R (.nan a) (.nan b)
  | next (Go : ℝ) (u : Fin n → ℝ) {a : σ} {b : τ} : R a b → OutcomeRel R (.next Go u a) (.next Go u b)

theorem iteration_sim (h : Sim R e f) (t : Mats n) (marg : Fin n → Marginal) (opt : Options) (i : ℕ) (Go : ℝ)
    (u : Fin n → ℝ) {a : σ} {b : τ} (hR : R a b) :
    OutcomeRel R (iteration t marg e opt i Go u a) (iteration t marg f opt i Go u b) := by
  unfold iteration
  obtain ⟨a', b', o, hR', h1, h2⟩ := (linearise_sim h t marg u hR).cases
  rw [h1, h2]
  cases o with
  | error _ => exact .raised _ hR'
  | ok p =>
    dsimp only
    generalize (if i = 1 then p.G else Go) = Go
    split
    · exact .nan hR'
    · split
      · exact .done _ hR'
      · obtain ⟨a'', b'', o, hR'', h1, h2⟩ := (getStepSize_sim h t marg opt p.G p.gradient u
          (direction p.G p.gradient (alpha p.gradient) u) hR').cases
        rw [h1, h2]
        cases o with
        | error _ => exact .raised _ hR''
        | ok step => exact .next _ _ hR''

/-- Both still running, or the same end. -/
def OptRel {α β : Type} (Q : α → β → Prop) (p : Option α) (q : Option β) : Prop :=
  (p = none ∧ q = none) ∨ ∃ a b, p = some a ∧ q = some b ∧ Q a b

theorem loop_sim (h : Sim R e f) (t : Mats n) (marg : Fin n → Marginal) (opt : Options) (fuel : ℕ) :
    ∀ (i : ℕ) (Go : ℝ) (u : Fin n → ℝ) {a : σ} {b : τ}, R a b →
    OptRel (OutcomeRel R) (loop t marg e opt fuel i Go u a) (loop t marg f opt fuel i Go u b) := by
  induction fuel with
  | zero => intro i Go u a b _; exact Or.inl ⟨rfl, rfl⟩
  | succ fuel ih =>
    intro i Go u a b hR
    unfold loop
    have hi := iteration_sim h t marg opt i Go u hR
    generalize iteration t marg e opt i Go u a = x at hi
    generalize iteration t marg f opt i Go u b = y at hi
    cases hi with
    | done r hR => exact Or.inr ⟨_, _, rfl, rfl, .done r hR⟩
    | raised r hR => exact Or.inr ⟨_, _, rfl, rfl, .raised r hR⟩
    | nan hR => exact Or.inr ⟨_, _, rfl, rfl, .nan hR⟩
    | next Go u hR => exact ih (i + 1) Go u hR

theorem runFrom_sim (h : Sim R e f) (t : Mats n) (marg : Fin n → Marginal) (opt : Options) (fuel : ℕ) {a : σ} {b : τ}
    (hR : R a b) : OptRel (OutcomeRel R) (runFrom t marg e opt fuel a) (runFrom t marg f opt fuel b) :=
  loop_sim h t marg opt fuel 1 0 _ hR

end Form

/-- Outcomes of computations that keep the state in the exception too. -/
inductive ExRel {α β : Type} (R : σ → τ → Prop) (Q : α → β → Prop) : Except (PyErr × σ) α → Except (PyErr × τ) β → Prop
  | error (e : PyErr) {a : σ} {b : τ} : R a b → ExRel R Q (.error (e, a)) (.error (e, b))
  | ok {x : α} {y : β} : Q x y → ExRel R Q (.ok x) (.ok y)

namespace MonteCarlo

/-- The same attributes, and related evaluator states. -/
def StRel (R : σ → τ → Prop) (x : State σ n) (y : State τ n) : Prop := x.forget = y.forget ∧ R x.s y.s

theorem block_sim (h : Sim R e f) (t : Mats n) (marg : Fin n → Marginal) (opt : Options) (point : Fin n → ℝ) (ω : ℕ → ℝ)
    {x : State σ n} {y : State τ n} (hR : StRel R x y) :
    ExRel R (StRel R) (block t marg e opt point ω x) (block t marg f opt point ω y) := by
  obtain ⟨k, pos, sq, sq2, qb, cov, uA, xA, aG, bA, s⟩ := x
  obtain ⟨k', pos', sq', sq2', qb', cov', uA', xA', aG', bA', s'⟩ := y
  obtain ⟨hf, hR⟩ := hR
  simp only [State.forget, State.mk.injEq, and_true] at hf
  obtain ⟨rfl, rfl, rfl, rfl, rfl, rfl, rfl, rfl, rfl, rfl⟩ := hf
  unfold block
  dsimp only
  cases randomNumbers opt point ω (min opt.blockSize (opt.samples - k)) pos with
  | error _ => exact .error _ hR
  | ok us =>
    obtain ⟨a', b', o, hR', h1, h2⟩ := (show RP R _ _ from h.values s s' hR (us.map (uToX t marg))).cases
    simp only [h1, h2]
    cases o with
    | error _ => exact .error _ hR'
    | ok o => exact .ok ⟨rfl, hR'⟩

theorem loop_sim (h : Sim R e f) (t : Mats n) (marg : Fin n → Marginal) (opt : Options) (point : Fin n → ℝ) (ω : ℕ → ℝ)
    (fuel : ℕ) : ∀ {x : State σ n} {y : State τ n}, StRel R x y →
    OptRel (ExRel R (StRel R)) (loop t marg e opt point ω fuel x) (loop t marg f opt point ω fuel y) := by
  induction fuel with
  | zero =>
    intro x y hR
    have hk : x.k = y.k := congrArg State.k hR.1
    unfold loop
    rw [hk]
    split
    · exact Or.inl ⟨rfl, rfl⟩
    · exact Or.inr ⟨_, _, rfl, rfl, .ok hR⟩
  | succ fuel ih =>
    intro x y hR
    have hk : x.k = y.k := congrArg State.k hR.1
    unfold loop
    rw [hk]
    split
    · have hb := block_sim h t marg opt point ω hR
      generalize block t marg e opt point ω x = p at hb
      generalize block t marg f opt point ω y = q at hb
      cases hb with
      | error e hR => exact Or.inr ⟨_, _, rfl, rfl, .error e hR⟩
      | @ok x' y' hR =>
        have hc : x'.covQBar = y'.covQBar := congrArg State.covQBar hR.1
        dsimp only
        rw [hc]
        split
        · exact Or.inr ⟨_, _, rfl, rfl, .ok hR⟩
        · exact ih hR
    · exact Or.inr ⟨_, _, rfl, rfl, .ok hR⟩

/-- The same result, and related evaluator states. -/
def ResRel (R : σ → τ → Prop) (x : Result σ n) (y : Result τ n) : Prop := x.forget = y.forget ∧ R x.st.s y.st.s

theorem runOn_sim (h : Sim R e f) (old : Records n) (t : Mats n) (marg : Fin n → Marginal) (opt : Options)
    (point : Option (Fin n → ℝ)) (ω : ℕ → ℝ) (pos fuel : ℕ) {a : σ} {b : τ} (hR : R a b) :
    OptRel (ExRel R (ResRel R)) (runOn old t marg e opt point ω pos fuel a) (runOn old t marg f opt point ω pos fuel b) := by
  unfold runOn
  dsimp only
  split
  · exact Or.inr ⟨_, _, rfl, rfl, .error _ hR⟩
  · split
    · exact Or.inr ⟨_, _, rfl, rfl, .error _ hR⟩
    · rcases loop_sim h t marg opt (point.getD (fun _ => 0)) ω fuel
        (x := ⟨0, pos, 0, 0, 0, 1, old.uAll, old.xAll, old.allG, old.betaAll, a⟩)
        (y := ⟨0, pos, 0, 0, 0, 1, old.uAll, old.xAll, old.allG, old.betaAll, b⟩) ⟨rfl, hR⟩ with
        ⟨h1, h2⟩ | ⟨p, q, h1, h2, hq⟩
      · rw [h1, h2]; exact Or.inl ⟨rfl, rfl⟩
      · rw [h1, h2]
        cases hq with
        | error e hR => exact Or.inr ⟨_, _, rfl, rfl, .error e hR⟩
        | @ok x y hR =>
          refine Or.inr ⟨_, _, rfl, rfl, .ok ⟨?_, hR.2⟩⟩
          have h1 : x.sumQ = y.sumQ := congrArg State.sumQ hR.1
          have h2 : x.qBar = y.qBar := congrArg State.qBar hR.1
          simp only [finish, Result.forget, hR.1, h1, h2]

theorem run_sim (h : Sim R e f) (t : Mats n) (marg : Fin n → Marginal) (opt : Options)
    (point : Option (Fin n → ℝ)) (ω : ℕ → ℝ) (pos fuel : ℕ) {a : σ} {b : τ} (hR : R a b) :
    OptRel (ExRel R (ResRel R)) (run t marg e opt point ω pos fuel a) (run t marg f opt point ω pos fuel b) :=
  runOn_sim h _ t marg opt point ω pos fuel hR

/-- The same records, and related evaluator states. -/
def DRel (R : σ → τ → Prop) (x : DState σ n) (y : DState τ n) : Prop :=
  x.k = y.k ∧ x.pos = y.pos ∧ x.allX = y.allX ∧ x.allG = y.allG ∧ R x.s y.s

theorem dLoop_sim (h : Sim R e f) (t : Mats n) (marg : Fin n → Marginal) (opt : Options) (ω : ℕ → ℝ)
    (fuel : ℕ) : ∀ {x : DState σ n} {y : DState τ n}, DRel R x y →
    OptRel (ExRel R (DRel R)) (dLoop t marg e opt ω fuel x) (dLoop t marg f opt ω fuel y) := by
  induction fuel with
  | zero =>
    intro x y hR
    unfold dLoop
    rw [hR.1]
    split
    · exact Or.inl ⟨rfl, rfl⟩
    · exact Or.inr ⟨_, _, rfl, rfl, .ok hR⟩
  | succ fuel ih =>
    intro x y hR
    obtain ⟨k, pos, aX, aG, s⟩ := x
    obtain ⟨k', pos', aX', aG', s'⟩ := y
    obtain ⟨h1, h2, h3, h4, hR⟩ := hR
    dsimp only at h1 h2 h3 h4 hR
    subst h1 h2 h3 h4
    unfold dLoop
    dsimp only
    split
    · cases randomNumbers opt (fun _ : Fin n => (0:ℝ)) ω (min opt.blockSize (opt.samples - k)) pos with
      | error _ => exact Or.inr ⟨_, _, rfl, rfl, .error _ hR⟩
      | ok us =>
        obtain ⟨a', b', o, hR', h1, h2⟩ := (show RP R _ _ from h.values s s' hR (us.map (uToX t marg))).cases
        simp only [h1, h2]
        cases o with
        | error _ => exact Or.inr ⟨_, _, rfl, rfl, .error _ hR'⟩
        | ok o => exact ih ⟨rfl, rfl, rfl, rfl, hR'⟩
    · exact Or.inr ⟨_, _, rfl, rfl, .ok ⟨rfl, rfl, rfl, rfl, hR⟩⟩

end MonteCarlo

namespace Subset

/-- The same answer, and related states. -/
def AnsRel {α : Type} (R : σ → τ → Prop) (x : α × σ) (y : α × τ) : Prop := x.1 = y.1 ∧ R x.2 y.2

/-- The same answer and position, and related states. -/
def PosRel {α : Type} (R : σ → τ → Prop) (x : α × ℕ × σ) (y : α × ℕ × τ) : Prop := x.1 = y.1 ∧ x.2.1 = y.2.1 ∧ R x.2.2 y.2.2

theorem evalBatch_sim (h : Sim R e f) (t : Mats n) (marg : Fin n → Marginal) (block : ℕ) (fuel : ℕ) :
    ∀ (us : List (Fin n → ℝ)) {a : σ} {b : τ}, R a b →
    ExRel R (AnsRel R) (evalBatch t marg e block fuel us a) (evalBatch t marg f block fuel us b) := by
  induction fuel with
  | zero =>
    intro us a b hR
    cases us with
    | nil => unfold evalBatch; split; exacts [.error _ hR, .ok ⟨rfl, hR⟩]
    | cons u us => exact .error _ hR
  | succ fuel ih =>
    intro us a b hR
    cases us with
    | nil => unfold evalBatch; split; exacts [.error _ hR, .ok ⟨rfl, hR⟩]
    | cons u us =>
      unfold evalBatch
      split
      · exact .error _ hR
      · obtain ⟨a', b', o, hR', h1, h2⟩ := (show RP R _ _ from h.values a b hR
          (((u :: us).take block).map (uToX t marg))).cases
        rw [h1, h2]
        cases o with
        | error _ => exact .error _ hR'
        | ok G =>
          dsimp only
          have hi := ih ((u :: us).drop block) hR'
          generalize evalBatch t marg e block fuel ((u :: us).drop block) a' = p at hi
          generalize evalBatch t marg f block fuel ((u :: us).drop block) b' = q at hi
          cases hi with
          | error _ hR => exact .error _ hR
          | @ok x y hR =>
            obtain ⟨G', s⟩ := x
            obtain ⟨G'', s'⟩ := y
            obtain ⟨h1, h2⟩ := hR
            dsimp only at h1 h2
            subst h1
            exact .ok ⟨rfl, h2⟩

theorem move_sim (h : Sim R e f) (t : Mats n) (marg : Fin n → Marginal) (sigma thr : ℝ) (υ : ℕ → ℝ) (cur : Sample n)
    (pos : ℕ) {a : σ} {b : τ} (hR : R a b) :
    ExRel R (PosRel R) (move t marg e sigma thr υ cur pos a) (move t marg f sigma thr υ cur pos b) := by
  unfold move
  dsimp only
  obtain ⟨a', b', o, hR', h1, h2⟩ := (show RP R _ _ from h.values a b hR
    [uToX t marg (proposal sigma υ pos cur.1)]).cases
  rw [h1, h2]
  cases o with
  | error _ => exact .error _ hR'
  | ok G => exact .ok ⟨rfl, rfl, hR'⟩

theorem chain_sim (h : Sim R e f) (t : Mats n) (marg : Fin n → Marginal) (sigma thr : ℝ) (υ : ℕ → ℝ) (k : ℕ) :
    ∀ (cur : Sample n) (pos : ℕ) {a : σ} {b : τ}, R a b →
    ExRel R (PosRel R) (chain t marg e sigma thr υ k cur pos a) (chain t marg f sigma thr υ k cur pos b) := by
  induction k with
  | zero => intro cur pos a b hR; exact .ok ⟨rfl, rfl, hR⟩
  | succ k ih =>
    intro cur pos a b hR
    unfold chain
    have hm := move_sim h t marg sigma thr υ cur pos hR
    generalize move t marg e sigma thr υ cur pos a = p at hm
    generalize move t marg f sigma thr υ cur pos b = q at hm
    cases hm with
    | error _ hR => exact .error _ hR
    | @ok x y hR =>
      obtain ⟨c, po, s⟩ := x
      obtain ⟨c', po', s'⟩ := y
      obtain ⟨h1, h2, h3⟩ := hR
      dsimp only at h1 h2 h3
      subst h1 h2
      dsimp only
      have hi := ih c po h3
      generalize chain t marg e sigma thr υ k c po s = p at hi
      generalize chain t marg f sigma thr υ k c po s' = q at hi
      cases hi with
      | error _ hR => exact .error _ hR
      | @ok x y hR =>
        obtain ⟨l, po, s⟩ := x
        obtain ⟨l', po', s'⟩ := y
        obtain ⟨h1, h2, h3⟩ := hR
        dsimp only at h1 h2 h3
        subst h1 h2
        exact .ok ⟨rfl, rfl, h3⟩

theorem chains_sim (h : Sim R e f) (t : Mats n) (marg : Fin n → Marginal) (sigma thr : ℝ) (υ : ℕ → ℝ) (base rem : ℕ)
    (seeds : List (Sample n)) : ∀ (i pos : ℕ) {a : σ} {b : τ}, R a b →
    ExRel R (PosRel R) (chains t marg e sigma thr υ base rem i seeds pos a)
      (chains t marg f sigma thr υ base rem i seeds pos b) := by
  induction seeds with
  | nil => intro i pos a b hR; exact .ok ⟨rfl, rfl, hR⟩
  | cons seed seeds ih =>
    intro i pos a b hR
    unfold chains
    have hm := chain_sim h t marg sigma thr υ (base + if i < rem then 1 else 0) seed pos hR
    generalize chain t marg e sigma thr υ (base + if i < rem then 1 else 0) seed pos a = p at hm
    generalize chain t marg f sigma thr υ (base + if i < rem then 1 else 0) seed pos b = q at hm
    cases hm with
    | error _ hR => exact .error _ hR
    | @ok x y hR =>
      obtain ⟨c, po, s⟩ := x
      obtain ⟨c', po', s'⟩ := y
      obtain ⟨h1, h2, h3⟩ := hR
      dsimp only at h1 h2 h3
      subst h1 h2
      dsimp only
      have hi := ih (i + 1) po h3
      generalize chains t marg e sigma thr υ base rem (i + 1) seeds po s = p at hi
      generalize chains t marg f sigma thr υ base rem (i + 1) seeds po s' = q at hi
      cases hi with
      | error _ hR => exact .error _ hR
      | @ok x y hR =>
        obtain ⟨l, po, s⟩ := x
        obtain ⟨l', po', s'⟩ := y
        obtain ⟨h1, h2, h3⟩ := hR
        dsimp only at h1 h2 h3
        subst h1 h2
        exact .ok ⟨rfl, rfl, h3⟩

theorem mmhStep_sim (h : Sim R e f) (t : Mats n) (marg : Fin n → Marginal) (sigma thr : ℝ) (υ : ℕ → ℝ) (N : ℕ)
    (seeds : List (Sample n)) (pos : ℕ) {a : σ} {b : τ} (hR : R a b) :
    ExRel R (PosRel R) (mmhStep t marg e sigma thr υ N seeds pos a) (mmhStep t marg f sigma thr υ N seeds pos b) := by
  unfold mmhStep
  split
  · exact .error _ hR
  · exact chains_sim h t marg sigma thr υ _ _ seeds 0 pos hR

/-- The same result, and related evaluator states. -/
def ResRel (R : σ → τ → Prop) (x : Result σ n) (y : Result τ n) : Prop := x.forget = y.forget ∧ R x.s y.s

theorem levels_sim (h : Sim R e f) (t : Mats n) (marg : Fin n → Marginal) (opt : Options) (υ : ℕ → ℝ) (fuel : ℕ) :
    ∀ (seeds : List (Sample n)) (y Pf : ℝ) (thr probs : List ℝ) (lev : ℕ) (recs : List (List (Sample n))) (pos : ℕ)
      {a : σ} {b : τ}, R a b →
    OptRel (ExRel R (ResRel R)) (levels t marg e opt υ fuel seeds y Pf thr probs lev recs pos a)
      (levels t marg f opt υ fuel seeds y Pf thr probs lev recs pos b) := by
  induction fuel with
  | zero => intro _ _ _ _ _ _ _ _ a b _; exact Or.inl ⟨rfl, rfl⟩
  | succ fuel ih =>
    intro seeds y Pf thr probs lev recs pos a b hR
    unfold levels
    have hm := mmhStep_sim h t marg opt.sigma y υ opt.N seeds pos hR
    generalize mmhStep t marg e opt.sigma y υ opt.N seeds pos a = p at hm
    generalize mmhStep t marg f opt.sigma y υ opt.N seeds pos b = q at hm
    cases hm with
    | error _ hR => exact Or.inr ⟨_, _, rfl, rfl, .error _ hR⟩
    | @ok x y hR =>
      obtain ⟨ls, po, s⟩ := x
      obtain ⟨ls', po', s'⟩ := y
      obtain ⟨h1, h2, h3⟩ := hR
      dsimp only at h1 h2 h3
      subst h1 h2
      dsimp only
      split
      · exact Or.inr ⟨_, _, rfl, rfl, .ok ⟨rfl, h3⟩⟩
      · exact ih _ _ _ _ _ _ _ _ h3

theorem run_sim (h : Sim R e f) (t : Mats n) (marg : Fin n → Marginal) (opt : Options) (ω υ : ℕ → ℝ) (fuel : ℕ)
    {a : σ} {b : τ} (hR : R a b) :
    OptRel (ExRel R (ResRel R)) (run t marg e opt ω υ fuel a) (run t marg f opt ω υ fuel b) := by
  unfold run
  split
  · exact Or.inr ⟨_, _, rfl, rfl, .error _ hR⟩
  · dsimp only
    have hm := evalBatch_sim h t marg opt.block opt.N (randn ω n opt.N 0) hR
    generalize evalBatch t marg e opt.block opt.N (randn ω n opt.N 0) a = p at hm
    generalize evalBatch t marg f opt.block opt.N (randn ω n opt.N 0) b = q at hm
    cases hm with
    | error _ hR => exact Or.inr ⟨_, _, rfl, rfl, .error _ hR⟩
    | @ok x y hR =>
      obtain ⟨G, s⟩ := x
      obtain ⟨G', s'⟩ := y
      obtain ⟨h1, h3⟩ := hR
      dsimp only at h1 h3
      subst h1
      dsimp only
      split
      · exact Or.inr ⟨_, _, rfl, rfl, .error _ h3⟩
      · split
        · exact Or.inr ⟨_, _, rfl, rfl, .ok ⟨rfl, h3⟩⟩
        · exact levels_sim h t marg opt υ fuel _ _ _ _ _ _ _ _ h3

end Subset

/-- Two one-argument functions with state answering alike. -/
def FSim {α β : Type} (R : σ → τ → Prop) (F : σ → α → σ × β) (G : τ → α → τ × β) : Prop :=
  ∀ a b x, R a b → RP R (F a x) (G b x)

namespace Brent

theorem loop_sim {F : σ → ℝ → σ × Except PyErr ℝ} {G : τ → ℝ → τ × Except PyErr ℝ} (h : FSim R F G) (xtol rtol : ℝ)
    (iter : ℕ) : ∀ (st : State) {a : σ} {b : τ}, R a b → RP R (loop F xtol rtol iter st a) (loop G xtol rtol iter st b) := by
  induction iter with
  | zero => intro st a b hR; exact ⟨hR, rfl⟩
  | succ iter ih =>
    intro st a b hR
    unfold loop
    dsimp only
    split
    · exact ⟨hR, rfl⟩
    · obtain ⟨a', b', o, hR', h1, h2⟩ := (h a b (advance xtol rtol (adjust st)).xcur hR).cases
      rw [h1, h2]
      cases o with
      | error _ => exact ⟨hR', rfl⟩
      | ok y => exact ih _ hR'

theorem brentq_sim {F : σ → ℝ → σ × Except PyErr ℝ} {G : τ → ℝ → τ × Except PyErr ℝ} (h : FSim R F G)
    (xa xb xtol rtol : ℝ) (iter : ℕ) {a : σ} {b : τ} (hR : R a b) :
    RP R (brentq F xa xb xtol rtol iter a) (brentq G xa xb xtol rtol iter b) := by
  unfold brentq
  obtain ⟨a', b', o, hR', h1, h2⟩ := (h a b xa hR).cases
  rw [h1, h2]
  cases o with
  | error _ => exact ⟨hR', rfl⟩
  | ok fa =>
    dsimp only
    obtain ⟨a'', b'', o, hR'', h1, h2⟩ := (h a' b' xb hR').cases
    rw [h1, h2]
    cases o with
    | error _ => exact ⟨hR'', rfl⟩
    | ok fb =>
      dsimp only
      split
      · exact ⟨hR'', rfl⟩
      · split
        · exact ⟨hR'', rfl⟩
        · split
          · exact ⟨hR'', rfl⟩
          · exact loop_sim h xtol rtol iter _ hR''

end Brent

namespace LineSampling

theorem evalAt_sim (h : Sim R e f) (t : Mats n) (marg : Fin n → Marginal) (v al : Fin n → ℝ) :
    FSim R (evalAt t marg e v al) (evalAt t marg f v al) := by
  intro a b c hR
  unfold evalAt
  obtain ⟨a', b', o, hR', h1, h2⟩ := (show RP R _ _ from h.values a b hR
    [uToX t marg (fun i => v i + c * al i)]).cases
  rw [h1, h2]
  cases o with
  | error _ => exact ⟨hR', rfl⟩
  | ok y => exact ⟨hR', rfl⟩

theorem scan_sim (h : Sim R e f) (t : Mats n) (marg : Fin n → Marginal) (v al : Fin n → ℝ) (cs : List ℝ) :
    ∀ {a : σ} {b : τ}, R a b → RP R (scan t marg e v al cs a) (scan t marg f v al cs b) := by
  induction cs with
  | nil => intro a b hR; exact ⟨hR, rfl⟩
  | cons c cs ih =>
    intro a b hR
    unfold scan
    dsimp only
    obtain ⟨a', b', o, hR', h1, h2⟩ := (evalAt_sim h t marg v al a b c hR).cases
    rw [h1, h2]
    obtain ⟨a'', b'', l, hR'', h1, h2⟩ := (ih hR').cases
    simp only [h1, h2]
    exact ⟨hR'', rfl⟩

theorem findLine_sim (h : Sim R e f) (t : Mats n) (marg : Fin n → Marginal) (v al : Fin n → ℝ) (cInit : ℝ) {a : σ} {b : τ}
    (hR : R a b) : RP R (findLine t marg e v al cInit a) (findLine t marg f v al cInit b) := by
  unfold findLine
  dsimp only
  obtain ⟨a', b', l, hR', h1, h2⟩ := (scan_sim h t marg v al (grid (cMax cInit)) hR).cases
  rw [h1, h2]
  dsimp only
  cases bracket l none with
  | none =>
    dsimp only
    cases (l.filterMap Prod.snd).head? with
    | none => exact ⟨hR', rfl⟩
    | some g => exact ⟨hR', rfl⟩
  | some p =>
    obtain ⟨lo, hi⟩ := p
    dsimp only
    obtain ⟨a'', b'', o, hR'', h1, h2⟩ := (Brent.brentq_sim (evalAt_sim h t marg v al) (min lo hi) (max lo hi) xtol rtol 50
      hR').cases
    rw [h1, h2]
    cases o with
    | error _ => exact ⟨hR'', rfl⟩
    | ok y => exact ⟨hR'', rfl⟩

theorem lines_sim (h : Sim R e f) (t : Mats n) (marg : Fin n → Marginal) (al : Fin n → ℝ) (cInit : ℝ)
    (vs : List (Fin n → ℝ)) : ∀ {a : σ} {b : τ}, R a b → RP R (lines t marg e al cInit vs a) (lines t marg f al cInit vs b) := by
  induction vs with
  | nil => intro a b hR; exact ⟨hR, rfl⟩
  | cons v vs ih =>
    intro a b hR
    unfold lines
    dsimp only
    obtain ⟨a', b', o, hR', h1, h2⟩ := (findLine_sim h t marg v al cInit hR).cases
    rw [h1, h2]
    obtain ⟨a'', b'', l, hR'', h1, h2⟩ := (ih hR').cases
    simp only [h1, h2]
    exact ⟨hR'', rfl⟩

theorem sample_sim (h : Sim R e f) (t : Mats n) (marg : Fin n → Marginal) (al : Fin n → ℝ) (beta : ℝ) (N : ℕ) (ω : ℕ → ℝ)
    (pos : ℕ) {a : σ} {b : τ} (hR : R a b) :
    RP R (sample t marg e al beta N ω pos a) (sample t marg f al beta N ω pos b) := by
  unfold sample
  dsimp only
  obtain ⟨a', b', l, hR', h1, h2⟩ := (lines_sim h t marg al beta ((Subset.randn ω n N pos).map (project al)) hR).cases
  rw [h1, h2]
  exact ⟨hR', rfl⟩

end LineSampling

namespace Sorm
variable {m : ℕ}

theorem evaluateLSF_sim (h : Sim R e f) (t : Mats n) (marg : Fin n → Marginal) :
    FSim R (fun s x => evaluateLSF t marg e x s) (fun s x => evaluateLSF t marg f x s) := by
  intro a b x hR
  dsimp only
  unfold evaluateLSF
  obtain ⟨a', b', o, hR', h1, h2⟩ := (show RP R _ _ from h.withGrad a b hR x).cases
  simp only [h1, h2]
  cases o with
  | error _ => exact ⟨hR', rfl⟩
  | ok o =>
    obtain ⟨G, grad, x0⟩ := o
    dsimp only
    cases npInv (jacobian t marg (xToU t marg x0) x0) with
    | error _ => exact ⟨hR', rfl⟩
    | ok J => exact ⟨hR', rfl⟩

theorem hessianColumns_sim (h : Sim R e f) (t : Mats n) (marg : Fin n → Marginal) (u0 g0 : Fin n → ℝ) (hh : ℝ)
    (is : List (Fin n)) : ∀ {a : σ} {b : τ}, R a b →
    RP R (hessianColumns t marg e u0 g0 hh is a) (hessianColumns t marg f u0 g0 hh is b) := by
  induction is with
  | nil => intro a b hR; exact ⟨hR, rfl⟩
  | cons i is ih =>
    intro a b hR
    unfold hessianColumns
    obtain ⟨a', b', o, hR', h1, h2⟩ := (evaluateLSF_sim h t marg a b (uToX t marg (Function.update u0 i (u0 i + hh)))
      hR).cases
    dsimp only at h1 h2
    rw [h1, h2]
    cases o with
    | error _ => exact ⟨hR', rfl⟩
    | ok o =>
      obtain ⟨_, g1⟩ := o
      dsimp only
      obtain ⟨a'', b'', o, hR'', h1, h2⟩ := (ih hR').cases
      rw [h1, h2]
      cases o with
      | error _ => exact ⟨hR'', rfl⟩
      | ok o => exact ⟨hR'', rfl⟩

theorem computeHessian_sim (h : Sim R e f) (t : Mats n) (marg : Fin n → Marginal) (form : Form.Result n) (p : ℝ)
    {a : σ} {b : τ} (hR : R a b) : RP R (computeHessian t marg e form p a) (computeHessian t marg f form p b) := by
  unfold computeHessian computeHessianAt
  split
  · exact ⟨hR, rfl⟩
  · dsimp only
    obtain ⟨a', b', o, hR', h1, h2⟩ := (evaluateLSF_sim h t marg a b (designPoint t marg form false) hR).cases
    dsimp only at h1 h2
    rw [h1, h2]
    cases o with
    | error _ => exact ⟨hR', rfl⟩
    | ok o =>
      obtain ⟨_, g0⟩ := o
      dsimp only
      obtain ⟨a'', b'', o, hR'', h1, h2⟩ := (hessianColumns_sim h t marg (designPoint t marg form true) g0 (1 / p)
        (List.finRange n) hR').cases
      rw [h1, h2]
      cases o with
      | error _ => exact ⟨hR'', rfl⟩
      | ok o => exact ⟨hR'', rfl⟩

variable {e : Evaluator σ (m + 1)} {f : Evaluator τ (m + 1)}

theorem newton_sim (h : Sim R e f) (t : Mats (m + 1)) (marg : Fin (m + 1) → Marginal)
    (Q : Matrix (Fin (m + 1)) (Fin (m + 1)) ℝ) (axis : Fin m) (c : ℝ) (iter : ℕ) : ∀ (v : ℝ) {a : σ} {b : τ}, R a b →
    RP R (newton t marg e Q axis c iter v a) (newton t marg f Q axis c iter v b) := by
  induction iter with
  | zero => intro v a b hR; exact ⟨hR, rfl⟩
  | succ iter ih =>
    intro v a b hR
    unfold newton
    obtain ⟨a', b', o, hR', h1, h2⟩ := (evaluateLSF_sim h t marg a b
      (uToX t marg (Q.transpose.mulVec (trialPoint axis c v))) hR).cases
    dsimp only at h1 h2
    rw [h1, h2]
    cases o with
    | error _ => exact ⟨hR', rfl⟩
    | ok o =>
      obtain ⟨G, gU⟩ := o
      dsimp only
      split
      · exact ⟨hR', rfl⟩
      · split
        · exact ⟨hR', rfl⟩
        · exact ih _ hR'

theorem findFittingPoint_sim (h : Sim R e f) (t : Mats (m + 1)) (marg : Fin (m + 1) → Marginal)
    (Q : Matrix (Fin (m + 1)) (Fin (m + 1)) ℝ) (axis : Fin m) (sign beta k : ℝ) {a : σ} {b : τ} (hR : R a b) :
    RP R (findFittingPoint t marg e Q axis sign beta k a) (findFittingPoint t marg f Q axis sign beta k b) := by
  unfold findFittingPoint
  obtain ⟨a', b', o, hR', h1, h2⟩ := (newton_sim h t marg Q axis (sign * k * beta) 50 beta hR).cases
  rw [h1, h2]
  cases o with
  | error _ => exact ⟨hR', rfl⟩
  | ok v =>
    dsimp only
    split
    · exact ⟨hR', rfl⟩
    · exact ⟨hR', rfl⟩

theorem fitAxes_sim (h : Sim R e f) (t : Mats (m + 1)) (marg : Fin (m + 1) → Marginal)
    (Q : Matrix (Fin (m + 1)) (Fin (m + 1)) ℝ) (beta k : ℝ) (is : List (Fin m)) : ∀ {a : σ} {b : τ}, R a b →
    RP R (fitAxes t marg e Q beta k is a) (fitAxes t marg f Q beta k is b) := by
  induction is with
  | nil => intro a b hR; exact ⟨hR, rfl⟩
  | cons i is ih =>
    intro a b hR
    unfold fitAxes
    obtain ⟨a', b', o, hR', h1, h2⟩ := (findFittingPoint_sim h t marg Q i (-1) beta k hR).cases
    rw [h1, h2]
    cases o with
    | error _ => exact ⟨hR', rfl⟩
    | ok km =>
      dsimp only
      obtain ⟨a'', b'', o, hR'', h1, h2⟩ := (findFittingPoint_sim h t marg Q i 1 beta k hR').cases
      rw [h1, h2]
      cases o with
      | error _ => exact ⟨hR'', rfl⟩
      | ok kp =>
        dsimp only
        obtain ⟨a3, b3, o, hR3, h1, h2⟩ := (ih hR'').cases
        rw [h1, h2]
        cases o with
        | error _ => exact ⟨hR3, rfl⟩
        | ok l => exact ⟨hR3, rfl⟩

theorem run_sim (h : Sim R e f) (eig : Matrix (Fin m) (Fin m) ℝ → List ℝ) (t : Mats (m + 1))
    (marg : Fin (m + 1) → Marginal) (form : Form.Result (m + 1)) (p : ℝ) (print : Bool) (fit : String) {a : σ} {b : τ}
    (hR : R a b) : RP R (run eig t marg e form p print fit a) (run eig t marg f form p print fit b) := by
  unfold run
  split
  · rw [runCurvefit_eq, runCurvefit_eq]
    obtain ⟨a', b', o, hR', h1, h2⟩ := (computeHessian_sim h t marg form p hR).cases
    rw [h1, h2]
    cases o with
    | error _ => exact ⟨hR', rfl⟩
    | ok hess =>
      dsimp only
      cases orthonormalMatrix form.alpha with
      | error _ => exact ⟨hR', rfl⟩
      | ok Q => exact ⟨hR', rfl⟩
  · split
    · rw [runPointfit_eq, runPointfit_eq]
      cases orthonormalMatrix form.alpha with
      | error _ => exact ⟨hR, rfl⟩
      | ok Q =>
        dsimp only
        split
        · exact ⟨hR, rfl⟩
        · obtain ⟨a', b', o, hR', h1, h2⟩ := (fitAxes_sim h t marg Q form.beta (stepCoeff form.beta) (List.finRange m)
            hR).cases
          rw [h1, h2]
          cases o with
          | error _ => exact ⟨hR', rfl⟩
          | ok l => exact ⟨hR', rfl⟩
    · exact ⟨hR, rfl⟩

end Sorm
end Pystra
