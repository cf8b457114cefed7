import Verif.Model.Form

/-! What an evaluation reads of the model: two evaluations of models with the same variables and constants give the same
answer, make the same calls and count the same number of evaluations. -/

namespace Pystra
open LimitState

variable {D : Type} {n : ℕ}

/-- The state of an evaluation after `j` counted evaluations and the calls `T`. -/
def Ev.advance (ev : Ev D) (j : ℕ) (T : List Kwargs) : Ev D :=
  ⟨ev.model.addCallFunction j, ev.trace ++ T⟩

theorem Ev.advance_zero (ev : Ev D) : ev.advance 0 [] = ev := by
  simp [Ev.advance, StochModel.addCallFunction]

theorem Ev.advance_advance (ev : Ev D) (j k : ℕ) (S T : List Kwargs) :
    (ev.advance j S).advance k T = ev.advance (j + k) (S ++ T) := by
  simp [Ev.advance, StochModel.addCallFunction, Nat.add_assoc]

/-- The same variables and constants. -/
structure SameVars (a b : StochModel D ℝ) : Prop where
  vars : a.vars = b.vars
  consts : a.consts = b.consts

theorem SameVars.advance {a b : Ev D} (h : SameVars a.model b.model) (j k : ℕ) (S T : List Kwargs) :
    SameVars (a.advance j S).model (b.advance k T).model := ⟨h.vars, h.consts⟩

theorem computeLsf_same {expr : Kwargs → GRet} {x : List (Fin n → ℝ)} {ddm : Bool} {a b : Ev D}
    (h : SameVars a.model b.model) :
    ∃ T out, computeLsf expr x ddm a = (a.advance 0 T, out) ∧ computeLsf expr x ddm b = (b.advance 0 T, out) := by
  have hi : inpdict a.model x = inpdict b.model x := by
    unfold inpdict StochModel.getVariables StochModel.getConstants
    rw [h.vars, h.consts]
  unfold computeLsf
  rw [hi]
  cases inpdict b.model x with
  | error e => exact ⟨[], .error e, by rw [a.advance_zero], by rw [b.advance_zero]⟩
  | ok kw => exact ⟨[kw], _, rfl, rfl⟩

theorem blockLoop_same {assign : ℕ → GVal → Except PyErr (List ℝ)} {expr : Kwargs → GRet} {x : List (Fin n → ℝ)}
    (fuel : ℕ) : ∀ (bs k : ℕ) (acc : List ℝ) {a b : Ev D}, SameVars a.model b.model →
    (blockLoop assign expr x fuel bs k acc a = none ∧ blockLoop assign expr x fuel bs k acc b = none) ∨
    ∃ T out, blockLoop assign expr x fuel bs k acc a = some (a.advance 0 T, out) ∧
      blockLoop assign expr x fuel bs k acc b = some (b.advance 0 T, out) := by
  induction fuel with
  | zero =>
    intro bs k acc a b h
    unfold blockLoop
    by_cases hk : k < x.length
    · left; simp [if_pos hk]
    · right; simp only [if_neg hk]
      exact ⟨[], .ok acc, by rw [a.advance_zero], by rw [b.advance_zero]⟩
  | succ fuel ih =>
    intro bs k acc a b h
    unfold blockLoop
    by_cases hk : k < x.length
    · simp only [if_pos hk]
      obtain ⟨T, out, h1, h2⟩ := computeLsf_same (expr := expr) (x := (x.drop k).take (min bs (x.length - k)))
        (ddm := false) h
      rw [h1, h2]
      rcases out with e | ⟨g, dg⟩
      · right; exact ⟨T, .error e, rfl, rfl⟩
      · simp only
        cases assign (min bs (x.length - k)) g with
        | error e => right; exact ⟨T, .error e, rfl, rfl⟩
        | ok vals =>
          rcases ih (min bs (x.length - k)) (k + min bs (x.length - k)) (acc ++ vals) (h.advance 0 0 T T) with
            ⟨e1, e2⟩ | ⟨T', out, e1, e2⟩
          · left; exact ⟨e1, e2⟩
          · right
            rw [Ev.advance_advance] at e1 e2
            exact ⟨T ++ T', out, e1, e2⟩
    · right; simp only [if_neg hk]
      exact ⟨[], .ok acc, by rw [a.advance_zero], by rw [b.advance_zero]⟩

theorem ddmLoop_same {expr : Kwargs → GRet} {nx : ℕ} (xs : List (Fin n → ℝ)) : ∀ (k : ℕ) (G : List ℝ)
    (grad : List (Fin n → ℝ)) {a b : Ev D}, SameVars a.model b.model →
    ∃ T out, ddmLoop expr nx xs k G grad a = (a.advance 0 T, out) ∧ ddmLoop expr nx xs k G grad b = (b.advance 0 T, out) := by
  induction xs with
  | nil =>
    intro k G grad a b h
    exact ⟨[], .ok (G, grad), by rw [a.advance_zero]; rfl, by rw [b.advance_zero]; rfl⟩
  | cons p t ih =>
    intro k G grad a b h
    unfold ddmLoop
    obtain ⟨T, out, h1, h2⟩ := computeLsf_same (expr := expr) (x := [p]) (ddm := true) h
    rw [h1, h2]
    rcases out with e | ⟨g, dg⟩
    · exact ⟨T, .error e, rfl, rfl⟩
    · simp only
      cases ddmAssignG nx k g with
      | error e => exact ⟨T, .error e, rfl, rfl⟩
      | ok G' =>
        simp only
        cases gradColumn (n := n) (dg.getD (.scalar 0)) with
        | error e => exact ⟨T, .error e, rfl, rfl⟩
        | ok col =>
          obtain ⟨T', out, e1, e2⟩ := ih (k + 1) G' (grad ++ [col]) (h.advance 0 0 T T)
          rw [Ev.advance_advance] at e1 e2
          exact ⟨T ++ T', out, e1, e2⟩

theorem evaluateLsf_same (fuel : ℕ) (expr : Kwargs → GRet) (opt : LSOptions) (stdv : Fin n → ℝ)
    (mode : Option String) (x : List (Fin n → ℝ)) {a b : Ev D} (h : SameVars a.model b.model) :
    (evaluateLsf fuel expr opt stdv mode x a = none ∧ evaluateLsf fuel expr opt stdv mode x b = none) ∨
    ∃ j T out, evaluateLsf fuel expr opt stdv mode x a = some (a.advance j T, out) ∧
      evaluateLsf fuel expr opt stdv mode x b = some (b.advance j T, out) := by
  have hadv : ∀ (c : Ev D) T m, ({ c.advance 0 T with model := (c.advance 0 T).model.addCallFunction m } : Ev D) =
      c.advance m T := by
    intro c T m
    simp [Ev.advance, StochModel.addCallFunction]
  have core : ∀ md : String,
      let F : Ev D → Option (Ev D × Except PyErr (EvalOut n)) := fun ev =>
        if opt.multiProc = 0 then some (ev, .error .notImplemented)
        else if md = "no" then evaluateNogradient fuel expr opt x ev
        else if md = "ddm" then some (evaluateDdm expr x ev)
        else evaluateFfd fuel expr opt stdv x ev
      (F a = none ∧ F b = none) ∨ ∃ j T out, F a = some (a.advance j T, out) ∧ F b = some (b.advance j T, out) := by
   intro md
   dsimp only
   split
   · right; exact ⟨0, [], _, by rw [a.advance_zero], by rw [b.advance_zero]⟩
   · split
     · unfold evaluateNogradient
       rcases blockLoop_same (assign := broadcastTo) (expr := expr) (x := x) fuel opt.blockSize 0 [] h with
         ⟨e1, e2⟩ | ⟨T, out, e1, e2⟩
       · left; rw [e1, e2]; exact ⟨rfl, rfl⟩
       · right
         rw [e1, e2]
         cases out with
         | error e => exact ⟨0, T, .error e, rfl, rfl⟩
         | ok G => exact ⟨x.length, T, _, by simp only [hadv]; rfl, by simp only [hadv]⟩
     · split
       · right
         unfold evaluateDdm
         obtain ⟨T, out, e1, e2⟩ := ddmLoop_same (expr := expr) (nx := x.length) x 0 [] [] h
         rw [e1, e2]
         rcases out with e | ⟨G, grad⟩
         · exact ⟨0, T, .error e, rfl, rfl⟩
         · exact ⟨x.length, T, _, by simp only [hadv]; rfl, by simp only [hadv]⟩
       · unfold evaluateFfd
         rcases x with _ | ⟨x0, _ | ⟨x1, t⟩⟩
         · right; exact ⟨0, [], _, by rw [a.advance_zero], by rw [b.advance_zero]⟩
         · simp only
           rcases hp : ffdPerturb (fun j => stdv j / opt.ffdpara) (List.finRange n) (x0, List.replicate (1 + n) x0)
             with ⟨xa, allx⟩
           simp only
           rcases blockLoop_same (assign := squeezeTo) (expr := expr) (x := allx) fuel opt.blockSize 0 [] h with
             ⟨e1, e2⟩ | ⟨T, out, e1, e2⟩
           · left; rw [e1, e2]; exact ⟨rfl, rfl⟩
           · right
             rw [e1, e2]
             cases out with
             | error e => exact ⟨0, T, .error e, rfl, rfl⟩
             | ok G => exact ⟨1 + n, T, _, by simp only [hadv]; rfl, by simp only [hadv]⟩
         · right; exact ⟨0, [], _, by rw [a.advance_zero], by rw [b.advance_zero]⟩
  unfold evaluateLsf
  cases mode with
  | none => exact core _
  | some _ => exact core _

/-- Two evaluators answer alike in related states, and go to related states. -/
structure Sim {σ τ : Type} (R : σ → τ → Prop) (e : Form.Evaluator σ n) (f : Form.Evaluator τ n) : Prop where
  withGrad : ∀ s t, R s t → ∀ x, R (e.withGrad s x).1 (f.withGrad t x).1 ∧ (e.withGrad s x).2 = (f.withGrad t x).2
  values : ∀ s t, R s t → ∀ xs, R (e.values s xs).1 (f.values t xs).1 ∧ (e.values s xs).2 = (f.values t xs).2

/-- The two states have advanced by the same evaluations and the same calls. -/
def SameAdvance (a b : Ev D) (s t : Ev D) : Prop := ∃ j T, s = a.advance j T ∧ t = b.advance j T

theorem ls_sim (expr : Kwargs → GRet) (opt : LSOptions) (stdv : Fin n → ℝ) {a b : Ev D} (h : SameVars a.model b.model) :
    Sim (SameAdvance a b) (Form.lsEvaluator expr opt stdv) (Form.lsEvaluator expr opt stdv) := by
  constructor
  · rintro s t ⟨j, T, rfl, rfl⟩ x
    simp only [Form.lsEvaluator]
    rcases evaluateLsf_same (7 + n) expr opt stdv none [x] (h.advance j j T T) with ⟨e1, e2⟩ | ⟨j', T', out, e1, e2⟩
    · rw [e1, e2]; exact ⟨⟨j, T, rfl, rfl⟩, rfl⟩
    · rw [e1, e2, Ev.advance_advance, Ev.advance_advance]
      cases out with
      | error e => exact ⟨⟨_, _, rfl, rfl⟩, rfl⟩
      | ok o => exact ⟨⟨_, _, rfl, rfl⟩, rfl⟩
  · rintro s t ⟨j, T, rfl, rfl⟩ xs
    simp only [Form.lsEvaluator]
    rcases evaluateLsf_same (7 + n + xs.length) expr opt stdv (some "no") xs (h.advance j j T T) with
      ⟨e1, e2⟩ | ⟨j', T', out, e1, e2⟩
    · rw [e1, e2]; exact ⟨⟨j, T, rfl, rfl⟩, rfl⟩
    · rw [e1, e2, Ev.advance_advance, Ev.advance_advance]
      cases out with
      | error e => exact ⟨⟨_, _, rfl, rfl⟩, rfl⟩
      | ok o => exact ⟨⟨_, _, rfl, rfl⟩, rfl⟩

end Pystra
