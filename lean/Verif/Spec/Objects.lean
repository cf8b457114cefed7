import Verif.Model.SormObject
import Verif.Model.LineObject
import Verif.Model.MonteCarloObject
import Verif.Model.SubsetObject
import Verif.Model.DistributionObject

/-!
What the runs in the history of an analysis object give, each taken on its own.
-/

namespace Pystra.Spec

/-- The result of the last run that was completed. -/
def lastCompleted {α : Type} (outcomes : List (Except PyErr α)) : Option α :=
  (outcomes.filterMap (fun o => match o with | .ok r => some r | .error _ => none)).getLast?

/-- The outcomes of the FORM runs in a history, each run being that of a new object on the model as it is then
(`Session.formRun`); `none` when one of them does not end or meets a zero gradient. -/
noncomputable def formOutcomes (n : ℕ) : List FormObj.Event → Ev Marginal →
    Option (Ev Marginal × List (Except PyErr (Form.Result n)))
  | [], ev => some (ev, [])
  | .world f :: h, ev => formOutcomes n h (f ev)
  | .run c opt :: h, ev =>
    match Session.formRun c n opt ev with
    | some (ev, .inl r) => (formOutcomes n h ev).map (fun p => (p.1, .ok r :: p.2))
    | some (ev, .inr (.raised e)) => (formOutcomes n h ev).map (fun p => (p.1, .error e :: p.2))
    | _ => none

/-- A SORM run taken on its own: by a new `Sorm` object on the model as it is, without printing. -/
structure SormRun (m : ℕ) where
  /-- the argument of `run` -/
  fit : String
  /-- whether `init_run` succeeded -/
  began : Bool
  /-- the new object after the run -/
  result : Except PyErr (SormObj.Obj m)

/-- The run of a new `Sorm` object that holds the FORM object `F`. -/
noncomputable def sormAlone {m : ℕ} (c : Session.Setup) (ffdpara : ℝ) (fit : String) (F : FormObj.Obj (m + 1)) (ev : Ev Marginal) :
    Ev Marginal × SormRun m :=
  let r := SormObj.run c ffdpara false fit (SormObj.fresh F) ev
  (r.2.1, ⟨fit, r.1.fitType.isSome, match r.2.2 with | .ok _ => .ok r.1 | .error e => .error e⟩)

/-- The SORM runs of a history, each taken on its own with the FORM object as it is then; `none` when a FORM run does not end
or meets a zero gradient. -/
noncomputable def sormOutcomes {m : ℕ} : List SormObj.Event → FormObj.Obj (m + 1) → Ev Marginal →
    Option (FormObj.Obj (m + 1) × Ev Marginal × List (SormRun m))
  | [], F, ev => some (F, ev, [])
  | .world f :: h, F, ev => sormOutcomes h F (f ev)
  | .form c fopt :: h, F, ev =>
    match FormObj.run c fopt F ev with
    | some (F, ev, .finished) => sormOutcomes h F ev
    | some (F, ev, .raised _) => sormOutcomes h F ev
    | _ => none
  | .run c ffdpara _ fit :: h, F, ev =>
    let a := sormAlone c ffdpara fit F ev
    (sormOutcomes h F a.1).map (fun p => (p.1, p.2.1, a.2 :: p.2.2))

/-- A line-sampling run taken on its own: by a new `LineSampling` object that is given the `Form` object `F` (or none), on the
model as it is, from the position `pos` of the draws, without printing.  The first component is the new object's `form`
afterwards. -/
noncomputable def lineAlone {n : ℕ} (st : LineObj.Settings) (ω : ℕ → ℝ) (F : Option (FormObj.Obj n)) (ev : Ev Marginal) (pos : ℕ) :
    Option (Option (FormObj.Obj n) × Ev Marginal × ℕ × Except PyErr (LineObj.Obj n)) :=
  (LineObj.run { st with print := false } ω (LineObj.fresh F) ev pos).map fun r =>
    (r.1.form, r.2.1, r.2.2.1, match r.2.2.2 with | .ok _ => .ok r.1 | .error e => .error e)

/-- The line-sampling runs of a history, each taken on its own with the FORM object as it is then. -/
noncomputable def lineOutcomes {n : ℕ} (ω : ℕ → ℝ) : List LineObj.Event → Option (FormObj.Obj n) → Ev Marginal → ℕ →
    Option (Option (FormObj.Obj n) × Ev Marginal × ℕ × List (Except PyErr (LineObj.Obj n)))
  | [], F, ev, pos => some (F, ev, pos, [])
  | .world f k :: h, F, ev, pos => lineOutcomes ω h F (f ev) (pos + k)
  | .form c fopt :: h, F, ev, pos =>
    match F with
    | none => lineOutcomes ω h none ev pos
    | some F =>
      match FormObj.run c fopt F ev with
      | some (F, ev, .finished) => lineOutcomes ω h (some F) ev pos
      | some (F, ev, .raised _) => lineOutcomes ω h (some F) ev pos
      | _ => none
  | .run st :: h, F, ev, pos =>
    match lineAlone st ω F ev pos with
    | none => none
    | some (F, ev, pos, a) => (lineOutcomes ω h F ev pos).map (fun p => (p.1, p.2.1, p.2.2.1, a :: p.2.2.2))

/-- A simulation run taken on its own: by a new object with the given centre, on the model as it is, from the position `pos` of
the draws, without printing: the new object afterwards, and how the run ended. -/
noncomputable def mcAlone {n : ℕ} (kind : McObj.Kind) (st : McObj.Settings) (ω : ℕ → ℝ) (point : Option (Fin n → ℝ)) (ev : Ev Marginal)
    (pos : ℕ) : Option (McObj.Obj n × Ev Marginal × ℕ × Except PyErr Unit) :=
  McObj.run kind { st with print := false } ω (McObj.fresh point) ev pos

/-- The simulation runs of a history, each taken on its own. -/
noncomputable def mcRuns {n : ℕ} (kind : McObj.Kind) (ω : ℕ → ℝ) (point : Option (Fin n → ℝ)) : List McObj.Event → Ev Marginal → ℕ →
    Option (Ev Marginal × ℕ × List (McObj.Obj n × Except PyErr Unit))
  | [], ev, pos => some (ev, pos, [])
  | .world f k :: h, ev, pos => mcRuns kind ω point h (f ev) (pos + k)
  | .run st :: h, ev, pos =>
    match mcAlone kind st ω point ev pos with
    | none => none
    | some (a, ev, pos, r) => (mcRuns kind ω point h ev pos).map (fun p => (p.1, p.2.1, (a, r) :: p.2.2))

/-- A subset-simulation run taken on its own: by a new object (with valid `p0`), on the model as it is, from the positions `pos` and
`upos` of the draws, without printing: the new object afterwards, and how the run ended. -/
noncomputable def subsetAlone {n : ℕ} (st : SubsetObj.Settings) (ω υ : ℕ → ℝ) (p0 sigma : ℝ) (ev : Ev Marginal) (pos upos : ℕ) :
    Option (SubsetObj.Obj n × Ev Marginal × ℕ × ℕ × Except PyErr Unit) :=
  SubsetObj.run { st with print := false } ω υ ⟨false, none, p0, sigma, none, none, none, [], [], none⟩ ev pos upos

/-- The subset-simulation runs of a history, each taken on its own. -/
noncomputable def subsetRuns {n : ℕ} (ω υ : ℕ → ℝ) (p0 sigma : ℝ) : List SubsetObj.Event → Ev Marginal → ℕ → ℕ →
    Option (Ev Marginal × ℕ × ℕ × List (SubsetObj.Obj n × Except PyErr Unit))
  | [], ev, pos, upos => some (ev, pos, upos, [])
  | .world f k k' :: h, ev, pos, upos => subsetRuns ω υ p0 sigma h (f ev) (pos + k) (upos + k')
  | .run st :: h, ev, pos, upos =>
    match subsetAlone st ω υ p0 sigma ev pos upos with
    | none => none
    | some (a, ev, pos, upos, r) =>
      (subsetRuns ω υ p0 sigma h ev pos upos).map (fun p => (p.1, p.2.1, p.2.2.1, (a, r) :: p.2.2.2))

/-- A distribution analysis taken on its own: by a new object, on the model as it is, from the position `pos` of the draws, without
printing: the new object afterwards, and how the run ended. -/
noncomputable def daAlone {n : ℕ} (st : DaObj.Settings) (ω : ℕ → ℝ) (ev : Ev Marginal) (pos : ℕ) :
    Option (DaObj.Obj n × Ev Marginal × ℕ × Except PyErr Unit) :=
  DaObj.run { st with print := false } ω DaObj.fresh ev pos

/-- The runs of a history, each taken on its own. -/
noncomputable def daRuns {n : ℕ} (ω : ℕ → ℝ) : List DaObj.Event → Ev Marginal → ℕ →
    Option (Ev Marginal × ℕ × List (DaObj.Obj n × Except PyErr Unit))
  | [], ev, pos => some (ev, pos, [])
  | .world f k :: h, ev, pos => daRuns ω h (f ev) (pos + k)
  | .run st :: h, ev, pos =>
    match daAlone st ω ev pos with
    | none => none
    | some (a, ev, pos, r) => (daRuns ω h ev pos).map (fun p => (p.1, p.2.1, (a, r) :: p.2.2))

/-- The percentages printed when the blocks up to `K` are done. -/
def DoneMessages (bs N K : ℕ) (L : List ℕ) : Prop :=
  L.Pairwise (· < ·) ∧ ∀ p, p ∈ L ↔ 0 < p ∧ ∃ K', 0 < K' ∧ K' ≤ K ∧ (bs ∣ K' ∨ K' = N) ∧ p = 5 * (20 * K' / N)

/-- An evaluator that returns the values of `f` whenever it returns. -/
def Honest {σ : Type} {n : ℕ} (ev : Form.Evaluator σ n) (P : σ → Prop) (f : (Fin n → ℝ) → ℝ) : Prop :=
  ∀ s, P s → ∀ xs s' G, ev.values s xs = (s', .ok G) → G = xs.map f ∧ P s'

/-- The value given by the last of the elements that give one. -/
def lastWritten {α β : Type} (f : α → Option β) (l : List α) : Option β := (l.filterMap f).getLast?

end Pystra.Spec
