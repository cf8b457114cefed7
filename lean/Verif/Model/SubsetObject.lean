import Verif.Model.Session

/-!
Model of a `SubsetSimulation` *object* (src/pystra/ss.py): its attributes and its methods, over any number of calls of `run`.
`ω` is the stream of normal draws of the process, `υ` that of uniform draws, with the positions `pos` and `upos` in them.  The number of
random variables is `n` throughout.
-/

namespace Pystra.SubsetObj
open Transformation Form Subset

variable {σ : Type} {n : ℕ}

/-- The attributes (ss.py 80–89, analysis.py 66–71); `none` is Python's `None`. -/
structure Obj (n : ℕ) where
  /-- `self.results_valid` -/
  resultsValid : Bool
  /-- `self.transform.T`, `self.transform.inv_T` -/
  transform : Option (Mats n)
  /-- `self.p0` -/
  p0 : ℝ
  /-- `self.proposal_sigma` -/
  sigma : ℝ
  /-- `self.Pf` -/
  Pf : Option ℝ
  /-- `self.beta` -/
  beta : Option EReal
  /-- `self.cov` -/
  cov : Option ℝ
  /-- `self.thresholds` -/
  thresholds : List ℝ
  /-- `self.conditional_probs` -/
  probs : List ℝ
  /-- `self.n_levels` -/
  nLevels : Option ℕ

open Classical in
/-- `SubsetSimulation(..., p0=p0, proposal_sigma=sigma)` (ss.py 67–89). -/
noncomputable def new (p0 sigma : ℝ) : Except PyErr (Obj n) :=
  if ¬ (0 < p0 ∧ p0 < 1) then .error .valueError
  else .ok ⟨false, none, p0, sigma, none, none, none, [], [], none⟩

/-- The lists that a run appends to. -/
structure Lists where
  /-- `self.thresholds` -/
  thresholds : List ℝ
  /-- `self.conditional_probs` -/
  probs : List ℝ

/-- `self.thresholds.append(y)`, `self.conditional_probs.append(p)`. -/
def Lists.append (l : Lists) (y p : ℝ) : Lists := ⟨l.thresholds ++ [y], l.probs ++ [p]⟩

open Classical in
/-- One pass of the inner loop of `_mmh_step` (ss.py 241–265). -/
noncomputable def move (t : Mats n) (marg : Fin n → Marginal) (ev : Evaluator σ n) (sigma threshold : ℝ) (υ : ℕ → ℝ)
    (cur : Sample n) (pos : ℕ) (s : σ) : σ × ℕ × Except PyErr (Sample n) :=
  let uProp := proposal sigma υ pos cur.1
  match ev.values s [uToX t marg uProp] with
  | (s, .error e) => (s, pos + 2 * n, .error e)
  | (s, .ok G) => (s, pos + 2 * n, .ok (if G.headD 0 ≤ threshold then (uProp, G.headD 0) else cur))

/-- One chain (ss.py 237–265). -/
noncomputable def chain (t : Mats n) (marg : Fin n → Marginal) (ev : Evaluator σ n) (sigma threshold : ℝ) (υ : ℕ → ℝ) :
    ℕ → Sample n → ℕ → σ → σ × ℕ × Except PyErr (List (Sample n))
  | 0, _, pos, s => (s, pos, .ok [])
  | m + 1, cur, pos, s =>
    match move t marg ev sigma threshold υ cur pos s with
    | (s, pos, .error e) => (s, pos, .error e)
    | (s, pos, .ok cur) =>
      match chain t marg ev sigma threshold υ m cur pos s with
      | (s, pos, .error e) => (s, pos, .error e)
      | (s, pos, .ok l) => (s, pos, .ok (cur :: l))

/-- The loop over the seeds (ss.py 236–265) from seed number `i` on. -/
noncomputable def chains (t : Mats n) (marg : Fin n → Marginal) (ev : Evaluator σ n) (sigma threshold : ℝ) (υ : ℕ → ℝ)
    (base remainder : ℕ) : ℕ → List (Sample n) → ℕ → σ → σ × ℕ × Except PyErr (List (Sample n))
  | _, [], pos, s => (s, pos, .ok [])
  | i, seed :: seeds, pos, s =>
    match chain t marg ev sigma threshold υ (base + if i < remainder then 1 else 0) seed pos s with
    | (s, pos, .error e) => (s, pos, .error e)
    | (s, pos, .ok l) =>
      match chains t marg ev sigma threshold υ base remainder (i + 1) seeds pos s with
      | (s, pos, .error e) => (s, pos, .error e)
      | (s, pos, .ok l') => (s, pos, .ok (l ++ l'))

/-- `_mmh_step` (ss.py 205–267). -/
noncomputable def mmhStep (t : Mats n) (marg : Fin n → Marginal) (ev : Evaluator σ n) (sigma threshold : ℝ) (υ : ℕ → ℝ)
    (N : ℕ) (seeds : List (Sample n)) (pos : ℕ) (s : σ) : σ × ℕ × Except PyErr (List (Sample n)) :=
  if seeds.length = 0 then (s, pos, .error .zeroDivision)
  else chains t marg ev sigma threshold υ (N / seeds.length) (N - N / seeds.length * seeds.length) 0 seeds pos s

open Classical in
/-- The loop over the levels (ss.py 135–163), at most `fuel` levels: the lists, the limit state's side, the position among the uniform
draws, and the number of levels with the probability.  `none` when it is still running. -/
noncomputable def levels (t : Mats n) (marg : Fin n → Marginal) (ev : Evaluator σ n) (p0 sigma : ℝ) (N : ℕ) (υ : ℕ → ℝ) :
    ℕ → List (Sample n) → ℝ → ℝ → Lists → ℕ → ℕ → σ → Option (Lists × σ × ℕ × Except PyErr (ℕ × ℝ))
  | 0, _, _, _, _, _, _, _ => none
  | fuel + 1, seeds, y, Pf, l, level, pos, s =>
    match mmhStep t marg ev sigma y υ N seeds pos s with
    | (s, pos, .error e) => some (l, s, pos, .error e)
    | (s, pos, .ok new) =>
      let G := new.map Prod.snd
      let yNew := percentile G p0
      if yNew ≤ 0 then
        some (l.append 0 (fraction G 0 N), s, pos, .ok (level + 1, Pf * fraction G 0 N))
      else
        levels t marg ev p0 sigma N υ fuel (seedsOf new yNew) yNew (Pf * fraction G yNew N) (l.append yNew (fraction G yNew N))
          (level + 1) pos s

/-- The settings of a run: those shared by all analyses, `options.samples`, `options.block_size`, `options.print_output`. -/
structure Settings where
  /-- numerical routines, transformation, limit state -/
  c : Session.Setup
  /-- samples per level -/
  N : ℕ
  /-- block size of the first level -/
  block : ℕ
  /-- `options.print_output` -/
  print : Bool

open Classical in
/-- `run` between `init_run` and `_finalise` (ss.py 96–163), with `ω` read from its beginning: the lists, the limit state's side, the
position among the uniform draws, and the number of levels with the probability. -/
noncomputable def sample (t : Mats n) (marg : Fin n → Marginal) (ev : Evaluator σ n) (p0 sigma : ℝ) (N block fuel : ℕ) (ω υ : ℕ → ℝ)
    (upos : ℕ) (s : σ) : Option (Lists × σ × ℕ × Except PyErr (ℕ × ℝ)) :=
  let us := Subset.randn ω n N 0
  match evalBatch t marg ev block N us s with
  | .error (e, s) => some (⟨[], []⟩, s, upos, .error e)
  | .ok (G, s) =>
    if G.length = 0 then some (⟨[], []⟩, s, upos, .error .indexError)
    else
      let y := percentile G p0
      if y ≤ 0 then some (⟨[0], [fraction G 0 N]⟩, s, upos, .ok (1, fraction G 0 N))
      else
        levels t marg ev p0 sigma N υ fuel (seedsOf (us.zip G) y) y (fraction G y N) ⟨[y], [fraction G y N]⟩ 1 upos s

open Classical in
/-- `self.n_levels = ...` and `_finalise` (ss.py 118, 163, 170–183) up to the report. -/
noncomputable def finish (N : ℕ) (k : ℕ) (Pf : ℝ) (o : Obj n) : Obj n :=
  let delta := ((o.probs.filter (fun p : ℝ => 0 < p)).map (fun p : ℝ => (1 - p) / (N * p))).sum
  { o with
    nLevels := some k, Pf := some Pf
    beta := some (if 0 < Pf ∧ Pf < 1 then ((-StdNormal.ppf Pf : ℝ) : EReal) else if Pf ≤ 0 then ⊤ else ⊥)
    cov := some (if 0 < delta then √delta else 0) }

/-- What is printed. -/
structure Shown where
  /-- reliability index -/
  beta : EReal
  /-- failure probability -/
  Pf : ℝ
  /-- coefficient of variation -/
  cov : ℝ
  /-- number of levels; may be `None` -/
  nLevels : Option ℕ
  /-- the lines of the intermediate results: threshold and conditional probability -/
  lines : List (ℝ × ℝ)

/-- `showResults` (ss.py 281–301): formatting `None` raises `TypeError`. -/
def showResults (o : Obj n) : Except PyErr Shown :=
  if !o.resultsValid then .error .valueError
  else
    match o.beta, o.Pf, o.cov with
    | some b, some p, some c => .ok ⟨b, p, c, o.nLevels, o.thresholds.zip o.probs⟩
    | _, _, _ => .error .typeError

/-- `if self.options.getPrintOutput(): self.showResults()` (ss.py 185–186). -/
def printed (print : Bool) (o : Obj n) : Except PyErr Unit :=
  if print then (match showResults o with | .error e => .error e | .ok _ => .ok ()) else .ok ()

/-- The end of a run, when the lists are complete. -/
noncomputable def close (st : Settings) (o : Obj n) (r : Option (Lists × Ev Marginal × ℕ × Except PyErr (ℕ × ℝ))) (pos : ℕ) :
    Option (Obj n × Ev Marginal × ℕ × ℕ × Except PyErr Unit) :=
  match r with
  | none => none
  | some (l, ev, upos, .error e) => some ({ o with thresholds := l.thresholds, probs := l.probs }, ev, pos, upos, .error e)
  | some (l, ev, upos, .ok (k, Pf)) =>
    let o := finish st.N k Pf { o with thresholds := l.thresholds, probs := l.probs }
    some (o, ev, pos, upos, printed st.print o)

/-- `run()` (ss.py 91–164); `none` when it is still running. -/
noncomputable def run (st : Settings) (ω υ : ℕ → ℝ) (o : Obj n) (ev : Ev Marginal) (pos upos : ℕ) :
    Option (Obj n × Ev Marginal × ℕ × ℕ × Except PyErr Unit) :=
  let o := { o with resultsValid := true }
  match Session.initRun st.c n ev with
  | (ev, .error e) => some (o, ev, pos, upos, .error e)
  | (ev, .ok t) =>
    close st { o with transform := some t }
      (sample t (Session.margN n st.c.default ev.model) (Session.evaluator st.c n ev.model) o.p0 o.sigma st.N st.block st.c.fuel
        (fun k => ω (pos + k)) υ upos ev) (pos + n * st.N)

/-- `getBeta` (ss.py 273–275). -/
def getBeta (o : Obj n) : Option EReal := o.beta

/-- `getFailure` (ss.py 277–279). -/
def getFailure (o : Obj n) : Option ℝ := o.Pf

/-- What happens to the object and the model. -/
inductive Event where
  /-- `run()` -/
  | run (st : Settings)
  /-- anything else that changes the model (which keeps its random variables) or draws numbers -/
  | world (f : Ev Marginal → Ev Marginal) (draws udraws : ℕ)

/-- A history of one object; an exception does not end it.  `none` when a run does not end. -/
noncomputable def history (ω υ : ℕ → ℝ) : List Event → Obj n → Ev Marginal → ℕ → ℕ → Option (Obj n × Ev Marginal × ℕ × ℕ)
  | [], o, ev, pos, upos => some (o, ev, pos, upos)
  | .world f k k' :: h, o, ev, pos, upos => history ω υ h o (f ev) (pos + k) (upos + k')
  | .run st :: h, o, ev, pos, upos =>
    match run st ω υ o ev pos upos with
    | none => none
    | some (o, ev, pos, upos, _) => history ω υ h o ev pos upos

end Pystra.SubsetObj
