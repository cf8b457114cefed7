import Verif.Model.Session

/-!
Model of a `CrudeMonteCarlo` or `ImportanceSampling` *object* (src/pystra/mc.py): its attributes and its methods, over any number of
calls of `run`.  `ω` is the stream of normal draws of the process and `pos` the position in it.  The number of random variables is
`n` throughout (`self.nrv` is fixed at construction); the block size is at least one (with 0 the loop never ends).
-/

namespace Pystra.McObj
open Transformation Form MonteCarlo

variable {σ : Type} {n : ℕ}

/-- The attributes (mc.py 39–74, analysis.py 66–71); `none` is Python's `None`.  Not listed: those that are written before they are
read in the same pass of the loop (`covariance`, `factors`, `x`, `G`, `I`, `q`, `done`, `approxMC_beta`). -/
structure Obj (n : ℕ) where
  /-- `self.results_valid` -/
  resultsValid : Bool
  /-- `self.transform.T`, `self.transform.inv_T` -/
  transform : Option (Mats n)
  /-- `self.point` -/
  point : Option (Fin n → ℝ)
  /-- `self.k` -/
  k : Option ℕ
  /-- `self.block_size` -/
  blockSize : Option ℕ
  /-- `self.u`, as columns -/
  u : Option (List (Fin n → ℝ))
  /-- `self.sum_q` -/
  sumQ : Option ℝ
  /-- `self.sum_q2` -/
  sumQ2 : Option ℝ
  /-- `self.q_bar` -/
  qBar : Option (List ℝ)
  /-- `self.cov_q_bar`; an entry `none` is NaN -/
  cov : Option (List (Option ℝ))
  /-- `self.Pf` -/
  Pf : Option ℝ
  /-- `self.beta` -/
  beta : Option Num
  /-- `self.u_all`, `self.x_all`, `self.all_G1`, `self.approxMC_beta_all` -/
  records : Records n

/-- `CrudeMonteCarlo(..., point=point)` (mc.py 39–74, 250–258). -/
def fresh (point : Option (Fin n → ℝ)) : Obj n :=
  ⟨false, none, point, none, none, none, none, none, none, none, none, none, Records.fresh⟩

/-- `computeRandomNumbers` (mc.py 83–90): the columns of `self.u` and the position in the stream afterwards.  A generator other
than 0 leaves `self.u` as it is. -/
noncomputable def draw (opt : MonteCarlo.Options) (point : Fin n → ℝ) (ω : ℕ → ℝ) (b : ℕ) (u : Option (List (Fin n → ℝ)))
    (pos : ℕ) : Option (List (Fin n → ℝ)) × ℕ :=
  if opt.randomGenerator = 0 then
    (some ((randn ω n b pos).map (fun z => fun r => point r + opt.stdv * z r)), pos + n * b)
  else (u, pos)

/-- What a pass of the loop writes after the limit state has been evaluated (mc.py 112–155, 297–328); `us` are the columns of
`self.u`, `xs` those of `self.x`, `G` the limit-state values. -/
noncomputable def update (opt : MonteCarlo.Options) (point : Fin n → ℝ) (us xs : List (Fin n → ℝ)) (G : List ℝ) (o : Obj n) : Obj n :=
  let q := List.zipWith (fun g u => indicator g * weight opt.stdv point u) G us
  let sumQ := o.sumQ.getD 0 + q.sum
  let sumQ2 := o.sumQ2.getD 0 + (q.map (fun v => v ^ 2)).sum
  let k := o.k.getD 0
  let c := coefficient k sumQ sumQ2
  { o with
    sumQ := some sumQ, sumQ2 := some sumQ2
    qBar := some ((o.qBar.getD []).set (k - 1) c.1)
    cov := some ((o.cov.getD []).set (k - 1) (some c.2))
    records := ⟨keep o.records.uAll us us, keep o.records.xAll xs us, o.records.allG ++ G, o.records.betaAll ++ us.map norm2⟩ }

/-- One pass of the loop (mc.py 273–328).  `self.u` may be a leftover of another run when the generator is not 0: indexing `None`
raises `TypeError` and too few columns raise `IndexError` (mc.py 100–105); columns of a number other than the block size cannot
be subtracted from the point's columns, unless the block has one sample (mc.py 122–126). -/
noncomputable def pass (t : Mats n) (marg : Fin n → Marginal) (ev : Evaluator σ n) (opt : MonteCarlo.Options) (point : Fin n → ℝ)
    (ω : ℕ → ℝ) (o : Obj n) (s : σ) (pos : ℕ) : Obj n × σ × ℕ × Except PyErr Unit :=
  let b := min opt.blockSize (opt.samples - o.k.getD 0)
  let d := draw opt point ω b o.u pos
  let o := { o with blockSize := some b, k := some (o.k.getD 0 + b), u := d.1 }
  match d.1 with
  | none => (o, s, d.2, .error .typeError)
  | some us =>
    if us.length < b then (o, s, d.2, .error .indexError)
    else
      let xs := (us.take b).map (uToX t marg)
      match ev.values s xs with
      | (s, .error e) => (o, s, d.2, .error e)
      | (s, .ok G) =>
        if us.length ≠ b ∧ b ≠ 1 then (o, s, d.2, .error .valueError)
        else (update opt point us xs G o, s, d.2, .ok ())

open Classical in
/-- `self.cov_q_bar[self.k - 1] <= self.options.getSimulationCov()` (mc.py 331); false for NaN. -/
noncomputable def converged (opt : MonteCarlo.Options) (o : Obj n) : Bool :=
  match ((o.cov.getD []).getD (o.k.getD 0 - 1) none : Option ℝ) with
  | none => false
  | some v => decide (v ≤ opt.cov)

/-- The loop (mc.py 271–332), at most `fuel` passes; `none` when it is still running. -/
noncomputable def loop (t : Mats n) (marg : Fin n → Marginal) (ev : Evaluator σ n) (opt : MonteCarlo.Options) (point : Fin n → ℝ)
    (ω : ℕ → ℝ) : ℕ → Obj n → σ → ℕ → Option (Obj n × σ × ℕ × Except PyErr Unit)
  | 0, o, s, pos => if o.k.getD 0 < opt.samples then none else some (o, s, pos, .ok ())
  | fuel + 1, o, s, pos =>
    if o.k.getD 0 < opt.samples then
      match pass t marg ev opt point ω o s pos with
      | (o, s, pos, .error e) => some (o, s, pos, .error e)
      | (o, s, pos, .ok _) => if converged opt o then some (o, s, pos, .ok ()) else loop t marg ev opt point ω fuel o s pos
    else some (o, s, pos, .ok ())

/-- `initializeVariables` (mc.py 344–365): `(stdv**2)**(-1)` raises for 0 before anything is reset; `cov_q_bar[0] = 1.0` raises
for an empty array after the arrays have been replaced. -/
noncomputable def initialise (opt : MonteCarlo.Options) (o : Obj n) : Obj n × Except PyErr Unit :=
  open Classical in
  if opt.stdv = 0 then (o, .error .zeroDivision)
  else
    let o := { o with sumQ := some 0, sumQ2 := some 0, qBar := some (List.replicate opt.samples 0) }
    if opt.samples = 0 then ({ o with cov := some [] }, .error .indexError)
    else ({ o with cov := some ((List.replicate opt.samples none).set 0 (some 1)) }, .ok ())

open Classical in
/-- `computeFailureProbability`, `computeBeta` (mc.py 164–176). -/
noncomputable def finishObj (o : Obj n) : Obj n :=
  let Pf := if o.sumQ.getD 0 > 0 then (o.qBar.getD []).getD (o.k.getD 0 - 1) 0 else 0
  { o with
    Pf := some Pf
    beta := some (if o.sumQ.getD 0 > 0 then (if Pf < 1 then .fin (-StdNormal.ppf Pf) else .nonfinite) else .fin 0) }

/-- `np.round(m * 200 ** (-1))` (mc.py 389): to the nearest integer, halves to even. -/
def round200 (m : ℕ) : ℕ :=
  if m % 200 < 100 then m / 200
  else if 100 < m % 200 then m / 200 + 1
  else if m / 200 % 2 = 0 then m / 200 else m / 200 + 1

/-- The numbers of simulations at which the plots have points (mc.py 384–392): `arange(0, k, block_size)` with the first replaced
by 1, thinned when there are more than 200 blocks. -/
def plotX (k b : ℕ) : List ℕ :=
  let x := (List.range ((k + b - 1) / b)).map (fun i => if i = 0 then 1 else i * b)
  if 200 * b < k then
    let s := round200 x.length
    (List.range ((x.length + s - 1) / s)).map (fun i => x.getD (i * s) 0)
  else x

/-- The two plots (mc.py 394–415): the points of the first, the upper ends of its axes if they are set, the points of the
second; an entry `none` is NaN and not drawn. -/
structure Plots where
  /-- points of "C.o.V. of probability of failure" -/
  cov : List (ℕ × Option ℝ)
  /-- `xlim`, `ylim` -/
  limits : Option (ℝ × ℝ)
  /-- points of "Probability of failure" -/
  pf : List (ℕ × ℝ)

/-- What is printed and drawn. -/
structure Shown where
  /-- reliability index; may be `None` -/
  beta : Option Num
  /-- failure probability; may be `None` -/
  Pf : Option ℝ
  /-- coefficient of variation; `none` is NaN -/
  cov : Option ℝ
  /-- number of simulations -/
  k : ℕ
  /-- the plots (crude Monte Carlo only) -/
  plots : Option Plots

/-- `a[idx]` for an array of indices (none of them negative). -/
def gather {α : Type} (a : List α) : List ℕ → Except PyErr (List α)
  | [] => .ok []
  | i :: is =>
    match a[i]? with
    | none => .error .indexError
    | some v => (gather a is).map (v :: ·)

open Classical in
/-- The plots of `showResults` (mc.py 384–415). -/
noncomputable def plots (k b : ℕ) (qBar : List ℝ) (cov : List (Option ℝ)) : Except PyErr Plots :=
  let x := plotX k b
  let idx := x.map (· - 1)
  match gather cov idx with
  | .error e => .error e
  | .ok cs =>
    match cov[b - 1]? with
    | none => .error .indexError
    | some v =>
      match gather qBar idx with
      | .error e => .error e
      | .ok qs => .ok ⟨x.zip cs, v.bind (fun v => if v > 0 then some ((k:ℝ) * 1.01, v * 1.1) else none), x.zip qs⟩

/-- The two classes. -/
inductive Kind where
  /-- `CrudeMonteCarlo` -/
  | crude
  /-- `ImportanceSampling` -/
  | importance

/-- `showResults` (mc.py 367–415 and 457–472): `None - 1` and `None[...]` raise `TypeError`.  (`self.k` is 0 for no object whose
loop has ended or raised, so `k - 1` is an index.) -/
noncomputable def showResults (kind : Kind) (o : Obj n) : Except PyErr Shown :=
  if !o.resultsValid then .error .valueError
  else
    match o.k with
    | none => .error .typeError
    | some k =>
      match o.cov with
      | none => .error .typeError
      | some cov =>
        match cov[k - 1]? with
        | none => .error .indexError
        | some c =>
          match kind with
          | .importance => .ok ⟨o.beta, o.Pf, c, k, none⟩
          | .crude => (plots k (o.blockSize.getD 0) (o.qBar.getD []) cov).map (fun p => ⟨o.beta, o.Pf, c, k, some p⟩)

/-- `if self.options.getPrintOutput(): self.showResults()` (mc.py 340–342, 454–455). -/
noncomputable def printed (kind : Kind) (print : Bool) (o : Obj n) : Except PyErr Unit :=
  if print then (match showResults kind o with | .error e => .error e | .ok _ => .ok ()) else .ok ()

/-- The settings of a run. -/
structure Settings where
  /-- numerical routines, transformation, limit state -/
  c : Session.Setup
  /-- the options of the simulation -/
  opt : MonteCarlo.Options
  /-- `options.print_output` -/
  print : Bool

/-- `CrudeMonteCarlo.run` after `init_run` has given the transformation (mc.py 265–338), without the report. -/
noncomputable def simulate (st : Settings) (ω : ℕ → ℝ) (t : Mats n) (o : Obj n) (ev : Ev Marginal) (pos : ℕ) :
    Option (Obj n × Ev Marginal × ℕ × Except PyErr Unit) :=
  let point := o.point.getD (fun _ => 0)
  let o := { o with transform := some t, point := some point }
  match initialise st.opt o with
  | (o, .error e) => some (o, ev, pos, .error e)
  | (o, .ok _) =>
    match loop t (Session.margN n st.c.default ev.model) (Session.evaluator st.c n ev.model) st.opt point ω st.c.fuel
        { o with k := some 0 } ev pos with
    | none => none
    | some (o, ev, pos, .error e) => some (o, ev, pos, .error e)
    | some (o, ev, pos, .ok _) => some (finishObj o, ev, pos, .ok ())

/-- `CrudeMonteCarlo.run` up to the report (mc.py 260–338). -/
noncomputable def body (st : Settings) (ω : ℕ → ℝ) (o : Obj n) (ev : Ev Marginal) (pos : ℕ) :
    Option (Obj n × Ev Marginal × ℕ × Except PyErr Unit) :=
  let o := { o with resultsValid := true }
  match Session.initRun st.c n ev with
  | (ev, .error e) => some (o, ev, pos, .error e)
  | (ev, .ok t) => simulate st ω t o ev pos

/-- The report at the end of a run that has not raised. -/
noncomputable def report (kind : Kind) (print : Bool) (r : Option (Obj n × Ev Marginal × ℕ × Except PyErr Unit)) :
    Option (Obj n × Ev Marginal × ℕ × Except PyErr Unit) :=
  match r with
  | none => none
  | some (o, ev, pos, .error e) => some (o, ev, pos, .error e)
  | some (o, ev, pos, .ok _) => some (o, ev, pos, printed kind print o)

/-- `run()` (mc.py 260–342 and 443–455); `none` when it is still running.  Importance sampling calls `init_run` itself, then the
whole of `CrudeMonteCarlo.run` with printing switched off (C71 follows that switch). -/
noncomputable def run (kind : Kind) (st : Settings) (ω : ℕ → ℝ) (o : Obj n) (ev : Ev Marginal) (pos : ℕ) :
    Option (Obj n × Ev Marginal × ℕ × Except PyErr Unit) :=
  match kind with
  | .crude => report .crude st.print (body st ω o ev pos)
  | .importance =>
    match Session.initRun st.c n ev with
    | (ev, .error e) => some ({ o with resultsValid := true }, ev, pos, .error e)
    | (ev, .ok t) => report .importance st.print (body st ω { o with resultsValid := true, transform := some t } ev pos)

/-- `getBeta` (mc.py 191–197). -/
def getBeta (o : Obj n) : Option Num := o.beta

/-- `getFailure` (mc.py 199–205). -/
def getFailure (o : Obj n) : Option ℝ := o.Pf

/-- What happens to the object and the model. -/
inductive Event where
  /-- `run()` -/
  | run (st : Settings)
  /-- anything else that changes the model (which keeps its random variables) or draws normal numbers -/
  | world (f : Ev Marginal → Ev Marginal) (draws : ℕ)

/-- A history of one object; an exception does not end it.  `none` when a run does not end. -/
noncomputable def history (kind : Kind) (ω : ℕ → ℝ) : List Event → Obj n → Ev Marginal → ℕ → Option (Obj n × Ev Marginal × ℕ)
  | [], o, ev, pos => some (o, ev, pos)
  | .world f k :: h, o, ev, pos => history kind ω h o (f ev) (pos + k)
  | .run st :: h, o, ev, pos =>
    match run kind st ω o ev pos with
    | none => none
    | some (o, ev, pos, _) => history kind ω h o ev pos

end Pystra.McObj
