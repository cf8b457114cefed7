import Verif.Model.Session

/-!
Model of a `DistributionAnalysis` *object* (src/pystra/mc.py 475–612): its attributes, its report and its progress messages, over any
number of calls of `run`.  `ω` is the stream of normal draws of the process and `pos` the position in it.  The number of random
variables is `n` throughout (`self.nrv` is fixed at construction).  Drawing is modelled by the data handed to matplotlib.
-/

namespace Pystra.DaObj
open Transformation Form MonteCarlo

variable {σ : Type} {n : ℕ}

/-- The array `self.all_G`: of shape `(N, 1)` (`column`) or `(1, N)`, and its entries. -/
structure GArray where
  /-- shape `(N, 1)`? -/
  column : Bool
  /-- the entries -/
  values : List ℝ

/-- The attributes (mc.py 39–74, analysis.py 66–71); `none` is Python's `None`.  `messages` is not an attribute: it collects the
percentages printed so far. -/
structure Obj (n : ℕ) where
  /-- `self.results_valid` -/
  resultsValid : Bool
  /-- `self.transform.T`, `self.transform.inv_T` -/
  transform : Option (Mats n)
  /-- `self.k` -/
  k : Option ℕ
  /-- `self.block_size` -/
  blockSize : Option ℕ
  /-- `self.u`, as columns -/
  u : Option (List (Fin n → ℝ))
  /-- `self.all_X`, as columns -/
  allX : Option (List (Fin n → ℝ))
  /-- `self.all_G` -/
  allG : Option GArray
  /-- `self.bins` -/
  bins : Option ℕ
  /-- `self.done` -/
  done : Option ℕ
  /-- `self.Pf` -/
  Pf : Option ℝ
  /-- `self.beta` -/
  beta : Option Num
  /-- what has been printed by `computePercentDone` -/
  messages : List ℕ

/-- `DistributionAnalysis(...)` (mc.py 488–489, 39–74). -/
def fresh : Obj n := ⟨false, none, none, none, none, none, none, none, none, none, none, []⟩

/-- The options of a run. -/
structure Settings where
  /-- numerical routines, transformation, limit state -/
  c : Session.Setup
  /-- the options of the simulation -/
  opt : MonteCarlo.Options
  /-- `options.bins` -/
  bins : Option ℕ
  /-- `options.print_output` -/
  print : Bool

/-- `initializeVariables` (mc.py 530–547). -/
noncomputable def initialise (st : Settings) (o : Obj n) : Obj n :=
  { o with
    allX := some (List.replicate st.opt.samples (fun _ => 0))
    allG := some ⟨false, List.replicate st.opt.samples 0⟩
    done := some 0
    bins := some (computeBins st.bins st.opt.samples) }

/-- `a[indx] = vals` with `indx = range(start, start + len(vals))`. -/
def write {α : Type} (a : List α) (start : ℕ) (vals : List α) : List α := a.take start ++ vals ++ a.drop (start + vals.length)

/-- `computeDataUpdate` (mc.py 549–553); `start = self.k - self.block_size`. -/
def dataUpdate (start : ℕ) (xs : List (Fin n → ℝ)) (G : List ℝ) (o : Obj n) : Obj n :=
  { o with
    allX := some (write (o.allX.getD []) start xs)
    allG := some ⟨false, write ((o.allG.map GArray.values).getD []) start G⟩ }

/-- `computePercentDone` (mc.py 157–162): `int(k / samples * 20)`, in exact arithmetic. -/
def percentDone (samples : ℕ) (print : Bool) (o : Obj n) : Obj n :=
  let d := o.k.getD 0 * 20 / samples
  if o.done.getD 0 < d then
    { o with done := some d, messages := if print then o.messages ++ [d * 5] else o.messages }
  else o

/-- `computeRandomNumbers` (mc.py 83–90) with the point at the origin: a generator other than 0 leaves `self.u` as it is. -/
noncomputable def draw (opt : MonteCarlo.Options) (ω : ℕ → ℝ) (b : ℕ) (u : Option (List (Fin n → ℝ))) (pos : ℕ) :
    Option (List (Fin n → ℝ)) × ℕ :=
  if opt.randomGenerator = 0 then
    (some ((randn ω n b pos).map (fun z => fun r => 0 + opt.stdv * z r)), pos + n * b)
  else (u, pos)

/-- One pass of the loop (mc.py 503–521).  `self.u` may be a leftover of another run when the generator is not 0: indexing `None`
raises `TypeError`, too few columns raise `IndexError`, and only the first columns are used when there are too many
(mc.py 100–105). -/
noncomputable def pass (t : Mats n) (marg : Fin n → Marginal) (ev : Evaluator σ n) (opt : MonteCarlo.Options) (print : Bool)
    (ω : ℕ → ℝ) (o : Obj n) (s : σ) (pos : ℕ) : Obj n × σ × ℕ × Except PyErr Unit :=
  let b := min opt.blockSize (opt.samples - o.k.getD 0)
  let start := o.k.getD 0
  let d := draw opt ω b o.u pos
  let o := { o with blockSize := some b, k := some (start + b), u := d.1 }
  match d.1 with
  | none => (o, s, d.2, .error .typeError)
  | some us =>
    if us.length < b then (o, s, d.2, .error .indexError)
    else
      let xs := (us.take b).map (uToX t marg)
      match ev.values s xs with
      | (s, .error e) => (o, s, d.2, .error e)
      | (s, .ok G) => (percentDone opt.samples print (dataUpdate start xs G o), s, d.2, .ok ())

/-- The loop (mc.py 502–521), at most `fuel` passes; `none` when it is still running. -/
noncomputable def loop (t : Mats n) (marg : Fin n → Marginal) (ev : Evaluator σ n) (opt : MonteCarlo.Options) (print : Bool)
    (ω : ℕ → ℝ) : ℕ → Obj n → σ → ℕ → Option (Obj n × σ × ℕ × Except PyErr Unit)
  | 0, o, s, pos => if o.k.getD 0 < opt.samples then none else some (o, s, pos, .ok ())
  | fuel + 1, o, s, pos =>
    if o.k.getD 0 < opt.samples then
      match pass t marg ev opt print ω o s pos with
      | (o, s, pos, .error e) => some (o, s, pos, .error e)
      | (o, s, pos, .ok _) => loop t marg ev opt print ω fuel o s pos
    else some (o, s, pos, .ok ())

/-- `computeDistributionData` (mc.py 555–559): `all_G` is transposed. -/
def transpose (o : Obj n) : Obj n := { o with allG := o.allG.map (fun a => ⟨!a.column, a.values⟩) }

/-- One figure: the title, the data of the histogram, and the reference curve. -/
structure Figure where
  /-- title -/
  title : String
  /-- the histogram's data -/
  data : List ℝ
  /-- the reference curve -/
  curve : List (ℝ × ℝ)

/-- What is printed and drawn. -/
structure Shown where
  /-- number of simulations -/
  k : Option ℕ
  /-- number of bins -/
  bins : ℕ
  /-- one figure per random variable -/
  figures : List Figure
  /-- the data sets of the last histogram: matplotlib takes the columns of a 2D array -/
  limitState : List (List ℝ)

/-- `np.linspace(a, b, 200)`. -/
noncomputable def linspace200 (a b : ℝ) : List ℝ := (List.range 200).map (fun j : ℕ => a + (b - a) * j / 199)

/-- The figure of variable `i` (mc.py 580–603); `np.min` of an empty array raises, and so does a name that is not there. -/
noncomputable def figure (names : List String) (marg : Fin n → Marginal) (cols : List (Fin n → ℝ)) (i : Fin n) : Except PyErr Figure :=
  match (cols.map (fun x => x i)).min?, (cols.map (fun x => x i)).max? with
  | some lo, some hi =>
    match names[i.val]? with
    | none => .error .indexError
    | some name =>
      .ok ⟨"Distribution Analysis for " ++ name, cols.map (fun x => x i), (linspace200 lo hi).map (fun x => (x, (marg i).pdf x))⟩
  | _, _ => .error .valueError

/-- The loop over the variables. -/
noncomputable def figures (names : List String) (marg : Fin n → Marginal) (cols : List (Fin n → ℝ)) :
    List (Fin n) → Except PyErr (List Figure)
  | [] => .ok []
  | i :: is =>
    match figure names marg cols i with
    | .error e => .error e
    | .ok f =>
      match figures names marg cols is with
      | .error e => .error e
      | .ok fs => .ok (f :: fs)

/-- The data sets matplotlib makes of the array. -/
def GArray.datasets (a : GArray) : List (List ℝ) := if a.column then [a.values] else a.values.map (fun g => [g])

/-- `showResults` (mc.py 561–612), for an object with at least one variable: `None[i]` raises `TypeError`; a histogram without bins
raises `ValueError`. -/
noncomputable def showResults (m : StochModel Marginal ℝ) (marg : Fin n → Marginal) (o : Obj n) : Except PyErr Shown :=
  if !o.resultsValid then .error .valueError
  else
    match o.allX, o.allG, o.bins with
    | some cols, some g, some b =>
      if b = 0 then .error .valueError
      else
        match figures m.getNames marg cols (List.finRange n) with
        | .error e => .error e
        | .ok fs => .ok ⟨o.k, b, fs, g.datasets⟩
    | _, _, _ => .error .typeError

/-- `if self.options.getPrintOutput(): self.showResults()` (mc.py 527–528). -/
noncomputable def printed (print : Bool) (m : StochModel Marginal ℝ) (marg : Fin n → Marginal) (o : Obj n) : Except PyErr Unit :=
  if print then (match showResults m marg o with | .error e => .error e | .ok _ => .ok ()) else .ok ()

/-- `run` after `init_run` has given the transformation (mc.py 496–528). -/
noncomputable def simulate (st : Settings) (ω : ℕ → ℝ) (t : Mats n) (o : Obj n) (ev : Ev Marginal) (pos : ℕ) :
    Option (Obj n × Ev Marginal × ℕ × Except PyErr Unit) :=
  match loop t (Session.margN n st.c.default ev.model) (Session.evaluator st.c n ev.model) st.opt st.print ω st.c.fuel
      { initialise st { o with transform := some t } with k := some 0 } ev pos with
  | none => none
  | some (o, ev, pos, .error e) => some (o, ev, pos, .error e)
  | some (o, ev, pos, .ok _) =>
    some (transpose o, ev, pos, printed st.print ev.model (Session.margN n st.c.default ev.model) (transpose o))

/-- `run()` (mc.py 491–528); `none` when it is still running. -/
noncomputable def run (st : Settings) (ω : ℕ → ℝ) (o : Obj n) (ev : Ev Marginal) (pos : ℕ) :
    Option (Obj n × Ev Marginal × ℕ × Except PyErr Unit) :=
  let o := { o with resultsValid := true }
  match Session.initRun st.c n ev with
  | (ev, .error e) => some (o, ev, pos, .error e)
  | (ev, .ok t) => simulate st ω t o ev pos

/-- `getDistributionData` (mc.py 207–213). -/
def getDistributionData (o : Obj n) : Option GArray := o.allG

/-- `getBins` (mc.py 215–221). -/
def getBins (o : Obj n) : Option ℕ := o.bins

/-- `getBeta` (mc.py 191–197). -/
def getBeta (o : Obj n) : Option Num := o.beta

/-- `getFailure` (mc.py 199–205). -/
def getFailure (o : Obj n) : Option ℝ := o.Pf

/-- What happens to the object and the model. -/
inductive Event where
  /-- `run()` -/
  | run (st : Settings)
  /-- anything else that changes the model (which keeps its random variables) or draws normal numbers -/
  | world (f : Ev Marginal → Ev Marginal) (draws : ℕ)

/-- A history of one object; an exception does not end it.  `none` when a run does not end. -/
noncomputable def history (ω : ℕ → ℝ) : List Event → Obj n → Ev Marginal → ℕ → Option (Obj n × Ev Marginal × ℕ)
  | [], o, ev, pos => some (o, ev, pos)
  | .world f k :: h, o, ev, pos => history ω h o (f ev) (pos + k)
  | .run st :: h, o, ev, pos =>
    match run st ω o ev pos with
    | none => none
    | some (o, ev, pos, _) => history ω h o ev pos

end Pystra.DaObj
