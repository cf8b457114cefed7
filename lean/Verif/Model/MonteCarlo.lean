import Verif.Model.Form

/-!
Model of src/pystra/mc.py: `CrudeMonteCarlo`, `ImportanceSampling`, `DistributionAnalysis`.

`np.random.randn` reads the next numbers of a stream `ω` of normal draws; `randn(n, b)` fills an `n × b` array row by
row.  An array of shape `(n, b)` is the list of its `b` columns.  Plotting and printing are not modelled.
-/

namespace Pystra.MonteCarlo
open Transformation Form Matrix

variable {σ : Type} {n : ℕ}

/-- The options read by the Monte Carlo classes (analysis.py 199–245). -/
structure Options where
  /-- `samples` -/
  samples : ℕ
  /-- `block_size` -/
  blockSize : ℕ
  /-- `sim_stdv` -/
  stdv : ℝ
  /-- `target_cov` -/
  cov : ℝ
  /-- `random_generator` -/
  randomGenerator : ℕ

/-- `np.random.randn(n, b)` at position `pos` of the stream, as columns. -/
def randn (ω : ℕ → ℝ) (n b pos : ℕ) : List (Fin n → ℝ) :=
  (List.range b).map (fun c => fun r : Fin n => ω (pos + r.val * b + c))

/-- `computeRandomNumbers` (mc.py 83–90): `point·1ᵀ + stdv·I·randn`.  Any generator other than 0 leaves `self.u` at
`None`, and the next line that indexes it raises `TypeError` (first run). -/
noncomputable def randomNumbers (opt : Options) (point : Fin n → ℝ) (ω : ℕ → ℝ) (b pos : ℕ) :
    Except PyErr (List (Fin n → ℝ)) :=
  if opt.randomGenerator = 0 then
    .ok ((randn ω n b pos).map (fun z => fun r => point r + opt.stdv * z r))
  else .error .typeError

/-- An array kept by `np.append`: `None`, the `(n, b)` array of the first block, or a flat array. -/
inductive Kept (n : ℕ) where
  | none
  | cols (c : List (Fin n → ℝ))
  | flat (l : List ℝ)

/-- The row-major entries of an `(n, b)` array. -/
def rowMajor (c : List (Fin n → ℝ)) : List ℝ := (List.finRange n).flatMap (fun r => c.map (fun v => v r))

/-- `if a is None: a = b else: a = np.append(a, c)` (mc.py 298–314; `np.append` flattens). -/
def keep (a : Kept n) (b c : List (Fin n → ℝ)) : Kept n :=
  match a with
  | .none => .cols b
  | .cols a => .flat (rowMajor a ++ rowMajor c)
  | .flat a => .flat (a ++ rowMajor c)

/-- The attributes during `CrudeMonteCarlo.run`; `qBar` and `covQBar` are the entries at index `k - 1`. -/
structure State (σ : Type) (n : ℕ) where
  /-- `self.k` -/
  k : ℕ
  /-- position in the random stream -/
  pos : ℕ
  /-- `self.sum_q` -/
  sumQ : ℝ
  /-- `self.sum_q2` -/
  sumQ2 : ℝ
  /-- `self.q_bar[k-1]` -/
  qBar : ℝ
  /-- `self.cov_q_bar[k-1]` -/
  covQBar : ℝ
  /-- `self.u_all` -/
  uAll : Kept n
  /-- `self.x_all` -/
  xAll : Kept n
  /-- the entries of `self.all_G1` -/
  allG : List ℝ
  /-- `self.approxMC_beta_all` -/
  betaAll : List ℝ
  /-- everything an evaluation changes -/
  s : σ

open Classical in
/-- `computeResults` (mc.py 112–116): 1 where `G < 0`. -/
noncomputable def indicator (G : ℝ) : ℝ := if G < 0 then 1 else 0

/-- One entry of `self.q` (mc.py 118–135), without the indicator. -/
noncomputable def weight (stdv : ℝ) (point u : Fin n → ℝ) : ℝ :=
  stdv ^ n * Real.exp (-0.5 * (u ⬝ᵥ u) + 0.5 * ((u - point) ⬝ᵥ ((stdv ^ 2)⁻¹ • (u - point))))

open Classical in
/-- `computeCoefficientOfVariation` (mc.py 137–155): `(q_bar, cov_q_bar)`. -/
noncomputable def coefficient (k : ℕ) (sumQ sumQ2 : ℝ) : ℝ × ℝ :=
  if sumQ > 0 then
    let qBar := (k:ℝ)⁻¹ * sumQ
    let var := (k:ℝ)⁻¹ * ((k:ℝ)⁻¹ * sumQ2 - ((k:ℝ)⁻¹ * sumQ) ^ 2)
    let cov := √var * qBar⁻¹
    (qBar, if cov = 0 then 1 else cov)
  else (0, 1)

/-- One pass of the loop (mc.py 273–328) up to the convergence test. -/
noncomputable def block (t : Mats n) (marg : Fin n → Marginal) (ev : Evaluator σ n) (opt : Options)
    (point : Fin n → ℝ) (ω : ℕ → ℝ) (st : State σ n) : Except (PyErr × σ) (State σ n) :=
  let b := min opt.blockSize (opt.samples - st.k)
  let k := st.k + b
  match randomNumbers opt point ω b st.pos with
  | .error e => .error (e, st.s)
  | .ok us =>
    let xs := us.map (uToX t marg)
    match ev.values st.s xs with
    | (s, .error e) => .error (e, s)
    | (s, .ok G) =>
      let q := List.zipWith (fun g u => indicator g * weight opt.stdv point u) G us
      let sumQ := st.sumQ + q.sum
      let sumQ2 := st.sumQ2 + (q.map (fun v => v ^ 2)).sum
      let c := coefficient k sumQ sumQ2
      .ok { k := k, pos := st.pos + n * b, sumQ := sumQ, sumQ2 := sumQ2, qBar := c.1, covQBar := c.2
            uAll := keep st.uAll us us
            xAll := keep st.xAll xs us      -- sic: later blocks append `self.u` (mc.py 311–314)
            allG := st.allG ++ G            -- mc.py 298–302: `self.u_all is None` exactly before the first block
            betaAll := st.betaAll ++ us.map norm2   -- mc.py 316–328
            s := s }

open Classical in
/-- The loop (mc.py 271–332), at most `fuel` passes; `none` when it is still running. -/
noncomputable def loop (t : Mats n) (marg : Fin n → Marginal) (ev : Evaluator σ n) (opt : Options)
    (point : Fin n → ℝ) (ω : ℕ → ℝ) : ℕ → State σ n → Option (Except (PyErr × σ) (State σ n))
  | 0, st => if st.k < opt.samples then none else some (.ok st)
  | fuel + 1, st =>
    if st.k < opt.samples then
      match block t marg ev opt point ω st with
      | .error e => some (.error e)
      | .ok st => if st.covQBar ≤ opt.cov then some (.ok st) else loop t marg ev opt point ω fuel st
    else some (.ok st)

/-- The reported quantities. -/
structure Result (σ : Type) (n : ℕ) where
  /-- the final attributes -/
  st : State σ n
  /-- `self.Pf` -/
  Pf : ℝ
  /-- `self.beta`; `StdNormal.ppf` is finite on `(0, 1)` only -/
  beta : Num

open Classical in
/-- `computeFailureProbability`, `computeBeta` (mc.py 164–176). -/
noncomputable def finish (st : State σ n) : Result σ n :=
  let Pf := if st.sumQ > 0 then st.qBar else 0
  { st := st, Pf := Pf
    beta := if st.sumQ > 0 then (if Pf < 1 then .fin (-StdNormal.ppf Pf) else .nonfinite) else .fin 0 }

/-- The attributes of a simulation object that a run reads before it writes them (mc.py 36–74, 298–328): they are
never reset, so they survive from run to run. -/
structure Records (n : ℕ) where
  /-- `self.u_all` -/
  uAll : Kept n
  /-- `self.x_all` -/
  xAll : Kept n
  /-- the entries of `self.all_G1` -/
  allG : List ℝ
  /-- `self.approxMC_beta_all` -/
  betaAll : List ℝ

/-- A fresh object (mc.py 36–74): every attribute `None`. -/
def Records.fresh : Records n := ⟨.none, .none, [], []⟩

/-- The attributes left behind by a run. -/
def State.records (st : State σ n) : Records n := ⟨st.uAll, st.xAll, st.allG, st.betaAll⟩

open Classical in
/-- `CrudeMonteCarlo.run` after `init_run` (mc.py 260–365): `(stdv**2)**(-1)` raises for 0, and `cov_q_bar[0] = 1.0`
raises for an empty array.  `old` is what earlier runs left on the object.  (With a random generator other than 0 an
object that has been run before would reuse its last `self.u`; that case is modelled on fresh objects only.) -/
noncomputable def runOn (old : Records n) (t : Mats n) (marg : Fin n → Marginal) (ev : Evaluator σ n) (opt : Options)
    (point : Option (Fin n → ℝ)) (ω : ℕ → ℝ) (pos : ℕ) (fuel : ℕ) (s : σ) :
    Option (Except (PyErr × σ) (Result σ n)) :=
  let point := point.getD (fun _ => 0)
  if opt.stdv = 0 then some (.error (.zeroDivision, s))
  else if opt.samples = 0 then some (.error (.indexError, s))
  else
    match loop t marg ev opt point ω fuel ⟨0, pos, 0, 0, 0, 1, old.uAll, old.xAll, old.allG, old.betaAll, s⟩ with
    | none => none
    | some (.error e) => some (.error e)
    | some (.ok st) => some (.ok (finish st))

/-- `CrudeMonteCarlo.run` on a fresh object. -/
noncomputable def run (t : Mats n) (marg : Fin n → Marginal) (ev : Evaluator σ n) (opt : Options)
    (point : Option (Fin n → ℝ)) (ω : ℕ → ℝ) (pos : ℕ) (fuel : ℕ) (s : σ) :
    Option (Except (PyErr × σ) (Result σ n)) :=
  runOn Records.fresh t marg ev opt point ω pos fuel s

/-! `DistributionAnalysis` -/

/-- The attributes during `DistributionAnalysis.run`: what has been written to `all_X`, `all_G`. -/
structure DState (σ : Type) (n : ℕ) where
  /-- `self.k` -/
  k : ℕ
  /-- position in the random stream -/
  pos : ℕ
  /-- columns `0 … k-1` of `self.all_X` -/
  allX : List (Fin n → ℝ)
  /-- entries `0 … k-1` of `self.all_G` -/
  allG : List ℝ
  /-- everything an evaluation changes -/
  s : σ

/-- The loop of `DistributionAnalysis.run` (mc.py 502–522); the point is the origin. -/
noncomputable def dLoop (t : Mats n) (marg : Fin n → Marginal) (ev : Evaluator σ n) (opt : Options) (ω : ℕ → ℝ) :
    ℕ → DState σ n → Option (Except (PyErr × σ) (DState σ n))
  | 0, st => if st.k < opt.samples then none else some (.ok st)
  | fuel + 1, st =>
    if st.k < opt.samples then
      let b := min opt.blockSize (opt.samples - st.k)
      match randomNumbers opt (fun _ => 0) ω b st.pos with
      | .error e => some (.error (e, st.s))
      | .ok us =>
        let xs := us.map (uToX t marg)
        match ev.values st.s xs with
        | (s, .error e) => some (.error (e, s))
        | (s, .ok G) =>
          dLoop t marg ev opt ω fuel ⟨st.k + b, st.pos + n * b, st.allX ++ xs, st.allG ++ G, s⟩
    else some (.ok st)

/-- `computeBins` (mc.py 178–189). -/
noncomputable def computeBins (bins : Option ℕ) (samples : ℕ) : ℕ :=
  match bins with
  | some b => b
  | none => ⌈4 * √√(samples:ℝ)⌉₊

end Pystra.MonteCarlo
