import Verif.Model.Form
import Mathlib.Data.List.Sort
import Mathlib.Data.EReal.Basic

/-!
Model of src/pystra/ss.py: `SubsetSimulation`.

`ω` is the stream of normal draws, `υ` the stream of draws in `[0, 1)` behind `np.random.uniform` and `np.random.rand`
(`uniform(-1, 1)` is `-1 + 2·υ`).  An array of samples with its values is the list of the pairs.  `log(0)` is `-inf` in
numpy, below every number.  Values of the limit state are real numbers (no NaN).
-/

namespace Pystra.Subset
open Transformation Form

variable {σ : Type} {n : ℕ}

/-- A sample and its limit-state value. -/
abbrev Sample (n : ℕ) := (Fin n → ℝ) × ℝ

open Classical in
/-- `np.percentile(G, 100·p)` with linear interpolation between the order statistics (`G` not empty). -/
noncomputable def percentile (G : List ℝ) (p : ℝ) : ℝ :=
  let a := G.insertionSort (· ≤ ·)
  let h := p * ((G.length : ℝ) - 1)
  let lo := ⌊h⌋₊
  a.getD lo 0 + (h - lo) * (a.getD (min (lo + 1) (G.length - 1)) 0 - a.getD lo 0)

/-- `np.random.randn(n, N)` at position `pos`, as columns (ss.py 107). -/
def randn (ω : ℕ → ℝ) (n N pos : ℕ) : List (Fin n → ℝ) :=
  (List.range N).map (fun c => fun r : Fin n => ω (pos + r.val * N + c))

/-- `_eval_g_batch` (ss.py 188–203): blocks of `block` samples; `range(0, N, 0)` raises. -/
noncomputable def evalBatch (t : Mats n) (marg : Fin n → Marginal) (ev : Evaluator σ n) (block : ℕ) :
    ℕ → List (Fin n → ℝ) → σ → Except (PyErr × σ) (List ℝ × σ)
  | _, [], s => if block = 0 then .error (.valueError, s) else .ok ([], s)
  | 0, _ :: _, s => .error (.valueError, s)
  | fuel + 1, u :: us, s =>
    if block = 0 then .error (.valueError, s)
    else
      match ev.values s (((u :: us).take block).map (uToX t marg)) with
      | (s, .error e) => .error (e, s)
      | (s, .ok G) =>
        match evalBatch t marg ev block fuel ((u :: us).drop block) s with
        | .error e => .error e
        | .ok (G', s) => .ok (G ++ G', s)

open Classical in
/-- The component-wise Metropolis step (ss.py 243–250); component `d` reads draws `pos + 2d` and `pos + 2d + 1`. -/
noncomputable def proposal (sigma : ℝ) (υ : ℕ → ℝ) (pos : ℕ) (u : Fin n → ℝ) : Fin n → ℝ := fun d =>
  let xi := u d + sigma * (-1 + 2 * υ (pos + 2 * d.val))
  let logAlpha := -0.5 * (xi ^ 2 - u d ^ 2)
  let r := υ (pos + 2 * d.val + 1)
  if r = 0 ∨ Real.log r < logAlpha then xi else u d

open Classical in
/-- One pass of the inner loop of `_mmh_step` (ss.py 241–265): the current sample of the chain, the position in the
stream, the state. -/
noncomputable def move (t : Mats n) (marg : Fin n → Marginal) (ev : Evaluator σ n) (sigma threshold : ℝ) (υ : ℕ → ℝ)
    (cur : Sample n) (pos : ℕ) (s : σ) : Except (PyErr × σ) (Sample n × ℕ × σ) :=
  let uProp := proposal sigma υ pos cur.1
  match ev.values s [uToX t marg uProp] with
  | (s, .error e) => .error (e, s)
  | (s, .ok G) =>
    let gProp := G.headD 0
    .ok (if gProp ≤ threshold then (uProp, gProp) else cur, pos + 2 * n, s)

/-- One chain (ss.py 237–265): the `nChain` samples written. -/
noncomputable def chain (t : Mats n) (marg : Fin n → Marginal) (ev : Evaluator σ n) (sigma threshold : ℝ) (υ : ℕ → ℝ) :
    ℕ → Sample n → ℕ → σ → Except (PyErr × σ) (List (Sample n) × ℕ × σ)
  | 0, _, pos, s => .ok ([], pos, s)
  | m + 1, cur, pos, s =>
    match move t marg ev sigma threshold υ cur pos s with
    | .error e => .error e
    | .ok (cur, pos, s) =>
      match chain t marg ev sigma threshold υ m cur pos s with
      | .error e => .error e
      | .ok (l, pos, s) => .ok (cur :: l, pos, s)

/-- The loop over the seeds (ss.py 236–265) from seed number `i` on; the outer list has one list per chain. -/
noncomputable def chains (t : Mats n) (marg : Fin n → Marginal) (ev : Evaluator σ n) (sigma threshold : ℝ) (υ : ℕ → ℝ)
    (base remainder : ℕ) : ℕ → List (Sample n) → ℕ → σ → Except (PyErr × σ) (List (List (Sample n)) × ℕ × σ)
  | _, [], pos, s => .ok ([], pos, s)
  | i, seed :: seeds, pos, s =>
    match chain t marg ev sigma threshold υ (base + if i < remainder then 1 else 0) seed pos s with
    | .error e => .error e
    | .ok (l, pos, s) =>
      match chains t marg ev sigma threshold υ base remainder (i + 1) seeds pos s with
      | .error e => .error e
      | .ok (ls, pos, s) => .ok (l :: ls, pos, s)

/-- `_mmh_step` (ss.py 205–267); the samples are the concatenation of the chains. -/
noncomputable def mmhStep (t : Mats n) (marg : Fin n → Marginal) (ev : Evaluator σ n) (sigma threshold : ℝ) (υ : ℕ → ℝ)
    (N : ℕ) (seeds : List (Sample n)) (pos : ℕ) (s : σ) : Except (PyErr × σ) (List (List (Sample n)) × ℕ × σ) :=
  if seeds.length = 0 then .error (.zeroDivision, s)
  else
    let base := N / seeds.length
    chains t marg ev sigma threshold υ base (N - base * seeds.length) 0 seeds pos s

/-- The settings: `options.samples`, `options.block_size`, `p0`, `proposal_sigma`. -/
structure Options where
  /-- samples per level -/
  N : ℕ
  /-- block size of the first level -/
  block : ℕ
  /-- target conditional probability -/
  p0 : ℝ
  /-- half-width of the proposal -/
  sigma : ℝ

/-- The reported quantities. -/
structure Result (σ : Type) (n : ℕ) where
  /-- `self.thresholds` -/
  thresholds : List ℝ
  /-- `self.conditional_probs` -/
  probs : List ℝ
  /-- `self.n_levels` -/
  nLevels : ℕ
  /-- `self.Pf` -/
  Pf : ℝ
  /-- `self.beta` -/
  beta : EReal
  /-- `self.cov` -/
  cov : ℝ
  /-- the local arrays `u`, `G` of each level (not kept by the code; recorded to state properties) -/
  samples : List (List (Sample n))
  /-- the state -/
  s : σ

open Classical in
/-- `_finalise` (ss.py 170–186). -/
noncomputable def finalise (N : ℕ) (thresholds probs : List ℝ) (nLevels : ℕ) (Pf : ℝ)
    (samples : List (List (Sample n))) (s : σ) : Result σ n :=
  let delta := ((probs.filter (fun p : ℝ => 0 < p)).map (fun p : ℝ => (1 - p) / (N * p))).sum
  { thresholds := thresholds, probs := probs, nLevels := nLevels, Pf := Pf
    beta := if 0 < Pf ∧ Pf < 1 then ((-StdNormal.ppf Pf : ℝ) : EReal) else if Pf ≤ 0 then ⊤ else ⊥
    cov := if 0 < delta then √delta else 0
    samples := samples, s := s }

open Classical in
/-- `float(np.sum(G <= y)) / N`. -/
noncomputable def fraction (G : List ℝ) (y : ℝ) (N : ℕ) : ℝ := ((G.filter (fun g => g ≤ y)).length : ℝ) / N

open Classical in
/-- `u[:, G <= y]`, `G[G <= y]`. -/
noncomputable def seedsOf (l : List (Sample n)) (y : ℝ) : List (Sample n) := l.filter (fun p => p.2 ≤ y)

open Classical in
/-- The loop over the levels (ss.py 135–163), at most `fuel` levels; `none` when it is still running. -/
noncomputable def levels (t : Mats n) (marg : Fin n → Marginal) (ev : Evaluator σ n) (opt : Options) (υ : ℕ → ℝ) :
    ℕ → List (Sample n) → ℝ → ℝ → List ℝ → List ℝ → ℕ → List (List (Sample n)) → ℕ → σ →
      Option (Except (PyErr × σ) (Result σ n))
  | 0, _, _, _, _, _, _, _, _, _ => none
  | fuel + 1, seeds, y, Pf, thresholds, probs, level, recs, pos, s =>
    match mmhStep t marg ev opt.sigma y υ opt.N seeds pos s with
    | .error e => some (.error e)
    | .ok (ls, pos, s) =>
      let new := ls.flatten
      let G := new.map Prod.snd
      let yNew := percentile G opt.p0
      if yNew ≤ 0 then
        let p := fraction G 0 opt.N
        some (.ok (finalise opt.N (thresholds ++ [0]) (probs ++ [p]) (level + 1) (Pf * p) (recs ++ [new]) s))
      else
        let p := fraction G yNew opt.N
        levels t marg ev opt υ fuel (seedsOf new yNew) yNew (Pf * p) (thresholds ++ [yNew]) (probs ++ [p]) (level + 1)
          (recs ++ [new]) pos s

open Classical in
/-- `SubsetSimulation.__init__` (check of `p0`, ss.py 80–81) and `run` after `init_run` (ss.py 96–164); the percentile of
an empty array raises `IndexError`. -/
noncomputable def run (t : Mats n) (marg : Fin n → Marginal) (ev : Evaluator σ n) (opt : Options) (ω υ : ℕ → ℝ)
    (fuel : ℕ) (s : σ) : Option (Except (PyErr × σ) (Result σ n)) :=
  if ¬ (0 < opt.p0 ∧ opt.p0 < 1) then some (.error (.valueError, s))
  else
    let us := randn ω n opt.N 0
    match evalBatch t marg ev opt.block opt.N us s with
    | .error e => some (.error e)
    | .ok (G, s) =>
      if G.length = 0 then some (.error (.indexError, s))
      else
        let y := percentile G opt.p0
        if y ≤ 0 then
          let p := fraction G 0 opt.N
          some (.ok (finalise opt.N [0] [p] 1 p [us.zip G] s))
        else
          let p := fraction G y opt.N
          levels t marg ev opt υ fuel (seedsOf (us.zip G) y) y p [y] [p] 1 [us.zip G] 0 s

end Pystra.Subset
