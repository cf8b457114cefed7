import Verif.Model.Transformation
import Verif.Model.Correlation
import Verif.Model.LimitState
import Mathlib.LinearAlgebra.Matrix.DotProduct

/-!
Model of `class Form` (src/pystra/form.py).  Vectors are functions on `Fin n`, the `(1, n)` row arrays `gradient` and
`alpha` likewise.  Division by a zero gradient gives NaN in numpy: from there on every quantity of the run is NaN;
the model stops with the outcome `nan`.
-/

namespace Pystra

/-- `np.linalg.norm` of a vector. -/
noncomputable def norm2 {n : ℕ} (v : Fin n → ℝ) : ℝ := √(∑ i, v i ^ 2)

namespace Form
open Transformation Matrix

/-- How an analysis evaluates the limit state; `σ` is everything an evaluation can change. -/
structure Evaluator (σ : Type) (n : ℕ) where
  /-- `evaluate_lsf(x, model, options)` at one point: value, gradient, and the caller's array afterwards -/
  withGrad : σ → (Fin n → ℝ) → σ × Except PyErr (ℝ × (Fin n → ℝ) × (Fin n → ℝ))
  /-- `evaluate_lsf(x, model, options, "no")` at several points: values -/
  values : σ → List (Fin n → ℝ) → σ × Except PyErr (List ℝ)

/-- The evaluator of the code: `LimitState.evaluate_lsf` (model.py 206–256). -/
noncomputable def lsEvaluator {D : Type} {n : ℕ} (expr : Kwargs → GRet) (opt : LSOptions) (stdv : Fin n → ℝ) :
    Evaluator (Ev D) n where
  withGrad := fun ev x =>
    match LimitState.evaluateLsf (7 + n) expr opt stdv none [x] ev with
    | none => (ev, .error .diverges)
    | some (ev, .error e) => (ev, .error e)
    | some (ev, .ok out) => (ev, .ok (out.G.getD 0 0, out.grad.getD 0 0, out.xAfter.getD 0 0))
  values := fun ev xs =>
    match LimitState.evaluateLsf (7 + n + xs.length) expr opt stdv (some "no") xs ev with
    | none => (ev, .error .diverges)
    | some (ev, .error e) => (ev, .error e)
    | some (ev, .ok out) => (ev, .ok out.G)

/-- The options read by `Form` (analysis.py 158–172). -/
structure Options where
  /-- `i_max` -/
  iMax : ℕ
  /-- `e1` -/
  e1 : ℝ
  /-- `e2` -/
  e2 : ℝ
  /-- `step_size` -/
  stepSize : ℝ
  /-- `multi_proc` -/
  multiProc : ℕ

variable {σ : Type} {n : ℕ}

/-- The quantities of one linearisation. -/
structure Point (n : ℕ) where
  /-- `self.u` -/
  u : Fin n → ℝ
  /-- `u_to_x(u)`, the point handed to the limit state -/
  x : Fin n → ℝ
  /-- `self.x` after the evaluation -/
  xAttr : Fin n → ℝ
  /-- `self.J` -/
  J : Matrix (Fin n) (Fin n) ℝ
  /-- `self.G` -/
  G : ℝ
  /-- `self.gradient` -/
  gradient : Fin n → ℝ

/-- `computeTransformation`, `computeJacobian`, `computeLimitState` (form.py 153–171). -/
noncomputable def linearise (t : Mats n) (marg : Fin n → Marginal) (ev : Evaluator σ n) (u : Fin n → ℝ) (s : σ) :
    σ × Except PyErr (Point n) :=
  let x := uToX t marg u
  match npInv (jacobian t marg u x) with
  | .error e => (s, .error e)
  | .ok J =>
    match ev.withGrad s x with
    | (s, .error e) => (s, .error e)
    | (s, .ok (G, grad, xAfter)) =>
      (s, .ok { u := u, x := x, xAttr := xAfter, J := J, G := G, gradient := vecMul grad J })

/-- `computeAlpha` (form.py 173–175), for a nonzero gradient. -/
noncomputable def alpha (gradient : Fin n → ℝ) : Fin n → ℝ := fun i => -gradient i * (norm2 gradient)⁻¹

/-- `e2` (form.py 107): the norm of `u - (alpha·u) alpha`. -/
noncomputable def err2 (u al : Fin n → ℝ) : ℝ := norm2 (fun i => u i - (al ⬝ᵥ u) * al i)

open Classical in
/-- `condition1`: `|G · Go⁻¹| < e1` (form.py 106, 108).  `Go = 0` gives `inf` or `nan`, and the comparison is
false. -/
noncomputable def cond1 (opt : Options) (G Go : ℝ) : Bool := decide (Go ≠ 0 ∧ |G * Go⁻¹| < opt.e1)

open Classical in
/-- `condition2` (form.py 109). -/
noncomputable def cond2 (opt : Options) (u al : Fin n → ℝ) : Bool := decide (err2 u al < opt.e2)

/-- `computeSearchDirection` (form.py 184–188). -/
noncomputable def direction (G : ℝ) (gradient al u : Fin n → ℝ) : Fin n → ℝ :=
  fun i => (G * (norm2 gradient)⁻¹ + al ⬝ᵥ u) * al i - u i

/-- The merit constant `c` (form.py 208). -/
noncomputable def meritC (u gradient : Fin n → ℝ) : ℝ := (norm2 u * (norm2 gradient)⁻¹) * 2 + 10

/-- The merit function (form.py 209, 240–244). -/
noncomputable def merit (c : ℝ) (u : Fin n → ℝ) (G : ℝ) : ℝ := 0.5 * (norm2 u) ^ 2 + c * |G|

open Classical in
/-- The loop `while merit_new > merit and j < ntrial` (form.py 251–260); the first argument is `ntrial - j`. -/
noncomputable def armijoLoop (merit : ℝ) (trial mNew : ℕ → ℝ) : ℕ → ℕ → ℝ → ℝ → ℝ
  | 0, _, step, _ => step
  | k + 1, j, step, m => if m > merit then armijoLoop merit trial mNew k (j + 1) (trial j) (mNew j) else step

/-- `computeStepSize` (form.py 202–262). -/
noncomputable def computeStepSize (t : Mats n) (marg : Fin n → Marginal) (ev : Evaluator σ n) (opt : Options)
    (G : ℝ) (gradient u d : Fin n → ℝ) (s : σ) : σ × Except PyErr ℝ :=
  let c := meritC u gradient
  let m := merit c u G
  let ntrial := 6
  let trialStep : ℕ → ℝ := fun j => 0.5 ^ j
  let trialU : ℕ → Fin n → ℝ := fun j i => u i * 1 + d i * trialStep j
  let trialX := (List.range ntrial).map (fun j => uToX t marg (trialU j))
  if opt.multiProc = 1 then
    match ev.values s trialX with
    | (s, .error e) => (s, .error e)
    | (s, .ok trialG) =>
      let mNew : ℕ → ℝ := fun j => merit c (trialU j) (trialG.getD j 0)
      (s, .ok (armijoLoop m trialStep mNew ntrial 0 (trialStep 0) (mNew 0)))
  else (s, .error .nameError)

open Classical in
/-- `getStepSize` (form.py 190–200). -/
noncomputable def getStepSize (t : Mats n) (marg : Fin n → Marginal) (ev : Evaluator σ n) (opt : Options)
    (G : ℝ) (gradient u d : Fin n → ℝ) (s : σ) : σ × Except PyErr ℝ :=
  if opt.stepSize = 0 then computeStepSize t marg ev opt G gradient u d s else (s, .ok opt.stepSize)

/-- What is known after a run (`self.i`, `self.u`, …, `self.Pf`). -/
structure Result (n : ℕ) where
  /-- `self.i` -/
  i : ℕ
  /-- the last linearisation -/
  point : Point n
  /-- `self.Go` -/
  Go : ℝ
  /-- `self.alpha` -/
  alpha : Fin n → ℝ
  /-- `self.beta` -/
  beta : ℝ
  /-- `self.Pf` -/
  Pf : ℝ

/-- How one pass of the loop ends. -/
inductive Outcome (σ : Type) (n : ℕ) where
  /-- convergence or `i == i_max` -/
  | done (r : Result n) (s : σ)
  /-- an exception -/
  | raised (e : PyErr) (s : σ)
  /-- zero gradient: the rest of the run computes with NaN -/
  | nan (s : σ)
  /-- the next trial point -/
  | next (Go : ℝ) (u : Fin n → ℝ) (s : σ)

open Classical in
/-- One pass of the loop (form.py 79–139) with counter `i`; `computeGamma` (form.py 177–179) has no effect on the results.
The code's `u_new[0]` is the new vector. -/
noncomputable def iteration (t : Mats n) (marg : Fin n → Marginal) (ev : Evaluator σ n) (opt : Options) (i : ℕ)
    (Go : ℝ) (u : Fin n → ℝ) (s : σ) : Outcome σ n :=
  match linearise t marg ev u s with
  | (s, .error e) => .raised e s
  | (s, .ok p) =>
    let Go := if i = 1 then p.G else Go
    if p.gradient = 0 then .nan s
    else
      let al := alpha p.gradient
      if (cond1 opt p.G Go && cond2 opt u al) || decide (i = opt.iMax) then
        let beta := al ⬝ᵥ u
        .done { i := i, point := p, Go := Go, alpha := al, beta := beta, Pf := StdNormal.cdf (-beta) } s
      else
        let d := direction p.G p.gradient al u
        match getStepSize t marg ev opt p.G p.gradient u d s with
        | (s, .error e) => .raised e s
        | (s, .ok step) => .next Go (fun k => u k + step * d k) s

/-- The loop, at most `fuel` passes; `none` if it is still running. -/
noncomputable def loop (t : Mats n) (marg : Fin n → Marginal) (ev : Evaluator σ n) (opt : Options) :
    ℕ → ℕ → ℝ → (Fin n → ℝ) → σ → Option (Outcome σ n)
  | 0, _, _, _, _ => none
  | fuel + 1, i, Go, u, s =>
    match iteration t marg ev opt i Go u s with
    | .next Go u s => loop t marg ev opt fuel (i + 1) Go u s
    | o => some o

/-- `computeStartingPoint` (form.py 145–151). -/
noncomputable def startingPoint (t : Mats n) (marg : Fin n → Marginal) : Fin n → ℝ :=
  xToU t marg (fun i => (marg i).startpoint)

/-- The loop of `run` from the starting point (form.py 66–143). -/
noncomputable def runFrom (t : Mats n) (marg : Fin n → Marginal) (ev : Evaluator σ n) (opt : Options) (fuel : ℕ)
    (s : σ) : Option (Outcome σ n) :=
  loop t marg ev opt fuel 1 0 (startingPoint t marg) s

/-- The marginals of a stochastic model. -/
def margOf (m : StochModel Marginal ℝ) : Fin m.marg.length → Marginal := fun i => (m.marg[i.val]).body

/-- `Form(model, limit_state, options).run()` (form.py 60–143): the modified correlation matrix is stored on the
model, the transformation is computed, then the loop runs.  (A matrix of another size than the model would make the
matrix products raise; it is reported as `ValueError`.) -/
noncomputable def run (fmin : Correlation.Fmin) (default : Marginal) (la : LinAlg) (ty : TransformType)
    (expr : Kwargs → GRet) (lsopt : LSOptions) (opt : Options) (fuel : ℕ) (ev : Ev Marginal) :
    Option (Outcome (Ev Marginal) ev.model.marg.length) :=
  match Correlation.setModified fmin default ev.model with
  | (_, .error e) => some (.raised e ev)
  | (m, .ok ()) =>
    match m.Ro with
    | none => some (.raised .valueError ev)
    | some Ro =>
      if h : Ro.nrow = ev.model.marg.length ∧ Ro.ncol = ev.model.marg.length then
        match Transformation.compute la ty (fun a b => Ro.val (Fin.cast h.1.symm a) (Fin.cast h.2.symm b)) with
        | .error e => some (.raised e { ev with model := m })
        | .ok t => runFrom t (margOf ev.model) (lsEvaluator expr lsopt (fun i => (margOf ev.model i).stdv)) opt fuel
            { ev with model := m }
      else some (.raised .valueError { ev with model := m })

/-- `getAlpha(as_dict=True)` (form.py 357–368): the names of *all* variables and constants, in order of addition, are
zipped with the components of `alpha`; a later pair with the same name would overwrite (names are distinct). -/
def alphaDict (names : List String) (al : List ℝ) : Dict String ℝ :=
  (al.zip names).foldl (fun d p => Dict.set d p.2 p.1) []

/-- `getDesignPoint(uspace)` (form.py 346–355). -/
noncomputable def designPoint (t : Mats n) (marg : Fin n → Marginal) (r : Result n) (uspace : Bool) : Fin n → ℝ :=
  if uspace then r.point.u else uToX t marg r.point.u

end Form
end Pystra
