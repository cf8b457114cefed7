import Verif.Model.Form
import Verif.Model.Subset
import Mathlib.Data.EReal.Basic

/-!
Model of src/pystra/ls.py: `LineSampling`.  A limit-state value that could not be computed (an exception, replaced by NaN
in the scan) is `none`; evaluations are taken to return (block size at least one).  `scipy.optimize.brentq` is modelled from scipy's C source (`scipy/optimize/Zeros/brentq.c`): the
algorithm over the reals, with the default `rtol = 4·eps`.
-/

namespace Pystra

/-! ### scipy.optimize.brentq -/

namespace Brent

/-- The loop variables of `brentq.c`. -/
structure State where
  /-- `xpre` -/
  xpre : ℝ
  /-- `xcur` -/
  xcur : ℝ
  /-- `xblk` -/
  xblk : ℝ
  /-- `fpre` -/
  fpre : ℝ
  /-- `fcur` -/
  fcur : ℝ
  /-- `fblk` -/
  fblk : ℝ
  /-- `spre` -/
  spre : ℝ
  /-- `scur` -/
  scur : ℝ

/-- A different sign bit of two nonzero numbers. -/
def oppSign (a b : ℝ) : Prop := a < 0 ∧ 0 < b ∨ 0 < a ∧ b < 0

open Classical in
/-- The two adjustments at the head of the loop body. -/
noncomputable def adjust (st : State) : State :=
  let st := if oppSign st.fpre st.fcur then
    { st with xblk := st.xpre, fblk := st.fpre, spre := st.xcur - st.xpre, scur := st.xcur - st.xpre } else st
  if |st.fblk| < |st.fcur| then
    { st with xpre := st.xcur, xcur := st.xblk, xblk := st.xcur, fpre := st.fcur, fcur := st.fblk, fblk := st.fcur }
  else st

/-- `delta = (xtol + rtol*fabs(xcur))/2`. -/
noncomputable def delta (xtol rtol x : ℝ) : ℝ := (xtol + rtol * |x|) / 2

open Classical in
/-- The trial step `stry`: secant, or inverse quadratic extrapolation. -/
noncomputable def stry (st : State) : ℝ :=
  if st.xpre = st.xblk then -st.fcur * (st.xcur - st.xpre) / (st.fcur - st.fpre)
  else
    let dpre := (st.fpre - st.fcur) / (st.xpre - st.xcur)
    let dblk := (st.fblk - st.fcur) / (st.xblk - st.xcur)
    (-st.fcur) * (st.fblk * dblk - st.fpre * dpre) / (dblk * dpre * (st.fblk - st.fpre))

open Classical in
/-- The choice of the step, and the new point. -/
noncomputable def advance (xtol rtol : ℝ) (st : State) : State :=
  let d := delta xtol rtol st.xcur
  let sbis := (st.xblk - st.xcur) / 2
  let st := if d < |st.spre| ∧ |st.fcur| < |st.fpre| then
      (if 2 * |stry st| < min |st.spre| (3 * |sbis| - d) then { st with spre := st.scur, scur := stry st }
       else { st with spre := sbis, scur := sbis })
    else { st with spre := sbis, scur := sbis }
  { st with xpre := st.xcur, fpre := st.fcur
            xcur := if d < |st.scur| then st.xcur + st.scur else st.xcur + (if 0 < sbis then d else -d) }

variable {σ : Type}

open Classical in
/-- The loop, `iter` passes at most; running out of passes raises `RuntimeError`. -/
noncomputable def loop (f : σ → ℝ → σ × Except PyErr ℝ) (xtol rtol : ℝ) : ℕ → State → σ → σ × Except PyErr ℝ
  | 0, _, s => (s, .error .runtimeError)
  | iter + 1, st, s =>
    let st := adjust st
    if st.fcur = 0 ∨ |(st.xblk - st.xcur) / 2| < delta xtol rtol st.xcur then (s, .ok st.xcur)
    else
      let st := advance xtol rtol st
      match f s st.xcur with
      | (s, .error e) => (s, .error e)
      | (s, .ok y) => loop f xtol rtol iter { st with fcur := y } s

open Classical in
/-- `brentq(f, xa, xb, xtol, rtol, maxiter)`; equal signs at the ends raise `ValueError`. -/
noncomputable def brentq (f : σ → ℝ → σ × Except PyErr ℝ) (xa xb xtol rtol : ℝ) (iter : ℕ) (s : σ) : σ × Except PyErr ℝ :=
  match f s xa with
  | (s, .error e) => (s, .error e)
  | (s, .ok fa) =>
    match f s xb with
    | (s, .error e) => (s, .error e)
    | (s, .ok fb) =>
      if fa = 0 then (s, .ok xa)
      else if fb = 0 then (s, .ok xb)
      else if ¬ oppSign fa fb then (s, .error .valueError)
      else loop f xtol rtol iter ⟨xa, xb, 0, fa, fb, 0, 0, 0⟩ s

end Brent

/-! ### Line sampling -/

namespace LineSampling
open Transformation Form Matrix

variable {σ : Type} {n : ℕ}

/-- `_eval_g_at_c` (ls.py 147–154). -/
noncomputable def evalAt (t : Mats n) (marg : Fin n → Marginal) (ev : Evaluator σ n) (v alpha : Fin n → ℝ) (s : σ)
    (c : ℝ) : σ × Except PyErr ℝ :=
  match ev.values s [uToX t marg (fun i => v i + c * alpha i)] with
  | (s, .error e) => (s, .error e)
  | (s, .ok G) => (s, .ok (G.headD 0))

/-- The scan (ls.py 167–172). -/
noncomputable def scan (t : Mats n) (marg : Fin n → Marginal) (ev : Evaluator σ n) (v alpha : Fin n → ℝ) :
    List ℝ → σ → σ × List (ℝ × Option ℝ)
  | [], s => (s, [])
  | c :: cs, s =>
    let r := evalAt t marg ev v alpha s c
    let rest := scan t marg ev v alpha cs r.1
    (rest.1, (c, r.2.toOption) :: rest.2)

open Classical in
/-- The choice of the bracket (ls.py 175–187); the second argument is `(bracket_lo, bracket_hi)` so far. -/
noncomputable def bracket : List (ℝ × Option ℝ) → Option (ℝ × ℝ) → Option (ℝ × ℝ)
  | (c1, some g1) :: (c2, some g2) :: rest, acc =>
    if g1 * g2 ≤ 0 then
      if 0 < g1 ∧ g2 ≤ 0 then some (c1, c2)
      else bracket ((c2, some g2) :: rest) (acc.or (some (c1, c2)))
    else bracket ((c2, some g2) :: rest) acc
  | _ :: p :: rest, acc => bracket (p :: rest) acc
  | [_], acc => acc
  | [], acc => acc

/-- `c_max` (ls.py 164). -/
noncomputable def cMax (cInit : ℝ) : ℝ := max (|cInit| * 3 + 5) 15

/-- `np.linspace(-c_max, c_max, 40)` (ls.py 165). -/
noncomputable def grid (cm : ℝ) : List ℝ := (List.range 40).map (fun j => -cm + (j : ℝ) * (2 * cm / 39))

/-- The absolute tolerance handed to `brentq` (ls.py 201). -/
noncomputable def xtol : ℝ := 1e-6

/-- The default relative tolerance of `brentq`: four times the machine epsilon `2⁻⁵²`. -/
noncomputable def rtol : ℝ := 4 * (1 / 2) ^ 52

open Classical in
/-- `_find_line_intersection` (ls.py 156–207). -/
noncomputable def findLine (t : Mats n) (marg : Fin n → Marginal) (ev : Evaluator σ n) (v alpha : Fin n → ℝ) (cInit : ℝ)
    (s : σ) : σ × ℝ :=
  let cm := cMax cInit
  let sc := scan t marg ev v alpha (grid cm) s
  match bracket sc.2 none with
  | none =>
    match (sc.2.filterMap Prod.snd).head? with
    | some g => (sc.1, if g < 0 then -cm else cm)
    | none => (sc.1, cm)
  | some (lo, hi) =>
    match Brent.brentq (evalAt t marg ev v alpha) (min lo hi) (max lo hi) xtol rtol 50 sc.1 with
    | (s, .ok c) => (s, c)
    | (s, .error _) => (s, 0.5 * (lo + hi))

/-- The loop over the lines (ls.py 116–120). -/
noncomputable def lines (t : Mats n) (marg : Fin n → Marginal) (ev : Evaluator σ n) (alpha : Fin n → ℝ) (cInit : ℝ) :
    List (Fin n → ℝ) → σ → σ × List ℝ
  | [], s => (s, [])
  | v :: vs, s =>
    let r := findLine t marg ev v alpha cInit s
    let rest := lines t marg ev alpha cInit vs r.1
    (rest.1, r.2 :: rest.2)

/-- The projection orthogonal to `alpha` (ls.py 110–113). -/
def project (alpha u : Fin n → ℝ) : Fin n → ℝ := fun i => u i - alpha i * (alpha ⬝ᵥ u)

/-- The reported quantities. -/
structure Result where
  /-- the local array `c_values` -/
  c : List ℝ
  /-- `self._pf_contributions` -/
  contribs : List ℝ
  /-- `self.Pf` -/
  Pf : ℝ
  /-- `self.beta` -/
  beta : EReal
  /-- `self.cov` -/
  cov : EReal
  /-- `self.n_samples` -/
  nSamples : ℕ

/-- `np.mean`. -/
noncomputable def mean (l : List ℝ) : ℝ := l.sum / l.length

/-- `np.std`. -/
noncomputable def std (l : List ℝ) : ℝ := √((l.map (fun x => (x - mean l) ^ 2)).sum / l.length)

open Classical in
/-- `run` after FORM (ls.py 104–138) from the position `pos` of the stream of normal draws; `N ≥ 1` (the mean of an empty
array is NaN). -/
noncomputable def sample (t : Mats n) (marg : Fin n → Marginal) (ev : Evaluator σ n) (alpha : Fin n → ℝ) (betaForm : ℝ)
    (N : ℕ) (ω : ℕ → ℝ) (pos : ℕ) (s : σ) : σ × Result :=
  let us := Subset.randn ω n N pos
  let r := lines t marg ev alpha betaForm (us.map (project alpha)) s
  let contribs := r.2.map (fun c => StdNormal.cdf (-c))
  let Pf := mean contribs
  (r.1, { c := r.2, contribs := contribs, Pf := Pf
          beta := if 0 < Pf ∧ Pf < 1 then ((-StdNormal.ppf Pf : ℝ) : EReal) else if Pf ≤ 0 then ⊤ else ⊥
          cov := if 0 < Pf ∧ Pf < 1 then ((std contribs / (√(N : ℝ) * Pf) : ℝ) : EReal) else ⊤
          nSamples := N })

/-- `run` (ls.py 82–141): FORM is run unless a FORM result is supplied.  `none` when FORM is still running after `fuel`
iterations; the result of a run of FORM that hit a zero gradient is not modelled. -/
noncomputable def run (t : Mats n) (marg : Fin n → Marginal) (ev : Evaluator σ n) (opt : Form.Options)
    (form : Option (Form.Result n)) (N : ℕ) (ω : ℕ → ℝ) (fuel : ℕ) (s : σ) :
    Option (Except PyErr (σ × Result)) :=
  match form with
  | some r => some (.ok (sample t marg ev r.alpha r.beta N ω 0 s))
  | none =>
    match Form.runFrom t marg ev opt fuel s with
    | some (.done r s) => some (.ok (sample t marg ev r.alpha r.beta N ω 0 s))
    | some (.raised e _) => some (.error e)
    | _ => none

end LineSampling
end Pystra
