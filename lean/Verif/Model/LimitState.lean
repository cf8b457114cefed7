import Verif.Model.Stochastic
import Mathlib.Data.Real.Basic
import Mathlib.Logic.Function.Basic

/-!
Model of `class LimitState` (src/pystra/model.py 157–384).

An array `x` of shape `(n, nx)` is the list of its `nx` columns (evaluation points).  Numbers are reals.
-/

namespace Pystra

/-- A numeric value returned by the user's function: an array (its entries) or a Python scalar. -/
inductive GVal where
  | arr (v : List ℝ)
  | scalar (v : ℝ)

/-- What the user's function may return: a value, or a tuple of values. -/
inductive GRet where
  | val (g : GVal)
  | tuple (parts : List GVal)

/-- One call of the user's function: the keyword dictionary it received. -/
abbrev Kwargs := Dict String (List ℝ)

/-- Analysis options read by `LimitState` (src/pystra/analysis.py 146–157, 185–206). -/
structure LSOptions where
  /-- `diff_mode` -/
  diffMode : String
  /-- `multi_proc` -/
  multiProc : ℕ
  /-- `block_size` -/
  blockSize : ℕ
  /-- `ffdpara` -/
  ffdpara : ℝ

/-- Everything an evaluation can change: the model (its counter), and the record of calls made to the
user's function, oldest first. -/
structure Ev (D : Type) where
  /-- `self.model` -/
  model : StochModel D ℝ
  /-- calls made so far -/
  trace : List Kwargs

/-- `x[i]`: row `i` of an array given by its columns. -/
def rowOf {n : ℕ} (x : List (Fin n → ℝ)) (i : Fin n) : List ℝ := x.map (fun p => p i)

namespace LimitState

variable {D : Type} {n : ℕ}

/-- The loop `for i, var in enumerate(variables): inpdict[var] = x[i]` (model.py 365–366) from index `i`;
a row index beyond the array is an `IndexError`. -/
def bindVars (x : List (Fin n → ℝ)) : List String → ℕ → Kwargs → Except PyErr Kwargs
  | [], _, d => .ok d
  | v :: t, i, d => if h : i < n then bindVars x t (i + 1) (d.set v (rowOf x ⟨i, h⟩)) else .error .indexError

/-- The loop `for c, val in constants.items(): inpdict[c] = val * np.ones(nc)` (model.py 367–368). -/
def bindConsts (nc : ℕ) : Dict String ℝ → Kwargs → Kwargs
  | [], d => d
  | (c, v) :: t, d => bindConsts nc t (d.set c (List.replicate nc v))

/-- The keyword dictionary built by `compute_lsf` (model.py 360–368). -/
def inpdict (m : StochModel D ℝ) (x : List (Fin n → ℝ)) : Except PyErr Kwargs :=
  match bindVars x m.getVariables.keys 0 [] with
  | .ok d => .ok (bindConsts x.length m.getConstants d)
  | .error e => .error e

/-- The unpacking of the return value (model.py 370–382): with `ddm` exactly two values are needed; a
Python scalar is not iterable (`TypeError`, re-raised with the documented message), any other number of
values is a `ValueError`.  Without `ddm`, the first entry of a tuple or the value itself. -/
def unpackRet (ddm : Bool) (r : GRet) : Except PyErr (GVal × Option GVal) :=
  if ddm then
    match r with
    | .tuple [g, dg] => .ok (g, some dg)
    | .tuple _ => .error .valueError
    | .val (.arr [a, b]) => .ok (.scalar a, some (.scalar b))
    | .val (.arr _) => .error .valueError
    | .val (.scalar _) => .error .typeError
  else
    match r with
    | .tuple (g :: _) => .ok (g, none)
    | .tuple [] => .error .indexError
    | .val g => .ok (g, none)

/-- `compute_lsf(x, ddm)` (model.py 338–384). -/
def computeLsf (expr : Kwargs → GRet) (x : List (Fin n → ℝ)) (ddm : Bool) (ev : Ev D) :
    Ev D × Except PyErr (GVal × Option GVal) :=
  match inpdict ev.model x with
  | .error e => (ev, .error e)
  | .ok kw => ({ ev with trace := ev.trace ++ [kw] }, unpackRet ddm (expr kw))

/-- numpy assignment of a value into a slot of `nc` entries (`G[:, indx] = blockG`, model.py 274):
equal length copies, length one or a scalar broadcasts, anything else is a `ValueError`. -/
def broadcastTo (nc : ℕ) : GVal → Except PyErr (List ℝ)
  | .scalar v => .ok (List.replicate nc v)
  | .arr [v] => .ok (List.replicate nc v)
  | .arr l => if l.length = nc then .ok l else .error .valueError

/-- numpy assignment of `blockG.squeeze()` (model.py 313): a Python scalar has no `squeeze`. -/
def squeezeTo (nc : ℕ) : GVal → Except PyErr (List ℝ)
  | .scalar _ => .error .attributeError
  | g => broadcastTo nc g

/-- The block loop shared by `evaluate_nogradient` (model.py 266–275) and `evaluate_ffd` (model.py 305–314):
`while k < nx: block_size = min(block_size, nx - k); …; k += block_size`.  `fuel` bounds the number of
rounds; `none` means the bound was reached while the loop was still running.  `acc` is the part of the
result array already filled. -/
def blockLoop (assign : ℕ → GVal → Except PyErr (List ℝ)) (expr : Kwargs → GRet) (x : List (Fin n → ℝ)) :
    ℕ → ℕ → ℕ → List ℝ → Ev D → Option (Ev D × Except PyErr (List ℝ))
  | 0, _, k, acc, ev => if k < x.length then none else some (ev, .ok acc)
  | fuel + 1, bs, k, acc, ev =>
    if k < x.length then
      let bs := min bs (x.length - k)
      let blockx := (x.drop k).take bs
      match computeLsf expr blockx false ev with
      | (ev, .error e) => some (ev, .error e)
      | (ev, .ok (g, _)) =>
        match assign bs g with
        | .error e => some (ev, .error e)
        | .ok vals => blockLoop assign expr x fuel bs (k + bs) (acc ++ vals) ev
    else some (ev, .ok acc)

/-- The result of an evaluation: values, gradient columns, and the caller's array afterwards. -/
structure EvalOut (n : ℕ) where
  /-- `G` -/
  G : List ℝ
  /-- `grad_G`, one column per point -/
  grad : List (Fin n → ℝ)
  /-- the caller's `x` after the call (the method works on the caller's array) -/
  xAfter : List (Fin n → ℝ)

/-- `evaluate_nogradient` (model.py 260–279). -/
def evaluateNogradient (fuel : ℕ) (expr : Kwargs → GRet) (opt : LSOptions) (x : List (Fin n → ℝ)) (ev : Ev D) :
    Option (Ev D × Except PyErr (EvalOut n)) :=
  match blockLoop broadcastTo expr x fuel opt.blockSize 0 [] ev with
  | none => none
  | some (ev, .error e) => some (ev, .error e)
  | some (ev, .ok G) =>
    some ({ ev with model := ev.model.addCallFunction x.length },
      .ok ⟨G, List.replicate x.length (fun _ => 0), x⟩)

/-- The perturbation loop of `evaluate_ffd` (model.py 295–301) for `nx = 1`: round `j` overwrites
component `j` of the caller's point by `x[j] + allh[j]` and writes that number into row `j` of column `j+1`. -/
def ffdPerturb (h : Fin n → ℝ) : List (Fin n) → (Fin n → ℝ) × List (Fin n → ℝ) → (Fin n → ℝ) × List (Fin n → ℝ)
  | [], s => s
  | j :: t, (x, allx) =>
    let x := Function.update x j (x j + h j)
    let allx := allx.modify (j.val + 1) (fun col => Function.update col j (x j))
    ffdPerturb h t (x, allx)

/-- `evaluate_ffd` (model.py 281–325).  `allx[:] = x` broadcasts only for one point (or no variables, or no
points); otherwise it is a `ValueError`.  Simplification: `n = 0` with points is not distinguished from the
error case (the code would return values and an empty gradient). `stdv i` is `marg[i].stdv`. -/
noncomputable def evaluateFfd (fuel : ℕ) (expr : Kwargs → GRet) (opt : LSOptions) (stdv : Fin n → ℝ)
    (x : List (Fin n → ℝ)) (ev : Ev D) : Option (Ev D × Except PyErr (EvalOut n)) :=
  match x with
  | [] => some (ev, .ok ⟨[], [], []⟩)
  | [x0] =>
    let allx := List.replicate (1 + n) x0
    let allh : Fin n → ℝ := fun j => stdv j / opt.ffdpara
    let (xAfter, allx) := ffdPerturb allh (List.finRange n) (x0, allx)
    match blockLoop squeezeTo expr allx fuel opt.blockSize 0 [] ev with
    | none => none
    | some (ev, .error e) => some (ev, .error e)
    | some (ev, .ok allG) =>
      let G := allG.getD 0 0
      let grad : Fin n → ℝ := fun j => (allG.getD (j.val + 1) 0 - G) / allh j
      some ({ ev with model := ev.model.addCallFunction (1 + n) }, .ok ⟨[G], [grad], [xAfter]⟩)
  | _ => some (ev, .error .valueError)

/-- The assignment `grad_G[:, k:k+1] = gradient` for a column of `n` entries. -/
def gradColumn (g : GVal) : Except PyErr (Fin n → ℝ) :=
  match g with
  | .scalar v => .ok (fun _ => v)
  | .arr l => if h : l.length = n then .ok (fun i => l[i.val]'(h ▸ i.isLt))
      else match l with
        | [v] => .ok (fun _ => v)
        | _ => .error .valueError

/-- The assignment `G[k] = value` into an array of shape `(1, nx)`: `k ≥ 1` is an `IndexError`; for `k = 0` the
row of `nx` entries is filled by broadcasting. -/
def ddmAssignG (nx k : ℕ) (g : GVal) : Except PyErr (List ℝ) :=
  if k = 0 then broadcastTo nx g else .error .indexError

/-- The loop of `evaluate_ddm` (model.py 332–333). -/
def ddmLoop (expr : Kwargs → GRet) (nx : ℕ) : List (Fin n → ℝ) → ℕ → List ℝ → List (Fin n → ℝ) → Ev D →
    Ev D × Except PyErr (List ℝ × List (Fin n → ℝ))
  | [], _, G, grad, ev => (ev, .ok (G, grad))
  | p :: t, k, _, grad, ev =>
    match computeLsf expr [p] true ev with
    | (ev, .error e) => (ev, .error e)
    | (ev, .ok (g, dg)) =>
      match ddmAssignG nx k g with
      | .error e => (ev, .error e)
      | .ok G =>
        match gradColumn (dg.getD (.scalar 0)) with
        | .error e => (ev, .error e)
        | .ok col => ddmLoop expr nx t (k + 1) G (grad ++ [col]) ev

/-- `evaluate_ddm` (model.py 327–336). -/
def evaluateDdm (expr : Kwargs → GRet) (x : List (Fin n → ℝ)) (ev : Ev D) :
    Ev D × Except PyErr (EvalOut n) :=
  match ddmLoop expr x.length x 0 [] [] ev with
  | (ev, .error e) => (ev, .error e)
  | (ev, .ok (G, grad)) =>
    ({ ev with model := ev.model.addCallFunction x.length }, .ok ⟨G, grad, x⟩)

/-- `evaluate_lsf(x, model, options, diff_mode)` (model.py 208–258). -/
noncomputable def evaluateLsf (fuel : ℕ) (expr : Kwargs → GRet) (opt : LSOptions) (stdv : Fin n → ℝ)
    (diffMode : Option String) (x : List (Fin n → ℝ)) (ev : Ev D) :
    Option (Ev D × Except PyErr (EvalOut n)) :=
  let mode := match diffMode with
    | none => opt.diffMode
    | some _ => "no"
  if opt.multiProc = 0 then some (ev, .error .notImplemented)
  else if mode = "no" then evaluateNogradient fuel expr opt x ev
  else if mode = "ddm" then some (evaluateDdm expr x ev)
  else evaluateFfd fuel expr opt stdv x ev

end LimitState
end Pystra
