import Mathlib.Data.Real.Basic
import Mathlib.Data.Matrix.Basic

/-!
Shared vocabulary of the model: Python exceptions as values, Python dictionaries as association lists with
insertion order, and dynamically shaped numpy matrices.
-/

namespace Pystra

/-- Python exceptions that the modelled code can raise (the constructor is the exception class). -/
inductive PyErr where
  | exception          -- bare `Exception(...)`
  | valueError
  | typeError
  | indexError
  | keyError
  | attributeError
  | notImplemented
  | linAlgError
  | zeroDivision
  | runtimeError
  | nameError          -- `NameError` and its subclass `UnboundLocalError`
  | diverges           -- not an exception: the call never returns
deriving DecidableEq, Repr

/-- A Python `dict` / `OrderedDict`: key–value pairs in insertion order. -/
abbrev Dict (K V : Type _) := List (K × V)

namespace Dict

variable {K V : Type _} [DecidableEq K]

/-- `d[k] = v`: replace the value in place when `k` is present, append otherwise (Python dict semantics). -/
def set (d : Dict K V) (k : K) (v : V) : Dict K V :=
  match d with
  | [] => [(k, v)]
  | (k', v') :: t => if k' = k then (k, v) :: t else (k', v') :: set t k v

/-- `d.get(k)` / `d[k]`, `none` standing for `KeyError`. -/
def get? (d : Dict K V) (k : K) : Option V :=
  match d with
  | [] => none
  | (k', v') :: t => if k' = k then some v' else get? t k

/-- `d.keys()` in iteration order. -/
def keys (d : Dict K V) : List K := d.map Prod.fst

end Dict

/-- A floating-point result: a number, an infinity or NaN. -/
inductive Fl where
  | fin (x : ℝ)
  | posInf
  | negInf
  | nan

/-- A two-dimensional numpy array together with its shape. -/
structure NDArray2 where
  /-- number of rows -/
  nrow : ℕ
  /-- number of columns -/
  ncol : ℕ
  /-- the entries -/
  val : Matrix (Fin nrow) (Fin ncol) ℝ

/-- `np.eye(n)`. -/
noncomputable def NDArray2.eye (n : ℕ) : NDArray2 := ⟨n, n, 1⟩

end Pystra
