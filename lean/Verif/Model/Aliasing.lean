import Verif.Model.Stochastic

/-!
Model of several `StochasticModel` and `CorrelationMatrix` objects *by reference* (src/pystra/model.py 9–154; src/pystra/correlation.py
19–62): numpy arrays and distribution objects live on a heap, the other objects hold references to them.  Verif/Model/Stochastic.lean is the
same class with values in place of references.
-/

namespace Pystra.Aliasing

variable {D V : Type}

/-- `A[i, j] = v` for a two-dimensional array (negative indices, which count from the end, are left out). -/
noncomputable def write (A : NDArray2) (i j : ℕ) (v : ℝ) : Except PyErr NDArray2 :=
  if h : i < A.nrow ∧ j < A.ncol then
    .ok { A with val := fun a b => if a = ⟨i, h.1⟩ ∧ b = ⟨j, h.2⟩ then v else A.val a b }
  else .error .indexError

/-- The attributes of a `StochasticModel` (model.py 18–29): references to arrays are addresses; a reference to a distribution object is its
number, kept together with its name (names are never reassigned). -/
structure RefModel (V : Type) where
  /-- `self.variables` -/
  vars : Dict String (DistObj ℕ)
  /-- `self._names` -/
  names : List String
  /-- `self._marg` -/
  marg : List (DistObj ℕ)
  /-- `self._correlation` -/
  correlation : Option ℕ
  /-- `self._Ro` -/
  Ro : Option ℕ
  /-- `self._call_function` -/
  callFunction : ℕ
  /-- `self._consts` -/
  consts : Dict String V

/-- `StochasticModel()` (model.py 18–29). -/
def RefModel.init : RefModel V := ⟨[], [], [], none, none, 0, []⟩

/-- Everything a program holds: the arrays, the user's arrays among them (in the order of creation), the `CorrelationMatrix` objects
(their `matrix` attribute), the distribution objects, and the models.  Distribution objects and models are numbered; a number that was not
used yet stands for an object that does not exist yet. -/
structure World (D V : Type) where
  /-- the contents of the arrays -/
  arrays : ℕ → NDArray2
  /-- the next free address -/
  next : ℕ
  /-- the user's arrays -/
  handles : List ℕ
  /-- the `CorrelationMatrix` objects -/
  cms : List ℕ
  /-- the distribution objects -/
  dists : ℕ → DistObj D
  /-- the models -/
  models : ℕ → RefModel V

/-- At the start. -/
def World.start (dists : ℕ → DistObj D) : World D V := ⟨fun _ => ⟨0, 0, 0⟩, 0, [], [], dists, fun _ => RefModel.init⟩

/-- A new array. -/
noncomputable def World.alloc (w : World D V) (A : NDArray2) : World D V :=
  { w with arrays := Function.update w.arrays w.next A, next := w.next + 1 }

/-- An assignment to an element of the array at an address. -/
noncomputable def World.writeAt (w : World D V) (a i j : ℕ) (v : ℝ) : World D V × Except PyErr Unit :=
  match write (w.arrays a) i j v with
  | .error e => (w, .error e)
  | .ok A => ({ w with arrays := Function.update w.arrays a A }, .ok ())

/-- Change of one model. -/
def World.setModel (w : World D V) (k : ℕ) (m : RefModel V) : World D V := { w with models := Function.update w.models k m }

/-- What may be handed to `addVariable`. -/
inductive Arg (V : Type) where
  | distribution (d : ℕ)
  | constant (name : String) (value : V)
  | other

/-- `addVariable` (model.py 31–64): a new variable comes with a new array `np.eye(n)`. -/
noncomputable def addVariable (w : World D V) (k : ℕ) : Arg V → World D V × Except PyErr Unit
  | .other => (w, .error .exception)
  | .distribution d =>
    if (w.dists d).name ∈ (w.models k).names then (w, .error .exception)
    else
      let m := w.models k
      let o : DistObj ℕ := ⟨(w.dists d).name, d⟩
      let w' := w.alloc (NDArray2.eye (m.marg.length + 1))
      (w'.setModel k { m with names := m.names ++ [o.name], marg := m.marg ++ [o], vars := m.vars.set o.name o, correlation := some w.next },
        .ok ())
  | .constant n v =>
    if n ∈ (w.models k).names then (w, .error .exception)
    else
      let m := w.models k
      (w.setModel k { m with names := m.names ++ [n], consts := m.consts.set n v }, .ok ())

/-- What a program does. -/
inductive Act (D V : Type) where
  /-- `A = np.array(...)` -/
  | newArray (A : NDArray2)
  /-- `A[i, j] = v`, for the user's array number `u` -/
  | write (u i j : ℕ) (v : ℝ)
  /-- `C = CorrelationMatrix(A)` (correlation.py 36–43) -/
  | newMatrix (u : ℕ)
  /-- `C[i, j] = v` (correlation.py 51–52) -/
  | writeMatrix (c i j : ℕ) (v : ℝ)
  /-- the setters of a distribution object: its contents change, not its name -/
  | change (d : ℕ) (body : D)
  /-- `model.addVariable(...)` -/
  | add (k : ℕ) (o : Arg V)
  /-- `model.setCorrelation(C)` (model.py 138–139; correlation.py 54–62): `np.array(...)` copies -/
  | setCorrelation (k c : ℕ)
  /-- `model.correlation = A` (model.py 93–95): no copy -/
  | assign (k u : ℕ)
  /-- `model.getCorrelation()[i, j] = v`, also `model.correlation[i, j] = v` (model.py 88–91, 141–142) -/
  | writeThrough (k i j : ℕ) (v : ℝ)
  /-- `setModifiedCorrelation` by an analysis, with the array it has just made (correlation.py 183–184; model.py 144–145) -/
  | setRo (k : ℕ) (A : NDArray2)
  /-- `addCallFunction` (model.py 150–151) -/
  | calls (k n : ℕ)

/-- One action (an object that does not exist is reported as `NameError`). -/
noncomputable def step (w : World D V) : Act D V → World D V × Except PyErr Unit
  | .newArray A => ({ w.alloc A with handles := w.handles ++ [w.next] }, .ok ())
  | .write u i j v =>
    match w.handles[u]? with
    | none => (w, .error .nameError)
    | some a => w.writeAt a i j v
  | .newMatrix u =>
    match w.handles[u]? with
    | none => (w, .error .nameError)
    | some a => ({ w with cms := w.cms ++ [a] }, .ok ())
  | .writeMatrix c i j v =>
    match w.cms[c]? with
    | none => (w, .error .nameError)
    | some a => w.writeAt a i j v
  | .change d body => ({ w with dists := Function.update w.dists d ⟨(w.dists d).name, body⟩ }, .ok ())
  | .add k o => addVariable w k o
  | .setCorrelation k c =>
    match w.cms[c]? with
    | none => (w, .error .nameError)
    | some a => ((w.alloc (w.arrays a)).setModel k { w.models k with correlation := some w.next }, .ok ())
  | .assign k u =>
    match w.handles[u]? with
    | none => (w, .error .nameError)
    | some a => (w.setModel k { w.models k with correlation := some a }, .ok ())
  | .writeThrough k i j v =>
    match (w.models k).correlation with
    | none => (w, .error .typeError)
    | some a => w.writeAt a i j v
  | .setRo k A => ((w.alloc A).setModel k { w.models k with Ro := some w.next }, .ok ())
  | .calls k n => (w.setModel k { w.models k with callFunction := (w.models k).callFunction + n }, .ok ())

/-- A history: every action is taken, whether or not earlier ones raised. -/
noncomputable def run (w : World D V) : List (Act D V) → World D V
  | [] => w
  | a :: as => run (step w a).1 as

end Pystra.Aliasing
