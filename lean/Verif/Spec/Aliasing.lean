import Verif.Model.Aliasing

/-!
Specification: what a program would do if every array were a value of its own.  The user's arrays, the `CorrelationMatrix` objects (each
belongs to the array it was made from) and the models (Verif/Model/Stochastic.lean) are all separate.
-/

namespace Pystra.Spec
open Aliasing

variable {D V : Type}

/-- A model as seen by a user: the references followed. -/
def shown (w : World D V) (k : ℕ) : StochModel ℕ V :=
  let m := w.models k
  { vars := m.vars, names := m.names, marg := m.marg, correlation := m.correlation.map w.arrays, Ro := m.Ro.map w.arrays
    callFunction := m.callFunction, consts := m.consts }

/-- A distribution of a model as seen by a user: the current contents of the object. -/
def contents (w : World D V) (o : DistObj ℕ) : DistObj D := w.dists o.body

/-- What the user's array number `u` holds. -/
def userArray (w : World D V) (u : ℕ) : Option NDArray2 := w.handles[u]?.map w.arrays

/-- What `CorrelationMatrix` object number `c` holds. -/
def matrixOf (w : World D V) (c : ℕ) : Option NDArray2 := w.cms[c]?.map w.arrays

/-- A world of values. -/
structure ValueWorld (D V : Type) where
  /-- the user's arrays -/
  arrays : List NDArray2
  /-- the `CorrelationMatrix` objects: the number of the array each was made from -/
  cms : List ℕ
  /-- the distribution objects -/
  dists : ℕ → DistObj D
  /-- the models -/
  models : ℕ → StochModel ℕ V

/-- At the start. -/
def ValueWorld.start (dists : ℕ → DistObj D) : ValueWorld D V := ⟨[], [], dists, fun _ => StochModel.init⟩

/-- What is handed to `addVariable`. -/
def ValueWorld.arg (s : ValueWorld D V) : Arg V → PyObj ℕ V
  | .distribution d => .distribution ⟨(s.dists d).name, d⟩
  | .constant n v => .constant n v
  | .other => .other

/-- Assignment to an element of the user's array number `u`. -/
noncomputable def ValueWorld.writeUser (s : ValueWorld D V) (u i j : ℕ) (v : ℝ) : ValueWorld D V × Except PyErr Unit :=
  match s.arrays[u]? with
  | none => (s, .error .nameError)
  | some A =>
    match Aliasing.write A i j v with
    | .error e => (s, .error e)
    | .ok A => ({ s with arrays := s.arrays.set u A }, .ok ())

/-- One action on values. -/
noncomputable def ValueWorld.step (s : ValueWorld D V) : Act D V → ValueWorld D V × Except PyErr Unit
  | .newArray A => ({ s with arrays := s.arrays ++ [A] }, .ok ())
  | .write u i j v => s.writeUser u i j v
  | .newMatrix u => if u < s.arrays.length then ({ s with cms := s.cms ++ [u] }, .ok ()) else (s, .error .nameError)
  | .writeMatrix c i j v =>
    match s.cms[c]? with
    | none => (s, .error .nameError)
    | some u => s.writeUser u i j v
  | .change d body => ({ s with dists := Function.update s.dists d ⟨(s.dists d).name, body⟩ }, .ok ())
  | .add k o => ({ s with models := Function.update s.models k ((s.models k).addVariable (s.arg o)).1 }, ((s.models k).addVariable (s.arg o)).2)
  | .setCorrelation k c =>
    match s.cms[c]?.bind fun u => s.arrays[u]? with
    | none => (s, .error .nameError)
    | some A => ({ s with models := Function.update s.models k ((s.models k).setCorrelation A) }, .ok ())
  | .assign k u =>
    match s.arrays[u]? with
    | none => (s, .error .nameError)
    | some A => ({ s with models := Function.update s.models k ((s.models k).setCorrelation A) }, .ok ())
  | .writeThrough k i j v =>
    match (s.models k).correlation with
    | none => (s, .error .typeError)
    | some A =>
      match Aliasing.write A i j v with
      | .error e => (s, .error e)
      | .ok A => ({ s with models := Function.update s.models k ((s.models k).setCorrelation A) }, .ok ())
  | .setRo k A => ({ s with models := Function.update s.models k ((s.models k).setModifiedCorrelation A) }, .ok ())
  | .calls k n => ({ s with models := Function.update s.models k ((s.models k).addCallFunction n) }, .ok ())

/-- A history. -/
noncomputable def ValueWorld.run (s : ValueWorld D V) : List (Act D V) → ValueWorld D V
  | [] => s
  | a :: as => ValueWorld.run (s.step a).1 as

/-- The world looks like the world of values. -/
structure Shows (w : World D V) (s : ValueWorld D V) : Prop where
  arrays : ∀ u, userArray w u = s.arrays[u]?
  matrices : ∀ c, matrixOf w c = s.cms[c]?.bind fun u => s.arrays[u]?
  dists : w.dists = s.dists
  models : ∀ k, shown w k = s.models k

/-- An action that does not assign an array to the property `model.correlation`. -/
def NoAssign : Act D V → Prop
  | .assign _ _ => False
  | _ => True

/-- The model an action is called on. -/
def onModel : Act D V → Option ℕ
  | .add k _ | .setCorrelation k _ | .assign k _ | .writeThrough k _ _ _ | .setRo k _ | .calls k _ => some k
  | _ => none

end Pystra.Spec
