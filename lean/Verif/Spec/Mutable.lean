import Verif.Model.Mutable

/-! Vocabulary for histories of calls on distribution objects. -/

namespace Pystra.Spec.Mut
open Pystra.Mutable

/-- A setter called on object `j` is passed down to object `i` (`i` is `j`, or what `j` wraps, and so on). -/
inductive Reaches (w : List Obj) : ℕ → ℕ → Prop
  | self (i : ℕ) : Reaches w i i
  | wrapped {j k i : ℕ} (o : Obj) : w[j]? = some o → o.body.child = some k → Reaches w k i → Reaches w j i

/-- The heap is one that Python can have: a wrapper refers to an older object. -/
def WF (w : List Obj) : Prop := ∀ (j : ℕ) (o : Obj), w[j]? = some o → ∀ k : ℕ, o.body.child = some k → k < j

/-- The call mentions only objects that exist. -/
def Refers (w : List Obj) : Op → Prop
  | .new (.zeroInflated j _) _ => j < w.length
  | .new (.maximum j _) _ => j < w.length
  | .new (.maxParent j _) _ => j < w.length
  | .new _ _ => True
  | .set _ i _ => i < w.length
  | .setZero i _ => i < w.length
  | .setExponent i _ => i < w.length
  | .setLower i _ => i < w.length
  | .setStart i _ => i < w.length
  | .sample i _ => i < w.length

/-- A program: each call mentions only objects that exist by then. -/
def Program (E : Env) : World → List Op → Prop
  | _, [] => True
  | w, op :: ops => Refers w.objs op ∧ Program E (op.run E w).1 ops

open Classical in
/-- The values that the calls of `set_location` (or `set_scale`) in a program bring to object `i`, directly or through
a wrapper, in order. -/
noncomputable def settings (E : Env) (k : Param) (i : ℕ) : World → List Op → List ℝ
  | _, [] => []
  | w, op :: ops =>
    (match op with
      | .set k' j v => if k' = k ∧ Reaches w.objs j i then [v] else []
      | _ => []) ++ settings E k i (op.run E w).1 ops

/-- The value now in force: the last one set, or the initial one. -/
def current (initial : ℝ) (l : List ℝ) : ℝ := l.getLast?.getD initial

/-- The values passed to `set_lower` of object `i`. -/
def lowers (i : ℕ) : List Op → List ℝ
  | [] => []
  | .setLower j v :: ops => if j = i then v :: lowers i ops else lowers i ops
  | _ :: ops => lowers i ops

/-- The program never calls `setStartPoint` on object `i`. -/
def KeepsStart (i : ℕ) (ops : List Op) : Prop := ∀ sp, Op.setStart i sp ∉ ops

end Pystra.Spec.Mut
