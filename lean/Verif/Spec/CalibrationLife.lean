import Verif.Model.CalibrationObject

/-! Vocabulary for C113: what the user of a `Calibration` object may expect to find after a history of calls, told without following the
object through them. -/

namespace Pystra.Spec
open Pystra

variable {D : Type}

/-- The settings of the object after some calls: what the constructor was given, with the later assignments. -/
def settings (C : Calib D) : List CalibCall → Calib D
  | [] => C
  | .setTarget b :: t => settings { C with betaT := b } t
  | .setCalibMethod m :: t => settings { C with calibMethod := m } t
  | .setEstMethod m :: t => settings { C with estMethod := m } t
  | _ :: t => settings C t

/-- Going back from the last call: the first call `a` for which `f (the calls before it) a` is a value. `rev` has the last call first. -/
def latestRev {A B : Type} (f : List A → A → Option B) : (rev : List A) → Option B
  | [] => none
  | a :: t =>
    match f t.reverse a with
    | some b => some b
    | none => latestRev f t

/-- The value of the most recent call that has one. -/
def latest {A B : Type} (f : List A → A → Option B) (calls : List A) : Option B := latestRev f calls.reverse

/-- The design points that a call finds, made after the calls `pre`: `run` does, when all load cases could be calibrated. -/
noncomputable def calibrated (fsolve : Calib.Fsolve) (fuel : ℕ) (C : Calib D) (pre : List CalibCall) : CalibCall → Option Frame
  | .run _ _ =>
    match (settings C pre).runCalibration fsolve fuel with
    | some (.ok x) => some x
    | _ => none
  | _ => none

/-- The factors that a call finds, made after the calls `pre`: `run` does, when it returns and the estimation method is known. -/
noncomputable def estimated (fsolve : Calib.Fsolve) (fuel : ℕ) (C : Calib D) (pre : List CalibCall) : CalibCall → Option Calib.Factors
  | .run est setMax =>
    match (settings C pre).run fsolve est setMax fuel with
    | some (.ok (_, some F)) => some F
    | _ => none
  | _ => none

/-- What the user gets from a call made after the calls `pre`. -/
noncomputable def outcome (fsolve : Calib.Fsolve) (fuel : ℕ) (C : Calib D) (pre : List CalibCall) : CalibCall → CalibOut
  | .run est setMax =>
    match (settings C pre).run fsolve est setMax fuel with
    | some (.error e) => .raised e
    | _ => .nothing
  | .designParams minPhi maxPsi =>
    match latest (estimated fsolve fuel C) pre with
    | none => .raised .attributeError
    | some F =>
      match (settings C pre).getDesignParamFactor F minPhi maxPsi with
      | .error e => .raised e
      | .ok zs => .values zs
  | .betas z =>
    match C.betasAt z C.labelCombCases with
    | .error e => .raised e
    | .ok bs => .values bs
  | .lsfTable df retAbs =>
    match C.lsfTable df retAbs with
    | .error e => .raised e
    | .ok t => .table t
  | .report =>
    match latest (calibrated fsolve fuel C) pre, latest (estimated fsolve fuel C) pre with
    | some x, some F => .printed x F
    | _, _ => .raised .attributeError
  | .setTarget _ => .nothing
  | .setCalibMethod _ => .nothing
  | .setEstMethod _ => .nothing

end Pystra.Spec
