import Verif.Model.Form

/-!
Model of the sensitivity support of `Distribution` (src/pystra/distributions/distribution.py 366–530) and of
`class SensitivityAnalysis` (src/pystra/sensitivity.py).  Division of numbers by zero is `0` here; numpy gives `inf`/`nan` (the
divisors are `2h`, `fX ≥ 1e-300`, the step actually taken and the derivative of the Nataf integral).
-/

namespace Pystra

/-- A distribution class as far as `_make_copy` and `dF_dtheta` see it. -/
structure DistCls where
  /-- `type(self)(name, mean, stdv, **kwargs)` -/
  new : ℝ → ℝ → Dict String ℝ → Except PyErr Marginal
  /-- keys of `sensitivity_params` beyond `"mean"` and `"std"`; their values are constructor arguments (gev.py 75–82, 162–169) -/
  extra : List String
  /-- an overriding `dF_dtheta` (normal.py 90–104, lognormal.py 87–126), or the base class's -/
  dF : Option (Marginal → ℝ → Dict String ℝ)

/-- A distribution object with the constructor arguments it remembers. -/
structure Dist where
  /-- `type(self)` -/
  cls : DistCls
  /-- the object -/
  marg : Marginal
  /-- `self._ctor_kwargs` -/
  kwargs : Dict String ℝ

namespace Dist

/-- `dict.update`. -/
def update (d e : Dict String ℝ) : Dict String ℝ := e.foldl (fun d p => Dict.set d p.1 p.2) d

/-- `sensitivity_params` (distribution.py 366–388; gev.py 75–82). -/
noncomputable def sensitivityParams (d : Dist) : Dict String ℝ :=
  [("mean", d.marg.mean), ("std", d.marg.stdv)] ++ d.cls.extra.map (fun p => (p, (Dict.get? d.kwargs p).getD 0))

/-- `_make_copy(**overrides)` (distribution.py 390–422); the name and no start point are passed on. -/
noncomputable def makeCopy (d : Dist) (overrides : Dict String ℝ) : Except PyErr Dist :=
  let params := update (update [("mean", d.marg.mean), ("std", d.marg.stdv)] d.kwargs) overrides
  let mean := (Dict.get? params "mean").getD 0
  let stdv := (Dict.get? params "std").getD 0
  let rest := params.filter (fun p => p.1 ≠ "mean" ∧ p.1 ≠ "std")
  match d.cls.new mean stdv rest with
  | .error e => .error e
  | .ok m => .ok ⟨d.cls, m, rest⟩

open Classical in
/-- `_dmoments_dtheta(param)` (distribution.py 424–458). -/
noncomputable def dmoments (d : Dist) (param : String) : Except PyErr (ℝ × ℝ) :=
  if param = "mean" then .ok (1, 0)
  else if param = "std" then .ok (0, 1)
  else
    match Dict.get? d.sensitivityParams param with
    | none => .error .keyError
    | some val =>
      let h := max (|val| * 1e-6) 1e-10
      match d.makeCopy [(param, val + h)] with
      | .error e => .error e
      | .ok plus =>
        match d.makeCopy [(param, val - h)] with
        | .error e => .error e
        | .ok minus => .ok ((plus.marg.mean - minus.marg.mean) / (2 * h), (plus.marg.stdv - minus.marg.stdv) / (2 * h))

/-- The loop over the parameters in the base class's `dF_dtheta` (distribution.py 518–524). -/
noncomputable def baseDFLoop (d : Dist) (x : ℝ) : Dict String ℝ → Except PyErr (Dict String ℝ)
  | [] => .ok []
  | (param, val) :: rest =>
    let h := max (|val| * 1e-6) (d.marg.stdv * 1e-8)
    match d.makeCopy [(param, val + h)] with
    | .error e => .error e
    | .ok plus =>
      match d.makeCopy [(param, val - h)] with
      | .error e => .error e
      | .ok minus =>
        match baseDFLoop d x rest with
        | .error e => .error e
        | .ok r => .ok ((param, (plus.marg.cdf x - minus.marg.cdf x) / (2 * h)) :: r)

open Classical in
/-- `dF_dtheta(x)` of the base class (distribution.py 460–525). -/
noncomputable def baseDF (d : Dist) (x : ℝ) : Except PyErr (Dict String ℝ) :=
  match d.makeCopy [] with
  | .error _ => .error .valueError
  | .ok test =>
    let xTest := d.marg.mean + 0.5 * d.marg.stdv
    let ref := d.marg.cdf xTest
    let tst := test.marg.cdf xTest
    if |tst - ref| > 1e-6 * (1 + |ref|) then .error .valueError else baseDFLoop d x d.sensitivityParams

/-- `dF_dtheta(x)`. -/
noncomputable def dFDtheta (d : Dist) (x : ℝ) : Except PyErr (Dict String ℝ) :=
  match d.cls.dF with
  | some f => .ok (f d.marg x)
  | none => d.baseDF x

/-- The function `x ↦ dF_dtheta(x)[param]` on arrays: whether it raises does not depend on `x`. -/
noncomputable def dFParam (d : Dist) (param : String) : Except PyErr (ℝ → ℝ) :=
  match d.dFDtheta 0 with
  | .error e => .error e
  | .ok _ => .ok (fun x =>
      match d.dFDtheta x with
      | .error _ => 0
      | .ok r => (Dict.get? r param).getD 0)

end Dist

/-- `class Normal` (normal.py). -/
noncomputable def Normal.cls : DistCls where
  new := fun mean stdv _ => Normal.new mean (.fin stdv) none
  extra := []
  dF := some (fun m x => [("mean", (Normal.dFdTheta m.mean m.stdv x).1), ("std", (Normal.dFdTheta m.mean m.stdv x).2)])

/-- `class Lognormal` (lognormal.py). -/
noncomputable def Lognormal.cls : DistCls where
  new := fun mean stdv _ => Lognormal.new mean stdv false none
  extra := []
  dF := some (fun m x =>
    let p := Lognormal.params m.mean m.stdv
    [("mean", (Lognormal.dFdTheta m.mean m.stdv p.1 p.2 x).1), ("std", (Lognormal.dFdTheta m.mean m.stdv p.1 p.2 x).2)])

namespace Sensitivity
open Transformation Matrix CholeskySens

variable {n : ℕ}

/-- The grid of a pair (sensitivity.py 242–248); `zi_and_xi` cannot fail for these numbers of points, so the error is passed on. -/
noncomputable def grid (dist : Fin n → Dist) (R : Matrix (Fin n) (Fin n) ℝ) (i j : Fin n) : Except PyErr Integration.Grid :=
  Integration.ziAndXi (dist i).marg (dist j).marg 6 (Correlation.selectNIP (R i j))

/-- The pairs `for i in range(nrv): for j in range(i)`. -/
def pairs (n : ℕ) : List (Fin n × Fin n) :=
  (List.finRange n).flatMap (fun i => ((List.finRange n).filter (fun j => decide (j < i))).map (fun j => (i, j)))

/-- `dR0[i, j] = val; dR0[j, i] = val`. -/
def setSym (A : Matrix (Fin n) (Fin n) ℝ) (i j : Fin n) (v : ℝ) : Matrix (Fin n) (Fin n) ℝ :=
  setEntry (setEntry A i j v) j i v

open Classical in
/-- `_compute_dR0_dtheta` (sensitivity.py 311–367), the loop over the given pairs. -/
noncomputable def dR0Loop (dist : Fin n → Dist) (R Ro : Matrix (Fin n) (Fin n) ℝ) (k : Fin n) (param : String) :
    List (Fin n × Fin n) → Matrix (Fin n) (Fin n) ℝ → Except PyErr (Matrix (Fin n) (Fin n) ℝ)
  | [], dR0 => .ok dR0
  | (i, j) :: rest, dR0 =>
    if k ≠ i ∧ k ≠ j then dR0Loop dist R Ro k param rest dR0
    else if |Ro i j - R i j| < 1e-12 ∧ |R i j| < 1e-12 then dR0Loop dist R Ro k param rest dR0
    else
      match grid dist R i j with
      | .error e => .error e
      | .ok g =>
        match (dist k).dFParam param with
        | .error e => .error e
        | .ok dF =>
          match (dist k).dmoments param with
          | .error e => .error e
          | .ok (dmu, dsig) =>
            let val := Integration.drho0Dtheta (Ro i j) (dist i).marg (dist j).marg g (decide (k = i)) dF dmu dsig
            dR0Loop dist R Ro k param rest (setSym dR0 i j val)

open Classical in
/-- One marginal sensitivity (sensitivity.py 253–275). -/
noncomputable def marginalOne (dist : Fin n → Dist) (R Ro : Matrix (Fin n) (Fin n) ℝ) (t : Mats n) (alpha u : Fin n → ℝ)
    (k : Fin n) (param : String) : Except PyErr ℝ :=
  let xStar := uToX t (fun i => (dist i).marg) u
  let zStar := t.invT.mulVec u
  match (dist k).dFParam param with
  | .error e => .error e
  | .ok dF =>
    let phiZ := StdNormal.pdf (zStar k)
    let dz : Fin n → ℝ := fun i => if i = k then (if phiZ > 1e-300 then dF (xStar k) / phiZ else 0) else 0
    let term1 := alpha ⬝ᵥ t.T.mulVec dz
    match dR0Loop dist R Ro k param (pairs n) 0 with
    | .error e => .error e
    | .ok dR0 =>
      let dL0 := (choleskyWithDerivative Ro dR0).2
      let dL0inv := dinvL0 t.invT dL0
      let term2 := alpha ⬝ᵥ dL0inv.mulVec zStar
      .ok (term1 + term2)

/-- The sensitivities of one variable, `for param in dist_k.sensitivity_params` (sensitivity.py 253). -/
noncomputable def marginalVar (dist : Fin n → Dist) (R Ro : Matrix (Fin n) (Fin n) ℝ) (t : Mats n) (alpha u : Fin n → ℝ)
    (k : Fin n) : List String → Except PyErr (Dict String ℝ)
  | [] => .ok []
  | p :: ps =>
    match marginalOne dist R Ro t alpha u k p with
    | .error e => .error e
    | .ok v =>
      match marginalVar dist R Ro t alpha u k ps with
      | .error e => .error e
      | .ok r => .ok ((p, v) :: r)

/-- All variables, in order (sensitivity.py 250–275). -/
noncomputable def marginalAll (dist : Fin n → Dist) (R Ro : Matrix (Fin n) (Fin n) ℝ) (t : Mats n) (alpha u : Fin n → ℝ)
    (names : Fin n → String) : List (Fin n) → Except PyErr (Dict String (Dict String ℝ))
  | [] => .ok []
  | k :: ks =>
    match marginalVar dist R Ro t alpha u k (Dict.keys (dist k).sensitivityParams) with
    | .error e => .error e
    | .ok v =>
      match marginalAll dist R Ro t alpha u names ks with
      | .error e => .error e
      | .ok r => .ok ((names k, v) :: r)

open Classical in
/-- One correlation sensitivity (sensitivity.py 284–304). -/
noncomputable def corrOne (dist : Fin n → Dist) (Ro : Matrix (Fin n) (Fin n) ℝ) (t : Mats n) (alpha u : Fin n → ℝ)
    (g : Integration.Grid) (i j : Fin n) : ℝ :=
  let zStar := t.invT.mulVec u
  let drho := Integration.drhoDrho0 (Ro i j) (dist i).marg (dist j).marg g
  let drho0 := if |drho| > 1e-300 then 1 / drho else 0
  let dR0 := setSym 0 i j drho0
  let dL0 := (choleskyWithDerivative Ro dR0).2
  let dL0inv := dinvL0 t.invT dL0
  alpha ⬝ᵥ dL0inv.mulVec zStar

/-- The loop over the pairs (sensitivity.py 280–304). -/
noncomputable def corrLoop (dist : Fin n → Dist) (R Ro : Matrix (Fin n) (Fin n) ℝ) (t : Mats n) (alpha u : Fin n → ℝ) :
    List (Fin n × Fin n) → Matrix (Fin n) (Fin n) ℝ → Except PyErr (Matrix (Fin n) (Fin n) ℝ)
  | [], C => .ok C
  | (i, j) :: rest, C =>
    match grid dist R i j with
    | .error e => .error e
    | .ok g => corrLoop dist R Ro t alpha u rest (setSym C i j (corrOne dist Ro t alpha u g i j))

/-- The closed-form result. -/
structure CfResult (n : ℕ) where
  /-- `"marginal"` -/
  marginal : Dict String (Dict String ℝ)
  /-- `"correlation"` -/
  correlation : Matrix (Fin n) (Fin n) ℝ

/-- The post-processing of one FORM result (sensitivity.py 207–306): `alpha` and `u` are the FORM results, `t` its transformation. -/
noncomputable def cfSens (dist : Fin n → Dist) (names : Fin n → String) (R Ro : Matrix (Fin n) (Fin n) ℝ) (t : Mats n)
    (alpha u : Fin n → ℝ) : Except PyErr (CfResult n) :=
  match marginalAll dist R Ro t alpha u names (List.finRange n) with
  | .error e => .error e
  | .ok m =>
    match corrLoop dist R Ro t alpha u (pairs n) 0 with
    | .error e => .error e
    | .ok c => .ok ⟨m, c⟩

/-! ### Finite differences -/

/-- Every `StochasticModel` object alive, by identity; object `0` is the user's model.  An analysis may change any of them. -/
abbrev Heap := ℕ → StochModel Dist ℝ

/-- What `Form(model, limit_state).run(); getBeta()` does to the model object and returns (default options: `self.options` is not
passed on, sensitivity.py 160–162, 180–185). -/
abbrev FormOracle := StochModel Dist ℝ → StochModel Dist ℝ × Except PyErr ℝ

/-- `model1.variables[name] = new_dist; model1._marg[marg_idx] = new_dist` (sensitivity.py 174–176). -/
def replaceDist (m : StochModel Dist ℝ) (name : String) (d : DistObj Dist) : StochModel Dist ℝ :=
  let idx := (Dict.keys m.vars).idxOf name
  { m with vars := Dict.set m.vars name d, marg := m.marg.set idx d }

/-- The body of the inner loop (sensitivity.py 167–186): `deepcopy` creates object `fresh`; everything else happens to it. -/
noncomputable def fdOne (form : FormOracle) (beta0 : ℝ) (delta : ℝ) (name param : String) (val : ℝ) (fresh : ℕ) (H : Heap) :
    Heap × Except PyErr ℝ :=
  let H : Heap := Function.update H fresh (H 0)
  match (H fresh).getVariable name with
  | .error e => (H, .error e)
  | .ok dist1 =>
    let h := delta * dist1.body.marg.stdv
    match dist1.body.makeCopy [(param, val + h)] with
    | .error e => (H, .error e)
    | .ok newDist =>
      let H : Heap := Function.update H fresh (replaceDist (H fresh) name ⟨dist1.name, newDist⟩)
      let deltaActual := (Dict.get? newDist.sensitivityParams param).getD 0 - val
      match form (H fresh) with
      | (m, .error e) => (Function.update H fresh m, .error e)
      | (m, .ok beta1) => (Function.update H fresh m, .ok ((beta1 - beta0) / deltaActual))

/-- The loop over the parameters of one variable (sensitivity.py 166–186). -/
noncomputable def fdVar (form : FormOracle) (beta0 delta : ℝ) (name : String) : Dict String ℝ → ℕ → Heap →
    Heap × Except PyErr (Dict String ℝ × ℕ)
  | [], fresh, H => (H, .ok ([], fresh))
  | (p, val) :: ps, fresh, H =>
    match fdOne form beta0 delta name p val fresh H with
    | (H, .error e) => (H, .error e)
    | (H, .ok v) =>
      match fdVar form beta0 delta name ps (fresh + 1) H with
      | (H, .error e) => (H, .error e)
      | (H, .ok (r, fresh)) => (H, .ok ((p, v) :: r, fresh))

/-- The loop over the variables (sensitivity.py 164–188). -/
noncomputable def fdAll (form : FormOracle) (beta0 delta : ℝ) : Dict String (DistObj Dist) → ℕ → Heap →
    Heap × Except PyErr (Dict String (Dict String ℝ))
  | [], _, H => (H, .ok [])
  | (name, d) :: rest, fresh, H =>
    match fdVar form beta0 delta name d.body.sensitivityParams fresh H with
    | (H, .error e) => (H, .error e)
    | (H, .ok (v, fresh)) =>
      match fdAll form beta0 delta rest fresh H with
      | (H, .error e) => (H, .error e)
      | (H, .ok r) => (H, .ok ((name, v) :: r))

/-- `_numerical_sens(delta)` (sensitivity.py 141–188); the user's model is object `0` of the heap, the numbers below `fresh` are in
use.  `variables` is the user's dictionary itself, so it is read after the base run. -/
noncomputable def numericalSens (form : FormOracle) (delta : ℝ) (fresh : ℕ) (H : Heap) :
    Heap × Except PyErr (Dict String (Dict String ℝ)) :=
  match form (H 0) with
  | (m, .error e) => (Function.update H 0 m, .error e)
  | (m, .ok beta0) => fdAll form beta0 delta m.getVariables fresh (Function.update H 0 m)

/-- A model with sensitivity-aware distributions as FORM sees it. -/
def toMarg (m : StochModel Dist ℝ) : StochModel Marginal ℝ :=
  { vars := m.vars.map (fun p => (p.1, ⟨p.2.name, p.2.body.marg⟩)), names := m.names
    marg := m.marg.map (fun d => ⟨d.name, d.body.marg⟩), correlation := m.correlation, Ro := m.Ro
    callFunction := m.callFunction, consts := m.consts }

/-- The state in which a FORM run stops and its `beta`.  A NaN run returns NaN (reported as a `ValueError` here: a simplification),
a run that does not stop does not return. -/
noncomputable def formOutcome {n : ℕ} : Option (Form.Outcome (Ev Marginal) n) → Option (Ev Marginal) × Except PyErr ℝ
  | some (.done r s) => (some s, .ok r.beta)
  | some (.raised e s) => (some s, .error e)
  | some (.nan s) => (some s, .error .valueError)
  | some (.next _ _ _) => (none, .error .diverges)
  | none => (none, .error .diverges)

/-- `Form(stochastic_model=model, limit_state=limitstate).run(); getBeta()` on a model object (form.py 60–140): FORM changes the
object's counter and its stored `Ro` only (`Form.run` of the model). -/
noncomputable def formOracle (fmin : Correlation.Fmin) (default : Marginal) (la : LinAlg) (ty : TransformType)
    (expr : Kwargs → GRet) (lsopt : LSOptions) (opt : Form.Options) (fuel : ℕ) : FormOracle := fun m =>
  match formOutcome (Form.run fmin default la ty expr lsopt opt fuel ⟨toMarg m, []⟩) with
  | (some ev, r) => ({ m with callFunction := ev.model.callFunction, Ro := ev.model.Ro }, r)
  | (none, r) => (m, r)

end Sensitivity
end Pystra
