import Verif.Model.Form
import Mathlib.Analysis.SpecialFunctions.Pow.Real
import Mathlib.Data.List.Sort

/-!
Model of src/pystra/sorm.py: `Sorm`.  The number of random variables is `m + 1`; the index `Fin.last m` is numpy's `-1`.
`np.linalg.eig` is an oracle returning the (real) eigenvalues; complex eigenvalues are not modelled (they do
occur: `C108_complex`; the code then continues with complex curvatures unless their imaginary parts are below about `2e-9`).
-/

namespace Pystra.Sorm
open Transformation Form Matrix

variable {σ : Type} {n m : ℕ}

/-! ### Breitung's formulas -/

/-- What `pf2_breitung` and `betag_breitung` are set to. -/
structure Breitung where
  /-- `pf2_breitung` -/
  pf : Fl
  /-- `betag_breitung` -/
  betag : Fl
  /-- whether they are arrays (as opposed to the integer `0` of an invalid curve fit) -/
  isArray : Bool

open Classical in
/-- `np.prod(t ** (-0.5))`: a negative entry gives NaN, a zero entry infinity. -/
noncomputable def prodPow (ts : List ℝ) : Fl :=
  if ∃ t ∈ ts, t < 0 then .nan
  else if ∃ t ∈ ts, t = 0 then .posInf
  else .fin (ts.map (fun t => t ^ (-0.5 : ℝ))).prod

/-- `c * v` for a positive number `c`. -/
noncomputable def scale (c : ℝ) : Fl → Fl
  | .fin x => .fin (c * x)
  | v => v

open Classical in
/-- `-normal.ppf(p)`: NaN outside `[0, 1]`, infinite at the ends. -/
noncomputable def negPpf : Fl → Fl
  | .fin p => if 0 < p ∧ p < 1 then .fin (-StdNormal.ppf p) else if p = 0 then .posInf else if p = 1 then .negInf else .nan
  | _ => .nan

open Classical in
/-- `pf_breitung` (sorm.py 346–361).  For `beta = 0` the bound `-1/beta` is `-inf`. -/
noncomputable def pfBreitung (beta : ℝ) (kappa : List ℝ) : Breitung :=
  if beta ≠ 0 ∧ ∃ k ∈ kappa, k < -1 / beta then ⟨.fin 0, .fin 0, false⟩
  else
    let pf := scale (StdNormal.cdf (-beta)) (prodPow (kappa.map (fun k => 1 + beta * k)))
    ⟨pf, negPpf pf, true⟩

/-- The factor of Hohenbichler and Rackwitz (sorm.py 330, 370). -/
noncomputable def psi (beta : ℝ) : ℝ := StdNormal.pdf beta / StdNormal.cdf (-beta)

open Classical in
/-- `pf_breitung_m` (sorm.py 363–378). -/
noncomputable def pfBreitungM (beta : ℝ) (kappa : List ℝ) : Breitung :=
  if ∃ k ∈ kappa, k < -1 / psi beta then ⟨.fin 0, .fin 0, false⟩
  else
    let pf := scale (StdNormal.cdf (-beta)) (prodPow (kappa.map (fun k => 1 + psi beta * k)))
    ⟨pf, negPpf pf, true⟩

open Classical in
/-- The common body of `_pf_breitung_pf` and `_pf_breitung_m_pf` (sorm.py 291–344), with the factor `b`. -/
noncomputable def pfAsym (b beta : ℝ) (kminus kplus : List ℝ) : Breitung :=
  if (∃ k ∈ kplus, 1 + b * k ≤ 0) ∨ (∃ k ∈ kminus, 1 + b * k ≤ 0) then ⟨.fin 0, .fin 0, true⟩
  else
    let pf : Fl := .fin (StdNormal.cdf (-beta) *
      (List.zipWith (fun kp km => 0.5 * ((1 + b * kp) ^ (-0.5 : ℝ) + (1 + b * km) ^ (-0.5 : ℝ))) kplus kminus).prod)
    ⟨pf, negPpf pf, true⟩

/-- `_pf_breitung_pf` (sorm.py 291–316). -/
noncomputable def pfBreitungPf (beta : ℝ) (kminus kplus : List ℝ) : Breitung := pfAsym beta beta kminus kplus

/-- `_pf_breitung_m_pf` (sorm.py 318–344). -/
noncomputable def pfBreitungMPf (beta : ℝ) (kminus kplus : List ℝ) : Breitung := pfAsym (psi beta) beta kminus kplus

/-! ### The rotation -/

/-- The inner loop of `gram_schmidt` (sorm.py 615–618). -/
noncomputable def reduce (Q : List (Fin n → ℝ)) (q : Fin n → ℝ) : Fin n → ℝ :=
  Q.foldl (fun q qi => q - (q ⬝ᵥ qi) • qi) q

open Classical in
/-- `gram_schmidt` (sorm.py 601–624) on a list of columns; `np.isclose(rjj, 0.0)` is `|rjj| ≤ 1e-8`. -/
noncomputable def gramSchmidt : List (Fin n → ℝ) → List (Fin n → ℝ) → Except PyErr (List (Fin n → ℝ))
  | Q, [] => .ok Q
  | Q, a :: rest =>
    let q := reduce Q a
    if |norm2 q| ≤ 1e-8 then .error .valueError
    else gramSchmidt (Q ++ [(norm2 q)⁻¹ • q]) rest

/-- `np.rot90(A, k=3)`. -/
def rot90k3 (A : Matrix (Fin n) (Fin n) ℝ) : Matrix (Fin n) (Fin n) ℝ := fun i j => A j.rev i

/-- `np.rot90(A)`. -/
def rot90 (A : Matrix (Fin n) (Fin n) ℝ) : Matrix (Fin n) (Fin n) ℝ := fun i j => A j i.rev

/-- `np.eye(nrv)` with the last row replaced by `alpha` (sorm.py 589–590). -/
def assemble (alpha : Fin (m + 1) → ℝ) : Matrix (Fin (m + 1)) (Fin (m + 1)) ℝ :=
  (1 : Matrix (Fin (m + 1)) (Fin (m + 1)) ℝ).updateRow (Fin.last m) alpha

/-- `orthonormal_matrix` (sorm.py 580–599).  For one variable `alpha.squeeze()` has no length. -/
noncomputable def orthonormalMatrix (alpha : Fin (m + 1) → ℝ) : Except PyErr (Matrix (Fin (m + 1)) (Fin (m + 1)) ℝ) :=
  if m = 0 then .error .typeError
  else
    let A := rot90k3 (assemble alpha)
    match gramSchmidt [] ((List.finRange (m + 1)).map (fun j => fun i => A i j)) with
    | .error e => .error e
    | .ok cols => .ok (rot90 (fun i j => cols.getD j.val 0 i))

/-! ### The Hessian -/

/-- `evaluateLSF(x, calc_gradient=True)` (sorm.py 553–578): the Jacobian is taken at the array `x0` as the limit state left
it. -/
noncomputable def evaluateLSF (t : Mats n) (marg : Fin n → Marginal) (ev : Evaluator σ n) (x : Fin n → ℝ) (s : σ) :
    σ × Except PyErr (ℝ × (Fin n → ℝ)) :=
  match ev.withGrad s x with
  | (s, .error e) => (s, .error e)
  | (s, .ok (G, grad, x0)) =>
    match npInv (jacobian t marg (xToU t marg x0) x0) with
    | .error e => (s, .error e)
    | .ok J => (s, .ok (G, vecMul grad J))

/-- The loop over the variables in `computeHessian` (sorm.py 487–492): the list of the columns. -/
noncomputable def hessianColumns (t : Mats n) (marg : Fin n → Marginal) (ev : Evaluator σ n) (u0 grad0 : Fin n → ℝ) (h : ℝ) :
    List (Fin n) → σ → σ × Except PyErr (List (Fin n → ℝ))
  | [], s => (s, .ok [])
  | i :: is, s =>
    match evaluateLSF t marg ev (uToX t marg (Function.update u0 i (u0 i + h))) s with
    | (s, .error e) => (s, .error e)
    | (s, .ok (_, grad1)) =>
      match hessianColumns t marg ev u0 grad0 h is s with
      | (s, .error e) => (s, .error e)
      | (s, .ok cols) => (s, .ok ((fun k => (grad1 k - grad0 k) / h) :: cols))

open Classical in
/-- `computeHessian()` (sorm.py 468–492) with the default `diff_type=None`; `x0` and `u0` are the design point of the FORM
object in physical and in standard space. -/
noncomputable def computeHessianAt (t : Mats n) (marg : Fin n → Marginal) (ev : Evaluator σ n) (x0 u0 : Fin n → ℝ) (ffdpara : ℝ)
    (s : σ) : σ × Except PyErr (Matrix (Fin n) (Fin n) ℝ) :=
  if ffdpara = 0 then (s, .error .zeroDivision)
  else
    let h := 1 / ffdpara
    match evaluateLSF t marg ev x0 s with
    | (s, .error e) => (s, .error e)
    | (s, .ok (_, grad0)) =>
      match hessianColumns t marg ev u0 grad0 h (List.finRange n) s with
      | (s, .error e) => (s, .error e)
      | (s, .ok cols) => (s, .ok (fun i j => cols.getD j.val 0 i))

/-- `computeHessian()` (sorm.py 468–492) for the FORM result of the model as it is, whose transformation is that of the SORM
object. -/
noncomputable def computeHessian (t : Mats n) (marg : Fin n → Marginal) (ev : Evaluator σ n) (form : Result n) (ffdpara : ℝ)
    (s : σ) : σ × Except PyErr (Matrix (Fin n) (Fin n) ℝ) :=
  computeHessianAt t marg ev (designPoint t marg form false) (designPoint t marg form true) ffdpara s

/-- The index `int((i - 1) * (i) / 2) + j` of the pair `j < i` (sorm.py 526, 544). -/
def pairIndex (i j : ℕ) : ℕ := (i - 1) * i / 2 + j

/-- The array `all_x_both` after the loops (sorm.py 503, 506–526). -/
noncomputable def bothPoints (t : Mats n) (marg : Fin n → Marginal) (u0 : Fin n → ℝ) (h : ℝ) : ℕ → Fin n → ℝ :=
  (List.finRange n).foldl (fun arr i =>
    let uPlus := Function.update u0 i (u0 i + h)
    ((List.finRange n).filter (fun j => j < i)).foldl (fun arr (j : Fin n) =>
      Function.update arr (pairIndex i.val j.val) (uToX t marg (Function.update uPlus j (uPlus j + h)))) arr) (fun _ => 0)

open Classical in
/-- `computeHessian(diff_type)` for any other `diff_type` (sorm.py 494–551).  `many` is the evaluation of the limit state at
several points *in the differentiation mode of the options* (`evaluateLSF(all_x, calc_gradient=False)`, sorm.py 530, 576);
`G` is `form.G`. -/
noncomputable def computeHessianMixed (t : Mats n) (marg : Fin n → Marginal)
    (many : σ → List (Fin n → ℝ) → σ × Except PyErr (List ℝ)) (form : Result n) (ffdpara : ℝ) (s : σ) :
    σ × Except PyErr (Matrix (Fin n) (Fin n) ℝ) :=
  if ffdpara = 0 then (s, .error .zeroDivision)
  else
    let h := 1 / ffdpara
    let u0 := designPoint t marg form true
    let plus := (List.finRange n).map (fun i => uToX t marg (Function.update u0 i (u0 i + h)))
    let minus := (List.finRange n).map (fun i => uToX t marg (Function.update u0 i (u0 i - h)))
    let both := (List.range (n * (n - 1) / 2)).map (bothPoints t marg u0 h)
    match many s (plus ++ minus ++ both) with
    | (s, .error e) => (s, .error e)
    | (s, .ok all) =>
      let G := form.point.G
      let gPlus : ℕ → ℝ := fun i => all.getD i 0
      let gMinus : ℕ → ℝ := fun i => all.getD (n + i) 0
      let gBoth : ℕ → ℝ := fun k => all.getD (2 * n + k) 0
      (s, .ok (fun i j =>
        if i = j then (gPlus i - 2 * G + gMinus i) / h ^ 2
        else (gBoth (pairIndex (max i.val j.val) (min i.val j.val)) - gPlus (min i.val j.val) - gPlus (max i.val j.val) + G) / h ^ 2))

/-- `evaluateLSF(all_x, calc_gradient=False)` of the code: `evaluate_lsf` without an override of the mode. -/
noncomputable def lsMany {D : Type} (expr : Kwargs → GRet) (opt : LSOptions) (stdv : Fin n → ℝ) :
    Ev D → List (Fin n → ℝ) → Ev D × Except PyErr (List ℝ) := fun ev xs =>
  match LimitState.evaluateLsf (7 + n + xs.length) expr opt stdv none xs ev with
  | none => (ev, .error .diverges)
  | some (ev, .error e) => (ev, .error e)
  | some (ev, .ok out) => (ev, .ok out.G)

/-! ### Point fitting -/

open Classical in
/-- The step coefficient `k` (sorm.py 178–184), for `beta ≠ 0`. -/
noncomputable def stepCoeff (beta : ℝ) : ℝ :=
  if |beta| < 1 then 1 / |beta| else if |beta| ≤ 3 then 1 else 3 / |beta|

/-- The trial point in the rotated space (sorm.py 245–247): `c` on the axis, `v` on the last axis. -/
def trialPoint (axis : Fin m) (c v : ℝ) : Fin (m + 1) → ℝ :=
  Function.update (Function.update 0 axis.castSucc c) (Fin.last m) v

open Classical in
/-- The Newton iteration (sorm.py 249–280), `iter` passes at most; `v` is `u_prime[-1]`. -/
noncomputable def newton (t : Mats (m + 1)) (marg : Fin (m + 1) → Marginal) (ev : Evaluator σ (m + 1))
    (R : Matrix (Fin (m + 1)) (Fin (m + 1)) ℝ) (axis : Fin m) (c : ℝ) : ℕ → ℝ → σ → σ × Except PyErr ℝ
  | 0, _, s => (s, .error .runtimeError)
  | iter + 1, v, s =>
    match evaluateLSF t marg ev (uToX t marg (Rᵀ.mulVec (trialPoint axis c v))) s with
    | (s, .error e) => (s, .error e)
    | (s, .ok (G, gradU)) =>
      if |G| < 1e-6 then (s, .ok v)
      else if |R.mulVec gradU (Fin.last m)| < 1e-12 then (s, .error .runtimeError)
      else newton t marg ev R axis c iter (v - G / R.mulVec gradU (Fin.last m)) s

open Classical in
/-- `_find_fitting_point` (sorm.py 205–289). -/
noncomputable def findFittingPoint (t : Mats (m + 1)) (marg : Fin (m + 1) → Marginal) (ev : Evaluator σ (m + 1))
    (R : Matrix (Fin (m + 1)) (Fin (m + 1)) ℝ) (axis : Fin m) (sign beta k : ℝ) (s : σ) : σ × Except PyErr ℝ :=
  match newton t marg ev R axis (sign * k * beta) 50 beta s with
  | (s, .error e) => (s, .error e)
  | (s, .ok v) =>
    if |sign * k * beta| < 1e-12 then (s, .ok 0)
    else (s, .ok (2 * (v - beta) / (sign * k * beta) ^ 2))

/-- The loop over the axes (sorm.py 189–191): the pairs `(kappa_minus[i], kappa_plus[i])`. -/
noncomputable def fitAxes (t : Mats (m + 1)) (marg : Fin (m + 1) → Marginal) (ev : Evaluator σ (m + 1))
    (R : Matrix (Fin (m + 1)) (Fin (m + 1)) ℝ) (beta k : ℝ) : List (Fin m) → σ → σ × Except PyErr (List (ℝ × ℝ))
  | [], s => (s, .ok [])
  | i :: is, s =>
    match findFittingPoint t marg ev R i (-1) beta k s with
    | (s, .error e) => (s, .error e)
    | (s, .ok km) =>
      match findFittingPoint t marg ev R i 1 beta k s with
      | (s, .error e) => (s, .error e)
      | (s, .ok kp) =>
        match fitAxes t marg ev R beta k is s with
        | (s, .error e) => (s, .error e)
        | (s, .ok l) => (s, .ok ((km, kp) :: l))

/-! ### Running -/

/-- The results of a run. -/
structure SResult where
  /-- `self.betaHL` -/
  betaHL : ℝ
  /-- `self.kappa` -/
  kappa : List ℝ
  /-- `self.kappa_pf`: the two rows -/
  kappaPf : Option (List ℝ × List ℝ)
  /-- `pf2_breitung`, `betag_breitung` -/
  breitung : Breitung
  /-- `pf2_breitung_m`, `betag_breitung_m` -/
  breitungM : Breitung

open Classical in
/-- `np.sort`. -/
noncomputable def sort (l : List ℝ) : List ℝ := l.insertionSort (· ≤ ·)

/-- `showResults` (sorm.py 380–404): it indexes the Breitung results, which fails on the integer `0`. -/
def showResults (r : SResult) : Except PyErr Unit := if r.breitung.isArray then .ok () else .error .typeError

/-- The end of a run: with `print_output` the results are printed. -/
def finish (print : Bool) (r : SResult) : Except PyErr SResult :=
  if print then (match showResults r with | .error e => .error e | .ok () => .ok r) else .ok r

/-- The curvatures of the curve fit (sorm.py 134–137, 140), for a nonzero FORM gradient: the Hessian at the FORM object's design
point `x0`, `u0`, rotated and scaled. -/
noncomputable def fitCurvatures (eig : Matrix (Fin m) (Fin m) ℝ → List ℝ) (t : Mats (m + 1)) (marg : Fin (m + 1) → Marginal)
    (ev : Evaluator σ (m + 1)) (x0 u0 alpha gradient : Fin (m + 1) → ℝ) (ffdpara : ℝ) (s : σ) : σ × Except PyErr (List ℝ) :=
  match computeHessianAt t marg ev x0 u0 ffdpara s with
  | (s, .error e) => (s, .error e)
  | (s, .ok hess) =>
    match orthonormalMatrix alpha with
    | .error e => (s, .error e)
    | .ok R =>
      let A := (norm2 gradient)⁻¹ • (R * hess * Rᵀ)
      (s, .ok (sort (eig (A.submatrix Fin.castSucc Fin.castSucc))))

/-- `run_curvefit` (sorm.py 130–144), for a nonzero FORM gradient. -/
noncomputable def runCurvefit (eig : Matrix (Fin m) (Fin m) ℝ → List ℝ) (t : Mats (m + 1)) (marg : Fin (m + 1) → Marginal)
    (ev : Evaluator σ (m + 1)) (form : Result (m + 1)) (ffdpara : ℝ) (print : Bool) (s : σ) : σ × Except PyErr SResult :=
  match fitCurvatures eig t marg ev (designPoint t marg form false) (designPoint t marg form true) form.alpha form.point.gradient
      ffdpara s with
  | (s, .error e) => (s, .error e)
  | (s, .ok kappa) =>
    (s, finish print { betaHL := form.beta, kappa := kappa, kappaPf := none, breitung := pfBreitung form.beta kappa
                       breitungM := pfBreitungM form.beta kappa })

open Classical in
/-- The pairs of curvatures of the point fit (sorm.py 172–191).  For `beta = 0` the step coefficient is infinite and the trial
points are NaN; no iterate passes the convergence test and the iteration ends with `RuntimeError` (a limit state raising on
NaN is not modelled). -/
noncomputable def fitPoints (t : Mats (m + 1)) (marg : Fin (m + 1) → Marginal) (ev : Evaluator σ (m + 1))
    (alpha : Fin (m + 1) → ℝ) (beta : ℝ) (s : σ) : σ × Except PyErr (List (ℝ × ℝ)) :=
  match orthonormalMatrix alpha with
  | .error e => (s, .error e)
  | .ok R =>
    if beta = 0 then (s, .error .runtimeError)
    else fitAxes t marg ev R beta (stepCoeff beta) (List.finRange m) s

/-- `run_pointfit` (sorm.py 146–203). -/
noncomputable def runPointfit (t : Mats (m + 1)) (marg : Fin (m + 1) → Marginal)
    (ev : Evaluator σ (m + 1)) (form : Result (m + 1)) (print : Bool) (s : σ) : σ × Except PyErr SResult :=
  match fitPoints t marg ev form.alpha form.beta s with
  | (s, .error e) => (s, .error e)
  | (s, .ok l) =>
    let km := l.map Prod.fst
    let kp := l.map Prod.snd
    (s, finish print { betaHL := form.beta, kappa := sort (l.map (fun p => 0.5 * (p.1 + p.2))), kappaPf := some (km, kp)
                       breitung := pfBreitungPf form.beta km kp, breitungM := pfBreitungMPf form.beta km kp })

/-- `run(fit_type)` (sorm.py 99–128) after `init_run`. -/
noncomputable def run (eig : Matrix (Fin m) (Fin m) ℝ → List ℝ) (t : Mats (m + 1)) (marg : Fin (m + 1) → Marginal)
    (ev : Evaluator σ (m + 1)) (form : Result (m + 1)) (ffdpara : ℝ) (print : Bool) (fitType : String) (s : σ) :
    σ × Except PyErr SResult :=
  if fitType = "cf" then runCurvefit eig t marg ev form ffdpara print s
  else if fitType = "pf" then runPointfit t marg ev form print s
  else (s, .error .valueError)

end Pystra.Sorm
