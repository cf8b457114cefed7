import Verif.Props.UnitsForm
import Verif.Props.SormShift
import Verif.Model.Session

/-! C90: the other analyses of a model written down in other units. -/

namespace Pystra.Props
open LimitState Spec Form Matrix Transformation

variable {n m : ℕ} {σ τ : Type} {U : Units} {names : Fin n → String} {D : Fin n → Set ℝ} {marg marg' : Fin n → Marginal}

theorem pull_values (h : MargInUnits U names D marg marg') (t : Mats n) (ev : Evaluator σ n) (s : σ) (us : List (Fin n → ℝ)) :
    ev.values s (us.map (uToX t marg')) = (Units.pull U names ev).values s (us.map (uToX t marg)) := by
  simp only [Units.pull, List.map_map]
  congr 2
  funext u
  exact uToX_units h t u

theorem pull_value (h : MargInUnits U names D marg marg') (t : Mats n) (ev : Evaluator σ n) (s : σ) (u : Fin n → ℝ) :
    ev.values s [uToX t marg' u] = (Units.pull U names ev).values s [uToX t marg u] := pull_values h t ev s [u]

section subset
open Subset

theorem evalBatch_units (h : MargInUnits U names D marg marg') (t : Mats n) (ev : Evaluator σ n) (block fuel : ℕ) :
    ∀ (us : List (Fin n → ℝ)) (s : σ), evalBatch t marg' ev block fuel us s = evalBatch t marg (Units.pull U names ev) block fuel us s := by
  induction fuel with
  | zero => intro us s; cases us <;> rfl
  | succ fuel ih =>
    intro us s
    cases us with
    | nil => rfl
    | cons u us =>
      unfold evalBatch
      simp only [pull_values h, ih]

theorem move_units (h : MargInUnits U names D marg marg') (t : Mats n) (ev : Evaluator σ n) :
    move t marg' ev = move t marg (Units.pull U names ev) := by
  funext sigma thr υ cur pos s
  unfold move
  simp only [pull_value h]

theorem chain_units (h : MargInUnits U names D marg marg') (t : Mats n) (ev : Evaluator σ n) (sigma thr : ℝ) (υ : ℕ → ℝ) (k : ℕ) :
    ∀ (cur : Sample n) (pos : ℕ) (s : σ),
      chain t marg' ev sigma thr υ k cur pos s = chain t marg (Units.pull U names ev) sigma thr υ k cur pos s := by
  induction k with
  | zero => intro cur pos s; rfl
  | succ k ih =>
    intro cur pos s
    unfold chain
    simp only [move_units h, ih]

theorem chains_units (h : MargInUnits U names D marg marg') (t : Mats n) (ev : Evaluator σ n) (sigma thr : ℝ) (υ : ℕ → ℝ)
    (base rem : ℕ) (seeds : List (Sample n)) : ∀ (i pos : ℕ) (s : σ),
      chains t marg' ev sigma thr υ base rem i seeds pos s = chains t marg (Units.pull U names ev) sigma thr υ base rem i seeds pos s := by
  induction seeds with
  | nil => intro i pos s; rfl
  | cons seed seeds ih =>
    intro i pos s
    unfold chains
    simp only [chain_units h, ih]

theorem levels_units (h : MargInUnits U names D marg marg') (t : Mats n) (ev : Evaluator σ n) (opt : Subset.Options) (υ : ℕ → ℝ)
    (fuel : ℕ) : ∀ (seeds : List (Sample n)) (y Pf : ℝ) (thr probs : List ℝ) (lev : ℕ) (recs : List (List (Sample n))) (pos : ℕ) (s : σ),
      levels t marg' ev opt υ fuel seeds y Pf thr probs lev recs pos s =
        levels t marg (Units.pull U names ev) opt υ fuel seeds y Pf thr probs lev recs pos s := by
  induction fuel with
  | zero => intros; rfl
  | succ fuel ih =>
    intros
    unfold levels mmhStep
    simp only [chains_units h, ih]

theorem subset_units (h : MargInUnits U names D marg marg') (t : Mats n) (ev : Evaluator σ n) (opt : Subset.Options) (ω υ : ℕ → ℝ)
    (fuel : ℕ) (s : σ) : Subset.run t marg' ev opt ω υ fuel s = Subset.run t marg (Units.pull U names ev) opt ω υ fuel s := by
  unfold Subset.run
  simp only [evalBatch_units h, levels_units h]

end subset

section line
open LineSampling

theorem evalAt_units (h : MargInUnits U names D marg marg') (t : Mats n) (ev : Evaluator σ n) :
    evalAt t marg' ev = evalAt t marg (Units.pull U names ev) := by
  funext v alpha s c
  unfold evalAt
  rw [pull_value h]

theorem scan_units (h : MargInUnits U names D marg marg') (t : Mats n) (ev : Evaluator σ n) (v alpha : Fin n → ℝ) (cs : List ℝ) :
    ∀ s, scan t marg' ev v alpha cs s = scan t marg (Units.pull U names ev) v alpha cs s := by
  induction cs with
  | nil => intro s; rfl
  | cons c cs ih =>
    intro s
    unfold scan
    simp only [evalAt_units h, ih]

theorem findLine_units (h : MargInUnits U names D marg marg') (t : Mats n) (ev : Evaluator σ n) :
    findLine t marg' ev = findLine t marg (Units.pull U names ev) := by
  funext v alpha c s
  unfold findLine
  simp only [evalAt_units h, scan_units h]

theorem lines_units (h : MargInUnits U names D marg marg') (t : Mats n) (ev : Evaluator σ n) (alpha : Fin n → ℝ) (c : ℝ)
    (vs : List (Fin n → ℝ)) : ∀ s, lines t marg' ev alpha c vs s = lines t marg (Units.pull U names ev) alpha c vs s := by
  induction vs with
  | nil => intro s; rfl
  | cons v vs ih =>
    intro s
    unfold lines
    simp only [findLine_units h, ih]

theorem sample_units (h : MargInUnits U names D marg marg') (t : Mats n) (ev : Evaluator σ n) (alpha : Fin n → ℝ) (b : ℝ) (N : ℕ)
    (ω : ℕ → ℝ) (pos : ℕ) (s : σ) :
    LineSampling.sample t marg' ev alpha b N ω pos s = LineSampling.sample t marg (Units.pull U names ev) alpha b N ω pos s := by
  unfold LineSampling.sample
  simp only [lines_units h]

end line

section sorm
open Sorm

/-- The evaluation leaves the caller's array among the values at which the two sets of marginals agree. -/
def Stays (D : Fin n → Set ℝ) (ev : Evaluator σ n) : Prop :=
  ∀ s x s' G g x0, (∀ i, x i ∈ D i) → ev.withGrad s x = (s', .ok (G, g, x0)) → ∀ i, x0 i ∈ D i

theorem evaluateLSF_units (h : MargInUnits U names D marg marg') (t : Mats n) (ev : Evaluator σ n)
    (hst : Stays D (Units.pull U names ev)) (u : Fin n → ℝ) (s : σ) :
    evaluateLSF t marg' ev (uToX t marg' u) s = evaluateLSF t marg (Units.pull U names ev) (uToX t marg u) s := by
  have hp : (Units.pull U names ev).withGrad s (uToX t marg u) = ((ev.withGrad s (uToX t marg' u)).1,
      (ev.withGrad s (uToX t marg' u)).2.map fun o =>
        (o.1, Units.grad U names o.2.1, fun i => (o.2.2 i - U.off (names i)) / U.fac (names i))) := by
    simp only [Units.pull, uToX_units h t u]
  unfold evaluateLSF
  rcases ho : ev.withGrad s (uToX t marg' u) with ⟨s', e | ⟨G, g, x0⟩⟩
  · rw [hp, ho]; rfl
  · rw [ho] at hp
    have hp' : (Units.pull U names ev).withGrad s (uToX t marg u) =
        (s', .ok (G, Units.grad U names g, fun i => (x0 i - U.off (names i)) / U.fac (names i))) := hp
    have hx := hst _ _ _ _ _ _ (fun i => (h i).2.support _) hp'
    rw [hp']
    dsimp only
    obtain ⟨y, hy⟩ : ∃ y, y = fun i => (x0 i - U.off (names i)) / U.fac (names i) := ⟨_, rfl⟩
    replace hx : ∀ i, y i ∈ D i := by rw [hy]; exact hx
    rw [← hy]
    have hxy : x0 = U.point names y := by
      funext i
      have := (h i).1
      simp only [Units.point, Units.conv, hy]
      field_simp
      ring
    rw [hxy, xToU_units h t y hx, jacobian_units h t _ y hx, npInv_units (fun i => (h i).1)]
    cases npInv (jacobian t marg (xToU t marg y) y) with
    | error e => rfl
    | ok J =>
      show (s', Except.ok _) = (s', Except.ok _)
      congr 3
      funext j
      simp only [vecMul, dotProduct, Units.grad]
      exact Finset.sum_congr rfl fun i _ => by ring

theorem hessianColumns_units (h : MargInUnits U names D marg marg') (t : Mats n) (ev : Evaluator σ n)
    (hst : Stays D (Units.pull U names ev)) (u0 grad0 : Fin n → ℝ) (st : ℝ) (is : List (Fin n)) :
    ∀ s, hessianColumns t marg' ev u0 grad0 st is s = hessianColumns t marg (Units.pull U names ev) u0 grad0 st is s := by
  induction is with
  | nil => intro s; rfl
  | cons i is ih =>
    intro s
    unfold hessianColumns
    simp only [evaluateLSF_units h t ev hst, ih]

theorem hessian_units (h : MargInUnits U names D marg marg') (t : Mats n) (ev : Evaluator σ n)
    (hst : Stays D (Units.pull U names ev)) (u0 : Fin n → ℝ) (para : ℝ) (s : σ) :
    computeHessianAt t marg' ev (uToX t marg' u0) u0 para s =
      computeHessianAt t marg (Units.pull U names ev) (uToX t marg u0) u0 para s := by
  unfold computeHessianAt
  simp only [evaluateLSF_units h t ev hst, hessianColumns_units h t ev hst]

variable {names' : Fin (m + 1) → String} {D' : Fin (m + 1) → Set ℝ} {mg mg' : Fin (m + 1) → Marginal}

theorem newton_units (h : MargInUnits U names' D' mg mg') (t : Mats (m + 1)) (ev : Evaluator σ (m + 1))
    (hst : Stays D' (Units.pull U names' ev)) (R : Matrix (Fin (m + 1)) (Fin (m + 1)) ℝ) (axis : Fin m) (c : ℝ) (iter : ℕ) :
    ∀ v s, newton t mg' ev R axis c iter v s = newton t mg (Units.pull U names' ev) R axis c iter v s := by
  induction iter with
  | zero => intro v s; rfl
  | succ iter ih =>
    intro v s
    unfold newton
    simp only [evaluateLSF_units h t ev hst, ih]

theorem fitAxes_units (h : MargInUnits U names' D' mg mg') (t : Mats (m + 1)) (ev : Evaluator σ (m + 1))
    (hst : Stays D' (Units.pull U names' ev)) (R : Matrix (Fin (m + 1)) (Fin (m + 1)) ℝ) (beta k : ℝ) (is : List (Fin m)) :
    ∀ s, fitAxes t mg' ev R beta k is s = fitAxes t mg (Units.pull U names' ev) R beta k is s := by
  induction is with
  | nil => intro s; rfl
  | cons i is ih =>
    intro s
    unfold fitAxes findFittingPoint
    simp only [newton_units h t ev hst, ih]

theorem sorm_units (h : MargInUnits U names' D' mg mg') (t : Mats (m + 1)) (ev : Evaluator σ (m + 1))
    (hst : Stays D' (Units.pull U names' ev)) (eig : Matrix (Fin m) (Fin m) ℝ → List ℝ) (form form' : Form.Result (m + 1))
    (hf : form' = U.result names' form) (para : ℝ) (print : Bool) (fitType : String) (s : σ) :
    Sorm.run eig t mg' ev form' para print fitType s = Sorm.run eig t mg (Units.pull U names' ev) form para print fitType s := by
  subst hf
  unfold Sorm.run runCurvefit runPointfit fitCurvatures fitPoints designPoint Units.result
  simp only [Bool.false_eq_true, if_false, if_true, hessian_units h t ev hst, fitAxes_units h t ev hst]

/-- In finite-difference mode the limit state leaves the array shifted by `stdv / ffdpara`. -/
theorem stays_ls {expr : Kwargs → GRet} (opt : LSOptions) (stdv : Fin n → ℝ)
    (hD : opt.diffMode ≠ "no" → opt.diffMode ≠ "ddm" → ∀ i, ∀ x ∈ D i, x + stdv i / opt.ffdpara ∈ D i) (hU : ∀ i, U.fac (names i) ≠ 0) :
    Stays D (Units.pull U names (lsEvaluator (D := Marginal) expr opt (Units.grad U names stdv))) := by
  intro s x s' G g x0 hx h
  simp only [Units.pull, lsEvaluator] at h
  rcases ho : evaluateLsf (7 + n) expr opt (Units.grad U names stdv) none [U.point names x] s with _ | ⟨s1, e | out⟩
  · rw [ho] at h; cases h
  · rw [ho] at h; cases h
  · rw [ho] at h
    have h1 : (fun i => (out.xAfter.getD 0 0 i - U.off (names i)) / U.fac (names i)) = x0 := by
      simp only [Except.map, Prod.mk.injEq, Except.ok.injEq] at h
      exact h.2.2.2
    have hback : ∀ y : Fin n → ℝ, out.xAfter = [U.point names y] → x0 = y := by
      intro y hy
      rw [← h1, hy]
      funext i
      have := hU i
      simp only [List.getD_cons_zero, Units.point, Units.conv]
      field_simp
      ring
    unfold evaluateLsf at ho
    dsimp only at ho
    by_cases hm : opt.multiProc = 0
    · rw [if_pos hm] at ho; cases ho
    rw [if_neg hm] at ho
    by_cases h2 : opt.diffMode = "no"
    · rw [if_pos h2] at ho
      rw [hback x ((C07_caller_array _ expr opt (Units.grad U names stdv) _ _ _ _).1 ho)]
      exact hx
    rw [if_neg h2] at ho
    by_cases h3 : opt.diffMode = "ddm"
    · rw [if_pos h3] at ho
      rw [hback x ((C07_caller_array 0 expr opt (Units.grad U names stdv) _ _ _ _).2.1 (Option.some.inj ho))]
      exact hx
    rw [if_neg h3] at ho
    have ha := (C07_caller_array _ expr opt (Units.grad U names stdv) _ _ _ _).2.2 ho
    rw [hback (fun i => x i + stdv i / opt.ffdpara) (by
      rw [ha]
      simp only [List.map_cons, List.map_nil, List.cons.injEq, and_true]
      funext i
      simp only [Units.point, Units.conv, Units.grad]
      ring)]
    exact fun i => hD h2 h3 i _ (hx i)

end sorm

end Pystra.Props
