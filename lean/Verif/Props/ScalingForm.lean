import Verif.Spec.Scaling
import Verif.Props.Form

/-! C89: FORM and the unit of the limit-state function. -/

namespace Pystra.Props
open Matrix Spec Transformation Form LimitState

variable {D σ : Type} {n : ℕ} {c : ℝ}

/-- `f` applied to a result. -/
def mapOk {α β : Type} (f : α → β) : Except PyErr α → Except PyErr β
  | .ok a => .ok (f a)
  | .error e => .error e

theorem unpack_scaled (ddm : Bool) (r : GRet) :
    unpackRet ddm (scaleRet c r) = mapOk (fun p => (scaleVal c p.1, p.2.map (scaleVal c))) (unpackRet ddm r) := by
  cases ddm with
  | false =>
    cases r with
    | val g => rfl
    | tuple l => cases l <;> rfl
  | true =>
    cases r with
    | val g =>
      cases g with
      | scalar v => rfl
      | arr l =>
        rcases l with _ | ⟨a, _ | ⟨b, _ | ⟨d, l⟩⟩⟩ <;> rfl
    | tuple l => rcases l with _ | ⟨a, _ | ⟨b, _ | ⟨d, l⟩⟩⟩ <;> rfl

theorem computeLsf_scaled (expr : Kwargs → GRet) (x : List (Fin n → ℝ)) (ddm : Bool) (ev : Ev D) :
    computeLsf (fun kw => scaleRet c (expr kw)) x ddm ev =
      ((computeLsf expr x ddm ev).1, mapOk (fun p => (scaleVal c p.1, p.2.map (scaleVal c))) (computeLsf expr x ddm ev).2) := by
  unfold computeLsf
  cases inpdict ev.model x with
  | error e => rfl
  | ok kw => simp only [unpack_scaled]

theorem broadcast_scaled (nc : ℕ) (g : GVal) : broadcastTo nc (scaleVal c g) = mapOk (List.map (c * ·)) (broadcastTo nc g) := by
  cases g with
  | scalar v => simp [scaleVal, broadcastTo, mapOk]
  | arr l =>
    rcases l with _ | ⟨a, _ | ⟨b, l⟩⟩
    · simp only [scaleVal, broadcastTo, List.map_nil]; split <;> rfl
    · simp [scaleVal, broadcastTo, mapOk]
    · simp only [scaleVal, broadcastTo, List.map_cons, List.length_cons, List.length_map]
      split <;> rfl

theorem squeeze_scaled (nc : ℕ) (g : GVal) : squeezeTo nc (scaleVal c g) = mapOk (List.map (c * ·)) (squeezeTo nc g) := by
  cases g with
  | scalar v => rfl
  | arr l =>
    have := broadcast_scaled (c := c) nc (.arr l)
    simpa [squeezeTo, scaleVal] using this

/-- A triple's last component mapped. -/
def mapRun {α β S : Type} (f : α → β) : Option (S × Except PyErr α) → Option (S × Except PyErr β) :=
  Option.map (fun p => (p.1, mapOk f p.2))

theorem blockLoop_scaled {assign : ℕ → GVal → Except PyErr (List ℝ)}
    (ha : ∀ nc g, assign nc (scaleVal c g) = mapOk (List.map (c * ·)) (assign nc g)) (expr : Kwargs → GRet) (x : List (Fin n → ℝ)) (fuel : ℕ) :
    ∀ (bs k : ℕ) (acc : List ℝ) (ev : Ev D),
      blockLoop assign (fun kw => scaleRet c (expr kw)) x fuel bs k (acc.map (c * ·)) ev =
        mapRun (List.map (c * ·)) (blockLoop assign expr x fuel bs k acc ev) := by
  induction fuel with
  | zero =>
    intro bs k acc ev
    unfold blockLoop
    split <;> rfl
  | succ fuel ih =>
    intro bs k acc ev
    unfold blockLoop
    split
    · dsimp only
      rw [computeLsf_scaled]
      rcases computeLsf expr (List.take (min bs (x.length - k)) (List.drop k x)) false ev with ⟨ev1, e | ⟨g, dg⟩⟩
      · rfl
      · simp only [mapOk, ha]
        rcases assign (min bs (x.length - k)) g with e | vals
        · rfl
        · simp only [mapOk]
          rw [← List.map_append]
          exact ih _ _ _ _
    · rfl

/-- The values and gradients of an evaluation, times `c`. -/
def scaleOut (c : ℝ) (o : EvalOut n) : EvalOut n := ⟨o.G.map (c * ·), o.grad.map (fun g i => c * g i), o.xAfter⟩

theorem evaluateNogradient_scaled (fuel : ℕ) (expr : Kwargs → GRet) (opt : LSOptions) (x : List (Fin n → ℝ)) (ev : Ev D) :
    evaluateNogradient fuel (fun kw => scaleRet c (expr kw)) opt x ev = mapRun (scaleOut c) (evaluateNogradient fuel expr opt x ev) := by
  unfold evaluateNogradient
  have := blockLoop_scaled (c := c) broadcast_scaled expr x fuel opt.blockSize 0 [] ev
  rw [List.map_nil] at this
  rw [this]
  rcases blockLoop broadcastTo expr x fuel opt.blockSize 0 [] ev with _ | ⟨ev1, e | G⟩
  · rfl
  · rfl
  · simp [mapRun, mapOk, scaleOut]

theorem getD_scaled (l : List ℝ) (i : ℕ) : (l.map (c * ·)).getD i 0 = c * l.getD i 0 := by
  rw [List.getD_eq_getElem?_getD, List.getD_eq_getElem?_getD, List.getElem?_map]
  rcases l[i]? with _ | v <;> simp

theorem evaluateFfd_scaled (fuel : ℕ) (expr : Kwargs → GRet) (opt : LSOptions) (stdv : Fin n → ℝ) (x : List (Fin n → ℝ)) (ev : Ev D) :
    evaluateFfd fuel (fun kw => scaleRet c (expr kw)) opt stdv x ev = mapRun (scaleOut c) (evaluateFfd fuel expr opt stdv x ev) := by
  rcases x with _ | ⟨x0, _ | ⟨x1, x⟩⟩
  · rfl
  · unfold evaluateFfd
    dsimp only
    have := blockLoop_scaled (c := c) squeeze_scaled expr
      (ffdPerturb (fun j => stdv j / opt.ffdpara) (List.finRange n) (x0, List.replicate (1 + n) x0)).2 fuel opt.blockSize 0 [] ev
    rw [List.map_nil] at this
    rw [this]
    rcases blockLoop squeezeTo expr (ffdPerturb (fun j => stdv j / opt.ffdpara) (List.finRange n) (x0, List.replicate (1 + n) x0)).2 fuel
      opt.blockSize 0 [] ev with _ | ⟨ev1, e | G⟩
    · rfl
    · rfl
    · simp only [mapRun, mapOk, Option.map_some, scaleOut, getD_scaled, List.map_cons, List.map_nil]
      congr 5
      funext j
      ring
  · rfl

theorem gradColumn_scaled (g : GVal) : gradColumn (n := n) (scaleVal c g) = mapOk (fun v i => c * v i) (gradColumn g) := by
  cases g with
  | scalar v => rfl
  | arr l =>
    simp only [scaleVal, gradColumn, List.length_map]
    by_cases h : l.length = n
    · simp only [dif_pos h, mapOk, List.getElem_map]
    · simp only [dif_neg h]
      rcases l with _ | ⟨a, _ | ⟨b, l⟩⟩ <;> rfl

theorem ddmLoop_scaled (expr : Kwargs → GRet) (nx : ℕ) (x : List (Fin n → ℝ)) :
    ∀ (k : ℕ) (G : List ℝ) (grad : List (Fin n → ℝ)) (ev : Ev D),
      ddmLoop (fun kw => scaleRet c (expr kw)) nx x k (G.map (c * ·)) (grad.map (fun g i => c * g i)) ev =
        ((ddmLoop expr nx x k G grad ev).1,
          mapOk (fun p => (p.1.map (c * ·), p.2.map (fun g i => c * g i))) (ddmLoop expr nx x k G grad ev).2) := by
  induction x with
  | nil => intro k G grad ev; rfl
  | cons p t ih =>
    intro k G grad ev
    unfold ddmLoop
    rw [computeLsf_scaled]
    rcases computeLsf expr [p] true ev with ⟨ev1, e | ⟨g, dg⟩⟩
    · rfl
    · simp only [mapOk]
      have h1 : ddmAssignG nx k (scaleVal c g) = mapOk (List.map (c * ·)) (ddmAssignG nx k g) := by
        unfold ddmAssignG
        split
        · exact broadcast_scaled _ _
        · rfl
      rw [h1]
      rcases ddmAssignG nx k g with e | G'
      · rfl
      · simp only [mapOk]
        have h2 : (dg.map (scaleVal c)).getD (.scalar 0) = scaleVal c (dg.getD (.scalar 0)) := by
          cases dg with
          | none => simp [scaleVal]
          | some g => rfl
        rw [h2, gradColumn_scaled]
        rcases gradColumn (n := n) (dg.getD (.scalar 0)) with e | col
        · rfl
        · have := ih (k + 1) G' (grad ++ [col]) ev1
          rw [List.map_append] at this
          exact this

theorem evaluateLsf_scaled (fuel : ℕ) (expr : Kwargs → GRet) (opt : LSOptions) (stdv : Fin n → ℝ) (mode : Option String)
    (x : List (Fin n → ℝ)) (ev : Ev D) :
    evaluateLsf fuel (fun kw => scaleRet c (expr kw)) opt stdv mode x ev = mapRun (scaleOut c) (evaluateLsf fuel expr opt stdv mode x ev) := by
  unfold evaluateLsf
  have key : ∀ m : String, (if opt.multiProc = 0 then some (ev, .error .notImplemented)
      else if m = "no" then evaluateNogradient fuel (fun kw => scaleRet c (expr kw)) opt x ev
      else if m = "ddm" then some (evaluateDdm (fun kw => scaleRet c (expr kw)) x ev)
      else evaluateFfd fuel (fun kw => scaleRet c (expr kw)) opt stdv x ev) =
      mapRun (scaleOut c) (if opt.multiProc = 0 then some (ev, .error .notImplemented)
      else if m = "no" then evaluateNogradient fuel expr opt x ev
      else if m = "ddm" then some (evaluateDdm expr x ev)
      else evaluateFfd fuel expr opt stdv x ev) := by
    intro m
    by_cases h0 : opt.multiProc = 0
    · rw [if_pos h0, if_pos h0]; rfl
    rw [if_neg h0, if_neg h0]
    by_cases h1 : m = "no"
    · rw [if_pos h1, if_pos h1]; exact evaluateNogradient_scaled _ _ _ _ _
    rw [if_neg h1, if_neg h1]
    by_cases h2 : m = "ddm"
    · rw [if_pos h2, if_pos h2]
      unfold evaluateDdm
      have := ddmLoop_scaled (c := c) expr x.length x 0 [] [] ev
      rw [List.map_nil, List.map_nil] at this
      rw [this]
      rcases ddmLoop expr x.length x 0 [] [] ev with ⟨ev1, e | ⟨G, grad⟩⟩ <;> rfl
    · rw [if_neg h2, if_neg h2]; exact evaluateFfd_scaled _ _ _ _ _ _
  cases mode with
  | none => exact key opt.diffMode
  | some _ => exact key "no"

/-- An evaluator seen after multiplication by `c`. -/
structure ScaledEval (c : ℝ) (ev ev' : Evaluator σ n) : Prop where
  withGrad : ∀ s x, ev'.withGrad s x = ((ev.withGrad s x).1, mapOk (fun p => (c * p.1, (fun i => c * p.2.1 i), p.2.2)) (ev.withGrad s x).2)
  values : ∀ s xs, ev'.values s xs = ((ev.values s xs).1, mapOk (List.map (c * ·)) (ev.values s xs).2)

theorem lsEvaluator_scaled (expr : Kwargs → GRet) (opt : LSOptions) (stdv : Fin n → ℝ) :
    ScaledEval c (lsEvaluator (D := D) expr opt stdv) (lsEvaluator (fun kw => scaleRet c (expr kw)) opt stdv) := by
  constructor
  · intro s x
    unfold lsEvaluator
    dsimp only
    rw [evaluateLsf_scaled]
    rcases evaluateLsf (7 + n) expr opt stdv none [x] s with _ | ⟨ev1, e | o⟩
    · rfl
    · rfl
    · simp only [mapRun, mapOk, Option.map_some, scaleOut, getD_scaled]
      congr 4
      rcases o.grad with _ | ⟨g, l⟩
      · funext i; simp
      · rfl
  · intro s xs
    unfold lsEvaluator
    dsimp only
    rw [evaluateLsf_scaled]
    rcases evaluateLsf (7 + n + xs.length) expr opt stdv (some "no") xs s with _ | ⟨ev1, e | o⟩ <;> rfl

/-! ### The iteration -/

variable {ev ev' : Evaluator σ n} {t : Mats n} {marg : Fin n → Marginal} {opt : Form.Options}

theorem norm2_scaled (v : Fin n → ℝ) : norm2 (fun i => c * v i) = |c| * norm2 v := by
  unfold norm2
  simp only [mul_pow]
  rw [← Finset.mul_sum, Real.sqrt_mul (sq_nonneg c), Real.sqrt_sq_eq_abs]

theorem sign_div (hc : c ≠ 0) : c * |c|⁻¹ = (SignType.sign c : ℝ) := by
  rcases lt_or_gt_of_ne hc with h | h
  · rw [abs_of_neg h, sign_neg h]; field_simp; simp
  · rw [abs_of_pos h, sign_pos h]; field_simp; simp

theorem sign_sq (hc : c ≠ 0) : (SignType.sign c : ℝ) * (SignType.sign c : ℝ) = 1 := by
  rcases lt_or_gt_of_ne hc with h | h
  · simp [sign_neg h]
  · simp [sign_pos h]

theorem alpha_scaled (hc : c ≠ 0) (g : Fin n → ℝ) : Form.alpha (fun i => c * g i) = fun i => (SignType.sign c : ℝ) * Form.alpha g i := by
  funext i
  unfold Form.alpha
  rw [norm2_scaled, mul_inv, ← sign_div hc]
  ring

theorem dot_scaled (a : ℝ) (v w : Fin n → ℝ) : (fun i => a * v i) ⬝ᵥ w = a * (v ⬝ᵥ w) := by
  simp only [dotProduct, Finset.mul_sum, mul_assoc]

theorem err2_scaled (hc : c ≠ 0) (u al : Fin n → ℝ) : err2 u (fun i => (SignType.sign c : ℝ) * al i) = err2 u al := by
  unfold err2
  congr 1
  funext i
  rw [dot_scaled]
  have := sign_sq hc
  linear_combination (-(al ⬝ᵥ u) * al i) * this

theorem cond1_scaled (hc : c ≠ 0) (G Go : ℝ) : cond1 opt (c * G) (c * Go) = cond1 opt G Go := by
  unfold cond1
  rw [mul_inv, show c * G * (c⁻¹ * Go⁻¹) = G * Go⁻¹ by field_simp]
  simp [hc]

theorem direction_scaled (hc : c ≠ 0) (G : ℝ) (g al u : Fin n → ℝ) :
    direction (c * G) (fun i => c * g i) (fun i => (SignType.sign c : ℝ) * al i) u = direction G g al u := by
  funext i
  unfold direction
  rw [norm2_scaled, dot_scaled, mul_inv]
  have h1 := sign_div hc
  have h2 := sign_sq hc
  have : c * G * (|c|⁻¹ * (norm2 g)⁻¹) = (SignType.sign c : ℝ) * (G * (norm2 g)⁻¹) := by rw [← h1]; ring
  rw [this]
  linear_combination ((G * (norm2 g)⁻¹ + al ⬝ᵥ u) * al i) * h2

theorem linearise_scaled (he : ScaledEval c ev ev') (u : Fin n → ℝ) (s : σ) :
    linearise t marg ev' u s = ((linearise t marg ev u s).1,
      mapOk (fun p => { p with G := c * p.G, gradient := fun k => c * p.gradient k }) (linearise t marg ev u s).2) := by
  unfold linearise
  dsimp only
  rcases npInv (jacobian t marg u (uToX t marg u)) with e | J
  · rfl
  dsimp only
  rw [he.withGrad]
  rcases ev.withGrad s (uToX t marg u) with ⟨s1, e | ⟨G, g, xa⟩⟩
  · rfl
  simp only [mapOk]
  congr 3
  funext k
  simp only [vecMul, dot_scaled]

theorem step_scaled (he : ScaledEval c ev ev') (hopt : opt.stepSize ≠ 0 ∨ |c| = 1) (G : ℝ) (g u d : Fin n → ℝ) (s : σ) :
    getStepSize t marg ev' opt (c * G) (fun k => c * g k) u d s = getStepSize t marg ev opt G g u d s := by
  unfold getStepSize
  by_cases h0 : opt.stepSize = 0
  · have hc : |c| = 1 := hopt.resolve_left (fun h => h h0)
    rw [if_pos h0, if_pos h0]
    unfold computeStepSize
    dsimp only
    rw [he.values]
    have hm : ∀ (k : ℝ) (w : Fin n → ℝ) (G : ℝ), merit k w (c * G) = merit k w G := by
      intro k w G; unfold merit; rw [abs_mul, hc, one_mul]
    have hC : meritC u (fun k => c * g k) = meritC u g := by
      unfold meritC; rw [norm2_scaled, hc, one_mul]
    split
    · rcases ev.values s _ with ⟨s1, e | l⟩
      · rfl
      · simp only [mapOk, getD_scaled, hm, hC]
    · rfl
  · rw [if_neg h0, if_neg h0]

theorem iteration_scaled (hc : c ≠ 0) (he : ScaledEval c ev ev') (hopt : opt.stepSize ≠ 0 ∨ |c| = 1) (i : ℕ) (Go : ℝ)
    (u : Fin n → ℝ) (s : σ) :
    iteration t marg ev' opt i (c * Go) u s = scaledOutcome c (iteration t marg ev opt i Go u s) := by
  unfold iteration
  rw [linearise_scaled he]
  rcases linearise t marg ev u s with ⟨s1, e | p⟩
  · rfl
  simp only [mapOk]
  have hGo : (if i = 1 then c * p.G else c * Go) = c * (if i = 1 then p.G else Go) := by split <;> rfl
  have hz : (fun k => c * p.gradient k) = 0 ↔ p.gradient = 0 := by
    constructor
    · intro h; funext k
      have := congrFun h k
      simpa [hc] using this
    · intro h; simp [h]; rfl
  by_cases hg : p.gradient = 0
  · rw [if_pos hg, if_pos (hz.2 hg)]; rfl
  rw [if_neg hg, if_neg (fun h => hg (hz.1 h)), alpha_scaled hc, hGo, cond1_scaled hc]
  have h2 : cond2 opt u (fun i => (SignType.sign c : ℝ) * Form.alpha p.gradient i) = cond2 opt u (Form.alpha p.gradient) := by
    unfold cond2; rw [err2_scaled hc]
  rw [h2, direction_scaled hc, step_scaled he hopt, dot_scaled]
  obtain ⟨Go', hGo'⟩ : ∃ y, (if i = 1 then p.G else Go) = y := ⟨_, rfl⟩
  rw [hGo']
  by_cases hb : (cond1 opt p.G Go' && cond2 opt u (Form.alpha p.gradient) || decide (i = opt.iMax)) = true
  · rw [if_pos hb, if_pos hb]
    unfold scaledOutcome scaledResult
    dsimp only
    congr 2
    rcases lt_or_gt_of_ne hc with h | h
    · rw [if_neg (not_lt.2 h.le), sign_neg h]
      simp only [SignType.coe_neg_one, neg_mul, one_mul, neg_neg]
      rw [StdNormal.cdf_neg]; ring
    · rw [if_pos h, sign_pos h]; simp
  · rw [if_neg hb, if_neg hb]
    rcases getStepSize t marg ev opt p.G p.gradient u (direction p.G p.gradient (Form.alpha p.gradient) u) s1 with ⟨s2, e | st⟩ <;> rfl

theorem loop_scaled (hc : c ≠ 0) (he : ScaledEval c ev ev') (hopt : opt.stepSize ≠ 0 ∨ |c| = 1) (fuel : ℕ) :
    ∀ (i : ℕ) (Go : ℝ) (u : Fin n → ℝ) (s : σ),
      loop t marg ev' opt fuel i (c * Go) u s = (loop t marg ev opt fuel i Go u s).map (scaledOutcome c) := by
  induction fuel with
  | zero => intros; rfl
  | succ k ih =>
    intro i Go u s
    unfold loop
    rw [iteration_scaled hc he hopt]
    cases iteration t marg ev opt i Go u s with
    | next Go' u' s' => exact ih _ _ _ _
    | done r s => rfl
    | raised e s => rfl
    | nan s => rfl

/-- **C89** (FORM).  Multiplying the limit-state function by a constant `c ≠ 0` -- whatever it returns, with or without a gradient, and
whether or not it raises -- changes nothing in a FORM run but the values and gradients, which are multiplied by `c`: the same calls,
the same iterations and points, the same exceptions.  For `c < 0` the indices change sign and the probability becomes that of the
complement.  This holds for every fixed step size, and for the automatic one when only the sign changes (`|c| = 1`). -/
theorem C89_form (hc : c ≠ 0) (fmin : Correlation.Fmin) (default : Marginal) (la : LinAlg) (ty : TransformType)
    (expr : Kwargs → GRet) (lsopt : LSOptions) (opt : Form.Options) (hopt : opt.stepSize ≠ 0 ∨ |c| = 1) (fuel : ℕ) (ev : Ev Marginal) :
    Form.run fmin default la ty (fun kw => scaleRet c (expr kw)) lsopt opt fuel ev =
      (Form.run fmin default la ty expr lsopt opt fuel ev).map (scaledOutcome c) := by
  unfold Form.run
  rcases Correlation.setModified fmin default ev.model with ⟨m, e | u⟩
  · rfl
  dsimp only
  rcases m.Ro with _ | Ro
  · rfl
  dsimp only
  by_cases hd : Ro.nrow = ev.model.marg.length ∧ Ro.ncol = ev.model.marg.length
  · rw [dif_pos hd, dif_pos hd]
    obtain ⟨x, hx⟩ : ∃ x, Transformation.compute la ty (fun a b => Ro.val (Fin.cast hd.1.symm a) (Fin.cast hd.2.symm b)) = x := ⟨_, rfl⟩
    rcases x with e | t <;> simp only [hx]
    · rfl
    · unfold runFrom
      have := loop_scaled (t := t) (marg := margOf ev.model) (opt := opt) hc
        (lsEvaluator_scaled (D := Marginal) (c := c) expr lsopt (fun i => (margOf ev.model i).stdv)) hopt fuel 1 0
        (startingPoint t (margOf ev.model)) { ev with model := m }
      rw [mul_zero] at this
      exact this
  · rw [dif_neg hd, dif_neg hd]; rfl

end Pystra.Props
