import Verif.Props.GenericForm
import Verif.Props.FormDistance
import Verif.Props.FormBound
import Verif.Props.Subset
import Verif.Props.NatafLaw
import Verif.Props.SormShift
import Verif.Props.UnitsFamilies

/-! C117: what the reliability index of a generic design is. -/

namespace Pystra.Spec

/-- A function of several variables that is affine in each of them when the others are kept: `s p j` is the slope in variable `j`. -/
def SeparatelyAffine {n : ℕ} (f : (Fin n → ℝ) → ℝ) (s : (Fin n → ℝ) → Fin n → ℝ) : Prop :=
  ∀ p j t, f (Function.update p j (p j + t)) = f p + t * s p j

/-- The safety margin of a design in terms of six independent standard normal variables: the resistance `z·wR·R` minus the load effect
`wS·((1 - aq)·(ag·G + (1 - ag)·P) + aq·Q)`. -/
def genericMargin (z aq ag : ℝ) (b : Fin 6 → Marginal) (v : Fin 6 → ℝ) : ℝ :=
  let x := fun i => (b i).uToX (v i)
  z * x 0 * x 1 - x 2 * ((1 - aq) * (ag * x 3 + (1 - ag) * x 4) + aq * x 5)

/-- The six distributions of a generic model. -/
structure HasLaws (m : GenericModel Marginal) (b : Fin 6 → Marginal) : Prop where
  wR : m.wR = some ⟨"wR", b 0⟩
  R : m.R = some ⟨"R", b 1⟩
  wS : m.wS = some ⟨"wS", b 2⟩
  G : m.G = some ⟨"G", b 3⟩
  P : m.P = some ⟨"P", b 4⟩
  Q : m.Q = some ⟨"Q", b 5⟩

end Pystra.Spec

namespace Pystra.Props
open Spec StochModel GenericCalib Session Transformation LimitState Form Matrix

variable {n : ℕ}

/-- The evaluator of the code with finite differences is exact for a limit state that is affine in each variable separately. -/
theorem ffd_exact_separate {D : Type} {expr : Kwargs → GRet} {g : Dict String ℝ → ℝ} (hp : Pointwise expr g) (lo : LSOptions)
    (hbs : 1 ≤ lo.blockSize) (hpara : lo.ffdpara ≠ 0) (hmp : lo.multiProc ≠ 0) (hd1 : lo.diffMode ≠ "no")
    (hd2 : lo.diffMode ≠ "ddm") (stdv : Fin n → ℝ) (hs : ∀ j, stdv j ≠ 0) (m : StochModel D ℝ) (hm : Reachable m)
    (hn : m.nMarg ≤ n) (hne : m.getNames ≠ []) {slope : (Fin n → ℝ) → Fin n → ℝ}
    (haff : SeparatelyAffine (fun p : Fin n → ℝ => g (pointArgs m p)) slope) :
    Exact (lsEvaluator expr lo stdv) (fun ev : Ev D => ∃ k, ev.model = m.addCallFunction k) (fun p => g (pointArgs m p)) slope := by
  rintro ev ⟨k, hk⟩ x
  have hm' : Reachable ev.model := hk ▸ reachable_calls hm k
  obtain ⟨ev', out, h1, h2, h3, -⟩ := C06_ffd hp lo hbs stdv x ev hm' (hk ▸ hn) (hk ▸ hne) (7 + n) (by omega)
  beta_reduce at h2 h3
  have he : LimitState.evaluateLsf (7 + n) expr lo stdv none [x] ev = some (ev', .ok out) := by
    rw [(C08_modes (7 + n) expr lo hmp stdv [x] ev).2 hd2 hd1, h1]
  have hpa : ∀ p : Fin n → ℝ, pointArgs ev.model p = pointArgs m p := fun p => by rw [hk]; rfl
  have hgrad : out.grad = [slope x] := by
    rw [h3]
    congr 1
    funext j
    have hne : stdv j / lo.ffdpara ≠ 0 := div_ne_zero (hs j) hpara
    have := haff x j (stdv j / lo.ffdpara)
    beta_reduce at this
    rw [hpa, hpa, this, add_sub_cancel_left, mul_div_cancel_left₀ _ hne]
  refine ⟨ev', out.xAfter.getD 0 0, ?_, ?_⟩
  · simp only [lsEvaluator, he, h2, hgrad, hpa]; rfl
  · have := (C04_counts _ _ _ _ _ _ _ _ _ he).2 out rfl
    change ∃ k, ev'.model = m.addCallFunction k
    rw [this, hk]
    exact ⟨_, addCall_addCall m k _⟩

/-- The limit-state function of the generic calibration acts point by point. -/
theorem arrayFn_pointwise : Pointwise (arrayFn lsfKw) (fun d => match lsfKw (fun k => Dict.get? d k) with
    | .ok v => v
    | .error _ => 0) := by
  intro kw nc hne hl
  unfold arrayFn
  have h1 : (kw.head?.map fun e => e.2.length) = some nc := by
    cases kw with
    | nil => exact absurd rfl hne
    | cons e t => simp [hl e (by simp)]
  rw [h1]
  congr 2
  refine List.map_congr_left fun i _ => ?_
  have h2 : (fun k => (Dict.get? kw k).map fun row => row.getD i 0) = fun k => Dict.get? (column kw i) k := by
    funext k
    clear h1 hl hne
    induction kw with
    | nil => rfl
    | cons e t ih =>
      obtain ⟨k', v⟩ := e
      by_cases h : k' = k
      · subst h; simp [column, Dict.get?]
      · simp only [column, Dict.get?, List.map_cons] at ih ⊢
        simpa [h] using ih
  rw [h2]
  rfl

/-- The model of a design. -/
noncomputable def designModel (z aq ag : ℝ) (b : Fin 6 → Marginal) : StochModel Marginal ℝ where
  vars := [("wR", ⟨"wR", b 0⟩), ("R", ⟨"R", b 1⟩), ("wS", ⟨"wS", b 2⟩), ("G", ⟨"G", b 3⟩), ("P", ⟨"P", b 4⟩), ("Q", ⟨"Q", b 5⟩)]
  names := ["wR", "R", "wS", "G", "P", "Q", "z", "aq", "ag"]
  marg := [⟨"wR", b 0⟩, ⟨"R", b 1⟩, ⟨"wS", b 2⟩, ⟨"G", b 3⟩, ⟨"P", b 4⟩, ⟨"Q", b 5⟩]
  correlation := some (NDArray2.eye 6)
  Ro := none
  callFunction := 0
  consts := designConsts z aq ag

theorem designModel_run {m : GenericModel Marginal} {b : Fin 6 → Marginal} (h : HasLaws m b) (z aq ag : ℝ) :
    init.run ((designObjs z aq ag m).map Op.add) = designModel z aq ag b := by
  unfold designObjs
  rw [h.wR, h.R, h.wS, h.G, h.P, h.Q]
  simp [toObj, StochModel.run, StochModel.step, StochModel.addVariable, StochModel.init, designConsts, Dict.set, designModel]

theorem designModel_addAll {m : GenericModel Marginal} {b : Fin 6 → Marginal} (h : HasLaws m b) (z aq ag : ℝ) :
    LoadComb.addAll init (designObjs z aq ag m) = .ok (designModel z aq ag b) := by
  unfold designObjs
  rw [h.wR, h.R, h.wS, h.G, h.P, h.Q]
  simp [toObj, LoadComb.addAll, StochModel.addVariable, StochModel.init, designConsts, Dict.set, designModel]

/-- The limit-state function on the model of a design. -/
theorem design_lsf (z aq ag : ℝ) (b : Fin 6 → Marginal) (p : Fin 6 → ℝ) :
    (match lsfKw (fun k => Dict.get? (pointArgs (designModel z aq ag b) p) k) with
      | .ok v => v
      | .error _ => 0) = z * p 0 * p 1 - p 2 * ((1 - aq) * (ag * p 3 + (1 - ag) * p 4) + aq * p 5) := by
  have e : pointArgs (designModel z aq ag b) p = [("wR", p 0), ("R", p 1), ("wS", p 2), ("G", p 3), ("P", p 4), ("Q", p 5), ("z", z),
      ("aq", aq), ("ag", ag)] := by
    simp [pointArgs, designModel, StochModel.getVariables, StochModel.getConstants, Dict.keys, designConsts, List.ofFn_succ]
  rw [e]
  have h : ¬ ∃ k, Dict.get? ([("wR", p 0), ("R", p 1), ("wS", p 2), ("G", p 3), ("P", p 4), ("Q", p 5), ("z", z),
      ("aq", aq), ("ag", ag)] : Dict String ℝ) k ≠ none ∧ k ∉ (["z", "aq", "ag", "wR", "R", "wS", "G", "P", "Q"] : List String) := by
    rintro ⟨k, h1, h2⟩
    simp only [List.mem_cons, not_or] at h2
    obtain ⟨a1, a2, a3, a4, a5, a6, a7, a8, a9, -⟩ := h2
    apply h1
    simp [Dict.get?, Ne.symm a1, Ne.symm a2, Ne.symm a3, Ne.symm a4, Ne.symm a5, Ne.symm a6, Ne.symm a7, Ne.symm a8, Ne.symm a9]
  unfold lsfKw
  rw [if_neg h]
  simp [Dict.get?, lsf]

/-- The safety margin as a function of the six variables. -/
def marginX (z aq ag : ℝ) (p : Fin 6 → ℝ) : ℝ := z * p 0 * p 1 - p 2 * ((1 - aq) * (ag * p 3 + (1 - ag) * p 4) + aq * p 5)

/-- Its slopes. -/
def marginSlope (z aq ag : ℝ) (p : Fin 6 → ℝ) : Fin 6 → ℝ :=
  ![z * p 1, z * p 0, -((1 - aq) * (ag * p 3 + (1 - ag) * p 4) + aq * p 5), -(p 2 * ((1 - aq) * ag)), -(p 2 * ((1 - aq) * (1 - ag))),
    -(p 2 * aq)]

theorem margin_separate (z aq ag : ℝ) : SeparatelyAffine (marginX z aq ag) (marginSlope z aq ag) := by
  intro p j t
  fin_cases j <;> simp [marginX, marginSlope, Function.update_apply] <;> ring

theorem margin_deriv (z aq ag : ℝ) (p : Fin 6 → ℝ) : HasFDerivAt (marginX z aq ag) (gradMap (marginSlope z aq ag p)) p := by
  have h := (((hasFDerivAt_apply (𝕜 := ℝ) (F' := fun _ : Fin 6 => ℝ) 0 p).const_mul z).mul (hasFDerivAt_apply (𝕜 := ℝ) (F' := fun _ : Fin 6 => ℝ) 1 p)).sub
    ((hasFDerivAt_apply (𝕜 := ℝ) (F' := fun _ : Fin 6 => ℝ) 2 p).mul
      (((((hasFDerivAt_apply (𝕜 := ℝ) (F' := fun _ : Fin 6 => ℝ) 3 p).const_mul ag).add ((hasFDerivAt_apply (𝕜 := ℝ) (F' := fun _ : Fin 6 => ℝ) 4 p).const_mul (1 - ag))).const_mul (1 - aq)).add
        ((hasFDerivAt_apply (𝕜 := ℝ) (F' := fun _ : Fin 6 => ℝ) 5 p).const_mul aq)))
  refine h.congr_fderiv ?_
  ext v
  simp [gradMap_apply, Fin.sum_univ_six, marginSlope]
  ring

/-- An orthogonal change of variables keeps lengths and inner products. -/
theorem orth_dot {B : Matrix (Fin n) (Fin n) ℝ} (hB : Bᵀ * B = 1) (w u : Fin n → ℝ) :
    ∑ i, (B.mulVec w) i * (B.mulVec u) i = ∑ i, w i * u i := by
  change B.mulVec w ⬝ᵥ B.mulVec u = w ⬝ᵥ u
  rw [dotProduct_mulVec, ← mulVec_transpose, mulVec_mulVec, hB, one_mulVec]

/-- FORM on independent variables, in terms of independent standard normal variables: the reported index is that of the tangent plane
of the limit state at the reported point. -/
theorem independent_point {c : Setup} (hla : LinAlgOK c.la) {ev : Ev Marginal} (hlen : ev.model.marg.length = n)
    (hcor : ev.model.correlation = some (NDArray2.eye n)) {S : Fin n → Set ℝ}
    (hF : ∀ i, Faithful (margN n c.default ev.model i) (S i)) {f : (Fin n → ℝ) → ℝ} {grad : (Fin n → ℝ) → Fin n → ℝ}
    (hf : ∀ x, (∀ i, x i ∈ S i) → HasFDerivAt f (gradMap (grad x)) x) {P : Ev Marginal → Prop}
    (hex : Exact (evaluator c n ev.model) P f grad)
    (hv : ∀ s xs s' Gs, P s → (evaluator c n ev.model).values s xs = (s', .ok Gs) → P s')
    (hP : ∀ Ro, P { ev with model := ev.model.setModifiedCorrelation Ro })
    {o : Form.Options} {ev' : Ev Marginal} {r : Form.Result n} (h : formRun c n o ev = some (ev', .inl r)) :
    ∃ v w : Fin n → ℝ, HasFDerivAt (fun v => f fun i => (margN n c.default ev.model i).uToX (v i)) (gradMap w) v ∧ w ≠ 0 ∧
      r.beta * len w = -∑ i, w i * v i ∧ (∀ i, r.point.x i = (margN n c.default ev.model i).uToX (v i)) ∧
      (r.i ≠ o.iMax → |f r.point.x| < o.e1 * |f fun i => (margN n c.default ev.model i).uToX
          ((margN n c.default ev.model i).xToU (margN n c.default ev.model i).startpoint)| ∧
        r.beta ^ 2 ≤ len v ^ 2 ∧ len v ^ 2 < r.beta ^ 2 + o.e2 ^ 2) := by
  obtain ⟨Ro, t, h0, ht⟩ := initRun_eye hla hlen hcor
  obtain ⟨t', ht', hfac, hT, hTi⟩ := C22_posdef hla c.ty (Matrix.PosDef.one (n := Fin n) (R := ℝ))
  rw [ht] at ht'; injection ht' with ht'; subst ht'
  have hB : t.invTᵀ * t.invT = 1 := mul_eq_one_comm.1 hfac
  unfold formRun withInit at h
  rw [h0] at h
  dsimp only at h
  obtain ⟨y, hy⟩ : ∃ y, Form.runFrom t (margN n c.default (ev.model.setModifiedCorrelation Ro))
    (evaluator c n (ev.model.setModifiedCorrelation Ro)) o c.fuel { ev with model := ev.model.setModifiedCorrelation Ro } = y := ⟨_, rfl⟩
  rw [hy] at h
  have hrun : Form.runFrom t (margN n c.default ev.model) (evaluator c n ev.model) o c.fuel
      { ev with model := ev.model.setModifiedCorrelation Ro } = some (.done r ev') := by
    rcases y with _ | ⟨r', s⟩ | ⟨e, s⟩ | ⟨s⟩ | ⟨Go, u, s⟩ <;> simp only [reduceCtorEq, Option.some.injEq, Prod.mk.injEq, Sum.inl.injEq, and_false] at h
    obtain ⟨rfl, rfl⟩ := h
    exact hy
  obtain ⟨hd, hG, hg, -⟩ := result_exact ht (fun i => (hF i).round) (fun i => (hF i).isOpen) (fun i => (hF i).jac) hf hex hv (hP Ro) hrun
  obtain ⟨hx, -, -, -, -, -, -, -, hc⟩ := C29_identities hrun
  have hb := beta_mul_len hg hrun
  have hlw : ∀ w : Fin n → ℝ, len (t.invT.mulVec w) = len w := by
    intro w
    unfold len
    congr 1
    simpa only [← pow_two] using orth_dot hB w w
  have hback : ∀ v, t.invT.mulVec (t.invTᵀ.mulVec v) = v := fun v => by rw [mulVec_mulVec, hfac, one_mulVec]
  have hfun : (fun v : Fin n → ℝ => f fun i => (margN n c.default ev.model i).uToX (v i)) =
      (fun u => f (uToX t (margN n c.default ev.model) u)) ∘ fun v => t.invTᵀ.mulVec v := by
    funext v
    simp only [Function.comp, uToX, hback]
  refine ⟨t.invT.mulVec r.point.u, t.invT.mulVec r.point.gradient, ?_, ?_, ?_, ?_, ?_⟩
  · rw [hfun]
    have e : t.invTᵀ.mulVec (t.invT.mulVec r.point.u) = r.point.u := by rw [mulVec_mulVec, hB, one_mulVec]
    have hl : HasFDerivAt (fun v : Fin n → ℝ => t.invTᵀ.mulVec v) (LinearMap.toContinuousLinearMap t.invTᵀ.mulVecLin)
        (t.invT.mulVec r.point.u) := (LinearMap.toContinuousLinearMap t.invTᵀ.mulVecLin).hasFDerivAt
    have := HasFDerivAt.comp (t.invT.mulVec r.point.u) (g := fun u => f (uToX t (margN n c.default ev.model) u))
      (f := fun v => t.invTᵀ.mulVec v) (by rw [e]; exact hd) hl
    refine this.congr_fderiv ?_
    ext v
    simp only [ContinuousLinearMap.comp_apply, LinearMap.coe_toContinuousLinearMap', Matrix.mulVecLin_apply, gradMap_apply]
    change r.point.gradient ⬝ᵥ t.invTᵀ.mulVec v = t.invT.mulVec r.point.gradient ⬝ᵥ v
    rw [dotProduct_mulVec, vecMul_transpose]
  · intro h0
    apply hg
    have := congrArg t.invTᵀ.mulVec h0
    rwa [mulVec_mulVec, hB, one_mulVec, mulVec_zero] at this
  · rw [hlw, orth_dot hB, hb]
  · intro i; rw [hx]; rfl
  · intro hi
    obtain ⟨c1, c2, c3⟩ := hc hi
    rw [hlw, len_sq]
    refine ⟨?_, by linarith, by linarith⟩
    have hGo : r.Go = f fun i => (margN n c.default ev.model i).uToX
          ((margN n c.default ev.model i).xToU (margN n c.default ev.model i).startpoint) := by
      have hlin : ∀ s1 p, linearise t (margN n c.default ev.model) (evaluator c n ev.model) (startingPoint t (margN n c.default ev.model))
          { ev with model := ev.model.setModifiedCorrelation Ro } = (s1, .ok p) →
          p.G = f fun i => (margN n c.default ev.model i).uToX
          ((margN n c.default ev.model i).xToU (margN n c.default ev.model i).startpoint) := by
        intro s1 p hl
        unfold linearise at hl
        dsimp only at hl
        split at hl
        · cases hl
        · obtain ⟨s3, xa, he, -⟩ := hex _ (hP Ro) (uToX t (margN n c.default ev.model) (startingPoint t (margN n c.default ev.model)))
          rw [he] at hl
          injection hl with hl1 hl2
          injection hl2 with hl2
          subst hl2
          dsimp only
          congr 1
          funext i
          simp only [startingPoint, uToX, xToU, mulVec_mulVec, hTi, one_mulVec]
      obtain ⟨i, Go, u, s2, hr, hit, -⟩ := loop_reaches c.fuel .start hrun
      obtain ⟨hl2, hi', hgo, -⟩ := iteration_done hit
      by_cases h1 : i = 1
      · subst h1
        cases hr with
        | start =>
          rw [hgo, if_pos rfl]
          exact hlin _ _ hl2
        | next hr _ => have := reaches_one_le hr; omega
      · obtain ⟨s1, p0, hl0, e0⟩ := reaches_Go hr h1
        rw [hgo, if_neg h1, e0]
        exact hlin _ _ hl0
    rw [← hGo, hx, ← hG]
    exact c1

/-- **C117 (what the index is).**  Let the six laws of the model be any laws of the library.  Every index that the generic calibration
reports for a cell of its grid belongs to the design `z` computed from the nominal values, and is the index of the tangent plane of the
safety margin at a point `v` of the space of six independent standard normal variables (`β = -∇·v/‖∇‖`, with the exact gradient although
the code differentiates numerically).  Unless the iteration limit was hit, the margin at that point is below `e1` times the one at the
start and `v` is within `e2` of the line through the origin along the gradient. -/
theorem C117_design_point {c : Setup} (hla : LinAlgOK c.la) (hbs : 1 ≤ c.lsopt.blockSize) (hpara : c.lsopt.ffdpara ≠ 0)
    (hmp : c.lsopt.multiProc ≠ 0) (hd1 : c.lsopt.diffMode ≠ "no") (hd2 : c.lsopt.diffMode ≠ "ddm") {o : Form.Options}
    {m : GenericModel Marginal} {b : Fin 6 → Marginal} {S : Fin 6 → Set ℝ} (hL : HasLaws m b) (hF : ∀ i, Faithful (b i) (S i))
    (hs : ∀ i, (b i).stdv ≠ 0) {aq ag β : ℝ} (h : cell (formBeta c o) m ag aq = .ok β) :
    ∃ z, designOf aq ag m = .ok z ∧ ∃ ev' r, formRun { c with expr := arrayFn lsfKw } 6 o ⟨designModel z aq ag b, []⟩ = some (ev', .inl r) ∧
      r.beta = β ∧ ∃ v w : Fin 6 → ℝ, HasFDerivAt (genericMargin z aq ag b) (gradMap w) v ∧ w ≠ 0 ∧ β * len w = -∑ i, w i * v i ∧
        (r.i ≠ o.iMax → |genericMargin z aq ag b v| < o.e1 * |genericMargin z aq ag b fun i => (b i).xToU (b i).startpoint| ∧
          β ^ 2 ≤ len v ^ 2 ∧ len v ^ 2 < β ^ 2 + o.e2 ^ 2) := by
  unfold cell at h
  obtain ⟨y, hy⟩ : ∃ y, designOf aq ag m = y := ⟨_, rfl⟩
  rw [hy] at h
  rcases y with e | z
  · cases h
  refine ⟨z, hy, ?_⟩
  dsimp only at h
  unfold analyseDesign at h
  have ha := designModel_addAll hL z aq ag
  unfold designObjs at ha
  rw [ha] at h
  dsimp only at h
  rw [formBeta_eq c o (designModel z aq ag b) lsfKw (n := 6) rfl] at h
  obtain ⟨y, hy2⟩ : ∃ y, lsfKw (fun k => if k ∈ (designModel z aq ag b).getNames then some 0 else none) = y := ⟨_, rfl⟩
  rw [hy2] at h
  rcases y with e | v
  · cases h
  dsimp only at h
  obtain ⟨ev', r, hr, rfl⟩ : ∃ ev' r, formRun { c with expr := arrayFn lsfKw } 6 o ⟨designModel z aq ag b, []⟩ = some (ev', .inl r) ∧
      r.beta = β := by
    rcases hq : formRun { c with expr := arrayFn lsfKw } 6 o ⟨designModel z aq ag b, []⟩ with _ | ⟨ev', r | (e | _)⟩ <;> rw [hq] at h <;>
      simp only [indexOf, reduceCtorEq, Except.ok.injEq] at h
    exact ⟨ev', r, rfl, h⟩
  refine ⟨ev', r, hr, rfl, ?_⟩
  have hmarg : margN 6 c.default (designModel z aq ag b) = b := by
    funext i
    fin_cases i <;> rfl
  have hreach : Reachable (designModel z aq ag b) := ⟨_, (designModel_run hL z aq ag).symm⟩
  have hg : (fun p : Fin 6 → ℝ => (fun d => match lsfKw (fun k => Dict.get? d k) with
      | .ok v => v
      | .error _ => 0) (pointArgs (designModel z aq ag b) p)) = marginX z aq ag := funext fun p => design_lsf z aq ag b p
  have hex : Exact (evaluator { c with expr := arrayFn lsfKw } 6 (designModel z aq ag b))
      (fun ev => ∃ Ro k, ev.model = ((designModel z aq ag b).setModifiedCorrelation Ro).addCallFunction k) (marginX z aq ag)
      (marginSlope z aq ag) := by
    rintro ev ⟨Ro, k, hk⟩ x
    have he := ffd_exact_separate (D := Marginal) arrayFn_pointwise c.lsopt hbs hpara hmp hd1 hd2 (fun i => (b i).stdv) hs
      ((designModel z aq ag b).setModifiedCorrelation Ro) (reachable_setRo hreach Ro) (le_refl 6)
      (by simp [designModel, StochModel.getNames, StochModel.setModifiedCorrelation]) (slope := marginSlope z aq ag)
      (by
        have : (fun p : Fin 6 → ℝ => (fun d => match lsfKw (fun k => Dict.get? d k) with
          | .ok v => v
          | .error _ => 0) (pointArgs ((designModel z aq ag b).setModifiedCorrelation Ro) p)) = marginX z aq ag := hg
        rw [this]; exact margin_separate z aq ag)
    obtain ⟨s', xa, h1, k', h2⟩ := he ev ⟨k, hk⟩ x
    refine ⟨s', xa, ?_, Ro, k', h2⟩
    unfold evaluator
    rw [hmarg]
    rw [h1]
    congr 4
    exact congrFun hg x
  obtain ⟨v, w, k1, k2, k3, k4, k5⟩ := independent_point (c := { c with expr := arrayFn lsfKw }) hla (ev := ⟨designModel z aq ag b, []⟩)
    (n := 6) rfl rfl (S := S) (by rw [hmarg]; exact hF) (f := marginX z aq ag) (grad := marginSlope z aq ag)
    (fun x _ => margin_deriv z aq ag x) hex
    (by
      rintro s xs s' Gs ⟨Ro, k, hk⟩ hv
      exact ⟨Ro, _, by rw [values_calls hv, hk, addCall_addCall]⟩)
    (fun Ro => ⟨Ro, 0, rfl⟩) hr
  rw [hmarg] at k1 k4 k5
  refine ⟨v, w, k1, k2, k3, fun hi => ?_⟩
  obtain ⟨l1, l2, l3⟩ := k5 hi
  refine ⟨?_, l2, l3⟩
  have : r.point.x = fun i => (b i).uToX (v i) := funext k4
  rw [this] at l1
  exact l1

/-- The evaluations of the margin during an analysis of a design. -/
theorem design_exact {c : Setup} (hbs : 1 ≤ c.lsopt.blockSize) (hpara : c.lsopt.ffdpara ≠ 0)
    (hmp : c.lsopt.multiProc ≠ 0) (hd1 : c.lsopt.diffMode ≠ "no") (hd2 : c.lsopt.diffMode ≠ "ddm")
    {m : GenericModel Marginal} {b : Fin 6 → Marginal} (hL : HasLaws m b) (hs : ∀ i, (b i).stdv ≠ 0) (z aq ag : ℝ) (Ro : NDArray2) :
    Exact (lsEvaluator (arrayFn lsfKw) c.lsopt fun i => (b i).stdv)
      (fun ev : Ev Marginal => ∃ k, ev.model = ((designModel z aq ag b).setModifiedCorrelation Ro).addCallFunction k) (marginX z aq ag)
      (marginSlope z aq ag) ∧
    Values (lsEvaluator (arrayFn lsfKw) c.lsopt fun i => (b i).stdv)
      (fun ev : Ev Marginal => ∃ k, ev.model = ((designModel z aq ag b).setModifiedCorrelation Ro).addCallFunction k) (marginX z aq ag) := by
  have hreach : Reachable (designModel z aq ag b) := ⟨_, (designModel_run hL z aq ag).symm⟩
  have hg : (fun p : Fin 6 → ℝ => (fun d => match lsfKw (fun k => Dict.get? d k) with
      | .ok v => v
      | .error _ => 0) (pointArgs ((designModel z aq ag b).setModifiedCorrelation Ro) p)) = marginX z aq ag :=
    funext fun p => design_lsf z aq ag b p
  have he := ffd_exact_separate (D := Marginal) arrayFn_pointwise c.lsopt hbs hpara hmp hd1 hd2 (fun i => (b i).stdv) hs
      ((designModel z aq ag b).setModifiedCorrelation Ro) (reachable_setRo hreach Ro) (le_refl 6)
      (by simp [designModel, StochModel.getNames, StochModel.setModifiedCorrelation]) (slope := marginSlope z aq ag)
      (by rw [hg]; exact margin_separate z aq ag)
  have hv := ls_values (D := Marginal) arrayFn_pointwise c.lsopt hbs hmp (fun i => (b i).stdv)
      ((designModel z aq ag b).setModifiedCorrelation Ro) (reachable_setRo hreach Ro) (le_refl 6)
      (by simp [designModel, StochModel.getNames, StochModel.setModifiedCorrelation])
  rw [hg] at he hv
  exact ⟨he, hv⟩

/-- **C117 (an index for every design).**  If the resistance is positive, every design `z ≠ 0` gets a reliability index: the analysis
neither raises nor meets a vanishing gradient, and ends within the iteration limit. -/
theorem C117_total {c : Setup} (hla : LinAlgOK c.la) (hbs : 1 ≤ c.lsopt.blockSize) (hpara : c.lsopt.ffdpara ≠ 0)
    (hmp : c.lsopt.multiProc ≠ 0) (hd1 : c.lsopt.diffMode ≠ "no") (hd2 : c.lsopt.diffMode ≠ "ddm") {o : Form.Options}
    (hst : o.stepSize ≠ 0 ∨ o.multiProc = 1) (hi : 1 ≤ o.iMax) (hf : o.iMax ≤ c.fuel)
    {m : GenericModel Marginal} {b : Fin 6 → Marginal} {S : Fin 6 → Set ℝ} (hL : HasLaws m b) (hF : ∀ i, Faithful (b i) (S i))
    (hs : ∀ i, (b i).stdv ≠ 0) (hd : ∀ i u, DifferentiableAt ℝ (b i).uToX u) (hpos : S 1 ⊆ Set.Ioi 0) {aq ag z : ℝ}
    (hz : designOf aq ag m = .ok z) (hz0 : z ≠ 0) : ∃ β, cell (formBeta c o) m ag aq = .ok β := by
  unfold cell
  rw [hz]
  dsimp only
  unfold analyseDesign
  have ha := designModel_addAll hL z aq ag
  unfold designObjs at ha
  rw [ha]
  dsimp only
  rw [formBeta_eq c o (designModel z aq ag b) lsfKw (n := 6) rfl]
  have hkw : ∃ v, lsfKw (fun k => if k ∈ (designModel z aq ag b).getNames then some 0 else none) = .ok v := by
    unfold lsfKw
    rw [if_neg]
    · simp [designModel, StochModel.getNames]
    · rintro ⟨k, h1, h2⟩
      apply h1
      beta_reduce
      rw [if_neg]
      intro h3
      apply h2
      simp only [designModel, StochModel.getNames, List.mem_cons] at h3 ⊢
      tauto
  obtain ⟨v0, hv0⟩ := hkw
  rw [hv0]
  dsimp only
  have hmarg : margN 6 c.default (designModel z aq ag b) = b := by
    funext i
    fin_cases i <;> rfl
  obtain ⟨Ro, t, h0, ht⟩ := initRun_eye (c := { c with expr := arrayFn lsfKw }) hla (ev := ⟨designModel z aq ag b, []⟩) (n := 6) rfl rfl
  obtain ⟨hex, hval⟩ := design_exact hbs hpara hmp hd1 hd2 hL hs z aq ag Ro
  obtain ⟨r, s', hrun⟩ := run_finishes (t := t) (marg := b) (ev := lsEvaluator (arrayFn lsfKw) c.lsopt fun i => (b i).stdv) (opt := o)
    (P := fun ev : Ev Marginal => ∃ k, ev.model = ((designModel z aq ag b).setModifiedCorrelation Ro).addCallFunction k)
    (by
      intro s hs u
      obtain ⟨Ji, hJ⟩ := (C23_chain_rule ht b S (fun i => (hF i).round) (fun i => (hF i).isOpen) (fun i => (hF i).jac) u).1.2
        (fun i => jac_ne_zero (hF i).round (hF i).jac (hd i _))
      obtain ⟨s1, xa, he, hP⟩ := hex s hs (uToX t b u)
      refine ⟨s1, _, by unfold linearise; dsimp only; rw [hJ, he], ?_, hP⟩
      dsimp only
      intro h0
      have hu : Ji * jacobian t b u (uToX t b u) = 1 := (npInv_ok hJ).1
      have : vecMul (vecMul (marginSlope z aq ag (uToX t b u)) Ji) (jacobian t b u (uToX t b u)) = marginSlope z aq ag (uToX t b u) := by
        rw [vecMul_vecMul, hu, vecMul_one]
      rw [h0, zero_vecMul] at this
      have h1 := congrFun this 0
      have h2 : 0 < uToX t b u 1 := hpos ((hF 1).round.mem _)
      simp only [marginSlope, Pi.zero_apply, Matrix.cons_val_zero] at h1
      exact (mul_ne_zero hz0 h2.ne') h1.symm)
    (by
      intro s hs G gr u d
      unfold getStepSize
      split
      · next h0 =>
        unfold computeStepSize
        dsimp only
        rw [if_pos (hst.resolve_left (not_not.2 h0))]
        obtain ⟨s1, he, hP⟩ := hval s hs ((List.range 6).map (fun j => uToX t b (fun i => u i * 1 + d i * 0.5 ^ j)))
        rw [he]
        exact ⟨_, _, rfl, hP⟩
      · exact ⟨_, _, rfl, hs⟩)
    hi hf (s := { (⟨designModel z aq ag b, []⟩ : Ev Marginal) with model := (designModel z aq ag b).setModifiedCorrelation Ro }) ⟨0, rfl⟩
  refine ⟨r.beta, ?_⟩
  have hfr : formRun { c with expr := arrayFn lsfKw } 6 o ⟨designModel z aq ag b, []⟩ = some (s', .inl r) := by
    unfold formRun withInit
    rw [h0]
    dsimp only
    have e : margN 6 c.default ((designModel z aq ag b).setModifiedCorrelation Ro) = b := hmarg
    unfold evaluator
    dsimp only
    rw [e, hrun]
  rw [hfr]
  rfl

theorem mapE_total {A B : Type} {f : A → Except PyErr B} {l : List A} (h : ∀ x ∈ l, ∃ y, f x = .ok y) :
    ∃ r, mapE f l = .ok r ∧ r.length = l.length ∧ ∀ y ∈ r, ∃ x ∈ l, f x = .ok y := by
  induction l with
  | nil => exact ⟨[], rfl, rfl, by simp⟩
  | cons a t ih =>
    obtain ⟨y, hy⟩ := h a (by simp)
    obtain ⟨r, h1, h2, h3⟩ := ih fun x hx => h x (by simp [hx])
    refine ⟨y :: r, by simp [mapE, hy, h1], by simp [h2], ?_⟩
    intro y' hy'
    rcases List.mem_cons.1 hy' with rfl | h'
    · exact ⟨a, by simp, hy⟩
    · obtain ⟨x, hx, e⟩ := h3 y' h'
      exact ⟨x, by simp [hx], e⟩

/-- **C117 (the whole grid).**  With positive partial factors and nominal values and load ratios between 0 and 1, every entry of the
array of `get_reliabilities` is a reliability index: nothing raises, and the array has a row for each dead load ratio and a column for
each live load ratio. -/
theorem C117_grid {c : Setup} (hla : LinAlgOK c.la) (hbs : 1 ≤ c.lsopt.blockSize) (hpara : c.lsopt.ffdpara ≠ 0)
    (hmp : c.lsopt.multiProc ≠ 0) (hd1 : c.lsopt.diffMode ≠ "no") (hd2 : c.lsopt.diffMode ≠ "ddm") {o : Form.Options}
    (hst : o.stepSize ≠ 0 ∨ o.multiProc = 1) (hi : 1 ≤ o.iMax) (hf : o.iMax ≤ c.fuel)
    {m : GenericModel Marginal} {b : Fin 6 → Marginal} {S : Fin 6 → Set ℝ} (hL : HasLaws m b) (hF : ∀ i, Faithful (b i) (S i))
    (hs : ∀ i, (b i).stdv ≠ 0) (hd : ∀ i u, DifferentiableAt ℝ (b i).uToX u) (hpos : S 1 ⊆ Set.Ioi 0)
    {phi gg gp gq Rk Gk Pk Qk : ℝ} (h1 : 0 < phi) (h2 : 0 < gg) (h3 : 0 < gp) (h4 : 0 < gq) (h5 : 0 < Rk) (h6 : 0 < Gk) (h7 : 0 < Pk)
    (h8 : 0 < Qk) {aqs ags : List ℝ} (haq : ∀ x ∈ aqs, 0 ≤ x ∧ x ≤ 1) (hag : ∀ x ∈ ags, 0 ≤ x ∧ x ≤ 1) :
    ∃ B, getReliabilities (formBeta c o) aqs ags ((m.setFactors phi gg gp gq).setNominals Rk Gk Pk Qk) = .ok B ∧
      B.length = ags.length ∧ ∀ row ∈ B, row.length = aqs.length := by
  have hL' : HasLaws ((m.setFactors phi gg gp gq).setNominals Rk Gk Pk Qk) b := ⟨hL.wR, hL.R, hL.wS, hL.G, hL.P, hL.Q⟩
  have hcell : ∀ ag ∈ ags, ∀ aq ∈ aqs, ∃ β, cell (formBeta c o) ((m.setFactors phi gg gp gq).setNominals Rk Gk Pk Qk) ag aq = .ok β := by
    intro ag h ag' h'
    obtain ⟨a1, a2⟩ := haq _ h'
    obtain ⟨b1, b2⟩ := hag _ h
    have hne : phi * Rk ≠ 0 := (mul_pos h1 h5).ne'
    refine C117_total hla hbs hpara hmp hd1 hd2 hst hi hf hL' hF hs hd hpos (z := (1 / (phi * Rk)) * ((1 - ag') * (ag * gg * Gk + (1 - ag) * gp * Pk) + ag' * gq * Qk)) ?_ ?_
    · simp only [designOf, GenericModel.setFactors, GenericModel.setNominals, design]
      rw [if_neg hne, if_neg hne]
    · refine mul_ne_zero (one_div_ne_zero hne) (ne_of_gt ?_)
      have hA : 0 < ag * gg * Gk + (1 - ag) * gp * Pk := by
        rcases b1.eq_or_lt with e | e
        · rw [← e]; simpa using mul_pos h3 h7
        · have := mul_pos (mul_pos e h2) h6
          have := mul_nonneg (mul_nonneg (sub_nonneg.2 b2) h3.le) h7.le
          linarith
      rcases a1.eq_or_lt with e | e
      · rw [← e]; simpa using hA
      · have := mul_pos (mul_pos e h4) h8
        have := mul_nonneg (sub_nonneg.2 a2) hA.le
        linarith
  unfold getReliabilities
  have hrow : ∀ ag ∈ ags, ∃ row, mapE (fun aq => cell (formBeta c o) ((m.setFactors phi gg gp gq).setNominals Rk Gk Pk Qk) ag aq) aqs = .ok row ∧
      row.length = aqs.length := by
    intro ag h
    obtain ⟨r, e1, e2, -⟩ := mapE_total (hcell ag h)
    exact ⟨r, e1, e2⟩
  obtain ⟨B, e1, e2, e3⟩ := mapE_total (l := ags) (f := fun ag => mapE (fun aq => cell (formBeta c o) ((m.setFactors phi gg gp gq).setNominals Rk Gk Pk Qk) ag aq) aqs)
    (fun ag h => (hrow ag h).imp fun _ => And.left)
  refine ⟨B, e1, e2, fun row hrow' => ?_⟩
  obtain ⟨ag, h, e⟩ := e3 row hrow'
  obtain ⟨r, k1, k2⟩ := hrow ag h
  rw [k1] at e
  injection e with e
  rw [← e]; exact k2

end Pystra.Props

namespace Pystra.Props
open Spec StochModel GenericCalib Session Transformation LimitState Form Matrix

/-- A lognormal law meets every hypothesis above. -/
theorem lognormal_law {μ σ : ℝ} (hμ : 0 < μ) (hσ : 0 < σ) (sp : Option ℝ) :
    ∃ b, Lognormal.new μ σ false sp = .ok b ∧ Faithful b (Set.Ioi 0) ∧ b.stdv = σ ∧ ∀ u, DifferentiableAt ℝ b.uToX u := by
  obtain ⟨b, h1, h2⟩ := faithful_of_good (good_lognormal hμ hσ sp) isOpen_Ioi (fun m hm => ratio_lognormal μ σ false sp _ m hm)
  obtain ⟨b', h1', h3, h4, -⟩ := (good_lognormal hμ hσ sp).ex
  rw [h1] at h1'; injection h1' with h1'; subst h1'
  refine ⟨b, h1, h2, h4, fun u => ?_⟩
  obtain ⟨_, _, -, k1, -⟩ := lognormal_ok hμ hσ h1
  rw [k1]
  unfold Lognormal.uToX
  fun_prop

/-- The hypotheses of C117 are met by every model of six lognormal laws, whatever their means and standard deviations, and by every
positive factor and nominal value: the grid is filled with indices, each with its design point, and writing the resistance in another
unit (1000 of them to an old one) gives the same grid. -/
example {c : Setup} (hla : LinAlgOK c.la) (hbs : 1 ≤ c.lsopt.blockSize) (hpara : c.lsopt.ffdpara ≠ 0)
    (hmp : c.lsopt.multiProc ≠ 0) (hd : c.lsopt.diffMode = "ffd") (hf : 100 ≤ c.fuel)
    {μ σ : Fin 6 → ℝ} (hμ : ∀ i, 0 < μ i) (hσ : ∀ i, 0 < σ i) : ∃ (b : Fin 6 → Marginal) (b' : Marginal) (B : List (List ℝ)),
    (∀ i, Lognormal.new (μ i) (σ i) false none = .ok (b i)) ∧ Lognormal.new (1000 * μ 1) (1000 * σ 1) false none = .ok b' ∧
    getReliabilities (formBeta c ⟨100, 0.001, 0.001, 0, 1⟩) [0, 0.5, 1] [0, 0.25, 1]
      ((((GenericModel.init.setDistributions ⟨"wR", b 0⟩ ⟨"wS", b 2⟩ ⟨"R", b 1⟩ ⟨"G", b 3⟩ ⟨"P", b 4⟩ ⟨"Q", b 5⟩).setFactors 0.9 1.2 1.3
        1.5).setNominals 40 10 5 20)) = .ok B ∧ B.length = 3 ∧ (∀ row ∈ B, row.length = 3) ∧
    getReliabilities (formBeta c ⟨100, 0.001, 0.001, 0, 1⟩) [0, 0.5, 1] [0, 0.25, 1]
      ((((GenericModel.init.setDistributions ⟨"wR", b 0⟩ ⟨"wS", b 2⟩ ⟨"R", b'⟩ ⟨"G", b 3⟩ ⟨"P", b 4⟩ ⟨"Q", b 5⟩).setFactors 0.9 1.2 1.3
        1.5).setNominals (1000 * 40) 10 5 20)) = .ok B := by
  choose b hb hF hs hdiff using fun i => lognormal_law (hμ i) (hσ i) none
  obtain ⟨m, m', h1, h2, hr⟩ := units_lognormal (fac := 1000) (by norm_num) (hμ 1) (hσ 1) none (by simpa [Distribution.startPoint] using hμ 1)
  rw [hb 1] at h1
  injection h1 with h1
  subst h1
  obtain ⟨B, hB, e1, e2⟩ := C117_grid (o := ⟨100, 0.001, 0.001, 0, 1⟩)
    (m := GenericModel.init.setDistributions ⟨"wR", b 0⟩ ⟨"wS", b 2⟩ ⟨"R", b 1⟩ ⟨"G", b 3⟩ ⟨"P", b 4⟩ ⟨"Q", b 5⟩) (b := b)
    (S := fun _ => Set.Ioi 0) hla hbs hpara hmp (by rw [hd]; simp) (by rw [hd]; simp) (Or.inr rfl) (by norm_num) hf
    ⟨rfl, rfl, rfl, rfl, rfl, rfl⟩ hF (fun i => by rw [hs i]; exact (hσ i).ne') hdiff (le_refl _)
    (phi := 0.9) (gg := 1.2) (gp := 1.3) (gq := 1.5) (Rk := 40) (Gk := 10) (Pk := 5) (Qk := 20) (by norm_num) (by norm_num) (by norm_num)
    (by norm_num) (by norm_num) (by norm_num) (by norm_num) (by norm_num) (aqs := [0, 0.5, 1]) (ags := [0, 0.25, 1])
    (by intro x hx; fin_cases hx <;> norm_num) (by intro x hx; fin_cases hx <;> norm_num)
  refine ⟨b, m', B, hb, by simpa using h2, hB, e1, e2, ?_⟩
  rw [← hB]
  refine C117_units (a := 1000) (D := Set.Ioi 0) (by rw [hd]; simp) _ (by norm_num) ⟨rfl, rfl, Or.inr ⟨b 1, m', rfl, rfl, hr⟩⟩ ?_ _ _
  constructor <;> intro d hd <;> cases hd <;> rfl

end Pystra.Props
