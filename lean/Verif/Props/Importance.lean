import Verif.Props.Noninterference
import Verif.Props.MonteCarloRerun
import Verif.Props.Transformation
import Verif.Props.Correlation

/-! C71: the life of an importance-sampling object, from its constructor to its results. -/

namespace Pystra.Props
open Spec Transformation Form Session MeasureTheory

variable {c : Setup} {n : ℕ}

/-- What a successful `init_run` does. -/
theorem initRun_ok {ev ev0 : Ev Marginal} {t : Mats n} (h : initRun c n ev = (ev0, .ok t)) :
    ∃ Ro, Correlation.compute c.fmin c.default ev.model = .ok Ro ∧
      ev0 = { ev with model := ev.model.setModifiedCorrelation Ro } := by
  unfold initRun Correlation.setModified at h
  cases hc : Correlation.compute c.fmin c.default ev.model with
  | error e => rw [hc] at h; simp at h
  | ok Ro =>
    refine ⟨Ro, rfl, ?_⟩
    rw [hc] at h
    simp only [StochModel.setModifiedCorrelation] at h ⊢
    split at h
    · exact (Prod.mk.inj h).1.symm
    · exact (Prod.mk.inj h).1.symm

/-- `init_run` gives the same transformation on every model with the same definition, and leaves the definition alone. -/
theorem initRun_again {ev ev0 s : Ev Marginal} {t : Mats n} (h : initRun c n ev = (ev0, .ok t))
    (hd : SameDefinition s.model ev.model) :
    ∃ Ro, initRun c n s = ({ s with model := s.model.setModifiedCorrelation Ro }, .ok t) := by
  obtain ⟨p, q, o, -, h1, h2⟩ := (initRun_alike (c := c) (n := n) hd ⟨0, [], .refl c s, .refl c ev⟩).cases
  rw [h] at h2
  obtain ⟨-, rfl⟩ := Prod.mk.inj h2
  obtain ⟨Ro, -, rfl⟩ := initRun_ok h1
  exact ⟨Ro, h1⟩

theorem reachable_setRo {D : Type} {m : StochModel D ℝ} (h : Reachable m) (Ro : NDArray2) :
    Reachable (m.setModifiedCorrelation Ro) := by
  obtain ⟨hist, rfl⟩ := h
  exact ⟨hist ++ [.setRo Ro], by rw [StochModel.run_append]; rfl⟩

/-- A model with the definition of a reachable one, whose matrix is the old one or a new one, is reachable. -/
theorem Since.reachable {a s : Ev Marginal} {j : ℕ} {T : List Kwargs} (h : Since c a s j T) (ha : Reachable a.model) :
    Reachable s.model := by
  have hfull : ∀ Ro, s.model.Ro = Ro → s.model = { a.model with Ro := Ro, callFunction := a.model.callFunction + j } := by
    rintro Ro rfl
    obtain ⟨h1, h2, h3, h4, h5⟩ := h.definition
    have h6 := h.count
    cases hs : s.model
    rw [hs] at h1 h2 h3 h4 h5 h6
    simp only at h1 h2 h3 h4 h5 h6
    subst h1 h2 h3 h4 h5 h6
    rfl
  rcases h.Ro with h' | ⟨M, -, h'⟩
  · rw [hfull _ h']
    exact reachable_calls ha j
  · rw [hfull _ h']
    exact reachable_setRo (reachable_calls ha j) M

theorem pointArgs_same {s t : StochModel Marginal ℝ} (h : SameDefinition s t) (p : Fin n → ℝ) :
    pointArgs s p = pointArgs t p := by
  unfold pointArgs StochModel.getVariables StochModel.getConstants
  rw [h.vars, h.consts]

/-- What the FORM run in the constructor leaves behind. -/
theorem formRun_done {fopt : Form.Options} {ev ev1 : Ev Marginal} {r : Form.Result n}
    (h : formRun c n fopt ev = some (ev1, .inl r)) :
    ∃ ev0 t, initRun c n ev = (ev0, .ok t) ∧
      runFrom t (margN n c.default ev.model) (evaluator c n ev.model) fopt c.fuel ev0 = some (.done r ev1) ∧
      ∃ j T, Since c ev ev1 j T := by
  have hS : ∃ j T, Since c ev ev1 j T := by
    rcases formRun_alike (c := c) (n := n) (a := ev) (b := ev) (.refl _) fopt ⟨0, [], .refl c ev, .refl c ev⟩ with
      ⟨h1, -⟩ | ⟨p, q, h1, -, ⟨⟨j, T, hs, -⟩, -⟩⟩
    · rw [h1] at h; cases h
    · rw [h1] at h
      injection h with h
      subst h
      exact ⟨j, T, hs⟩
  unfold formRun withInit at h
  rcases hi : initRun c n ev with ⟨ev0, e | t⟩
  · rw [hi] at h; simp at h
  · rw [hi] at h
    obtain ⟨Ro, -, he⟩ := initRun_ok hi
    have hd : SameDefinition ev0.model ev.model := by rw [he]; exact ⟨rfl, rfl, rfl, rfl, rfl⟩
    refine ⟨ev0, t, rfl, ?_, hS⟩
    dsimp only at h
    rw [margN_same hd, evaluator_same hd] at h
    generalize hx : runFrom t (margN n c.default ev.model) (evaluator c n ev.model) fopt c.fuel ev0 = x at h
    rcases x with _ | ⟨r', s'⟩ | _ | _ | _ <;> simp at h
    obtain ⟨rfl, rfl⟩ := h
    rfl

/-- C71: an importance-sampling object on a model with at least one variable, for a limit-state function that acts point by
point.  If the FORM run of the constructor converged or stopped (with result `r`), then every `run()` — the first and the
later ones, whatever was done with the model in between that left its definition alone — finishes; the centre of the
sampling density is FORM's design point in standard space; `Pf` is the mean of the failing samples' density ratios; the
reported coefficient of variation is that of the mean; exactly `k` evaluations are counted; the option `print_output` is
as it was before. -/
theorem C71_run {g : Dict String ℝ → ℝ} (hp : Pointwise c.expr g) (hbs : 1 ≤ c.lsopt.blockSize) (hmp : c.lsopt.multiProc ≠ 0)
    {ev ev1 s : Ev Marginal} (hm : Reachable ev.model) (hn : ev.model.nMarg = n) (hne : ev.model.getNames ≠ [])
    {fopt : Form.Options} {r : Form.Result n} (hF : formRun c n fopt ev = some (ev1, .inl r))
    (hd : SameDefinition s.model ev.model) (hsr : Reachable s.model)
    {opt : MonteCarlo.Options} (hg : opt.randomGenerator = 0) (hb : 1 ≤ opt.blockSize) (hN : 1 ≤ opt.samples)
    (hs : 0 < opt.stdv) (hf : opt.samples ≤ c.fuel) (old : MonteCarlo.Records n) (ω : ℕ → ℝ) (print : Bool) :
    importanceNew c n fopt ev = some (ev1, .inl r.point.u) ∧
    ∃ ev0 t, initRun c n ev = (ev0, .ok t) ∧
      let marg := margN n c.default ev.model
      let f := fun x : Fin n → ℝ => g (pointArgs ev.model x)
      let q := summand t marg f opt r.point.u ω 0
      ∃ s' res, importanceRun c n old opt r.point.u ω print s = some (print, s', .simulation res) ∧
        1 ≤ res.st.k ∧ res.st.k ≤ opt.samples ∧
        res.Pf = (∑ j ∈ Finset.range res.st.k, q j) / res.st.k ∧
        (∑ j ∈ Finset.range res.st.k, q j = 0 → res.beta = .fin 0) ∧
        (0 < res.Pf → res.Pf < 1 → ∃ b, res.beta = .fin b ∧ StdNormal.cdf (-b) = res.Pf) ∧
        res.st.covQBar = cvOfMean res.st.k (∑ j ∈ Finset.range res.st.k, q j) (∑ j ∈ Finset.range res.st.k, q j ^ 2) ∧
        s'.model.callFunction = s.model.callFunction + res.st.k ∧ SameDefinition s'.model ev.model ∧
        (∃ tr, s'.trace = s.trace ++ tr ∧ pointsOf tr = (List.range res.st.k).map (fun j => pointArgs ev.model
          (uToX t marg (mcSample opt.stdv r.point.u ω opt.blockSize opt.samples 0 j)))) := by
  refine ⟨by unfold importanceNew; rw [hF], ?_⟩
  obtain ⟨ev0, t, hi, -, -⟩ := formRun_done hF
  refine ⟨ev0, t, hi, ?_⟩
  intro marg f q
  obtain ⟨Ro1, h1⟩ := initRun_again hi hd
  have hd1 : SameDefinition (s.model.setModifiedCorrelation Ro1) ev.model :=
    ⟨hd.vars, hd.names, hd.marg, hd.correlation, hd.consts⟩
  obtain ⟨Ro2, h2⟩ := initRun_again (s := { s with model := s.model.setModifiedCorrelation Ro1 }) hi hd1
  obtain ⟨s2, hs2⟩ : ∃ s2 : Ev Marginal, s2 = { s with model := (s.model.setModifiedCorrelation Ro1).setModifiedCorrelation Ro2 } :=
    ⟨_, rfl⟩
  have hd2 : SameDefinition s2.model ev.model := by
    rw [hs2]; exact ⟨hd.vars, hd.names, hd.marg, hd.correlation, hd.consts⟩
  have hr2 : Reachable s2.model := by rw [hs2]; exact reachable_setRo (reachable_setRo hsr _) _
  have hn2 : s2.model.nMarg ≤ n := by unfold StochModel.nMarg at hn ⊢; rw [hd2.marg, hn]
  have hne2 : s2.model.getNames ≠ [] := by unfold StochModel.getNames at hne ⊢; rw [hd2.names]; exact hne
  have hfe : (fun x : Fin n → ℝ => g (pointArgs s2.model x)) = f := funext fun x => by rw [pointArgs_same hd2]
  obtain ⟨res, tr, e1, e2, e3, e4⟩ := C37_evaluations (t := t) (marg := marg) hp c.lsopt hbs hmp (fun i => (marg i).stdv) s2
    hr2 hn2 hne2 hg hb hN hs (some r.point.u) ω 0 c.fuel hf
  obtain ⟨res', e1', k1, k2, k3, k4, k5, k6, k7, -⟩ := C37_run (t := t) (marg := marg)
    (ls_values hp c.lsopt hbs hmp (fun i => (marg i).stdv) s2.model hr2 hn2 hne2) hg hb hN hs (some r.point.u) ω 0 c.fuel hf
    s2 ⟨0, rfl⟩
  rw [e1] at e1'
  simp only [Option.some.injEq, Except.ok.injEq] at e1'
  subst e1'
  rw [hfe] at k3 k4 k7
  obtain ⟨-, -, c3⟩ := C69_rerun old t marg (lsEvaluator c.expr c.lsopt (fun i => (marg i).stdv)) opt (some r.point.u) ω 0
    c.fuel s2
  obtain ⟨r', f1, f2, f3, f4, f5, -, f7, -⟩ := c3 res e1
  have hrun : importanceRun c n old opt r.point.u ω print s = some (print, r'.st.s, .simulation r'.forget) := by
    unfold importanceRun
    rw [h1]
    dsimp only
    rw [h2]
    dsimp only
    rw [← hs2, margN_same (s := (s.model.setModifiedCorrelation Ro1).setModifiedCorrelation Ro2) (t := ev.model) ⟨hd.vars, hd.names, hd.marg, hd.correlation, hd.consts⟩,
      evaluator_same (s := (s.model.setModifiedCorrelation Ro1).setModifiedCorrelation Ro2) (t := ev.model) ⟨hd.vars, hd.names, hd.marg, hd.correlation, hd.consts⟩]
    unfold evaluator
    rw [f1]
    rfl
  refine ⟨_, _, hrun, ?_⟩
  simp only [MonteCarlo.Result.forget, MonteCarlo.State.forget]
  rw [f5, f2, f3, f4, f7]
  refine ⟨k1, k2, k3, k4, k5, k7, ?_, ?_, tr, ?_, ?_⟩
  · rw [e2, hs2]; rfl
  · rw [e2]; exact ⟨hd2.vars, hd2.names, hd2.marg, hd2.correlation, hd2.consts⟩
  · rw [e3, hs2]
  · rw [e4]
    refine List.map_congr_left fun j _ => ?_
    rw [pointArgs_same hd2]; rfl

/-- C71: importance sampling is unbiased, whatever FORM converged to: for a positive number of samples and no target
coefficient of variation, the expectation of `Pf` over the draws is the probability of a negative limit state. -/
theorem C71_unbiased {g : Dict String ℝ → ℝ} (hp : Pointwise c.expr g) (hbs : 1 ≤ c.lsopt.blockSize)
    (hmp : c.lsopt.multiProc ≠ 0) {ev ev0 ev1 s : Ev Marginal} (hn : ev.model.nMarg = n) (hne : ev.model.getNames ≠ [])
    {fopt : Form.Options} {r : Form.Result n} (hF : formRun c n fopt ev = some (ev1, .inl r))
    {t : Mats n} (hi : initRun c n ev = (ev0, .ok t))
    (hd : SameDefinition s.model ev.model) (hsr : Reachable s.model)
    (hA : MeasurableSet {u : Fin n → ℝ | g (pointArgs ev.model (uToX t (margN n c.default ev.model) u)) < 0})
    {opt : MonteCarlo.Options} (hg : opt.randomGenerator = 0) (hb : 1 ≤ opt.blockSize) (hN : 1 ≤ opt.samples)
    (hs : 0 < opt.stdv) (hcov : opt.cov ≤ 0) (hf : opt.samples ≤ c.fuel) (old : MonteCarlo.Records n) (print : Bool) :
    importanceNew c n fopt ev = some (ev1, .inl r.point.u) ∧
    ∃ Pf : (ℕ → ℝ) → ℝ,
      (∀ ω, ∃ s' res, importanceRun c n old opt r.point.u ω print s = some (print, s', .simulation res) ∧
        res.st.k = opt.samples ∧ res.Pf = Pf ω) ∧
      Integrable Pf stream ∧
      ∫ ω, Pf ω ∂stream = (stdGauss n).real {u | g (pointArgs ev.model (uToX t (margN n c.default ev.model) u)) < 0} := by
  refine ⟨by unfold importanceNew; rw [hF], ?_⟩
  obtain ⟨Ro1, h1⟩ := initRun_again hi hd
  obtain ⟨Ro2, h2⟩ := initRun_again (s := { s with model := s.model.setModifiedCorrelation Ro1 }) hi
    ⟨hd.vars, hd.names, hd.marg, hd.correlation, hd.consts⟩
  obtain ⟨s2, hs2⟩ : ∃ s2 : Ev Marginal, s2 = { s with model := (s.model.setModifiedCorrelation Ro1).setModifiedCorrelation Ro2 } :=
    ⟨_, rfl⟩
  have hd2 : SameDefinition s2.model ev.model := by
    rw [hs2]; exact ⟨hd.vars, hd.names, hd.marg, hd.correlation, hd.consts⟩
  have hr2 : Reachable s2.model := by rw [hs2]; exact reachable_setRo (reachable_setRo hsr _) _
  have hn2 : s2.model.nMarg ≤ n := by unfold StochModel.nMarg at hn ⊢; rw [hd2.marg, hn]
  have hne2 : s2.model.getNames ≠ [] := by unfold StochModel.getNames at hne ⊢; rw [hd2.names]; exact hne
  have hfe : (fun x : Fin n → ℝ => g (pointArgs s2.model x)) = fun x => g (pointArgs ev.model x) :=
    funext fun x => by rw [pointArgs_same hd2]
  have hv := ls_values (n := n) hp c.lsopt hbs hmp (fun i => (margN n c.default ev.model i).stdv) s2.model hr2 hn2 hne2
  rw [hfe] at hv
  obtain ⟨Pf, hPf, hint, hE⟩ := C38_unbiased (t := t) (marg := margN n c.default ev.model) hv hA hg hb hN hs hcov
    (some r.point.u) 0 c.fuel hf s2 ⟨0, rfl⟩
  refine ⟨Pf, fun ω => ?_, hint, hE⟩
  obtain ⟨res, e1, e2, e3⟩ := hPf ω
  obtain ⟨-, -, c3⟩ := C69_rerun old t (margN n c.default ev.model)
    (lsEvaluator c.expr c.lsopt (fun i => (margN n c.default ev.model i).stdv)) opt (some r.point.u) ω 0 c.fuel s2
  obtain ⟨r', f1, f2, -, -, f5, -⟩ := c3 res e1
  refine ⟨r'.st.s, r'.forget, ?_, ?_, ?_⟩
  · unfold importanceRun
    rw [h1]
    dsimp only
    rw [h2]
    dsimp only
    rw [← hs2, margN_same (s := (s.model.setModifiedCorrelation Ro1).setModifiedCorrelation Ro2) (t := ev.model) ⟨hd.vars, hd.names, hd.marg, hd.correlation, hd.consts⟩,
      evaluator_same (s := (s.model.setModifiedCorrelation Ro1).setModifiedCorrelation Ro2) (t := ev.model) ⟨hd.vars, hd.names, hd.marg, hd.correlation, hd.consts⟩]
    unfold evaluator
    rw [f1]
    rfl
  · simp only [MonteCarlo.Result.forget, MonteCarlo.State.forget]; rw [f5, e2]
  · simp only [MonteCarlo.Result.forget]; rw [f2, e3]

/-- C71: the option `print_output`: a run that gives a result leaves it as it was; a run that raises once the printing was
switched off leaves it switched off. -/
theorem C71_print {old : MonteCarlo.Records n} {opt : MonteCarlo.Options} {point : Fin n → ℝ} {ω : ℕ → ℝ} {print b : Bool}
    {s s' : Ev Marginal} {o : Out n} (h : importanceRun c n old opt point ω print s = some (b, s', o)) :
    (∀ e, o ≠ .raised e) ∧ b = print ∨
    (∃ e, o = .raised e) ∧ (initRun c n s).2.isOk = false ∧ b = print ∨
    (∃ e, o = .raised e) ∧ (initRun c n s).2.isOk = true ∧ b = false := by
  unfold importanceRun at h
  rcases hi : initRun c n s with ⟨s1, e | t⟩
  · rw [hi] at h
    simp only [Option.some.injEq, Prod.mk.injEq] at h
    obtain ⟨rfl, rfl, rfl⟩ := h
    exact Or.inr (Or.inl ⟨⟨_, rfl⟩, rfl, rfl⟩)
  · rw [hi] at h
    dsimp only at h
    rcases hi2 : initRun c n s1 with ⟨s2, e | t2⟩
    · rw [hi2] at h
      simp only [Option.some.injEq, Prod.mk.injEq] at h
      obtain ⟨rfl, rfl, rfl⟩ := h
      exact Or.inr (Or.inr ⟨⟨_, rfl⟩, rfl, rfl⟩)
    · rw [hi2] at h
      dsimp only at h
      generalize simOut (MonteCarlo.runOn old t2 _ _ opt (some point) ω 0 c.fuel s2) = x at h
      rcases x with _ | ⟨s3, o3⟩
      · cases h
      · cases o3 <;> simp only [Option.some.injEq, Prod.mk.injEq] at h <;> obtain ⟨rfl, rfl, rfl⟩ := h
        · exact Or.inr (Or.inr ⟨⟨_, rfl⟩, rfl, rfl⟩)
        all_goals exact Or.inl ⟨by simp, rfl⟩

/-- C71: if FORM fails in the constructor, there is no importance-sampling object: the caller sees FORM's exception. -/
theorem C71_constructor {fopt : Form.Options} {ev ev1 : Ev Marginal} {o : Out n}
    (h : formRun c n fopt ev = some (ev1, .inr o)) : importanceNew c n fopt ev = some (ev1, .inr o) := by
  unfold importanceNew; rw [h]

/-! Independent normal variables and an affine limit state: every hypothesis above is met. -/

/-- `init_run` on a model whose correlation matrix is the one `addVariable` stores. -/
theorem initRun_eye (hla : LinAlgOK c.la) {ev : Ev Marginal} (hn : ev.model.marg.length = n)
    (hc : ev.model.correlation = some (NDArray2.eye n)) :
    ∃ Ro t, initRun c n ev = ({ ev with model := ev.model.setModifiedCorrelation Ro }, .ok t) ∧
      Transformation.compute c.la c.ty (1 : Matrix (Fin n) (Fin n) ℝ) = .ok t := by
  subst hn
  obtain ⟨t, ht, -⟩ := C22_posdef hla c.ty (Matrix.PosDef.one (n := Fin ev.model.marg.length) (R := ℝ))
  obtain ⟨Ro, h1, -⟩ := C25_entries c.fmin (fun i => (ev.model.marg.map DistObj.body).getD i c.default)
    (1 : Matrix (Fin ev.model.marg.length) (Fin ev.model.marg.length) ℝ)
  have h2 := (C25_zero _ _ _ _ h1).2 (fun i j hij => by simp [hij.ne'])
  subst h2
  refine ⟨NDArray2.eye ev.model.marg.length, t, ?_, ht⟩
  have hgen : ∀ R : Matrix (Fin ev.model.marg.length) (Fin ev.model.marg.length) ℝ,
      ev.model.correlation = some ⟨_, _, R⟩ →
      Correlation.computeSquare c.fmin ev.model.marg.length (fun i => (ev.model.marg.map DistObj.body).getD i c.default) R =
        .ok 1 → Correlation.compute c.fmin c.default ev.model = .ok (NDArray2.eye ev.model.marg.length) := by
    intro R hR h1
    unfold Correlation.compute StochModel.getCorrelation
    rw [hR]
    simp only [dif_pos]
    have e : (fun a b => R a (Fin.cast (rfl : ev.model.marg.length = ev.model.marg.length).symm b)) = R := rfl
    rw [e, h1]
    rfl
  have hcomp := hgen 1 hc h1
  unfold initRun Correlation.setModified
  rw [hcomp]
  simp only [StochModel.setModifiedCorrelation]
  rw [dif_pos ⟨rfl, rfl⟩]
  simp only [Prod.mk.injEq, true_and]
  exact ht

/-- C71: for independent normal variables and an affine limit state, the constructor of importance sampling always succeeds,
from any starting point: the centre is the point of the failure boundary nearest to the origin, and the simulation is
unbiased. -/
theorem C71_linear (hla : LinAlgOK c.la) {g : Dict String ℝ → ℝ} (hp : Pointwise c.expr g)
    (hbs : 1 ≤ c.lsopt.blockSize) (hpara : c.lsopt.ffdpara ≠ 0) (hmp : c.lsopt.multiProc ≠ 0)
    (hd1 : c.lsopt.diffMode ≠ "no") (hd2 : c.lsopt.diffMode ≠ "ddm") {ev : Ev Marginal} (hmod : Reachable ev.model)
    (hn : ev.model.marg.length = n) (hne : ev.model.getNames ≠ [])
    (hcor : ev.model.correlation = some (NDArray2.eye n)) {μ sd : Fin n → ℝ} {sp : Fin n → Option ℝ} (hsd : ∀ i, 0 < sd i)
    (hm : ∀ i, Normal.new (μ i) (.fin (sd i)) (sp i) = .ok (margN n c.default ev.model i)) (a0 : ℝ) (a : Fin n → ℝ)
    (ha : a ≠ 0) (haff : ∀ p : Fin n → ℝ, g (pointArgs ev.model p) = a0 + ∑ i, a i * p i)
    (fopt : Form.Options) (hst : fopt.stepSize = 1) (he1 : 0 < fopt.e1) (he1' : fopt.e1 ≤ 1) (he2 : 0 < fopt.e2)
    (hi : 2 ≤ fopt.iMax) (hff : fopt.iMax ≤ c.fuel)
    {opt : MonteCarlo.Options} (hg : opt.randomGenerator = 0) (hb : 1 ≤ opt.blockSize) (hN : 1 ≤ opt.samples)
    (hs : 0 < opt.stdv) (hcov : opt.cov ≤ 0) (hf : opt.samples ≤ c.fuel) (print : Bool) :
    ∃ ev1 t r Pf, importanceNew c n fopt ev = some (ev1, .inl r) ∧
      Transformation.compute c.la c.ty (1 : Matrix (Fin n) (Fin n) ℝ) = .ok t ∧
      g (pointArgs ev.model (uToX t (margN n c.default ev.model) r)) = 0 ∧
      norm2 r = |a0 + ∑ i, a i * μ i| / √(∑ i, (a i * sd i) ^ 2) ∧
      (∀ ω, ∃ ev2 res, importanceRun c n .fresh opt r ω print ev1 = some (print, ev2, .simulation res) ∧ res.Pf = Pf ω) ∧
      Integrable Pf stream ∧
      ∫ ω, Pf ω ∂stream = (stdGauss n).real {u | g (pointArgs ev.model (uToX t (margN n c.default ev.model) u)) < 0} := by
  obtain ⟨Ro, t, h0, ht⟩ := initRun_eye hla hn hcor
  obtain ⟨ev0, he0⟩ : ∃ ev0 : Ev Marginal, ev0 = { ev with model := ev.model.setModifiedCorrelation Ro } := ⟨_, rfl⟩
  have hd0 : SameDefinition ev0.model ev.model := by rw [he0]; exact ⟨rfl, rfl, rfl, rfl, rfl⟩
  obtain ⟨r, ev1, r1, r2, r3, r4, r5, r6, r7⟩ := C30_ffd hla (Matrix.PosDef.one (n := Fin n) (R := ℝ)) ht hsd hm hp c.lsopt hbs
    hpara hmp hd1 hd2 ev0 (by rw [he0]; exact reachable_setRo hmod _)
    (by unfold StochModel.nMarg; rw [hd0.marg, hn]) (by unfold StochModel.getNames; rw [hd0.names]; exact hne) a0 a ha
    (fun p => by rw [pointArgs_same hd0, haff]) fopt hst he1 he1' he2 hi c.fuel hff
  have hF : formRun c n fopt ev = some (ev1, .inl r) := by
    unfold formRun withInit
    rw [h0]
    dsimp only
    rw [← he0]
    rw [margN_same (s := ev.model.setModifiedCorrelation Ro) (t := ev.model) ⟨rfl, rfl, rfl, rfl, rfl⟩,
      evaluator_same (s := ev.model.setModifiedCorrelation Ro) (t := ev.model) ⟨rfl, rfl, rfl, rfl, rfl⟩]
    unfold evaluator
    rw [r1]
  obtain ⟨ev0', t', h0', -, j, T, hS⟩ := formRun_done hF
  have hA : MeasurableSet {u : Fin n → ℝ | g (pointArgs ev.model (uToX t (margN n c.default ev.model) u)) < 0} := by
    have : (fun u : Fin n → ℝ => g (pointArgs ev.model (uToX t (margN n c.default ev.model) u))) =
        fun u => a0 + ∑ i, a i * (μ i + sd i * (t.invT.mulVec u) i) := by
      funext u
      rw [haff]
      congr 1
      refine Finset.sum_congr rfl fun i _ => ?_
      simp only [uToX, (normal_ok (hm i)).1, Normal.uToX]
      ring
    have hmeas : Measurable (fun u : Fin n → ℝ => g (pointArgs ev.model (uToX t (margN n c.default ev.model) u))) := by
      rw [this]
      apply Continuous.measurable
      simp only [Matrix.mulVec, dotProduct]
      fun_prop
    exact hmeas measurableSet_Iio
  obtain ⟨u1, Pf, u2, u3, u4⟩ := C71_unbiased hp hbs hmp hn hne hF h0 hS.definition (hS.reachable hmod) hA hg hb hN hs hcov hf
    .fresh print
  refine ⟨ev1, t, _, Pf, u1, ht, ?_, ?_, fun ω => ?_, u3, u4⟩
  · rw [← (C29_identities r1).1, ← pointArgs_same hd0]
    exact r5
  · obtain ⟨t'', ht'', -, -, hTi⟩ := C22_posdef hla c.ty (Matrix.PosDef.one (n := Fin n) (R := ℝ))
    rw [ht] at ht''; injection ht'' with ht''; subst ht''
    have hw : Matrix.vecMul (fun i => a i * sd i) t.invT ≠ 0 := by
      intro h
      apply ha
      have := congrArg (fun v => Matrix.vecMul v t.T) h
      simp only [Matrix.vecMul_vecMul, hTi, Matrix.vecMul_one, Matrix.zero_vecMul] at this
      funext i
      exact (mul_eq_zero.1 (congrFun this i)).resolve_right (hsd i).ne'
    have hu := alpha_unit hw
    rw [← r7, dot_self] at hu
    have hsq : norm2 r.point.u ^ 2 = r.beta ^ 2 := by
      rw [r4, ← dot_self, smul_dotProduct, dotProduct_smul, dot_self, hu]
      simp [pow_two]
    have hb' : norm2 r.point.u = |r.beta| := by
      rw [← abs_of_nonneg (norm2_nonneg r.point.u)]
      exact (sq_eq_sq_iff_abs_eq_abs _ _).1 hsq
    rw [hb', r2, abs_div, abs_of_nonneg (Real.sqrt_nonneg _)]
    congr 2
    refine Finset.sum_congr rfl fun i _ => ?_
    rw [Finset.sum_eq_single i (fun j _ h => by simp [Matrix.one_apply_ne h.symm]) (by simp)]
    simp [pow_two]
  · obtain ⟨s', res, v1, -, v2⟩ := u2 ω
    exact ⟨s', res, v1, v2⟩

/-- A vectorised function from a scalar one. -/
noncomputable def vectorised (g : Dict String ℝ → ℝ) (kw : Kwargs) : GRet :=
  .val (.arr ((List.range ((kw.head?.map (fun e => e.2.length)).getD 0)).map (fun i => g (column kw i))))

theorem vectorised_pointwise (g : Dict String ℝ → ℝ) : Pointwise (vectorised g) g := by
  intro kw nc hne hl
  cases kw with
  | nil => exact absurd rfl hne
  | cons e kw =>
    unfold vectorised
    simp [hl e (by simp)]

/-- A concrete case of everything C70 and C71 assume: two independent normal variables, `g = 7 - X - 2Y`, analysed by
importance sampling, by crude Monte Carlo and by FORM, in that order, on one model object. -/
example : ∃ (c : Setup) (ev : Ev Marginal) (g : Dict String ℝ → ℝ), Pointwise c.expr g ∧ Reachable ev.model ∧
    (∃ ev1 t u, importanceNew c 2 ⟨100, 0.001, 0.001, 1, 1⟩ ev = some (ev1, .inl u) ∧
      g (pointArgs ev.model (uToX t (margN 2 c.default ev.model) u)) = 0 ∧ norm2 u = 2 / √5 ∧
      ∀ ω print, ∃ ev2 res, importanceRun c 2 .fresh ⟨1000, 100, 1, 0, 0⟩ u ω print ev1 = some (print, ev2, .simulation res)) ∧
    ∀ ω, ∃ ev' outs, session (m := 1) c [.importance ⟨100, 0.001, 0.001, 1, 1⟩ ⟨1000, 100, 1, 0, 0⟩ ω,
      .crude ⟨1000, 100, 1, 0, 0⟩ none ω, .form ⟨100, 0.001, 0.001, 1, 1⟩] ev = some (ev', outs) := by
  obtain ⟨la, hla⟩ := linAlgOK_exists
  obtain ⟨m1, h1⟩ : ∃ m, Normal.new 1 (.fin (1 : ℝ)) none = .ok m := ⟨_, rfl⟩
  obtain ⟨m2, h2⟩ : ∃ m, Normal.new 2 (.fin (1 : ℝ)) none = .ok m := ⟨_, rfl⟩
  obtain ⟨g, hg⟩ : ∃ g : Dict String ℝ → ℝ, g = fun d => 7 - (d.map Prod.snd).getD 0 0 - 2 * (d.map Prod.snd).getD 1 0 :=
    ⟨_, rfl⟩
  obtain ⟨c, hc⟩ : ∃ c : Setup, c = ⟨fun _ x => x, m1, la, fun _ _ => [], .cholesky, vectorised g, ⟨"ffd", 1, 1000, 1000⟩, 1000⟩ :=
    ⟨_, rfl⟩
  obtain ⟨ev, hev⟩ : ∃ ev : Ev Marginal, ev = ⟨StochModel.init.run
      [.add (.distribution ⟨"X", m1⟩), .add (.distribution ⟨"Y", m2⟩)], []⟩ := ⟨_, rfl⟩
  have hmarg : ev.model.marg = [⟨"X", m1⟩, ⟨"Y", m2⟩] := by
    rw [hev]; simp [StochModel.run, StochModel.step, StochModel.addVariable, StochModel.init]
  have hvars : ev.model.vars = [("X", ⟨"X", m1⟩), ("Y", ⟨"Y", m2⟩)] := by
    rw [hev]; simp [StochModel.run, StochModel.step, StochModel.addVariable, StochModel.init, Dict.set]
  have hnames : ev.model.names = ["X", "Y"] := by
    rw [hev]; simp [StochModel.run, StochModel.step, StochModel.addVariable, StochModel.init]
  have hconsts : ev.model.consts = [] := by
    rw [hev]; simp [StochModel.run, StochModel.step, StochModel.addVariable, StochModel.init]
  have hcor : ev.model.correlation = some (NDArray2.eye 2) := by
    rw [hev]; simp [StochModel.run, StochModel.step, StochModel.addVariable, StochModel.init]
  have hreach : Reachable ev.model := by rw [hev]; exact ⟨_, rfl⟩
  have hp : Pointwise c.expr g := by rw [hc]; exact vectorised_pointwise g
  have hargs : ∀ p : Fin 2 → ℝ, g (pointArgs ev.model p) = 7 + ∑ i, ![-1, -2] i * p i := by
    intro p
    rw [hg]
    unfold pointArgs StochModel.getVariables StochModel.getConstants
    rw [hvars, hconsts]
    simp [Dict.keys, List.ofFn_succ, Fin.sum_univ_two]
    ring
  have hm : ∀ i : Fin 2, Normal.new (![1, 2] i) (.fin ((fun _ => 1 : Fin 2 → ℝ) i)) ((fun _ => none : Fin 2 → Option ℝ) i) =
      .ok (margN 2 c.default ev.model i) := by
    intro i
    unfold margN
    rw [hmarg]
    fin_cases i
    · simpa using h1
    · simpa using h2
  have hlin := fun print => C71_linear (c := c) (n := 2) (by rw [hc]; exact hla) hp (by rw [hc]; norm_num) (by rw [hc]; norm_num)
    (by rw [hc]; norm_num) (by rw [hc]; simp) (by rw [hc]; simp) hreach (by rw [hmarg]; rfl)
    (by unfold StochModel.getNames; rw [hnames]; simp) hcor (fun _ => one_pos) hm 7 ![-1, -2]
    (by intro h; simpa using congrFun h 0) hargs ⟨100, 0.001, 0.001, 1, 1⟩ rfl (by norm_num) (by norm_num) (by norm_num)
    (by norm_num) (by rw [hc]; norm_num) (opt := ⟨1000, 100, 1, 0, 0⟩) rfl (by norm_num) (by norm_num) (by norm_num) le_rfl
    (by rw [hc]) print
  refine ⟨c, ev, g, hp, hreach, ?_, fun ω => ?_⟩
  · obtain ⟨ev1, t, u, -, i1, -, i3, i4, -⟩ := hlin false
    refine ⟨ev1, t, u, i1, i3, ?_, fun ω print => ?_⟩
    · rw [i4]
      congr 1
      · simp [Fin.sum_univ_two]; norm_num
      · congr 1
        simp [Fin.sum_univ_two]; norm_num
    · obtain ⟨ev1', t', u', Pf, j1, -, -, -, j5, -⟩ := hlin print
      rw [i1] at j1
      simp only [Option.some.injEq, Prod.mk.injEq, Sum.inl.injEq] at j1
      obtain ⟨rfl, rfl⟩ := j1
      obtain ⟨ev2, res, k1, -⟩ := j5 ω
      exact ⟨ev2, res, k1⟩
  · have hends : (session (m := 1) c [.importance ⟨100, 0.001, 0.001, 1, 1⟩ ⟨1000, 100, 1, 0, 0⟩ ω,
        .crude ⟨1000, 100, 1, 0, 0⟩ none ω, .form ⟨100, 0.001, 0.001, 1, 1⟩] ev).isSome := by
      rw [C70_terminates]
      intro job hj
      apply C70_ends
      rw [hc]
      simp only [List.mem_cons, List.not_mem_nil, or_false] at hj
      rcases hj with rfl | rfl | rfl <;> simp [Bounded]
    obtain ⟨⟨ev', outs⟩, h⟩ := Option.isSome_iff_exists.1 hends
    exact ⟨ev', outs, h⟩

end Pystra.Props
