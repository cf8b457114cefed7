import Verif.Props.OptionsReads
import Verif.Props.Noninterference
import Verif.Props.FormCalls
import Verif.Props.Subset
import Verif.Props.MonteCarlo
import Verif.Props.Importance

/-! C84, continued: what the values of the options mean to a run. -/

namespace Pystra.Props
open Opts Spec Transformation Form

theorem readAs_count {o : Opts.Obj} {name : String} {k : ℕ} : readAs asNat (attr o name) = some k ↔
    ∃ v, attr o name = .ok v ∧ IsCount v k := by
  unfold readAs
  rcases h : attr o name with e | v
  · simp
  · simp only [Except.ok.injEq, exists_eq_left']
    rcases v with _ | b | z | r | t
    · simp only [asNat]
      constructor
      · intro h; cases h
      · intro h; cases h
    · rcases b <;> simp only [asNat, if_true, Option.some.injEq] <;> constructor
      · intro h; simp at h; subst h; exact .no
      · intro h; cases h; rfl
      · intro h; subst h; exact .yes
      · intro h; cases h; rfl
    · simp only [asNat]
      constructor
      · intro h
        split at h
        · next hz =>
          cases h
          have := IsCount.int z.toNat
          rwa [Int.toNat_of_nonneg hz] at this
        · cases h
      · intro h; cases h; simp
    · simp only [asNat]
      constructor
      · intro h; cases h
      · intro h; cases h
    · simp only [asNat]
      constructor
      · intro h; cases h
      · intro h; cases h

theorem readAs_number {o : Opts.Obj} {name : String} {x : ℝ} : readAs asReal (attr o name) = some x ↔
    ∃ v, attr o name = .ok v ∧ IsNumber v x := by
  unfold readAs
  rcases h : attr o name with e | v
  · simp
  · simp only [Except.ok.injEq, exists_eq_left']
    rcases v with _ | b | z | r | t
    · simp only [asReal]
      constructor
      · intro h; cases h
      · intro h; cases h
    · rcases b <;> simp only [asReal, if_true, Option.some.injEq] <;> constructor
      · intro h; simp at h; subst h; exact .no
      · intro h; cases h; simp
      · intro h; subst h; exact .yes
      · intro h; cases h; rfl
    · simp only [asReal, Option.some.injEq]
      constructor
      · intro h; subst h; exact .int z
      · intro h; cases h; rfl
    · simp only [asReal, Option.some.injEq]
      constructor
      · intro h; subst h; exact .float r
      · intro h; cases h; rfl
    · simp only [asReal]
      constructor
      · intro h; cases h
      · intro h; cases h

theorem readAs_mode {o : Opts.Obj} {name : String} {mode : String}
    (h : readAs (fun v => some (asMode v)) (attr o name) = some mode) : ∃ v, attr o name = .ok v ∧ Selects v mode := by
  unfold readAs at h
  rcases h' : attr o name with e | v
  · rw [h'] at h; cases h
  · rw [h'] at h
    simp only [Option.some.injEq] at h
    subst h
    refine ⟨v, rfl, fun t ht => by subst ht; rfl, fun hv => ?_⟩
    rcases v with _ | b | z | r | t
    · simp [asMode]
    · simp [asMode]
    · simp [asMode]
    · simp [asMode]
    · exact absurd rfl (hv t)

/-- C84: the numbers a run works with are those the attributes of the options object hold at that moment; and a run can read them
whenever the attributes hold numbers (counts where counts are needed). -/
theorem C84_meaning (o : Opts.Obj) :
    (∀ s, Opts.settings o = some s →
      (∀ p ∈ [("i_max", s.form.iMax), ("multi_proc", s.form.multiProc), ("multi_proc", s.lsf.multiProc), ("block_size", s.lsf.blockSize),
        ("samples", s.mc.samples), ("block_size", s.mc.blockSize), ("random_generator", s.mc.randomGenerator)],
        ∃ v, attr o p.1 = .ok v ∧ IsCount v p.2) ∧
      (∀ p ∈ [("e1", s.form.e1), ("e2", s.form.e2), ("step_size", s.form.stepSize), ("ffdpara", s.lsf.ffdpara), ("stdv_sim", s.mc.stdv),
        ("target_cov", s.mc.cov)], ∃ v, attr o p.1 = .ok v ∧ IsNumber v p.2) ∧
      ∃ v, attr o "diff_mode" = .ok v ∧ Selects v s.lsf.diffMode) ∧
    ((∀ name ∈ ["i_max", "multi_proc", "block_size", "samples", "random_generator"], ∃ v k, attr o name = .ok v ∧ IsCount v k) →
      (∀ name ∈ ["e1", "e2", "step_size", "ffdpara", "stdv_sim", "target_cov"], ∃ v x, attr o name = .ok v ∧ IsNumber v x) →
      (∃ v, attr o "diff_mode" = .ok v) → ∃ s, Opts.settings o = some s) := by
  refine ⟨fun s hs => ?_, fun h1 h2 h3 => ?_⟩
  · obtain ⟨a1, a2, a3, a4, a5, a6, a7, a8, a9, a10, a11, a12, a13, a14⟩ := settings_spec o s hs
    refine ⟨?_, ?_, readAs_mode a6⟩
    · simp only [List.mem_cons, List.not_mem_nil, or_false]
      rintro p (rfl | rfl | rfl | rfl | rfl | rfl | rfl)
      exacts [readAs_count.1 a1, readAs_count.1 a5, readAs_count.1 a7, readAs_count.1 a8, readAs_count.1 a10, readAs_count.1 a11,
        readAs_count.1 a14]
    · simp only [List.mem_cons, List.not_mem_nil, or_false]
      rintro p (rfl | rfl | rfl | rfl | rfl | rfl)
      exacts [readAs_number.1 a2, readAs_number.1 a3, readAs_number.1 a4, readAs_number.1 a9, readAs_number.1 a12, readAs_number.1 a13]
  · have c : ∀ name ∈ ["i_max", "multi_proc", "block_size", "samples", "random_generator"], ∃ k, readAs asNat (attr o name) = some k := by
      intro name hn
      obtain ⟨v, k, h⟩ := h1 name hn
      exact ⟨k, readAs_count.2 ⟨v, h⟩⟩
    have d : ∀ name ∈ ["e1", "e2", "step_size", "ffdpara", "stdv_sim", "target_cov"], ∃ k, readAs asReal (attr o name) = some k := by
      intro name hn
      obtain ⟨v, k, h⟩ := h2 name hn
      exact ⟨k, readAs_number.2 ⟨v, h⟩⟩
    obtain ⟨v, hv⟩ := h3
    obtain ⟨c1, k1⟩ := c "i_max" (by simp)
    obtain ⟨c2, k2⟩ := c "multi_proc" (by simp)
    obtain ⟨c3, k3⟩ := c "block_size" (by simp)
    obtain ⟨c4, k4⟩ := c "samples" (by simp)
    obtain ⟨c5, k5⟩ := c "random_generator" (by simp)
    obtain ⟨d1, l1⟩ := d "e1" (by simp)
    obtain ⟨d2, l2⟩ := d "e2" (by simp)
    obtain ⟨d3, l3⟩ := d "step_size" (by simp)
    obtain ⟨d4, l4⟩ := d "ffdpara" (by simp)
    obtain ⟨d5, l5⟩ := d "stdv_sim" (by simp)
    obtain ⟨d6, l6⟩ := d "target_cov" (by simp)
    have hm : readAs (fun v => some (asMode v)) (attr o "diff_mode") = some (asMode v) := by rw [hv]; rfl
    simp only [Opts.settings, readForm, readLsf, readMc, callGetter, k1, k2, k3, k4, k5, l1, l2, l3, l4, l5, l6, hm,
      Option.bind_eq_bind, Option.bind_some, Option.pure_def]
    exact ⟨_, rfl⟩

theorem lines_count {σ : Type} {n : ℕ} (t : Mats n) (marg : Fin n → Marginal) (ev : Evaluator σ n) (alpha : Fin n → ℝ) (c : ℝ) :
    ∀ (vs : List (Fin n → ℝ)) (s : σ), (LineSampling.lines t marg ev alpha c vs s).2.length = vs.length
  | [], _ => rfl
  | v :: vs, s => by
    simp only [LineSampling.lines, List.length_cons]
    rw [lines_count t marg ev alpha c vs]

/-- When FORM gives no result, the outcome is an exception or NaN. -/
theorem formRun_none {c : Session.Setup} {n : ℕ} {opt : Form.Options} {ev ev' : Ev Marginal} {o : Session.Out n}
    (h : Session.formRun c n opt ev = some (ev', .inr o)) : o = .nan ∨ ∃ e, o = .raised e := by
  unfold Session.formRun Session.withInit at h
  rcases hI : Session.initRun c n ev with ⟨ev0, e | t⟩
  · rw [hI] at h
    simp only [Option.some.injEq, Prod.mk.injEq, Sum.inr.injEq] at h
    exact .inr ⟨e, h.2.symm⟩
  · rw [hI] at h
    dsimp only at h
    generalize runFrom t (Session.margN n c.default ev0.model) (Session.evaluator c n ev0.model) opt c.fuel ev0 = x at h
    rcases x with _ | _ | _ | _ | _ <;> simp at h
    · exact .inr ⟨_, h.2.symm⟩
    · exact .inl h.2.symm

/-- C84: the options reach the run.  A FORM run makes at most `i_max` iterations and stops earlier only by the criterion with `e1` and
`e2`; a crude Monte Carlo run draws at most `samples` points and stops earlier only after whole blocks of `block_size`, when the
coefficient of variation is at most `target_cov`; a distribution analysis stores exactly `samples` points; subset simulation evaluates
`samples` points per level; line sampling uses `samples` lines. -/
theorem C84_reach (env : Session.Setup) (ty : TransformType) (s : Settings) (ω υ : ℕ → ℝ) {g : Dict String ℝ → ℝ}
    (hp : Pointwise env.expr g) (hbs : 1 ≤ s.lsf.blockSize) (hmp : s.lsf.multiProc ≠ 0) (hi : 1 ≤ s.form.iMax)
    (hb : 1 ≤ s.mc.blockSize) (hN : 1 ≤ s.mc.samples) (hg : s.mc.randomGenerator = 0) (hs : 0 < s.mc.stdv)
    (hf1 : s.form.iMax ≤ env.fuel) (hf2 : s.mc.samples ≤ env.fuel) {m : ℕ} (ev ev' : Ev Marginal) (hm : Reachable ev.model)
    (hn : ev.model.nMarg ≤ m + 1) (hne : ev.model.getNames ≠ []) :
    (∀ r, Opts.analyse env (m := m) ty s ω υ .form ev = some (ev', .form r) →
      1 ≤ r.i ∧ r.i ≤ s.form.iMax ∧
        (Converged s.form.e1 s.form.e2 r.point.G r.Go r.point.u r.point.gradient ∨ r.i = s.form.iMax)) ∧
    (∀ point r, Opts.analyse env (m := m) ty s ω υ (.crude point) ev = some (ev', .simulation r) →
      1 ≤ r.st.k ∧ r.st.k ≤ s.mc.samples ∧ (r.st.k = s.mc.samples ∨ s.mc.blockSize ∣ r.st.k ∧ r.st.covQBar ≤ s.mc.cov) ∧
        ev'.model.callFunction = ev.model.callFunction + r.st.k) ∧
    (∀ X G, Opts.analyse env (m := m) ty s ω υ .distribution ev = some (ev', .distribution X G) →
      X.length = s.mc.samples ∧ G.length = s.mc.samples) ∧
    (∀ p0 sigma r, 0 < p0 → p0 < 1 → Opts.analyse env (m := m) ty s ω υ (.subset p0 sigma) ev = some (ev', .subset r) →
      ev'.model.callFunction = ev.model.callFunction + s.mc.samples * r.nLevels) ∧
    (∀ r, Opts.analyse env (m := m) ty s ω υ .line ev = some (ev', .line r) →
      r.nSamples = s.mc.samples ∧ r.contribs.length = s.mc.samples) := by
  obtain ⟨c, hc⟩ : ∃ c : Session.Setup, c = { env with ty := ty, lsopt := s.lsf } := ⟨_, rfl⟩
  have e1 : c.expr = env.expr := by rw [hc]
  have e2 : c.lsopt = s.lsf := by rw [hc]
  have e3 : c.fuel = env.fuel := by rw [hc]
  have init : ∀ {ev0 : Ev Marginal} {t : Mats (m + 1)}, Session.initRun c (m + 1) ev = (ev0, .ok t) →
      Reachable ev0.model ∧ ev0.model.nMarg ≤ m + 1 ∧ ev0.model.getNames ≠ [] ∧
        ev0.model.callFunction = ev.model.callFunction := by
    intro ev0 t h
    obtain ⟨Ro, -, rfl⟩ := initRun_ok h
    exact ⟨reachable_setRo hm Ro, hn, hne, rfl⟩
  refine ⟨?_, ?_, ?_, ?_, ?_⟩
  · intro r h
    unfold Opts.analyse Opts.job Session.runJob at h
    rw [← hc] at h
    dsimp only at h
    rcases hF : Session.formRun c (m + 1) s.form ev with _ | ⟨ev1, r1 | o⟩
    · rw [hF] at h; simp at h
    · rw [hF] at h
      simp only [Option.some.injEq, Prod.mk.injEq, Session.Out.form.injEq] at h
      obtain ⟨rfl, rfl⟩ := h
      obtain ⟨ev0, t, -, hr, -⟩ := formRun_done hF
      obtain ⟨o, ho, -, h2⟩ := C28_stops t (Session.margN (m + 1) c.default ev.model) (Session.evaluator c (m + 1) ev.model) s.form
        hi ev0 c.fuel (by rw [e3]; exact hf1)
      rw [hr] at ho
      cases ho
      exact h2 _ _ rfl
    · rw [hF] at h
      simp only [Option.some.injEq, Prod.mk.injEq] at h
      obtain ⟨rfl, rfl⟩ := h
      rcases formRun_none hF with h | ⟨e, h⟩ <;> cases h
  · intro point r h
    unfold Opts.analyse Opts.job Session.runJob Session.withInit at h
    rw [← hc] at h
    dsimp only at h
    rcases hI : Session.initRun c (m + 1) ev with ⟨ev0, e | t⟩
    · rw [hI] at h; simp at h
    · rw [hI] at h
      dsimp only at h
      obtain ⟨i1, i2, i3, i4⟩ := init hI
      obtain ⟨r', tr, h1, h2, -⟩ := C37_evaluations (t := t) (marg := Session.margN (m + 1) c.default ev0.model) (e1 ▸ hp) c.lsopt
        (by rw [e2]; exact hbs) (by rw [e2]; exact hmp) (fun i => (Session.margN (m + 1) c.default ev0.model i).stdv) ev0 i1 i2 i3 hg hb
        hN hs point ω 0 c.fuel (by rw [e3]; exact hf2)
      obtain ⟨r'', k1, k2, k3, -, -, -, -, -, k4, -⟩ := C37_run (t := t) (marg := Session.margN (m + 1) c.default ev0.model)
        (ls_values (e1 ▸ hp) c.lsopt (by rw [e2]; exact hbs) (by rw [e2]; exact hmp)
          (fun i => (Session.margN (m + 1) c.default ev0.model i).stdv) ev0.model i1 i2 i3) hg hb hN hs point ω 0 c.fuel
        (by rw [e3]; exact hf2) ev0 ⟨0, rfl⟩
      rw [h1] at k1
      simp only [Option.some.injEq, Except.ok.injEq] at k1
      subst k1
      unfold Session.evaluator at h
      rw [h1] at h
      simp only [Session.simOut, Option.some.injEq, Prod.mk.injEq, Session.Out.simulation.injEq] at h
      obtain ⟨rfl, rfl⟩ := h
      refine ⟨k2, k3, k4, ?_⟩
      rw [h2, ← i4]
      rfl
  · intro X G h
    unfold Opts.analyse Opts.job Session.runJob Session.withInit at h
    rw [← hc] at h
    dsimp only at h
    rcases hI : Session.initRun c (m + 1) ev with ⟨ev0, e | t⟩
    · rw [hI] at h; simp at h
    · rw [hI] at h
      dsimp only at h
      obtain ⟨i1, i2, i3, i4⟩ := init hI
      obtain ⟨st, h1, -, h2, h3⟩ := C39_stores_every_sample (t := t) (marg := Session.margN (m + 1) c.default ev0.model)
        (ls_values (e1 ▸ hp) c.lsopt (by rw [e2]; exact hbs) (by rw [e2]; exact hmp)
          (fun i => (Session.margN (m + 1) c.default ev0.model i).stdv) ev0.model i1 i2 i3) hg hb ω 0 c.fuel
        (by rw [e3]; exact hf2) ev0 ⟨0, rfl⟩
      unfold Session.evaluator at h
      rw [h1] at h
      simp only [Option.some.injEq, Prod.mk.injEq, Session.Out.distribution.injEq] at h
      obtain ⟨-, rfl, rfl⟩ := h
      rw [h2, h3]
      simp
  · intro p0 sigma r hp0 hp1 h
    unfold Opts.analyse Opts.job Session.runJob Session.withInit at h
    rw [← hc] at h
    dsimp only at h
    rcases hI : Session.initRun c (m + 1) ev with ⟨ev0, e | t⟩
    · rw [hI] at h; simp at h
    · rw [hI] at h
      dsimp only at h
      obtain ⟨i1, i2, i3, i4⟩ := init hI
      unfold Session.evaluator at h
      generalize hx : Subset.run t (Session.margN (m + 1) c.default ev0.model) (lsEvaluator c.expr c.lsopt
        (fun i => (Session.margN (m + 1) c.default ev0.model i).stdv)) ⟨s.mc.samples, s.mc.blockSize, p0, sigma⟩ ω υ c.fuel ev0 = x at h
      rcases x with _ | ⟨⟨e, ev1⟩⟩ | r'
      · simp at h
      · simp at h
      · simp only [Option.some.injEq, Prod.mk.injEq, Session.Out.subset.injEq] at h
        obtain ⟨rfl, rfl⟩ := h
        have := C64_calls (e1 ▸ hp) c.lsopt (by rw [e2]; exact hbs) (by rw [e2]; exact hmp) _ ev0 i1 i2 i3
          ⟨s.mc.samples, s.mc.blockSize, p0, sigma⟩ hp0 hp1 hN hb ω υ c.fuel r' hx
        rw [this, ← i4]
        rfl
  · intro r h
    unfold Opts.analyse Opts.job Session.runJob Session.withInit at h
    rw [← hc] at h
    dsimp only at h
    rcases hI : Session.initRun c (m + 1) ev with ⟨ev0, e | t⟩
    · rw [hI] at h; simp at h
    · rw [hI] at h
      dsimp only at h
      rcases hF : Session.formRun c (m + 1) s.form ev0 with _ | ⟨ev1, r1 | o⟩
      · rw [hF] at h; simp at h
      · rw [hF] at h
        simp only [Option.some.injEq, Prod.mk.injEq, Session.Out.line.injEq] at h
        obtain ⟨-, rfl⟩ := h
        refine ⟨rfl, ?_⟩
        simp [LineSampling.sample, lines_count, Subset.randn]
      · rw [hF] at h
        simp only [Option.some.injEq, Prod.mk.injEq] at h
        obtain ⟨rfl, rfl⟩ := h
        rcases formRun_none hF with h | ⟨e, h⟩ <;> cases h

end Pystra.Props
