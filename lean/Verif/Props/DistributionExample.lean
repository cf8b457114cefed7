import Verif.Props.DistributionReport

/-! Concrete histories of distribution-analysis objects, to which the theorems of C88 apply. -/

namespace Pystra.Props
open Spec Transformation Form MonteCarlo StochModel

variable {n : ℕ}

/-- A run whose limit state raises in the first block. -/
theorem daRun_first_block {st : DaObj.Settings} (hg : st.opt.randomGenerator = 0) (hN : 1 ≤ st.opt.samples)
    (hb : 1 ≤ st.opt.blockSize) (hf : 1 ≤ st.c.fuel) {ev ev1 : Ev Marginal} {t : Mats n}
    (hI : Session.initRun st.c n ev = (ev1, .ok t)) {e : PyErr}
    (hev : ∀ xs, xs ≠ [] → ∃ ev2, (Session.evaluator st.c n ev1.model).values ev1 xs = (ev2, .error e)) (ω : ℕ → ℝ)
    (old : DaObj.Obj n) (pos : ℕ) :
    ∃ b ev2, DaObj.run st ω old ev pos = some (b, ev2, pos + n * min st.opt.blockSize st.opt.samples, .error e) ∧
      b.k = some (min st.opt.blockSize st.opt.samples) ∧ b.resultsValid = true ∧
      b.allX = some (List.replicate st.opt.samples (fun _ => 0)) ∧ b.allG = some ⟨false, List.replicate st.opt.samples 0⟩ ∧
      b.bins = some (computeBins st.bins st.opt.samples) ∧ b.messages = old.messages := by
  obtain ⟨f, hf'⟩ : ∃ f, st.c.fuel = f + 1 := ⟨st.c.fuel - 1, by omega⟩
  have hN' : st.opt.samples ≠ 0 := by omega
  unfold DaObj.run
  dsimp only
  rw [hI]
  dsimp only [DaObj.simulate]
  rw [hf']
  unfold DaObj.loop DaObj.pass DaObj.draw
  obtain ⟨ev2, hev2⟩ := hev ((List.take (min st.opt.blockSize st.opt.samples)
    ((randn ω n (min st.opt.blockSize st.opt.samples) pos).map (fun z => fun r => 0 + st.opt.stdv * z r))).map
      (uToX t (Session.margN n st.c.default ev1.model))) (by
        intro h
        have := congrArg List.length h
        simp [randn] at this
        omega)
  have hl : ¬ ((randn ω n (min st.opt.blockSize st.opt.samples) pos).map
      (fun z => fun r => 0 + st.opt.stdv * z r)).length < min st.opt.blockSize st.opt.samples := by
    simp [randn]
  simp only [DaObj.initialise, if_pos hg, Option.getD_some, Nat.sub_zero, if_pos (Nat.pos_of_ne_zero hN'), if_neg hl, hev2, Nat.zero_add]
  exact ⟨_, _, rfl, rfl, rfl, rfl, rfl, rfl, rfl⟩

/-- The messages of five samples in blocks of two. -/
theorem messages_five {L : List ℕ} (h : DoneMessages 2 5 5 L) : L = [40, 80, 100] := by
  have hmem : ∀ p, p ∈ L ↔ p ∈ [40, 80, 100] := by
    intro p
    rw [h.2]
    simp only [List.mem_cons, List.not_mem_nil, or_false]
    constructor
    · rintro ⟨h0, K, h1, h2, h3, rfl⟩
      interval_cases K <;> simp_all
    · rintro (rfl | rfl | rfl)
      · exact ⟨by norm_num, 2, by norm_num⟩
      · exact ⟨by norm_num, 4, by norm_num⟩
      · exact ⟨by norm_num, 5, by norm_num⟩
  have h1 : L.Nodup := h.1.imp (fun hab => Nat.ne_of_lt hab)
  have h2 : L.Perm [40, 80, 100] := (List.perm_ext_iff_of_nodup h1 (by decide)).2 hmem
  exact List.Perm.eq_of_pairwise (fun a b _ _ hab hba => absurd (hab.trans hba) (lt_irrefl _)) h.1 (by decide) h2

/-- C88, a completed run: five samples in blocks of two of `X ~ N(1, 1)`, `Y ~ N(2, 1)` with `g = 7 - X - 2 Y`, all draws 0 but the first
(10): the object holds the five points and their values in a column, and 40, 80 and 100 percent are printed.  A second run, whose limit
state raises, leaves a row of zeros and an object that counts as run; its report shows five data sets of one zero each. -/
example : ∃ (c c' : Session.Setup) (ev ev2 ev3 : Ev Marginal) (a b : DaObj.Obj 2) (r : Except PyErr Unit),
    DaObj.run ⟨c, ⟨5, 2, 1, 0, 0⟩, some 10, true⟩ (fun k => if k = 0 then 10 else 0) DaObj.fresh ev 0 = some (a, ev2, 10, r) ∧
    a.allX = some [![11, 2], ![1, 2], ![1, 2], ![1, 2], ![1, 2]] ∧ DaObj.getDistributionData a = some ⟨true, [-8, 2, 2, 2, 2]⟩ ∧
    DaObj.getBins a = some 10 ∧ a.messages = [40, 80, 100] ∧
    DaObj.history (fun k => if k = 0 then 10 else 0)
      [.run ⟨c, ⟨5, 2, 1, 0, 0⟩, some 10, true⟩, .run ⟨c', ⟨5, 2, 1, 0, 0⟩, some 10, true⟩] DaObj.fresh ev 0 = some (b, ev3, 14) ∧
    b.k = some 2 ∧ DaObj.getDistributionData b = some ⟨false, [0, 0, 0, 0, 0]⟩ ∧ b.messages = [40, 80, 100] ∧
    ∀ (m : StochModel Marginal ℝ) marg, 2 ≤ m.getNames.length → ∃ sh, DaObj.showResults m marg b = .ok sh ∧ sh.k = some 2 ∧
      sh.limitState = [[0], [0], [0], [0], [0]] := by
  obtain ⟨c, ev, ev1, t, P, f, hfuel, hls, hI, hV, hP, hagain', hagain, hf, hu⟩ := mcObject_world
  obtain ⟨c', hc'⟩ : ∃ c' : Session.Setup, c' = { c with expr := fun _ => .tuple [] } := ⟨_, rfl⟩
  obtain ⟨a, ev2, r, L, h1, h2, h3, h4, h5, h6, h7, -, -, h8, -, h9⟩ :=
    C88_complete (st := ⟨c, ⟨5, 2, 1, 0, 0⟩, some 10, true⟩) rfl (by norm_num) (by simp [hfuel]) (fun k => if k = 0 then 10 else 0)
      DaObj.fresh hI hV hP 0
  have hL := messages_five (h9 rfl)
  have hx : ∀ j, uToX t (Session.margN 2 c.default ev1.model) (mcSample 1 (fun _ => 0) (fun k => if k = 0 then 10 else 0) 2 5 0 j) =
      if j = 0 then ![11, 2] else ![1, 2] := by
    intro j
    rw [hu]
    by_cases hj : j = 0
    · subst hj
      simp [mcSample, mcDraw]; norm_num
    · have h1 : ¬ (j ≤ 1 ∧ j % 2 = 0) := by omega
      have h2 : ¬ ((j ≤ 1 ∧ 5 - 2 * (j / 2) = 0) ∧ j % 2 = 0) := by omega
      rw [if_neg hj]
      simp [mcSample, mcDraw, h1, h2]
  obtain ⟨e1, t', hI'⟩ := hagain' ev2 c' h7 (by rw [hc'])
  obtain ⟨b, ev3, w1, w2, w3, w4, w5, w6, w7⟩ := daRun_first_block (st := ⟨c', ⟨5, 2, 1, 0, 0⟩, some 10, true⟩) rfl (by norm_num) (by norm_num)
    (by simp [hc', hfuel]) hI' (raising_values (c := c') (by rw [hc', hls]) (by rw [hc']) e1.model e1)
    (fun k => if k = 0 then 10 else 0) a 10
  have hmsg : a.messages = [40, 80, 100] := by rw [h8, hL]; rfl
  refine ⟨c, c', ev, ev2, ev3, a, b, r, h1, ?_, ?_, h6, hmsg, ?_, w2, w5, w7.trans hmsg, ?_⟩
  · rw [h4]
    simp only [hx]
    rfl
  · rw [h5]
    simp only [hx, hf]
    simp [List.range_succ]; norm_num
  · unfold DaObj.history
    rw [h1]
    dsimp only
    unfold DaObj.history
    rw [w1]
    rfl
  · intro m marg hm
    obtain ⟨-, -, h⟩ := C88_report m marg b
    obtain ⟨F, hF, -⟩ := h _ _ _ 10 w3 w4 w5 w6 (by norm_num) (by simp) hm
    exact ⟨_, hF, w2, rfl⟩

/-- C88, a generator other than 0: on a new object there is nothing to analyse; after a run of two samples, the five samples of the next
one are these two, over and over. -/
example : ∃ (c : Session.Setup) (ev ev2 ev3 : Ev Marginal) (a b o : DaObj.Obj 2) (r r' : Except PyErr Unit) (x y : Fin 2 → ℝ), x ≠ y ∧
    DaObj.run ⟨c, ⟨5, 2, 1, 0, 1⟩, none, false⟩ (fun k => if k = 0 then 10 else 0) DaObj.fresh ev 0 = some (o, ev2, 0, .error .typeError) ∧
    DaObj.run ⟨c, ⟨2, 2, 1, 0, 0⟩, none, false⟩ (fun k => if k = 0 then 10 else 0) DaObj.fresh ev 0 = some (a, ev3, 4, r) ∧
    a.allX = some [x, y] ∧
    ∃ ev4, DaObj.run ⟨c, ⟨5, 2, 1, 0, 1⟩, none, false⟩ (fun k => if k = 0 then 10 else 0) a ev3 4 = some (b, ev4, 4, r') ∧
      b.allX = some [x, y, x, y, x] := by
  obtain ⟨c, ev, ev1, t, P, f, hfuel, hls, hI, hV, hP, hagain', hagain, hf, hu⟩ := mcObject_world
  obtain ⟨o, ho⟩ := (C88_generator (st := ⟨c, ⟨5, 2, 1, 0, 1⟩, none, false⟩) (by norm_num) (by norm_num) (by norm_num) (by simp [hfuel])
    (fun k => if k = 0 then 10 else 0) DaObj.fresh hI hV hP 0).1 rfl
  obtain ⟨a, ev3, r, L, h1, h2, h3, h4, h5, h6, h7, h8, -⟩ :=
    C88_complete (st := ⟨c, ⟨2, 2, 1, 0, 0⟩, none, false⟩) rfl (by norm_num) (by simp [hfuel]) (fun k => if k = 0 then 10 else 0)
      DaObj.fresh hI hV hP 0
  obtain ⟨e1, t', hI', hV', hP', hu'⟩ := hagain ev3 h7
  obtain ⟨b, ev4, r', g1, g2, g3, g4, g5, g6⟩ := (C88_generator (st := ⟨c, ⟨5, 2, 1, 0, 1⟩, none, false⟩) (by norm_num) (by norm_num)
    (by norm_num) (by simp [hfuel]) (fun k => if k = 0 then 10 else 0) a hI' hV' hP' 4).2.2 _ (h8 (by norm_num)) (by simp)
  have hx : ∀ j : ℕ, j < 2 → uToX t (Session.margN 2 c.default ev1.model) (mcSample 1 (fun _ => 0) (fun k => if k = 0 then 10 else 0) 2 2 0 j) =
      if j = 0 then ![11, 2] else ![1, 2] := by
    intro j hj
    rw [hu]
    interval_cases j <;> simp [mcSample, mcDraw] <;> norm_num
  have hx' : ∀ j : ℕ, j < 2 → uToX t' (Session.margN 2 c.default e1.model) (mcSample 1 (fun _ => 0) (fun k => if k = 0 then 10 else 0) 2 2 0 j) =
      if j = 0 then ![11, 2] else ![1, 2] := by
    intro j hj
    rw [hu']
    interval_cases j <;> simp [mcSample, mcDraw] <;> norm_num
  refine ⟨c, ev, ev1, ev3, a, b, o, r, r', ![11, 2], ![1, 2], ?_, ho, h1, ?_, ev4, g1, ?_⟩
  · intro h
    have := congrFun h 0
    norm_num at this
  · rw [h4]
    simp [List.range_succ, hx]
  · rw [g4]
    simp [List.range_succ, hx', Nat.mod_eq_of_lt]

/-- C88, the law: a Gumbel, a lognormal and a uniform variable with pairwise correlation one half, 1000 samples in blocks of 64; with
the standard deviation 2 the histogram of the Gumbel variable belongs to another law than the curve beside it. -/
example (ty : TransformType) : ∃ (la : LinAlg) (t : Mats 3) (marg : Fin 3 → Marginal) (S : Fin 3 → Set ℝ) (Ro : Matrix (Fin 3) (Fin 3) ℝ),
    NatafSetting la ty Ro t marg S ∧
    stream.map (fun ω => uToX t marg (mcSample 1 (fun _ => 0) ω 64 1000 0 999) 0) = densityLaw ((S 0).indicator (marg 0).pdf) ∧
    stream.map (fun ω => uToX t marg (mcSample 2 (fun _ => 0) ω 64 1000 0 999) 0) ≠ densityLaw ((S 0).indicator (marg 0).pdf) := by
  obtain ⟨la, t, marg, S, Ro, -, h⟩ := nataf_three ty
  refine ⟨la, t, marg, S, Ro, h, (C88_law h (N := 1000) (by norm_num) 0).2 999 0, fun heq => ?_⟩
  have := (C88_stdv h (N := 1000) (bs := 64) (by norm_num) 0 two_pos 999 0).1 heq
  norm_num at this

/-- C88, titles: with the constant `k` added before the variables `X` and `Y`, the figure of `X` is entitled "k" and that of `Y` "X". -/
example (d e : Marginal) :
    let m : StochModel Marginal ℝ := StochModel.init.run [.add (.constant "k" 3), .add (.distribution ⟨"X", d⟩), .add (.distribution ⟨"Y", e⟩)]
    m.getMarginalDistributions = [⟨"X", d⟩, ⟨"Y", e⟩] ∧ m.getNames.take 2 = ["k", "X"] := by
  intro m
  exact ⟨rfl, rfl⟩

end Pystra.Props
