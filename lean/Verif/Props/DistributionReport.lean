import Verif.Props.DistributionObject
import Verif.Props.MonteCarloExample
import Verif.Props.FormCalls
import Verif.Props.NatafLaw

/-! C88: the report and the progress messages of a distribution analysis, and the law of what it shows. -/

namespace Pystra.Props
open Spec Transformation Form MonteCarlo MeasureTheory ProbabilityTheory StochModel

variable {σ : Type} {n : ℕ}

/-- **C88** (progress).  The percentages printed by a run of `N` samples in blocks of `bs` are increasing multiples of five, at most 100;
a run that completes at least one block of samples ends with 100. -/
theorem C88_progress {bs N K : ℕ} (hK : K ≤ N) {L : List ℕ} (h : DoneMessages bs N K L) :
    L.Pairwise (· < ·) ∧ (∀ p ∈ L, 5 ∣ p ∧ 0 < p ∧ p ≤ 100) ∧ (K = N → 1 ≤ N → L.getLast? = some 100) ∧ (K < N → 100 ∉ L) := by
  have hle : ∀ p ∈ L, 5 ∣ p ∧ 0 < p ∧ p ≤ 100 := by
    intro p hp
    obtain ⟨h0, K', h1, h2, h3, rfl⟩ := (h.2 p).1 hp
    refine ⟨⟨_, rfl⟩, h0, ?_⟩
    have : 20 * K' / N ≤ 20 := by
      rcases Nat.eq_zero_or_pos N with hN | hN
      · subst hN; simp
      · rw [Nat.div_le_iff_le_mul_add_pred hN]
        nlinarith
    omega
  refine ⟨h.1, hle, ?_, ?_⟩
  · rintro rfl hN
    have hm : 100 ∈ L := (h.2 100).2 ⟨by norm_num, K, by omega, le_rfl, Or.inr rfl, by rw [Nat.mul_div_cancel _ (by omega)]⟩
    obtain ⟨A, B, rfl⟩ := List.append_of_mem hm
    cases B with
    | nil => simp
    | cons b B =>
      exfalso
      have h1 := (List.pairwise_append.1 h.1).2.1
      rw [List.pairwise_cons] at h1
      have := h1.1 b (by simp)
      have := (hle b (by simp)).2.2
      omega
  · intro hlt hm
    obtain ⟨h0, K', h1, h2, h3, h4⟩ := (h.2 100).1 hm
    have : 20 ≤ 20 * K' / N := by omega
    rw [Nat.le_div_iff_mul_le (by omega)] at this
    omega

/-- The figure of one variable. -/
theorem figure_ok {names : List String} {marg : Fin n → Marginal} {cols : List (Fin n → ℝ)} (hc : cols ≠ []) (hn : n ≤ names.length)
    (i : Fin n) : ∃ lo hi, (∃ x ∈ cols, x i = lo) ∧ (∀ x ∈ cols, lo ≤ x i) ∧ (∃ x ∈ cols, x i = hi) ∧ (∀ x ∈ cols, x i ≤ hi) ∧
      DaObj.figure names marg cols i = .ok ⟨"Distribution Analysis for " ++ names[i.val]'(by omega), cols.map (fun x => x i),
        (List.range 200).map (fun j : ℕ => (lo + (hi - lo) * j / 199, (marg i).pdf (lo + (hi - lo) * j / 199)))⟩ := by
  have hne : cols.map (fun x => x i) ≠ [] := by simpa using hc
  obtain ⟨lo, hlo⟩ := Option.isSome_iff_exists.1 (List.isSome_min?_of_ne_nil hne)
  obtain ⟨hi, hhi⟩ := Option.isSome_iff_exists.1 (List.isSome_max?_of_ne_nil hne)
  have h1 := List.min?_eq_some_iff.1 hlo
  have h2 := List.max?_eq_some_iff.1 hhi
  refine ⟨lo, hi, by simpa using h1.1, ?_, by simpa using h2.1, ?_, ?_⟩
  · intro x hx; exact h1.2 _ (List.mem_map_of_mem hx)
  · intro x hx; exact h2.2 _ (List.mem_map_of_mem hx)
  · unfold DaObj.figure
    rw [hlo, hhi]
    have : names[i.val]? = some (names[i.val]'(by omega)) := List.getElem?_eq_getElem _
    rw [this]
    simp only [DaObj.linspace200, List.map_map]
    rfl

theorem figures_ok {names : List String} {marg : Fin n → Marginal} {cols : List (Fin n → ℝ)} {F : Fin n → DaObj.Figure}
    (h : ∀ i, DaObj.figure names marg cols i = .ok (F i)) (l : List (Fin n)) :
    DaObj.figures names marg cols l = .ok (l.map F) := by
  induction l with
  | nil => rfl
  | cons i l ih => simp only [DaObj.figures, h, ih, List.map_cons]

/-- **C88** (the report).  It raises `ValueError` on an object that was never run and `TypeError` while no run has got past the
transformation.  Otherwise (at least one sample, at least one bin) it shows the number of simulations and of bins, for each variable the
histogram of its row of `all_X` with the density between the least and the greatest entry at 200 equidistant points, and the limit-state
values: in one histogram if they are a column, as one data set *per sample* if they are a row. -/
theorem C88_report (m : StochModel Marginal ℝ) (marg : Fin n → Marginal) (o : DaObj.Obj n) :
    (o.resultsValid = false → DaObj.showResults m marg o = .error .valueError) ∧
    (o.resultsValid = true → o.allX = none → DaObj.showResults m marg o = .error .typeError) ∧
    ∀ cols col vals b, o.resultsValid = true → o.allX = some cols → o.allG = some ⟨col, vals⟩ → o.bins = some b → 1 ≤ b →
      cols ≠ [] → (hn : n ≤ m.getNames.length) →
      ∃ F : Fin n → DaObj.Figure, DaObj.showResults m marg o =
          .ok ⟨o.k, b, (List.finRange n).map F, if col then [vals] else vals.map (fun g => [g])⟩ ∧
        ∀ i, (F i).title = "Distribution Analysis for " ++ m.getNames[i.val]'(by omega) ∧ (F i).data = cols.map (fun x => x i) ∧
          ∃ lo hi, (∃ x ∈ cols, x i = lo) ∧ (∀ x ∈ cols, lo ≤ x i) ∧ (∃ x ∈ cols, x i = hi) ∧ (∀ x ∈ cols, x i ≤ hi) ∧
            (F i).curve = (List.range 200).map (fun j : ℕ => (lo + (hi - lo) * j / 199, (marg i).pdf (lo + (hi - lo) * j / 199))) := by
  refine ⟨fun h => ?_, fun h hx => ?_, fun cols col vals b h hx hG hb hb1 hc hn => ?_⟩
  · unfold DaObj.showResults; rw [h]; rfl
  · unfold DaObj.showResults
    rw [h, hx]
    rfl
  · choose lo hi h1 h2 h3 h4 h5 using fun i => figure_ok (marg := marg) hc hn i
    refine ⟨fun i => ⟨"Distribution Analysis for " ++ m.getNames[i.val]'(by omega), cols.map (fun x => x i),
        (List.range 200).map (fun j : ℕ => (lo i + (hi i - lo i) * j / 199, (marg i).pdf (lo i + (hi i - lo i) * j / 199)))⟩, ?_,
      fun i => ⟨rfl, rfl, lo i, hi i, h1 i, h2 i, h3 i, h4 i, rfl⟩⟩
    · unfold DaObj.showResults
      rw [h, hx, hG, hb]
      simp only [Bool.not_true, Bool.false_eq_true, if_false, if_neg (show b ≠ 0 by omega)]
      rw [figures_ok h5]
      simp only [DaObj.GArray.datasets]

/-- **C88** (titles).  The figure of random variable `i` carries the `i`-th name of the model, and this is the variable's own name for
every variable if and only if no constant was added before a random variable. -/
theorem C88_titles {D : Type} (h : List (Op D ℝ)) :
    let m : StochModel D ℝ := StochModel.init.run h
    (∀ (i : ℕ) d, m.getMarginalDistributions[i]? = some d → m.getNames[i]? = some d.name) ↔
      ∀ A B, registered h = A ++ B → constants A ≠ [] → dists B = [] := by
  intro m
  have hr := refines_reachable h
  constructor
  · intro hall A B hAB hA
    by_contra hB
    obtain ⟨d, hd, hnone⟩ := C35_shifted h A B hAB hA hB (fun _ => 0)
    have hne : m.getMarginalDistributions ≠ [] := by
      intro h0
      rw [show (StochModel.init.run h).getMarginalDistributions = m.getMarginalDistributions from rfl, h0] at hd
      simp at hd
    have hlast : m.getMarginalDistributions[m.getMarginalDistributions.length - 1]? = some d := by
      rw [← List.getLast?_eq_getElem?]; exact hd
    have hname := hall _ d hlast
    have hlt : m.getMarginalDistributions.length - 1 < m.nMarg := by
      have : 0 < m.getMarginalDistributions.length := List.length_pos_iff.2 hne
      change _ < m.getMarginalDistributions.length
      omega
    have := (C35_labels h (fun _ : Fin m.nMarg => (0:ℝ))).2 ⟨_, hlt⟩ d.name hname
    exact absurd (hnone.symm.trans this) (by simp)
  · intro hc i d hd
    have hi : i < m.nMarg := by
      change i < m.getMarginalDistributions.length
      exact (List.getElem?_eq_some_iff.1 hd).1
    obtain ⟨-, h2⟩ := C35_correct h hc (fun k => (k.val : ℝ))
    have hg := h2 ⟨i, hi⟩ d hd
    obtain ⟨l1, l2⟩ := C35_labels h (fun k : Fin m.nMarg => (k.val : ℝ))
    have hmem : d.name ∈ m.getNames.take m.nMarg := by
      rw [← l1]
      by_contra hno
      rw [(Dict.get?_eq_none _ _).2 hno] at hg
      cases hg
    obtain ⟨j, hj, hjn⟩ := List.mem_iff_getElem.1 hmem
    rw [List.length_take] at hj
    rw [List.getElem_take] at hjn
    have hjn' : m.getNames[j]? = some d.name := by rw [List.getElem?_eq_getElem (by omega), hjn]
    have := l2 ⟨j, by omega⟩ d.name hjn'
    rw [this] at hg
    simp only [Option.some.injEq, Nat.cast_inj] at hg
    rw [← hg]; exact hjn'

/-! ### A generator other than 0 -/

/-- The state of the loop with leftover columns `us`. -/
structure DaStale (t : Mats n) (marg : Fin n → Marginal) (P : σ → Prop) (f : (Fin n → ℝ) → ℝ) (opt : MonteCarlo.Options)
    (us : List (Fin n → ℝ)) (K : ℕ) (o : DaObj.Obj n) (s : σ) : Prop where
  hP : P s
  u : o.u = some us
  k : o.k = some K
  le : K ≤ opt.samples
  block : K = opt.samples ∨ opt.blockSize ∣ K
  allX : o.allX = some ((List.range opt.samples).map (fun j => if j < K then
    uToX t marg (us.getD (j % opt.blockSize) (fun _ => 0)) else fun _ => 0))
  allG : o.allG = some ⟨false, (List.range opt.samples).map (fun j => if j < K then
    f (uToX t marg (us.getD (j % opt.blockSize) (fun _ => 0))) else 0)⟩

theorem percentDone_fields (N : ℕ) (print : Bool) (o : DaObj.Obj n) :
    (DaObj.percentDone N print o).u = o.u ∧ (DaObj.percentDone N print o).k = o.k ∧ (DaObj.percentDone N print o).allX = o.allX ∧
      (DaObj.percentDone N print o).allG = o.allG := by
  unfold DaObj.percentDone
  dsimp only
  split <;> exact ⟨rfl, rfl, rfl, rfl⟩

theorem daLoop_stale {t : Mats n} {marg : Fin n → Marginal} {ev : Evaluator σ n} {P : σ → Prop} {f : (Fin n → ℝ) → ℝ}
    (hev : Values ev P f) {opt : MonteCarlo.Options} (hg : opt.randomGenerator ≠ 0) (hb : 1 ≤ opt.blockSize) (print : Bool) (ω : ℕ → ℝ)
    (us : List (Fin n → ℝ)) (hus : min opt.blockSize opt.samples ≤ us.length) (fuel : ℕ) :
    ∀ (K : ℕ) (o : DaObj.Obj n) (s : σ) (pos : ℕ), opt.samples ≤ fuel + K → DaStale t marg P f opt us K o s →
    ∃ o' s', DaObj.loop t marg ev opt print ω fuel o s pos = some (o', s', pos, .ok ()) ∧ DaStale t marg P f opt us opt.samples o' s' := by
  induction fuel with
  | zero =>
    intro K o s pos hf hi
    have hK : K = opt.samples := by have := hi.le; omega
    refine ⟨o, s, ?_, hK ▸ hi⟩
    unfold DaObj.loop
    rw [hi.k]
    simp [hK]
  | succ fuel ih =>
    intro K o s pos hf hi
    unfold DaObj.loop
    have hk0 : o.k.getD 0 = K := by rw [hi.k]; rfl
    by_cases hlt : K < opt.samples
    · rw [hk0, if_pos hlt]
      have hd : opt.blockSize ∣ K := by
        rcases hi.block with h | h
        · omega
        · exact h
      obtain ⟨b, hbd⟩ : ∃ b, b = min opt.blockSize (opt.samples - K) := ⟨_, rfl⟩
      obtain ⟨F, hF⟩ : ∃ F : ℕ → Fin n → ℝ, F = fun j => uToX t marg (us.getD (j % opt.blockSize) (fun _ => 0)) := ⟨_, rfl⟩
      have hxs : (us.take b).map (uToX t marg) = (List.range b).map (fun c => F (K + c)) := by
        apply List.ext_getElem
        · simp; omega
        · intro i h1 h2
          simp only [List.length_map, List.length_range] at h2
          have hm : (K + i) % opt.blockSize = i := by
            obtain ⟨q, rfl⟩ := hd
            rw [Nat.mul_add_mod, Nat.mod_eq_of_lt (by omega)]
          simp only [List.getElem_map, List.getElem_take, List.getElem_range, hF, hm]
          rw [List.getD_eq_getElem _ _ (by omega)]
      obtain ⟨s', hv, hP'⟩ := hev s hi.hP ((List.range b).map (fun c => F (K + c)))
      have hlen : ¬ us.length < b := by omega
      have hu := hi.u
      have hpass : DaObj.pass t marg ev opt print ω o s pos =
          (DaObj.percentDone opt.samples print (DaObj.dataUpdate K ((List.range b).map (fun c => F (K + c)))
            (((List.range b).map (fun c => F (K + c))).map f) { o with blockSize := some b, k := some (K + b), u := some us }),
            s', pos, .ok ()) := by
        unfold DaObj.pass DaObj.draw
        simp only [hk0, ← hbd, if_neg hg, hu, if_neg hlen, hxs, hv]
      rw [hpass]
      dsimp only
      refine ih (K + b) _ s' pos (by omega) ?_
      have hX := hi.allX
      have hGG := hi.allG
      have eX : DaObj.write ((List.range opt.samples).map (fun j => if j < K then F j else fun _ => 0)) K
          ((List.range b).map (fun c => F (K + c))) = _ := write_firstK _ _ _ (by omega) F _
      have eG : DaObj.write ((List.range opt.samples).map (fun j => if j < K then f (F j) else 0)) K
          ((List.range b).map (fun c => f (F (K + c)))) = _ := write_firstK _ _ _ (by omega) (fun j => f (F j)) _
      have hblock : K + b = opt.samples ∨ opt.blockSize ∣ K + b := by
        by_cases h : opt.samples ≤ K + opt.blockSize
        · left; omega
        · right
          rw [show b = opt.blockSize by omega]; exact Nat.dvd_add hd (dvd_refl _)
      obtain ⟨p1, p2, p3, p4⟩ := percentDone_fields opt.samples print (DaObj.dataUpdate K ((List.range b).map (fun c => F (K + c)))
            (((List.range b).map (fun c => F (K + c))).map f) { o with blockSize := some b, k := some (K + b), u := some us })
      subst hF
      refine ⟨hP', p1, p2, by omega, hblock, p3.trans ?_, p4.trans ?_⟩
      · unfold DaObj.dataUpdate
        dsimp only
        rw [hX, ← eX]
        rfl
      · unfold DaObj.dataUpdate
        dsimp only
        rw [hGG, ← eG, List.map_map]
        rfl
    · rw [hk0, if_neg hlt]
      have hK : K = opt.samples := by have := hi.le; omega
      exact ⟨o, s, rfl, hK ▸ hi⟩

/-- **C88** (a generator other than the default).  Nothing is drawn: on a new object the run raises `TypeError`; on an object that still
has the draws of an earlier run, every block of the analysis consists of these same draws again (so that the stored samples repeat with
the period of the block), and there is an `IndexError` when they are fewer than a block. -/
theorem C88_generator {st : DaObj.Settings} (hg : st.opt.randomGenerator ≠ 0) (hb : 1 ≤ st.opt.blockSize) (hN : 1 ≤ st.opt.samples)
    (hf : st.opt.samples ≤ st.c.fuel) (ω : ℕ → ℝ) (old : DaObj.Obj n) {ev ev1 : Ev Marginal} {t : Mats n}
    (hI : Session.initRun st.c n ev = (ev1, .ok t)) {P : Ev Marginal → Prop} {f : (Fin n → ℝ) → ℝ}
    (hev : Values (Session.evaluator st.c n ev1.model) P f) (hP : P ev1) (pos : ℕ) :
    let x := fun us : List (Fin n → ℝ) => fun j =>
      uToX t (Session.margN n st.c.default ev1.model) (us.getD (j % st.opt.blockSize) (fun _ => 0))
    (old.u = none → ∃ o, DaObj.run st ω old ev pos = some (o, ev1, pos, .error .typeError)) ∧
    (∀ us, old.u = some us → us.length < min st.opt.blockSize st.opt.samples →
      ∃ o, DaObj.run st ω old ev pos = some (o, ev1, pos, .error .indexError)) ∧
    (∀ us, old.u = some us → min st.opt.blockSize st.opt.samples ≤ us.length →
      ∃ o ev' r, DaObj.run st ω old ev pos = some (o, ev', pos, r) ∧ o.k = some st.opt.samples ∧ o.u = some us ∧
        o.allX = some ((List.range st.opt.samples).map (x us)) ∧
        DaObj.getDistributionData o = some ⟨true, (List.range st.opt.samples).map (fun j => f (x us j))⟩ ∧
        r = DaObj.printed st.print ev'.model (Session.margN n st.c.default ev'.model) o) := by
  intro x
  obtain ⟨fu, hfu⟩ : ∃ fu, st.c.fuel = fu + 1 := ⟨st.c.fuel - 1, by omega⟩
  refine ⟨fun hu => ?_, fun us hu hlen => ?_, fun us hu hlen => ?_⟩
  · unfold DaObj.run
    dsimp only
    rw [hI]
    dsimp only [DaObj.simulate]
    rw [hfu]
    unfold DaObj.loop DaObj.pass DaObj.draw
    simp only [DaObj.initialise, Option.getD_some, if_pos (show 0 < st.opt.samples by omega), if_neg hg, hu]
    exact ⟨_, rfl⟩
  · unfold DaObj.run
    dsimp only
    rw [hI]
    dsimp only [DaObj.simulate]
    rw [hfu]
    unfold DaObj.loop DaObj.pass DaObj.draw
    simp only [DaObj.initialise, Option.getD_some, if_pos (show 0 < st.opt.samples by omega), if_neg hg, hu, Nat.sub_zero, if_pos hlen]
    exact ⟨_, rfl⟩
  · have hinit : DaStale t (Session.margN n st.c.default ev1.model) P f st.opt us 0
        { DaObj.initialise st { old with resultsValid := true, transform := some t } with k := some 0 } ev1 := by
      refine ⟨hP, hu, rfl, Nat.zero_le _, Or.inr (dvd_zero _), ?_, ?_⟩
      · simp [DaObj.initialise, List.map_const']
      · simp [DaObj.initialise, List.map_const']
    obtain ⟨o', s', hl, hi⟩ := daLoop_stale hev hg hb st.print ω us hlen st.c.fuel 0 _ ev1 pos (by omega) hinit
    unfold DaObj.run
    dsimp only
    rw [hI]
    dsimp only [DaObj.simulate]
    rw [hl]
    have hall : ∀ (α : Type) (g : ℕ → α) (z : α), (List.range st.opt.samples).map (fun j => if j < st.opt.samples then g j else z) =
        (List.range st.opt.samples).map g := by
      intro α g z
      apply List.map_congr_left
      intro j hj
      rw [if_pos (List.mem_range.1 hj)]
    refine ⟨DaObj.transpose o', s', _, rfl, hi.k, hi.u, ?_, ?_, rfl⟩
    · change o'.allX = _
      rw [hi.allX, hall]
    · unfold DaObj.getDistributionData DaObj.transpose
      rw [hi.allG, hall]
      rfl

/-! ### The law of the samples -/

theorem sample_law {bs N : ℕ} (hb : 1 ≤ bs) (pos : ℕ) (j : Fin N) :
    stream.map (fun ω => mcDraw ω n bs N pos j) = stdGauss n := by
  haveI : IsProbabilityMeasure (stdGauss n) := by unfold stdGauss; infer_instance
  have h := samples_law (n := n) (N := N) hb pos
  have hm : Measurable (fun ω (j : Fin N) => mcDraw ω n bs N pos j) := by
    unfold mcDraw; fun_prop
  have h2 := (measurePreserving_eval (fun _ : Fin N => stdGauss n) j).map_eq
  rw [← h, Measure.map_map (measurable_pi_apply j) hm] at h2
  exact h2

/-- **C88** (the law, default standard deviation).  With independent standard normal draws, the `N` stored samples of a completed analysis
are independent, and each has the joint law of the model (C74); in particular variable `i` of every sample has the density the report
draws beside its histogram. -/
theorem C88_law {la : LinAlg} {ty : TransformType} {Ro : Matrix (Fin n) (Fin n) ℝ} {t : Mats n} {marg : Fin n → Marginal}
    {S : Fin n → Set ℝ} (h : NatafSetting la ty Ro t marg S) {bs N : ℕ} (hb : 1 ≤ bs) (pos : ℕ) :
    stream.map (fun ω (j : Fin N) => uToX t marg (mcSample 1 (fun _ => 0) ω bs N pos j)) =
      Measure.pi (fun _ : Fin N => (stdGauss n).map (uToX t marg)) ∧
    ∀ (j : Fin N) (i : Fin n), stream.map (fun ω => uToX t marg (mcSample 1 (fun _ => 0) ω bs N pos j) i) =
      densityLaw ((S i).indicator (marg i).pdf) := by
  have hmu : Measurable (uToX t marg) := measurable_uToX fun i => (h.marg i).round.mono_x.monotone.measurable
  have hm : Measurable (fun ω (j : Fin N) => mcDraw ω n bs N pos j) := by unfold mcDraw; fun_prop
  haveI : IsProbabilityMeasure (stdGauss n) := by unfold stdGauss; infer_instance
  haveI : IsProbabilityMeasure ((stdGauss n).map (uToX t marg)) := Measure.isProbabilityMeasure_map hmu.aemeasurable
  have e : ∀ ω (j : ℕ), mcSample 1 (fun _ : Fin n => 0) ω bs N pos j = mcDraw ω n bs N pos j := by
    intro ω j; funext r; simp [mcSample]
  constructor
  · rw [← Measure.pi_map_pi (μ := fun _ : Fin N => stdGauss n) (f := fun _ : Fin N => uToX t marg) (fun _ => hmu.aemeasurable),
      ← samples_law (N := N) hb pos, Measure.map_map (by fun_prop) hm]
    simp only [e]
    rfl
  · intro j i
    have hm1 : Measurable (fun ω => mcDraw ω n bs N pos j) := by unfold mcDraw; fun_prop
    have hmi : Measurable (fun u => uToX t marg u i) := (measurable_pi_apply i).comp hmu
    rw [← C74_component h i, ← sample_law hb pos j, Measure.map_map hmi hm1]
    simp only [e]
    rfl

/-- **C88** (another standard deviation).  With the simulation option `stdv = s > 0`, variable `i` of a sample has the density the report
draws if and only if `s = 1`. -/
theorem C88_stdv {la : LinAlg} {ty : TransformType} {Ro : Matrix (Fin n) (Fin n) ℝ} {t : Mats n} {marg : Fin n → Marginal}
    {S : Fin n → Set ℝ} (h : NatafSetting la ty Ro t marg S) {bs N : ℕ} (hb : 1 ≤ bs) (pos : ℕ) {s : ℝ} (hs : 0 < s) (j : Fin N) (i : Fin n) :
    stream.map (fun ω => uToX t marg (mcSample s (fun _ => 0) ω bs N pos j) i) = densityLaw ((S i).indicator (marg i).pdf) ↔ s = 1 := by
  have hmi : Measurable (marg i).uToX := (h.marg i).round.mono_x.monotone.measurable
  have hm1 : Measurable (fun ω => mcDraw ω n bs N pos j) := by unfold mcDraw; fun_prop
  have h1 : ∑ k, t.invT i k ^ 2 = 1 := by
    rw [← h.diag i, ← h.row i i]
    exact Finset.sum_congr rfl fun k _ => by ring
  have hl : stream.map (fun ω => uToX t marg (mcSample s (fun _ => 0) ω bs N pos j) i) =
      (gaussianReal 0 (Real.toNNReal (s ^ 2))).map (marg i).uToX := by
    have e := map_linear_stdGauss (fun k => s * t.invT i k)
    have h2 : ∑ k, (s * t.invT i k) ^ 2 = s ^ 2 := by
      simp only [mul_pow]
      rw [← Finset.mul_sum, h1, mul_one]
    rw [h2] at e
    rw [← e, ← sample_law hb pos j, Measure.map_map (by fun_prop) hm1, Measure.map_map hmi (by unfold mcDraw; fun_prop)]
    congr 1
    funext ω
    simp only [uToX, Matrix.mulVec, dotProduct, mcSample, Function.comp_apply, zero_add]
    congr 1
    exact Finset.sum_congr rfl fun k _ => by ring
  constructor
  · intro heq
    rw [hl, ← C74_marginal (h.marg i).round (h.marg i).isOpen (h.marg i).jac (h.marg i).ratio (h.marg i).law] at heq
    have hpre : ∀ a, (marg i).uToX ⁻¹' Set.Iic ((marg i).uToX a) = Set.Iic a := by
      intro a; ext x
      simp [(h.marg i).round.mono_x.le_iff_le]
    have hg : gaussianReal 0 (Real.toNNReal (s ^ 2)) = gaussianReal 0 1 := by
      refine Measure.ext_of_Iic _ _ fun a => ?_
      have := congrArg (fun μ => μ (Set.Iic ((marg i).uToX a))) heq
      simp only [Measure.map_apply hmi measurableSet_Iic, hpre] at this
      exact this
    have hv := (gaussianReal_ext_iff.1 hg).2
    have : s ^ 2 = 1 := by
      have := congrArg NNReal.toReal hv
      rwa [Real.coe_toNNReal _ (by positivity), NNReal.coe_one] at this
    nlinarith
  · rintro rfl
    exact (C88_law h hb pos).2 j i

end Pystra.Props
