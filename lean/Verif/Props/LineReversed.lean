import Verif.Props.LineObject
import Verif.Lemmas.BrentNeg

/-! C80: a direction that points away from the failure domain. -/

namespace Pystra.Props
open Spec Transformation Form Matrix LineSampling

variable {σ : Type} {n : ℕ} {t : Mats n} {marg : Fin n → Marginal} {ev : Evaluator σ n} {P : σ → Prop}

/-- Outcome on a line with a single crossing `C` from failed to safe, within the scanned range. -/
theorem crossing_up {f : (Fin n → ℝ) → ℝ} (hev : PointValues ev P (fun x => some (f x))) (v alpha : Fin n → ℝ) (cInit C : ℝ)
    (hC : ∀ c, (c < C → f (uToX t marg (fun i => v i + c * alpha i)) < 0) ∧
      (C < c → 0 < f (uToX t marg (fun i => v i + c * alpha i)))) (s : σ) (hs : P s)
    (hin : |C| < max (|cInit| * 3 + 5) 15) :
    let m := max (|cInit| * 3 + 5) 15
    let r := (findLine t marg ev v alpha cInit s).2
    |r - C| < 1e-6 + 4 * (1 / 2) ^ 52 * |r| ∨
    ∃ j < 39, SignChange (onLine t marg (fun x => some (f x)) v alpha) (scanPoint m j) (scanPoint m (j + 1)) ∧
      ∃ s e, P s ∧ (Brent.brentq (evalAt t marg ev v alpha) (scanPoint m j) (scanPoint m (j + 1)) 1e-6 (4 * (1 / 2) ^ 52) 50 s).2 =
        .error e := by
  intro m r
  classical
  obtain ⟨-, -, -, h2⟩ := C44_location (t := t) (marg := marg) hev v alpha cInit s hs
  have hm0 : 0 < m := lt_of_lt_of_le (by norm_num) (le_max_right _ _ : (15:ℝ) ≤ m)
  set G : ℝ → ℝ := fun c => f (uToX t marg (fun i => v i + c * alpha i)) with hG
  have hh : ∀ c, onLine t marg (fun x => some (f x)) v alpha c = some (G c) := fun c => rfl
  set h := onLine t marg (fun x => some (f x)) v alpha with hhd
  have hneg : ∀ c, c < C → G c < 0 := fun c => (hC c).1
  have hpos : ∀ c, C < c → 0 < G c := fun c => (hC c).2
  have hSF : ∀ a b, SafeToFail h a b → 0 < G a ∧ G b ≤ 0 := by
    intro a b
    unfold SafeToFail
    simp only [hh, Option.some.injEq]
    rintro ⟨_, _, rfl, rfl, h3, h4⟩; exact ⟨h3, h4⟩
  have hSC : ∀ a b, SignChange h a b ↔ G a * G b ≤ 0 := by
    intro a b
    unfold SignChange
    simp only [hh, Option.some.injEq]
    constructor
    · rintro ⟨_, _, rfl, rfl, h3⟩; exact h3
    · intro h3; exact ⟨_, _, rfl, rfl, h3⟩
  have hlt : ∀ i j, i < j → scanPoint m i < scanPoint m j := by
    intro i j hij
    unfold scanPoint
    have : (i:ℝ) < j := by exact_mod_cast hij
    have h2 : 0 < 2 * m / 39 := by positivity
    nlinarith
  have h0 : scanPoint m 0 = -m := scanPoint_zero m
  have h39 : scanPoint m 39 = m := scanPoint_last m
  have hCm := abs_lt.1 hin
  have hnoSF : ∀ i < 39, ¬ SafeToFail h (scanPoint m i) (scanPoint m (i + 1)) := by
    intro i hi hc
    obtain ⟨h3, h4⟩ := hSF _ _ hc
    have h5 : C ≤ scanPoint m i := by by_contra hc; have := hneg _ (not_le.1 hc); linarith
    have := hpos _ (lt_of_le_of_lt h5 (hlt i (i + 1) (Nat.lt_succ_self i)))
    linarith
  have hex : ∃ k, 0 ≤ G (scanPoint m k) := ⟨39, by rw [h39]; exact (hpos m hCm.2).le⟩
  set k := Nat.find hex with hkd
  have hk := Nat.find_spec hex
  have hkmin : ∀ i < k, G (scanPoint m i) < 0 := fun i hi => not_le.1 (Nat.find_min hex hi)
  have hk39 : k ≤ 39 := Nat.find_min' hex (by rw [h39]; exact (hpos m hCm.2).le)
  have hk0 : k ≠ 0 := by
    intro h3
    rw [← hkd, h3, h0] at hk
    have := hneg _ hCm.1
    linarith
  obtain ⟨j, hj⟩ := Nat.exists_eq_succ_of_ne_zero hk0
  rw [Nat.succ_eq_add_one] at hj
  rw [← hkd, hj] at hk
  have hSCj : SignChange h (scanPoint m j) (scanPoint m (j + 1)) := by
    rw [hSC]; exact mul_nonpos_of_nonpos_of_nonneg (hkmin j (by omega)).le hk
  have hf := (h2 hnoSF).1 j (by omega) hSCj (by
    intro i hi
    rw [hSC, not_le]
    exact mul_pos_of_neg_of_neg (hkmin i (by omega)) (hkmin (i + 1) (by omega)))
  rcases hf with hf | hf
  · left
    obtain ⟨-, -, h3 | ⟨c', y, y', -, -, h4, h5, h6, h7⟩⟩ := hf
    · have h3 : some (G r) = some 0 := h3
      injection h3 with h3
      have : r = C := by
        rcases lt_trichotomy r C with h4 | h4 | h4
        · have := hneg r h4; linarith
        · exact h4
        · have := hpos r h4; linarith
      rw [this, sub_self, abs_zero]
      positivity
    · have h5 : some (G r) = some y := h5
      have h6 : some (G c') = some y' := h6
      injection h5 with h5
      injection h6 with h6
      subst h5 h6
      refine lt_of_le_of_lt ?_ h4
      rcases mul_neg_iff.1 h7 with ⟨h8, h9⟩ | ⟨h8, h9⟩
      · have h10 : C ≤ r := by by_contra hc; have := hneg r (not_le.1 hc); linarith
        have h11 : c' ≤ C := by by_contra hc; have := hpos c' (not_le.1 hc); linarith
        rw [abs_of_nonneg (by linarith), abs_of_nonpos (by linarith)]; linarith
      · have h10 : r ≤ C := by by_contra hc; have := hpos r (not_le.1 hc); linarith
        have h11 : C ≤ c' := by by_contra hc; have := hneg c' (not_le.1 hc); linarith
        rw [abs_of_nonpos (by linarith), abs_of_nonneg (by linarith)]; linarith
  · exact Or.inr ⟨j, by omega, hSCj, hf.2⟩

/-- C80: with a direction that points *along* the gradient of an affine limit state, away from the failure domain, every line is
crossed from failed to safe, that crossing is taken, and the reported probability is that of the safe domain: one minus the
probability of failure, to the tolerance of the root finder, with a reported coefficient of variation of zero. -/
theorem C80_wrong_way {f : (Fin n → ℝ) → ℝ} (hev : PointValues ev P (fun x => some (f x))) {b : ℝ} {w : Fin n → ℝ}
    (hf : ∀ u, f (uToX t marg u) = b + ∑ i, w i * u i) (hw : 0 < ∑ i, w i ^ 2) (betaForm : ℝ)
    (hin : |b / √(∑ i, w i ^ 2)| < max (|betaForm| * 3 + 5) 15) {N : ℕ} (hN : 1 ≤ N) (ω : ℕ → ℝ) (pos : ℕ)
    (s : σ) (hs : P s) :
    let m := max (|betaForm| * 3 + 5) 15
    let r := (sample t marg ev (fun i => w i / √(∑ i, w i ^ 2)) betaForm N ω pos s).2
    |r.Pf - (1 - (stdGauss n).real {u | f (uToX t marg u) ≤ 0})| ≤ (1e-6 + 4 * (1 / 2) ^ 52 * m) / √(2 * Real.pi) ∧ r.cov = 0 ∧
    ∃ c : ℝ, r.beta = c ∧ |c - -(b / √(∑ i, w i ^ 2))| ≤ 1e-6 + 4 * (1 / 2) ^ 52 * m := by
  intro m r
  set S := ∑ i, w i ^ 2 with hS
  have hs0 : 0 < √S := Real.sqrt_pos.2 hw
  set alpha : Fin n → ℝ := fun i => w i / √S with halpha
  have hSS : √S * √S = S := Real.mul_self_sqrt hw.le
  have haa : ∑ i, alpha i * alpha i = 1 := by
    have : ∀ i, alpha i * alpha i = w i ^ 2 / S := by
      intro i
      simp only [halpha]
      rw [div_mul_div_comm, hSS, sq]
    simp only [this, ← Finset.sum_div, ← hS]
    exact div_self hw.ne'
  have hwa : ∀ i, w i = √S * alpha i := by
    intro i; simp only [halpha]; field_simp
  have hm15 : (15:ℝ) ≤ m := le_max_right _ _
  have hm0 : 0 < m := by linarith
  obtain ⟨c, hj, hc, -, hPf, hP0, hP1, -, -, ⟨bb, hbeta, hbb⟩, hcov⟩ := C45_run (t := t) (marg := marg) hev alpha betaForm hN ω pos s hs
  set V : ℕ → Fin n → ℝ := fun j i => lsDraw ω n N pos j i - (∑ k, alpha k * lsDraw ω n N pos j k) * alpha i with hV
  have horth : ∀ j, ∑ i, alpha i * V j i = 0 := by
    intro j
    simp only [hV, mul_sub, Finset.sum_sub_distrib]
    have : ∑ x, alpha x * ((∑ k, alpha k * lsDraw ω n N pos j k) * alpha x) =
        (∑ k, alpha k * lsDraw ω n N pos j k) * ∑ x, alpha x * alpha x := by
      rw [Finset.mul_sum]; exact Finset.sum_congr rfl fun i _ => by ring
    rw [this, haa, mul_one, sub_self]
  have hline : ∀ j x, f (uToX t marg (fun i => V j i + x * alpha i)) = b + √S * x := by
    intro j x
    rw [hf]
    have : ∀ i, w i * (V j i + x * alpha i) = √S * (alpha i * V j i) + √S * x * (alpha i * alpha i) := by
      intro i; rw [hwa i]; ring
    simp only [this, Finset.sum_add_distrib, ← Finset.mul_sum, horth, haa]
    ring
  have hcomp : ∀ j, Computes (evalAt t marg ev (V j) alpha) P (fun x => some (b + √S * x)) := by
    intro j
    have := evalAt_computes (t := t) (marg := marg) hev (V j) alpha
    simp only [hline] at this
    exact this
  have hsame : ∀ j < N, c j = c 0 := by
    intro j hjN
    obtain ⟨-, s1, hs1, e1⟩ := hj j hjN
    obtain ⟨-, s2, hs2, e2⟩ := hj 0 (by omega)
    rw [e1, e2]
    exact findLine_det (hcomp j) (hcomp 0) betaForm s1 s2 hs1 hs2
  obtain ⟨hcm, s1, hs1, e1⟩ := hj 0 (by omega)
  have hclose : |c 0 - -(b / √S)| ≤ 1e-6 + 4 * (1 / 2) ^ 52 * m := by
    have hcr := crossing_up (t := t) (marg := marg) hev (V 0) alpha betaForm (-(b / √S)) (by
      intro x
      rw [hline]
      constructor
      · intro h; have h := neg_lt_neg h; rw [neg_neg, div_lt_iff₀ hs0] at h; linarith
      · intro h; have h := neg_lt_neg h; rw [neg_neg, lt_div_iff₀ hs0] at h; linarith) s1 hs1 (by rw [abs_neg]; exact hin)
    simp only at hcr
    rw [← e1] at hcr
    rcases hcr with h2 | ⟨j, hj39, hsc, s', e, hs', he⟩
    · refine h2.le.trans ?_
      gcongr
    · exfalso
      obtain ⟨y, y', hy, hy', hyy⟩ := hsc
      have hy : some (f (uToX t marg (fun i => V 0 i + scanPoint m j * alpha i))) = some y := hy
      have hy' : some (f (uToX t marg (fun i => V 0 i + scanPoint m (j + 1) * alpha i))) = some y' := hy'
      rw [hline] at hy hy'
      injection hy with hy
      injection hy' with hy'
      have hwd : scanPoint m (j + 1) - scanPoint m j = 2 * m / 39 := by unfold scanPoint; push_cast; ring
      have hdel : ∀ k ≤ 39, Brent.delta 1e-6 (4 * (1 / 2) ^ 52) (scanPoint m k) < |scanPoint m (j + 1) - scanPoint m j| / 2 := by
        intro k hk
        rw [hwd, abs_of_pos (by positivity)]
        unfold Brent.delta
        have h3 := scanPoint_range hm0 hk
        have h4 : |scanPoint m k| ≤ m := abs_le.2 h3
        have h5 : (4 * (1 / 2) ^ 52 : ℝ) ≤ 1 / 1000 := by norm_num
        have h6 : (4 * (1 / 2) ^ 52 : ℝ) * |scanPoint m k| ≤ 1 / 1000 * m := by
          apply mul_le_mul h5 h4 (abs_nonneg _) (by norm_num)
        norm_num at h6 ⊢
        linarith
      -- the negated function is one brentq_affine is about
      let f' : σ → ℝ → σ × Except PyErr ℝ := fun s x => ((evalAt t marg ev (V 0) alpha s x).1,
        (evalAt t marg ev (V 0) alpha s x).2.map Neg.neg)
      have hf'0 : ∀ s, P s → ∀ x, P (f' s x).1 ∧ (f' s x).2.toOption = some (-b - √S * x) := by
        intro s hs x
        obtain ⟨k1, k2⟩ := hcomp 0 s hs x
        refine ⟨k1, ?_⟩
        simp only [f']
        rcases hz : evalAt t marg ev (V 0) alpha s x with ⟨s2, e2 | z⟩
        · rw [hz] at k2; cases k2
        · rw [hz] at k2
          have k2 : some z = some (b + √S * x) := k2
          injection k2 with k2
          change some (-z) = _
          rw [k2]; congr 1; ring
      have hf' : Computes f' P (fun x => some (-b - √S * x)) := hf'0
      obtain ⟨z, hz⟩ := Brent.brentq_affine (A := -b) (B := √S) (lo := scanPoint m j) (hi := scanPoint m (j + 1)) hs0 hf'
        (xtol := 1e-6) (rtol := 4 * (1 / 2) ^ 52) (by norm_num) (by norm_num) (by norm_num)
        (by
          rw [← hy, ← hy'] at hyy
          calc _ = (b + √S * scanPoint m j) * (b + √S * scanPoint m (j + 1)) := by ring
            _ ≤ 0 := hyy)
        (hdel j (by omega)) (hdel (j + 1) (by omega)) 50 (by norm_num) s' hs'
      have hn := Brent.brentq_neg (xtol := 1e-6) (rtol := 4 * (1 / 2) ^ 52) (hcomp 0) (f' := f') (P' := P) (by
        have : (fun x => Option.map Neg.neg (some (b + √S * x))) = fun x => some (-b - √S * x) := by
          funext x; simp only [Option.map_some, Option.some.injEq]; ring
        rw [this]; exact hf') (scanPoint m j) (scanPoint m (j + 1)) 50 s' s' hs' hs'
      rw [hz, he] at hn
      cases hn
  have hNpos : (0:ℝ) < N := by exact_mod_cast hN
  have hsum : ∀ F : ℝ → ℝ, ∑ j ∈ Finset.range N, F (c j) = N * F (c 0) := by
    intro F
    rw [Finset.sum_congr rfl fun j hjj => by rw [hsame j (Finset.mem_range.1 hjj)]]
    simp
  have hPf' : r.Pf = StdNormal.cdf (-(c 0)) := by
    change r.Pf = _ at hPf
    rw [hPf, hsum (fun x => StdNormal.cdf (-x))]
    field_simp
  refine ⟨?_, ?_, c 0, ?_, hclose⟩
  · have hprob := halfspace_prob w hw b
    have hset : {u : Fin n → ℝ | f (uToX t marg u) ≤ 0} = {u | b + ∑ i, w i * u i ≤ 0} := by
      ext u; simp [hf]
    rw [hset, hprob, ← hS, hPf', ← StdNormal.cdf_neg, neg_neg]
    refine (StdNormal.cdf_lip _ _).trans ?_
    apply div_le_div_of_nonneg_right _ (Real.sqrt_nonneg _)
    rw [abs_sub_comm]
    have : b / √S - -(c 0) = c 0 - -(b / √S) := by ring
    rw [this]
    exact hclose
  · change r.cov = _ at hcov
    rw [hcov, hsum (fun x => (StdNormal.cdf (-x) - r.Pf) ^ 2), hPf', sub_self]
    simp
  · change r.beta = _ at hbeta
    change _ = r.Pf at hbb
    rw [hbeta]
    rw [hPf'] at hbb
    have := StdNormal.strictMono_cdf.injective hbb
    rw [neg_injective this]

/-- A run of an object that holds a `Form` object with results. -/
theorem lineRun_with (st : LineObj.Settings) (ω : ℕ → ℝ) {o : LineObj.Obj n} {F : FormObj.Obj n} (ho : o.form = some F)
    {al : Fin n → ℝ} (hal : F.alpha = some al) {b : ℝ} (hb : F.beta = some b) {ev ev1 : Ev Marginal} {t : Mats n}
    (hI : Session.initRun st.c n ev = (ev1, .ok t)) (pos : ℕ) :
    let r := sample t (Session.margN n st.c.default ev1.model) (Session.evaluator st.c n ev1.model) al b st.N ω pos ev1
    ∃ o', LineObj.run st ω o ev pos = some (o', r.1, pos + n * st.N, .ok ()) ∧ o'.form = some F ∧ o'.Pf = some r.2.Pf ∧
      o'.beta = some r.2.beta ∧ o'.cov = some r.2.cov ∧ o'.alpha = some al := by
  intro r
  unfold LineObj.run
  rw [hI]
  dsimp only
  unfold LineObj.obtainForm
  rw [ho]
  dsimp only
  rcases sampleRun_cases st ω t (Session.margN n st.c.default ev1.model) F ev1 pos with ⟨e, h0, -⟩ | ⟨al', b', h1, h2, h3⟩
  · rcases h0 with h0 | h0
    · rw [hal] at h0; cases h0
    · rw [hb] at h0; cases h0
  · rw [hal] at h1
    injection h1 with h1
    rw [hb] at h2
    injection h2 with h2
    subst h1 h2
    have := h3 st.print { o with resultsValid := true, transform := some t, form := some F } rfl
    refine ⟨_, congrArg some this, rfl, rfl, rfl, rfl, rfl⟩

/-- C80: the direction is not checked against the model.  When the held `Form` object's direction points along the gradient of
what is now the (affine) limit state — as it does after the limit state has been replaced by its negative — the run is
completed and reports one minus the failure probability, with a coefficient of variation of zero. -/
theorem C80_rerun (st : LineObj.Settings) (ω : ℕ → ℝ) {o : LineObj.Obj n} {F : FormObj.Obj n} (ho : o.form = some F)
    {al : Fin n → ℝ} (hal : F.alpha = some al) {b0 : ℝ} (hb : F.beta = some b0) {ev ev1 : Ev Marginal} {t : Mats n}
    (hI : Session.initRun st.c n ev = (ev1, .ok t)) (pos : ℕ) (hN : 1 ≤ st.N) {g : Dict String ℝ → ℝ}
    (hp : Pointwise st.c.expr g) (hbs : 1 ≤ st.c.lsopt.blockSize) (hmp : st.c.lsopt.multiProc ≠ 0) (hm : Reachable ev1.model)
    (hn : ev1.model.nMarg ≤ n) (hne : ev1.model.getNames ≠ []) {b : ℝ} {w : Fin n → ℝ} (hw : 0 < ∑ i, w i ^ 2)
    (hf : ∀ u, g (pointArgs ev1.model (uToX t (Session.margN n st.c.default ev1.model) u)) = b + ∑ i, w i * u i)
    (hdir : al = fun i => w i / √(∑ i, w i ^ 2)) (hin : |b / √(∑ i, w i ^ 2)| < max (|b0| * 3 + 5) 15) :
    ∃ o' ev' p, LineObj.run st ω o ev pos = some (o', ev', pos + n * st.N, .ok ()) ∧ LineObj.getFailure o' = some p ∧
      |p - (1 - (stdGauss n).real {u | g (pointArgs ev1.model (uToX t (Session.margN n st.c.default ev1.model) u)) ≤ 0})| ≤
        (1e-6 + 4 * (1 / 2) ^ 52 * max (|b0| * 3 + 5) 15) / √(2 * Real.pi) ∧
      o'.cov = some 0 := by
  obtain ⟨o', h1, -, h2, -, h3, -⟩ := lineRun_with st ω ho hal hb hI pos
  have hv := pointValues_of_values (ls_values hp st.c.lsopt hbs hmp
    (fun i => (Session.margN n st.c.default ev1.model i).stdv) ev1.model hm hn hne)
  obtain ⟨k1, k2, -⟩ := C80_wrong_way (t := t) (marg := Session.margN n st.c.default ev1.model) hv hf hw b0 hin hN ω pos ev1
    ⟨0, by simp [StochModel.addCallFunction]⟩
  rw [hdir] at h1 h2 h3
  refine ⟨o', _, _, h1, h2, k1, ?_⟩
  rw [h3]
  exact congrArg some k2

/-- C80, a concrete case: FORM is run for `g = 7 - X - 2Y`, the limit state is replaced by `-g`, and line sampling is run with
that `Form` object.  The run is completed; the reported probability is that of the safe domain. -/
example (ω : ℕ → ℝ) : ∃ (c c' : Session.Setup) (ev ev1 ev2 : Ev Marginal) (F : FormObj.Obj 2) (o : LineObj.Obj 2) (p : ℝ),
    FormObj.run c ⟨100, 0.001, 0.001, 1, 1⟩ FormObj.fresh ev = some (F, ev1, .finished) ∧ FormObj.getBeta F = .ok (2 / √5) ∧
    LineObj.run ⟨c', ⟨100, 0.001, 0.001, 1, 1⟩, 10, true⟩ ω (LineObj.fresh (some F)) ev1 0 = some (o, ev2, 0 + 2 * 10, .ok ()) ∧
    LineObj.getFailure o = some p ∧
    |p - (1 - (stdGauss 2).real {u | -(7 - (1 + u 0) - 2 * (2 + u 1)) ≤ 0})| ≤ 1e-6 + 4 * (1 / 2) ^ 52 * 15 := by
  obtain ⟨c, ev, ev1, r, m1, m2, hla, hreach, hmarg, hconsts, hcor, hfuel, hls, hnames, h1, h2, hF, hb, -, ⟨g, -, hargs⟩, -, -,
    hal, hinv⟩ := formObject_world
  obtain ⟨c', hc'⟩ : ∃ c' : Session.Setup, c' = { c with expr := vectorised (fun d => -g d) } := ⟨_, rfl⟩
  obtain ⟨-, -, -, -, j, T, hS⟩ := formRun_done hF
  have hd := hS.definition
  have hr := C76_run (n := 2) c ⟨100, 0.001, 0.001, 1, 1⟩ FormObj.fresh ev
  rw [hF] at hr
  obtain ⟨F, q1, q2, q3⟩ := hr
  have hla' : LinAlgOK c'.la := by rw [hc']; exact hla
  obtain ⟨Ro, t, h0, ht⟩ := initRun_eye (c := c') (n := 2) (ev := ev1) hla' (by rw [hd.marg, hmarg]; rfl)
    (by rw [hd.correlation, hcor])
  obtain ⟨ev0, he0⟩ : ∃ ev0 : Ev Marginal, ev0 = { ev1 with model := ev1.model.setModifiedCorrelation Ro } := ⟨_, rfl⟩
  rw [← he0] at h0
  have hd0 : SameDefinition ev0.model ev1.model := by rw [he0]; exact ⟨rfl, rfl, rfl, rfl, rfl⟩
  have hmg : ∀ i : Fin 2, Normal.new (![1, 2] i) (.fin (1 : ℝ)) none = .ok (Session.margN 2 c'.default ev0.model i) := by
    intro i
    unfold Session.margN
    rw [hd0.marg, hd.marg, hmarg]
    fin_cases i
    · simpa using h1
    · simpa using h2
  have hti : t.invT = 1 := hinv t (by rw [hc'] at ht; exact ht)
  have hu : ∀ (u : Fin 2 → ℝ) i, uToX t (Session.margN 2 c'.default ev0.model) u i = ![1, 2] i + u i := by
    intro u i
    simp only [uToX, (normal_ok (hmg i)).1, Normal.uToX, hti, Matrix.one_mulVec]
    ring
  have hg : ∀ u : Fin 2 → ℝ, -g (pointArgs ev0.model (uToX t (Session.margN 2 c'.default ev0.model) u)) =
      -(7 - (1 + u 0) - 2 * (2 + u 1)) := by
    intro u
    rw [pointArgs_same hd0, pointArgs_same hd, hargs]
    simp only [Fin.sum_univ_two, hu]
    simp
    ring
  have hS5 : ∑ i, (![1, 2] : Fin 2 → ℝ) i ^ 2 = 5 := by simp [Fin.sum_univ_two]; norm_num
  have h5 : (1 : ℝ) ≤ √5 := Real.one_le_sqrt.2 (by norm_num)
  have h25 : |(2 : ℝ) / √5| ≤ 2 := by
    rw [abs_of_nonneg (by positivity)]; exact (div_le_self (by norm_num) h5)
  have hmax : max (|(2 : ℝ) / √5| * 3 + 5) 15 = 15 := max_eq_right (by linarith)
  obtain ⟨o, ev2, p, k1, k2, k3, -⟩ := C80_rerun (n := 2) ⟨c', ⟨100, 0.001, 0.001, 1, 1⟩, 10, true⟩ ω
    (o := LineObj.fresh (some F)) rfl q2.alpha q2.beta h0 0 (by norm_num) (g := fun d => -g d)
    (by rw [hc']; exact vectorised_pointwise (fun d => -g d)) (by rw [hc']; simp [hls]) (by rw [hc']; simp [hls])
    (by rw [he0]; exact reachable_setRo (hS.reachable hreach) _)
    (by unfold StochModel.nMarg; rw [hd0.marg, hd.marg, hmarg]; rfl)
    (by unfold StochModel.getNames; rw [hd0.names, hd.names, hnames]; simp) (b := -2) (w := ![1, 2]) (by rw [hS5]; norm_num)
    (by intro u; rw [hg]; simp [Fin.sum_univ_two]; ring)
    (by
      rw [hal]
      funext i
      have e : ∑ i, (![-1, -2] : Fin 2 → ℝ) i ^ 2 = 5 := by simp [Fin.sum_univ_two]; norm_num
      simp only [Form.alpha, norm2, hS5, e]
      fin_cases i <;> simp [div_eq_mul_inv])
    (by rw [hS5, hb, hmax, show (-2 : ℝ) / √5 = -(2 / √5) by ring, abs_neg]; linarith)
  refine ⟨c, c', ev, ev1, ev2, F, o, p, q1, ?_, k1, k2, ?_⟩
  · simp [FormObj.getBeta, q2.beta, hb]
  · rw [hb, hmax] at k3
    simp only [hg] at k3
    refine k3.trans (div_le_self (by positivity) ?_)
    rw [Real.one_le_sqrt]
    linarith [Real.pi_gt_three]

end Pystra.Props
