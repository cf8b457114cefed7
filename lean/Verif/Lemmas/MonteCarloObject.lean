import Verif.Model.MonteCarloObject
import Verif.Lemmas.MonteCarlo

/-! The loop of a simulation object refines the loop on the state, and what it leaves in the arrays. -/

namespace Pystra.McObj
open Transformation Form MonteCarlo Spec

variable {σ : Type} {n : ℕ}

/-- The object carries the state. -/
structure Rep (o : Obj n) (st : State σ n) : Prop where
  k : o.k = some st.k
  sumQ : o.sumQ = some st.sumQ
  sumQ2 : o.sumQ2 = some st.sumQ2
  records : o.records = st.records

/-- The arrays after the first `K` of `N` samples in blocks of `bs`: the entries at the ends of the blocks satisfy `V`, all others are
as they were initialised. -/
structure Arr (bs N : ℕ) (V : ℕ → ℝ × ℝ → Prop) (K : ℕ) (q : List ℝ) (c : List (Option ℝ)) : Prop where
  qlen : q.length = N
  clen : c.length = N
  written : ∀ j, j + 1 ≤ K → (bs ∣ j + 1 ∨ j + 1 = N) → ∃ a b, q[j]? = some a ∧ c[j]? = some (some b) ∧ V (j + 1) (a, b)
  other : ∀ j, j < N → ¬(j + 1 ≤ K ∧ (bs ∣ j + 1 ∨ j + 1 = N)) → q[j]? = some 0 ∧ c[j]? = some (if j = 0 then some 1 else none)

/-- The object's arrays. -/
def ArrO (bs N : ℕ) (V : ℕ → ℝ × ℝ → Prop) (K : ℕ) (o : Obj n) : Prop :=
  ∃ q c, o.qBar = some q ∧ o.cov = some c ∧ Arr bs N V K q c

theorem Arr.init (bs : ℕ) {N : ℕ} (V : ℕ → ℝ × ℝ → Prop) : Arr bs N V 0 (List.replicate N 0) ((List.replicate N none).set 0 (some 1)) := by
  refine ⟨by simp, by simp, fun j h => by omega, fun j hj _ => ⟨by simp [hj], ?_⟩⟩
  rw [List.getElem?_set]
  by_cases h : j = 0
  · subst h; simp [hj]
  · rw [if_neg (Ne.symm h)]; simp [hj, h]

theorem Arr.set {bs N K : ℕ} {V : ℕ → ℝ × ℝ → Prop} {q : List ℝ} {c : List (Option ℝ)} (h : Arr bs N V K q c) (hd : bs ∣ K)
    (hb : 1 ≤ bs) (hK : K < N) {a b : ℝ} (hv : V (K + min bs (N - K)) (a, b)) :
    Arr bs N V (K + min bs (N - K)) (q.set (K + min bs (N - K) - 1) a) (c.set (K + min bs (N - K) - 1) (some b)) := by
  obtain ⟨m, hm⟩ : ∃ m, m = min bs (N - K) := ⟨_, rfl⟩
  rw [← hm] at hv ⊢
  have h1 : 1 ≤ m := by omega
  have h2 : K + m ≤ N := by omega
  refine ⟨by simp [h.qlen], by simp [h.clen], ?_, ?_⟩
  · intro j hj hjd
    by_cases hjm : j = K + m - 1
    · subst hjm
      refine ⟨a, b, ?_, ?_, ?_⟩
      · rw [List.getElem?_set, if_pos rfl, if_pos (by rw [h.qlen]; omega)]
      · rw [List.getElem?_set, if_pos rfl, if_pos (by rw [h.clen]; omega)]
      · rw [show K + m - 1 + 1 = K + m by omega]; exact hv
    · have hlt : j + 1 ≤ K := by
        rcases hjd with hjd | hjd
        · obtain ⟨x, hx⟩ := hd
          obtain ⟨y, hy⟩ := hjd
          by_contra hcon
          have hxy : x < y := by
            by_contra hle
            have := Nat.mul_le_mul_left bs (not_lt.1 hle)
            omega
          have := Nat.mul_le_mul_left bs (Nat.succ_le_of_lt hxy)
          rw [Nat.mul_succ] at this
          omega
        · omega
      rw [List.getElem?_set, List.getElem?_set, if_neg (fun e => hjm e.symm), if_neg (fun e => hjm e.symm)]
      exact h.written j hlt hjd
  · intro j hj hn
    have hend : bs ∣ K + m ∨ K + m = N := by
      by_cases hx : bs ≤ N - K
      · left; rw [hm, min_eq_left hx]; exact Nat.dvd_add hd (dvd_refl _)
      · right; omega
    have hjm : K + m - 1 ≠ j := by
      intro e
      apply hn
      rw [show j + 1 = K + m by omega]
      exact ⟨le_rfl, hend⟩
    rw [List.getElem?_set, List.getElem?_set, if_neg hjm, if_neg hjm]
    exact h.other j hj (fun hh => hn ⟨by omega, hh.2⟩)

/-- What the last pass left. -/
structure Last (bs N : ℕ) (o : Obj n) (st : State σ n) : Prop where
  block : ∃ b, o.blockSize = some b ∧ 1 ≤ b ∧ b ≤ st.k ∧ bs ∣ st.k - b ∧ b = min bs (N - (st.k - b))
  q : ∀ q, o.qBar = some q → q[st.k - 1]? = some st.qBar
  c : ∀ c, o.cov = some c → c[st.k - 1]? = some (some st.covQBar)

section
variable {t : Mats n} {marg : Fin n → Marginal} {ev : Evaluator σ n} {opt : MonteCarlo.Options} {point : Fin n → ℝ} {ω : ℕ → ℝ}

/-- One pass. -/
theorem pass_rep (hg : opt.randomGenerator = 0) (hb : 1 ≤ opt.blockSize) {V : ℕ → ℝ × ℝ → Prop} {o : Obj n} {st : State σ n}
    (hr : Rep o st) (ha : ArrO opt.blockSize opt.samples V st.k o) (hd : opt.blockSize ∣ st.k) (hk : st.k < opt.samples)
    (hV : ∀ st', block t marg ev opt point ω st = .ok st' → V st'.k (st'.qBar, st'.covQBar)) :
    let p := pass t marg ev opt point ω o st.s st.pos
    p.1.Pf = o.Pf ∧ p.1.beta = o.beta ∧
    match block t marg ev opt point ω st with
    | .error (e, s) => p.2 = (s, st.pos + n * min opt.blockSize (opt.samples - st.k), .error e) ∧
        p.1.k = some (st.k + min opt.blockSize (opt.samples - st.k)) ∧
        p.1.blockSize = some (min opt.blockSize (opt.samples - st.k)) ∧
        ArrO opt.blockSize opt.samples V st.k p.1 ∧ p.1.records = st.records
    | .ok st' => p.2 = (st'.s, st'.pos, .ok ()) ∧ Rep p.1 st' ∧ ArrO opt.blockSize opt.samples V st'.k p.1 ∧
        Last opt.blockSize opt.samples p.1 st' ∧ st'.k = st.k + min opt.blockSize (opt.samples - st.k) := by
  obtain ⟨q, c, hq, hc, hA⟩ := ha
  revert hV
  unfold pass block draw randomNumbers
  simp only [hg, if_true, hr.k, Option.getD_some]
  obtain ⟨b, hbb⟩ : ∃ b, b = min opt.blockSize (opt.samples - st.k) := ⟨_, rfl⟩
  rw [← hbb]
  obtain ⟨us, hus⟩ : ∃ us, us = (randn ω n b st.pos).map (fun z => fun r => point r + opt.stdv * z r) := ⟨_, rfl⟩
  have hlen : us.length = b := by rw [hus]; simp [randn]
  rw [← hus]
  have htake : us.take b = us := by rw [← hlen]; exact List.take_length
  simp only [hlen, lt_irrefl, if_false, htake, ne_eq, not_true, false_and]
  rcases hv : ev.values st.s (us.map (uToX t marg)) with ⟨s', e | G⟩
  · intro _
    exact ⟨rfl, rfl, rfl, rfl, rfl, ⟨q, c, hq, hc, hA⟩, hr.records⟩
  · intro hV
    dsimp only at hV ⊢
    have hV := hV _ rfl
    dsimp only at hV
    have hrec := hr.records
    have hS : o.sumQ.getD 0 = st.sumQ := by rw [hr.sumQ]; rfl
    have hS2 : o.sumQ2.getD 0 = st.sumQ2 := by rw [hr.sumQ2]; rfl
    refine ⟨rfl, rfl, rfl, ⟨rfl, ?_, ?_, ?_⟩, ?_, ⟨?_, ?_, ?_⟩, rfl⟩
    · simp only [update, hS]
    · simp only [update, hS2]
    · simp only [update, hrec, State.records]
    · refine ⟨_, _, rfl, rfl, ?_⟩
      simp only [hq, hc, Option.getD_some, hS, hS2]
      rw [hbb] at hV ⊢
      exact hA.set hd hb hk hV
    · exact ⟨b, rfl, by omega, by simp, by simpa using hd, by simp [hbb]⟩
    · intro q' hq'
      simp only [update, hq, hS, hS2, Option.getD_some, Option.some.injEq] at hq'
      subst hq'
      rw [List.getElem?_set, if_pos rfl, if_pos (by rw [hA.qlen]; omega)]
    · intro c' hc'
      simp only [update, hc, hS, hS2, Option.getD_some, Option.some.injEq] at hc'
      subst hc'
      rw [List.getElem?_set, if_pos rfl, if_pos (by rw [hA.clen]; omega)]

/-- The loop. -/
theorem loop_rep (hg : opt.randomGenerator = 0) (hb : 1 ≤ opt.blockSize) {V : ℕ → ℝ × ℝ → Prop} {I : State σ n → Prop}
    (hV : ∀ st st', I st → st.k < opt.samples → block t marg ev opt point ω st = .ok st' → I st' ∧ V st'.k (st'.qBar, st'.covQBar))
    (fuel : ℕ) :
    ∀ {o : Obj n} {st : State σ n}, Rep o st → ArrO opt.blockSize opt.samples V st.k o → I st → st.k ≤ opt.samples →
    (opt.blockSize ∣ st.k ∨ st.k = opt.samples) → (st.k = 0 ∨ Last opt.blockSize opt.samples o st) →
    match MonteCarlo.loop t marg ev opt point ω fuel st with
    | none => loop t marg ev opt point ω fuel o st.s st.pos = none
    | some (.error (e, s)) => ∃ o' pos' K, loop t marg ev opt point ω fuel o st.s st.pos = some (o', s, pos', .error e) ∧
        o'.Pf = o.Pf ∧ o'.beta = o.beta ∧ ArrO opt.blockSize opt.samples V K o' ∧ K < opt.samples ∧ opt.blockSize ∣ K ∧
        o'.k = some (K + min opt.blockSize (opt.samples - K)) ∧ o'.blockSize = some (min opt.blockSize (opt.samples - K))
    | some (.ok st') => ∃ o', loop t marg ev opt point ω fuel o st.s st.pos = some (o', st'.s, st'.pos, .ok ()) ∧
        o'.Pf = o.Pf ∧ o'.beta = o.beta ∧ Rep o' st' ∧ ArrO opt.blockSize opt.samples V st'.k o' ∧ I st' ∧ st'.k ≤ opt.samples ∧
        st.k ≤ st'.k ∧ (st.k < opt.samples → st.k < st'.k) ∧ (st'.k = 0 ∨ Last opt.blockSize opt.samples o' st') := by
  induction fuel with
  | zero =>
    intro o st hr ha hi hk hd hl
    unfold MonteCarlo.loop loop
    rw [hr.k, Option.getD_some]
    by_cases h : st.k < opt.samples
    · simp only [if_pos h]
    · simp only [if_neg h]
      exact ⟨o, rfl, rfl, rfl, hr, ha, hi, hk, le_rfl, fun h' => absurd h' h, hl⟩
  | succ fuel ih =>
    intro o st hr ha hi hk hd hl
    unfold MonteCarlo.loop loop
    rw [hr.k, Option.getD_some]
    by_cases h : st.k < opt.samples
    · simp only [if_pos h]
      have hd' : opt.blockSize ∣ st.k := by
        rcases hd with hd | hd
        · exact hd
        · omega
      have hp := pass_rep (t := t) (marg := marg) (ev := ev) (point := point) (ω := ω) hg hb hr ha hd' h
        (fun st' hs => (hV st st' hi h hs).2)
      rcases hpp : pass t marg ev opt point ω o st.s st.pos with ⟨o1, s1, p1, x⟩
      rw [hpp] at hp
      obtain ⟨hPf, hbeta, hp⟩ := hp
      rcases hblk : block t marg ev opt point ω st with ⟨e, s⟩ | st1
      · rw [hblk] at hp
        obtain ⟨h1, h2, h3, h4, h5⟩ := hp
        simp only [Prod.mk.injEq] at h1
        obtain ⟨rfl, rfl, rfl⟩ := h1
        exact ⟨o1, _, st.k, rfl, hPf, hbeta, h4, h, hd', h2, h3⟩
      · rw [hblk] at hp
        obtain ⟨h1, h2, h3, h4, h5⟩ := hp
        simp only [Prod.mk.injEq] at h1
        obtain ⟨rfl, rfl, rfl⟩ := h1
        dsimp only
        obtain ⟨hi1, -⟩ := hV st st1 hi h hblk
        have hconv : converged opt o1 = decide (st1.covQBar ≤ opt.cov) := by
          obtain ⟨q, c, -, hc, -⟩ := h3
          have := h4.c c hc
          unfold converged
          rw [h2.k, hc]
          simp only [Option.getD_some, List.getD, this]
        rw [hconv]
        by_cases hcv : st1.covQBar ≤ opt.cov
        · simp only [if_pos hcv, decide_true, if_true, hcv]
          exact ⟨o1, rfl, hPf, hbeta, h2, h3, hi1, by omega, by omega, fun _ => by omega, Or.inr h4⟩
        · simp only [if_neg hcv, decide_false, Bool.false_eq_true, if_false, hcv]
          have hk1 : st1.k ≤ opt.samples := by omega
          have hd1 : opt.blockSize ∣ st1.k ∨ st1.k = opt.samples := by
            by_cases hx : opt.blockSize ≤ opt.samples - st.k
            · left; rw [h5, min_eq_left hx]; exact Nat.dvd_add hd' (dvd_refl _)
            · right; omega
          have hrest := ih h2 h3 hi1 hk1 hd1 (Or.inr h4)
          rcases hml : MonteCarlo.loop t marg ev opt point ω fuel st1 with _ | ⟨e, s⟩ | st2 <;> rw [hml] at hrest <;> dsimp only at hrest ⊢
          · exact hrest
          · obtain ⟨o', pos', K, g1, g2, g3, g4⟩ := hrest
            exact ⟨o', pos', K, g1, g2.trans hPf, g3.trans hbeta, g4⟩
          · obtain ⟨o', g1, g2, g3, g4, g5, g6, g7, g8, g9, g10⟩ := hrest
            exact ⟨o', g1, g2.trans hPf, g3.trans hbeta, g4, g5, g6, g7, by omega, fun _ => by omega, g10⟩
    · simp only [if_neg h]
      exact ⟨o, rfl, rfl, rfl, hr, ha, hi, hk, le_rfl, fun h' => absurd h' h, hl⟩

end
end Pystra.McObj
