import Verif.Lemmas.LineSampling
import Verif.Props.LineSampling

/-! C128: the number of limit-state evaluations of line sampling. -/

namespace Pystra.Props
open Spec Transformation Form LineSampling Matrix

variable {σ : Type} {n : ℕ}

/-- `Q k` holds of the states in which `k` points have been evaluated. -/
def Counts (ev : Evaluator σ n) (Q : ℕ → σ → Prop) : Prop := ∀ k s x, Q k s → Q (k + 1) (ev.values s [x]).1

section
variable {t : Mats n} {marg : Fin n → Marginal} {ev : Evaluator σ n} {Q : ℕ → σ → Prop}

theorem evalAt_counts (h : Counts ev Q) (v alpha : Fin n → ℝ) (c : ℝ) {k : ℕ} {s : σ} (hs : Q k s) :
    Q (k + 1) (evalAt t marg ev v alpha s c).1 := by
  have h1 := h k s (uToX t marg (fun i => v i + c * alpha i)) hs
  unfold evalAt
  rcases h2 : ev.values s [uToX t marg (fun i => v i + c * alpha i)] with ⟨s', e | G⟩ <;> rw [h2] at h1 <;> exact h1

theorem scan_counts (h : Counts ev Q) (v alpha : Fin n → ℝ) : ∀ (cs : List ℝ) {k : ℕ} {s : σ}, Q k s →
    Q (k + cs.length) (scan t marg ev v alpha cs s).1
  | [], k, s, hs => hs
  | c :: cs, k, s, hs => by
    have h1 := scan_counts h v alpha cs (evalAt_counts (t := t) (marg := marg) h v alpha c hs)
    unfold scan
    simp only [List.length_cons]
    rw [show k + (cs.length + 1) = k + 1 + cs.length by omega]
    exact h1

theorem loop_counts {f : σ → ℝ → σ × Except PyErr ℝ} (hf : ∀ k s c, Q k s → Q (k + 1) (f s c).1) (xtol rtol : ℝ) :
    ∀ (iter : ℕ) (st : Brent.State) {k : ℕ} {s : σ}, Q k s →
    ∃ j ≤ iter, Q (k + j) (Brent.loop f xtol rtol iter st s).1
  | 0, st, k, s, hs => ⟨0, le_rfl, hs⟩
  | iter + 1, st, k, s, hs => by
    unfold Brent.loop
    simp only
    split_ifs with h1
    · exact ⟨0, Nat.zero_le _, hs⟩
    · have h2 := hf k s (Brent.advance xtol rtol (Brent.adjust st)).xcur hs
      rcases h3 : f s (Brent.advance xtol rtol (Brent.adjust st)).xcur with ⟨s', e | y⟩
      · rw [h3] at h2
        exact ⟨1, by omega, h2⟩
      · rw [h3] at h2
        obtain ⟨j, hj, h4⟩ := loop_counts hf xtol rtol iter
          { Brent.advance xtol rtol (Brent.adjust st) with fcur := y } h2
        refine ⟨j + 1, by omega, ?_⟩
        rw [show k + (j + 1) = k + 1 + j by omega]
        exact h4

theorem brentq_counts {f : σ → ℝ → σ × Except PyErr ℝ} (hf : ∀ k s c, Q k s → Q (k + 1) (f s c).1) (a b xtol rtol : ℝ)
    (iter : ℕ) {k : ℕ} {s : σ} (hs : Q k s) :
    ∃ j, 1 ≤ j ∧ j ≤ iter + 2 ∧ Q (k + j) (Brent.brentq f a b xtol rtol iter s).1 := by
  unfold Brent.brentq
  have h1 := hf k s a hs
  rcases h2 : f s a with ⟨s1, e | fa⟩ <;> rw [h2] at h1
  · exact ⟨1, le_rfl, by omega, h1⟩
  have h3 := hf _ s1 b h1
  simp only
  rcases h4 : f s1 b with ⟨s2, e | fb⟩ <;> rw [h4] at h3
  · exact ⟨2, by omega, by omega, h3⟩
  simp only
  split_ifs
  · exact ⟨2, by omega, by omega, h3⟩
  · exact ⟨2, by omega, by omega, h3⟩
  · obtain ⟨j, hj, h5⟩ := loop_counts hf xtol rtol iter ⟨a, b, 0, fa, fb, 0, 0, 0⟩ h3
    refine ⟨j + 2, by omega, by omega, ?_⟩
    rw [show k + (j + 2) = k + 1 + 1 + j by omega]
    exact h5
  · exact ⟨2, by omega, by omega, h3⟩

/-- One line takes the 40 evaluations of the scan, and between 1 and 52 of the root finder when the scan saw a sign change. -/
theorem findLine_counts (h : Counts ev Q) (v alpha : Fin n → ℝ) (cInit : ℝ) {k : ℕ} {s : σ} (hs : Q k s) :
    ∃ j ≤ 52, Q (k + (40 + j)) (findLine t marg ev v alpha cInit s).1 := by
  have h1 := scan_counts (t := t) (marg := marg) h v alpha (grid (cMax cInit)) hs
  have hlen : (grid (cMax cInit)).length = 40 := by simp [grid]
  rw [hlen] at h1
  unfold findLine
  simp only
  set sc := scan t marg ev v alpha (grid (cMax cInit)) s with hsc
  rcases hb : bracket sc.2 none with _ | ⟨lo, hi⟩
  · refine ⟨0, by omega, ?_⟩
    simp only
    split <;> exact h1
  · obtain ⟨j, -, hj, h2⟩ := brentq_counts (fun k s c hs => evalAt_counts (t := t) (marg := marg) h v alpha c hs)
      (min lo hi) (max lo hi) xtol rtol 50 h1
    refine ⟨j, by omega, ?_⟩
    rw [← Nat.add_assoc]
    simp only
    rcases hr : Brent.brentq (evalAt t marg ev v alpha) (min lo hi) (max lo hi) xtol rtol 50 sc.1 with ⟨s', e | c⟩ <;>
      rw [hr] at h2 <;> exact h2

theorem lines_counts (h : Counts ev Q) (alpha : Fin n → ℝ) (cInit : ℝ) : ∀ (vs : List (Fin n → ℝ)) {k : ℕ} {s : σ}, Q k s →
    ∃ j ≤ 52 * vs.length, Q (k + (40 * vs.length + j)) (lines t marg ev alpha cInit vs s).1
  | [], k, s, hs => ⟨0, le_rfl, hs⟩
  | v :: vs, k, s, hs => by
    obtain ⟨j, hj, h1⟩ := findLine_counts (t := t) (marg := marg) h v alpha cInit hs
    obtain ⟨j', hj', h2⟩ := lines_counts h alpha cInit vs h1
    unfold lines
    simp only [List.length_cons]
    refine ⟨j + j', by omega, ?_⟩
    rw [show k + (40 * (vs.length + 1) + (j + j')) = k + (40 + j) + (40 * vs.length + j') by omega]
    exact h2

/-- C128: after the FORM analysis a run of line sampling over `N` lines evaluates the limit state at least `40 N` and at most
`92 N` times, whatever the limit state does: it cannot run away, and it never costs less than 40 evaluations per line. -/
theorem C128_cost (h : Counts ev Q) (alpha : Fin n → ℝ) (betaForm : ℝ) (N : ℕ) (ω : ℕ → ℝ) (pos : ℕ) {k : ℕ} {s : σ} (hs : Q k s) :
    ∃ K, 40 * N ≤ K ∧ K ≤ 92 * N ∧ Q (k + K) (sample t marg ev alpha betaForm N ω pos s).1 := by
  obtain ⟨j, hj, h1⟩ := lines_counts (t := t) (marg := marg) h alpha betaForm ((Subset.randn ω n N pos).map (project alpha)) hs
  have hlen : ((Subset.randn ω n N pos).map (project alpha)).length = N := by simp [Subset.randn]
  rw [hlen] at hj h1
  exact ⟨40 * N + j, by omega, by omega, h1⟩

/-- C128: on lines where the scan sees no sign change the cost is exactly 40 evaluations each. -/
theorem C128_no_crossing {P : σ → Prop} {g : (Fin n → ℝ) → Option ℝ} (hev : PointValues ev P g)
    (h : Counts ev (fun k s => Q k s ∧ P s)) (alpha : Fin n → ℝ)
    (betaForm : ℝ) (N : ℕ) (ω : ℕ → ℝ) (pos : ℕ)
    (hno : ∀ j < N, ∀ i < 39, ¬ SignChange (onLine t marg g (fun i => lsDraw ω n N pos j i - (∑ k, alpha k * lsDraw ω n N pos j k) * alpha i) alpha)
      (scanPoint (max (|betaForm| * 3 + 5) 15) i) (scanPoint (max (|betaForm| * 3 + 5) 15) (i + 1)))
    {k : ℕ} {s : σ} (hs : Q k s) (hP : P s) :
    Q (k + 40 * N) (sample t marg ev alpha betaForm N ω pos s).1 := by
  classical
  have hone : ∀ v, (∀ i < 39, ¬ SignChange (onLine t marg g v alpha) (scanPoint (cMax betaForm) i) (scanPoint (cMax betaForm) (i + 1))) →
      ∀ k s, Q k s → P s → Q (k + 40) (findLine t marg ev v alpha betaForm s).1 ∧ P (findLine t marg ev v alpha betaForm s).1 := by
    intro v hv k s hs hP
    have h1 := (scan_counts (t := t) (marg := marg) h v alpha (grid (cMax betaForm)) ⟨hs, hP⟩)
    have hlen : (grid (cMax betaForm)).length = 40 := by simp [grid]
    rw [hlen] at h1
    obtain ⟨h2, h3⟩ := scan_spec (evalAt_computes (t := t) (marg := marg) hev v alpha) (grid (cMax betaForm)) s hP
    have hsf : ∀ i < 39, ¬ SafeToFail (onLine t marg g v alpha) (scanPoint (cMax betaForm) i) (scanPoint (cMax betaForm) (i + 1)) := by
      rintro i hi ⟨y, y', h4, h5, h6, h7⟩
      exact hv i hi ⟨y, y', h4, h5, mul_nonpos_of_nonneg_of_nonpos h6.le h7⟩
    have hb : bracket (scan t marg ev v alpha (grid (cMax betaForm)) s).2 none = none := by
      rw [h3]
      have h4 := bracket_spec (onLine t marg g v alpha) (grid (cMax betaForm)) none
      rw [pairs_eq, Option.none_or] at h4
      refine h4.trans ?_
      rw [find_none (fun i hi => by simpa using hsf i hi), find_none (fun i hi => by simpa using hv i hi)]
      rfl
    unfold findLine
    simp only
    rw [hb]
    simp only
    split <;> exact h1
  have hlist : ∀ (vs : List (Fin n → ℝ)), (∀ v ∈ vs, ∀ i < 39, ¬ SignChange (onLine t marg g v alpha) (scanPoint (cMax betaForm) i)
      (scanPoint (cMax betaForm) (i + 1))) → ∀ k s, Q k s → P s → Q (k + 40 * vs.length) (lines t marg ev alpha betaForm vs s).1 := by
    intro vs
    induction vs with
    | nil => intro _ k s hs _; exact hs
    | cons v vs ih =>
      intro hv k s hs hP
      obtain ⟨h1, h2⟩ := hone v (hv v (by simp)) k s hs hP
      have h3 := ih (fun v' hv' => hv v' (by simp [hv'])) _ _ h1 h2
      unfold lines
      simp only [List.length_cons]
      rw [show k + 40 * (vs.length + 1) = k + 40 + 40 * vs.length by omega]
      exact h3
  have hlen : ((Subset.randn ω n N pos).map (project alpha)).length = N := by simp [Subset.randn]
  have := hlist ((Subset.randn ω n N pos).map (project alpha)) (by
    intro v hv
    obtain ⟨u, hu, rfl⟩ := List.mem_map.1 hv
    obtain ⟨j, hj, rfl⟩ := List.mem_map.1 hu
    have h4 := hno j (List.mem_range.1 hj)
    have e : project alpha (fun r : Fin n => ω (pos + r.val * N + j)) =
        fun i => lsDraw ω n N pos j i - (∑ k, alpha k * lsDraw ω n N pos j k) * alpha i := by
      funext i
      simp only [project, lsDraw, dotProduct]
      ring
    rw [e]
    exact h4) k s hs hP
  rw [hlen] at this
  exact this

end

/-- An evaluator that counts: five lines take between 200 and 460 evaluations. -/
example (marg : Fin 2 → Marginal) (t : Mats 2) (ω : ℕ → ℝ) :
    let K := (sample t marg (⟨fun s _ => (s, .error .typeError), fun s xs => (s + xs.length, .ok (xs.map (fun x => 3 - x 0)))⟩ :
      Evaluator ℕ 2) ![1, 0] 3 5 ω 0 0).1
    200 ≤ K ∧ K ≤ 460 := by
  intro K
  obtain ⟨j, h1, h2, h3⟩ := C128_cost (t := t) (marg := marg) (Q := fun k s => s = k)
    (ev := (⟨fun s _ => (s, .error .typeError), fun s xs => (s + xs.length, .ok (xs.map (fun x => 3 - x 0)))⟩ : Evaluator ℕ 2))
    (fun k s x hs => by simp [hs]) ![1, 0] 3 5 ω 0 (k := 0) (s := 0) rfl
  have h3 : K = 0 + j := h3
  omega

end Pystra.Props
