import Verif.Lemmas.LineSampling
import Verif.Lemmas.BrentAffine
import Verif.Props.MonteCarlo
import Verif.Lemmas.LineGauss
import Mathlib.Data.List.GetD

/-! C44, C45: line sampling. -/

namespace Pystra.Props
open Spec Transformation Form LineSampling Matrix

variable {σ : Type} {n : ℕ}

section
variable {t : Mats n} {marg : Fin n → Marginal} {ev : Evaluator σ n} {P : σ → Prop} {g : (Fin n → ℝ) → Option ℝ}

theorem evalAt_computes (hev : PointValues ev P g) (v alpha : Fin n → ℝ) :
    Computes (evalAt t marg ev v alpha) P (fun c => g (uToX t marg (fun i => v i + c * alpha i))) := by
  intro s hs c
  obtain ⟨h1, h2⟩ := hev s hs (uToX t marg (fun i => v i + c * alpha i))
  unfold evalAt
  rcases hr : ev.values s [uToX t marg (fun i => v i + c * alpha i)] with ⟨s', e | G⟩
  · rw [hr] at h1 h2
    exact ⟨h1, h2⟩
  · rw [hr] at h1 h2
    exact ⟨h1, h2⟩

theorem pointValues_of_values {f : (Fin n → ℝ) → ℝ} (hev : Values ev P f) : PointValues ev P (fun x => some (f x)) := by
  intro s hs x
  obtain ⟨s', h1, h2⟩ := hev s hs [x]
  rw [h1]
  exact ⟨h2, rfl⟩

/-- The line through `v` along `alpha`, as a partial function of the distance. -/
noncomputable def onLine (t : Mats n) (marg : Fin n → Marginal) (g : (Fin n → ℝ) → Option ℝ) (v alpha : Fin n → ℝ) : ℝ → Option ℝ :=
  fun c => g (uToX t marg (fun i => v i + c * alpha i))

/-- The distance is found in the interval `[lo, hi]`: to the tolerance of the root finder, or its midpoint when scipy's
root finder raised (an exception of the limit state, or no convergence within 50 iterations). -/
def FoundIn (t : Mats n) (marg : Fin n → Marginal) (ev : Evaluator σ n) (P : σ → Prop) (g : (Fin n → ℝ) → Option ℝ)
    (v alpha : Fin n → ℝ) (lo hi r : ℝ) : Prop :=
  RootWithin (onLine t marg g v alpha) lo hi (1e-6 + 4 * (1 / 2) ^ 52 * |r|) r ∨
    (r = (lo + hi) / 2 ∧ ∃ s e, P s ∧
      (Brent.brentq (evalAt t marg ev v alpha) lo hi 1e-6 (4 * (1 / 2) ^ 52) 50 s).2 = .error e)

/-- C44: the distance `r` found on a line, for an arbitrary (partial) limit state.  With `m = max(3|c_init| + 5, 15)`:
it lies in `[-m, m]`; if the 40-point scan sees a safe-to-failure change, it is found in the first such interval; else, if
the scan sees a sign change at all, in the first such interval; else it is `-m` when the first computable value is
negative and `m` otherwise. -/
theorem C44_location (hev : PointValues ev P g) (v alpha : Fin n → ℝ) (cInit : ℝ) (s : σ) (hs : P s) :
    let h := onLine t marg g v alpha
    let m := max (|cInit| * 3 + 5) 15
    let r := (findLine t marg ev v alpha cInit s).2
    P (findLine t marg ev v alpha cInit s).1 ∧ |r| ≤ m ∧
    (∀ j < 39, SafeToFail h (scanPoint m j) (scanPoint m (j + 1)) →
      (∀ i < j, ¬ SafeToFail h (scanPoint m i) (scanPoint m (i + 1))) →
      FoundIn t marg ev P g v alpha (scanPoint m j) (scanPoint m (j + 1)) r) ∧
    ((∀ i < 39, ¬ SafeToFail h (scanPoint m i) (scanPoint m (i + 1))) →
      (∀ j < 39, SignChange h (scanPoint m j) (scanPoint m (j + 1)) →
        (∀ i < j, ¬ SignChange h (scanPoint m i) (scanPoint m (i + 1))) →
        FoundIn t marg ev P g v alpha (scanPoint m j) (scanPoint m (j + 1)) r) ∧
      ((∀ i < 39, ¬ SignChange h (scanPoint m i) (scanPoint m (i + 1))) →
        (r = -m ∧ ∃ j < 40, ∃ y < 0, h (scanPoint m j) = some y ∧ ∀ i < j, h (scanPoint m i) = none) ∨
        (r = m ∧ ∀ j < 40, ∀ y, h (scanPoint m j) = some y → (∀ i < j, h (scanPoint m i) = none) → 0 ≤ y))) := by
  classical
  intro h m r
  have hm : 15 ≤ m := cMax_pos cInit
  have hm0 : 0 < m := by linarith
  have hf := evalAt_computes (t := t) (marg := marg) hev v alpha
  have hbr := bracket_spec h (grid m) none
  rw [pairs_eq, Option.none_or] at hbr
  have hmono : ∀ j, scanPoint m j ≤ scanPoint m (j + 1) := fun j => scanPoint_mono hm0 (Nat.le_succ j)
  have hfound : ∀ j, bracket ((grid m).map (fun c => (c, h c))) none = some (scanPoint m j, scanPoint m (j + 1)) →
      P (findLine t marg ev v alpha cInit s).1 ∧ FoundIn t marg ev P g v alpha (scanPoint m j) (scanPoint m (j + 1)) r := by
    intro j hj
    obtain ⟨h1, s', hPs, h2⟩ := findLine_bracket hf cInit (hmono j) hj s hs
    refine ⟨h1, ?_⟩
    rcases h2 with ⟨c, -, h3, h4⟩ | ⟨⟨e, h2⟩, h3⟩
    · left; change RootWithin h _ _ _ r; rw [show r = c from h3]; exact h4
    · right; exact ⟨h3, s', e, hPs, h2⟩
  have hrange : ∀ j < 39, FoundIn t marg ev P g v alpha (scanPoint m j) (scanPoint m (j + 1)) r → |r| ≤ m := by
    intro j hj hr
    have h1 := (scanPoint_range hm0 (show j ≤ 39 by omega)).1
    have h2 := (scanPoint_range hm0 (show j + 1 ≤ 39 by omega)).2
    have h3 := hmono j
    rw [abs_le]
    rcases hr with hr | hr
    · exact ⟨by linarith [hr.1], by linarith [hr.2.1]⟩
    · rw [hr.1]; constructor <;> linarith
  have hfirst : ∀ (p : ℕ → Prop), (∃ j < 39, p j) → ∃ j < 39, p j ∧ ∀ i < j, ¬ p i := by
    intro p ⟨j, hj, hp⟩
    classical
    have hex : ∃ j, p j := ⟨j, hp⟩
    exact ⟨Nat.find hex, lt_of_le_of_lt (Nat.find_min' hex hp) hj, Nat.find_spec hex, fun i hi => Nat.find_min hex hi⟩
  have hSF : ∀ j < 39, SafeToFail h (scanPoint m j) (scanPoint m (j + 1)) →
      (∀ i < j, ¬ SafeToFail h (scanPoint m i) (scanPoint m (i + 1))) →
      bracket ((grid m).map (fun c => (c, h c))) none = some (scanPoint m j, scanPoint m (j + 1)) := by
    intro j hj h1 h2
    rw [hbr, find_first (F := fun j => (scanPoint m j, scanPoint m (j + 1))) hj (by simpa using h1)
      (fun i hi => by simpa using h2 i hi), Option.some_or]
  have hSC : (∀ i < 39, ¬ SafeToFail h (scanPoint m i) (scanPoint m (i + 1))) → ∀ j < 39,
      SignChange h (scanPoint m j) (scanPoint m (j + 1)) →
      (∀ i < j, ¬ SignChange h (scanPoint m i) (scanPoint m (i + 1))) →
      bracket ((grid m).map (fun c => (c, h c))) none = some (scanPoint m j, scanPoint m (j + 1)) := by
    intro hno j hj h1 h2
    rw [hbr, find_none (F := fun j => (scanPoint m j, scanPoint m (j + 1))) (fun i hi => by simpa using hno i hi),
      find_first (F := fun j => (scanPoint m j, scanPoint m (j + 1))) hj (by simpa using h1)
      (fun i hi => by simpa using h2 i hi), Option.none_or]
  have hNone : (∀ i < 39, ¬ SafeToFail h (scanPoint m i) (scanPoint m (i + 1))) →
      (∀ i < 39, ¬ SignChange h (scanPoint m i) (scanPoint m (i + 1))) →
      bracket ((grid m).map (fun c => (c, h c))) none = none := by
    intro h1 h2
    rw [hbr, find_none (F := fun j => (scanPoint m j, scanPoint m (j + 1))) (fun i hi => by simpa using h1 i hi),
      find_none (F := fun j => (scanPoint m j, scanPoint m (j + 1))) (fun i hi => by simpa using h2 i hi), Option.none_or]
  have hend : bracket ((grid m).map (fun c => (c, h c))) none = none →
      P (findLine t marg ev v alpha cInit s).1 ∧
      ((r = -m ∧ ∃ j < 40, ∃ y < 0, h (scanPoint m j) = some y ∧ ∀ i < j, h (scanPoint m i) = none) ∨
        (r = m ∧ ∀ j < 40, ∀ y, h (scanPoint m j) = some y → (∀ i < j, h (scanPoint m i) = none) → 0 ≤ y)) := by
    intro hb
    obtain ⟨h1, h2⟩ := findLine_none hf cInit hb s hs
    refine ⟨h1, ?_⟩
    have h2 : r = match ((grid m).filterMap h).head? with
      | some g => if g < 0 then -m else m
      | none => m := h2
    have hval : ∀ j < 40, ∀ y, h (scanPoint m j) = some y → (∀ i < j, h (scanPoint m i) = none) →
        ((grid m).filterMap h).head? = some y := by
      intro j hj y hy hi
      have hsplit : grid m = (List.range j).map (scanPoint m) ++
          scanPoint m j :: (List.range (39 - j)).map (fun k => scanPoint m (j + 1 + k)) := by
        apply List.ext_getElem
        · simp [grid_eq]; omega
        · intro i h1 h2
          rw [List.getElem_append]
          simp only [grid_eq, List.getElem_map, List.getElem_range, List.length_map, List.length_range]
          split_ifs with h3
          · rfl
          · rw [List.getElem_cons]
            split_ifs with h4
            · congr 1; omega
            · simp only [List.getElem_map, List.getElem_range]; congr 1; omega
      have hnil : ((List.range j).map (scanPoint m)).filterMap h = [] := by
        rw [List.filterMap_eq_nil_iff]
        intro a ha
        obtain ⟨i, hi', rfl⟩ := List.mem_map.1 ha
        exact hi i (List.mem_range.1 hi')
      rw [hsplit, List.filterMap_append, hnil, List.nil_append, List.filterMap_cons_some hy]
      rfl
    by_cases hex : ∃ j < 40, ∃ y, h (scanPoint m j) = some y
    · have hex' : ∃ j, j < 40 ∧ ∃ y, h (scanPoint m j) = some y := hex
      obtain ⟨hj, y, hy⟩ := Nat.find_spec hex'
      have hi : ∀ i < Nat.find hex', h (scanPoint m i) = none := by
        intro i hi
        have := Nat.find_min hex' hi
        rcases hh : h (scanPoint m i) with _ | z
        · rfl
        · exact absurd ⟨by omega, z, hh⟩ this
      rw [hval _ hj y hy hi] at h2
      by_cases hy0 : y < 0
      · left
        simp only [hy0, if_true] at h2
        exact ⟨h2, _, hj, y, hy0, hy, hi⟩
      · right
        simp only [hy0, if_false] at h2
        refine ⟨h2, ?_⟩
        intro j hj' z hz hi'
        have h3 := hval j hj' z hz hi'
        rw [hval _ hj y hy hi] at h3
        injection h3 with h3
        rw [← h3]; exact not_lt.1 hy0
    · right
      push Not at hex
      have hnil : (grid m).filterMap h = [] := by
        rw [List.filterMap_eq_nil_iff]
        intro a ha
        rw [grid_eq] at ha
        obtain ⟨i, hi', rfl⟩ := List.mem_map.1 ha
        rcases hh : h (scanPoint m i) with _ | z
        · rfl
        · exact absurd hh (hex i (List.mem_range.1 hi') z)
      rw [hnil] at h2
      exact ⟨h2, fun j hj y hy => absurd hy (hex j hj y)⟩
  have htot : P (findLine t marg ev v alpha cInit s).1 ∧ |r| ≤ m := by
    by_cases h1 : ∃ j < 39, SafeToFail h (scanPoint m j) (scanPoint m (j + 1))
    · obtain ⟨j, hj, h2, h3⟩ := hfirst _ h1
      have h4 := hfound j (hSF j hj h2 h3)
      exact ⟨h4.1, hrange j hj h4.2⟩
    · push Not at h1
      by_cases h2 : ∃ j < 39, SignChange h (scanPoint m j) (scanPoint m (j + 1))
      · obtain ⟨j, hj, h3, h4⟩ := hfirst _ h2
        have h5 := hfound j (hSC h1 j hj h3 h4)
        exact ⟨h5.1, hrange j hj h5.2⟩
      · push Not at h2
        obtain ⟨h3, h4⟩ := hend (hNone h1 h2)
        refine ⟨h3, ?_⟩
        rcases h4 with h4 | h4
        · rw [h4.1, abs_neg, abs_of_pos hm0]
        · rw [h4.1, abs_of_pos hm0]
  refine ⟨htot.1, htot.2, fun j hj h1 h2 => (hfound j (hSF j hj h1 h2)).2, fun hno => ⟨fun j hj h1 h2 =>
    (hfound j (hSC hno j hj h1 h2)).2, fun hno' => (hend (hNone hno hno')).2⟩⟩


/-- Outcome on a line with a single crossing `C` from safe to failed. -/
theorem crossing {f : (Fin n → ℝ) → ℝ} (hev : PointValues ev P (fun x => some (f x))) (v alpha : Fin n → ℝ) (cInit C : ℝ)
    (hC : ∀ c, (c < C → 0 < f (uToX t marg (fun i => v i + c * alpha i))) ∧
      (C < c → f (uToX t marg (fun i => v i + c * alpha i)) < 0)) (s : σ) (hs : P s) :
    let m := max (|cInit| * 3 + 5) 15
    let r := (findLine t marg ev v alpha cInit s).2
    (C ≤ -m ∧ r = -m) ∨ (m ≤ C ∧ r = m) ∨
    (|C| ≤ m ∧ |r - C| < 1e-6 + 4 * (1 / 2) ^ 52 * |r|) ∨
    (|C| ≤ m ∧ |r - C| ≤ m / 39 ∧ ∃ j < 39, SignChange (onLine t marg (fun x => some (f x)) v alpha) (scanPoint m j) (scanPoint m (j + 1)) ∧
      ∃ s e, P s ∧ (Brent.brentq (evalAt t marg ev v alpha) (scanPoint m j) (scanPoint m (j + 1)) 1e-6 (4 * (1 / 2) ^ 52) 50 s).2 = .error e) := by
  intro m r
  classical
  obtain ⟨-, -, h1, h2⟩ := C44_location (t := t) (marg := marg) hev v alpha cInit s hs
  have hm0 : 0 < m := lt_of_lt_of_le (by norm_num) (le_max_right _ _ : (15:ℝ) ≤ m)
  set G : ℝ → ℝ := fun c => f (uToX t marg (fun i => v i + c * alpha i)) with hG
  have hh : ∀ c, onLine t marg (fun x => some (f x)) v alpha c = some (G c) := fun c => rfl
  set h := onLine t marg (fun x => some (f x)) v alpha with hhd
  have hpos : ∀ c, c < C → 0 < G c := fun c => (hC c).1
  have hneg : ∀ c, C < c → G c < 0 := fun c => (hC c).2
  have hSF : ∀ a b, SafeToFail h a b ↔ 0 < G a ∧ G b ≤ 0 := by
    intro a b
    unfold SafeToFail
    simp only [hh, Option.some.injEq]
    constructor
    · rintro ⟨_, _, rfl, rfl, h3, h4⟩; exact ⟨h3, h4⟩
    · rintro ⟨h3, h4⟩; exact ⟨_, _, rfl, rfl, h3, h4⟩
  have hSC : ∀ a b, SignChange h a b ↔ G a * G b ≤ 0 := by
    intro a b
    unfold SignChange
    simp only [hh, Option.some.injEq]
    constructor
    · rintro ⟨_, _, rfl, rfl, h3⟩; exact h3
    · intro h3; exact ⟨_, _, rfl, rfl, h3⟩
  have hlt : ∀ i j, i < j → scanPoint m i < scanPoint m j := by
    intro i j hij
    unfold scanPoint
    have : (i:ℝ) < j := by exact_mod_cast hij
    have h2 : 0 < 2 * m / 39 := by positivity
    nlinarith
  have hwidth : ∀ j, scanPoint m (j + 1) - scanPoint m j = 2 * m / 39 := by
    intro j; unfold scanPoint; push_cast; ring
  have hfound : ∀ j < 39, scanPoint m j ≤ C → C ≤ scanPoint m (j + 1) → SignChange h (scanPoint m j) (scanPoint m (j + 1)) →
      FoundIn t marg ev P (fun x => some (f x)) v alpha (scanPoint m j) (scanPoint m (j + 1)) r →
      (|C| ≤ m ∧ |r - C| < 1e-6 + 4 * (1 / 2) ^ 52 * |r|) ∨
      (|C| ≤ m ∧ |r - C| ≤ m / 39 ∧ ∃ j < 39, SignChange h (scanPoint m j) (scanPoint m (j + 1)) ∧
        ∃ s e, P s ∧ (Brent.brentq (evalAt t marg ev v alpha) (scanPoint m j) (scanPoint m (j + 1)) 1e-6 (4 * (1 / 2) ^ 52) 50 s).2 = .error e) := by
    intro j hj hlo hhi hsc hf
    have hCm : |C| ≤ m := by
      rw [abs_le]
      exact ⟨(scanPoint_range hm0 (by omega : j ≤ 39)).1.trans hlo, hhi.trans (scanPoint_range hm0 (by omega : j + 1 ≤ 39)).2⟩
    rcases hf with hf | hf
    · left
      refine ⟨hCm, ?_⟩
      obtain ⟨-, -, h3 | ⟨c', y, y', -, -, h4, h5, h6, h7⟩⟩ := hf
      · have h3 : some (G r) = some 0 := h3
        injection h3 with h3
        have : r = C := by
          rcases lt_trichotomy r C with h4 | h4 | h4
          · have := hpos r h4; linarith
          · exact h4
          · have := hneg r h4; linarith
        rw [this, sub_self, abs_zero]
        positivity
      · have h5 : some (G r) = some y := h5
        have h6 : some (G c') = some y' := h6
        injection h5 with h5
        injection h6 with h6
        subst h5 h6
        refine lt_of_le_of_lt ?_ h4
        rcases mul_neg_iff.1 h7 with ⟨h8, h9⟩ | ⟨h8, h9⟩
        · have h10 : r ≤ C := by by_contra hc; have := hneg r (not_le.1 hc); linarith
          have h11 : C ≤ c' := by by_contra hc; have := hpos c' (not_le.1 hc); linarith
          rw [abs_of_nonpos (by linarith), abs_of_nonneg (by linarith)]; linarith
        · have h10 : C ≤ r := by by_contra hc; have := hpos r (not_le.1 hc); linarith
          have h11 : c' ≤ C := by by_contra hc; have := hneg c' (not_le.1 hc); linarith
          rw [abs_of_nonneg (by linarith), abs_of_nonpos (by linarith)]; linarith
    · right
      refine ⟨hCm, ?_, j, hj, hsc, hf.2⟩
      have := hwidth j
      rw [hf.1, abs_le]
      constructor <;> linarith
  have h0 : scanPoint m 0 = -m := scanPoint_zero m
  have h39 : scanPoint m 39 = m := scanPoint_last m
  by_cases hA : G m ≤ 0
  · by_cases hB : G (-m) ≤ 0
    · -- everything failed
      have hCm : C ≤ -m := by by_contra hc; have := hpos _ (not_le.1 hc); linarith
      have hk : ∀ k, 0 < k → G (scanPoint m k) < 0 := fun k hk => hneg _ (lt_of_le_of_lt hCm (h0 ▸ hlt 0 k hk))
      have hnoSF : ∀ i < 39, ¬ SafeToFail h (scanPoint m i) (scanPoint m (i + 1)) := by
        intro i hi
        rw [hSF, not_and_or]
        left
        rcases Nat.eq_zero_or_pos i with h3 | h3
        · rw [h3, h0]; exact not_lt.2 hB
        · exact not_lt.2 (hk i h3).le
      obtain ⟨h3, h4⟩ := h2 hnoSF
      rcases hB.lt_or_eq with hB' | hB'
      · have hnoSC : ∀ i < 39, ¬ SignChange h (scanPoint m i) (scanPoint m (i + 1)) := by
          intro i hi
          rw [hSC, not_le]
          refine mul_pos_of_neg_of_neg ?_ (hk _ (Nat.succ_pos i))
          rcases Nat.eq_zero_or_pos i with h5 | h5
          · rw [h5, h0]; exact hB'
          · exact hk i h5
        rcases h4 hnoSC with h5 | h5
        · left; exact ⟨hCm, h5.1⟩
        · have := h5.2 0 (by norm_num) (G (-m)) (by rw [hh, h0]) (by intro i hi; omega)
          linarith
      · have hCe : C = -m := by
          refine le_antisymm hCm ?_
          by_contra hc
          have := hneg _ (not_le.1 hc); linarith
        have hsc : SignChange h (scanPoint m 0) (scanPoint m (0 + 1)) := by rw [hSC, h0, hB', zero_mul]
        have h5 := h3 0 (by norm_num) hsc (by intro i hi; omega)
        have := hfound 0 (by norm_num) (by rw [h0, hCe]) (by rw [hCe, ← h0]; exact (hlt 0 1 (by norm_num)).le) hsc h5
        exact Or.inr (Or.inr this)
    · have hex : ∃ k, G (scanPoint m k) ≤ 0 := ⟨39, by rw [h39]; exact hA⟩
      set k := Nat.find hex with hkd
      have hk := Nat.find_spec hex
      have hkmin : ∀ i < k, 0 < G (scanPoint m i) := fun i hi => not_le.1 (Nat.find_min hex hi)
      have hk39 : k ≤ 39 := Nat.find_min' hex (by rw [h39]; exact hA)
      have hk0 : k ≠ 0 := by
        intro h3
        rw [← hkd, h3, h0] at hk
        exact hB hk
      obtain ⟨j, hj⟩ := Nat.exists_eq_succ_of_ne_zero hk0
      rw [Nat.succ_eq_add_one] at hj
      have hSFj : SafeToFail h (scanPoint m j) (scanPoint m (j + 1)) := by
        rw [hSF]; exact ⟨hkmin j (by omega), by rw [← hj]; exact hk⟩
      have hSCj : SignChange h (scanPoint m j) (scanPoint m (j + 1)) := by
        rw [hSC]; rw [hSF] at hSFj; exact mul_nonpos_of_nonneg_of_nonpos hSFj.1.le hSFj.2
      have h5 := h1 j (by omega) hSFj (by
        intro i hi
        rw [hSF, not_and_or]
        right
        exact not_le.2 (hkmin (i + 1) (by omega)))
      rw [hSF] at hSFj
      have h6 : scanPoint m j ≤ C := by by_contra hc; have := hneg _ (not_le.1 hc); linarith
      have h7 : C ≤ scanPoint m (j + 1) := by by_contra hc; have := hpos _ (not_le.1 hc); linarith
      exact Or.inr (Or.inr (hfound j (by omega) h6 h7 hSCj h5))
  · -- everything safe
    rw [not_le] at hA
    have hCm : m ≤ C := by by_contra hc; have := hneg _ (not_le.1 hc); linarith
    have hk : ∀ k ≤ 39, 0 < G (scanPoint m k) := by
      intro k hk
      rcases hk.lt_or_eq with h3 | h3
      · exact hpos _ (lt_of_lt_of_le ((hlt k 39 h3).trans_eq h39) hCm)
      · rw [h3, h39]; exact hA
    have hnoSF : ∀ i < 39, ¬ SafeToFail h (scanPoint m i) (scanPoint m (i + 1)) := by
      intro i hi
      rw [hSF, not_and_or]
      right
      exact not_le.2 (hk _ (by omega))
    have hnoSC : ∀ i < 39, ¬ SignChange h (scanPoint m i) (scanPoint m (i + 1)) := by
      intro i hi
      rw [hSC, not_le]
      exact mul_pos (hk _ (by omega)) (hk _ (by omega))
    rcases (h2 hnoSF).2 hnoSC with ⟨-, j, hj, y, hy, hjy, -⟩ | h5
    · rw [hh] at hjy
      injection hjy with hjy
      have := hk j (by omega); linarith
    · right; left; exact ⟨hCm, h5.1⟩

theorem sum_range_list (F : ℕ → ℝ) : ∀ N, ((List.range N).map F).sum = ∑ j ∈ Finset.range N, F j
  | 0 => by simp
  | N + 1 => by rw [List.range_succ, List.map_append, List.sum_append, sum_range_list F N, Finset.sum_range_succ]; simp

/-- The lines are treated one after the other. -/
theorem lines_spec (hev : PointValues ev P g) (alpha : Fin n → ℝ) (cInit : ℝ) : ∀ (vs : List (Fin n → ℝ)) (s : σ), P s →
    P (lines t marg ev alpha cInit vs s).1 ∧
    List.Forall₂ (fun v c => ∃ s', P s' ∧ c = (findLine t marg ev v alpha cInit s').2) vs (lines t marg ev alpha cInit vs s).2
  | [], s, hs => ⟨hs, by simp [lines]⟩
  | v :: vs, s, hs => by
    have h1 := (C44_location (t := t) (marg := marg) hev v alpha cInit s hs).1
    obtain ⟨h2, h3⟩ := lines_spec hev alpha cInit vs _ h1
    unfold lines
    exact ⟨h2, List.Forall₂.cons ⟨s, hs, rfl⟩ h3⟩

/-- Draw number `j` of the `N` standard normal vectors, from position `pos` of the stream. -/
def lsDraw (ω : ℕ → ℝ) (n N pos j : ℕ) : Fin n → ℝ := fun r => ω (pos + r.val * N + j)

/-- C45: what a run of line sampling reports.  Line `j` passes through the part of draw `j` orthogonal to `alpha`, in the
direction `alpha`; `c j` is the distance found on it (see C44). -/
theorem C45_run (hev : PointValues ev P g) (alpha : Fin n → ℝ) (betaForm : ℝ) {N : ℕ} (hN : 1 ≤ N) (ω : ℕ → ℝ) (pos : ℕ)
    (s : σ) (hs : P s) :
    let m := max (|betaForm| * 3 + 5) 15
    let r := (sample t marg ev alpha betaForm N ω pos s).2
    ∃ c : ℕ → ℝ,
      (∀ j < N, |c j| ≤ m ∧ ∃ s', P s' ∧ c j = (findLine t marg ev
        (fun i => lsDraw ω n N pos j i - (∑ k, alpha k * lsDraw ω n N pos j k) * alpha i) alpha betaForm s').2) ∧
      r.c = (List.range N).map c ∧
      r.nSamples = N ∧
      r.Pf = (∑ j ∈ Finset.range N, StdNormal.cdf (-(c j))) / N ∧
      0 < r.Pf ∧ r.Pf < 1 ∧ StdNormal.cdf (-m) ≤ r.Pf ∧ r.Pf ≤ StdNormal.cdf m ∧
      (∃ b : ℝ, r.beta = b ∧ StdNormal.cdf (-b) = r.Pf) ∧
      r.cov = (√((∑ j ∈ Finset.range N, (StdNormal.cdf (-(c j)) - r.Pf) ^ 2) / N) / (√N * r.Pf) : ℝ) := by
  intro m r
  set us := Subset.randn ω n N pos with hus
  obtain ⟨h1, h2⟩ := lines_spec (t := t) (marg := marg) hev alpha betaForm (us.map (project alpha)) s hs
  set cs := (lines t marg ev alpha betaForm (us.map (project alpha)) s).2 with hcs
  have hlen : cs.length = N := by
    rw [← h2.length_eq]; simp [hus, Subset.randn]
  set c : ℕ → ℝ := fun j => cs.getD j 0 with hc
  have hcsr : cs = (List.range N).map c := by
    apply List.ext_getElem
    · simp [hlen]
    · intro i h3 h4
      rw [List.getElem_map, List.getElem_range, hc]
      exact (List.getD_eq_getElem _ _ h3).symm
  have hj : ∀ j < N, |c j| ≤ m ∧ ∃ s', P s' ∧ c j = (findLine t marg ev
        (fun i => lsDraw ω n N pos j i - (∑ k, alpha k * lsDraw ω n N pos j k) * alpha i) alpha betaForm s').2 := by
    intro j hj
    have h3 := List.forall₂_iff_get.1 h2
    obtain ⟨s', hs', h4⟩ := h3.2 j (by rw [h3.1, hlen]; exact hj) (by rw [hlen]; exact hj)
    have h5 : c j = (findLine t marg ev
        (fun i => lsDraw ω n N pos j i - (∑ k, alpha k * lsDraw ω n N pos j k) * alpha i) alpha betaForm s').2 := by
      simp only [List.get_eq_getElem] at h4
      rw [hc]
      simp only
      rw [List.getD_eq_getElem _ _ (by rw [hlen]; exact hj), h4]
      congr 2
      have hus' : ∀ (h : j < us.length), us[j] = lsDraw ω n N pos j := by
        intro h
        simp only [hus, Subset.randn, List.getElem_map, List.getElem_range]
        rfl
      rw [List.getElem_map, hus']
      funext i
      simp only [project, dotProduct]
      ring
    refine ⟨?_, s', hs', h5⟩
    rw [h5]
    exact (C44_location (t := t) (marg := marg) hev _ alpha betaForm s' hs').2.1
  have hPf : r.Pf = (∑ j ∈ Finset.range N, StdNormal.cdf (-(c j))) / N := by
    change mean (cs.map (fun c => StdNormal.cdf (-c))) = _
    unfold mean
    rw [List.length_map, hlen, hcsr, List.map_map, sum_range_list]
    rfl
  have hNpos : (0:ℝ) < N := by exact_mod_cast hN
  have hlo : StdNormal.cdf (-m) ≤ r.Pf := by
    rw [hPf, le_div_iff₀ hNpos]
    calc StdNormal.cdf (-m) * N = ∑ j ∈ Finset.range N, StdNormal.cdf (-m) := by simp [mul_comm]
      _ ≤ _ := Finset.sum_le_sum fun j hjj => StdNormal.strictMono_cdf.monotone
        (neg_le_neg (le_of_abs_le (hj j (Finset.mem_range.1 hjj)).1))
  have hhi : r.Pf ≤ StdNormal.cdf m := by
    rw [hPf, div_le_iff₀ hNpos]
    calc _ ≤ ∑ j ∈ Finset.range N, StdNormal.cdf m := Finset.sum_le_sum fun j hjj => StdNormal.strictMono_cdf.monotone
            (neg_le_of_abs_le (hj j (Finset.mem_range.1 hjj)).1 |> fun h => by linarith)
      _ = StdNormal.cdf m * N := by simp [mul_comm]
  have hP0 : 0 < r.Pf := lt_of_lt_of_le (StdNormal.cdf_pos _) hlo
  have hP1 : r.Pf < 1 := lt_of_le_of_lt hhi (StdNormal.cdf_lt_one _)
  refine ⟨c, hj, hcsr, rfl, hPf, hP0, hP1, hlo, hhi, ⟨-StdNormal.ppf r.Pf, ?_, ?_⟩, ?_⟩
  · change (if 0 < r.Pf ∧ r.Pf < 1 then ((-StdNormal.ppf r.Pf : ℝ) : EReal) else if r.Pf ≤ 0 then ⊤ else ⊥) = _
    rw [if_pos ⟨hP0, hP1⟩]
  · rw [neg_neg, StdNormal.cdf_ppf hP0 hP1]
  · change (if 0 < r.Pf ∧ r.Pf < 1 then ((std (cs.map (fun c => StdNormal.cdf (-c))) / (√(N : ℝ) * r.Pf) : ℝ) : EReal) else ⊤) = _
    rw [if_pos ⟨hP0, hP1⟩]
    congr 2
    unfold std
    rw [show mean (cs.map (fun c => StdNormal.cdf (-c))) = r.Pf from rfl, List.length_map, hlen, hcsr, List.map_map, List.map_map,
      sum_range_list]
    rfl


/-- The outcome on a line depends only on the limit state along it. -/
theorem findLine_det {h : ℝ → Option ℝ} {v v' alpha alpha' : Fin n → ℝ} (hf : Computes (evalAt t marg ev v alpha) P h)
    (hf' : Computes (evalAt t marg ev v' alpha') P h) (cInit : ℝ) (s s' : σ) (hs : P s) (hs' : P s') :
    (findLine t marg ev v alpha cInit s).2 = (findLine t marg ev v' alpha' cInit s').2 := by
  obtain ⟨h1, h2⟩ := scan_spec hf (grid (cMax cInit)) s hs
  obtain ⟨h1', h2'⟩ := scan_spec hf' (grid (cMax cInit)) s' hs'
  unfold findLine
  simp only
  rw [h2, h2']
  set br := bracket ((grid (cMax cInit)).map (fun c => (c, h c))) none with hbr
  rcases hb : br with _ | ⟨lo, hi⟩
  · simp only
    split <;> rfl
  · simp only
    have hd := Brent.brentq_det (xtol := xtol) (rtol := rtol) hf hf' (min lo hi) (max lo hi) 50 _ _ h1 h1'
    rcases hr : Brent.brentq (evalAt t marg ev v alpha) (min lo hi) (max lo hi) xtol rtol 50
        (scan t marg ev v alpha (grid (cMax cInit)) s).1 with ⟨s1, e | c⟩ <;>
      rcases hr' : Brent.brentq (evalAt t marg ev v' alpha') (min lo hi) (max lo hi) xtol rtol 50
        (scan t marg ev v' alpha' (grid (cMax cInit)) s').1 with ⟨s1', e' | c'⟩ <;>
      rw [hr, hr'] at hd
    · cases hd
    · cases hd
    · injection hd

/-- C45: for a limit state affine in `u` (`b + w·u`), with `alpha` along its negative gradient and the distance
`b/|w|` of the plane within the scanned range, line sampling is exact: whatever the draws, all lines give the same
distance, which is `b/|w|` to the tolerance of the root finder; the reported coefficient of variation is zero, and the
reported probability is the failure probability to within that tolerance. -/
theorem C45_affine {f : (Fin n → ℝ) → ℝ} (hev : PointValues ev P (fun x => some (f x))) {b : ℝ} {w : Fin n → ℝ}
    (hf : ∀ u, f (uToX t marg u) = b + ∑ i, w i * u i) (hw : 0 < ∑ i, w i ^ 2) (betaForm : ℝ)
    (hin : |b / √(∑ i, w i ^ 2)| ≤ max (|betaForm| * 3 + 5) 15) {N : ℕ} (hN : 1 ≤ N) (ω : ℕ → ℝ) (pos : ℕ)
    (s : σ) (hs : P s) :
    let m := max (|betaForm| * 3 + 5) 15
    let r := (sample t marg ev (fun i => -(w i / √(∑ i, w i ^ 2))) betaForm N ω pos s).2
    ∃ c, r.c = List.replicate N c ∧ |c - b / √(∑ i, w i ^ 2)| ≤ 1e-6 + 4 * (1 / 2) ^ 52 * m ∧
      r.Pf = StdNormal.cdf (-c) ∧ r.beta = (c : EReal) ∧ r.cov = 0 ∧
      |r.Pf - (stdGauss n).real {u | f (uToX t marg u) ≤ 0}| ≤ (1e-6 + 4 * (1 / 2) ^ 52 * m) / √(2 * Real.pi) := by
  intro m r
  set S := ∑ i, w i ^ 2 with hS
  have hs0 : 0 < √S := Real.sqrt_pos.2 hw
  set alpha : Fin n → ℝ := fun i => -(w i / √S) with halpha
  have hSS : √S * √S = S := Real.mul_self_sqrt hw.le
  have haa : ∑ i, alpha i * alpha i = 1 := by
    have : ∀ i, alpha i * alpha i = w i ^ 2 / S := by
      intro i
      simp only [halpha]
      rw [neg_mul_neg, div_mul_div_comm, hSS, sq]
    simp only [this, ← Finset.sum_div, ← hS]
    exact div_self hw.ne'
  have hwa : ∀ i, w i = -√S * alpha i := by
    intro i; simp only [halpha]; field_simp
  have hm15 : (15:ℝ) ≤ m := le_max_right _ _
  have hm0 : 0 < m := by linarith
  obtain ⟨c, hj, hc, -, hPf, hP0, hP1, -, -, ⟨bb, hbeta, hbb⟩, hcov⟩ := C45_run (t := t) (marg := marg) hev alpha betaForm hN ω pos s hs
  -- all lines see the same function
  set V : ℕ → Fin n → ℝ := fun j i => lsDraw ω n N pos j i - (∑ k, alpha k * lsDraw ω n N pos j k) * alpha i with hV
  have horth : ∀ j, ∑ i, alpha i * V j i = 0 := by
    intro j
    simp only [hV, mul_sub, Finset.sum_sub_distrib]
    have : ∑ x, alpha x * ((∑ k, alpha k * lsDraw ω n N pos j k) * alpha x) =
        (∑ k, alpha k * lsDraw ω n N pos j k) * ∑ x, alpha x * alpha x := by
      rw [Finset.mul_sum]; exact Finset.sum_congr rfl fun i _ => by ring
    rw [this, haa, mul_one, sub_self]
  have hline : ∀ j x, f (uToX t marg (fun i => V j i + x * alpha i)) = b - √S * x := by
    intro j x
    rw [hf]
    have : ∀ i, w i * (V j i + x * alpha i) = -√S * (alpha i * V j i) + -√S * x * (alpha i * alpha i) := by
      intro i; rw [hwa i]; ring
    simp only [this, Finset.sum_add_distrib, ← Finset.mul_sum, horth, haa]
    ring
  have hcomp : ∀ j, Computes (evalAt t marg ev (V j) alpha) P (fun x => some (b - √S * x)) := by
    intro j
    have := evalAt_computes (t := t) (marg := marg) hev (V j) alpha
    simp only [hline] at this
    exact this
  have hsame : ∀ j < N, c j = c 0 := by
    intro j hjN
    obtain ⟨-, s1, hs1, e1⟩ := hj j hjN
    obtain ⟨-, s2, hs2, e2⟩ := hj 0 (by omega)
    rw [e1, e2]
    exact findLine_det (hcomp j) (hcomp 0) betaForm s1 s2 hs1 hs2
  obtain ⟨hcm, s1, hs1, e1⟩ := hj 0 (by omega)
  have hclose : |c 0 - b / √S| ≤ 1e-6 + 4 * (1 / 2) ^ 52 * m := by
    have hcr := crossing (t := t) (marg := marg) hev (V 0) alpha betaForm (b / √S) (by
      intro x
      rw [hline]
      constructor
      · intro h; rw [lt_div_iff₀ hs0] at h; linarith
      · intro h; rw [div_lt_iff₀ hs0] at h; linarith) s1 hs1
    simp only at hcr
    rw [← e1] at hcr
    have hpos : (0:ℝ) ≤ 1e-6 + 4 * (1 / 2) ^ 52 * m := by positivity
    rcases hcr with ⟨h1, h2⟩ | ⟨h1, h2⟩ | ⟨h1, h2⟩ | ⟨h1, h2, j, hj39, hsc, s', e, hs', he⟩
    · have : b / √S = -m := le_antisymm h1 (neg_le_of_abs_le hin)
      rw [h2, this, sub_self, abs_zero]; exact hpos
    · have : b / √S = m := le_antisymm (le_of_abs_le hin) h1
      rw [h2, this, sub_self, abs_zero]; exact hpos
    · refine h2.le.trans ?_
      gcongr
    · exfalso
      obtain ⟨y, y', hy, hy', hyy⟩ := hsc
      have hy : some (f (uToX t marg (fun i => V 0 i + scanPoint m j * alpha i))) = some y := hy
      have hy' : some (f (uToX t marg (fun i => V 0 i + scanPoint m (j + 1) * alpha i))) = some y' := hy'
      rw [hline] at hy hy'
      injection hy with hy
      injection hy' with hy'
      have hwd : scanPoint m (j + 1) - scanPoint m j = 2 * m / 39 := by unfold scanPoint; push_cast; ring
      have hdel : ∀ k ≤ 39, Brent.delta 1e-6 (4 * (1 / 2) ^ 52) (scanPoint m k) < |scanPoint m (j + 1) - scanPoint m j| / 2 := by
        intro k hk
        rw [hwd, abs_of_pos (by positivity)]
        unfold Brent.delta
        have h3 := scanPoint_range hm0 hk
        have h4 : |scanPoint m k| ≤ m := abs_le.2 h3
        have h5 : (4 * (1 / 2) ^ 52 : ℝ) ≤ 1 / 1000 := by norm_num
        have h6 : (4 * (1 / 2) ^ 52 : ℝ) * |scanPoint m k| ≤ 1 / 1000 * m := by
          apply mul_le_mul h5 h4 (abs_nonneg _) (by norm_num)
        norm_num at h6 ⊢
        linarith
      obtain ⟨z, hz⟩ := Brent.brentq_affine (A := b) (B := √S) (lo := scanPoint m j) (hi := scanPoint m (j + 1)) hs0 (hcomp 0)
        (xtol := 1e-6) (rtol := 4 * (1 / 2) ^ 52) (by norm_num) (by norm_num) (by norm_num) (by rw [hy, hy']; exact hyy)
        (hdel j (by omega)) (hdel (j + 1) (by omega)) 50 (by norm_num) s' hs'
      rw [hz] at he
      cases he
  have hNpos : (0:ℝ) < N := by exact_mod_cast hN
  have hsum : ∀ F : ℝ → ℝ, ∑ j ∈ Finset.range N, F (c j) = N * F (c 0) := by
    intro F
    rw [Finset.sum_congr rfl fun j hjj => by rw [hsame j (Finset.mem_range.1 hjj)]]
    simp
  have hPf' : r.Pf = StdNormal.cdf (-(c 0)) := by
    change r.Pf = _ at hPf
    rw [hPf, hsum (fun x => StdNormal.cdf (-x))]
    field_simp
  refine ⟨c 0, ?_, hclose, hPf', ?_, ?_, ?_⟩
  · change r.c = _ at hc
    rw [hc, List.eq_replicate_iff]
    refine ⟨by simp, ?_⟩
    intro x hx
    obtain ⟨j, hj', rfl⟩ := List.mem_map.1 hx
    exact hsame j (List.mem_range.1 hj')
  · change r.beta = _ at hbeta
    change _ = r.Pf at hbb
    rw [hbeta]
    rw [hPf'] at hbb
    have := StdNormal.strictMono_cdf.injective hbb
    rw [neg_injective this]
  · change r.cov = _ at hcov
    rw [hcov, hsum (fun x => (StdNormal.cdf (-x) - r.Pf) ^ 2), hPf', sub_self]
    simp
  · have hprob := halfspace_prob w hw b
    have hset : {u : Fin n → ℝ | f (uToX t marg u) ≤ 0} = {u | b + ∑ i, w i * u i ≤ 0} := by
      ext u; simp [hf]
    rw [hset, hprob, ← hS, hPf']
    refine (StdNormal.cdf_lip _ _).trans ?_
    apply div_le_div_of_nonneg_right _ (Real.sqrt_nonneg _)
    rw [neg_sub_neg, abs_sub_comm]
    exact hclose

/-- C45: line sampling in general.  If every line orthogonal displacement `v` crosses from safe to failed once, at `C v`,
then for every stream of draws `Pf` is the mean over the lines of the exact line probabilities `Φ(-C)`, with an error of at
most the cut-off `Φ(-m)` or the tolerance of the root finder (of half a scan interval, if the root finder gave up); and the
mean of the exact line probabilities is an unbiased estimate of the failure probability. -/
theorem C45_unbiased {f : (Fin n → ℝ) → ℝ} (hev : PointValues ev P (fun x => some (f x)))
    (hfm : Measurable (fun u => f (uToX t marg u))) (alpha : Fin n → ℝ) (ha : ∑ i, alpha i * alpha i = 1)
    (C : (Fin n → ℝ) → ℝ)
    (hC : ∀ v, ∑ i, alpha i * v i = 0 → ∀ c, (c < C v → 0 < f (uToX t marg (fun i => v i + c * alpha i))) ∧
      (C v < c → f (uToX t marg (fun i => v i + c * alpha i)) < 0)) (betaForm : ℝ) {N : ℕ} (hN : 1 ≤ N) (pos : ℕ) :
    let m := max (|betaForm| * 3 + 5) 15
    let V : (ℕ → ℝ) → ℕ → Fin n → ℝ := fun ω j i => lsDraw ω n N pos j i - (∑ k, alpha k * lsDraw ω n N pos j k) * alpha i
    let ideal : (ℕ → ℝ) → ℝ := fun ω => (∑ j ∈ Finset.range N, StdNormal.cdf (-(C (V ω j)))) / N
    (∀ ω s, P s → |(sample t marg ev alpha betaForm N ω pos s).2.Pf - ideal ω| ≤
      max (m / 39 / √(2 * Real.pi)) (StdNormal.cdf (-m))) ∧
    (∀ ω s, P s → (∀ j < N, ∀ k < 39, ∀ s', P s' →
        SignChange (onLine t marg (fun x => some (f x)) (V ω j) alpha) (scanPoint m k) (scanPoint m (k + 1)) →
        ∃ c, (Brent.brentq (evalAt t marg ev (V ω j) alpha) (scanPoint m k) (scanPoint m (k + 1)) 1e-6 (4 * (1 / 2) ^ 52) 50 s').2
          = .ok c) →
      |(sample t marg ev alpha betaForm N ω pos s).2.Pf - ideal ω| ≤
        max ((1e-6 + 4 * (1 / 2) ^ 52 * m) / √(2 * Real.pi)) (StdNormal.cdf (-m))) ∧
    ∫ ω, ideal ω ∂stream = (stdGauss n).real {u | f (uToX t marg u) ≤ 0} := by
  intro m V ideal
  have hNpos : (0:ℝ) < N := by exact_mod_cast hN
  have hm15 : (15:ℝ) ≤ m := le_max_right _ _
  have hm0 : 0 < m := by linarith
  have horth : ∀ ω j, ∑ i, alpha i * V ω j i = 0 := by
    intro ω j
    simp only [V, mul_sub, Finset.sum_sub_distrib]
    have : ∑ x, alpha x * ((∑ k, alpha k * lsDraw ω n N pos j k) * alpha x) =
        (∑ k, alpha k * lsDraw ω n N pos j k) * ∑ x, alpha x * alpha x := by
      rw [Finset.mul_sum]; exact Finset.sum_congr rfl fun i _ => by ring
    rw [this, ha, mul_one, sub_self]
  -- error of the mean from the error of the terms
  have hmean : ∀ ω s, P s → ∀ E : ℝ, (∀ j < N, ∀ s', P s' →
      |StdNormal.cdf (-((findLine t marg ev (V ω j) alpha betaForm s').2)) - StdNormal.cdf (-(C (V ω j)))| ≤ E) →
      |(sample t marg ev alpha betaForm N ω pos s).2.Pf - ideal ω| ≤ E := by
    intro ω s hs E hE
    obtain ⟨c, hj, -, -, hPf, -⟩ := C45_run (t := t) (marg := marg) hev alpha betaForm hN ω pos s hs
    rw [hPf]
    simp only [ideal]
    rw [← sub_div, ← Finset.sum_sub_distrib, abs_div, abs_of_pos hNpos, div_le_iff₀ hNpos]
    refine (Finset.abs_sum_le_sum_abs _ _).trans ?_
    calc _ ≤ ∑ j ∈ Finset.range N, E := Finset.sum_le_sum fun j hjj => by
            obtain ⟨-, s', hs', e⟩ := hj j (Finset.mem_range.1 hjj)
            rw [e]
            exact hE j (Finset.mem_range.1 hjj) s' hs'
      _ = E * N := by simp [mul_comm]
  have hterm : ∀ ω j s', P s' → ∀ T : ℝ,
      (|(findLine t marg ev (V ω j) alpha betaForm s').2 - C (V ω j)| ≤ T ∨
        (C (V ω j) ≤ -m ∧ (findLine t marg ev (V ω j) alpha betaForm s').2 = -m) ∨
        (m ≤ C (V ω j) ∧ (findLine t marg ev (V ω j) alpha betaForm s').2 = m)) →
      |StdNormal.cdf (-((findLine t marg ev (V ω j) alpha betaForm s').2)) - StdNormal.cdf (-(C (V ω j)))| ≤
        max (T / √(2 * Real.pi)) (StdNormal.cdf (-m)) := by
    intro ω j s' hs' T h
    rcases h with h | ⟨h1, h2⟩ | ⟨h1, h2⟩
    · refine le_trans ?_ (le_max_left _ _)
      refine (StdNormal.cdf_lip _ _).trans (div_le_div_of_nonneg_right ?_ (Real.sqrt_nonneg _))
      rw [neg_sub_neg, abs_sub_comm]; exact h
    · refine le_trans ?_ (le_max_right _ _)
      rw [h2, neg_neg]
      have h3 : StdNormal.cdf m ≤ StdNormal.cdf (-(C (V ω j))) := StdNormal.strictMono_cdf.monotone (by linarith)
      have h4 := StdNormal.cdf_lt_one (-(C (V ω j)))
      have h5 := StdNormal.cdf_neg m
      rw [abs_of_nonpos (by linarith)]
      linarith
    · refine le_trans ?_ (le_max_right _ _)
      rw [h2]
      have h3 : StdNormal.cdf (-(C (V ω j))) ≤ StdNormal.cdf (-m) := StdNormal.strictMono_cdf.monotone (by linarith)
      have h4 := StdNormal.cdf_pos (-(C (V ω j)))
      rw [abs_of_nonneg (by linarith)]
      linarith
  have htolr : ∀ r : ℝ, |r| ≤ m → 1e-6 + 4 * (1 / 2) ^ 52 * |r| ≤ 1e-6 + 4 * (1 / 2) ^ 52 * m := by
    intro r hr; gcongr
  have htol : (1e-6 + 4 * (1 / 2) ^ 52 * m : ℝ) ≤ m / 39 := by
    have h5 : (4 * (1 / 2) ^ 52 : ℝ) ≤ 1 / 1000 := by norm_num
    have h6 : (4 * (1 / 2) ^ 52 : ℝ) * m ≤ 1 / 1000 * m := by gcongr
    norm_num at h6 ⊢
    linarith
  refine ⟨?_, ?_, ?_⟩
  · intro ω s hs
    apply hmean ω s hs
    intro j hj s' hs'
    apply hterm ω j s' hs'
    have hr := (C44_location (t := t) (marg := marg) hev (V ω j) alpha betaForm s' hs').2.1
    rcases crossing (t := t) (marg := marg) hev (V ω j) alpha betaForm (C (V ω j)) (hC _ (horth ω j)) s' hs' with
      h | h | h | h
    · exact Or.inr (Or.inl h)
    · exact Or.inr (Or.inr h)
    · exact Or.inl (h.2.le.trans ((htolr _ hr).trans htol))
    · exact Or.inl h.2.1
  · intro ω s hs hconv
    apply hmean ω s hs
    intro j hj s' hs'
    apply hterm ω j s' hs'
    have hr := (C44_location (t := t) (marg := marg) hev (V ω j) alpha betaForm s' hs').2.1
    rcases crossing (t := t) (marg := marg) hev (V ω j) alpha betaForm (C (V ω j)) (hC _ (horth ω j)) s' hs' with
      h | h | h | ⟨-, -, k, hk, hsc, s1, e, hs1, he⟩
    · exact Or.inr (Or.inl h)
    · exact Or.inr (Or.inr h)
    · exact Or.inl (h.2.le.trans (htolr _ hr))
    · obtain ⟨c, hc⟩ := hconv j hj k hk s1 hs1 hsc
      rw [hc] at he
      cases he
  · obtain ⟨hint, hval⟩ := line_fubini alpha ha hfm hC
    have hlaw : ∀ j : Fin N, MeasureTheory.Measure.map (fun ω => lsDraw ω n N pos j.val) stream = stdGauss n := by
      intro j
      have h1 := randn_law (n := n) N pos
      have h2 : (fun ω : ℕ → ℝ => lsDraw ω n N pos j.val) =
          (fun us : Fin N → Fin n → ℝ => us j) ∘ (fun ω (j : Fin N) (r : Fin n) => ω (pos + r.val * N + j.val)) := rfl
      rw [h2, ← MeasureTheory.Measure.map_map (measurable_pi_apply j) (by fun_prop), h1,
        (MeasureTheory.measurePreserving_eval _ j).map_eq]
    have hVp : ∀ ω j, V ω j = project alpha (lsDraw ω n N pos j) := by
      intro ω j
      funext i
      simp only [V, project, dotProduct]
      ring
    have hmd : ∀ j : ℕ, Measurable (fun ω : ℕ → ℝ => lsDraw ω n N pos j) := by
      intro j; unfold lsDraw; fun_prop
    have hone : ∀ j < N, MeasureTheory.Integrable (fun ω => StdNormal.cdf (-(C (V ω j)))) stream ∧
        ∫ ω, StdNormal.cdf (-(C (V ω j))) ∂stream = (stdGauss n).real {u | f (uToX t marg u) ≤ 0} := by
      intro j hj
      have hl := hlaw ⟨j, hj⟩
      simp only at hl
      have hint' : MeasureTheory.Integrable (fun u => StdNormal.cdf (-(C (project alpha u))))
          (MeasureTheory.Measure.map (fun ω => lsDraw ω n N pos j) stream) := by rw [hl]; exact hint
      have h3 := hint'.comp_measurable (hmd j)
      have h4 := MeasureTheory.integral_map (hmd j).aemeasurable hint'.aestronglyMeasurable
      rw [hl, hval] at h4
      simp only [hVp]
      exact ⟨h3, h4.symm⟩
    simp only [ideal]
    rw [MeasureTheory.integral_div, MeasureTheory.integral_finsetSum _ fun j hj => (hone j (Finset.mem_range.1 hj)).1,
      Finset.sum_congr rfl fun j hj => (hone j (Finset.mem_range.1 hj)).2]
    simp
    field_simp

end

/-- Two standard normal variables and the limit state `3 - x₀ + x₁`: the hypotheses of `C45_affine` are met. -/
example : ∃ m : Marginal, Normal.new 0 (.fin 1) none = .ok m ∧ ∀ ω N, 1 ≤ N →
    (sample (n := 2) ⟨1, 1⟩ (fun _ => m)
      (⟨fun s _ => (s, .error .typeError), fun s xs => (s, .ok (xs.map (fun x => 3 - x 0 + x 1)))⟩ : Evaluator Unit 2)
      (fun i => -(![-1, 1] i / √(∑ i, ![-1, 1] i ^ 2))) 2 N ω 0 ()).2.cov = 0 := by
  obtain ⟨m, hm⟩ : ∃ m, Normal.new 0 (.fin (1 : ℝ)) none = .ok m := ⟨_, rfl⟩
  have hu := (normal_ok hm).1
  refine ⟨m, hm, fun ω N hN => ?_⟩
  have hS : ∑ i : Fin 2, (![-1, 1] i : ℝ) ^ 2 = 2 := by rw [Fin.sum_univ_two]; norm_num
  obtain ⟨c, -, -, -, -, h, -⟩ := C45_affine (t := ⟨1, 1⟩) (marg := fun _ => m)
    (ev := (⟨fun s _ => (s, .error .typeError), fun s xs => (s, .ok (xs.map (fun x => 3 - x 0 + x 1)))⟩ : Evaluator Unit 2))
    (P := fun _ => True) (f := fun x : Fin 2 → ℝ => 3 - x 0 + x 1) (pointValues_of_values fun s _ xs => ⟨s, rfl, trivial⟩)
    (b := 3) (w := ![-1, 1]) (by intro u; rw [Fin.sum_univ_two]; simp [uToX, hu, Normal.uToX]; ring)
    (by rw [hS]; norm_num) 2 (by
      rw [hS]
      refine le_trans ?_ (le_max_right _ _)
      rw [abs_of_pos (by positivity), div_le_iff₀ (by positivity)]
      have : 1 ≤ √2 := Real.one_le_sqrt.2 (by norm_num)
      linarith) hN ω 0 () trivial
  exact h

/-- The curved limit state `2 + x₁² - x₀` crosses every line along the first axis once, at `2 + v₁²`. -/
example : ∃ m : Marginal, Normal.new 0 (.fin 1) none = .ok m ∧
    ∫ ω, (∑ j ∈ Finset.range 5, StdNormal.cdf (-(2 + (lsDraw ω 2 5 0 j 1) ^ 2))) / (5 : ℕ) ∂stream =
      (stdGauss 2).real {u | 2 + u 1 ^ 2 - u 0 ≤ 0} := by
  obtain ⟨m, hm⟩ : ∃ m, Normal.new 0 (.fin (1 : ℝ)) none = .ok m := ⟨_, rfl⟩
  have hu := (normal_ok hm).1
  have hux : ∀ u : Fin 2 → ℝ, uToX (n := 2) ⟨1, 1⟩ (fun _ => m) u = u := by
    intro u; funext i; simp [uToX, hu, Normal.uToX]
  refine ⟨m, hm, ?_⟩
  obtain ⟨-, -, h⟩ := C45_unbiased (t := ⟨1, 1⟩) (marg := fun _ => m)
    (ev := (⟨fun s _ => (s, .error .typeError), fun s xs => (s, .ok (xs.map (fun x => 2 + x 1 ^ 2 - x 0)))⟩ : Evaluator Unit 2))
    (P := fun _ => True) (f := fun x : Fin 2 → ℝ => 2 + x 1 ^ 2 - x 0) (pointValues_of_values fun s _ xs => ⟨s, rfl, trivial⟩)
    (by simp only [hux]; fun_prop) ![1, 0] (by rw [Fin.sum_univ_two]; simp) (fun v => 2 + v 1 ^ 2) (by
      intro v hv c
      rw [Fin.sum_univ_two] at hv
      simp at hv
      rw [hux]
      simp [hv]) 2 (N := 5) (by norm_num) 0
  simp only [hux] at h
  rw [← h]
  simp

end Pystra.Props
