import Verif.Props.LineSampling
import Verif.Props.EndToEnd
import Verif.Lemmas.BrentOn

/-! C127: line sampling and limit states with more than one failure mode. -/

namespace Pystra.Props
open Spec Transformation Form LineSampling Matrix

variable {σ : Type} {n : ℕ}

/-- Seen along a line, a near failure mode that begins at the distance `C`, a safe stretch at least one scan interval `w` wide
before it, and possibly a second failure mode on the far side: failing at some distance there means failing at all smaller
distances. -/
def NearAndFar (w : ℝ) (G : ℝ → ℝ) (C : ℝ) : Prop :=
  (∀ c, c < C → 0 < G c ∨ (c < C - w ∧ ∀ c' < c, G c' ≤ 0)) ∧ ∀ c, C < c → G c < 0

section
variable {t : Mats n} {marg : Fin n → Marginal} {ev : Evaluator σ n} {P : σ → Prop}

/-- The distance found on such a line is that of the near mode. -/
theorem near_found {f : (Fin n → ℝ) → ℝ} (hev : PointValues ev P (fun x => some (f x))) (v alpha : Fin n → ℝ) (cInit C : ℝ)
    (hC : NearAndFar (2 * max (|cInit| * 3 + 5) 15 / 39) (fun c => f (uToX t marg (fun i => v i + c * alpha i))) C)
    (hin : C < max (|cInit| * 3 + 5) 15) (s : σ) (hs : P s) :
    let m := max (|cInit| * 3 + 5) 15
    let r := (findLine t marg ev v alpha cInit s).2
    (C ≤ -m ∧ r = -m) ∨
    (|C| ≤ m ∧ |r - C| < 1e-6 + 4 * (1 / 2) ^ 52 * |r|) ∨
    (|C| ≤ m ∧ |r - C| ≤ m / 39 ∧ ∃ j < 39, scanPoint m j ≤ C ∧ C ≤ scanPoint m (j + 1) ∧
      SignChange (onLine t marg (fun x => some (f x)) v alpha) (scanPoint m j) (scanPoint m (j + 1)) ∧
      ∃ s e, P s ∧ (Brent.brentq (evalAt t marg ev v alpha) (scanPoint m j) (scanPoint m (j + 1)) 1e-6 (4 * (1 / 2) ^ 52) 50 s).2 = .error e) := by
  intro m r
  classical
  obtain ⟨-, -, h1, h2⟩ := C44_location (t := t) (marg := marg) hev v alpha cInit s hs
  have hm0 : 0 < m := lt_of_lt_of_le (by norm_num) (le_max_right _ _ : (15:ℝ) ≤ m)
  set G : ℝ → ℝ := fun c => f (uToX t marg (fun i => v i + c * alpha i)) with hG
  have hh : ∀ c, onLine t marg (fun x => some (f x)) v alpha c = some (G c) := fun c => rfl
  set h := onLine t marg (fun x => some (f x)) v alpha with hhd
  set w : ℝ := 2 * m / 39 with hwd
  have hw0 : 0 < w := by positivity
  have hneg : ∀ c, C < c → G c < 0 := hC.2
  have hpos : ∀ c, c < C → C - w ≤ c → 0 < G c := by
    intro c hc hcw
    rcases hC.1 c hc with h3 | ⟨h3, -⟩
    · exact h3
    · linarith
  have hfar : ∀ c, c < C → G c ≤ 0 → ∀ c' < c, G c' ≤ 0 := by
    intro c hc hg
    rcases hC.1 c hc with h3 | ⟨-, h3⟩
    · linarith
    · exact h3
  have hSF : ∀ a b, SafeToFail h a b ↔ 0 < G a ∧ G b ≤ 0 := by
    intro a b
    unfold SafeToFail
    simp only [hh, Option.some.injEq]
    constructor
    · rintro ⟨_, _, rfl, rfl, h3, h4⟩; exact ⟨h3, h4⟩
    · rintro ⟨h3, h4⟩; exact ⟨_, _, rfl, rfl, h3, h4⟩
  have hSC : ∀ a b, SignChange h a b ↔ G a * G b ≤ 0 := by
    intro a b
    unfold SignChange
    simp only [hh, Option.some.injEq]
    constructor
    · rintro ⟨_, _, rfl, rfl, h3⟩; exact h3
    · intro h3; exact ⟨_, _, rfl, rfl, h3⟩
  have hlt : ∀ i j, i < j → scanPoint m i < scanPoint m j := by
    intro i j hij
    unfold scanPoint
    have : (i:ℝ) < j := by exact_mod_cast hij
    nlinarith
  have hwidth : ∀ j, scanPoint m (j + 1) - scanPoint m j = w := by
    intro j; unfold scanPoint; push_cast; ring
  have hfound : ∀ j < 39, scanPoint m j ≤ C → C ≤ scanPoint m (j + 1) → SignChange h (scanPoint m j) (scanPoint m (j + 1)) →
      FoundIn t marg ev P (fun x => some (f x)) v alpha (scanPoint m j) (scanPoint m (j + 1)) r →
      (|C| ≤ m ∧ |r - C| < 1e-6 + 4 * (1 / 2) ^ 52 * |r|) ∨
      (|C| ≤ m ∧ |r - C| ≤ m / 39 ∧ ∃ j < 39, scanPoint m j ≤ C ∧ C ≤ scanPoint m (j + 1) ∧
        SignChange h (scanPoint m j) (scanPoint m (j + 1)) ∧
        ∃ s e, P s ∧ (Brent.brentq (evalAt t marg ev v alpha) (scanPoint m j) (scanPoint m (j + 1)) 1e-6 (4 * (1 / 2) ^ 52) 50 s).2 = .error e) := by
    intro j hj hlo hhi hsc hf
    have hwj := hwidth j
    have hCm : |C| ≤ m := by
      rw [abs_le]
      exact ⟨(scanPoint_range hm0 (by omega : j ≤ 39)).1.trans hlo, hhi.trans (scanPoint_range hm0 (by omega : j + 1 ≤ 39)).2⟩
    have hposj : ∀ c, scanPoint m j ≤ c → c < C → 0 < G c := fun c h3 h4 => hpos c h4 (by linarith)
    rcases hf with hf | hf
    · left
      refine ⟨hCm, ?_⟩
      obtain ⟨hr1, -, h3 | ⟨c', y, y', hc1, -, h4, h5, h6, h7⟩⟩ := hf
      · have h3 : some (G r) = some 0 := h3
        injection h3 with h3
        have : r = C := by
          rcases lt_trichotomy r C with h4 | h4 | h4
          · have := hposj r hr1 h4; linarith
          · exact h4
          · have := hneg r h4; linarith
        rw [this, sub_self, abs_zero]
        positivity
      · have h5 : some (G r) = some y := h5
        have h6 : some (G c') = some y' := h6
        injection h5 with h5
        injection h6 with h6
        subst h5 h6
        refine lt_of_le_of_lt ?_ h4
        rcases mul_neg_iff.1 h7 with ⟨h8, h9⟩ | ⟨h8, h9⟩
        · have h10 : r ≤ C := by by_contra hc; have := hneg r (not_le.1 hc); linarith
          have h11 : C ≤ c' := by by_contra hc; have := hposj c' hc1 (not_le.1 hc); linarith
          rw [abs_of_nonpos (by linarith), abs_of_nonneg (by linarith)]; linarith
        · have h10 : C ≤ r := by by_contra hc; have := hposj r hr1 (not_le.1 hc); linarith
          have h11 : c' ≤ C := by by_contra hc; have := hneg c' (not_le.1 hc); linarith
          rw [abs_of_nonneg (by linarith), abs_of_nonpos (by linarith)]; linarith
    · right
      refine ⟨hCm, ?_, j, hj, hlo, hhi, hsc, hf.2⟩
      have h3 : w = m / 39 + m / 39 := by rw [hwd]; ring
      rw [hf.1, abs_le]
      constructor <;> linarith
  have h0 : scanPoint m 0 = -m := scanPoint_zero m
  have h39 : scanPoint m 39 = m := scanPoint_last m
  have hnoearly : ∀ i, scanPoint m (i + 1) < C → ¬ SafeToFail h (scanPoint m i) (scanPoint m (i + 1)) := by
    intro i hi hc
    rw [hSF] at hc
    have := hfar _ hi hc.2 (scanPoint m i) (hlt i (i + 1) (Nat.lt_succ_self i))
    linarith [hc.1]
  by_cases hB : C ≤ -m
  · have hk : ∀ k, 0 < k → G (scanPoint m k) < 0 := fun k hk => hneg _ (lt_of_le_of_lt hB (h0 ▸ hlt 0 k hk))
    have hCe : 0 ≤ G (-m) → C = -m := by
      intro h3
      refine le_antisymm hB ?_
      by_contra hc
      have := hneg _ (not_le.1 hc); linarith
    rcases lt_trichotomy (G (-m)) 0 with hg | hg | hg
    · left
      refine ⟨hB, ?_⟩
      have hall : ∀ k, G (scanPoint m k) < 0 := by
        intro k
        rcases Nat.eq_zero_or_pos k with h3 | h3
        · rw [h3, h0]; exact hg
        · exact hk k h3
      rcases (h2 (fun i _ hc => by rw [hSF] at hc; linarith [hall i, hc.1])).2 (fun i _ hc => by
          rw [hSC] at hc; linarith [mul_pos_of_neg_of_neg (hall i) (hall (i + 1))]) with h5 | h5
      · exact h5.1
      · have := h5.2 0 (by norm_num) (G (-m)) (by rw [hh, h0]) (by intro i hi; omega)
        linarith
    · have hsc : SignChange h (scanPoint m 0) (scanPoint m (0 + 1)) := by rw [hSC, h0, hg, zero_mul]
      have hnoSF : ∀ i < 39, ¬ SafeToFail h (scanPoint m i) (scanPoint m (i + 1)) := by
        intro i _ hc
        rw [hSF] at hc
        rcases Nat.eq_zero_or_pos i with h3 | h3
        · rw [h3, h0, hg] at hc; exact lt_irrefl _ hc.1
        · linarith [hk i h3, hc.1]
      have hCe' := hCe hg.ge
      exact Or.inr (hfound 0 (by norm_num) (by rw [h0, hCe']) (by rw [hCe', ← h0]; exact (hlt 0 1 (by norm_num)).le) hsc
        ((h2 hnoSF).1 0 (by norm_num) hsc (by intro i hi; omega)))
    · have hsf : SafeToFail h (scanPoint m 0) (scanPoint m (0 + 1)) := by
        rw [hSF, h0]; exact ⟨hg, (hk 1 (by norm_num)).le⟩
      have hsc : SignChange h (scanPoint m 0) (scanPoint m (0 + 1)) := by
        rw [hSC, h0]; exact mul_nonpos_of_nonneg_of_nonpos hg.le (hk 1 (by norm_num)).le
      have hCe' := hCe hg.le
      exact Or.inr (hfound 0 (by norm_num) (by rw [h0, hCe']) (by rw [hCe', ← h0]; exact (hlt 0 1 (by norm_num)).le) hsc
        (h1 0 (by norm_num) hsf (by intro i hi; omega)))
  · rw [not_le] at hB
    right
    have hex : ∃ k, C ≤ scanPoint m k := ⟨39, by rw [h39]; exact hin.le⟩
    set k := Nat.find hex with hkd
    have hk := Nat.find_spec hex
    have hkmin : ∀ i < k, scanPoint m i < C := fun i hi => not_le.1 (Nat.find_min hex hi)
    have hk39 : k ≤ 39 := Nat.find_min' hex (by rw [h39]; exact hin.le)
    have hk0 : k ≠ 0 := by
      intro h3
      rw [← hkd, h3, h0] at hk
      linarith
    obtain ⟨j, hj⟩ := Nat.exists_eq_succ_of_ne_zero hk0
    rw [Nat.succ_eq_add_one] at hj
    rw [← hkd, hj] at hk
    have hjC := hkmin j (by omega)
    have hjpos : 0 < G (scanPoint m j) := hpos _ hjC (by linarith [hwidth j])
    by_cases hg : G (scanPoint m (j + 1)) ≤ 0
    · have hsf : SafeToFail h (scanPoint m j) (scanPoint m (j + 1)) := by rw [hSF]; exact ⟨hjpos, hg⟩
      exact hfound j (by omega) hjC.le hk (by rw [hSC]; exact mul_nonpos_of_nonneg_of_nonpos hjpos.le hg)
        (h1 j (by omega) hsf fun i hi => hnoearly i (hkmin (i + 1) (by omega)))
    · rw [not_le] at hg
      have hCe : C = scanPoint m (j + 1) := by
        refine le_antisymm hk ?_
        by_contra hc
        have := hneg _ (not_le.1 hc); linarith
      have hj39 : j + 1 < 39 := by
        rcases (by omega : j + 1 < 39 ∨ j + 1 = 39) with h3 | h3
        · exact h3
        · rw [h3, h39] at hCe; linarith
      have hg2 : G (scanPoint m (j + 1 + 1)) < 0 := hneg _ (by rw [hCe]; exact hlt _ _ (Nat.lt_succ_self _))
      have hsf : SafeToFail h (scanPoint m (j + 1)) (scanPoint m (j + 1 + 1)) := by rw [hSF]; exact ⟨hg, hg2.le⟩
      refine hfound (j + 1) hj39 hCe.ge (by rw [hCe]; exact (hlt _ _ (Nat.lt_succ_self _)).le)
        (by rw [hSC]; exact mul_nonpos_of_nonneg_of_nonpos hg.le hg2.le) (h1 (j + 1) hj39 hsf fun i hi hc => ?_)
      rcases (by omega : i + 1 < j + 1 ∨ i + 1 = j + 1) with h3 | h3
      · exact hnoearly i (hkmin (i + 1) (by omega)) hc
      · rw [hSF, h3] at hc; linarith [hc.2]

/-- The part of `u` orthogonal to `alpha`. -/
def across (alpha u : Fin n → ℝ) : Fin n → ℝ := fun i => u i - (∑ k, alpha k * u k) * alpha i

theorem across_project (alpha u : Fin n → ℝ) : across alpha u = project alpha u := by
  funext i
  simp only [across, project, dotProduct]
  ring

theorem across_orth {alpha : Fin n → ℝ} (ha : ∑ i, alpha i * alpha i = 1) (u : Fin n → ℝ) : ∑ i, alpha i * across alpha u i = 0 := by
  simp only [across, mul_sub, Finset.sum_sub_distrib]
  have : ∑ x, alpha x * ((∑ k, alpha k * u k) * alpha x) = (∑ k, alpha k * u k) * ∑ x, alpha x * alpha x := by
    rw [Finset.mul_sum]; exact Finset.sum_congr rfl fun i _ => by ring
  rw [this, ha, mul_one, sub_self]

/-- The probability beyond a measurable surface `alpha·u = C`, whether or not the surface counts. -/
theorem near_prob {alpha : Fin n → ℝ} (ha : ∑ i, alpha i * alpha i = 1) {C : (Fin n → ℝ) → ℝ} (hCm : Measurable C) :
    MeasureTheory.Integrable (fun u => StdNormal.cdf (-(C (across alpha u)))) (stdGauss n) ∧
    ∫ u, StdNormal.cdf (-(C (across alpha u))) ∂(stdGauss n) =
      (stdGauss n).real {u | C (across alpha u) ≤ ∑ i, alpha i * u i} ∧
    ∫ u, StdNormal.cdf (-(C (across alpha u))) ∂(stdGauss n) =
      (stdGauss n).real {u | C (across alpha u) < ∑ i, alpha i * u i} := by
  have hacr : Measurable (across alpha) := by unfold across; fun_prop
  have hfix : ∀ v, alpha ⬝ᵥ v = 0 → ∀ c : ℝ, across alpha (fun i => v i + c * alpha i) = v ∧
      ∑ i, alpha i * (v i + c * alpha i) = c := by
    intro v hv c
    have h1 : ∑ i, alpha i * (v i + c * alpha i) = c := by
      have : ∀ i, alpha i * (v i + c * alpha i) = alpha i * v i + c * (alpha i * alpha i) := fun i => by ring
      have hv' : ∑ i, alpha i * v i = 0 := hv
      simp only [this, Finset.sum_add_distrib, ← Finset.mul_sum, hv', ha]
      ring
    refine ⟨?_, h1⟩
    funext i
    simp only [across, h1]
    ring
  have hm1 : Measurable (fun u : Fin n → ℝ => C (across alpha u) - ∑ i, alpha i * u i) :=
    (hCm.comp hacr).sub (by fun_prop)
  obtain ⟨hint, hval⟩ := line_fubini (n := n) alpha ha (G := fun u => C (across alpha u) - ∑ i, alpha i * u i) hm1 (C := C) (by
    intro v hv c
    rw [(hfix v hv c).1, (hfix v hv c).2]
    constructor <;> intro h <;> linarith)
  have hm2 : Measurable (fun u : Fin n → ℝ => if ∑ i, alpha i * u i ≤ C (across alpha u) then (1 : ℝ) else -1) :=
    Measurable.ite (measurableSet_le (by fun_prop) (hCm.comp hacr)) measurable_const measurable_const
  obtain ⟨-, hval2⟩ := line_fubini (n := n) alpha ha (G := fun u => if ∑ i, alpha i * u i ≤ C (across alpha u) then (1 : ℝ) else -1)
    hm2 (C := C) (by
      intro v hv c
      rw [(hfix v hv c).1, (hfix v hv c).2]
      constructor <;> intro h
      · rw [if_pos h.le]; norm_num
      · rw [if_neg (not_le.2 h)]; norm_num)
  simp only [← across_project] at hint hval hval2
  refine ⟨hint, ?_, ?_⟩
  · rw [hval]
    congr 1
    ext u
    simp
  · rw [hval2]
    congr 1
    ext u
    simp only [Set.mem_setOf_eq]
    split_ifs with h
    · constructor
      · intro h2; linarith
      · intro h2; linarith
    · constructor
      · intro _; exact not_le.1 h
      · intro _; norm_num

/-- C127: when every line carries a near failure mode beginning at `C v` (short of the end `m` of the scan) with a safe stretch
of at least one scan interval before it, and possibly a second mode on the far side, then for every stream of draws `Pf` is
the mean of `Φ(-C)` over the lines, up to the cut-off and the tolerance of the root finder, whatever the far mode is; and the
expected value of that mean is the probability of failure *minus* the probability of the far mode. -/
theorem C127_modes {f : (Fin n → ℝ) → ℝ} (hev : PointValues ev P (fun x => some (f x)))
    (hfm : Measurable (fun u => f (uToX t marg u))) (alpha : Fin n → ℝ) (ha : ∑ i, alpha i * alpha i = 1)
    (betaForm : ℝ) (C : (Fin n → ℝ) → ℝ) (hCm : Measurable C)
    (hC : ∀ v, ∑ i, alpha i * v i = 0 →
      NearAndFar (2 * max (|betaForm| * 3 + 5) 15 / 39) (fun c => f (uToX t marg (fun i => v i + c * alpha i))) (C v) ∧
      C v < max (|betaForm| * 3 + 5) 15) {N : ℕ} (hN : 1 ≤ N) (pos : ℕ) :
    let m := max (|betaForm| * 3 + 5) 15
    let ideal : (ℕ → ℝ) → ℝ := fun ω => (∑ j ∈ Finset.range N, StdNormal.cdf (-(C (across alpha (lsDraw ω n N pos j))))) / N
    (∀ ω s, P s → |(sample t marg ev alpha betaForm N ω pos s).2.Pf - ideal ω| ≤
      max (m / 39 / √(2 * Real.pi)) (StdNormal.cdf (-m))) ∧
    (∀ ω s, P s → (∀ j < N, ∀ k < 39, ∀ s', P s' →
        SignChange (onLine t marg (fun x => some (f x)) (across alpha (lsDraw ω n N pos j)) alpha) (scanPoint m k) (scanPoint m (k + 1)) →
        ∃ c, (Brent.brentq (evalAt t marg ev (across alpha (lsDraw ω n N pos j)) alpha) (scanPoint m k) (scanPoint m (k + 1))
          1e-6 (4 * (1 / 2) ^ 52) 50 s').2 = .ok c) →
      |(sample t marg ev alpha betaForm N ω pos s).2.Pf - ideal ω| ≤
        max ((1e-6 + 4 * (1 / 2) ^ 52 * m) / √(2 * Real.pi)) (StdNormal.cdf (-m))) ∧
    ∫ ω, ideal ω ∂stream = (stdGauss n).real {u | f (uToX t marg u) ≤ 0} -
      (stdGauss n).real {u | f (uToX t marg u) ≤ 0 ∧ ∑ i, alpha i * u i < C (across alpha u)} := by
  intro m ideal
  have hNpos : (0:ℝ) < N := by exact_mod_cast hN
  have hm15 : (15:ℝ) ≤ m := le_max_right _ _
  have hm0 : 0 < m := by linarith
  set V : (ℕ → ℝ) → ℕ → Fin n → ℝ := fun ω j => across alpha (lsDraw ω n N pos j) with hV
  have horth : ∀ ω j, ∑ i, alpha i * V ω j i = 0 := fun ω j => across_orth ha _
  have hmean : ∀ ω s, P s → ∀ E : ℝ, (∀ j < N, ∀ s', P s' →
      |StdNormal.cdf (-((findLine t marg ev (V ω j) alpha betaForm s').2)) - StdNormal.cdf (-(C (V ω j)))| ≤ E) →
      |(sample t marg ev alpha betaForm N ω pos s).2.Pf - ideal ω| ≤ E := by
    intro ω s hs E hE
    obtain ⟨c, hj, -, -, hPf, -⟩ := C45_run (t := t) (marg := marg) hev alpha betaForm hN ω pos s hs
    rw [hPf]
    simp only [ideal]
    rw [← sub_div, ← Finset.sum_sub_distrib, abs_div, abs_of_pos hNpos, div_le_iff₀ hNpos]
    refine (Finset.abs_sum_le_sum_abs _ _).trans ?_
    calc _ ≤ ∑ j ∈ Finset.range N, E := Finset.sum_le_sum fun j hjj => by
            obtain ⟨-, s', hs', e⟩ := hj j (Finset.mem_range.1 hjj)
            rw [e]
            exact hE j (Finset.mem_range.1 hjj) s' hs'
      _ = E * N := by simp [mul_comm]
  have hterm : ∀ ω j s', P s' → ∀ T : ℝ,
      (|(findLine t marg ev (V ω j) alpha betaForm s').2 - C (V ω j)| ≤ T ∨
        (C (V ω j) ≤ -m ∧ (findLine t marg ev (V ω j) alpha betaForm s').2 = -m)) →
      |StdNormal.cdf (-((findLine t marg ev (V ω j) alpha betaForm s').2)) - StdNormal.cdf (-(C (V ω j)))| ≤
        max (T / √(2 * Real.pi)) (StdNormal.cdf (-m)) := by
    intro ω j s' hs' T h
    rcases h with h | ⟨h1, h2⟩
    · refine le_trans ?_ (le_max_left _ _)
      refine (StdNormal.cdf_lip _ _).trans (div_le_div_of_nonneg_right ?_ (Real.sqrt_nonneg _))
      rw [neg_sub_neg, abs_sub_comm]; exact h
    · refine le_trans ?_ (le_max_right _ _)
      rw [h2, neg_neg]
      have h3 : StdNormal.cdf m ≤ StdNormal.cdf (-(C (V ω j))) := StdNormal.strictMono_cdf.monotone (by linarith)
      have h4 := StdNormal.cdf_lt_one (-(C (V ω j)))
      have h5 := StdNormal.cdf_neg m
      rw [abs_of_nonpos (by linarith)]
      linarith
  have htolr : ∀ r : ℝ, |r| ≤ m → 1e-6 + 4 * (1 / 2) ^ 52 * |r| ≤ 1e-6 + 4 * (1 / 2) ^ 52 * m := by
    intro r hr; gcongr
  have htol : (1e-6 + 4 * (1 / 2) ^ 52 * m : ℝ) ≤ m / 39 := by
    have h5 : (4 * (1 / 2) ^ 52 : ℝ) ≤ 1 / 1000 := by norm_num
    have h6 : (4 * (1 / 2) ^ 52 : ℝ) * m ≤ 1 / 1000 * m := by gcongr
    norm_num at h6 ⊢
    linarith
  refine ⟨?_, ?_, ?_⟩
  · intro ω s hs
    apply hmean ω s hs
    intro j hj s' hs'
    apply hterm ω j s' hs'
    have hr := (C44_location (t := t) (marg := marg) hev (V ω j) alpha betaForm s' hs').2.1
    obtain ⟨hn, hin⟩ := hC _ (horth ω j)
    rcases near_found (t := t) (marg := marg) hev (V ω j) alpha betaForm (C (V ω j)) hn hin s' hs' with h | h | h
    · exact Or.inr h
    · exact Or.inl (h.2.le.trans ((htolr _ hr).trans htol))
    · exact Or.inl h.2.1
  · intro ω s hs hconv
    apply hmean ω s hs
    intro j hj s' hs'
    apply hterm ω j s' hs'
    have hr := (C44_location (t := t) (marg := marg) hev (V ω j) alpha betaForm s' hs').2.1
    obtain ⟨hn, hin⟩ := hC _ (horth ω j)
    rcases near_found (t := t) (marg := marg) hev (V ω j) alpha betaForm (C (V ω j)) hn hin s' hs' with
      h | h | ⟨-, -, k, hk, -, -, hsc, s1, e, hs1, he⟩
    · exact Or.inr h
    · exact Or.inl (h.2.le.trans (htolr _ hr))
    · obtain ⟨c, hc⟩ := hconv j hj k hk s1 hs1 hsc
      rw [hc] at he
      cases he
  · obtain ⟨hint, hle, hlt⟩ := near_prob (n := n) ha hCm
    have hacr : Measurable (across alpha) := by unfold across; fun_prop
    have hval : ∫ u, StdNormal.cdf (-(C (across alpha u))) ∂(stdGauss n) = (stdGauss n).real {u | f (uToX t marg u) ≤ 0} -
        (stdGauss n).real {u | f (uToX t marg u) ≤ 0 ∧ ∑ i, alpha i * u i < C (across alpha u)} := by
      set F : Set (Fin n → ℝ) := {u | f (uToX t marg u) ≤ 0} with hF
      set B : Set (Fin n → ℝ) := {u | ∑ i, alpha i * u i < C (across alpha u)} with hB
      have hBm : MeasurableSet B := measurableSet_lt (by fun_prop) (hCm.comp hacr)
      have hsplit := MeasureTheory.measureReal_inter_add_diff (μ := stdGauss n) (s := F) hBm
      have hset : {u | f (uToX t marg u) ≤ 0 ∧ ∑ i, alpha i * u i < C (across alpha u)} = F ∩ B := rfl
      have hrep : ∀ u : Fin n → ℝ, (fun i => across alpha u i + (∑ k, alpha k * u k) * alpha i) = u := by
        intro u; funext i; simp [across]
      have h1 : F \ B ⊆ {u | C (across alpha u) ≤ ∑ i, alpha i * u i} := by
        intro u hu
        simp only [hB, Set.mem_sdiff, Set.mem_setOf_eq, not_lt] at hu
        exact hu.2
      have h2 : {u | C (across alpha u) < ∑ i, alpha i * u i} ⊆ F \ B := by
        intro u hu
        rw [Set.mem_setOf_eq] at hu
        refine ⟨?_, by simp only [hB, Set.mem_setOf_eq, not_lt]; exact hu.le⟩
        have h3 := (hC _ (across_orth ha u)).1.2 _ hu
        simp only at h3
        rw [hrep] at h3
        exact h3.le
      have h3 := MeasureTheory.measureReal_mono (μ := stdGauss n) h1
      have h4 := MeasureTheory.measureReal_mono (μ := stdGauss n) h2
      rw [hset]
      linarith
    have hlaw : ∀ j : Fin N, MeasureTheory.Measure.map (fun ω => lsDraw ω n N pos j.val) stream = stdGauss n := by
      intro j
      have h1 := randn_law (n := n) N pos
      have h2 : (fun ω : ℕ → ℝ => lsDraw ω n N pos j.val) =
          (fun us : Fin N → Fin n → ℝ => us j) ∘ (fun ω (j : Fin N) (r : Fin n) => ω (pos + r.val * N + j.val)) := rfl
      rw [h2, ← MeasureTheory.Measure.map_map (measurable_pi_apply j) (by fun_prop), h1,
        (MeasureTheory.measurePreserving_eval _ j).map_eq]
    have hmd : ∀ j : ℕ, Measurable (fun ω : ℕ → ℝ => lsDraw ω n N pos j) := by
      intro j; unfold lsDraw; fun_prop
    have hone : ∀ j < N, MeasureTheory.Integrable (fun ω => StdNormal.cdf (-(C (V ω j)))) stream ∧
        ∫ ω, StdNormal.cdf (-(C (V ω j))) ∂stream = ∫ u, StdNormal.cdf (-(C (across alpha u))) ∂(stdGauss n) := by
      intro j hj
      have hl := hlaw ⟨j, hj⟩
      simp only at hl
      have hint' : MeasureTheory.Integrable (fun u => StdNormal.cdf (-(C (across alpha u))))
          (MeasureTheory.Measure.map (fun ω => lsDraw ω n N pos j) stream) := by rw [hl]; exact hint
      have h3 := hint'.comp_measurable (hmd j)
      have h4 := MeasureTheory.integral_map (hmd j).aemeasurable hint'.aestronglyMeasurable
      rw [hl] at h4
      exact ⟨h3, h4.symm⟩
    rw [← hval]
    simp only [ideal]
    rw [MeasureTheory.integral_div, MeasureTheory.integral_finsetSum _ fun j hj => (hone j (Finset.mem_range.1 hj)).1,
      Finset.sum_congr rfl fun j hj => (hone j (Finset.mem_range.1 hj)).2]
    simp
    field_simp

/-- C127, the plainest case: a limit state `min (b + w·u) (b' - w·u)` with two parallel failure modes, and the direction of the
first.  Whatever the draws, all lines give the same distance, that of the first mode; the reported coefficient of variation is
zero; and the whole probability `Φ(-b'/|w|)` of the second mode is missing from `Pf`. -/
theorem C127_two_sided {f : (Fin n → ℝ) → ℝ} (hev : PointValues ev P (fun x => some (f x))) {b b' : ℝ} {w : Fin n → ℝ}
    (hf : ∀ u, f (uToX t marg u) = min (b + ∑ i, w i * u i) (b' - ∑ i, w i * u i)) (hw : 0 < ∑ i, w i ^ 2) (betaForm : ℝ)
    (hin : |b / √(∑ i, w i ^ 2)| < max (|betaForm| * 3 + 5) 15)
    (hgap : 4 * max (|betaForm| * 3 + 5) 15 / 39 < (b + b') / √(∑ i, w i ^ 2)) {N : ℕ} (hN : 1 ≤ N) (ω : ℕ → ℝ) (pos : ℕ)
    (s : σ) (hs : P s) :
    let m := max (|betaForm| * 3 + 5) 15
    let r := (sample t marg ev (fun i => -(w i / √(∑ i, w i ^ 2))) betaForm N ω pos s).2
    ∃ c, r.c = List.replicate N c ∧ |c - b / √(∑ i, w i ^ 2)| ≤ 1e-6 + 4 * (1 / 2) ^ 52 * m ∧
      r.Pf = StdNormal.cdf (-c) ∧ r.beta = (c : EReal) ∧ r.cov = 0 ∧
      |r.Pf - ((stdGauss n).real {u | f (uToX t marg u) ≤ 0} - StdNormal.cdf (-(b' / √(∑ i, w i ^ 2))))| ≤
        (1e-6 + 4 * (1 / 2) ^ 52 * m) / √(2 * Real.pi) := by
  intro m r
  set S := ∑ i, w i ^ 2 with hS
  have hs0 : 0 < √S := Real.sqrt_pos.2 hw
  set alpha : Fin n → ℝ := fun i => -(w i / √S) with halpha
  have hSS : √S * √S = S := Real.mul_self_sqrt hw.le
  have haa : ∑ i, alpha i * alpha i = 1 := by
    have : ∀ i, alpha i * alpha i = w i ^ 2 / S := by
      intro i
      simp only [halpha]
      rw [neg_mul_neg, div_mul_div_comm, hSS, sq]
    simp only [this, ← Finset.sum_div, ← hS]
    exact div_self hw.ne'
  have hwa : ∀ i, w i = -√S * alpha i := by
    intro i; simp only [halpha]; field_simp
  have hm15 : (15:ℝ) ≤ m := le_max_right _ _
  have hm0 : 0 < m := by linarith
  have hgap' : 4 * m / 39 * √S < b + b' := by rwa [lt_div_iff₀ hs0] at hgap
  have hmS : 0 < 2 * m / 39 * √S := by positivity
  obtain ⟨c, hj, hc, -, hPf, hP0, hP1, -, -, ⟨bb, hbeta, hbb⟩, hcov⟩ := C45_run (t := t) (marg := marg) hev alpha betaForm hN ω pos s hs
  set V : ℕ → Fin n → ℝ := fun j i => lsDraw ω n N pos j i - (∑ k, alpha k * lsDraw ω n N pos j k) * alpha i with hV
  have horth : ∀ j, ∑ i, alpha i * V j i = 0 := fun j => across_orth haa (lsDraw ω n N pos j)
  have hline : ∀ j x, f (uToX t marg (fun i => V j i + x * alpha i)) = min (b - √S * x) (b' + √S * x) := by
    intro j x
    rw [hf]
    have : ∀ i, w i * (V j i + x * alpha i) = -√S * (alpha i * V j i) + -√S * x * (alpha i * alpha i) := by
      intro i; rw [hwa i]; ring
    simp only [this, Finset.sum_add_distrib, ← Finset.mul_sum, horth, haa]
    congr 1 <;> ring
  have hcomp : ∀ j, Computes (evalAt t marg ev (V j) alpha) P (fun x => some (min (b - √S * x) (b' + √S * x))) := by
    intro j
    have := evalAt_computes (t := t) (marg := marg) hev (V j) alpha
    simp only [hline] at this
    exact this
  have hsame : ∀ j < N, c j = c 0 := by
    intro j hjN
    obtain ⟨-, s1, hs1, e1⟩ := hj j hjN
    obtain ⟨-, s2, hs2, e2⟩ := hj 0 (by omega)
    rw [e1, e2]
    exact findLine_det (hcomp j) (hcomp 0) betaForm s1 s2 hs1 hs2
  obtain ⟨hcm, s1, hs1, e1⟩ := hj 0 (by omega)
  set C := b / √S with hCd
  have hCS : C * √S = b := by rw [hCd]; field_simp
  have hnear : NearAndFar (2 * m / 39) (fun x => f (uToX t marg (fun i => V 0 i + x * alpha i))) C := by
    simp only [hline]
    constructor
    · intro x hx
      have h1 : x * √S < b := by rw [← hCS]; exact mul_lt_mul_of_pos_right hx hs0
      by_cases h2 : 0 < b' + √S * x
      · exact Or.inl (lt_min (by linarith) h2)
      · right
        rw [not_lt] at h2
        refine ⟨?_, ?_⟩
        · have h3 : x * √S < (C - 2 * m / 39) * √S := by
            rw [sub_mul, hCS]
            have : 4 * m / 39 * √S = 2 * (2 * m / 39 * √S) := by ring
            linarith
          exact lt_of_mul_lt_mul_right h3 hs0.le
        · intro y hy
          refine (min_le_right _ _).trans ?_
          have := mul_lt_mul_of_pos_left hy hs0
          linarith
    · intro x hx
      refine (min_le_left _ _).trans_lt ?_
      have h1 : b < x * √S := by rw [← hCS]; exact mul_lt_mul_of_pos_right hx hs0
      linarith
  have hclose : |c 0 - C| ≤ 1e-6 + 4 * (1 / 2) ^ 52 * m := by
    have hcr := near_found (t := t) (marg := marg) hev (V 0) alpha betaForm C hnear (abs_lt.1 hin).2 s1 hs1
    simp only at hcr
    rw [← e1] at hcr
    have hpos : (0:ℝ) ≤ 1e-6 + 4 * (1 / 2) ^ 52 * m := by positivity
    rcases hcr with ⟨h1, h2⟩ | ⟨h1, h2⟩ | ⟨h1, h2, j, hj39, hlo, hhi, hsc, s', e, hs', he⟩
    · exact absurd h1 (not_le.2 (abs_lt.1 hin).1)
    · refine h2.le.trans ?_
      gcongr
    · exfalso
      have hwd : scanPoint m (j + 1) - scanPoint m j = 2 * m / 39 := by unfold scanPoint; push_cast; ring
      have hlin : ∀ x, scanPoint m j ≤ x → x ≤ scanPoint m (j + 1) → min (b - √S * x) (b' + √S * x) = b - √S * x := by
        intro x hx _
        apply min_eq_left
        have h3 : (C - 2 * m / 39) * √S ≤ x * √S := mul_le_mul_of_nonneg_right (by linarith) hs0.le
        rw [sub_mul, hCS] at h3
        have : 4 * m / 39 * √S = 2 * (2 * m / 39 * √S) := by ring
        linarith
      obtain ⟨y, y', hy, hy', hyy⟩ := hsc
      have hy : some (f (uToX t marg (fun i => V 0 i + scanPoint m j * alpha i))) = some y := hy
      have hy' : some (f (uToX t marg (fun i => V 0 i + scanPoint m (j + 1) * alpha i))) = some y' := hy'
      rw [hline, hlin _ le_rfl (by linarith [hwd, hm0, (by positivity : (0:ℝ) < 2 * m / 39)])] at hy
      rw [hline, hlin _ (by linarith [hwd, hm0, (by positivity : (0:ℝ) < 2 * m / 39)]) le_rfl] at hy'
      injection hy with hy
      injection hy' with hy'
      have hdel : ∀ k ≤ 39, Brent.delta 1e-6 (4 * (1 / 2) ^ 52) (scanPoint m k) < |scanPoint m (j + 1) - scanPoint m j| / 2 := by
        intro k hk
        rw [hwd, abs_of_pos (by positivity)]
        unfold Brent.delta
        have h3 := scanPoint_range hm0 hk
        have h4 : |scanPoint m k| ≤ m := abs_le.2 h3
        have h5 : (4 * (1 / 2) ^ 52 : ℝ) ≤ 1 / 1000 := by norm_num
        have h6 : (4 * (1 / 2) ^ 52 : ℝ) * |scanPoint m k| ≤ 1 / 1000 * m := by
          apply mul_le_mul h5 h4 (abs_nonneg _) (by norm_num)
        norm_num at h6 ⊢
        linarith
      have haff : Computes (fun (u : Unit) (x : ℝ) => (u, (.ok (b - √S * x) : Except PyErr ℝ))) (fun _ => True)
          (fun x => some (b - √S * x)) := fun _ _ _ => ⟨trivial, rfl⟩
      obtain ⟨z, hz⟩ := Brent.brentq_affine (A := b) (B := √S) (lo := scanPoint m j) (hi := scanPoint m (j + 1)) hs0 haff
        (xtol := 1e-6) (rtol := 4 * (1 / 2) ^ 52) (by norm_num) (by norm_num) (by norm_num) (by rw [hy, hy']; exact hyy)
        (hdel j (by omega)) (hdel (j + 1) (by omega)) 50 (by norm_num) () trivial
      have hdet := Brent.brentq_det_on (xtol := 1e-6) (rtol := 4 * (1 / 2) ^ 52) (hcomp 0) haff
        (a := scanPoint m j) (b := scanPoint m (j + 1)) (by linarith [hwd, hm0, (by positivity : (0:ℝ) < 2 * m / 39)])
        (fun x h3 h4 => by rw [hlin x h3 h4]) (by norm_num) (by norm_num) 50 s' () hs' trivial
      rw [hz, he] at hdet
      cases hdet
  have hNpos : (0:ℝ) < N := by exact_mod_cast hN
  have hsum : ∀ F : ℝ → ℝ, ∑ j ∈ Finset.range N, F (c j) = N * F (c 0) := by
    intro F
    rw [Finset.sum_congr rfl fun j hjj => by rw [hsame j (Finset.mem_range.1 hjj)]]
    simp
  have hPf' : r.Pf = StdNormal.cdf (-(c 0)) := by
    change r.Pf = _ at hPf
    rw [hPf, hsum (fun x => StdNormal.cdf (-x))]
    field_simp
  refine ⟨c 0, ?_, hclose, hPf', ?_, ?_, ?_⟩
  · change r.c = _ at hc
    rw [hc, List.eq_replicate_iff]
    refine ⟨by simp, ?_⟩
    intro x hx
    obtain ⟨j, hj', rfl⟩ := List.mem_map.1 hx
    exact hsame j (List.mem_range.1 hj')
  · change r.beta = _ at hbeta
    change _ = r.Pf at hbb
    rw [hbeta]
    rw [hPf'] at hbb
    have := StdNormal.strictMono_cdf.injective hbb
    rw [neg_injective this]
  · change r.cov = _ at hcov
    rw [hcov, hsum (fun x => (StdNormal.cdf (-x) - r.Pf) ^ 2), hPf', sub_self]
    simp
  · have h1 := halfspace_prob w hw b
    have h2 := halfspace_prob (fun i => -w i) (by simpa using hw) b'
    have hset : {u : Fin n → ℝ | f (uToX t marg u) ≤ 0} = {u | b + ∑ i, w i * u i ≤ 0} ∪ {u | b' + ∑ i, -w i * u i ≤ 0} := by
      ext u
      simp only [hf, Set.mem_setOf_eq, Set.mem_union, min_le_iff, neg_mul, Finset.sum_neg_distrib, sub_eq_add_neg]
    have hdisj : Disjoint {u : Fin n → ℝ | b + ∑ i, w i * u i ≤ 0} {u | b' + ∑ i, -w i * u i ≤ 0} := by
      rw [Set.disjoint_left]
      intro u h3 h4
      simp only [Set.mem_setOf_eq, neg_mul, Finset.sum_neg_distrib] at h3 h4
      have : 4 * m / 39 * √S = 2 * (2 * m / 39 * √S) := by ring
      linarith
    have hmeas : MeasurableSet {u : Fin n → ℝ | b' + ∑ i, -w i * u i ≤ 0} := measurableSet_le (by fun_prop) measurable_const
    rw [hset, MeasureTheory.measureReal_union hdisj hmeas, h1, h2, hPf']
    simp only [neg_sq, ← hS, add_sub_cancel_right]
    refine (StdNormal.cdf_lip _ _).trans ?_
    apply div_le_div_of_nonneg_right _ (Real.sqrt_nonneg _)
    rw [neg_sub_neg, abs_sub_comm]
    exact hclose

/-- C127: a failure mode `a < alpha·u < b` between two neighbouring points of the scan is not seen at all: the distance on every
line is the end `m` of the scan, `Pf` is `Φ(-m)` (with a reported coefficient of variation of zero), whatever the draws, and
the probability of failure is `Φ(b) - Φ(a)`. -/
theorem C127_thin {f : (Fin n → ℝ) → ℝ} (hev : PointValues ev P (fun x => some (f x))) {alpha : Fin n → ℝ}
    (ha : ∑ i, alpha i * alpha i = 1) (betaForm : ℝ) {k : ℕ} (hk : k < 39)
    (hf : ∀ u, f (uToX t marg u) ≤ 0 ↔ scanPoint (max (|betaForm| * 3 + 5) 15) k < ∑ i, alpha i * u i ∧
      ∑ i, alpha i * u i < scanPoint (max (|betaForm| * 3 + 5) 15) (k + 1)) {N : ℕ} (hN : 1 ≤ N) (ω : ℕ → ℝ) (pos : ℕ)
    (s : σ) (hs : P s) :
    let m := max (|betaForm| * 3 + 5) 15
    let r := (sample t marg ev alpha betaForm N ω pos s).2
    r.c = List.replicate N m ∧ r.Pf = StdNormal.cdf (-m) ∧ r.cov = 0 ∧
    (stdGauss n).real {u | f (uToX t marg u) ≤ 0} = StdNormal.cdf (scanPoint m (k + 1)) - StdNormal.cdf (scanPoint m k) := by
  intro m r
  have hm15 : (15:ℝ) ≤ m := le_max_right _ _
  have hm0 : 0 < m := by linarith
  obtain ⟨c, hj, hc, -, hPf, hP0, hP1, -, -, -, hcov⟩ := C45_run (t := t) (marg := marg) hev alpha betaForm hN ω pos s hs
  have hall : ∀ j < N, c j = m := by
    intro j hjN
    obtain ⟨-, s1, hs1, e1⟩ := hj j hjN
    set v : Fin n → ℝ := fun i => lsDraw ω n N pos j i - (∑ k, alpha k * lsDraw ω n N pos j k) * alpha i with hv
    have horth : ∑ i, alpha i * v i = 0 := across_orth ha (lsDraw ω n N pos j)
    have hon : ∀ x : ℝ, ∑ i, alpha i * (v i + x * alpha i) = x := by
      intro x
      have : ∀ i, alpha i * (v i + x * alpha i) = alpha i * v i + x * (alpha i * alpha i) := fun i => by ring
      simp only [this, Finset.sum_add_distrib, ← Finset.mul_sum, horth, ha]
      ring
    have hpos : ∀ i, 0 < f (uToX t marg (fun l => v l + scanPoint m i * alpha l)) := by
      intro i
      rw [← not_le, hf, hon]
      rintro ⟨h1, h2⟩
      rcases Nat.lt_or_ge k i with h3 | h3
      · exact absurd (scanPoint_mono hm0 (show k + 1 ≤ i from h3)) (not_le.2 h2)
      · exact absurd (scanPoint_mono hm0 h3) (not_le.2 h1)
    set h := onLine t marg (fun x => some (f x)) v alpha with hh
    have hval : ∀ i, h (scanPoint m i) = some (f (uToX t marg (fun l => v l + scanPoint m i * alpha l))) := fun i => rfl
    obtain ⟨-, -, -, h2⟩ := C44_location (t := t) (marg := marg) hev v alpha betaForm s1 hs1
    have hnoSF : ∀ i < 39, ¬ SafeToFail h (scanPoint m i) (scanPoint m (i + 1)) := by
      rintro i - ⟨y, y', h3, h4, h5, h6⟩
      rw [hval, Option.some.injEq] at h4
      linarith [hpos (i + 1)]
    have hnoSC : ∀ i < 39, ¬ SignChange h (scanPoint m i) (scanPoint m (i + 1)) := by
      rintro i - ⟨y, y', h3, h4, h5⟩
      rw [hval, Option.some.injEq] at h3 h4
      rw [← h3, ← h4] at h5
      linarith [mul_pos (hpos i) (hpos (i + 1))]
    rw [e1]
    rcases (h2 hnoSF).2 hnoSC with ⟨-, i, -, y, hy, hiy, -⟩ | h3
    · have hiy : h (scanPoint m i) = some y := hiy
      rw [hval, Option.some.injEq] at hiy
      linarith [hpos i]
    · exact h3.1
  have hNpos : (0:ℝ) < N := by exact_mod_cast hN
  have hsum : ∀ F : ℝ → ℝ, ∑ j ∈ Finset.range N, F (c j) = N * F m := by
    intro F
    rw [Finset.sum_congr rfl fun j hjj => by rw [hall j (Finset.mem_range.1 hjj)]]
    simp
  have hPf' : r.Pf = StdNormal.cdf (-m) := by
    change r.Pf = _ at hPf
    rw [hPf, hsum (fun x => StdNormal.cdf (-x))]
    field_simp
  refine ⟨?_, hPf', ?_, ?_⟩
  · change r.c = _ at hc
    rw [hc, List.eq_replicate_iff]
    refine ⟨by simp, ?_⟩
    intro x hx
    obtain ⟨j, hj', rfl⟩ := List.mem_map.1 hx
    exact hall j (List.mem_range.1 hj')
  · change r.cov = _ at hcov
    rw [hcov, hsum (fun x => (StdNormal.cdf (-x) - r.Pf) ^ 2), hPf', sub_self]
    simp
  · have hS : ∑ i, alpha i ^ 2 = 1 := by rw [← ha]; exact Finset.sum_congr rfl fun i _ => sq _
    have h1 := halfspace_lt alpha (by rw [hS]; norm_num) (-scanPoint m (k + 1))
    have h2 := halfspace_prob alpha (by rw [hS]; norm_num) (-scanPoint m k)
    rw [hS, Real.sqrt_one, div_one, neg_neg] at h1 h2
    rw [← h1, ← h2, ← MeasureTheory.measureReal_sdiff]
    · congr 1
      ext u
      simp only [hf, Set.mem_setOf_eq, Set.mem_sdiff, not_le]
      constructor
      · rintro ⟨h3, h4⟩
        exact ⟨by linarith, by linarith⟩
      · rintro ⟨h3, h4⟩
        exact ⟨by linarith, by linarith⟩
    · intro u hu
      simp only [Set.mem_setOf_eq] at hu ⊢
      have : scanPoint m k < scanPoint m (k + 1) := by
        unfold scanPoint
        have h2 : 0 < 2 * m / 39 := by positivity
        push_cast
        linarith
      linarith
    · exact measurableSet_le (by fun_prop) measurable_const

/-- The interval chosen is one of the scan, with a sign change. -/
theorem bracket_cell {h : ℝ → Option ℝ} {m lo hi : ℝ} (hb : bracket ((grid m).map (fun c => (c, h c))) none = some (lo, hi)) :
    ∃ j < 39, lo = scanPoint m j ∧ hi = scanPoint m (j + 1) ∧ SignChange h lo hi := by
  classical
  rw [bracket_spec, pairs_eq, Option.none_or] at hb
  have hkey : ∀ p : ℝ × ℝ → Bool, ((List.range 39).map (fun j => (scanPoint m j, scanPoint m (j + 1)))).find? p = some (lo, hi) →
      p (lo, hi) = true ∧ ∃ j < 39, lo = scanPoint m j ∧ hi = scanPoint m (j + 1) := by
    intro p hp
    refine ⟨List.find?_some hp, ?_⟩
    obtain ⟨j, hj, he⟩ := List.mem_map.1 (List.mem_of_find?_eq_some hp)
    rw [Prod.mk.injEq] at he
    exact ⟨j, List.mem_range.1 hj, he.1.symm, he.2.symm⟩
  rw [Option.or_eq_some_iff] at hb
  rcases hb with hb | ⟨-, hb⟩
  · obtain ⟨h1, j, hj, h2, h3⟩ := hkey _ hb
    obtain ⟨y, y', h4, h5, h6, h7⟩ := of_decide_eq_true h1
    exact ⟨j, hj, h2, h3, y, y', h4, h5, mul_nonpos_of_nonneg_of_nonpos h6.le h7⟩
  · obtain ⟨h1, j, hj, h2, h3⟩ := hkey _ hb
    exact ⟨j, hj, h2, h3, of_decide_eq_true h1⟩

end

/-- C127: any two limit states, possibly not computable everywhere, that agree outside a strip between two neighbouring points
of the scan and are safe on the two edges of the strip are the same to line sampling: every run, on any stream of draws,
reports the same distances and therefore the same `Pf`, `beta` and coefficient of variation, whatever happens in the strip. -/
theorem C127_blind {σ' : Type} {t : Mats n} {marg : Fin n → Marginal} {ev : Evaluator σ n} {ev' : Evaluator σ' n} {P : σ → Prop}
    {P' : σ' → Prop} {g g' : (Fin n → ℝ) → Option ℝ} (hev : PointValues ev P g) (hev' : PointValues ev' P' g')
    {alpha : Fin n → ℝ} (ha : ∑ i, alpha i * alpha i = 1) (betaForm : ℝ) {k : ℕ}
    (hsame : ∀ u, ¬ (scanPoint (max (|betaForm| * 3 + 5) 15) k < ∑ i, alpha i * u i ∧
        ∑ i, alpha i * u i < scanPoint (max (|betaForm| * 3 + 5) 15) (k + 1)) → g (uToX t marg u) = g' (uToX t marg u))
    (hedge : ∀ u, (∑ i, alpha i * u i = scanPoint (max (|betaForm| * 3 + 5) 15) k ∨
        ∑ i, alpha i * u i = scanPoint (max (|betaForm| * 3 + 5) 15) (k + 1)) → ∃ y, g (uToX t marg u) = some y ∧ 0 < y)
    (N : ℕ) (ω : ℕ → ℝ) (pos : ℕ) (s : σ) (s' : σ') (hs : P s) (hs' : P' s') :
    (sample t marg ev alpha betaForm N ω pos s).2 = (sample t marg ev' alpha betaForm N ω pos s').2 := by
  have hm15 : (15:ℝ) ≤ cMax betaForm := le_max_right _ _
  have hm0 : 0 < cMax betaForm := by linarith
  have hone : ∀ v, ∑ i, alpha i * v i = 0 → ∀ (s : σ) (s' : σ'), P s → P' s' →
      (findLine t marg ev v alpha betaForm s).2 = (findLine t marg ev' v alpha betaForm s').2 := by
    intro v hv s s' hs hs'
    have hon : ∀ x : ℝ, ∑ i, alpha i * (v i + x * alpha i) = x := by
      intro x
      have : ∀ i, alpha i * (v i + x * alpha i) = alpha i * v i + x * (alpha i * alpha i) := fun i => by ring
      simp only [this, Finset.sum_add_distrib, ← Finset.mul_sum, hv, ha]
      ring
    have hscan : ∀ j, onLine t marg g v alpha (scanPoint (cMax betaForm) j) = onLine t marg g' v alpha (scanPoint (cMax betaForm) j) := by
      intro j
      apply hsame
      rw [hon]
      rintro ⟨h1, h2⟩
      rcases Nat.lt_or_ge k j with h3 | h3
      · exact absurd (scanPoint_mono hm0 (show k + 1 ≤ j from h3)) (not_le.2 h2)
      · exact absurd (scanPoint_mono hm0 h3) (not_le.2 h1)
    have hgrid : ∀ c ∈ grid (cMax betaForm), onLine t marg g v alpha c = onLine t marg g' v alpha c := by
      intro c hc
      rw [grid_eq] at hc
      obtain ⟨j, -, rfl⟩ := List.mem_map.1 hc
      exact hscan j
    have hmap : (grid (cMax betaForm)).map (fun c => (c, onLine t marg g v alpha c)) =
        (grid (cMax betaForm)).map (fun c => (c, onLine t marg g' v alpha c)) :=
      List.map_congr_left fun c hc => by rw [hgrid c hc]
    refine findLine_det_on (evalAt_computes (t := t) (marg := marg) hev v alpha) (evalAt_computes (t := t) (marg := marg) hev' v alpha)
      betaForm s s' hs hs' (congrArg (fun l => bracket l none) hmap) (fun _ => ?_) ?_
    · congr 1
      exact List.filterMap_congr fun c hc => hgrid c hc
    · intro lo hi hb
      obtain ⟨j, hj, rfl, rfl, y, y', h1, h2, h3⟩ := bracket_cell hb
      refine ⟨scanPoint_mono hm0 (Nat.le_succ j), fun x h4 h5 => ?_⟩
      apply hsame
      rw [hon]
      rintro ⟨h6, h7⟩
      have hjk : j = k := by
        by_contra hne
        rcases Nat.lt_or_gt_of_ne hne with h8 | h8
        · exact absurd (scanPoint_mono hm0 (show j + 1 ≤ k from h8)) (not_le.2 (lt_of_lt_of_le h6 h5))
        · exact absurd (scanPoint_mono hm0 (show k + 1 ≤ j from h8)) (not_le.2 (lt_of_le_of_lt h4 h7))
      subst hjk
      obtain ⟨z, hz, hz0⟩ := hedge _ (Or.inl (hon (scanPoint (cMax betaForm) j)))
      obtain ⟨z', hz', hz0'⟩ := hedge _ (Or.inr (hon (scanPoint (cMax betaForm) (j + 1))))
      have h1 : g _ = some y := h1
      have h2 : g _ = some y' := h2
      rw [hz, Option.some.injEq] at h1
      rw [hz', Option.some.injEq] at h2
      rw [← h1, ← h2] at h3
      linarith [mul_pos hz0 hz0']
  have hlines : ∀ (vs : List (Fin n → ℝ)), (∀ v ∈ vs, ∑ i, alpha i * v i = 0) → ∀ (s : σ) (s' : σ'), P s → P' s' →
      (lines t marg ev alpha betaForm vs s).2 = (lines t marg ev' alpha betaForm vs s').2 := by
    intro vs
    induction vs with
    | nil => intro _ s s' _ _; rfl
    | cons v vs ih =>
      intro hvs s s' hs hs'
      unfold lines
      simp only
      rw [hone v (hvs v (by simp)) s s' hs hs', ih (fun v hv => hvs v (by simp [hv])) _ _
        (C44_location (t := t) (marg := marg) hev v alpha betaForm s hs).1
        (C44_location (t := t) (marg := marg) hev' v alpha betaForm s' hs').1]
  have hl := hlines ((Subset.randn ω n N pos).map (project alpha)) (by
    intro v hv
    obtain ⟨u, -, rfl⟩ := List.mem_map.1 hv
    rw [← across_project]
    exact across_orth ha u) s s' hs hs'
  unfold sample
  simp only
  rw [hl]

/-- Two standard normal variables and the limit state `min (3 + sin x₁ - x₀) (2 + x₀)`, direction the first axis: the hypotheses of
`C127_modes` are met; the expected value misses the more likely mode `x₀ ≤ -2`. -/
example : ∃ m : Marginal, Normal.new 0 (.fin 1) none = .ok m ∧
    ∫ ω, (∑ j ∈ Finset.range 5, StdNormal.cdf (-(3 + Real.sin (across ![1, 0] (lsDraw ω 2 5 0 j) 1)))) / (5 : ℕ) ∂stream =
      (stdGauss 2).real {u | min (3 + Real.sin (u 1) - u 0) (2 + u 0) ≤ 0} -
      (stdGauss 2).real {u | min (3 + Real.sin (u 1) - u 0) (2 + u 0) ≤ 0 ∧ u 0 < 3 + Real.sin (u 1)} := by
  obtain ⟨m, hm⟩ : ∃ m, Normal.new 0 (.fin (1 : ℝ)) none = .ok m := ⟨_, rfl⟩
  have hu := (normal_ok hm).1
  have hux : ∀ u : Fin 2 → ℝ, uToX (n := 2) ⟨1, 1⟩ (fun _ => m) u = u := by
    intro u; funext i; simp [uToX, hu, Normal.uToX]
  have hmax : max (|(3 : ℝ)| * 3 + 5) 15 = 15 := by rw [abs_of_pos (by norm_num)]; norm_num
  refine ⟨m, hm, ?_⟩
  obtain ⟨-, -, h⟩ := C127_modes (t := ⟨1, 1⟩) (marg := fun _ => m)
    (ev := (⟨fun s _ => (s, .error .typeError), fun s xs => (s, .ok (xs.map (fun x => min (3 + Real.sin (x 1) - x 0) (2 + x 0))))⟩ :
      Evaluator Unit 2))
    (P := fun _ => True) (f := fun x : Fin 2 → ℝ => min (3 + Real.sin (x 1) - x 0) (2 + x 0))
    (pointValues_of_values fun s _ xs => ⟨s, rfl, trivial⟩)
    (by simp only [hux]; fun_prop) ![1, 0] (by rw [Fin.sum_univ_two]; simp) 3 (fun v => 3 + Real.sin (v 1))
    (by fun_prop) (by
      intro v hv
      rw [Fin.sum_univ_two] at hv
      simp at hv
      have h1 := Real.sin_le_one (v 1)
      have h2 := Real.neg_one_le_sin (v 1)
      rw [hmax]
      refine ⟨⟨fun c hc => ?_, fun c hc => ?_⟩, by linarith⟩
      · simp only [hux]
        simp [hv]
        by_cases h3 : 0 < 2 + c
        · exact Or.inl ⟨hc, h3⟩
        · right
          exact ⟨by linarith, fun c' hc' => Or.inr (by linarith)⟩
      · simp only [hux]
        simp [hv]
        exact Or.inl hc) (N := 5) (by norm_num) 0
  have hs : ∀ u : Fin 2 → ℝ, ∑ i, ![(1 : ℝ), 0] i * u i = u 0 := by intro u; rw [Fin.sum_univ_two]; simp
  have ha : ∀ u : Fin 2 → ℝ, across ![1, 0] u 1 = u 1 := by intro u; simp [across]
  simp only [hux, hs, ha] at h
  simp only [ha]
  exact h

/-- The limit state `min (3 - x₀) (2 + x₀)`: whatever the draws, `Pf` is about `Φ(-3)` where the probability of failure is
`Φ(-3) + Φ(-2)`. -/
example : ∃ m : Marginal, Normal.new 0 (.fin 1) none = .ok m ∧ ∀ ω N, 1 ≤ N → ∃ c : ℝ, |c - 3| ≤ 1e-5 ∧
    (sample (n := 2) ⟨1, 1⟩ (fun _ => m)
      (⟨fun s _ => (s, .error .typeError), fun s xs => (s, .ok (xs.map (fun x => min (3 - x 0) (2 + x 0))))⟩ : Evaluator Unit 2)
      (fun i => -(![-1, 0] i / √(∑ i, ![-1, 0] i ^ 2))) 3 N ω 0 ()).2.Pf = StdNormal.cdf (-c) := by
  obtain ⟨m, hm⟩ : ∃ m, Normal.new 0 (.fin (1 : ℝ)) none = .ok m := ⟨_, rfl⟩
  have hu := (normal_ok hm).1
  have hmax : max (|(3 : ℝ)| * 3 + 5) 15 = 15 := by rw [abs_of_pos (by norm_num)]; norm_num
  refine ⟨m, hm, fun ω N hN => ?_⟩
  have hS : ∑ i : Fin 2, (![-1, 0] i : ℝ) ^ 2 = 1 := by rw [Fin.sum_univ_two]; norm_num
  obtain ⟨c, -, h1, h2, -⟩ := C127_two_sided (t := ⟨1, 1⟩) (marg := fun _ => m)
    (ev := (⟨fun s _ => (s, .error .typeError), fun s xs => (s, .ok (xs.map (fun x => min (3 - x 0) (2 + x 0))))⟩ : Evaluator Unit 2))
    (P := fun _ => True) (f := fun x : Fin 2 → ℝ => min (3 - x 0) (2 + x 0)) (pointValues_of_values fun s _ xs => ⟨s, rfl, trivial⟩)
    (b := 3) (b' := 2) (w := ![-1, 0]) (by intro u; rw [Fin.sum_univ_two]; simp [uToX, hu, Normal.uToX, sub_eq_add_neg])
    (by rw [hS]; norm_num) 3 (by
      rw [hS, hmax, Real.sqrt_one, div_one, abs_of_pos (by norm_num)]; norm_num)
    (by rw [hS, hmax, Real.sqrt_one]; norm_num) hN ω 0 () trivial
  refine ⟨c, ?_, h2⟩
  rw [hS, hmax, Real.sqrt_one, div_one] at h1
  refine h1.trans ?_
  norm_num

/-- A limit state failing only in the strip `-5/13 < x₀ < 5/13`, the middle of the distribution: nothing is seen. -/
example : ∃ m : Marginal, Normal.new 0 (.fin 1) none = .ok m ∧ ∀ ω N, 1 ≤ N →
    (sample (n := 2) ⟨1, 1⟩ (fun _ => m)
      (⟨fun s _ => (s, .error .typeError), fun s xs => (s, .ok (xs.map (fun x =>
        if scanPoint 15 19 < x 0 ∧ x 0 < scanPoint 15 20 then (-1 : ℝ) else 1)))⟩ : Evaluator Unit 2)
      ![1, 0] 3 N ω 0 ()).2.Pf = StdNormal.cdf (-15) := by
  obtain ⟨m, hm⟩ : ∃ m, Normal.new 0 (.fin (1 : ℝ)) none = .ok m := ⟨_, rfl⟩
  have hu := (normal_ok hm).1
  have hmax : max (|(3 : ℝ)| * 3 + 5) 15 = 15 := by rw [abs_of_pos (by norm_num)]; norm_num
  have hux : ∀ u : Fin 2 → ℝ, uToX (n := 2) ⟨1, 1⟩ (fun _ => m) u = u := by
    intro u; funext i; simp [uToX, hu, Normal.uToX]
  refine ⟨m, hm, fun ω N hN => ?_⟩
  obtain ⟨-, h, -⟩ := C127_thin (t := ⟨1, 1⟩) (marg := fun _ => m)
    (ev := (⟨fun s _ => (s, .error .typeError), fun s xs => (s, .ok (xs.map (fun x =>
      if scanPoint 15 19 < x 0 ∧ x 0 < scanPoint 15 20 then (-1 : ℝ) else 1)))⟩ : Evaluator Unit 2))
    (P := fun _ => True) (f := fun x : Fin 2 → ℝ => if scanPoint 15 19 < x 0 ∧ x 0 < scanPoint 15 20 then (-1 : ℝ) else 1)
    (pointValues_of_values fun s _ xs => ⟨s, rfl, trivial⟩) (alpha := ![1, 0]) (by rw [Fin.sum_univ_two]; simp) 3 (k := 19)
    (by norm_num) (by
      intro u
      rw [hux, hmax, Fin.sum_univ_two]
      simp only [Matrix.cons_val_zero, Matrix.cons_val_one, one_mul, zero_mul, add_zero]
      split_ifs with h1
      · simp only [h1, and_self, iff_true]; norm_num
      · simp only [h1, iff_false]; norm_num) hN ω 0 () trivial
  rw [hmax] at h
  exact h

end Pystra.Props
