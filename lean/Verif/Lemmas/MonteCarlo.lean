import Verif.Spec.MonteCarlo
import Mathlib.Tactic.Ring
import Mathlib.Tactic.Linarith
import Mathlib.Algebra.BigOperators.Intervals
import Mathlib.Algebra.Order.BigOperators.Ring.Finset

namespace Pystra.MonteCarlo
open Transformation Form Spec

variable {σ : Type} {n : ℕ}

/-- `coefficient` in conventional form. -/
theorem coefficient_eq (k : ℕ) (S S2 : ℝ) : coefficient k S S2 = (if 0 < S then S / k else 0, cvOfMean k S S2) := by
  unfold coefficient cvOfMean
  by_cases h : 0 < S
  · simp only [gt_iff_lt, if_pos h]
    have e1 : (k:ℝ)⁻¹ * S = S / k := by ring
    have e2 : (k:ℝ)⁻¹ * ((k:ℝ)⁻¹ * S2 - (S / k) ^ 2) = (S2 / k - (S / k) ^ 2) / k := by ring
    rw [e1, e2, div_eq_mul_inv √_]
  · simp only [gt_iff_lt, if_neg h]

section
variable (t : Mats n) (marg : Fin n → Marginal) (opt : Options) (point : Fin n → ℝ) (ω : ℕ → ℝ) (pos : ℕ)

/-- The `j`-th sample in `u`-space. -/
noncomputable def sampleU (j : ℕ) : Fin n → ℝ := mcSample opt.stdv point ω opt.blockSize opt.samples pos j

/-- The `j`-th summand. -/
noncomputable def term (f : (Fin n → ℝ) → ℝ) (j : ℕ) : ℝ :=
  indicator (f (uToX t marg (sampleU opt point ω pos j))) * weight opt.stdv point (sampleU opt point ω pos j)

/-- The coordinates of the samples of the blocks 1, …, `q` (the first block is block 0), block by block, row by row. -/
noncomputable def laterBlocks (q : ℕ) : List ℝ := (List.range q).flatMap (fun m =>
  rowMajor ((List.range (min opt.blockSize (opt.samples - opt.blockSize * (m + 1)))).map
    (fun c => sampleU opt point ω pos (opt.blockSize * (m + 1) + c))))

/-- What is true before and after every pass. -/
structure Inv (P : σ → Prop) (f : (Fin n → ℝ) → ℝ) (st : State σ n) : Prop where
  hP : P st.s
  kle : st.k ≤ opt.samples
  whole : st.k = opt.samples ∨ opt.blockSize ∣ st.k
  hpos : st.pos = pos + n * st.k
  sumQ : st.sumQ = ∑ j ∈ Finset.range st.k, term t marg opt point ω pos f j
  sumQ2 : st.sumQ2 = ∑ j ∈ Finset.range st.k, term t marg opt point ω pos f j ^ 2
  kept : (st.k = 0 ∧ st.uAll = .none ∧ st.xAll = .none) ∨
    ∃ us : List (Fin n → ℝ), 0 < st.k ∧
      us = (List.range (min opt.blockSize opt.samples)).map (sampleU opt point ω pos) ∧
      ((st.k = min opt.blockSize opt.samples ∧ st.uAll = .cols us ∧ st.xAll = .cols (us.map (uToX t marg))) ∨
       ∃ q, opt.blockSize < st.k ∧ opt.blockSize * q < st.k ∧ st.k ≤ opt.blockSize * (q + 1) ∧
         st.uAll = .flat (rowMajor us ++ laterBlocks opt point ω pos q) ∧
         st.xAll = .flat (rowMajor (us.map (uToX t marg)) ++ laterBlocks opt point ω pos q))
  allG : st.allG = (List.range st.k).map (fun j => f (uToX t marg (sampleU opt point ω pos j)))
  betaAll : st.betaAll = (List.range st.k).map (fun j => norm2 (sampleU opt point ω pos j))

variable {t marg opt point ω pos}

theorem block_samples {st : State σ n} (hk : st.k < opt.samples) (hb : 1 ≤ opt.blockSize)
    (hd : opt.blockSize ∣ st.k) (hpos : st.pos = pos + n * st.k) :
    (randn ω n (min opt.blockSize (opt.samples - st.k)) st.pos).map (fun z => fun r => point r + opt.stdv * z r) =
      (List.range (min opt.blockSize (opt.samples - st.k))).map (fun c => sampleU opt point ω pos (st.k + c)) := by
  obtain ⟨m, hm⟩ := hd
  unfold randn
  rw [List.map_map]
  apply List.map_congr_left
  intro c hc
  rw [List.mem_range] at hc
  funext r
  have h1 : c < opt.blockSize := lt_of_lt_of_le hc (min_le_left _ _)
  have h2 : (st.k + c) / opt.blockSize = m := by
    rw [hm, Nat.mul_add_div (by omega), Nat.div_eq_of_lt h1, Nat.add_zero]
  have h3 : (st.k + c) % opt.blockSize = c := by
    rw [hm, Nat.mul_add_mod, Nat.mod_eq_of_lt h1]
  simp only [Function.comp_apply, sampleU, mcSample, mcDraw, h2, h3, ← hm, hpos]

/-- One pass. -/
theorem block_inv {ev : Evaluator σ n} {P : σ → Prop} {f : (Fin n → ℝ) → ℝ} (hev : Values ev P f)
    (hg : opt.randomGenerator = 0) (hb : 1 ≤ opt.blockSize) {st : State σ n}
    (hi : Inv t marg opt point ω pos P f st) (hk : st.k < opt.samples) :
    ∃ st', block t marg ev opt point ω st = .ok st' ∧ Inv t marg opt point ω pos P f st' ∧
      st'.k = st.k + min opt.blockSize (opt.samples - st.k) ∧
      st'.qBar = (if 0 < st'.sumQ then st'.sumQ / st'.k else 0) ∧
      st'.covQBar = cvOfMean st'.k st'.sumQ st'.sumQ2 ∧
      ev.values st.s ((List.range (min opt.blockSize (opt.samples - st.k))).map
        (fun c => uToX t marg (sampleU opt point ω pos (st.k + c)))) = (st'.s, .ok
        ((List.range (min opt.blockSize (opt.samples - st.k))).map
        (fun c => f (uToX t marg (sampleU opt point ω pos (st.k + c)))))) := by
  have hd : opt.blockSize ∣ st.k := by
    rcases hi.whole with h | h
    · omega
    · exact h
  set b := min opt.blockSize (opt.samples - st.k) with hbdef
  have hus := block_samples (point := point) (ω := ω) hk hb hd hi.hpos
  rw [← hbdef] at hus
  set us := (List.range b).map (fun c => sampleU opt point ω pos (st.k + c)) with husdef
  obtain ⟨s', hv, hP'⟩ := hev st.s hi.hP (us.map (uToX t marg))
  have hq : List.zipWith (fun g u => indicator g * weight opt.stdv point u) ((us.map (uToX t marg)).map f) us =
      (List.range b).map (fun c => term t marg opt point ω pos f (st.k + c)) := by
    rw [List.map_map, husdef, List.map_map, List.zipWith_map_left, List.zipWith_map_right]
    simp only [List.zipWith_self, Function.comp_apply]
    rfl
  have hsum : ∀ F : ℕ → ℝ, ((List.range b).map (fun c => F (st.k + c))).sum = ∑ j ∈ Finset.range b, F (st.k + j) := by
    intro F
    rw [Finset.sum_range, ← List.sum_ofFn]
    congr 1
    apply List.ext_getElem <;> simp
  have hb' : 1 ≤ b := by rw [hbdef]; omega
  have hblock : block t marg ev opt point ω st = .ok
      { k := st.k + b, pos := st.pos + n * b
        sumQ := st.sumQ + ∑ j ∈ Finset.range b, term t marg opt point ω pos f (st.k + j)
        sumQ2 := st.sumQ2 + ∑ j ∈ Finset.range b, term t marg opt point ω pos f (st.k + j) ^ 2
        qBar := (coefficient (st.k + b) (st.sumQ + ∑ j ∈ Finset.range b, term t marg opt point ω pos f (st.k + j))
          (st.sumQ2 + ∑ j ∈ Finset.range b, term t marg opt point ω pos f (st.k + j) ^ 2)).1
        covQBar := (coefficient (st.k + b) (st.sumQ + ∑ j ∈ Finset.range b, term t marg opt point ω pos f (st.k + j))
          (st.sumQ2 + ∑ j ∈ Finset.range b, term t marg opt point ω pos f (st.k + j) ^ 2)).2
        uAll := keep st.uAll us us, xAll := keep st.xAll (us.map (uToX t marg)) us
        allG := st.allG ++ us.map (fun u => f (uToX t marg u)), betaAll := st.betaAll ++ us.map norm2, s := s' } := by
    unfold block randomNumbers
    simp only [if_pos hg, ← hbdef, hus, hv, hq]
    simp only [List.map_map, Function.comp_def]
    rw [hsum (fun j => term t marg opt point ω pos f j), hsum (fun j => term t marg opt point ω pos f j ^ 2)]
  refine ⟨_, hblock, ?_, rfl, ?_, ?_, ?_⟩
  · have hsplit : ∀ F : ℕ → ℝ, ∑ j ∈ Finset.range (st.k + b), F j =
        ∑ j ∈ Finset.range st.k, F j + ∑ j ∈ Finset.range b, F (st.k + j) := fun F => Finset.sum_range_add F _ _
    refine ⟨hP', ?_, ?_, ?_, ?_, ?_, ?_, ?_, ?_⟩
    · simp only; omega
    · simp only
      by_cases h : opt.samples ≤ st.k + opt.blockSize
      · left; omega
      · right
        have : b = opt.blockSize := by omega
        rw [this]; exact Nat.dvd_add hd (dvd_refl _)
    · simp only [hi.hpos]; ring
    · simp only [hsplit, ← hi.sumQ]
    · simp only [hsplit (fun j => term t marg opt point ω pos f j ^ 2), ← hi.sumQ2]
    · right
      rcases hi.kept with ⟨h0, hu, hx⟩ | ⟨vs, hpos, hvs, hcase⟩
      · refine ⟨us, by simp only; omega, ?_, Or.inl ⟨?_, ?_, ?_⟩⟩
        · rw [husdef, hbdef, h0]; simp
        · simp only; rw [hbdef, h0]; simp
        · simp only [hu, keep]
        · simp only [hx, keep]
      · refine ⟨vs, by simp only; omega, hvs, Or.inr ?_⟩
        have hlt : opt.blockSize < st.k + b := by
          have := Nat.le_of_dvd hpos hd
          omega
        have hnew : ∀ q, st.k = opt.blockSize * (q + 1) →
            laterBlocks opt point ω pos q ++ rowMajor us = laterBlocks opt point ω pos (q + 1) := by
          intro q hq
          unfold laterBlocks
          rw [List.range_succ, List.flatMap_append, List.flatMap_singleton, husdef, hbdef, hq]
        have hb1 : b ≤ opt.blockSize := min_le_left _ _
        have hmul : ∀ q, opt.blockSize * (q + 1) = opt.blockSize * q + opt.blockSize := fun q => Nat.mul_succ _ _
        rcases hcase with ⟨h1, hu, hx⟩ | ⟨q, h1, h2, h3, hu, hx⟩
        · have e : st.k = opt.blockSize * (0 + 1) := by omega
          refine ⟨1, hlt, ?_, ?_, ?_, ?_⟩
          · simp only; omega
          · simp only [hmul 1]; omega
          · rw [← hnew 0 e]; simp only [hu, keep, laterBlocks]; simp
          · rw [← hnew 0 e]; simp only [hx, keep, laterBlocks]; simp
        · have e : st.k = opt.blockSize * (q + 1) := by
            obtain ⟨m, hm⟩ := hd
            rw [hm] at h2 h3
            have a1 : q < m := Nat.lt_of_mul_lt_mul_left h2
            have a2 : m ≤ q + 1 := Nat.le_of_mul_le_mul_left h3 (by omega)
            rw [hm]; congr 1; omega
          refine ⟨q + 1, hlt, ?_, ?_, ?_, ?_⟩
          · simp only; omega
          · simp only [hmul (q + 1)]; omega
          · rw [← hnew q e]; simp only [hu, keep, List.append_assoc]
          · rw [← hnew q e]; simp only [hx, keep, List.append_assoc]
    · simp only [hi.allG, husdef, List.range_add, List.map_append, List.map_map]; rfl
    · simp only [hi.betaAll, husdef, List.range_add, List.map_append, List.map_map]; rfl
  · simp only [coefficient_eq]
  · simp only [coefficient_eq]
  · have e1 : us.map (uToX t marg) = (List.range b).map (fun c => uToX t marg (sampleU opt point ω pos (st.k + c))) := by
      rw [husdef, List.map_map]; rfl
    have e2 : (us.map (uToX t marg)).map f =
        (List.range b).map (fun c => f (uToX t marg (sampleU opt point ω pos (st.k + c)))) := by
      rw [husdef, List.map_map, List.map_map]; rfl
    rw [← e1, ← e2]; exact hv

/-- The loop. -/
theorem loop_spec {ev : Evaluator σ n} {P : σ → Prop} {f : (Fin n → ℝ) → ℝ} (hev : Values ev P f)
    (hg : opt.randomGenerator = 0) (hb : 1 ≤ opt.blockSize) (hN : 1 ≤ opt.samples) {Q : ℕ → σ → Prop}
    (hQ : ∀ k b s s', P s → Q k s → ev.values s ((List.range b).map
        (fun c => uToX t marg (sampleU opt point ω pos (k + c)))) = (s', .ok ((List.range b).map
        (fun c => f (uToX t marg (sampleU opt point ω pos (k + c)))))) → Q (k + b) s') (fuel : ℕ) : ∀ st : State σ n,
    Inv t marg opt point ω pos P f st → Q st.k st.s → opt.samples ≤ fuel + st.k →
    (0 < st.k → st.qBar = (if 0 < st.sumQ then st.sumQ / st.k else 0) ∧ st.covQBar = cvOfMean st.k st.sumQ st.sumQ2) →
    ∃ st', loop t marg ev opt point ω fuel st = some (.ok st') ∧ Inv t marg opt point ω pos P f st' ∧ Q st'.k st'.s ∧ 0 < st'.k ∧
      st.k ≤ st'.k ∧
      st'.qBar = (if 0 < st'.sumQ then st'.sumQ / st'.k else 0) ∧ st'.covQBar = cvOfMean st'.k st'.sumQ st'.sumQ2 ∧
      (st'.k = opt.samples ∨ st'.covQBar ≤ opt.cov) ∧
      ∀ m, st.k < m * opt.blockSize → m * opt.blockSize < st'.k → opt.cov <
        cvOfMean (m * opt.blockSize) (∑ j ∈ Finset.range (m * opt.blockSize), term t marg opt point ω pos f j)
          (∑ j ∈ Finset.range (m * opt.blockSize), term t marg opt point ω pos f j ^ 2) := by
  induction fuel with
  | zero =>
    intro st hi hq0 hf h0
    have hk : st.k = opt.samples := le_antisymm hi.kle (by omega)
    refine ⟨st, ?_, hi, hq0, by omega, le_rfl, (h0 (by omega)).1, (h0 (by omega)).2, Or.inl hk, fun m h1 h2 => by omega⟩
    unfold loop; rw [if_neg (by omega)]
  | succ fuel ih =>
    intro st hi hq0 hf h0
    by_cases hk : st.k < opt.samples
    · obtain ⟨st1, hbl, hi1, hk1, hq1, hc1, hval⟩ := block_inv hev hg hb hi hk
      have hQ1 : Q st1.k st1.s := by rw [hk1]; exact hQ _ _ _ _ hi.hP hq0 hval
      have hd : opt.blockSize ∣ st.k := by
        rcases hi.whole with h | h
        · omega
        · exact h
      have hnext : ∀ m, st.k < m * opt.blockSize → st1.k ≤ m * opt.blockSize := by
        intro m hm
        obtain ⟨q, hq⟩ := hd
        have : q < m := by
          by_contra hle
          have := Nat.mul_le_mul_left opt.blockSize (not_lt.1 hle)
          rw [Nat.mul_comm m] at hm; omega
        have := Nat.mul_le_mul_left opt.blockSize (Nat.succ_le_of_lt this)
        rw [Nat.mul_succ] at this
        rw [hk1, Nat.mul_comm m]; omega
      by_cases hc : st1.covQBar ≤ opt.cov
      · refine ⟨st1, ?_, hi1, hQ1, by omega, by omega, hq1, hc1, Or.inr hc, fun m h1 h2 => ?_⟩
        · unfold loop; rw [if_pos hk, hbl]; simp only [if_pos hc]
        · have := hnext m h1; omega
      · obtain ⟨st', hl, hi', hQ', hp', hle', hq', hc', hst', hall⟩ := ih st1 hi1 hQ1 (by omega) (fun _ => ⟨hq1, hc1⟩)
        refine ⟨st', ?_, hi', hQ', hp', by omega, hq', hc', hst', fun m h1 h2 => ?_⟩
        · unfold loop; rw [if_pos hk, hbl]; simp only [if_neg hc]; exact hl
        · rcases Nat.lt_or_ge st1.k (m * opt.blockSize) with h | h
          · exact hall m h h2
          · have e : m * opt.blockSize = st1.k := le_antisymm h (hnext m h1)
            rw [e, ← hi1.sumQ, ← hi1.sumQ2, ← hc1]
            exact not_le.1 hc
    · have hk' : st.k = opt.samples := le_antisymm hi.kle (by omega)
      refine ⟨st, ?_, hi, hq0, by omega, le_rfl, (h0 (by omega)).1, (h0 (by omega)).2, Or.inl hk', fun m h1 h2 => by omega⟩
      unfold loop; rw [if_neg hk]

end
end Pystra.MonteCarlo
