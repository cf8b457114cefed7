import Verif.Model.Subset
import Verif.Spec.MonteCarlo
import Mathlib.Data.List.GetD
import Mathlib.Tactic.Linarith

namespace Pystra.Subset
open Transformation Form Spec

variable {σ : Type} {n : ℕ}

/-! Percentile -/

section
variable {G : List ℝ} {p : ℝ}

open Classical in
/-- The sorted list. -/
noncomputable def srt (G : List ℝ) : List ℝ := G.insertionSort (· ≤ ·)

theorem srt_length (G : List ℝ) : (srt G).length = G.length := List.length_insertionSort _ _

theorem srt_perm (G : List ℝ) : (srt G).Perm G := List.perm_insertionSort _ _

theorem srt_mono (G : List ℝ) {i j : ℕ} (hij : i ≤ j) (hj : j < (srt G).length) :
    (srt G)[i]'(lt_of_le_of_lt hij hj) ≤ (srt G)[j] := by
  have h : (srt G).Pairwise (· ≤ ·) := List.pairwise_insertionSort _ _
  rcases Nat.lt_or_eq_of_le hij with h1 | h1
  · exact List.pairwise_iff_getElem.1 h i j _ hj h1
  · subst h1; exact le_rfl

theorem lo_lt (hp : 0 < p) (hp1 : p < 1) (hG : G ≠ []) : ⌊p * ((G.length : ℝ) - 1)⌋₊ < G.length := by
  have hl : 1 ≤ G.length := List.length_pos_iff.2 hG
  have hl' : (1:ℝ) ≤ G.length := by exact_mod_cast hl
  rw [Nat.floor_lt (by nlinarith)]
  nlinarith

/-- The percentile lies between two order statistics. -/
theorem percentile_bounds (hp : 0 < p) (hp1 : p < 1) (hG : G ≠ []) :
    ∃ lo hi, ∃ (hlo : lo < (srt G).length) (hhi : hi < (srt G).length), (lo : ℝ) ≤ p * ((G.length : ℝ) - 1) ∧
      p * ((G.length : ℝ) - 1) < lo + 1 ∧ lo ≤ hi ∧ hi ≤ lo + 1 ∧
      (srt G)[lo] ≤ percentile G p ∧ percentile G p ≤ (srt G)[hi] := by
  have hl : 1 ≤ G.length := List.length_pos_iff.2 hG
  have hl' : (1:ℝ) ≤ G.length := by exact_mod_cast hl
  have h0 : 0 ≤ p * ((G.length : ℝ) - 1) := mul_nonneg hp.le (by linarith)
  have hlo := lo_lt hp hp1 hG
  have hf1 := Nat.floor_le h0
  have hf2 := Nat.lt_floor_add_one (p * ((G.length : ℝ) - 1))
  have hlen := srt_length G
  set lo := ⌊p * ((G.length : ℝ) - 1)⌋₊ with hlodef
  refine ⟨lo, min (lo + 1) (G.length - 1), by omega, by omega, hf1, hf2, by omega, by omega, ?_⟩
  have e : percentile G p = (srt G)[lo]'(by omega) + (p * ((G.length : ℝ) - 1) - lo) *
      ((srt G)[min (lo + 1) (G.length - 1)]'(by omega) - (srt G)[lo]'(by omega)) := by
    unfold percentile
    simp only
    rw [← hlodef]
    change (srt G).getD lo 0 + _ * ((srt G).getD _ 0 - (srt G).getD lo 0) = _
    rw [List.getD_eq_getElem _ _ (by omega), List.getD_eq_getElem _ _ (by omega)]
  have hm := srt_mono G (show lo ≤ min (lo + 1) (G.length - 1) by omega) (by omega)
  rw [e]
  constructor <;> nlinarith

theorem percentile_le (hp : 0 < p) (hp1 : p < 1) (hG : G ≠ []) {B : ℝ} (h : ∀ g ∈ G, g ≤ B) : percentile G p ≤ B := by
  obtain ⟨lo, hi, hlo, hhi, -, -, -, -, -, h2⟩ := percentile_bounds hp hp1 hG
  exact h2.trans (h _ ((srt_perm G).mem_iff.1 (List.getElem_mem _)))

theorem lt_percentile (hp : 0 < p) (hp1 : p < 1) (hG : G ≠ []) {b : ℝ} (h : ∀ g ∈ G, b < g) : b < percentile G p := by
  obtain ⟨lo, hi, hlo, hhi, -, -, -, -, h1, -⟩ := percentile_bounds hp hp1 hG
  exact lt_of_lt_of_le (h _ ((srt_perm G).mem_iff.1 (List.getElem_mem _))) h1

open Classical in
theorem count_le_percentile (hp : 0 < p) (hp1 : p < 1) (hG : G ≠ []) :
    p * ((G.length : ℝ) - 1) < (G.filter (fun g => g ≤ percentile G p)).length := by
  obtain ⟨lo, hi, hlo, hhi, h1, h2, -, -, h3, -⟩ := percentile_bounds hp hp1 hG
  have hperm := ((srt_perm G).filter (fun g => decide (g ≤ percentile G p))).length_eq
  rw [← hperm]
  have hsub : List.Sublist ((srt G).take (lo + 1)) ((srt G).filter (fun g => decide (g ≤ percentile G p))) := by
    have : ((srt G).take (lo + 1)).filter (fun g => decide (g ≤ percentile G p)) = (srt G).take (lo + 1) := by
      rw [List.filter_eq_self]
      intro g hg
      obtain ⟨i, hi, rfl⟩ := List.getElem_of_mem hg
      rw [List.length_take] at hi
      rw [List.getElem_take, decide_eq_true_eq]
      exact (srt_mono G (show i ≤ lo by omega) hlo).trans h3
    rw [← this]
    exact (List.take_sublist _ _).filter _
  have hl := hsub.length_le
  rw [List.length_take, min_eq_left (by omega)] at hl
  have : ((lo + 1 : ℕ) : ℝ) ≤ ((srt G).filter (fun g => decide (g ≤ percentile G p))).length := by exact_mod_cast hl
  push_cast at this
  linarith

open Classical in
theorem count_lt_percentile (hp : 0 < p) (hp1 : p < 1) (hG : G ≠ []) :
    ((G.filter (fun g => g < percentile G p)).length : ℝ) ≤ p * ((G.length : ℝ) - 1) + 1 := by
  obtain ⟨lo, hi, hlo, hhi, h1, h2, h3, h4, h5, h6⟩ := percentile_bounds hp hp1 hG
  have hperm := ((srt_perm G).filter (fun g => decide (g < percentile G p))).length_eq
  rw [← hperm]
  have hd : ((srt G).drop hi).filter (fun g => decide (g < percentile G p)) = [] := by
    rw [List.filter_eq_nil_iff]
    intro g hg
    obtain ⟨i, hi', rfl⟩ := List.getElem_of_mem hg
    rw [List.length_drop] at hi'
    rw [List.getElem_drop, decide_eq_true_eq, not_lt]
    exact h6.trans (srt_mono G (show hi ≤ hi + i by omega) (by omega))
  have hle : ((srt G).filter (fun g => decide (g < percentile G p))).length ≤ hi := by
    rw [← List.take_append_drop hi (srt G), List.filter_append, hd, List.append_nil]
    exact (List.length_filter_le _ _).trans (by rw [List.length_take]; omega)
  have h7 : (((srt G).filter (fun g => decide (g < percentile G p))).length : ℝ) ≤ (lo + 1 : ℕ) := by
    exact_mod_cast hle.trans h4
  push_cast at h7
  linarith

end

/-! Sampling -/

/-- A sample recorded with its value. -/
def Good (t : Mats n) (marg : Fin n → Marginal) (f : (Fin n → ℝ) → ℝ) (y : ℝ) (p : Sample n) : Prop :=
  p.2 = f (uToX t marg p.1) ∧ p.2 ≤ y

/-- Something that evaluations accumulate: the number of points evaluated so far. -/
def Counts (ev : Evaluator σ n) (P : σ → Prop) (Q : ℕ → σ → Prop) : Prop :=
  ∀ k s s' xs Gs, P s → Q k s → ev.values s xs = (s', .ok Gs) → Q (k + xs.length) s'

section
variable {t : Mats n} {marg : Fin n → Marginal} {ev : Evaluator σ n} {P : σ → Prop} {f : (Fin n → ℝ) → ℝ}
  {Q : ℕ → σ → Prop} {sigma y : ℝ} {υ : ℕ → ℝ}

theorem move_spec (hev : Values ev P f) (hQ : Counts ev P Q) {cur : Sample n} (hc : Good t marg f y cur) {pos : ℕ}
    {s : σ} (hP : P s) {k : ℕ} (hq : Q k s) : ∃ cur' s', move t marg ev sigma y υ cur pos s = .ok (cur', pos + 2 * n, s') ∧
      Good t marg f y cur' ∧ P s' ∧ Q (k + 1) s' := by
  obtain ⟨s', hv, hP'⟩ := hev s hP [uToX t marg (proposal sigma υ pos cur.1)]
  have hv' : ev.values s [uToX t marg (proposal sigma υ pos cur.1)] =
      (s', .ok [f (uToX t marg (proposal sigma υ pos cur.1))]) := hv
  unfold move
  simp only [hv']
  refine ⟨_, s', rfl, ?_, hP', hQ _ _ _ _ _ hP hq hv⟩
  by_cases h : ([f (uToX t marg (proposal sigma υ pos cur.1))].headD 0) ≤ y
  · rw [if_pos h]; exact ⟨rfl, h⟩
  · rw [if_neg h]; exact hc

theorem chain_spec (hev : Values ev P f) (hQ : Counts ev P Q) : ∀ (m : ℕ) {cur : Sample n}, Good t marg f y cur → ∀ {pos : ℕ}
    {s : σ}, P s → ∀ {k : ℕ}, Q k s → ∃ l pos' s', chain t marg ev sigma y υ m cur pos s = .ok (l, pos', s') ∧
      l.length = m ∧ (∀ p ∈ l, Good t marg f y p) ∧ P s' ∧ Q (k + m) s'
  | 0, cur, _, pos, s, hP, k, hq => ⟨[], pos, s, rfl, rfl, by simp, hP, hq⟩
  | m + 1, cur, hc, pos, s, hP, k, hq => by
    obtain ⟨cur', s', h1, h2, h3, h4⟩ := move_spec (sigma := sigma) (υ := υ) hev hQ hc (pos := pos) hP hq
    obtain ⟨l, pos', s'', h5, h6, h7, h8, h9⟩ := chain_spec hev hQ m h2 (pos := pos + 2 * n) h3 h4
    refine ⟨cur' :: l, pos', s'', ?_, by simp [h6], ?_, h8, ?_⟩
    · unfold chain; simp only [h1, h5]
    · intro p hp
      rcases List.mem_cons.1 hp with h | h
      · exact h ▸ h2
      · exact h7 p h
    · rw [show k + (m + 1) = k + 1 + m by ring]; exact h9

theorem chains_spec (hev : Values ev P f) (hQ : Counts ev P Q) (base rem : ℕ) : ∀ (seeds : List (Sample n)) (i : ℕ),
    (∀ p ∈ seeds, Good t marg f y p) → ∀ {pos : ℕ} {s : σ}, P s → ∀ {k : ℕ}, Q k s →
    ∃ ls pos' s', chains t marg ev sigma y υ base rem i seeds pos s = .ok (ls, pos', s') ∧
      ls.map List.length = (List.range seeds.length).map (fun j => base + if i + j < rem then 1 else 0) ∧
      (∀ l ∈ ls, ∀ p ∈ l, Good t marg f y p) ∧ P s' ∧ Q (k + ls.flatten.length) s'
  | [], i, _, pos, s, hP, k, hq => ⟨[], pos, s, rfl, rfl, by simp, hP, by simpa using hq⟩
  | seed :: seeds, i, hs, pos, s, hP, k, hq => by
    obtain ⟨l, pos', s', h1, h2, h3, h4, h5⟩ := chain_spec (sigma := sigma) (υ := υ) hev hQ
      (base + if i < rem then 1 else 0) (hs seed (by simp)) (pos := pos) hP hq
    obtain ⟨ls, pos'', s'', h6, h7, h8, h9, h10⟩ := chains_spec hev hQ base rem seeds (i + 1)
      (fun p hp => hs p (by simp [hp])) (pos := pos') h4 h5
    refine ⟨l :: ls, pos'', s'', ?_, ?_, ?_, h9, ?_⟩
    · unfold chains; simp only [h1, h6]
    · rw [List.map_cons, h2, h7, List.length_cons, List.range_succ_eq_map, List.map_cons, List.map_map]
      simp only [Nat.add_zero, Function.comp_def, Nat.succ_eq_add_one]
      congr 1
      apply List.map_congr_left
      intro j _
      rw [show i + 1 + j = i + (j + 1) by ring]
    · intro l' hl'
      rcases List.mem_cons.1 hl' with h | h
      · exact h ▸ h3
      · exact h8 l' h
    · rw [List.flatten_cons, List.length_append, h2, ← Nat.add_assoc]; exact h10

theorem sum_lengths (N m : ℕ) (hm : 0 < m) :
    ((List.range m).map (fun j => N / m + if 0 + j < N - N / m * m then 1 else 0)).sum = N := by
  have hr : N - N / m * m = N % m := by
    have := Nat.div_add_mod N m
    rw [Nat.mul_comm]; omega
  rw [hr]
  have hlt := Nat.mod_lt N hm
  have key : ∀ (b r m : ℕ), ((List.range m).map (fun j => b + if 0 + j < r then 1 else 0)).sum = m * b + min r m := by
    intro b r m
    induction m with
    | zero => simp
    | succ m ih =>
      rw [List.range_succ, List.map_append, List.sum_append, ih, Nat.succ_mul]
      simp only [List.map_cons, List.map_nil, List.sum_cons, List.sum_nil, Nat.zero_add]
      split_ifs <;> omega
  rw [key, min_eq_left hlt.le]
  exact Nat.div_add_mod N m

/-- One level: `N` samples, all good, chain lengths as even as possible. -/
theorem mmhStep_spec (hev : Values ev P f) (hQ : Counts ev P Q) (N : ℕ) {seeds : List (Sample n)} (hne : seeds ≠ [])
    (hs : ∀ p ∈ seeds, Good t marg f y p) {pos : ℕ} {s : σ} (hP : P s) {k : ℕ} (hq : Q k s) :
    ∃ ls pos' s', mmhStep t marg ev sigma y υ N seeds pos s = .ok (ls, pos', s') ∧
      ls.map List.length = (List.range seeds.length).map (fun j => N / seeds.length +
        if j < N % seeds.length then 1 else 0) ∧
      ls.flatten.length = N ∧ (∀ p ∈ ls.flatten, Good t marg f y p) ∧ P s' ∧ Q (k + N) s' := by
  have hl : 0 < seeds.length := List.length_pos_iff.2 hne
  obtain ⟨ls, pos', s', h1, h2, h3, h4, h5⟩ := chains_spec (sigma := sigma) (υ := υ) hev hQ (N / seeds.length)
    (N - N / seeds.length * seeds.length) seeds 0 hs (pos := pos) hP hq
  have hlen : ls.flatten.length = N := by rw [List.length_flatten, h2, sum_lengths N _ hl]
  have hr : N - N / seeds.length * seeds.length = N % seeds.length := by
    have := Nat.div_add_mod N seeds.length
    rw [Nat.mul_comm]; omega
  refine ⟨ls, pos', s', ?_, ?_, hlen, ?_, h4, by rw [← hlen]; exact h5⟩
  · unfold mmhStep; rw [if_neg (by omega)]; exact h1
  · rw [h2, hr]; simp only [Nat.zero_add]
  · intro p hp
    obtain ⟨l, hl, hp⟩ := List.mem_flatten.1 hp
    exact h3 l hl p hp

theorem evalBatch_spec (hev : Values ev P f) (hQ : Counts ev P Q) {block : ℕ} (hb : 1 ≤ block) : ∀ (fuel : ℕ)
    (us : List (Fin n → ℝ)), us.length ≤ fuel → ∀ {s : σ}, P s → ∀ {k : ℕ}, Q k s →
    ∃ s', evalBatch t marg ev block fuel us s = .ok (us.map (fun u => f (uToX t marg u)), s') ∧ P s' ∧
      Q (k + us.length) s'
  | fuel, [], _, s, hP, k, hq => ⟨s, by cases fuel <;> (unfold evalBatch; rw [if_neg (by omega)]; rfl), hP, hq⟩
  | 0, u :: us, h, _, _, _, _ => by simp at h
  | fuel + 1, u :: us, h, s, hP, k, hq => by
    obtain ⟨s', hv, hP'⟩ := hev s hP (((u :: us).take block).map (uToX t marg))
    obtain ⟨s'', h1, h2, h3⟩ := evalBatch_spec hev hQ hb fuel ((u :: us).drop block)
      (by rw [List.length_drop]; simp only [List.length_cons] at h ⊢; omega) hP' (hQ _ _ _ _ _ hP hq hv)
    refine ⟨s'', ?_, h2, ?_⟩
    · unfold evalBatch
      rw [if_neg (by omega)]
      simp only [hv, h1, List.map_map]
      change Except.ok (List.map (fun u => f (uToX t marg u)) _ ++ _, s'') = _
      rw [← List.map_append, List.take_append_drop]
    · rw [List.length_map, Nat.add_assoc, ← List.length_append, List.take_append_drop] at h3
      exact h3

end
end Pystra.Subset
