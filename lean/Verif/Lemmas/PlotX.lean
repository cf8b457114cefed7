import Verif.Model.MonteCarloObject
import Mathlib.Tactic.Linarith
import Mathlib.Tactic.Ring

/-! Which points the plots of a simulation show. -/

namespace Pystra.McObj

theorem gather_ok {α : Type} (a : List α) (d : α) : ∀ l : List ℕ, (∀ i ∈ l, i < a.length) → gather a l = .ok (l.map (fun i => a.getD i d)) := by
  intro l
  induction l with
  | nil => intro _; rfl
  | cons i is ih =>
    intro h
    have hi : i < a.length := h i List.mem_cons_self
    rw [gather, ih (fun j hj => h j (List.mem_cons_of_mem _ hj)), List.getElem?_eq_getElem hi]
    simp [Except.map, List.getD, List.getElem?_eq_getElem hi]

theorem zip_map_self {α β : Type} (f : α → β) (l : List α) : l.zip (l.map f) = l.map (fun x => (x, f x)) := by
  induction l with
  | nil => rfl
  | cons a l ih => simp [ih]

/-- The points before thinning. -/
def rawX (k b : ℕ) : List ℕ := (List.range ((k + b - 1) / b)).map (fun i => if i = 0 then 1 else i * b)

theorem rawX_length (k b : ℕ) : (rawX k b).length = (k + b - 1) / b := by simp [rawX]

theorem ceil_lt {k b i : ℕ} (hb : 1 ≤ b) : i < (k + b - 1) / b ↔ i * b < k := by
  rw [Nat.lt_iff_add_one_le, Nat.le_div_iff_mul_le (by omega)]
  have : (i + 1) * b = i * b + b := by ring
  omega

theorem plotX_eq (k b : ℕ) : plotX k b = if 200 * b < k then
    (List.range (((rawX k b).length + round200 (rawX k b).length - 1) / round200 (rawX k b).length)).map
      (fun i => (rawX k b).getD (i * round200 (rawX k b).length) 0) else rawX k b := rfl

theorem rawX_getElem {k b i : ℕ} (hb : 1 ≤ b) (hi : i * b < k) : (rawX k b)[i]? = some (if i = 0 then 1 else i * b) := by
  have := (ceil_lt (k := k) hb).2 hi
  simp [rawX, this]

theorem round200_pos {m : ℕ} (h : 200 ≤ m) : 1 ≤ round200 m := by
  unfold round200
  split
  · omega
  · split
    · omega
    · split <;> omega

theorem round200_close (m : ℕ) : 200 * round200 m ≤ m + 100 ∧ m ≤ 200 * round200 m + 100 := by
  unfold round200
  split
  · omega
  · split
    · omega
    · split <;> omega

theorem round200_one {m : ℕ} (h : round200 m = 1) : m ≤ 299 := by
  unfold round200 at h
  split at h
  · omega
  · split at h
    · omega
    · split at h <;> omega

theorem rawX_len_big {k b : ℕ} (hb : 1 ≤ b) (hk : 200 * b < k) : 200 < (rawX k b).length := by
  rw [rawX_length, ceil_lt hb]; exact hk

/-- The step of the thinning: 1 when there is none. -/
def stride (k b : ℕ) : ℕ := if 200 * b < k then round200 (rawX k b).length else 1

theorem stride_pos {k b : ℕ} (hb : 1 ≤ b) : 1 ≤ stride k b := by
  unfold stride
  split
  · rename_i h; exact round200_pos (rawX_len_big hb h).le
  · exact le_rfl

/-- The points: the multiples of `stride * b` below `k`, the first of them replaced by 1. -/
theorem plotX_spec {k b : ℕ} (hb : 1 ≤ b) : plotX k b =
    (List.range ((k + stride k b * b - 1) / (stride k b * b))).map (fun i => if i = 0 then 1 else i * (stride k b * b)) := by
  have hs := stride_pos (k := k) hb
  rw [plotX_eq]
  by_cases h : 200 * b < k
  · have hst : stride k b = round200 (rawX k b).length := by unfold stride; rw [if_pos h]
    rw [if_pos h, ← hst]
    obtain ⟨s, hs'⟩ : ∃ s, s = stride k b := ⟨_, rfl⟩
    rw [← hs'] at hs ⊢
    have hsb : 1 ≤ s * b := Nat.mul_pos hs hb
    have hlen : ((rawX k b).length + s - 1) / s = (k + s * b - 1) / (s * b) := by
      apply eq_of_forall_lt_iff
      intro i
      rw [ceil_lt hs, ceil_lt hsb, rawX_length, ceil_lt hb, Nat.mul_assoc]
    rw [hlen]
    apply List.map_congr_left
    intro i hi
    rw [List.mem_range, ceil_lt hsb] at hi
    rw [List.getD, rawX_getElem hb (by rw [Nat.mul_assoc]; exact hi)]
    by_cases h0 : i = 0
    · simp [h0]
    · have : i * s ≠ 0 := Nat.mul_ne_zero h0 (by omega)
      simp only [Option.getD_some, if_neg h0, if_neg this]
      ring
  · have hst : stride k b = 1 := by unfold stride; rw [if_neg h]
    rw [if_neg h, hst, Nat.one_mul]
    rfl

theorem plotX_mem {k b x : ℕ} (hb : 1 ≤ b) (hk : 1 ≤ k) (hx : x ∈ plotX k b) : x = 1 ∨ (b ∣ x ∧ 1 ≤ x ∧ x < k) := by
  rw [plotX_spec hb] at hx
  obtain ⟨i, hi, rfl⟩ := List.mem_map.1 hx
  have hsb : 1 ≤ stride k b * b := Nat.mul_pos (stride_pos hb) hb
  rw [List.mem_range, ceil_lt hsb] at hi
  by_cases h0 : i = 0
  · left; simp [h0]
  · right
    rw [if_neg h0]
    exact ⟨⟨i * stride k b, by ring⟩, Nat.mul_pos (by omega) hsb, hi⟩

theorem plotX_le {k b x : ℕ} (hb : 1 ≤ b) (hk : 1 ≤ k) (hx : x ∈ plotX k b) : 1 ≤ x ∧ x ≤ k := by
  rcases plotX_mem hb hk hx with h | ⟨-, h1, h2⟩ <;> omega

theorem plotX_length {k b : ℕ} (hb : 1 ≤ b) (hk : 1 ≤ k) : 1 ≤ (plotX k b).length ∧ (plotX k b).length ≤ 299 := by
  have hsb : 1 ≤ stride k b * b := Nat.mul_pos (stride_pos hb) hb
  rw [plotX_spec hb]
  simp only [List.length_map, List.length_range]
  refine ⟨(ceil_lt hsb).2 (by simp; omega), ?_⟩
  by_contra hcon
  have h1 : 299 < (k + stride k b * b - 1) / (stride k b * b) := by omega
  rw [ceil_lt hsb] at h1
  by_cases h : 200 * b < k
  · have hst : stride k b = round200 (rawX k b).length := by unfold stride; rw [if_pos h]
    have hlen : 299 * stride k b < (rawX k b).length := by
      rw [rawX_length, ceil_lt hb, Nat.mul_assoc]; exact h1
    have h2 := (round200_close (rawX k b).length).2
    have h3 := stride_pos (k := k) hb
    rw [hst] at hlen h3
    rcases Nat.lt_or_ge 1 (round200 (rawX k b).length) with h4 | h4
    · omega
    · have := round200_one (show round200 (rawX k b).length = 1 by omega)
      omega
  · have hst : stride k b = 1 := by unfold stride; rw [if_neg h]
    rw [hst, Nat.one_mul] at h1
    omega

theorem plotX_head {k b : ℕ} (hb : 1 ≤ b) (hk : 1 ≤ k) : (plotX k b).head? = some 1 := by
  have hsb : 1 ≤ stride k b * b := Nat.mul_pos (stride_pos hb) hb
  rw [plotX_spec hb]
  have : 0 < (k + stride k b * b - 1) / (stride k b * b) := (ceil_lt hsb).2 (by simp; omega)
  obtain ⟨m, hm⟩ : ∃ m, (k + stride k b * b - 1) / (stride k b * b) = m + 1 := ⟨_, (Nat.succ_pred_eq_of_pos this).symm⟩
  rw [hm, List.range_succ_eq_map]
  simp

theorem plots_ok {k b N : ℕ} (hb : 1 ≤ b) (hbk : b ≤ k) (hk : k ≤ N) {q : List ℝ} {c : List (Option ℝ)} (hq : q.length = N)
    (hc : c.length = N) : ∃ p, plots k b q c = .ok p ∧
      p.cov = (plotX k b).map (fun x => (x, c.getD (x - 1) none)) ∧ p.pf = (plotX k b).map (fun x => (x, q.getD (x - 1) 0)) ∧
      p.limits = ((c.getD (b - 1) none).bind (fun v => open Classical in if v > 0 then some ((k:ℝ) * 1.01, v * 1.1) else none)) := by
  have hidx : ∀ i ∈ (plotX k b).map (· - 1), i < N := by
    intro i hi
    obtain ⟨x, hx, rfl⟩ := List.mem_map.1 hi
    have := plotX_le hb (hb.trans hbk) hx
    omega
  have hcb : c[b - 1]? = some (c.getD (b - 1) none) := by
    have : b - 1 < c.length := by omega
    rw [List.getD, List.getElem?_eq_getElem this]; rfl
  unfold plots
  dsimp only
  rw [gather_ok c none _ (by rw [hc]; exact hidx), gather_ok q 0 _ (by rw [hq]; exact hidx)]
  simp only [hcb]
  refine ⟨_, rfl, ?_, ?_, rfl⟩
  · simp only [List.map_map]
    rw [zip_map_self]; rfl
  · simp only [List.map_map]
    rw [zip_map_self]; rfl

end Pystra.McObj
