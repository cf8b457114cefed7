import Verif.Model.Sorm
import Verif.Props.StdNormal

/-! C46: Breitung's formulas. -/

namespace Pystra.Props
open Sorm

theorem prodPow_pos {ts : List ℝ} (h : ∀ t ∈ ts, 0 < t) : prodPow ts = .fin (ts.map (fun t => t ^ (-0.5 : ℝ))).prod := by
  unfold prodPow
  rw [if_neg (by rintro ⟨t, ht, h1⟩; linarith [h t ht]), if_neg (by rintro ⟨t, ht, h1⟩; linarith [h t ht])]

theorem psi_pos (beta : ℝ) : 0 < psi beta := div_pos (StdNormal.pdf_pos _) (StdNormal.cdf_pos _)

theorem valid_terms {b : ℝ} (hb : 0 < b) {kappa : List ℝ} (h : ∀ k ∈ kappa, -1 / b < k) :
    ∀ t ∈ kappa.map (fun k => 1 + b * k), 0 < t := by
  intro t ht
  obtain ⟨k, hk, rfl⟩ := List.mem_map.1 ht
  have := h k hk
  rw [div_lt_iff₀ hb] at this
  linarith

/-- The probability of Breitung's formula with factor `b`. -/
noncomputable def breitungPf (b beta : ℝ) (kappa : List ℝ) : ℝ :=
  StdNormal.cdf (-beta) * (kappa.map (fun k => 1 / √(1 + b * k))).prod

theorem rpow_neg_half {t : ℝ} (ht : 0 < t) : t ^ (-0.5 : ℝ) = 1 / √t := by
  rw [show (-0.5 : ℝ) = -(1 / 2) by norm_num, Real.rpow_neg ht.le, ← Real.sqrt_eq_rpow, one_div]

theorem prod_rpow {b : ℝ} {kappa : List ℝ} (h : ∀ k ∈ kappa, 0 < 1 + b * k) :
    ((kappa.map (fun k => 1 + b * k)).map (fun t => t ^ (-0.5 : ℝ))).prod = (kappa.map (fun k => 1 / √(1 + b * k))).prod := by
  rw [List.map_map]
  congr 1
  apply List.map_congr_left
  intro k hk
  exact rpow_neg_half (h k hk)

theorem negPpf_spec {p : ℝ} (h0 : 0 < p) (h1 : p < 1) : ∃ b, negPpf (.fin p) = .fin b ∧ StdNormal.cdf (-b) = p :=
  ⟨-StdNormal.ppf p, by simp [negPpf, h0, h1], by rw [neg_neg, StdNormal.cdf_ppf h0 h1]⟩

/-- C46: the curve-fitted results in the valid range.  `Φ(-β) ∏ (1 + β κᵢ)^(-1/2)`, and with `φ(β)/Φ(-β)` in place of `β`
for the modified formula; when the result is a probability below one, the generalised index is its index. -/
theorem C46_curve (beta : ℝ) (kappa : List ℝ) :
    (0 < beta → (∀ k ∈ kappa, -1 / beta < k) →
      (pfBreitung beta kappa).pf = .fin (breitungPf beta beta kappa) ∧ (pfBreitung beta kappa).isArray = true ∧
      (breitungPf beta beta kappa < 1 → ∃ b, (pfBreitung beta kappa).betag = .fin b ∧
        StdNormal.cdf (-b) = breitungPf beta beta kappa)) ∧
    ((∀ k ∈ kappa, -1 / (StdNormal.pdf beta / StdNormal.cdf (-beta)) < k) →
      (pfBreitungM beta kappa).pf = .fin (breitungPf (StdNormal.pdf beta / StdNormal.cdf (-beta)) beta kappa) ∧
      (breitungPf (StdNormal.pdf beta / StdNormal.cdf (-beta)) beta kappa < 1 → ∃ b, (pfBreitungM beta kappa).betag = .fin b ∧
        StdNormal.cdf (-b) = breitungPf (StdNormal.pdf beta / StdNormal.cdf (-beta)) beta kappa)) := by
  have hpos : ∀ b : ℝ, 0 < b → (∀ k ∈ kappa, -1 / b < k) → 0 < breitungPf b beta kappa ∧
      scale (StdNormal.cdf (-beta)) (prodPow (kappa.map (fun k => 1 + b * k))) = .fin (breitungPf b beta kappa) := by
    intro b hb hk
    have ht := valid_terms hb hk
    have ht' : ∀ k ∈ kappa, 0 < 1 + b * k := fun k hk' => ht _ (List.mem_map.2 ⟨k, hk', rfl⟩)
    constructor
    · apply mul_pos (StdNormal.cdf_pos _)
      apply List.prod_pos
      intro x hx
      obtain ⟨k, hk', rfl⟩ := List.mem_map.1 hx
      have := ht' k hk'
      positivity
    · rw [prodPow_pos ht, prod_rpow ht']; rfl
  constructor
  · intro hb hk
    obtain ⟨h1, h2⟩ := hpos beta hb hk
    unfold pfBreitung
    rw [if_neg (by rintro ⟨-, k, hk', h3⟩; exact absurd (hk k hk') (not_lt.2 h3.le))]
    simp only
    rw [h2]
    exact ⟨rfl, trivial, fun h3 => negPpf_spec h1 h3⟩
  · intro hk
    obtain ⟨h1, h2⟩ := hpos (psi beta) (psi_pos beta) hk
    unfold pfBreitungM
    rw [if_neg (by rintro ⟨k, hk', h3⟩; exact absurd (hk k hk') (not_lt.2 h3.le))]
    simp only
    rw [h2]
    exact ⟨rfl, fun h3 => negPpf_spec h1 h3⟩

/-- C46: no curvature: the FORM result, for `beta ≥ 0` (Breitung), for every `beta` (modified and point-fitted). -/
theorem C46_flat (beta : ℝ) (n : ℕ) :
    (0 ≤ beta → (pfBreitung beta (List.replicate n 0)).pf = .fin (StdNormal.cdf (-beta)) ∧
      (pfBreitung beta (List.replicate n 0)).betag = .fin beta) ∧
    ((pfBreitungM beta (List.replicate n 0)).pf = .fin (StdNormal.cdf (-beta)) ∧
      (pfBreitungM beta (List.replicate n 0)).betag = .fin beta) ∧
    ((pfBreitungPf beta (List.replicate n 0) (List.replicate n 0)).pf = .fin (StdNormal.cdf (-beta)) ∧
      (pfBreitungPf beta (List.replicate n 0) (List.replicate n 0)).betag = .fin beta) ∧
    (pfBreitungMPf beta (List.replicate n 0) (List.replicate n 0)).pf = .fin (StdNormal.cdf (-beta)) ∧
      (pfBreitungMPf beta (List.replicate n 0) (List.replicate n 0)).betag = .fin beta := by
  have hb : negPpf (.fin (StdNormal.cdf (-beta))) = .fin beta := by
    simp [negPpf, StdNormal.cdf_pos, StdNormal.cdf_lt_one, StdNormal.ppf_cdf]
  have hp : ∀ b : ℝ, prodPow ((List.replicate n 0).map (fun k => 1 + b * k)) = .fin 1 := by
    intro b
    rw [prodPow_pos]
    · simp
    · intro t ht
      obtain ⟨k, hk, rfl⟩ := List.mem_map.1 ht
      rw [List.eq_of_mem_replicate hk]; norm_num
  have hz : ∀ b : ℝ, (pfAsym b beta (List.replicate n 0) (List.replicate n 0)).pf = .fin (StdNormal.cdf (-beta)) ∧
      (pfAsym b beta (List.replicate n 0) (List.replicate n 0)).betag = .fin beta := by
    intro b
    unfold pfAsym
    rw [if_neg]
    · simp only [List.zipWith_replicate, min_self]
      norm_num
      exact hb
    · rintro (⟨k, hk, h⟩ | ⟨k, hk, h⟩) <;> rw [List.eq_of_mem_replicate hk] at h <;> norm_num at h
  refine ⟨fun h0 => ?_, ?_, hz _, hz _⟩
  · unfold pfBreitung
    rw [if_neg]
    · simp only [hp, scale, mul_one]; exact ⟨trivial, hb⟩
    · rintro ⟨hne, k, hk, h1⟩
      rw [List.eq_of_mem_replicate hk, lt_div_iff₀ (lt_of_le_of_ne h0 (Ne.symm hne))] at h1
      norm_num at h1
  · unfold pfBreitungM
    rw [if_neg]
    · simp only [hp, scale, mul_one]; exact ⟨trivial, hb⟩
    · rintro ⟨k, hk, h1⟩
      rw [List.eq_of_mem_replicate hk, lt_div_iff₀ (psi_pos beta)] at h1
      norm_num at h1

/-- C46: with equal curvatures on both sides the point-fitted formulas are the curve-fitted ones. -/
theorem C46_symmetric (beta : ℝ) (kappa : List ℝ) :
    ((∀ k ∈ kappa, 0 < 1 + beta * k) → 0 ≤ beta →
      (pfBreitungPf beta kappa kappa).pf = (pfBreitung beta kappa).pf ∧
      (pfBreitungPf beta kappa kappa).betag = (pfBreitung beta kappa).betag) ∧
    ((∀ k ∈ kappa, 0 < 1 + psi beta * k) →
      (pfBreitungMPf beta kappa kappa).pf = (pfBreitungM beta kappa).pf ∧
      (pfBreitungMPf beta kappa kappa).betag = (pfBreitungM beta kappa).betag) := by
  have hz : ∀ b : ℝ, (∀ k ∈ kappa, 0 < 1 + b * k) →
      (List.zipWith (fun kp km => 0.5 * ((1 + b * kp) ^ (-0.5 : ℝ) + (1 + b * km) ^ (-0.5 : ℝ))) kappa kappa).prod =
        ((kappa.map (fun k => 1 + b * k)).map (fun t => t ^ (-0.5 : ℝ))).prod := by
    intro b _
    rw [List.zipWith_self, List.map_map]
    congr 1
    apply List.map_congr_left
    intro k _
    simp only [Function.comp]
    ring
  have ht : ∀ b : ℝ, (∀ k ∈ kappa, 0 < 1 + b * k) → ∀ t ∈ kappa.map (fun k => 1 + b * k), 0 < t := by
    intro b h t ht
    obtain ⟨k, hk, rfl⟩ := List.mem_map.1 ht
    exact h k hk
  have hA : ∀ b : ℝ, (∀ k ∈ kappa, 0 < 1 + b * k) →
      pfAsym b beta kappa kappa = ⟨scale (StdNormal.cdf (-beta)) (prodPow (kappa.map (fun k => 1 + b * k))),
        negPpf (scale (StdNormal.cdf (-beta)) (prodPow (kappa.map (fun k => 1 + b * k)))), true⟩ := by
    intro b h
    unfold pfAsym
    rw [if_neg (by rintro (⟨k, hk, h'⟩ | ⟨k, hk, h'⟩) <;> linarith [h k hk]), hz b h, prodPow_pos (ht b h)]
    rfl
  constructor
  · intro h h0
    unfold pfBreitungPf pfBreitung
    rw [hA beta h, if_neg]
    · exact ⟨rfl, rfl⟩
    · rintro ⟨hne, k, hk, h'⟩
      rw [lt_div_iff₀ (lt_of_le_of_ne h0 (Ne.symm hne))] at h'
      linarith [h k hk]
  · intro h
    unfold pfBreitungMPf pfBreitungM
    rw [hA _ h, if_neg]
    · exact ⟨rfl, rfl⟩
    · rintro ⟨k, hk, h'⟩
      rw [lt_div_iff₀ (psi_pos beta)] at h'
      linarith [h k hk]

/-- C46: larger curvatures (further from the failure side) give a smaller failure probability, for both formulas
(`b = beta > 0`, or `b = φ(β)/Φ(-β)`), with strict inequality if some curvature is strictly larger. -/
theorem C46_monotone {b beta : ℝ} (hb : 0 < b) {k1 k2 : List ℝ} (h : List.Forall₂ (· ≤ ·) k1 k2)
    (hv : ∀ k ∈ k1, -1 / b < k) :
    breitungPf b beta k2 ≤ breitungPf b beta k1 ∧ (k1 ≠ k2 → breitungPf b beta k2 < breitungPf b beta k1) := by
  have key : ∀ (k1 k2 : List ℝ), List.Forall₂ (· ≤ ·) k1 k2 → (∀ k ∈ k1, -1 / b < k) →
      0 < (k2.map (fun k => 1 / √(1 + b * k))).prod ∧ 0 < (k1.map (fun k => 1 / √(1 + b * k))).prod ∧
      (k2.map (fun k => 1 / √(1 + b * k))).prod ≤ (k1.map (fun k => 1 / √(1 + b * k))).prod ∧
      (k1 ≠ k2 → (k2.map (fun k => 1 / √(1 + b * k))).prod < (k1.map (fun k => 1 / √(1 + b * k))).prod) := by
    intro k1 k2 h
    induction h with
    | nil => intro _; simp
    | @cons a c l1 l2 hac hl ih =>
      intro hv
      obtain ⟨i1, i2, i3, i4⟩ := ih (fun k hk => hv k (List.mem_cons_of_mem _ hk))
      have ha := hv a List.mem_cons_self
      rw [div_lt_iff₀ hb] at ha
      have ha' : 0 < 1 + b * a := by linarith
      have hc' : 1 + b * a ≤ 1 + b * c := by nlinarith
      have hsa : 0 < √(1 + b * a) := Real.sqrt_pos.2 ha'
      have hsc : √(1 + b * a) ≤ √(1 + b * c) := Real.sqrt_le_sqrt hc'
      have hsc0 : 0 < √(1 + b * c) := lt_of_lt_of_le hsa hsc
      have hle : 1 / √(1 + b * c) ≤ 1 / √(1 + b * a) := one_div_le_one_div_of_le hsa hsc
      simp only [List.map_cons, List.prod_cons]
      refine ⟨by positivity, by positivity, mul_le_mul hle i3 i1.le (by positivity), ?_⟩
      intro hne
      rcases hac.lt_or_eq with h1 | h1
      · have h2 : 1 / √(1 + b * c) < 1 / √(1 + b * a) :=
          one_div_lt_one_div_of_lt hsa (Real.sqrt_lt_sqrt ha'.le (by nlinarith))
        exact mul_lt_mul h2 i3 i1 (by positivity)
      · have h2 : l1 ≠ l2 := fun h => hne (by rw [h1, h])
        exact mul_lt_mul' hle (i4 h2) i1.le (by positivity)
  obtain ⟨-, -, h3, h4⟩ := key k1 k2 h hv
  unfold breitungPf
  exact ⟨mul_le_mul_of_nonneg_left h3 (StdNormal.cdf_pos _).le, fun hne => mul_lt_mul_of_pos_left (h4 hne) (StdNormal.cdf_pos _)⟩

/-- C46: out-of-range curvatures.  For `beta > 0` a curvature below `-1/beta` makes Breitung's formula invalid: both results
are the integer zero, and showing the results (in particular a run with printing enabled) fails with `TypeError`; the
point-fitted version reports the array zero. -/
theorem C46_invalid {beta : ℝ} (hb : 0 < beta) (kappa : List ℝ) (h : ∃ k ∈ kappa, k < -1 / beta) :
    ((pfBreitung beta kappa).pf = .fin 0 ∧ (pfBreitung beta kappa).betag = .fin 0) ∧
    (∀ r : SResult, r.breitung = pfBreitung beta kappa → finish true r = .error .typeError) ∧
    (∀ k2, (pfBreitungPf beta kappa k2).pf = .fin 0 ∧ (pfBreitungPf beta k2 kappa).pf = .fin 0) := by
  have e : pfBreitung beta kappa = ⟨.fin 0, .fin 0, false⟩ := by
    unfold pfBreitung
    rw [if_pos ⟨hb.ne', h⟩]
  refine ⟨by rw [e]; exact ⟨rfl, rfl⟩, ?_, ?_⟩
  · intro r hr
    simp [finish, showResults, hr, e]
  · intro k2
    obtain ⟨k, hk, hlt⟩ := h
    rw [lt_div_iff₀ hb] at hlt
    unfold pfBreitungPf pfAsym
    rw [if_pos (Or.inr ⟨k, hk, by linarith⟩), if_pos (Or.inl ⟨k, hk, by linarith⟩)]
    exact ⟨rfl, rfl⟩

/-- C46 does not hold for a negative index: with `beta < 0` every curvature list that Breitung's formula could use —
all `1 + beta κ > 0` — is rejected, for instance the flat surface; what is accepted gives an infinite or undefined result. -/
theorem C46_negative_index {beta : ℝ} (hb : beta < 0) (kappa : List ℝ) (hne : kappa ≠ []) :
    ((∀ k ∈ kappa, 0 < 1 + beta * k) → (pfBreitung beta kappa).pf = .fin 0 ∧ (pfBreitung beta kappa).isArray = false) ∧
    ((pfBreitung beta kappa).isArray = true → (pfBreitung beta kappa).pf = .nan ∨ (pfBreitung beta kappa).pf = .posInf) := by
  obtain ⟨k0, l, rfl⟩ := List.exists_cons_of_ne_nil hne
  constructor
  · intro h
    have h0 := h k0 List.mem_cons_self
    unfold pfBreitung
    rw [if_pos ⟨hb.ne, k0, List.mem_cons_self, by rw [lt_div_iff_of_neg hb]; linarith⟩]
    exact ⟨rfl, rfl⟩
  · intro h
    unfold pfBreitung at h ⊢
    split_ifs at h ⊢ with h1
    rw [not_and] at h1
    have h2 := h1 hb.ne
    push Not at h2
    simp only
    have h3 := h2 k0 List.mem_cons_self
    rw [div_le_iff_of_neg hb] at h3
    unfold prodPow
    by_cases hneg : ∃ t ∈ (k0 :: l).map (fun k => 1 + beta * k), t < 0
    · rw [if_pos hneg]; left; rfl
    · rw [if_neg hneg, if_pos]
      · right; rfl
      · refine ⟨1 + beta * k0, List.mem_map.2 ⟨k0, List.mem_cons_self, rfl⟩, ?_⟩
        push Not at hneg
        have := hneg (1 + beta * k0) (List.mem_map.2 ⟨k0, List.mem_cons_self, rfl⟩)
        linarith

/-- Concrete values: one curvature 3 at index 1 halves the FORM probability; the curvature -2 is invalid. -/
example : (pfBreitung 1 [3]).pf = .fin (StdNormal.cdf (-1) * (1 / 2)) ∧ (pfBreitung 1 [-2]).pf = .fin 0 := by
  constructor
  · rw [((C46_curve 1 [3]).1 one_pos (by simp; norm_num)).1]
    simp only [breitungPf, List.map_cons, List.map_nil, List.prod_cons, List.prod_nil, mul_one]
    rw [show (1 + 1 * 3 : ℝ) = 2 ^ 2 by norm_num, Real.sqrt_sq (by norm_num)]
  · exact (C46_invalid one_pos [-2] ⟨-2, by simp, by norm_num⟩).1.1

end Pystra.Props
