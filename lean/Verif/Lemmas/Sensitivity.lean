import Verif.Model.Sensitivity
import Verif.Props.Correlation
import Mathlib.Analysis.Calculus.Deriv.Slope
import Mathlib.Analysis.Calculus.Deriv.Mul

/-! Helper lemmas for the sensitivity analysis. -/

namespace Pystra.Sensitivity
open Transformation Matrix Filter Topology

variable {n : ℕ}

theorem mem_pairs {i j : Fin n} : (i, j) ∈ pairs n ↔ j < i := by
  unfold pairs
  simp only [List.mem_flatMap, List.mem_finRange, true_and, List.mem_map, List.mem_filter, decide_eq_true_eq, Prod.mk.injEq]
  constructor
  · rintro ⟨a, b, h, rfl, rfl⟩; exact h
  · intro h; exact ⟨i, j, h, rfl, rfl⟩

theorem grid_ok (dist : Fin n → Dist) (R : Matrix (Fin n) (Fin n) ℝ) (i j : Fin n) :
    grid dist R i j = .ok (Props.gridOf (R i j) (dist i).marg (dist j).marg) := Props.gridOf_eq _ _ _

theorem setSym_apply (A : Matrix (Fin n) (Fin n) ℝ) (i j : Fin n) (v : ℝ) (a b : Fin n) :
    setSym A i j v a b = if (a = i ∧ b = j) ∨ (a = j ∧ b = i) then v else A a b := by
  unfold setSym setEntry
  split_ifs <;> tauto

/-- The loop over the pairs fills in both triangles and nothing else. -/
theorem corrLoop_eq (dist : Fin n → Dist) (R Ro : Matrix (Fin n) (Fin n) ℝ) (t : Mats n) (alpha u : Fin n → ℝ)
    (l : List (Fin n × Fin n)) (hl : ∀ p ∈ l, p.2 < p.1) (C : Matrix (Fin n) (Fin n) ℝ) :
    ∃ C', corrLoop dist R Ro t alpha u l C = .ok C' ∧ ∀ a b, C' a b =
      if (a, b) ∈ l then corrOne dist Ro t alpha u (Props.gridOf (R a b) (dist a).marg (dist b).marg) a b
      else if (b, a) ∈ l then corrOne dist Ro t alpha u (Props.gridOf (R b a) (dist b).marg (dist a).marg) b a
      else C a b := by
  induction l generalizing C with
  | nil => exact ⟨C, rfl, fun a b => by simp⟩
  | cons p l ih =>
    obtain ⟨i, j⟩ := p
    have hij : j < i := hl (i, j) (by simp)
    obtain ⟨C', h1, h2⟩ := ih (fun p hp => hl p (by simp [hp]))
      (setSym C i j (corrOne dist Ro t alpha u (Props.gridOf (R i j) (dist i).marg (dist j).marg) i j))
    refine ⟨C', by unfold corrLoop; rw [grid_ok]; exact h1, fun a b => ?_⟩
    rw [h2, setSym_apply]
    simp only [List.mem_cons, Prod.mk.injEq]
    by_cases hab : (a, b) ∈ l
    · simp [hab]
    by_cases hba : (b, a) ∈ l
    · have : ¬ (a = i ∧ b = j) := by
        rintro ⟨rfl, rfl⟩
        exact absurd (hl (b, a) (by simp [hba])) (not_lt.2 hij.le)
      simp [hab, hba, this]
    · by_cases e1 : a = i ∧ b = j
      · obtain ⟨rfl, rfl⟩ := e1
        simp [hab, hba]
      · by_cases e2 : a = j ∧ b = i
        · obtain ⟨rfl, rfl⟩ := e2
          simp [hab, hba, hij.ne]
        · have e3 : ¬ (b = i ∧ a = j) := fun h => e2 ⟨h.2, h.1⟩
          simp [hab, hba, e1, e2, e3]

/-- The pairs `_compute_dR0_dtheta` leaves at zero. -/
def Skip (R Ro : Matrix (Fin n) (Fin n) ℝ) (k i j : Fin n) : Prop :=
  (k ≠ i ∧ k ≠ j) ∨ (|Ro i j - R i j| < 1e-12 ∧ |R i j| < 1e-12)

open Classical in
theorem dR0Loop_eq (dist : Fin n → Dist) (R Ro : Matrix (Fin n) (Fin n) ℝ) (k : Fin n) (param : String) {dF : ℝ → ℝ}
    {dmu dsig : ℝ} (hF : (dist k).dFParam param = .ok dF) (hm : (dist k).dmoments param = .ok (dmu, dsig))
    (l : List (Fin n × Fin n)) (hl : ∀ p ∈ l, p.2 < p.1) (A : Matrix (Fin n) (Fin n) ℝ) :
    ∃ A', dR0Loop dist R Ro k param l A = .ok A' ∧ ∀ a b, A' a b =
      if (a, b) ∈ l ∧ ¬ Skip R Ro k a b then Integration.drho0Dtheta (Ro a b) (dist a).marg (dist b).marg
          (Props.gridOf (R a b) (dist a).marg (dist b).marg) (decide (k = a)) dF dmu dsig
      else if (b, a) ∈ l ∧ ¬ Skip R Ro k b a then Integration.drho0Dtheta (Ro b a) (dist b).marg (dist a).marg
          (Props.gridOf (R b a) (dist b).marg (dist a).marg) (decide (k = b)) dF dmu dsig
      else A a b := by
  induction l generalizing A with
  | nil => exact ⟨A, rfl, fun a b => by simp⟩
  | cons p l ih =>
    obtain ⟨i, j⟩ := p
    have hij : j < i := hl (i, j) (by simp)
    have hl' : ∀ p ∈ l, p.2 < p.1 := fun p hp => hl p (by simp [hp])
    by_cases hs : Skip R Ro k i j
    · obtain ⟨A', h1, h2⟩ := ih hl' A
      refine ⟨A', ?_, fun a b => ?_⟩
      · unfold dR0Loop
        rcases hs with h | h
        · rw [if_pos h]; exact h1
        · split_ifs <;> exact h1
      · rw [h2]
        simp only [List.mem_cons, Prod.mk.injEq]
        have e1 : ((a = i ∧ b = j) ∨ (a, b) ∈ l) ∧ ¬ Skip R Ro k a b ↔ (a, b) ∈ l ∧ ¬ Skip R Ro k a b := by
          constructor
          · rintro ⟨⟨rfl, rfl⟩ | h, h'⟩
            · exact absurd hs h'
            · exact ⟨h, h'⟩
          · exact fun h => ⟨Or.inr h.1, h.2⟩
        have e2 : ((b = i ∧ a = j) ∨ (b, a) ∈ l) ∧ ¬ Skip R Ro k b a ↔ (b, a) ∈ l ∧ ¬ Skip R Ro k b a := by
          constructor
          · rintro ⟨⟨rfl, rfl⟩ | h, h'⟩
            · exact absurd hs h'
            · exact ⟨h, h'⟩
          · exact fun h => ⟨Or.inr h.1, h.2⟩
        simp only [e1, e2]
    · obtain ⟨A', h1, h2⟩ := ih hl' (setSym A i j (Integration.drho0Dtheta (Ro i j) (dist i).marg (dist j).marg
        (Props.gridOf (R i j) (dist i).marg (dist j).marg) (decide (k = i)) dF dmu dsig))
      refine ⟨A', ?_, fun a b => ?_⟩
      · unfold dR0Loop
        rw [if_neg (fun h => hs (Or.inl h)), if_neg (fun h => hs (Or.inr h)), grid_ok, hF, hm]
        exact h1
      · rw [h2, setSym_apply]
        simp only [List.mem_cons, Prod.mk.injEq]
        by_cases hab : (a, b) ∈ l ∧ ¬ Skip R Ro k a b
        · simp [hab]
        by_cases hba : (b, a) ∈ l ∧ ¬ Skip R Ro k b a
        · have : ¬ (a = i ∧ b = j) := by
            rintro ⟨rfl, rfl⟩
            exact absurd (hl (b, a) (by simp [hba])) (not_lt.2 hij.le)
          rw [if_neg hab, if_pos hba, if_neg (by rintro ⟨h | h, h'⟩; exacts [this h, hab ⟨h, h'⟩]),
            if_pos ⟨Or.inr hba.1, hba.2⟩]
        · rw [if_neg hab, if_neg hba]
          by_cases e1 : a = i ∧ b = j
          · obtain ⟨rfl, rfl⟩ := e1
            simp [hs]
          · by_cases e2 : a = j ∧ b = i
            · obtain ⟨rfl, rfl⟩ := e2
              simp only [hij.ne, hij.ne', false_and, true_and, and_self, or_true, true_or, if_true, hs, not_false_eq_true]
              rw [if_neg]
              rintro ⟨h, h'⟩
              simp only [false_or] at h
              exact hab ⟨h, h'⟩
            · have e3 : ¬ (b = i ∧ a = j) := fun h => e2 ⟨h.2, h.1⟩
              rw [if_neg (by tauto), if_neg, if_neg]
              · rintro ⟨h | h, h'⟩
                exacts [e3 h, hba ⟨h, h'⟩]
              · rintro ⟨h | h, h'⟩
                exacts [e1 h, hab ⟨h, h'⟩]

/-- A product of a function that vanishes at the point and a continuous one. -/
theorem hasDerivAt_mul_cont {h c : ℝ → ℝ} {h' x : ℝ} (hh : HasDerivAt h h' x) (h0 : h x = 0) (hc : ContinuousAt c x) :
    HasDerivAt (fun s => h s * c s) (h' * c x) x := by
  rw [hasDerivAt_iff_tendsto_slope] at hh ⊢
  have : Tendsto (fun s => slope h x s * c s) (𝓝[≠] x) (𝓝 (h' * c x)) := hh.mul (hc.tendsto.mono_left nhdsWithin_le_nhds)
  refine this.congr fun s => ?_
  simp only [slope_def_field, h0, zero_mul, sub_zero]
  ring

/-- If `u = β α` with unit vectors `α` depending continuously on the parameter, then `β' = α·u'`. -/
theorem beta_hasDerivAt {u α : ℝ → Fin n → ℝ} {β : ℝ → ℝ} {θ : ℝ} {u' : Fin n → ℝ}
    (hu : ∀ i, HasDerivAt (fun s => u s i) (u' i) θ) (hua : ∀ᶠ s in 𝓝 θ, u s = β s • α s ∧ α s ⬝ᵥ α s = 1)
    (hα : ∀ i, ContinuousAt (fun s => α s i) θ) : HasDerivAt β (α θ ⬝ᵥ u') θ := by
  have hb : ∀ᶠ s in 𝓝 θ, β s = α s ⬝ᵥ u s := by
    filter_upwards [hua] with s ⟨h1, h2⟩
    rw [h1, dotProduct_smul, h2, smul_eq_mul, mul_one]
  by_cases h0 : β θ = 0
  · have hu0 : ∀ i, u θ i = 0 := by
      intro i
      rw [hua.self_of_nhds.1, h0]; simp
    have : HasDerivAt (fun s => ∑ i, u s i * α s i) (∑ i, u' i * α θ i) θ :=
      HasDerivAt.fun_sum fun i _ => hasDerivAt_mul_cont (hu i) (hu0 i) (hα i)
    refine (this.congr_of_eventuallyEq ?_).congr_deriv ?_
    · filter_upwards [hb] with s hs
      rw [hs, dotProduct]
      exact Finset.sum_congr rfl fun i _ => mul_comm _ _
    · rw [dotProduct]
      exact Finset.sum_congr rfl fun i _ => mul_comm _ _
  · have hcont : ContinuousAt β θ := by
      have : ContinuousAt (fun s => α s ⬝ᵥ u s) θ := by
        simp only [dotProduct]
        exact tendsto_finsetSum _ fun i _ => ((hα i).mul (hu i).continuousAt)
      exact this.congr (hb.mono fun s hs => hs.symm)
    have hsq : ∀ᶠ s in 𝓝 θ, u s ⬝ᵥ u s = β s ^ 2 := by
      filter_upwards [hua] with s ⟨h1, h2⟩
      rw [h1, dotProduct_smul, smul_dotProduct, h2]; simp [sq]
    have hf : HasDerivAt (fun s => u s ⬝ᵥ u s - β θ ^ 2) (2 * (u θ ⬝ᵥ u')) θ := by
      have : HasDerivAt (fun s => ∑ i, u s i * u s i) (∑ i, (u' i * u θ i + u θ i * u' i)) θ :=
        HasDerivAt.fun_sum fun i _ => (hu i).mul (hu i)
      refine (this.sub_const _).congr_deriv ?_
      rw [dotProduct, Finset.mul_sum]
      exact Finset.sum_congr rfl fun i _ => by ring
    have hne : ∀ᶠ s in 𝓝 θ, β s + β θ ≠ 0 := by
      have : ContinuousAt (fun s => β s + β θ) θ := hcont.add continuousAt_const
      refine this.eventually_ne ?_
      intro h; apply h0; linarith
    have hc : ContinuousAt (fun s => (β s + β θ)⁻¹) θ := (hcont.add continuousAt_const).inv₀ hne.self_of_nhds
    have h1 := hasDerivAt_mul_cont hf (by beta_reduce; rw [hsq.self_of_nhds]; ring) hc
    have h2 := h1.add_const (β θ)
    refine (h2.congr_of_eventuallyEq ?_).congr_deriv ?_
    · filter_upwards [hsq, hne] with s h1 h2
      rw [h1]
      field_simp
      ring
    · rw [hua.self_of_nhds.1, smul_dotProduct, smul_eq_mul]
      have : β θ + β θ ≠ 0 := hne.self_of_nhds
      field_simp
      ring

end Pystra.Sensitivity
