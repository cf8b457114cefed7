import Mathlib.Probability.Moments.Variance
import Mathlib.Probability.Independence.Integration
import Mathlib.MeasureTheory.Integral.Bochner.Set

/-! Kolmogorov's maximal inequality for sums of independent centred variables. -/

namespace Pystra.Props
open MeasureTheory ProbabilityTheory

variable {Ω : Type*} [MeasurableSpace Ω] {P : Measure Ω} [IsProbabilityMeasure P] {Z : ℕ → Ω → ℝ}

/-- The part of the sample space where the partial sums first reach `a` (in absolute value) at index `j`. -/
def firstAt (Z : ℕ → Ω → ℝ) (a : ℝ) (j : ℕ) : Set Ω :=
  {ω | a ≤ |∑ i ∈ Finset.range j, Z i ω| ∧ ∀ k < j, |∑ i ∈ Finset.range k, Z i ω| < a}

theorem measurableSet_firstAt (hm : ∀ i, Measurable (Z i)) (a : ℝ) (j : ℕ) : MeasurableSet (firstAt Z a j) := by
  have h : ∀ k, Measurable fun ω => |∑ i ∈ Finset.range k, Z i ω| := fun k => by
    have h' : Measurable (fun ω => ∑ i ∈ Finset.range k, Z i ω) := Finset.measurable_fun_sum _ fun i _ => hm i
    exact continuous_abs.measurable.comp h'
  have e : firstAt Z a j = {ω | a ≤ |∑ i ∈ Finset.range j, Z i ω|} ∩ ⋂ k ∈ Finset.range j, {ω | |∑ i ∈ Finset.range k, Z i ω| < a} := by
    ext ω; simp [firstAt]
  rw [e]
  exact (measurableSet_le measurable_const (h j)).inter (Finset.measurableSet_biInter _ fun k _ => measurableSet_lt (h k) measurable_const)

theorem cross_zero (hm : ∀ i, Measurable (Z i)) (hind : iIndepFun Z P) (hL : ∀ i, MemLp (Z i) 2 P) (h0 : ∀ i, ∫ ω, Z i ω ∂P = 0)
    (a : ℝ) {j n : ℕ} (hj : j ≤ n) :
    ∫ ω, ((firstAt Z a j).indicator (fun ω => ∑ i ∈ Finset.range j, Z i ω) ω) * ∑ i ∈ Finset.Ico j n, Z i ω ∂P = 0 := by
  have hS := hind.indepFun_finset (Finset.range j) (Finset.Ico j n) (by
    rw [Finset.disjoint_left]; intro i h1 h2
    have := Finset.mem_range.1 h1
    have := (Finset.mem_Ico.1 h2).1
    omega) hm
  -- both factors as functions of the two tuples
  let ext (x : Finset.range j → ℝ) (i : ℕ) (_ : Unit) : ℝ := if h : i ∈ Finset.range j then x ⟨i, h⟩ else 0
  have hext : ∀ i, Measurable fun x => ext x i () := by
    intro i
    by_cases h : i ∈ Finset.range j
    · simp only [ext, dif_pos h]; exact measurable_pi_apply _
    · simp only [ext, dif_neg h]; exact measurable_const
  let W : ℕ → (Finset.range j → ℝ) → ℝ := fun i x => ext x i ()
  let φ : (Finset.range j → ℝ) → ℝ := (firstAt W a j).indicator fun x => ∑ i ∈ Finset.range j, W i x
  let ψ : (Finset.Ico j n → ℝ) → ℝ := fun x => ∑ i, x i
  have hφ : Measurable φ := Measurable.indicator (Finset.measurable_fun_sum _ fun i _ => hext i) (measurableSet_firstAt hext a j)
  have hψ : Measurable ψ := by unfold ψ; fun_prop
  have hsum : ∀ ω, ∀ k ≤ j, ∑ i ∈ Finset.range k, W i (fun i => Z i ω) = ∑ i ∈ Finset.range k, Z i ω := by
    intro ω k hk
    refine Finset.sum_congr rfl fun i hi => ?_
    have : i ∈ Finset.range j := Finset.mem_range.2 (lt_of_lt_of_le (Finset.mem_range.1 hi) hk)
    simp only [W, ext, dif_pos this]
  have eφ : ∀ ω, φ (fun i => Z i ω) = (firstAt Z a j).indicator (fun ω => ∑ i ∈ Finset.range j, Z i ω) ω := by
    intro ω
    have hiff : (fun i : Finset.range j => Z i ω) ∈ firstAt W a j ↔ ω ∈ firstAt Z a j := by
      simp only [firstAt, Set.mem_setOf_eq]
      rw [hsum ω j le_rfl]
      refine and_congr_right fun _ => forall_congr' fun k => forall_congr' fun hk => ?_
      rw [hsum ω k hk.le]
    by_cases h : ω ∈ firstAt Z a j
    · rw [Set.indicator_of_mem h]
      simp only [φ]
      rw [Set.indicator_of_mem (hiff.2 h), hsum ω j le_rfl]
    · rw [Set.indicator_of_notMem h]
      simp only [φ]
      rw [Set.indicator_of_notMem (fun k => h (hiff.1 k))]
  have eψ : ∀ ω, ψ (fun i => Z i ω) = ∑ i ∈ Finset.Ico j n, Z i ω := by
    intro ω
    simp only [ψ]
    exact Finset.sum_coe_sort (Finset.Ico j n) (fun i => Z i ω)
  have hi := hS.comp hφ hψ
  have e1 : (φ ∘ fun ω (i : Finset.range j) => Z i ω) = fun ω => (firstAt Z a j).indicator (fun ω => ∑ i ∈ Finset.range j, Z i ω) ω :=
    funext eφ
  have e2 : (ψ ∘ fun ω (i : Finset.Ico j n) => Z i ω) = fun ω => ∑ i ∈ Finset.Ico j n, Z i ω := funext eψ
  rw [e1, e2] at hi
  have hmul := hi.integral_mul_eq_mul_integral
    (((Finset.measurable_fun_sum _ fun i _ => hm i).indicator (measurableSet_firstAt hm a j)).aestronglyMeasurable)
    ((Finset.measurable_fun_sum _ fun i _ => hm i).aestronglyMeasurable)
  have hz : ∫ ω, ∑ i ∈ Finset.Ico j n, Z i ω ∂P = 0 := by
    rw [integral_finsetSum _ fun i _ => (hL i).integrable (by norm_num)]
    exact Finset.sum_eq_zero fun i _ => h0 i
  rw [hz, mul_zero] at hmul
  exact hmul

/-- Kolmogorov's inequality. -/
theorem kolmogorov_max (hm : ∀ i, Measurable (Z i)) (hind : iIndepFun Z P) (hL : ∀ i, MemLp (Z i) 2 P) (h0 : ∀ i, ∫ ω, Z i ω ∂P = 0)
    {V : ℝ} (hV : ∀ i, Var[Z i; P] = V) {a : ℝ} (ha : 0 < a) (n : ℕ) :
    P.real {ω | ∃ j ≤ n, a ≤ |∑ i ∈ Finset.range j, Z i ω|} ≤ n * V / a ^ 2 := by
  let M : ℕ → Ω → ℝ := fun j ω => ∑ i ∈ Finset.range j, Z i ω
  have hML : ∀ (s : Finset ℕ), MemLp (fun ω => ∑ i ∈ s, Z i ω) 2 P := fun s => memLp_finsetSum _ fun i _ => hL i
  have hA := fun j => measurableSet_firstAt hm a j (Z := Z)
  have hdis : Set.Pairwise (↑(Finset.range (n + 1)) : Set ℕ) (Function.onFun Disjoint (firstAt Z a)) := by
    intro i _ j _ hij
    rw [Function.onFun, Set.disjoint_left]
    rintro ω ⟨h1, h2⟩ ⟨h3, h4⟩
    rcases lt_or_gt_of_ne hij with h | h
    · exact absurd h1 (not_le.2 (h4 i h))
    · exact absurd h3 (not_le.2 (h2 j h))
  have hsub : {ω | ∃ j ≤ n, a ≤ |∑ i ∈ Finset.range j, Z i ω|} = ⋃ j ∈ Finset.range (n + 1), firstAt Z a j := by
    ext ω
    simp only [Set.mem_setOf_eq, Set.mem_iUnion, Finset.mem_range, exists_prop]
    constructor
    · intro h
      classical
      refine ⟨Nat.find h, Nat.lt_succ_of_le (Nat.find_spec h).1, (Nat.find_spec h).2, fun k hk => ?_⟩
      by_contra hn
      exact Nat.find_min h hk ⟨(hk.le.trans (Nat.find_spec h).1), not_lt.1 hn⟩
    · rintro ⟨j, hj, h⟩
      exact ⟨j, Nat.le_of_lt_succ hj, h.1⟩
  have hone : ∀ j ≤ n, a ^ 2 * P.real (firstAt Z a j) ≤ ∫ ω in firstAt Z a j, M n ω ^ 2 ∂P := by
    intro j hj
    have hsplit : ∀ ω, M n ω = M j ω + ∑ i ∈ Finset.Ico j n, Z i ω := fun ω => (Finset.sum_range_add_sum_Ico _ hj).symm
    have hi1 : IntegrableOn (fun ω => M j ω ^ 2) (firstAt Z a j) P := ((hML _).integrable_sq).integrableOn
    have hi2 : IntegrableOn (fun ω => 2 * (M j ω * ∑ i ∈ Finset.Ico j n, Z i ω)) (firstAt Z a j) P :=
      (((hML _).integrable_mul (hML _)).const_mul 2).integrableOn
    have hcross : ∫ ω in firstAt Z a j, 2 * (M j ω * ∑ i ∈ Finset.Ico j n, Z i ω) ∂P = 0 := by
      rw [integral_const_mul, ← integral_indicator (hA j)]
      have := cross_zero hm hind hL h0 a hj
      have e : ∀ ω, (firstAt Z a j).indicator (fun ω => M j ω * ∑ i ∈ Finset.Ico j n, Z i ω) ω =
          ((firstAt Z a j).indicator (fun ω => ∑ i ∈ Finset.range j, Z i ω) ω) * ∑ i ∈ Finset.Ico j n, Z i ω := by
        intro ω
        by_cases h : ω ∈ firstAt Z a j
        · rw [Set.indicator_of_mem h, Set.indicator_of_mem h]
        · rw [Set.indicator_of_notMem h, Set.indicator_of_notMem h, zero_mul]
      rw [integral_congr_ae (Filter.Eventually.of_forall e), this, mul_zero]
    have hlow : ∫ ω in firstAt Z a j, M j ω ^ 2 ∂P ≤ ∫ ω in firstAt Z a j, M n ω ^ 2 ∂P := by
      have : ∫ ω in firstAt Z a j, (M j ω ^ 2 + 2 * (M j ω * ∑ i ∈ Finset.Ico j n, Z i ω)) ∂P = ∫ ω in firstAt Z a j, M j ω ^ 2 ∂P := by
        rw [integral_add hi1 hi2, hcross, add_zero]
      rw [← this]
      refine setIntegral_mono (hi1.add hi2) ((hML _).integrable_sq).integrableOn fun ω => ?_
      rw [hsplit ω]
      nlinarith [sq_nonneg (∑ i ∈ Finset.Ico j n, Z i ω)]
    refine le_trans ?_ hlow
    have : ∫ _ in firstAt Z a j, a ^ 2 ∂P = a ^ 2 * P.real (firstAt Z a j) := by
      rw [setIntegral_const, smul_eq_mul, mul_comm]
    rw [← this]
    refine setIntegral_mono_on (integrable_const _).integrableOn hi1 (hA j) fun ω hω => ?_
    rw [← sq_abs (M j ω)]
    exact pow_le_pow_left₀ ha.le hω.1 2
  have htot : ∫ ω, M n ω ^ 2 ∂P = n * V := by
    have hv := IndepFun.variance_sum (μ := P) (s := Finset.range n) (X := Z) (fun i _ => hL i) (fun i _ j _ hij => hind.indepFun hij)
    simp only [hV, Finset.sum_const, Finset.card_range, nsmul_eq_mul] at hv
    have e : (∑ i ∈ Finset.range n, Z i) = M n := by funext ω; simp [M]
    rw [e, variance_of_integral_eq_zero (hML _).aestronglyMeasurable.aemeasurable] at hv
    · exact hv
    · show ∫ ω, ∑ i ∈ Finset.range n, Z i ω ∂P = 0
      rw [integral_finsetSum _ fun i _ => (hL i).integrable (by norm_num)]
      exact Finset.sum_eq_zero fun i _ => h0 i
  rw [le_div_iff₀ (by positivity), hsub, mul_comm]
  calc a ^ 2 * P.real (⋃ j ∈ Finset.range (n + 1), firstAt Z a j)
      ≤ a ^ 2 * ∑ j ∈ Finset.range (n + 1), P.real (firstAt Z a j) :=
        mul_le_mul_of_nonneg_left (measureReal_biUnion_finset_le _ _) (by positivity)
    _ ≤ ∑ j ∈ Finset.range (n + 1), ∫ ω in firstAt Z a j, M n ω ^ 2 ∂P := by
        rw [Finset.mul_sum]
        exact Finset.sum_le_sum fun j hj => hone j (Nat.le_of_lt_succ (Finset.mem_range.1 hj))
    _ = ∫ ω in ⋃ j ∈ Finset.range (n + 1), firstAt Z a j, M n ω ^ 2 ∂P :=
        (integral_biUnion_finset _ (fun j _ => hA j) hdis fun j _ => ((hML _).integrable_sq).integrableOn).symm
    _ ≤ ∫ ω, M n ω ^ 2 ∂P := setIntegral_le_integral (hML _).integrable_sq (Filter.Eventually.of_forall fun ω => sq_nonneg _)
    _ = n * V := htot

end Pystra.Props
