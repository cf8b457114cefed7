import Verif.Lemmas.ImportanceSampling
import Verif.Lemmas.Subset
import Verif.Spec.Subset

namespace Pystra.Subset
open Spec MeasureTheory ProbabilityTheory
open scoped ENNReal NNReal

/-- The proposed value of a component. -/
noncomputable def xiOf (sigma u a : ℝ) : ℝ := u + sigma * (-1 + 2 * a)

open Classical in
/-- One component of the Metropolis step. -/
noncomputable def step1 (sigma u a b : ℝ) : ℝ :=
  if b = 0 ∨ Real.log b < -0.5 * (xiOf sigma u a ^ 2 - u ^ 2) then xiOf sigma u a else u

/-- The acceptance probability. -/
noncomputable def accept (u xi : ℝ) : ℝ≥0∞ := ENNReal.ofReal (min 1 (Real.exp (-0.5 * (xi ^ 2 - u ^ 2))))

theorem accept_set (l : ℝ) : unif01 {b | b = 0 ∨ Real.log b < l} = ENNReal.ofReal (min 1 (Real.exp l)) := by
  have hset : {b : ℝ | b = 0 ∨ Real.log b < l} ∩ Set.Ico 0 1 = Set.Ico 0 (min 1 (Real.exp l)) := by
    ext b
    simp only [Set.mem_inter_iff, Set.mem_setOf_eq, Set.mem_Ico, lt_min_iff]
    constructor
    · rintro ⟨h | h, h0, h1⟩
      · subst h; exact ⟨le_rfl, one_pos, Real.exp_pos l⟩
      · refine ⟨h0, h1, ?_⟩
        rcases h0.eq_or_lt with h2 | h2
        · rw [← h2]; exact Real.exp_pos l
        · exact (Real.log_lt_iff_lt_exp h2).1 h
    · rintro ⟨h0, h1, h2⟩
      refine ⟨?_, h0, h1⟩
      rcases h0.eq_or_lt with h3 | h3
      · exact Or.inl h3.symm
      · exact Or.inr ((Real.log_lt_iff_lt_exp h3).2 h2)
  have hm : MeasurableSet {b : ℝ | b = 0 ∨ Real.log b < l} := by
    apply MeasurableSet.union (measurableSet_singleton 0)
    exact measurableSet_lt Real.measurable_log measurable_const
  rw [unif01, Measure.restrict_apply hm, hset, Real.volume_Ico, sub_zero]

/-- The law of `1 - a` for uniform `a`. -/
theorem unif_symm {F : ℝ → ℝ≥0∞} : ∫⁻ a, F (1 - a) ∂unif01 = ∫⁻ a, F a ∂unif01 := by
  unfold unif01
  have h1 : volume.restrict (Set.Ico (0:ℝ) 1) = volume.restrict (Set.Icc 0 1) := Measure.restrict_congr_set Ico_ae_eq_Icc
  rw [h1, ← lintegral_indicator measurableSet_Icc, ← lintegral_indicator measurableSet_Icc,
    ← lintegral_sub_left_eq_self ((Set.Icc (0:ℝ) 1).indicator F) 1]
  congr 1
  funext a
  by_cases h : a ∈ Set.Icc (0:ℝ) 1
  · have h' : 1 - a ∈ Set.Icc (0:ℝ) 1 := ⟨by linarith [h.2], by linarith [h.1]⟩
    rw [Set.indicator_of_mem h, Set.indicator_of_mem h']
  · have h' : 1 - a ∉ Set.Icc (0:ℝ) 1 := fun h2 => h ⟨by linarith [h2.2], by linarith [h2.1]⟩
    rw [Set.indicator_of_notMem h, Set.indicator_of_notMem h']

theorem measurable_step1 (sigma : ℝ) : Measurable (fun p : ℝ × ℝ × ℝ => step1 sigma p.1 p.2.1 p.2.2) := by
  unfold step1 xiOf
  refine Measurable.ite ?_ (by fun_prop) (by fun_prop)
  apply MeasurableSet.union
  · exact measurableSet_eq_fun (by fun_prop) measurable_const
  · exact measurableSet_lt (Real.measurable_log.comp (by fun_prop)) (by fun_prop)

/-- `φ(u)·accept(u, ξ) = min(φ(u), φ(ξ))`: detailed balance. -/
theorem pdf_accept (u xi : ℝ) : gaussianPDF 0 1 u * accept u xi = min (gaussianPDF 0 1 u) (gaussianPDF 0 1 xi) := by
  unfold gaussianPDF accept
  rw [← ENNReal.ofReal_mul (gaussianPDFReal_nonneg _ _ _), ← ENNReal.ofReal_min]
  congr 1
  rw [mul_min_of_nonneg _ _ (gaussianPDFReal_nonneg _ _ _), mul_one]
  congr 1
  unfold gaussianPDFReal
  rw [mul_assoc, ← Real.exp_add]
  congr 2
  simp
  ring

/-- Integrating over the acceptance draw. -/
theorem lintegral_step1 (sigma u a : ℝ) (F : ℝ → ℝ≥0∞) :
    ∫⁻ b, F (step1 sigma u a b) ∂unif01 = accept u (xiOf sigma u a) * F (xiOf sigma u a) +
      (1 - accept u (xiOf sigma u a)) * F u := by
  set l := -0.5 * (xiOf sigma u a ^ 2 - u ^ 2) with hl
  set S := {b : ℝ | b = 0 ∨ Real.log b < l} with hS
  have hm : MeasurableSet S := by
    apply MeasurableSet.union (measurableSet_singleton 0)
    exact measurableSet_lt Real.measurable_log measurable_const
  have hacc : unif01 S = accept u (xiOf sigma u a) := accept_set l
  have hc : unif01 Sᶜ = 1 - accept u (xiOf sigma u a) := by
    rw [measure_compl hm (measure_ne_top _ _), measure_univ, hacc]
  rw [← lintegral_add_compl _ hm]
  congr 1
  · rw [setLIntegral_congr_fun (g := fun _ => F (xiOf sigma u a)) hm (by
      intro b hb
      have : step1 sigma u a b = xiOf sigma u a := if_pos hb
      simp only [this]), setLIntegral_const, hacc, mul_comm]
  · rw [setLIntegral_congr_fun (g := fun _ => F u) hm.compl (by
      intro b hb
      have : step1 sigma u a b = u := if_neg hb
      simp only [this]), setLIntegral_const, hc, mul_comm]

theorem measurable_accept : Measurable (fun p : ℝ × ℝ => accept p.1 p.2) := by
  unfold accept
  apply Measurable.ennreal_ofReal
  exact measurable_const.min (by fun_prop)

theorem sec {α β : Type} [MeasurableSpace α] [MeasurableSpace β] {K : α × β → ℝ≥0∞} (hK : Measurable K) (u : α) :
    Measurable (fun a => K (u, a)) := hK.comp measurable_prodMk_left

/-- The accepted part of the joint law is symmetric. -/
theorem accepted_symm (sigma : ℝ) {F : ℝ × ℝ → ℝ≥0∞} (hF : Measurable F) :
    ∫⁻ u, ∫⁻ a, accept u (xiOf sigma u a) * F (u, xiOf sigma u a) ∂unif01 ∂(gaussianReal 0 1) =
    ∫⁻ u, ∫⁻ a, accept u (xiOf sigma u a) * F (xiOf sigma u a, u) ∂unif01 ∂(gaussianReal 0 1) := by
  let m : ℝ → ℝ → ℝ≥0∞ := fun u xi => min (gaussianPDF 0 1 u) (gaussianPDF 0 1 xi)
  have hxi : Measurable (fun p : ℝ × ℝ => xiOf sigma p.1 p.2) := by unfold xiOf; fun_prop
  have hmm : Measurable (fun p : ℝ × ℝ => m p.1 p.2) :=
    ((measurable_gaussianPDF 0 1).comp measurable_fst).min ((measurable_gaussianPDF 0 1).comp measurable_snd)
  have key : ∀ G : ℝ × ℝ → ℝ≥0∞, Measurable G →
      ∫⁻ u, ∫⁻ a, accept u (xiOf sigma u a) * G (u, xiOf sigma u a) ∂unif01 ∂(gaussianReal 0 1) =
      ∫⁻ a, ∫⁻ u, m u (xiOf sigma u a) * G (u, xiOf sigma u a) ∂volume ∂unif01 := by
    intro G hG
    have hacc : Measurable (fun p : ℝ × ℝ => accept p.1 (xiOf sigma p.1 p.2) * G (p.1, xiOf sigma p.1 p.2)) :=
      (measurable_accept.comp (measurable_fst.prodMk hxi)).mul (hG.comp (measurable_fst.prodMk hxi))
    rw [gaussianReal_of_var_ne_zero _ one_ne_zero, lintegral_withDensity_eq_lintegral_mul _ (measurable_gaussianPDF 0 1)
      (Measurable.lintegral_prod_right' hacc)]
    simp only [Pi.mul_apply]
    have e : ∀ u, gaussianPDF 0 1 u * ∫⁻ a, accept u (xiOf sigma u a) * G (u, xiOf sigma u a) ∂unif01 =
        ∫⁻ a, m u (xiOf sigma u a) * G (u, xiOf sigma u a) ∂unif01 := by
      intro u
      have hacc' : Measurable (fun a => accept u (xiOf sigma u a) * G (u, xiOf sigma u a)) :=
        sec hacc u
      rw [← lintegral_const_mul _ hacc']
      congr 1
      funext a
      rw [← mul_assoc, pdf_accept]
    simp only [e]
    exact lintegral_lintegral_swap ((hmm.comp (measurable_fst.prodMk hxi)).mul
      (hG.comp (measurable_fst.prodMk hxi))).aemeasurable
  rw [key F hF]
  have hF' : Measurable (fun p : ℝ × ℝ => F (p.2, p.1)) := hF.comp measurable_swap
  rw [key (fun p => F (p.2, p.1)) hF']
  rw [← unif_symm (F := fun a => ∫⁻ u, m u (xiOf sigma u a) * F (xiOf sigma u a, u))]
  congr 1
  funext a
  rw [← lintegral_sub_right_eq_self (fun u => m u (xiOf sigma u a) * F (u, xiOf sigma u a)) (sigma * (-1 + 2 * a))]
  congr 1
  funext u
  have e1 : xiOf sigma (u - sigma * (-1 + 2 * a)) a = u := by unfold xiOf; ring
  have e2 : xiOf sigma u (1 - a) = u - sigma * (-1 + 2 * a) := by unfold xiOf; ring
  rw [e1, e2]
  congr 1
  exact min_comm _ _

/-- The law of a component and its successor. -/
noncomputable def pairLaw (sigma : ℝ) : Measure (ℝ × ℝ) :=
  ((gaussianReal 0 1).prod (unif01.prod unif01)).map (fun p => (p.1, step1 sigma p.1 p.2.1 p.2.2))

theorem measurable_pair (sigma : ℝ) :
    Measurable (fun p : ℝ × ℝ × ℝ => (p.1, step1 sigma p.1 p.2.1 p.2.2)) :=
  measurable_fst.prodMk (measurable_step1 sigma)

instance (sigma : ℝ) : IsProbabilityMeasure (pairLaw sigma) :=
  Measure.isProbabilityMeasure_map (measurable_pair sigma).aemeasurable

/-- The component step is reversible with respect to the standard normal law. -/
theorem pairLaw_symm (sigma : ℝ) : (pairLaw sigma).map Prod.swap = pairLaw sigma := by
  have hl : ∀ F : ℝ × ℝ → ℝ≥0∞, Measurable F → ∫⁻ p, F p ∂(pairLaw sigma) =
      ∫⁻ u, ∫⁻ a, accept u (xiOf sigma u a) * F (u, xiOf sigma u a) ∂unif01 ∂(gaussianReal 0 1) +
      ∫⁻ u, ∫⁻ a, (1 - accept u (xiOf sigma u a)) * F (u, u) ∂unif01 ∂(gaussianReal 0 1) := by
    intro F hF
    have hxi : Measurable (fun p : ℝ × ℝ => xiOf sigma p.1 p.2) := by unfold xiOf; fun_prop
    have hacc : Measurable (fun p : ℝ × ℝ => accept p.1 (xiOf sigma p.1 p.2) * F (p.1, xiOf sigma p.1 p.2)) :=
      (measurable_accept.comp (measurable_fst.prodMk hxi)).mul (hF.comp (measurable_fst.prodMk hxi))
    unfold pairLaw
    have hFm : Measurable (fun p : ℝ × ℝ × ℝ => F (p.1, step1 sigma p.1 p.2.1 p.2.2)) := hF.comp (measurable_pair sigma)
    rw [lintegral_map hF (measurable_pair sigma), lintegral_prod _ hFm.aemeasurable]
    have e : ∀ u, ∫⁻ p : ℝ × ℝ, F (u, step1 sigma u p.1 p.2) ∂(unif01.prod unif01) =
        ∫⁻ a, accept u (xiOf sigma u a) * F (u, xiOf sigma u a) ∂unif01 +
        ∫⁻ a, (1 - accept u (xiOf sigma u a)) * F (u, u) ∂unif01 := by
      intro u
      have hFu : Measurable (fun p : ℝ × ℝ => F (u, step1 sigma u p.1 p.2)) :=
        sec hFm u
      have hau : Measurable (fun a => accept u (xiOf sigma u a) * F (u, xiOf sigma u a)) :=
        sec hacc u
      rw [lintegral_prod _ hFu.aemeasurable]
      have := fun a => lintegral_step1 sigma u a (fun v => F (u, v))
      simp only [this]
      exact lintegral_add_left hau _
    simp only [e]
    exact lintegral_add_left (Measurable.lintegral_prod_right' hacc) _
  ext S hS
  rw [Measure.map_apply measurable_swap hS]
  have h1 := hl (S.indicator 1) (measurable_one.indicator hS)
  have h2 := hl ((Prod.swap ⁻¹' S).indicator 1) (measurable_one.indicator (measurable_swap hS))
  rw [lintegral_indicator_one hS] at h1
  rw [lintegral_indicator_one (measurable_swap hS)] at h2
  rw [h1, h2, accepted_symm sigma (measurable_one.indicator hS)]
  rfl

end Pystra.Subset
