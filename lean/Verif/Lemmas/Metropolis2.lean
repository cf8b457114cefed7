import Verif.Lemmas.Metropolis
import Mathlib.Probability.Independence.InfinitePi

namespace Pystra.Subset
open Spec MeasureTheory ProbabilityTheory Form Transformation
open scoped ENNReal NNReal

variable {n : ℕ}

/-- The draws of one Metropolis step. -/
def headDraws (n : ℕ) (υ : ℕ → ℝ) : Fin n → ℝ × ℝ := fun d => (υ (2 * d.val), υ (2 * d.val + 1))

/-- The draws from position `k` on. -/
def shiftDraws (k : ℕ) (υ : ℕ → ℝ) : ℕ → ℝ := fun i => υ (k + i)

/-- The vector step as a function of its draws. -/
noncomputable def propVec (sigma : ℝ) (u : Fin n → ℝ) (w : Fin n → ℝ × ℝ) : Fin n → ℝ :=
  fun d => step1 sigma (u d) (w d).1 (w d).2

theorem proposal_eq (sigma : ℝ) (υ : ℕ → ℝ) (pos : ℕ) (u : Fin n → ℝ) :
    proposal sigma υ pos u = propVec sigma u (headDraws n (shiftDraws pos υ)) := rfl

theorem measurable_headDraws : Measurable (headDraws n) := by unfold headDraws; fun_prop

theorem measurable_shiftDraws (k : ℕ) : Measurable (shiftDraws k) := by unfold shiftDraws; fun_prop

theorem shift_law (k : ℕ) : unifStream.map (shiftDraws k) = unifStream := by
  unfold unifStream shiftDraws
  exact Measure.map_infinitePi_infinitePi_of_inj (P := fun _ => unif01) (f := fun i => k + i) (add_right_injective k)

theorem head_law : unifStream.map (headDraws n) = Measure.pi (fun _ : Fin n => unif01.prod unif01) := by
  have hinj : Function.Injective (fun p : Fin n × Fin 2 => 2 * p.1.val + p.2.val) := by
    rintro ⟨a, b⟩ ⟨c, d⟩ h
    simp only at h
    refine Prod.ext (Fin.ext ?_) (Fin.ext ?_) <;> simp only <;> omega
  have h1 := MonteCarlo.iid_map unif01 hinj
  have h2 := Measure.infinitePi_map_curry (ι := Fin n) (κ := Fin 2) (X := ℝ) (fun _ _ => unif01)
  simp only [Measure.infinitePi_eq_pi] at h2
  have h3 : Measure.pi (fun _ : Fin n => unif01.prod unif01) =
      (Measure.pi (fun _ : Fin n => Measure.pi (fun _ : Fin 2 => unif01))).map
        (fun x i => MeasurableEquiv.finTwoArrow (x i)) := by
    haveI : ∀ i : Fin n, SigmaFinite ((Measure.pi (fun _ : Fin 2 => unif01)).map
        (MeasurableEquiv.finTwoArrow : (Fin 2 → ℝ) → ℝ × ℝ)) := fun i => by
      rw [(measurePreserving_finTwoArrow unif01).map_eq]; infer_instance
    rw [Measure.pi_map_pi (f := fun _ => (MeasurableEquiv.finTwoArrow : (Fin 2 → ℝ) → ℝ × ℝ))
      (fun i => (MeasurableEquiv.measurable _).aemeasurable)]
    simp only [(measurePreserving_finTwoArrow unif01).map_eq]
  rw [h3, ← h2, ← h1, unifStream, Measure.map_map (by fun_prop) (by fun_prop), Measure.map_map]
  · rfl
  · apply measurable_pi_lambda
    intro i
    exact (MeasurableEquiv.measurable _).comp ((measurable_pi_apply i).comp (MeasurableEquiv.measurable _))
  · fun_prop

theorem head_tail_indep : IndepFun (headDraws n) (shiftDraws (2 * n)) unifStream := by
  have hi : iIndepFun (fun (i : ℕ) (ω : ℕ → ℝ) => ω i) unifStream :=
    iIndepFun_infinitePi (P := fun _ => unif01) (X := fun _ x => x) (fun _ => measurable_id)
  have hS : Disjoint {i : ℕ | i < 2 * n} {i : ℕ | 2 * n ≤ i} := by
    rw [Set.disjoint_left]; intro a h1 h2; simp only [Set.mem_setOf_eq] at h1 h2; omega
  have h := indep_iSup_of_disjoint (fun i => (measurable_pi_apply i).comap_le) hi hS
  rw [IndepFun_iff_Indep]
  refine indep_of_indep_of_le_left (indep_of_indep_of_le_right h ?_) ?_
  · refine @Measurable.comap_le _ _ (_) _ _ ?_
    refine @measurable_pi_lambda _ _ _ (_) _ _ ?_
    intro i
    exact (comap_measurable (fun ω : ℕ → ℝ => ω (2 * n + i))).mono
      (le_iSup₂ (f := fun (i : ℕ) (_ : i ∈ {i : ℕ | 2 * n ≤ i}) => MeasurableSpace.comap (fun ω : ℕ → ℝ => ω i) inferInstance)
        (2 * n + i) (Nat.le_add_right _ _)) le_rfl
  · refine @Measurable.comap_le _ _ (_) _ _ ?_
    refine @measurable_pi_lambda _ _ _ (_) _ _ ?_
    intro d
    have hd := d.isLt
    refine @Measurable.prodMk _ _ _ _ _ (_) _ _ ?_ ?_
    · exact (comap_measurable (fun ω : ℕ → ℝ => ω (2 * d.val))).mono
        (le_iSup₂ (f := fun (i : ℕ) (_ : i ∈ {i : ℕ | i < 2 * n}) => MeasurableSpace.comap (fun ω : ℕ → ℝ => ω i) inferInstance)
          (2 * d.val) (show 2 * d.val < 2 * n by omega)) le_rfl
    · exact (comap_measurable (fun ω : ℕ → ℝ => ω (2 * d.val + 1))).mono
        (le_iSup₂ (f := fun (i : ℕ) (_ : i ∈ {i : ℕ | i < 2 * n}) => MeasurableSpace.comap (fun ω : ℕ → ℝ => ω i) inferInstance)
          (2 * d.val + 1) (show 2 * d.val + 1 < 2 * n by omega)) le_rfl

theorem head_tail_law : unifStream.map (fun υ => (headDraws n υ, shiftDraws (2 * n) υ)) =
    (Measure.pi (fun _ : Fin n => unif01.prod unif01)).prod unifStream := by
  have := (indepFun_iff_map_prod_eq_prod_map_map measurable_headDraws.aemeasurable
    (measurable_shiftDraws (2 * n)).aemeasurable).1 (head_tail_indep (n := n))
  rw [this, head_law, shift_law]

theorem measurable_propVec (sigma : ℝ) :
    Measurable (fun p : (Fin n → ℝ) × (Fin n → ℝ × ℝ) => propVec sigma p.1 p.2) := by
  apply measurable_pi_lambda
  intro d
  have : Measurable (fun p : (Fin n → ℝ) × (Fin n → ℝ × ℝ) => (p.1 d, (p.2 d).1, (p.2 d).2)) := by fun_prop
  exact (measurable_step1 sigma).comp this

/-- The state and the proposal are exchangeable. -/
theorem exchangeable (sigma : ℝ) :
    ((stdGauss n).prod (Measure.pi (fun _ : Fin n => unif01.prod unif01))).map
      (fun p => (propVec sigma p.1 p.2, p.1)) =
    ((stdGauss n).prod (Measure.pi (fun _ : Fin n => unif01.prod unif01))).map
      (fun p => (p.1, propVec sigma p.1 p.2)) := by
  have h0 := (measurePreserving_arrowProdEquivProdArrow ℝ (ℝ × ℝ) (Fin n) (fun _ => gaussianReal 0 1)
    (fun _ => unif01.prod unif01)).map_eq
  have hE := (MeasurableEquiv.arrowProdEquivProdArrow ℝ ℝ (Fin n)).measurable
  have hpair : Measure.pi (fun _ : Fin n => pairLaw sigma) =
      (Measure.pi (fun _ : Fin n => (gaussianReal 0 1).prod (unif01.prod unif01))).map
        (fun x i => ((x i).1, step1 sigma (x i).1 (x i).2.1 (x i).2.2)) := by
    haveI : ∀ i : Fin n, SigmaFinite (((gaussianReal 0 1).prod (unif01.prod unif01)).map
      (fun p => (p.1, step1 sigma p.1 p.2.1 p.2.2))) := fun i => by
        change SigmaFinite (pairLaw sigma); infer_instance
    rw [Measure.pi_map_pi (f := fun (_ : Fin n) (p : ℝ × ℝ × ℝ) => (p.1, step1 sigma p.1 p.2.1 p.2.2))
      (fun i => (measurable_pair sigma).aemeasurable)]
    rfl
  have hswap : (Measure.pi (fun _ : Fin n => pairLaw sigma)).map (fun x i => (x i).swap) =
      Measure.pi (fun _ : Fin n => pairLaw sigma) := by
    haveI : ∀ i : Fin n, SigmaFinite ((pairLaw sigma).map Prod.swap) := fun i => by
      rw [pairLaw_symm]; infer_instance
    rw [Measure.pi_map_pi (f := fun _ => Prod.swap) (fun i => measurable_swap.aemeasurable)]
    simp only [pairLaw_symm]
  have hm1 : Measurable (fun (x : Fin n → ℝ × ℝ × ℝ) i => ((x i).1, step1 sigma (x i).1 (x i).2.1 (x i).2.2)) :=
    measurable_pi_lambda _ fun i => (measurable_pair sigma).comp (measurable_pi_apply i)
  have hm2 : Measurable (fun (x : Fin n → ℝ × ℝ) i => (x i).swap) :=
    measurable_pi_lambda _ fun i => measurable_swap.comp (measurable_pi_apply i)
  have hA : ((stdGauss n).prod (Measure.pi (fun _ : Fin n => unif01.prod unif01))).map
      (fun p => (p.1, propVec sigma p.1 p.2)) =
      (Measure.pi (fun _ : Fin n => pairLaw sigma)).map (MeasurableEquiv.arrowProdEquivProdArrow ℝ ℝ (Fin n)) := by
    rw [hpair, Measure.map_map hE hm1]
    unfold stdGauss
    rw [← h0, Measure.map_map (measurable_fst.prodMk (measurable_propVec sigma)) (MeasurableEquiv.measurable _)]
    rfl
  have hB : ((stdGauss n).prod (Measure.pi (fun _ : Fin n => unif01.prod unif01))).map
      (fun p => (propVec sigma p.1 p.2, p.1)) =
      ((Measure.pi (fun _ : Fin n => pairLaw sigma)).map (fun x i => (x i).swap)).map
        (MeasurableEquiv.arrowProdEquivProdArrow ℝ ℝ (Fin n)) := by
    rw [hpair, Measure.map_map hE hm2, Measure.map_map (hE.comp hm2) hm1]
    unfold stdGauss
    rw [← h0, Measure.map_map ((measurable_propVec sigma).prodMk measurable_fst) (MeasurableEquiv.measurable _)]
    rfl
  rw [hA, hB, hswap]

open Classical in
/-- The next state of a chain in the subset `F`. -/
noncomputable def nextVec (sigma : ℝ) (F : Set (Fin n → ℝ)) (u : Fin n → ℝ) (w : Fin n → ℝ × ℝ) : Fin n → ℝ :=
  if propVec sigma u w ∈ F then propVec sigma u w else u

theorem measurable_nextVec (sigma : ℝ) {F : Set (Fin n → ℝ)} (hF : MeasurableSet F) :
    Measurable (fun p : (Fin n → ℝ) × (Fin n → ℝ × ℝ) => nextVec sigma F p.1 p.2) := by
  unfold nextVec
  exact Measurable.ite ((measurable_propVec sigma) hF) (measurable_propVec sigma) measurable_fst

/-- The step preserves the standard normal law restricted to the subset. -/
theorem nextVec_law (sigma : ℝ) {F : Set (Fin n → ℝ)} (hF : MeasurableSet F) :
    (((stdGauss n).restrict F).prod (Measure.pi (fun _ : Fin n => unif01.prod unif01))).map
      (fun p => nextVec sigma F p.1 p.2) = (stdGauss n).restrict F := by
  set W := Measure.pi (fun _ : Fin n => unif01.prod unif01) with hW
  ext A hA
  have hp := measurable_propVec (n := n) sigma
  have hr : ((stdGauss n).restrict F).prod W = ((stdGauss n).prod W).restrict (F ×ˢ Set.univ) := by
    rw [← Measure.prod_restrict, Measure.restrict_univ]
  rw [Measure.map_apply (measurable_nextVec sigma hF) hA, hr,
    Measure.restrict_apply ((measurable_nextVec sigma hF) hA), Measure.restrict_apply hA]
  set X : Set ((Fin n → ℝ) × (Fin n → ℝ × ℝ)) := {p | propVec sigma p.1 p.2 ∈ F} with hX
  have hXm : MeasurableSet X := hp hF
  rw [← measure_inter_add_diff _ hXm]
  have e1 : (fun p : (Fin n → ℝ) × (Fin n → ℝ × ℝ) => nextVec sigma F p.1 p.2) ⁻¹' A ∩ F ×ˢ Set.univ ∩ X =
      (fun p => (propVec sigma p.1 p.2, p.1)) ⁻¹' ((A ∩ F) ×ˢ F) := by
    ext p
    simp only [Set.mem_inter_iff, Set.mem_preimage, Set.mem_prod, Set.mem_univ, and_true, hX, Set.mem_setOf_eq]
    constructor
    · rintro ⟨⟨h1, h2⟩, h3⟩
      rw [nextVec, if_pos h3] at h1
      exact ⟨⟨h1, h3⟩, h2⟩
    · rintro ⟨⟨h1, h2⟩, h3⟩
      rw [nextVec, if_pos h2]
      exact ⟨⟨h1, h3⟩, h2⟩
  have e2 : ((fun p : (Fin n → ℝ) × (Fin n → ℝ × ℝ) => nextVec sigma F p.1 p.2) ⁻¹' A ∩ F ×ˢ Set.univ) \ X =
      ((A ∩ F) ×ˢ Set.univ) \ X := by
    ext p
    simp only [Set.mem_diff, Set.mem_inter_iff, Set.mem_preimage, Set.mem_prod, Set.mem_univ, and_true, hX,
      Set.mem_setOf_eq]
    constructor
    · rintro ⟨⟨h1, h2⟩, h3⟩
      rw [nextVec, if_neg h3] at h1
      exact ⟨⟨h1, h2⟩, h3⟩
    · rintro ⟨⟨h1, h2⟩, h3⟩
      rw [nextVec, if_neg h3]
      exact ⟨⟨h1, h2⟩, h3⟩
  have hS : MeasurableSet ((A ∩ F) ×ˢ F) := (hA.inter hF).prod hF
  rw [e1, e2, ← Measure.map_apply (hp.prodMk measurable_fst) hS, exchangeable, Measure.map_apply (measurable_fst.prodMk hp) hS]
  have e3 : (fun p : (Fin n → ℝ) × (Fin n → ℝ × ℝ) => (p.1, propVec sigma p.1 p.2)) ⁻¹' ((A ∩ F) ×ˢ F) =
      ((A ∩ F) ×ˢ Set.univ) ∩ X := by
    ext p
    simp [hX]
  rw [e3, measure_inter_add_diff _ hXm, Measure.prod_prod, measure_univ, mul_one]

/-- One step of the chain together with the rest of the stream. -/
noncomputable def stepT (sigma : ℝ) (F : Set (Fin n → ℝ)) (p : (Fin n → ℝ) × (ℕ → ℝ)) : (Fin n → ℝ) × (ℕ → ℝ) :=
  (nextVec sigma F p.1 (headDraws n p.2), shiftDraws (2 * n) p.2)

theorem stepT_preserving (sigma : ℝ) {F : Set (Fin n → ℝ)} (hF : MeasurableSet F) :
    MeasurePreserving (stepT sigma F) (((stdGauss n).restrict F).prod unifStream)
      (((stdGauss n).restrict F).prod unifStream) := by
  set μ := (stdGauss n).restrict F with hμ
  set W := Measure.pi (fun _ : Fin n => unif01.prod unif01) with hW
  have hN := measurable_nextVec sigma hF
  have hht : Measurable (fun υ : ℕ → ℝ => (headDraws n υ, shiftDraws (2 * n) υ)) :=
    measurable_headDraws.prodMk (measurable_shiftDraws _)
  have h1 : MeasurePreserving (Prod.map id (fun υ : ℕ → ℝ => (headDraws n υ, shiftDraws (2 * n) υ)))
      (μ.prod unifStream) (μ.prod (W.prod unifStream)) :=
    (MeasurePreserving.id μ).prod ⟨hht, head_tail_law⟩
  have h2 : MeasurePreserving (MeasurableEquiv.prodAssoc.symm) (μ.prod (W.prod unifStream)) ((μ.prod W).prod unifStream) :=
    (measurePreserving_prodAssoc μ W unifStream).symm
  have h3 : MeasurePreserving (Prod.map (fun p : (Fin n → ℝ) × (Fin n → ℝ × ℝ) => nextVec sigma F p.1 p.2) id)
      ((μ.prod W).prod unifStream) (μ.prod unifStream) :=
    MeasurePreserving.prod ⟨hN, nextVec_law sigma hF⟩ (MeasurePreserving.id _)
  exact h3.comp (h2.comp h1)

end Pystra.Subset
