import Verif.Lemmas.Moments2

/-! From frozen distributions to marginals. -/

namespace Pystra
open Real MeasureTheory Set Filter Topology Distribution

/-- Everything about a marginal that the properties ask for. -/
structure Good (r : Except PyErr Marginal) (sp : Option ℝ) (S : Set ℝ) (μ σ : ℝ) : Prop where
  ex : ∃ m, r = .ok m ∧ m.mean = μ ∧ m.stdv = σ ∧ m.startpoint = sp.getD μ ∧
    Spec.RoundTrip m S ∧ Spec.JacobianCorrect m S ∧ Spec.Law (S.indicator m.pdf) μ σ

theorem startPoint_eq (μ : ℝ) (sp : Option ℝ) : startPoint μ sp = sp.getD μ := by cases sp <;> rfl

/-- A law that vanishes outside `S` except on a null set. -/
theorem law_indicator {f : Frozen} {S : Set ℝ} {m q σ : ℝ} (hm : Mom f.pdf m q) (hσ : σ ^ 2 = q - m ^ 2)
    (h0 : ∀ᵐ x, x ∉ S → f.pdf x = 0) : Spec.Law (S.indicator f.pdf) m σ := by
  have e : S.indicator f.pdf =ᵐ[volume] f.pdf := by
    filter_upwards [h0] with x hx
    by_cases h : x ∈ S
    · rw [indicator_of_mem h]
    · rw [indicator_of_notMem h, hx h]
  have e1 : (fun x => x * S.indicator f.pdf x) =ᵐ[volume] fun x => x * f.pdf x := by
    filter_upwards [e] with x hx; rw [hx]
  have e2 : (fun x => x ^ 2 * S.indicator f.pdf x) =ᵐ[volume] fun x => x ^ 2 * f.pdf x := by
    filter_upwards [e] with x hx; rw [hx]
  have e3 : (fun x => (x - m) ^ 2 * S.indicator f.pdf x) =ᵐ[volume] fun x => (x - m) ^ 2 * f.pdf x := by
    filter_upwards [e] with x hx; rw [hx]
  have L := hm.law hσ
  refine ⟨fun x => indicator_nonneg (fun x _ => hm.nonneg x) x, L.int0.congr e.symm, ?_, L.int1.congr e1.symm, ?_,
    L.int2.congr e2.symm, ?_⟩
  · rw [integral_congr_ae e]; exact L.mass
  · rw [integral_congr_ae e1]; exact L.mean
  · rw [integral_congr_ae e3]; exact L.var

theorem initMoments_frozen {f : Frozen} {m q σ : ℝ} (hm : Mom f.pdf m q) (hσ0 : 0 ≤ σ) (hσ : σ ^ 2 = q - m ^ 2)
    (sp : Option ℝ) : initMoments (some f) none none sp = .ok (m, σ, startPoint m sp) := by
  have h1 := hm.frozen_std hσ0 hσ
  have h2 := hm.frozen_mean
  unfold initMoments updateMoments
  simp only [h1, h2]

theorem good_ofFrozen {f : Frozen} {S : Set ℝ} {m q σ : ℝ} (hr : Regular f S) (hS : IsOpen S)
    (hm : Mom f.pdf m q) (hσ0 : 0 ≤ σ) (hσ : σ ^ 2 = q - m ^ 2) (h0 : ∀ᵐ x, x ∉ S → f.pdf x = 0)
    (sp : Option ℝ) : Good (ofFrozen f sp) sp S m σ := by
  constructor
  unfold ofFrozen
  rw [initMoments_frozen hm hσ0 hσ]
  refine ⟨_, rfl, rfl, rfl, startPoint_eq m sp, ?_, ?_, ?_⟩
  · exact roundTrip_of_regular hr _ (fun _ => rfl) (fun _ _ => rfl)
  · exact jacobian_of_regular hr hS _ (fun _ _ => rfl) (fun _ _ _ => rfl)
  · exact law_indicator hm hσ h0

theorem set_Ioi {loc scale : ℝ} (hs : 0 < scale) : {x | (x - loc) / scale ∈ Ioi (0:ℝ)} = Ioi loc := by
  ext x
  simp only [mem_ofPred_eq, mem_Ioi, div_pos_iff_of_pos_right hs, sub_pos]

theorem set_Ioo {loc scale : ℝ} (hs : 0 < scale) :
    {x | (x - loc) / scale ∈ Ioo (0:ℝ) 1} = Ioo loc (loc + scale) := by
  ext x
  simp only [mem_ofPred_eq, mem_Ioo, div_pos_iff_of_pos_right hs, sub_pos, div_lt_one hs]
  constructor <;> rintro ⟨a, b⟩ <;> exact ⟨a, by linarith⟩

theorem set_univ (loc scale : ℝ) : {x | (x - loc) / scale ∈ (univ : Set ℝ)} = univ := by
  ext x; simp

/-- The general location–scale construction. -/
theorem good_locScale {f : Frozen} {S : Set ℝ} {m q σ loc scale : ℝ} (hr : Regular f S) (hS : IsOpen S)
    (hm : Mom f.pdf m q) (h0 : ∀ᵐ x, x ∉ S → f.pdf x = 0) (hs : 0 < scale) (hσ0 : 0 ≤ σ)
    (hσ : σ ^ 2 = scale ^ 2 * (q - m ^ 2)) (sp : Option ℝ) :
    Good (ofFrozen (f.locScale loc scale) sp) sp {x | (x - loc) / scale ∈ S} (loc + scale * m) σ := by
  refine good_ofFrozen (hr.locScale loc hs) (hS.preimage (by fun_prop)) (hm.locScale loc hs) hσ0 ?_ ?_ sp
  · rw [hσ]; ring
  · rw [ae_iff] at h0 ⊢
    have e : {a | ¬((a ∉ {x | (x - loc) / scale ∈ S}) → (f.locScale loc scale).pdf a = 0)} ⊆
        (fun x => loc + scale * x) '' {a | ¬(a ∉ S → f.pdf a = 0)} := by
      intro x hx
      simp only [mem_ofPred_eq, Classical.not_imp] at hx
      refine ⟨(x - loc) / scale, ?_, by field_simp; ring⟩
      simp only [mem_ofPred_eq, Classical.not_imp]
      refine ⟨hx.1, fun h => hx.2 ?_⟩
      simp only [Frozen.locScale, h, zero_div]
    refine measure_mono_null e ?_
    have : (fun x : ℝ => loc + scale * x) '' {a | ¬(a ∉ S → f.pdf a = 0)} =
        (fun y => loc + y) '' ((fun x => scale * x) '' {a | ¬(a ∉ S → f.pdf a = 0)}) := by
      rw [image_image]
    rw [this, Set.image_add_left]
    rw [measure_preimage_add]
    have := Measure.addHaar_image_continuousLinearMap (μ := (volume : Measure ℝ)) (scale • ContinuousLinearMap.id ℝ ℝ) {a | ¬(a ∉ S → f.pdf a = 0)}
    simp only [h0, mul_zero] at this
    exact this

end Pystra
