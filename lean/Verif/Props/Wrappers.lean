import Verif.Spec.Wrappers
import Verif.Lemmas.Families
import Mathlib.MeasureTheory.Constructions.Pi
import Mathlib.Probability.ProbabilityMassFunction.Basic

/-! Properties C16–C18: maxima, parents of maxima and zero-inflated mixtures. -/

namespace Pystra.Props
open Real MeasureTheory Set Filter Topology Distribution ProbabilityTheory

theorem ppfBySearch_eq {fmin : Minimiser} (hf : Spec.Minimises fmin) {F : ℝ → ℝ} {p : ℝ} (h : ∃ x, F x = p) :
    F (ppfBySearch fmin F p) = p := by
  obtain ⟨y, hy⟩ := h
  have h0 : zeroDistn F p y = 0 := by simp [zeroDistn, hy]
  have := hf (zeroDistn F p) ⟨y, fun x => by rw [h0]; exact abs_nonneg _⟩ y
  rw [h0] at this
  have h2 : zeroDistn F p (fmin (zeroDistn F p)) = 0 := le_antisymm this (abs_nonneg _)
  exact sub_eq_zero.1 (abs_eq_zero.1 h2)

/-- C16: `N < 1` is rejected, `N ≥ 1` accepted, and the cdf is the `N`-th power of the parent's. -/
theorem C16_ctor (fmin : Minimiser) (stats : ℝ × ℝ) (parent : Marginal) (N : ℝ) (sp : Option ℝ) :
    (N < 1 → Maximum.new fmin stats parent N sp = .error .exception) ∧
    (1 ≤ N → ∃ m, Maximum.new fmin stats parent N sp = .ok m ∧ ∀ x, m.cdf x = parent.cdf x ^ N) := by
  constructor
  · intro h; unfold Maximum.new; rw [if_pos h]
  · intro h; unfold Maximum.new; rw [if_neg (not_lt.2 h)]; exact ⟨_, rfl, fun _ => rfl⟩

/-- C16: for an integer exponent the cdf is that of the largest of `n` independent copies of the parent. -/
theorem C16_max_of_copies (fmin : Minimiser) (stats : ℝ × ℝ) (parent : Marginal) (n : ℕ) (sp : Option ℝ)
    (m : Marginal) (hm : Maximum.new fmin stats parent n sp = .ok m)
    (μ : Measure ℝ) [IsProbabilityMeasure μ] (hμ : ∀ x, parent.cdf x = cdf μ x) (x : ℝ) :
    m.cdf x = (Measure.pi (fun _ : Fin n => μ)).real {v | ∀ i, v i ≤ x} := by
  unfold Maximum.new at hm
  split at hm
  · cases hm
  · injection hm with hm; subst hm
    have e : {v : Fin n → ℝ | ∀ i, v i ≤ x} = Set.pi univ (fun _ => Iic x) := by
      ext v; simp [Pi.le_def]
    show Maximum.cdf parent n x = _
    rw [e, measureReal_def, Measure.pi_pi, Maximum.cdf, hμ, cdf_eq_real, measureReal_def, rpow_natCast]
    simp

/-- C16: the pdf is the derivative of the cdf wherever that holds for the parent. -/
theorem C16_pdf (fmin : Minimiser) (stats : ℝ × ℝ) (parent : Marginal) (N : ℝ) (sp : Option ℝ)
    (m : Marginal) (hm : Maximum.new fmin stats parent N sp = .ok m) (x : ℝ)
    (hd : HasDerivAt parent.cdf (parent.pdf x) x) : HasDerivAt m.cdf (m.pdf x) x := by
  unfold Maximum.new at hm
  split at hm
  · cases hm
  · next h =>
    injection hm with hm; subst hm
    have hN : 1 ≤ N := not_lt.1 h
    have := (hasDerivAt_rpow_const (x := parent.cdf x) (p := N) (Or.inr hN)).comp x hd
    refine HasDerivAt.congr_deriv (f := Maximum.cdf parent N) this ?_
    show _ = Maximum.pdf parent N x
    unfold Maximum.pdf
    rcases hN.eq_or_lt with e | e
    · rw [if_neg (by rw [← e]; norm_num), ← e]; simp
    · rw [if_pos e]; ring

/-- C16, C12: `ppf` inverts the cdf at every attained probability, so with a continuous strictly increasing
parent on `S` the object has the round-trip and Jacobian properties. -/
theorem C16_inverse (fmin : Minimiser) (hf : Spec.Minimises fmin) (stats : ℝ × ℝ) (parent : Marginal) (N : ℝ)
    (sp : Option ℝ) (m : Marginal) (hm : Maximum.new fmin stats parent N sp = .ok m) (S : Set ℝ) (hS : IsOpen S)
    (h01 : ∀ x ∈ S, 0 < parent.cdf x ∧ parent.cdf x < 1) (hmono : StrictMonoOn parent.cdf S)
    (hout : ∀ x ∉ S, parent.cdf x = 0 ∨ parent.cdf x = 1) (hsurj : ∀ p, 0 < p → p < 1 → ∃ x, parent.cdf x = p)
    (hd : ∀ x ∈ S, HasDerivAt parent.cdf (parent.pdf x) x) :
    (∀ p, 0 < p → p < 1 → m.cdf (m.ppf p) = p) ∧ Spec.RoundTrip m S ∧ Spec.JacobianCorrect m S := by
  have hpdf := C16_pdf fmin stats parent N sp m hm
  unfold Maximum.new at hm
  split at hm
  · cases hm
  · next h =>
    injection hm with hm; subst hm
    have hN : 1 ≤ N := not_lt.1 h
    have hN0 : 0 < N := by linarith
    have hs : ∀ p, 0 < p → p < 1 → ∃ x, Maximum.cdf parent N x = p := fun p h0 h1 => by
      obtain ⟨x, hx⟩ := hsurj (p ^ (1 / N)) (rpow_pos_of_pos h0 _) (rpow_lt_one h0.le h1 (by positivity))
      refine ⟨x, ?_⟩
      rw [Maximum.cdf, hx, ← rpow_mul h0.le, one_div_mul_cancel hN0.ne', rpow_one]
    have hq : ∀ p, 0 < p → p < 1 → Maximum.cdf parent N (ppfBySearch fmin (Maximum.cdf parent N) p) = p :=
      fun p h0 h1 => ppfBySearch_eq hf (hs p h0 h1)
    have hr : Regular ⟨Maximum.pdf parent N, Maximum.cdf parent N, ppfBySearch fmin (Maximum.cdf parent N)⟩ S := by
      refine ⟨?_, ?_, ?_, ?_⟩
      · intro x hx
        obtain ⟨a, b⟩ := h01 x hx
        exact ⟨rpow_pos_of_pos a _, rpow_lt_one a.le b hN0⟩
      · intro x hx y hy hxy
        exact rpow_lt_rpow (h01 x hx).1.le (hmono hx hy hxy) hN0
      · intro p h0 h1
        refine ⟨?_, hq p h0 h1⟩
        by_contra hc
        have := hq p h0 h1
        rcases hout _ hc with e | e
        · rw [Maximum.cdf, e, zero_rpow hN0.ne'] at this; exact h0.ne this
        · rw [Maximum.cdf, e, one_rpow] at this; exact h1.ne' this
      · intro x hx; exact hpdf x (hd x hx)
    exact ⟨hq, roundTrip_of_regular hr _ (fun _ => rfl) (fun _ _ => rfl),
      jacobian_of_regular hr hS _ (fun _ _ => rfl) (fun _ _ _ => rfl)⟩

/-- Non-vacuity for C16: the hypotheses hold for the maximum of 50 standard normals. -/
example (fmin : Minimiser) (hf : Spec.Minimises fmin) : ∃ parent m, Normal.new 0 (.fin 1) none = .ok parent ∧
    Maximum.new fmin (0, 1) parent 50 none = .ok m ∧ Spec.RoundTrip m univ := by
  refine ⟨_, _, rfl, by unfold Maximum.new; rw [if_neg (by norm_num)], ?_⟩
  have hc : Normal.cdf 0 1 = StdNormal.cdf := by funext x; simp [Normal.cdf]
  refine (C16_inverse fmin hf (0, 1) _ 50 none _ (by unfold Maximum.new; rw [if_neg (by norm_num)]) univ
    isOpen_univ ?_ ?_ (by simp) ?_ ?_).2.1
  · intro x _; simp only [hc]; exact ⟨StdNormal.cdf_pos x, StdNormal.cdf_lt_one x⟩
  · simp only [hc]; exact StdNormal.strictMono_cdf.strictMonoOn _
  · intro p h0 h1; simp only [hc]; exact ⟨_, StdNormal.cdf_ppf h0 h1⟩
  · intro x _
    simp only [hc]
    have : Normal.pdf 0 1 x = StdNormal.pdf x := by simp [Normal.pdf]
    rw [this]; exact StdNormal.hasDerivAt_cdf x

/-- C17: `N < 1` is rejected; otherwise the cdf is the `N`-th root of the maximum's cdf. -/
theorem C17_ctor (fmin : Minimiser) (stats : ℝ × ℝ) (mx : Marginal) (N : ℝ) (sp : Option ℝ) :
    (N < 1 → MaxParent.new fmin stats mx N sp = .error .exception) ∧
    (1 ≤ N → ∃ m, MaxParent.new fmin stats mx N sp = .ok m ∧ ∀ x, m.cdf x = mx.cdf x ^ (1 / N)) := by
  constructor
  · intro h; unfold MaxParent.new; rw [if_pos h]
  · intro h; unfold MaxParent.new; rw [if_neg (not_lt.2 h)]; exact ⟨_, rfl, fun _ => rfl⟩

/-- C17: the pdf is the derivative of the cdf where the maximum has positive cdf. -/
theorem C17_pdf (fmin : Minimiser) (stats : ℝ × ℝ) (mx : Marginal) (N : ℝ) (sp : Option ℝ)
    (m : Marginal) (hm : MaxParent.new fmin stats mx N sp = .ok m) (x : ℝ) (hx : 0 < mx.cdf x)
    (hd : HasDerivAt mx.cdf (mx.pdf x) x) : HasDerivAt m.cdf (m.pdf x) x := by
  unfold MaxParent.new at hm
  split at hm
  · cases hm
  · next h =>
    injection hm with hm; subst hm
    have hN : 1 ≤ N := not_lt.1 h
    have hN0 : 0 < N := by linarith
    have := (hasDerivAt_rpow_const (x := mx.cdf x) (p := 1 / N) (Or.inl hx.ne')).comp x hd
    refine HasDerivAt.congr_deriv (f := MaxParent.cdf mx N) this ?_
    show _ = MaxParent.pdf mx N x
    unfold MaxParent.pdf MaxParent.cdf
    rw [← rpow_mul hx.le, show 1 / N - 1 = -(1 / N * (N - 1)) by field_simp; ring, rpow_neg hx.le]
    field_simp

/-- C17: `ppf` inverts the cdf, with the round-trip and Jacobian properties. -/
theorem C17_inverse (fmin : Minimiser) (hf : Spec.Minimises fmin) (stats : ℝ × ℝ) (mx : Marginal) (N : ℝ)
    (sp : Option ℝ) (m : Marginal) (hm : MaxParent.new fmin stats mx N sp = .ok m) (S : Set ℝ) (hS : IsOpen S)
    (h01 : ∀ x ∈ S, 0 < mx.cdf x ∧ mx.cdf x < 1) (hmono : StrictMonoOn mx.cdf S)
    (hout : ∀ x ∉ S, mx.cdf x = 0 ∨ mx.cdf x = 1) (hsurj : ∀ p, 0 < p → p < 1 → ∃ x, mx.cdf x = p)
    (hd : ∀ x ∈ S, HasDerivAt mx.cdf (mx.pdf x) x) :
    (∀ p, 0 < p → p < 1 → m.cdf (m.ppf p) = p) ∧ Spec.RoundTrip m S ∧ Spec.JacobianCorrect m S := by
  have hpdf := C17_pdf fmin stats mx N sp m hm
  unfold MaxParent.new at hm
  split at hm
  · cases hm
  · next h =>
    injection hm with hm; subst hm
    have hN : 1 ≤ N := not_lt.1 h
    have hN0 : 0 < N := by linarith
    have hN1 : 0 < 1 / N := by positivity
    have hs : ∀ p, 0 < p → p < 1 → ∃ x, MaxParent.cdf mx N x = p := fun p h0 h1 => by
      obtain ⟨x, hx⟩ := hsurj (p ^ N) (rpow_pos_of_pos h0 _) (rpow_lt_one h0.le h1 (by positivity))
      refine ⟨x, ?_⟩
      rw [MaxParent.cdf, hx, ← rpow_mul h0.le, mul_one_div_cancel hN0.ne', rpow_one]
    have hq : ∀ p, 0 < p → p < 1 → MaxParent.cdf mx N (ppfBySearch fmin (MaxParent.cdf mx N) p) = p :=
      fun p h0 h1 => ppfBySearch_eq hf (hs p h0 h1)
    have hr : Regular ⟨MaxParent.pdf mx N, MaxParent.cdf mx N, ppfBySearch fmin (MaxParent.cdf mx N)⟩ S := by
      refine ⟨?_, ?_, ?_, ?_⟩
      · intro x hx
        obtain ⟨a, b⟩ := h01 x hx
        exact ⟨rpow_pos_of_pos a _, rpow_lt_one a.le b hN1⟩
      · intro x hx y hy hxy
        exact rpow_lt_rpow (h01 x hx).1.le (hmono hx hy hxy) hN1
      · intro p h0 h1
        refine ⟨?_, hq p h0 h1⟩
        by_contra hc
        have := hq p h0 h1
        rcases hout _ hc with e | e
        · rw [MaxParent.cdf, e, zero_rpow hN1.ne'] at this; exact h0.ne this
        · rw [MaxParent.cdf, e, one_rpow] at this; exact h1.ne' this
      · intro x hx; exact hpdf x (h01 x hx).1 (hd x hx)
    exact ⟨hq, roundTrip_of_regular hr _ (fun _ => rfl) (fun _ _ => rfl),
      jacobian_of_regular hr hS _ (fun _ _ => rfl) (fun _ _ _ => rfl)⟩

/-- C17: `Maximum` and `MaxParent` with the same exponent undo each other (cdf, and pdf where the cdf is
positive). -/
theorem C17_undo (fmin : Minimiser) (st1 st2 : ℝ × ℝ) (d : Marginal) (N : ℝ) (sp1 sp2 : Option ℝ) (a b : Marginal) :
    (MaxParent.new fmin st1 d N sp1 = .ok a → Maximum.new fmin st2 a N sp2 = .ok b →
      ∀ x, 0 ≤ d.cdf x → b.cdf x = d.cdf x ∧ (0 < d.cdf x → b.pdf x = d.pdf x)) ∧
    (Maximum.new fmin st1 d N sp1 = .ok a → MaxParent.new fmin st2 a N sp2 = .ok b →
      ∀ x, 0 ≤ d.cdf x → b.cdf x = d.cdf x ∧ (0 < d.cdf x → b.pdf x = d.pdf x)) := by
  constructor
  · intro ha hb x hx
    unfold MaxParent.new at ha
    unfold Maximum.new at hb
    split at ha
    · cases ha
    · next h =>
      rw [if_neg h] at hb
      injection ha with ha; injection hb with hb
      subst ha; subst hb
      have hN0 : 0 < N := by linarith [not_lt.1 h]
      refine ⟨?_, fun hp => ?_⟩
      · show Maximum.cdf _ N x = _
        simp only [Maximum.cdf, MaxParent.cdf]
        rw [← rpow_mul hx, one_div_mul_cancel hN0.ne', rpow_one]
      · show Maximum.pdf _ N x = _
        simp only [Maximum.pdf, MaxParent.pdf, MaxParent.cdf]
        have hc : 0 < (d.cdf x ^ (1 / N)) ^ (N - 1) := rpow_pos_of_pos (rpow_pos_of_pos hp _) _
        by_cases hN : N > 1
        · rw [if_pos hN]; field_simp
        · have : N = 1 := le_antisymm (not_lt.1 hN) (not_lt.1 h)
          subst this; simp
  · intro ha hb x hx
    unfold Maximum.new at ha
    unfold MaxParent.new at hb
    split at ha
    · cases ha
    · next h =>
      rw [if_neg h] at hb
      injection ha with ha; injection hb with hb
      subst ha; subst hb
      have hN0 : 0 < N := by linarith [not_lt.1 h]
      have hcdf : (d.cdf x ^ N) ^ (1 / N) = d.cdf x := by
        rw [← rpow_mul hx, mul_one_div_cancel hN0.ne', rpow_one]
      refine ⟨?_, fun hp => ?_⟩
      · show MaxParent.cdf _ N x = _
        simp only [Maximum.cdf, MaxParent.cdf]; exact hcdf
      · show MaxParent.pdf _ N x = _
        simp only [Maximum.pdf, MaxParent.pdf, MaxParent.cdf, Maximum.cdf]
        rw [hcdf]
        have hc : 0 < d.cdf x ^ (N - 1) := rpow_pos_of_pos hp _
        by_cases hN : N > 1
        · rw [if_pos hN]; field_simp
        · have : N = 1 := le_antisymm (not_lt.1 hN) (not_lt.1 h)
          subst this; simp

/-! Zero-inflated mixtures -/

/-- C18: the constructor accepts exactly `0 ≤ p < 1`. -/
theorem C18_ctor (d : Marginal) (p : ℝ) (sp : Option ℝ) :
    (∃ m, ZeroInflated.new d p sp = .ok m) ↔ 0 ≤ p ∧ p < 1 := by
  unfold ZeroInflated.new
  constructor
  · rintro ⟨m, h⟩
    split at h
    · cases h
    · split at h
      · cases h
      · next h1 h2 => exact ⟨not_lt.1 h1, not_le.1 h2⟩
  · rintro ⟨h1, h2⟩
    rw [if_neg (not_lt.2 h1), if_neg (not_le.2 h2)]; exact ⟨_, rfl⟩

/-- C18: the mixture is a probability law with an atom of mass `p` at 0 (when the parent has none), whose cdf is
the object's cdf at every point outside the window `(-1e-6, 0)`; inside the window the object's cdf is too large
by exactly `p`. -/
theorem C18_law (d : Marginal) (p : ℝ) (sp : Option ℝ) (m : Marginal) (hm : ZeroInflated.new d p sp = .ok m)
    (μ : Measure ℝ) [IsProbabilityMeasure μ] (hμ : ∀ x, d.cdf x = cdf μ x) :
    IsProbabilityMeasure (Spec.zeroInflate μ p) ∧
    (μ {0} = 0 → (Spec.zeroInflate μ p).real {0} = p) ∧
    (∀ x, x ∉ Ioo (-1e-6 : ℝ) 0 → m.cdf x = cdf (Spec.zeroInflate μ p) x) ∧
    (∀ x, x ∈ Ioo (-1e-6 : ℝ) 0 → m.cdf x = cdf (Spec.zeroInflate μ p) x + p) := by
  obtain ⟨h0, h1⟩ := (C18_ctor d p sp).1 ⟨m, hm⟩
  have hq : 0 ≤ 1 - p := by linarith
  have hP : IsProbabilityMeasure (Spec.zeroInflate μ p) := by
    constructor
    simp only [Spec.zeroInflate, Measure.coe_add, Measure.coe_smul, Pi.add_apply, Pi.smul_apply, measure_univ,
      smul_eq_mul, mul_one]
    rw [← ENNReal.ofReal_add h0 hq, add_sub_cancel, ENNReal.ofReal_one]
  have hreal : ∀ s, MeasurableSet s → (Spec.zeroInflate μ p).real s = p * (Measure.dirac (0:ℝ)).real s + (1 - p) * μ.real s := by
    intro s _
    simp only [Spec.zeroInflate, measureReal_def, Measure.coe_add, Measure.coe_smul, Pi.add_apply, Pi.smul_apply,
      smul_eq_mul]
    rw [ENNReal.toReal_add (ENNReal.mul_ne_top ENNReal.ofReal_ne_top (measure_ne_top _ _))
      (ENNReal.mul_ne_top ENNReal.ofReal_ne_top (measure_ne_top _ _)), ENNReal.toReal_mul, ENNReal.toReal_mul,
      ENNReal.toReal_ofReal h0, ENNReal.toReal_ofReal hq]
  have hcdf : ∀ x, cdf (Spec.zeroInflate μ p) x = (if 0 ≤ x then p else 0) + (1 - p) * d.cdf x := by
    intro x
    rw [cdf_eq_real, hreal _ measurableSet_Iic, hμ, cdf_eq_real, measureReal_def (Measure.dirac 0),
      Measure.dirac_apply' _ measurableSet_Iic]
    by_cases hx : 0 ≤ x
    · rw [if_pos hx, indicator_of_mem (by exact hx)]; simp
    · rw [if_neg hx, indicator_of_notMem (by exact hx)]; simp
  have hcode : ∀ x, m.cdf x = d.cdf x * (1 - p) + (if -1e-6 < x then p else 0) := by
    unfold ZeroInflated.new at hm
    rw [if_neg (not_lt.2 h0), if_neg (not_le.2 h1)] at hm
    injection hm with hm; subst hm
    intro x; rfl
  refine ⟨hP, ?_, ?_, ?_⟩
  · intro h
    rw [hreal _ (measurableSet_singleton 0), measureReal_def, measureReal_def, h]
    simp
  · intro x hx
    rw [hcode, hcdf]
    by_cases h : 0 ≤ x
    · rw [if_pos h, if_pos (by norm_num; linarith)]; ring
    · have : ¬-1e-6 < x := fun h' => hx ⟨h', not_le.1 h⟩
      rw [if_neg h, if_neg this]; ring
  · intro x hx
    rw [hcode, hcdf, if_pos hx.1, if_neg (not_le.2 hx.2)]; ring

/-- C18: the attributes `mean` and `stdv` are the mean and standard deviation of the mixture. -/
theorem C18_moments (d : Marginal) (p : ℝ) (sp : Option ℝ) (m : Marginal) (hm : ZeroInflated.new d p sp = .ok m)
    (μ : Measure ℝ) [IsProbabilityMeasure μ] (h1 : Integrable (fun x => x) μ) (h2 : Integrable (fun x => x ^ 2) μ)
    (hmean : ∫ x, x ∂μ = d.mean) (hvar : ∫ x, (x - d.mean) ^ 2 ∂μ = d.stdv ^ 2) :
    ∫ x, x ∂(Spec.zeroInflate μ p) = m.mean ∧ √(∫ x, (x - m.mean) ^ 2 ∂(Spec.zeroInflate μ p)) = m.stdv := by
  obtain ⟨h0, hp1⟩ := (C18_ctor d p sp).1 ⟨m, hm⟩
  have hq : 0 ≤ 1 - p := by linarith
  have hint : ∀ g : ℝ → ℝ, Integrable g μ → ∫ x, g x ∂(Spec.zeroInflate μ p) = p * g 0 + (1 - p) * ∫ x, g x ∂μ := by
    intro g hg
    unfold Spec.zeroInflate
    have hd : Integrable g (Measure.dirac (0:ℝ)) := integrable_dirac (by simp [enorm_lt_top])
    rw [integral_add_measure (hd.smul_measure ENNReal.ofReal_ne_top) (hg.smul_measure ENNReal.ofReal_ne_top),
      integral_smul_measure, integral_smul_measure, integral_dirac, ENNReal.toReal_ofReal h0,
      ENNReal.toReal_ofReal hq, smul_eq_mul, smul_eq_mul]
  have hm1 : m.mean = (1 - p) * d.mean ∧
      m.stdv = √((1 - p) * d.stdv ^ 2 + p * (1 - p) * d.mean ^ 2) := by
    unfold ZeroInflated.new at hm
    rw [if_neg (not_lt.2 h0), if_neg (not_le.2 hp1)] at hm
    injection hm with hm; subst hm
    exact ⟨rfl, rfl⟩
  have hcent : ∀ c, Integrable (fun x => (x - c) ^ 2) μ ∧ ∫ x, (x - c) ^ 2 ∂μ = ∫ x, x ^ 2 ∂μ - 2 * c * ∫ x, x ∂μ + c ^ 2 := by
    intro c
    have e : (fun x : ℝ => (x - c) ^ 2) = fun x => (x ^ 2 - 2 * c * x) + c ^ 2 := by funext x; ring
    have i1 : Integrable (fun x : ℝ => x ^ 2 - 2 * c * x) μ := h2.sub (h1.const_mul _)
    rw [e]
    refine ⟨i1.add (integrable_const _), ?_⟩
    rw [integral_add i1 (integrable_const _), integral_sub h2 (h1.const_mul _), integral_const_mul]
    simp
  have e2 : ∫ x, x ^ 2 ∂μ = d.stdv ^ 2 + d.mean ^ 2 := by
    have := (hcent d.mean).2
    rw [hvar, hmean] at this; linarith
  refine ⟨?_, ?_⟩
  · rw [hint _ h1, hmean, hm1.1]; ring
  · rw [hm1.2, hint _ (hcent m.mean).1, (hcent m.mean).2, e2, hmean, hm1.1]
    congr 1; ring

/-- C18: `ppf` is the generalised inverse of the object's cdf outside the window, at every probability except the
two jump ends, for a parent whose `ppf` is the generalised inverse of its cdf. -/
theorem C18_ppf (d : Marginal) (p : ℝ) (sp : Option ℝ) (m : Marginal) (hm : ZeroInflated.new d p sp = .ok m)
    (hmono : Monotone d.cdf) (h01 : ∀ x, 0 ≤ d.cdf x ∧ d.cdf x ≤ 1)
    (hd : ∀ s, 0 < s → s < 1 → Spec.QuantileAt d.cdf d.ppf s ∅)
    (t : ℝ) (h0 : 0 < t) (h1 : t < 1) (ht : t ≠ (1 - p) * d.cdf 0) (ht' : t ≠ (1 - p) * d.cdf 0 + p) :
    Spec.QuantileAt m.cdf m.ppf t (Ioo (-1e-6) 0) := by
  obtain ⟨hp0, hp1⟩ := (C18_ctor d p sp).1 ⟨m, hm⟩
  have hq : 0 < 1 - p := by linarith
  unfold ZeroInflated.new at hm
  rw [if_neg (not_lt.2 hp0), if_neg (not_le.2 hp1)] at hm
  injection hm with hm; subst hm
  intro x hx
  show t ≤ ZeroInflated.cdf d p x ↔ ZeroInflated.ppf d p t ≤ x
  have hcode : ZeroInflated.cdf d p x = d.cdf x * (1 - p) + (if 0 ≤ x then p else 0) := by
    unfold ZeroInflated.cdf
    by_cases h : 0 ≤ x
    · rw [if_pos h, if_pos (by unfold ZeroInflated.zeroTol; norm_num; linarith)]
    · have : ¬-ZeroInflated.zeroTol < x := fun h' => hx ⟨h', not_le.1 h⟩
      rw [if_neg h, if_neg this]
  rw [hcode]
  unfold ZeroInflated.ppf
  simp only
  have hp00 : 0 ≤ (1 - p) * d.cdf 0 := mul_nonneg hq.le (h01 0).1
  have hneg : x < 0 → d.cdf x * (1 - p) ≤ (1 - p) * d.cdf 0 := fun h => by
    rw [mul_comm]; exact mul_le_mul_of_nonneg_left (hmono h.le) hq.le
  have hpos : 0 ≤ x → (1 - p) * d.cdf 0 ≤ d.cdf x * (1 - p) := fun h => by
    rw [mul_comm]; exact mul_le_mul_of_nonneg_right (hmono h) hq.le
  by_cases c1 : t ≥ (1 - p) * d.cdf 0 + p
  · rw [if_pos c1]
    have c1' : (1 - p) * d.cdf 0 + p < t := lt_of_le_of_ne c1 (Ne.symm ht')
    have hQ := hd ((t - p) / (1 - p)) (div_pos (by linarith) hq) (by rw [div_lt_one hq]; linarith)
    rw [← hQ x (by simp), div_le_iff₀ hq]
    by_cases h : 0 ≤ x
    · rw [if_pos h]; constructor <;> intro h <;> linarith
    · rw [if_neg h]
      have := hneg (not_le.1 h)
      constructor <;> intro h <;> linarith
  · rw [if_neg c1]
    by_cases c2 : (1 - p) * d.cdf 0 < t ∧ t < (1 - p) * d.cdf 0 + p
    · rw [if_pos c2]
      by_cases h : 0 ≤ x
      · rw [if_pos h]
        have := hpos h
        exact ⟨fun _ => h, fun _ => by linarith [c2.2]⟩
      · rw [if_neg h]
        have := hneg (not_le.1 h)
        exact ⟨fun h' => by linarith [c2.1], fun h' => absurd h' h⟩
    · rw [if_neg c2]
      have c3 : t < (1 - p) * d.cdf 0 := by
        by_contra hc
        exact c2 ⟨lt_of_le_of_ne (not_lt.1 hc) (Ne.symm ht), not_le.1 c1⟩
      rw [if_pos c3]
      have hle : (1 - p) * d.cdf 0 ≤ 1 - p := by
        have := mul_le_mul_of_nonneg_left (h01 0).2 hq.le; linarith
      have hQ := hd (t / (1 - p)) (div_pos h0 hq) (by rw [div_lt_one hq]; linarith)
      rw [← hQ x (by simp), div_le_iff₀ hq]
      by_cases h : 0 ≤ x
      · rw [if_pos h]
        have := hpos h
        constructor <;> intro h <;> linarith
      · rw [if_neg h, add_zero]

/-- Non-vacuity for C18: a zero-inflated standard normal. -/
example : ∃ d m, Normal.new 0 (.fin 1) none = .ok d ∧ ZeroInflated.new d (1/4) none = .ok m ∧
    Spec.QuantileAt m.cdf m.ppf (1 / 2) (Ioo (-1e-6) 0) := by
  have hc : Normal.cdf 0 1 = StdNormal.cdf := by funext x; simp [Normal.cdf]
  have hp : Normal.ppf 0 1 = StdNormal.ppf := by funext x; simp [Normal.ppf]
  refine ⟨_, _, rfl, by unfold ZeroInflated.new; rw [if_neg (by norm_num), if_neg (by norm_num)], ?_⟩
  refine C18_ppf _ (1/4) none _ (by unfold ZeroInflated.new; rw [if_neg (by norm_num), if_neg (by norm_num)])
    ?_ ?_ ?_ _ (by norm_num) (by norm_num) ?_ ?_
  · simp only [hc]; exact StdNormal.strictMono_cdf.monotone
  · simp only [hc]; exact fun x => ⟨(StdNormal.cdf_pos x).le, (StdNormal.cdf_lt_one x).le⟩
  · intro s h0 h1 x _
    simp only [hc, hp]
    constructor
    · intro h
      by_contra hlt
      have := StdNormal.strictMono_cdf (not_le.1 hlt)
      rw [StdNormal.cdf_ppf h0 h1] at this; linarith
    · intro h
      have := StdNormal.strictMono_cdf.monotone h
      rwa [StdNormal.cdf_ppf h0 h1] at this
  · simp only [hc, StdNormal.cdf_zero]; norm_num
  · simp only [hc, StdNormal.cdf_zero]; norm_num

/-- C18 (finding): the reported pdf adds the *mass* `p` to the density on the window, so it does not integrate to
one when `p > 0`: its integral is `1 - p + 2e-6·p`. -/
theorem C18_pdf_not_density (d : Marginal) (p : ℝ) (sp : Option ℝ) (m : Marginal)
    (hm : ZeroInflated.new d p sp = .ok m) (hint : Integrable d.pdf) (h1 : ∫ x, d.pdf x = 1) :
    ∫ x, m.pdf x = 1 - p + 2e-6 * p ∧ (0 < p → ∫ x, m.pdf x ≠ 1) := by
  obtain ⟨hp0, hp1⟩ := (C18_ctor d p sp).1 ⟨m, hm⟩
  unfold ZeroInflated.new at hm
  rw [if_neg (not_lt.2 hp0), if_neg (not_le.2 hp1)] at hm
  injection hm with hm; subst hm
  have e : ∫ x, ZeroInflated.pdf d p x = 1 - p + 2e-6 * p := by
    have e1 : ZeroInflated.pdf d p = fun x => d.pdf x * (1 - p) +
        (Ioo (-ZeroInflated.zeroTol) ZeroInflated.zeroTol).indicator (fun _ => p) x := by
      funext x
      unfold ZeroInflated.pdf
      by_cases h : x ∈ Ioo (-ZeroInflated.zeroTol) ZeroInflated.zeroTol
      · rw [indicator_of_mem h]; rw [mem_Ioo] at h; rw [if_pos h]
      · rw [indicator_of_notMem h]; rw [mem_Ioo] at h; rw [if_neg h]
    rw [e1, integral_add (hint.mul_const _), integral_mul_const, h1, integral_indicator measurableSet_Ioo]
    · simp [ZeroInflated.zeroTol]; norm_num
    · rw [integrable_indicator_iff measurableSet_Ioo]
      exact integrableOn_const (by simp) (by simp)
  refine ⟨e, fun hp => ?_⟩
  show ∫ x, ZeroInflated.pdf d p x ≠ 1
  rw [e]; intro h; norm_num at h; linarith

/-- C18: `set_zero_probability(p)` with an admissible `p` turns the object into the one that the constructor would make for `p`, with the start
point it had: mean, standard deviation, cdf, ppf and transformation all belong to the new probability. -/
theorem C18_set {d m : Marginal} {p0 : ℝ} {sp : Option ℝ} (_hm : ZeroInflated.new d p0 sp = .ok m) {p : ℝ} (h0 : 0 ≤ p) (h1 : p < 1) :
    ZeroInflated.new d p (some m.startpoint) = .ok (ZeroInflated.setZeroProbability m d p) ∧
    (ZeroInflated.setZeroProbability m d p).mean = (1 - p) * d.mean ∧
    (ZeroInflated.setZeroProbability m d p).stdv ^ 2 = (1 - p) * d.stdv ^ 2 + p * (1 - p) * d.mean ^ 2 := by
  refine ⟨?_, rfl, ?_⟩
  · unfold ZeroInflated.new
    rw [if_neg (not_lt.2 h0), if_neg (not_le.2 h1)]
    rfl
  · refine Real.sq_sqrt ?_
    have hq : 0 ≤ 1 - p := by linarith
    positivity

/-- A case: from 0.3 to 0.6. -/
example (d : Marginal) : ∃ m, ZeroInflated.new d 0.3 none = .ok m ∧ (ZeroInflated.setZeroProbability m d 0.6).mean = 0.4 * d.mean := by
  obtain ⟨m, hm⟩ : ∃ m, ZeroInflated.new d 0.3 none = .ok m := (C18_ctor d 0.3 none).2 (by norm_num)
  exact ⟨m, hm, by rw [(C18_set hm (p := 0.6) (by norm_num) (by norm_num)).2.1]; norm_num⟩

/-- C18 (finding): `set_zero_probability` performs no range check; with `p = 2` the cdf exceeds one wherever the
parent's cdf is below one and `x ≥ 0`. -/
theorem C18_set_unchecked (m d : Marginal) (x : ℝ) (hx : 0 ≤ x) (h : d.cdf x < 1) :
    1 < (ZeroInflated.setZeroProbability m d 2).cdf x := by
  show 1 < ZeroInflated.cdf d 2 x
  unfold ZeroInflated.cdf
  rw [if_pos (by unfold ZeroInflated.zeroTol; norm_num; linarith)]
  linarith

end Pystra.Props
