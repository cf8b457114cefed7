import Verif.Props.MutableWrap

/-! C73: `sample(n)`. -/

namespace Pystra.Props
open Mutable Spec.Mut Distribution Real MeasureTheory Set

variable (E : Mutable.Env)

/-- C73: `sample(n)` returns `ppf` at the next `n` numbers of the uniform stream, in order, changes no object and
advances the stream by `n`: two calls in a row share no number. -/
theorem C73_values (w : World) (i n : ℕ) (m : Marginal) (hm : view E w.objs i = some m) :
    ∃ xs w', sample E n w i = (some xs, w') ∧ xs.length = n ∧ (∀ k (h : k < xs.length), xs[k] = m.ppf (E.υ (w.pos + k))) ∧
      w'.objs = w.objs ∧ w'.pos = w.pos + n := by
  refine ⟨(List.range n).map fun k => m.ppf (E.υ (w.pos + k)), ⟨w.objs, w.pos + n⟩, ?_, by simp, ?_, rfl, rfl⟩
  · simp only [sample, hm, Option.map_some]
  intro k h
  simp

/-- C73: two samples drawn one after the other use disjoint parts of the stream. -/
theorem C73_consecutive (w : World) (i j n n' : ℕ) (m m' : Marginal) (hm : view E w.objs i = some m)
    (hm' : view E w.objs j = some m') :
    ∃ xs ys, (sample E n w i).1 = some xs ∧ (sample E n' (sample E n w i).2 j).1 = some ys ∧
      (∀ k (h : k < xs.length), xs[k] = m.ppf (E.υ (w.pos + k))) ∧
      ∀ k (h : k < ys.length), ys[k] = m'.ppf (E.υ (w.pos + n + k)) := by
  obtain ⟨xs, w', h1, -, h2, h3, h4⟩ := C73_values E w i n m hm
  obtain ⟨ys, w'', k1, -, k2, -⟩ := C73_values E w' j n' m' (by rw [h3]; exact hm')
  refine ⟨xs, ys, by rw [h1], by rw [h1]; exact congrArg Prod.fst k1, h2, ?_⟩
  intro k h
  rw [k2 k h, h4]

/-- The uniform law on `(0, 1)`. -/
noncomputable def unif : Measure ℝ := volume.restrict (Ioo 0 1)

theorem unif_Ioc {c : ℝ} (h0 : 0 ≤ c) (h1 : c ≤ 1) : unif {p | p ≤ c} = ENNReal.ofReal c := by
  have e : {p : ℝ | p ≤ c} = Iic c := rfl
  rw [unif, Measure.restrict_congr_set Ioo_ae_eq_Ioc, e, Measure.restrict_apply measurableSet_Iic]
  have : Iic c ∩ Ioc 0 1 = Ioc 0 c := by
    ext p; simp only [mem_inter_iff, mem_Iic, mem_Ioc]; constructor
    · rintro ⟨a, b, _⟩; exact ⟨b, a⟩
    · rintro ⟨a, b⟩; exact ⟨b, a, b.trans h1⟩
  rw [this, Real.volume_Ioc, sub_zero]

instance : IsProbabilityMeasure unif := ⟨by
  rw [unif, Measure.restrict_apply MeasurableSet.univ, univ_inter, Real.volume_Ioo]; simp⟩

/-- C73: the law of a sample.  For an object whose `ppf` and `cdf` belong together (`ppf` is `u_to_x` after `Φ⁻¹`, `cdf` is
`Φ` after `x_to_u`, and the transformation is a bijection onto the support), `n` independent uniform numbers give `n`
independent values with distribution function `cdf`. -/
theorem C73_law (m : Marginal) (S : Set ℝ) (hS : Spec.RoundTrip m S)
    (hppf : ∀ p, 0 < p → p < 1 → m.ppf p = m.uToX (StdNormal.ppf p))
    (hcdf : ∀ x ∈ S, m.cdf x = StdNormal.cdf (m.xToU x)) (n : ℕ) (x : Fin n → ℝ) (hx : ∀ k, x k ∈ S) :
    (Measure.pi fun _ : Fin n => unif) {p | ∀ k, m.ppf (p k) ≤ x k} = ∏ k, ENNReal.ofReal (m.cdf (x k)) := by
  have one : ∀ y ∈ S, unif {p | m.ppf p ≤ y} = ENNReal.ofReal (m.cdf y) := by
    intro y hy
    have hc0 := StdNormal.cdf_pos (m.xToU y)
    have hc1 := StdNormal.cdf_lt_one (m.xToU y)
    rw [hcdf y hy, ← unif_Ioc hc0.le hc1.le]
    apply measure_congr
    have hae : ∀ᵐ p ∂unif, p ∈ Ioo (0:ℝ) 1 := ae_restrict_mem measurableSet_Ioo
    filter_upwards [hae] with p hp
    apply propext
    show m.ppf p ≤ y ↔ p ≤ StdNormal.cdf (m.xToU y)
    rw [hppf p hp.1 hp.2]
    conv_lhs => rw [← hS.right y hy, hS.mono_x.le_iff_le]
    conv_rhs => rw [← StdNormal.cdf_ppf hp.1 hp.2, StdNormal.strictMono_cdf.le_iff_le]
  have e : {p : Fin n → ℝ | ∀ k, m.ppf (p k) ≤ x k} = Set.pi univ fun k => {p | m.ppf p ≤ x k} := by
    ext p; simp
  rw [e, Measure.pi_pi]
  exact Finset.prod_congr rfl fun k _ => one _ (hx k)

/-- C73: every class that only builds a frozen distribution meets the hypotheses of `C73_law` once `x_to_u` and
`u_to_x` are inverse to each other (C12) and its distribution function stays inside `(0, 1)` on the support. -/
theorem C73_scipy (f : Frozen) (sp : Option ℝ) (m : Marginal) (h : ScipyDist.new f sp = .ok m) (S : Set ℝ)
    (hS : Spec.RoundTrip m S) (h01 : ∀ x ∈ S, 0 < m.cdf x ∧ m.cdf x < 1) (n : ℕ) (x : Fin n → ℝ) (hx : ∀ k, x k ∈ S) :
    (Measure.pi fun _ : Fin n => unif) {p | ∀ k, m.ppf (p k) ≤ x k} = ∏ k, ENNReal.ofReal (m.cdf (x k)) := by
  have e : (∀ u, m.uToX u = m.ppf (StdNormal.cdf u)) ∧ ∀ x, m.xToU x = StdNormal.ppf (m.cdf x) := by
    simp only [ScipyDist.new, ofFrozen] at h
    split at h
    · cases h
    · simp only [Except.ok.injEq] at h
      rw [← h]
      exact ⟨fun _ => rfl, fun _ => rfl⟩
  refine C73_law m S hS ?_ ?_ n x hx
  · intro p h0 h1
    rw [e.1, StdNormal.cdf_ppf h0 h1]
  · intro x hx
    rw [e.2, StdNormal.cdf_ppf (h01 x hx).1 (h01 x hx).2]

/-- C73: `Normal.sample` — after any program (`C72_normal`) — follows the normal law with the mean and standard
deviation now in force. -/
theorem C73_normal (μ σ : ℝ) (hσ : 0 < σ) (sp : Option ℝ) (m : Marginal) (h : Normal.new μ (.fin σ) sp = .ok m) (n : ℕ)
    (x : Fin n → ℝ) :
    (Measure.pi fun _ : Fin n => unif) {p | ∀ k, m.ppf (p k) ≤ x k} =
      ∏ k, ENNReal.ofReal (StdNormal.cdf ((x k - μ) / σ)) := by
  obtain ⟨m', h1, -, -, -, hr, -⟩ := (good_normal μ hσ sp).ex
  rw [h] at h1
  cases h1
  have e : m.cdf = Normal.cdf μ σ ∧ m.ppf = Normal.ppf μ σ ∧ m.uToX = Normal.uToX μ σ ∧ m.xToU = Normal.xToU μ σ := by
    simp only [Normal.new, initMoments, updateMoments, Except.ok.injEq] at h
    rw [← h]
    exact ⟨rfl, rfl, rfl, rfl⟩
  have := C73_law m univ hr (fun p _ _ => by rw [e.2.1, e.2.2.1]; simp only [Normal.ppf, Normal.uToX]; ring)
    (fun x _ => by rw [e.1, e.2.2.2]; rfl) n x (fun _ => mem_univ _)
  rw [this, e.1]
  rfl

/-- C73 (finding): `Lognormal.sample` after the setters still follows the law the object was created with, not the one
its `cdf` describes. -/
theorem C73_lognormal_stale {μ σ : ℝ} (hμ : 0 < μ) (hσ : 0 < σ) (sp : Option ℝ) (old : Marginal)
    (h : Lognormal.new μ σ false sp = .ok old) (n : ℕ) (x : Fin n → ℝ) (hx : ∀ k, 0 < x k) (m : Marginal) :
    (Measure.pi fun _ : Fin n => unif) {p | ∀ k, ({ m with ppf := old.ppf } : Marginal).ppf (p k) ≤ x k} =
      ∏ k, ENNReal.ofReal (old.cdf (x k)) := by
  obtain ⟨m', h1, -, -, -, hr, -⟩ := (good_lognormal hμ hσ sp).ex
  rw [h] at h1
  cases h1
  obtain ⟨hz, -⟩ := lognormal_params_spec hμ hσ
  simp only [Lognormal.new, Bool.false_eq_true, if_false, Lognormal.ofParams] at h
  split at h
  · cases h
  simp only [Except.ok.injEq] at h
  refine C73_law old (Ioi 0) hr ?_ ?_ n x hx
  · intro p _ _
    rw [← h]
    simp only [Frozen.locScale, Frozen.lognorm, Lognormal.uToX]
    rw [zero_add, ← exp_add]
    ring_nf
  · intro x hx0
    rw [← h]
    show Lognormal.cdf _ _ _ = _
    rw [Lognormal.cdf, if_pos (mem_Ioi.1 hx0)]
    rfl

/-- Non-vacuity: a fresh Gumbel variable has the law its `cdf` states. -/
example (m : Marginal) (h : Gumbel.new 1 2 true none = .ok m) :
    (Measure.pi fun _ : Fin 2 => unif) {p | ∀ k, m.ppf (p k) ≤ ![0, 3] k} =
      ∏ k, ENNReal.ofReal (m.cdf (![0, 3] k)) := by
  obtain ⟨m', h1, -, -, -, hr, -⟩ := (good_gumbel_params 1 (scale := 2) (by norm_num) none).ex
  rw [h] at h1
  cases h1
  refine C73_scipy _ none m h univ hr ?_ 2 _ (fun _ => mem_univ _)
  intro x _
  simp only [Gumbel.new, ofFrozen] at h
  split at h
  · cases h
  · simp only [Except.ok.injEq] at h
    rw [← h]
    simp only [Gumbel.frozen, if_true, Frozen.locScale, Frozen.gumbelR]
    exact ⟨exp_pos _, by rw [exp_lt_one_iff]; exact neg_neg_of_pos (exp_pos _)⟩

end Pystra.Props
