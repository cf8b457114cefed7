import Verif.Props.NatafLaw
import Verif.Props.MonteCarlo
import Verif.Props.FormLinear
import Verif.Props.FormLognormal
import Verif.Props.UnitsFamily
import Verif.Props.FormDistance

/-! C121: replacing a variable of the model by a stochastically larger one. -/

namespace Pystra.Props
open MeasureTheory ProbabilityTheory Spec Matrix Set Transformation MonteCarlo Form Distribution

variable {σ : Type} {n : ℕ}

/-- `x'` is on the safe side of `x`: not smaller in the coordinates marked `up` (resistances), not larger in the others (loads). -/
def Safer (up : Fin n → Bool) (x x' : Fin n → ℝ) : Prop := ∀ i, if up i = true then x i ≤ x' i else x' i ≤ x i

theorem tail_uToX {m : Marginal} {S : Set ℝ} (h : Faithful m S) (x : ℝ) :
    densityLaw (S.indicator m.pdf) (Ioi x) = gaussianReal 0 1 {z | x < m.uToX z} := by
  rw [← C74_marginal h.round h.isOpen h.jac h.ratio h.law, Measure.map_apply h.round.mono_x.monotone.measurable measurableSet_Ioi]
  rfl

/-- C121: the meaning of the comparison.  `u_to_x` of `m'` is nowhere below `u_to_x` of `m` exactly when the law of `m'` exceeds every
value with at least the probability with which the law of `m` does. -/
theorem C121_order {m m' : Marginal} {S S' : Set ℝ} (h : Faithful m S) (h' : Faithful m' S') :
    (∀ u, m.uToX u ≤ m'.uToX u) ↔
      ∀ x, densityLaw (S.indicator m.pdf) (Ioi x) ≤ densityLaw (S'.indicator m'.pdf) (Ioi x) := by
  constructor
  · intro hu x
    rw [tail_uToX h, tail_uToX h']
    exact measure_mono fun z hz => lt_of_lt_of_le hz (hu z)
  · intro hx u
    by_contra hu
    push Not at hu
    obtain ⟨x, hx1, hxS, hx2⟩ : ∃ x, m'.uToX u < x ∧ x ∈ S ∧ x < m.uToX u := by
      obtain ⟨ε, hε, hb⟩ := Metric.isOpen_iff.1 h.isOpen _ (h.round.mem u)
      refine ⟨m.uToX u - min (ε / 2) ((m.uToX u - m'.uToX u) / 2), ?_, hb ?_, ?_⟩
      · linarith [min_le_right (ε / 2) ((m.uToX u - m'.uToX u) / 2)]
      · rw [Metric.mem_ball, Real.dist_eq, sub_sub_cancel_left, abs_neg, abs_of_pos (by positivity)]
        linarith [min_le_left (ε / 2) ((m.uToX u - m'.uToX u) / 2)]
      · have : 0 < min (ε / 2) ((m.uToX u - m'.uToX u) / 2) := by positivity
        linarith
    have e : m.uToX (m.xToU x) = x := h.round.right x hxS
    have hlt : m.xToU x < u := h.round.mono_x.lt_iff_lt.1 (by rw [e]; exact hx2)
    have h1 : {z | x < m.uToX z} = Ioi (m.xToU x) := by
      ext z
      conv_lhs => rw [mem_ofPred_eq, ← e]
      exact h.round.mono_x.lt_iff_lt
    have h2 : {z | x < m'.uToX z} ⊆ Ioi u := by
      intro z hz
      exact h'.round.mono_x.lt_iff_lt.1 (hx1.trans hz)
    have h3 := hx x
    rw [tail_uToX h, tail_uToX h', h1] at h3
    have h4 : gaussianReal 0 1 (Ioi (m.xToU x)) ≤ gaussianReal 0 1 (Ioi u) := h3.trans (measure_mono h2)
    have h5 : gaussianReal 0 1 (Ioi (m.xToU x)) = gaussianReal 0 1 (Ioc (m.xToU x) u) + gaussianReal 0 1 (Ioi u) := by
      rw [← Ioc_union_Ioi_eq_Ioi hlt.le, measure_union (Ioc_disjoint_Ioi le_rfl) measurableSet_Ioi]
    have h6 : gaussianReal 0 1 (Ioc (m.xToU x) u) ≠ 0 := by
      intro h0
      have := (gaussianReal_absolutelyContinuous' 0 (by simp : (1 : NNReal) ≠ 0)) h0
      simp [hlt.not_ge, Real.volume_Ioc] at this
    rw [h5] at h4
    have hfin : gaussianReal 0 1 (Ioi u) ≠ ⊤ := measure_ne_top _ _
    exact absurd h4 (not_le.2 (by
      rw [add_comm]
      exact ENNReal.lt_add_right hfin h6))

section
variable {t : Mats n} {marg marg' : Fin n → Marginal} {S : Fin n → Set ℝ} {up : Fin n → Bool} {f : (Fin n → ℝ) → ℝ}

theorem safer_le (hS : ∀ i u, (marg i).uToX u ∈ S i) (hS' : ∀ i u, (marg' i).uToX u ∈ S i)
    (hm : ∀ i u, if up i = true then (marg i).uToX u ≤ (marg' i).uToX u else (marg' i).uToX u ≤ (marg i).uToX u)
    (hf : ∀ x x', (∀ i, x i ∈ S i) → (∀ i, x' i ∈ S i) → Safer up x x' → f x ≤ f x') (u : Fin n → ℝ) :
    f (uToX t marg u) ≤ f (uToX t marg' u) :=
  hf _ _ (fun i => hS i _) (fun i => hS' i _) fun i => hm i _

/-- C121: the exact quantities.  A limit state that grows with the resistances and falls with the loads: with stochastically larger
resistances and smaller loads, and the same transformation, every point of the standard space that fails in the new model fails in the
old one; the probability of failure does not grow, and the distance of the failure domain from the origin does not fall. -/
theorem C121_exact (hS : ∀ i u, (marg i).uToX u ∈ S i) (hS' : ∀ i u, (marg' i).uToX u ∈ S i)
    (hm : ∀ i u, if up i = true then (marg i).uToX u ≤ (marg' i).uToX u else (marg' i).uToX u ≤ (marg i).uToX u)
    (hf : ∀ x x', (∀ i, x i ∈ S i) → (∀ i, x' i ∈ S i) → Safer up x x' → f x ≤ f x') :
    (stdGauss n).real {u | f (uToX t marg' u) < 0} ≤ (stdGauss n).real {u | f (uToX t marg u) < 0} ∧
    (stdGauss n).real {u | f (uToX t marg' u) ≤ 0} ≤ (stdGauss n).real {u | f (uToX t marg u) ≤ 0} ∧
    ∀ d d', IsGLB (len '' {u | f (uToX t marg u) ≤ 0}) d → IsGLB (len '' {u | f (uToX t marg' u) ≤ 0}) d' → d ≤ d' := by
  refine ⟨measureReal_mono fun u hu => ?_, measureReal_mono fun u hu => ?_,
    fun d d' hd hd' => hd'.2 ?_⟩
  · exact (safer_le hS hS' hm hf u).trans_lt hu
  · exact (safer_le hS hS' hm hf u).trans hu
  · rintro _ ⟨u, hu, rfl⟩
    exact hd.1 ⟨u, (safer_le hS hS' hm hf u).trans hu, rfl⟩

/-- C121: the simulations.  With the same draws and a fixed number of samples, crude Monte Carlo and importance sampling (about the same
point) estimate a probability that is not larger, and an index that is not smaller, for the safer model. -/
theorem C121_simulation {ev ev' : Evaluator σ n} {P P' : σ → Prop} (hev : Values ev P f) (hev' : Values ev' P' f)
    (hS : ∀ i u, (marg i).uToX u ∈ S i) (hS' : ∀ i u, (marg' i).uToX u ∈ S i)
    (hm : ∀ i u, if up i = true then (marg i).uToX u ≤ (marg' i).uToX u else (marg' i).uToX u ≤ (marg i).uToX u)
    (hf : ∀ x x', (∀ i, x i ∈ S i) → (∀ i, x' i ∈ S i) → Safer up x x' → f x ≤ f x')
    {opt : MonteCarlo.Options} (hg : opt.randomGenerator = 0) (hb : 1 ≤ opt.blockSize)
    (hN : 1 ≤ opt.samples) (hs : 0 < opt.stdv) (hcov : opt.cov ≤ 0) (point : Option (Fin n → ℝ)) (ω : ℕ → ℝ)
    (pos fuel : ℕ) (hfu : opt.samples ≤ fuel) {s s' : σ} (hP : P s) (hP' : P' s') :
    ∃ r r', MonteCarlo.run t marg ev opt point ω pos fuel s = some (.ok r) ∧
      MonteCarlo.run t marg' ev' opt point ω pos fuel s' = some (.ok r') ∧ r'.Pf ≤ r.Pf ∧
      (0 < r'.Pf → r.Pf < 1 → ∃ b b', r.beta = .fin b ∧ r'.beta = .fin b' ∧ b ≤ b') := by
  obtain ⟨r, h1, h2, h3⟩ := run_full (t := t) (marg := marg) hev hg hb hN hs hcov point ω pos fuel hfu s hP
  obtain ⟨r', h1', h2', h3'⟩ := run_full (t := t) (marg := marg') hev' hg hb hN hs hcov point ω pos fuel hfu s' hP'
  have hle : r'.Pf ≤ r.Pf := by
    rw [h3, h3']
    refine div_le_div_of_nonneg_right (Finset.sum_le_sum fun j _ => ?_) (Nat.cast_nonneg _)
    rw [summand_indicator hs, summand_indicator hs]
    exact Set.indicator_le_indicator_of_subset (fun u hu => (safer_le hS hS' hm hf u).trans_lt hu)
      (fun u => MonteCarlo.weight_nonneg hs _ u) _
  refine ⟨r, r', h1, h1', hle, fun hp hq => ?_⟩
  obtain ⟨q, g1, -, -, -, -, g6, -⟩ := C37_run (t := t) (marg := marg) hev hg hb hN hs point ω pos fuel hfu s hP
  obtain ⟨q', g1', -, -, -, -, g6', -⟩ := C37_run (t := t) (marg := marg') hev' hg hb hN hs point ω pos fuel hfu s' hP'
  rw [h1] at g1
  rw [h1'] at g1'
  injection g1 with g1; injection g1 with g1; subst g1
  injection g1' with g1'; injection g1' with g1'; subst g1'
  obtain ⟨b, hb1, hb2⟩ := g6 (hp.trans_le hle) hq
  obtain ⟨b', hb1', hb2'⟩ := g6' hp (hle.trans_lt hq)
  refine ⟨b, b', hb1, hb1', ?_⟩
  rw [← hb2, ← hb2'] at hle
  exact neg_le_neg_iff.1 (StdNormal.strictMono_cdf.le_iff_le.1 hle)

end

/-- C121: FORM for a linear limit state of correlated normal variables.  Moving the means by `δ` moves the index by exactly
`Σ aᵢδᵢ` over the standard deviation of the margin, and the direction cosines not at all. -/
theorem C121_form {la : LinAlg} (hla : LinAlgOK la) {ty : TransformType} {Ro : Matrix (Fin n) (Fin n) ℝ} (hR : Ro.PosDef)
    {t : Mats n} (ht : Transformation.compute la ty Ro = .ok t) {μ δ sd : Fin n → ℝ} {sp sp' : Fin n → Option ℝ}
    (hsd : ∀ i, 0 < sd i) {marg marg' : Fin n → Marginal} (hm : ∀ i, Normal.new (μ i) (.fin (sd i)) (sp i) = .ok (marg i))
    (hm' : ∀ i, Normal.new (μ i + δ i) (.fin (sd i)) (sp' i) = .ok (marg' i)) (a0 : ℝ) (a : Fin n → ℝ) (ha : a ≠ 0)
    {ev : Evaluator σ n} {P : σ → Prop} (hev : Exact ev P (fun x => a0 + ∑ i, a i * x i) (fun _ => a))
    (opt : Form.Options) (hst : opt.stepSize = 1) (he1 : 0 < opt.e1) (he1' : opt.e1 ≤ 1) (he2 : 0 < opt.e2)
    (hi : 2 ≤ opt.iMax) (s s' : σ) (hs : P s) (hs' : P s') (fuel : ℕ) (hf : opt.iMax ≤ fuel) :
    ∃ r r' s₁ s₁', runFrom t marg ev opt fuel s = some (.done r s₁) ∧ runFrom t marg' ev opt fuel s' = some (.done r' s₁') ∧
      r'.beta = r.beta + (∑ i, a i * δ i) / √(∑ i, ∑ j, a i * sd i * Ro i j * (a j * sd j)) ∧ r'.alpha = r.alpha ∧
      ((∀ i, 0 ≤ a i * δ i) → r.beta ≤ r'.beta ∧ r'.Pf ≤ r.Pf) := by
  obtain ⟨r, s₁, h1, h2, h3, -, -, -, h4⟩ := C30_exact hla hR ht hsd hm a0 a ha hev opt hst he1 he1' he2 hi s hs fuel hf
  obtain ⟨r', s₁', h1', h2', h3', -, -, -, h4'⟩ := C30_exact hla hR ht hsd hm' a0 a ha hev opt hst he1 he1' he2 hi s' hs' fuel hf
  have hb : r'.beta = r.beta + (∑ i, a i * δ i) / √(∑ i, ∑ j, a i * sd i * Ro i j * (a j * sd j)) := by
    rw [h2, h2', ← add_div]
    congr 1
    rw [add_assoc, ← Finset.sum_add_distrib]
    congr 1
    exact Finset.sum_congr rfl fun i _ => by ring
  refine ⟨r, r', s₁, s₁', h1, h1', hb, by rw [h4, h4'], fun h => ⟨?_, ?_⟩⟩
  · rw [hb]
    have : 0 ≤ (∑ i, a i * δ i) / √(∑ i, ∑ j, a i * sd i * Ro i j * (a j * sd j)) :=
      div_nonneg (Finset.sum_nonneg fun i _ => h i) (Real.sqrt_nonneg _)
    linarith
  · rw [h3, h3']
    refine measureReal_mono fun u hu => ?_
    simp only [mem_ofPred_eq] at hu ⊢
    refine le_trans (add_le_add le_rfl (Finset.sum_le_sum fun i _ => ?_)) hu
    simp only [uToX, (normal_ok (hm i)).1, (normal_ok (hm' i)).1, Normal.uToX]
    have := h i
    rw [mul_add, mul_add, mul_add]
    linarith

/-- C121: which changes of the arguments make a variable stochastically larger.  For the classes with a location, adding a constant to
the mean and to the bounds, with the standard deviation unchanged; for the positive variables (here: `u_to_x` nowhere negative),
multiplying the mean and the standard deviation (so at a constant coefficient of variation) and the bounds by a factor of at least 1. -/
theorem C121_classes (S : Solvers) (hS : UnitFree S) (F : Family) (p q : ℝ) (kw b : Dict String ℝ) (hb : F.bind kw = .ok b)
    (hp : Proper S F p q b) (sp : Option ℝ) (hs : startPoint p sp ∈ familyDomain F b) :
    (∀ δ, 0 ≤ δ → ClosedUnder δ F → ∃ m m', F.construct S p q kw false sp = .ok m ∧
      F.construct S (p + δ) q (unitArgs δ 1 b) false (sp.map fun v => δ + v) = .ok m' ∧ m'.mean = m.mean + δ ∧
      ∀ u, m'.uToX u = m.uToX u + δ) ∧
    (∀ k, 1 ≤ k → ClosedUnder 0 F → ∃ m m', F.construct S p q kw false sp = .ok m ∧
      F.construct S (k * p) (k * q) (unitArgs 0 k b) false (sp.map fun v => k * v) = .ok m' ∧ m'.mean = k * m.mean ∧
      ((∀ u, 0 ≤ m.uToX u) → ∀ u, m.uToX u ≤ m'.uToX u)) := by
  constructor
  · intro δ hδ hc
    obtain ⟨m, m', h1, h2, h3⟩ := C90_family S hS δ 1 one_pos F hc p q kw b hb hp sp hs
    simp only [one_mul] at h2
    refine ⟨m, m', h1, by rw [add_comm p δ]; exact h2, by rw [h3.mean]; ring, fun u => by rw [h3.uToX]; ring⟩
  · intro k hk hc
    obtain ⟨m, m', h1, h2, h3⟩ := C90_family S hS 0 k (by linarith) F hc p q kw b hb hp sp hs
    simp only [zero_add] at h2
    refine ⟨m, m', h1, h2, by rw [h3.mean]; ring, fun h0 u => ?_⟩
    rw [h3.uToX, zero_add]
    exact le_mul_of_one_le_left (h0 u) hk

/-- C121: `GEVmin` goes the wrong way.  Raising the mean by `δ ≥ 0` lowers `u_to_x` everywhere by `δ`: every analysis of a model in
which a resistance of this class was improved returns the answer for the worse one. -/
theorem C121_gevMin (p : ℝ) {q s δ : ℝ} (hq : 0 < q) (hs : s < 1 / 2) (hδ : 0 < δ) (sp sp' : Option ℝ) :
    ∃ m m', GEV.newMin p q s false sp = .ok m ∧ GEV.newMin (p + δ) q s false sp' = .ok m' ∧ m'.mean = m.mean + δ ∧
      (∀ u, m'.uToX u < m.uToX u) ∧
      ∀ (n : ℕ) (t : Mats n) (marg : Fin n → Marginal) (i : Fin n) (c : ℝ), marg i = m →
        (stdGauss n).real {u | uToX t marg u i - c < 0} ≤ (stdGauss n).real {u | uToX t (Function.update marg i m') u i - c < 0} := by
  obtain ⟨m, m', h1, h2, h3, h4⟩ := C90_gevMin δ p hq hs sp sp'
  refine ⟨m, m', h1, by rw [add_comm p δ]; exact h2, by rw [h3]; ring, fun u => by rw [h4]; linarith, fun n t marg i c hi => ?_⟩
  refine measureReal_mono fun u hu => ?_
  simp only [mem_ofPred_eq, uToX, Function.update_self, hi, h4] at hu ⊢
  linarith

theorem logDev_anti {μ μ' s : ℝ} (hμ : 0 < μ) (hs : 0 < s) (h : μ < μ') : logDev μ' s < logDev μ s := by
  unfold logDev
  have hμ' : 0 < μ' := hμ.trans h
  refine Real.sqrt_lt_sqrt (Real.log_nonneg (by nlinarith [sq_nonneg (s / μ')])) (Real.log_lt_log (by positivity) ?_)
  have h1 : s / μ' < s / μ := div_lt_div_of_pos_left hs hμ h
  have h2 : 0 < s / μ' := by positivity
  nlinarith

/-- C121: a larger mean is not a larger variable.  Two lognormal variables with the same standard deviation and means `μ < μ'`: the
median of the second is larger, but there is a level beyond which its fractiles are smaller and it is exceeded with a smaller
probability, so that a load whose mean was raised makes every structure designed for rare enough loads safer. -/
theorem C121_lognormal {μ μ' s : ℝ} (hμ : 0 < μ) (hs : 0 < s) (h : μ < μ') {sp sp' : Option ℝ} {m m' : Marginal}
    (hm : Lognormal.new μ s false sp = .ok m) (hm' : Lognormal.new μ' s false sp' = .ok m') :
    m.uToX 0 < m'.uToX 0 ∧ ∃ v c, 0 < v ∧ m.uToX v = c ∧ m'.uToX v = c ∧ (∀ u, m'.uToX u < m.uToX u ↔ v < u) ∧
      ∀ x, 0 < x → (densityLaw ((Ioi 0).indicator m'.pdf) (Ioi x) < densityLaw ((Ioi 0).indicator m.pdf) (Ioi x) ↔ c < x) := by
  have hμ' := hμ.trans h
  obtain ⟨z0, e0, r0, -⟩ := lognormal_fields hμ hs hm
  obtain ⟨z1, e1, r1, -⟩ := lognormal_fields hμ' hs hm'
  have hz := logDev_anti hμ hs h
  have hl : logMean μ s < logMean μ' s := by
    unfold logMean
    have := Real.log_lt_log hμ h
    nlinarith
  have hd : 0 < logDev μ s - logDev μ' s := sub_pos.2 hz
  refine ⟨?_, (logMean μ' s - logMean μ s) / (logDev μ s - logDev μ' s), _, div_pos (sub_pos.2 hl) hd, rfl, ?_, fun u => ?_, ?_⟩
  · simp only [e0, e1, zero_mul, zero_add]
    exact Real.exp_lt_exp.2 hl
  · simp only [e0, e1]
    congr 1
    field_simp
    ring
  · simp only [e0, e1, Real.exp_lt_exp]
    rw [div_lt_iff₀ hd]
    constructor <;> intro h <;> linarith
  · intro x hx
    obtain ⟨m₁, g1, g2⟩ := ((C74_classes sp).2.1) μ s hμ hs
    obtain ⟨m₂, g1', g2'⟩ := ((C74_classes sp').2.1) μ' s hμ' hs
    rw [hm] at g1; injection g1 with g1; subst g1
    rw [hm'] at g1'; injection g1' with g1'; subst g1'
    have key : ∀ {w : Marginal}, Faithful w (Ioi 0) → {z | x < w.uToX z} = Ioi (w.xToU x) := by
      intro w hw
      have e := hw.round.right x hx
      ext z
      conv_lhs => rw [mem_ofPred_eq, ← e]
      exact hw.round.mono_x.lt_iff_lt
    have tailmono : ∀ a b : ℝ, gaussianReal 0 1 (Ioi a) < gaussianReal 0 1 (Ioi b) ↔ b < a := by
      intro a b
      constructor
      · intro hab
        by_contra hc
        exact absurd hab (not_lt.2 (measure_mono (Ioi_subset_Ioi (not_lt.1 hc))))
      · intro hab
        have h5 : gaussianReal 0 1 (Ioi b) = gaussianReal 0 1 (Ioc b a) + gaussianReal 0 1 (Ioi a) := by
          rw [← Ioc_union_Ioi_eq_Ioi hab.le, measure_union (Ioc_disjoint_Ioi le_rfl) measurableSet_Ioi]
        have h6 : gaussianReal 0 1 (Ioc b a) ≠ 0 := by
          intro h0
          have := (gaussianReal_absolutelyContinuous' 0 (by simp : (1 : NNReal) ≠ 0)) h0
          simp [Real.volume_Ioc] at this
          linarith
        rw [h5, add_comm]
        exact ENNReal.lt_add_right (measure_ne_top _ _) h6
    rw [tail_uToX g2, tail_uToX g2', key g2, key g2', tailmono]
    have b0 : m.xToU x = (Real.log x - logMean μ s) / logDev μ s := by
      have e := g2.round.right x hx
      rw [e0] at e
      rw [eq_div_iff z0.ne', ← e, Real.log_exp]
      dsimp only
      have e' := g2.round.left (m.xToU x)
      simp only [e0] at e'
      rw [e']
      ring
    have b1 : m'.xToU x = (Real.log x - logMean μ' s) / logDev μ' s := by
      have e := g2'.round.right x hx
      rw [e1] at e
      rw [eq_div_iff z1.ne', ← e, Real.log_exp]
      dsimp only
      have e' := g2'.round.left (m'.xToU x)
      simp only [e1] at e'
      rw [e']
      ring
    rw [b0, b1, div_lt_div_iff₀ z0 z1]
    rw [e0]
    dsimp only
    rw [← Real.exp_log hx, Real.exp_lt_exp, Real.exp_log hx]
    rw [div_mul_eq_mul_div, ← lt_sub_iff_add_lt, div_lt_iff₀ hd]
    constructor <;> intro h <;> nlinarith

/-- A resistance (lognormal, mean 10 raised to 12 at a constant coefficient of variation) and a load (`Gumbel`, mean 5 lowered to 4):
the probability of `R < S` does not grow, nor does a simulation's estimate. -/
example : ∃ mR mR' mS mS' : Marginal, Lognormal.new 10 1 false none = .ok mR ∧ Lognormal.new (1.2 * 10) (1.2 * 1) false none = .ok mR' ∧
    Gumbel.new 5 1 false none = .ok mS ∧ Gumbel.new 4 1 false none = .ok mS' ∧
    (stdGauss 2).real {u | uToX ⟨1, 1⟩ ![mR', mS'] u 0 - uToX ⟨1, 1⟩ ![mR', mS'] u 1 < 0} ≤
      (stdGauss 2).real {u | uToX ⟨1, 1⟩ ![mR, mS] u 0 - uToX ⟨1, 1⟩ ![mR, mS] u 1 < 0} ∧
    ∀ (ω : ℕ → ℝ), ∃ r r' : MonteCarlo.Result Unit 2,
      MonteCarlo.run ⟨1, 1⟩ ![mR, mS] (⟨fun s _ => (s, .error .typeError), fun s xs => (s, .ok (xs.map fun x => x 0 - x 1))⟩ :
        Evaluator Unit 2) ⟨1000, 100, 1, 0, 0⟩ none ω 0 1000 () = some (.ok r) ∧
      MonteCarlo.run ⟨1, 1⟩ ![mR', mS'] (⟨fun s _ => (s, .error .typeError), fun s xs => (s, .ok (xs.map fun x => x 0 - x 1))⟩ :
        Evaluator Unit 2) ⟨1000, 100, 1, 0, 0⟩ none ω 0 1000 () = some (.ok r') ∧ r'.Pf ≤ r.Pf := by
  obtain ⟨mR, mR', h1, h2, h3⟩ := units_lognormal (fac := 1.2) (by norm_num) (p := 10) (q := 1) (by norm_num) (by norm_num) none
    (by simp [startPoint])
  obtain ⟨mS', mS, g1, g2, g3⟩ := units_gumbel (off := 1) (fac := 1) one_pos 4 (q := 1) one_pos none
  norm_num at g2
  have hpos : ∀ u, 0 ≤ mR.uToX u := by
    intro u
    rw [(lognormal_fields (by norm_num) one_pos h1).2.1]
    exact (Real.exp_pos _).le
  have hS : ∀ (i : Fin 2) u, (![mR, mS] i).uToX u ∈ (univ : Set ℝ) := fun _ _ => mem_univ _
  have hS' : ∀ (i : Fin 2) u, (![mR', mS'] i).uToX u ∈ (univ : Set ℝ) := fun _ _ => mem_univ _
  have hm : ∀ (i : Fin 2) u, if ![true, false] i = true then (![mR, mS] i).uToX u ≤ (![mR', mS'] i).uToX u
      else (![mR', mS'] i).uToX u ≤ (![mR, mS] i).uToX u := by
    intro i u
    fin_cases i
    · simp only [Fin.zero_eta, Matrix.cons_val_zero, if_true]
      rw [h3.uToX]
      have := hpos u
      linarith
    · simp only [Fin.mk_one, Matrix.cons_val_one, Matrix.cons_val_fin_one, Bool.false_eq_true, if_false]
      rw [g3.uToX]
      linarith
  have hf : ∀ x x' : Fin 2 → ℝ, (∀ i, x i ∈ (univ : Set ℝ)) → (∀ i, x' i ∈ (univ : Set ℝ)) → Safer ![true, false] x x' →
      x 0 - x 1 ≤ x' 0 - x' 1 := by
    intro x x' _ _ h
    have h0 := h 0
    have h1 := h 1
    simp at h0 h1
    linarith
  refine ⟨mR, mR', mS, mS', h1, by simpa using h2, g2, g1, ?_, fun ω => ?_⟩
  · exact (C121_exact (t := ⟨1, 1⟩) (S := fun _ => univ) (f := fun x => x 0 - x 1) hS hS' hm hf).1
  · have hev : Values (⟨fun s _ => (s, .error .typeError), fun s xs => (s, .ok (xs.map fun x => x 0 - x 1))⟩ : Evaluator Unit 2)
        (fun _ => True) (fun x => x 0 - x 1) := fun s xs _ => ⟨s, rfl, trivial⟩
    obtain ⟨r, r', e1, e2, e3, -⟩ := C121_simulation (t := ⟨1, 1⟩) (S := fun _ => univ) hev hev hS hS' hm hf
      (opt := ⟨1000, 100, 1, 0, 0⟩) rfl (by norm_num) (by norm_num) (by norm_num) (by norm_num) none ω 0 1000 (by norm_num)
      (s := ()) (s' := ()) trivial trivial
    exact ⟨r, r', e1, e2, e3⟩

/-- The hypotheses of `C121_order`, `C121_lognormal`, `C121_gevMin` and `C121_form` at numbers. -/
example : ∃ m m' : Marginal, Lognormal.new 10 3 false none = .ok m ∧ Lognormal.new 12 3 false none = .ok m' ∧
    ¬ (∀ x, densityLaw ((Ioi 0).indicator m.pdf) (Ioi x) ≤ densityLaw ((Ioi 0).indicator m'.pdf) (Ioi x)) := by
  obtain ⟨m, g1, g2⟩ := ((C74_classes none).2.1) 10 3 (by norm_num) (by norm_num)
  obtain ⟨m', g1', g2'⟩ := ((C74_classes none).2.1) 12 3 (by norm_num) (by norm_num)
  refine ⟨m, m', g1, g1', fun h => ?_⟩
  obtain ⟨-, v, c, -, -, -, h1, -⟩ := C121_lognormal (μ := 10) (μ' := 12) (s := 3) (by norm_num) (by norm_num) (by norm_num) g1 g1'
  exact absurd ((C121_order g2 g2').2 h (v + 1)) (not_le.2 ((h1 _).2 (by linarith)))

example : ∃ m m', GEV.newMin 10 1 0.1 false none = .ok m ∧ GEV.newMin (10 + 2) 1 0.1 false none = .ok m' ∧
    (stdGauss 1).real {u | uToX ⟨1, 1⟩ (fun _ => m) u 0 - 5 < 0} ≤ (stdGauss 1).real {u | uToX ⟨1, 1⟩ (fun _ => m') u 0 - 5 < 0} := by
  obtain ⟨m, m', h1, h2, -, -, h3⟩ := C121_gevMin 10 (q := 1) (s := 0.1) (δ := 2) (by norm_num) (by norm_num) (by norm_num) none none
  refine ⟨m, m', h1, h2, ?_⟩
  have := h3 1 ⟨1, 1⟩ (fun _ => m) 0 5 rfl
  have e : Function.update (fun _ : Fin 1 => m) 0 m' = fun _ => m' := by
    funext i; rw [Subsingleton.elim i 0]; simp
  rw [e] at this
  exact this

/-- FORM for `g = 2 R - S - 3`, correlation one half, the mean of `R` raised from 6 to 7: the index grows by `2/√3`. -/
example {la : LinAlg} (hla : LinAlgOK la) (fuel : ℕ) (hf : 100 ≤ fuel) : ∃ t marg marg' r r',
    runFrom t marg (⟨fun _ x => ((), .ok (-3 + ∑ i, ![2, -1] i * x i, ![2, -1], x)), fun _ _ => ((), .ok [])⟩ :
      Evaluator Unit 2) ⟨100, 0.001, 0.001, 1, 1⟩ fuel () = some (.done r ()) ∧
    runFrom t marg' (⟨fun _ x => ((), .ok (-3 + ∑ i, ![2, -1] i * x i, ![2, -1], x)), fun _ _ => ((), .ok [])⟩ :
      Evaluator Unit 2) ⟨100, 0.001, 0.001, 1, 1⟩ fuel () = some (.done r' ()) ∧ r'.beta = r.beta + 2 / √3 ∧ r'.Pf ≤ r.Pf := by
  have hR : (!![1, 1/2; 1/2, 1] : Matrix (Fin 2) (Fin 2) ℝ).PosDef := by
    rw [posDef_iff_dotProduct_mulVec]
    refine ⟨by ext i j; fin_cases i <;> fin_cases j <;> simp, fun x hx => ?_⟩
    simp only [star_trivial, dotProduct, mulVec, Fin.sum_univ_two]
    simp
    have h0 : x 0 ≠ 0 ∨ x 1 ≠ 0 := by
      by_contra h
      push Not at h
      apply hx
      funext i; fin_cases i <;> simp [h.1, h.2]
    rcases h0 with h | h <;> nlinarith [sq_nonneg (x 0 + x 1), sq_pos_of_ne_zero h, sq_nonneg (x 0), sq_nonneg (x 1)]
  obtain ⟨t, ht, -⟩ := C22_posdef hla .cholesky hR
  have hm : ∀ i : Fin 2, ∃ m, Normal.new (![6, 2] i) (.fin (1 : ℝ)) none = .ok m := fun i => ⟨_, rfl⟩
  have hm' : ∀ i : Fin 2, ∃ m, Normal.new (![6, 2] i + ![1, 0] i) (.fin (1 : ℝ)) none = .ok m := fun i => ⟨_, rfl⟩
  choose marg hmarg using hm
  choose marg' hmarg' using hm'
  obtain ⟨r, r', s₁, s₁', h1, h2, h3, -, h4⟩ := C121_form hla hR ht (μ := ![6, 2]) (δ := ![1, 0]) (sd := fun _ => 1) (sp := fun _ => none)
    (sp' := fun _ => none) (fun _ => one_pos) hmarg hmarg' (-3) ![2, -1] (by intro h; simpa using congrFun h 0)
    (ev := (⟨fun _ x => ((), .ok (-3 + ∑ i, ![2, -1] i * x i, ![2, -1], x)), fun _ _ => ((), .ok [])⟩ :
      Evaluator Unit 2)) (P := fun _ => True) (fun _ _ x => ⟨(), x, rfl, trivial⟩)
    ⟨100, 0.001, 0.001, 1, 1⟩ rfl (by norm_num) (by norm_num) (by norm_num) (by norm_num) () () trivial trivial fuel hf
  refine ⟨t, marg, marg', r, r', h1, h2, ?_, (h4 fun i => ?_).2⟩
  · rw [h3]
    congr 2
    · simp [Fin.sum_univ_two]
    · congr 1
      simp [Fin.sum_univ_two]; norm_num
  · fin_cases i <;> simp

end Pystra.Props
