import Verif.Lemmas.Slepian
import Verif.Props.NatafCorrelation
import Verif.Props.Convergence
import Verif.Props.FormLinear

/-! C120: series and parallel systems of limits on single variables, as the correlations grow. -/

namespace Pystra.Props
open MeasureTheory ProbabilityTheory Spec Matrix Set Transformation MonteCarlo Form

variable {n k m : ℕ} {la la' : LinAlg} {ty ty' : TransformType} {Ro : Matrix (Fin n) (Fin n) ℝ} {Ro' : Matrix (Fin k) (Fin k) ℝ}
  {t : Mats n} {t' : Mats k} {marg : Fin n → Marginal} {marg' : Fin k → Marginal} {S : Fin n → Set ℝ} {S' : Fin k → Set ℝ}

section
variable (h : NatafSetting la ty Ro t marg S) {e : Fin m → Fin n} (he : Function.Injective e) {x : Fin m → ℝ} (hx : ∀ l, x l ∈ S (e l))
include h he hx

theorem sub_fact : t.invT.submatrix e id * (t.invT.submatrix e id)ᵀ = Ro.submatrix e e := by
  ext i j
  rw [submatrix_apply, ← h.row]
  rfl

/-- The probability that none of the chosen variables exceeds its limit. -/
theorem none_eq : (stdGauss n).real {u | ∀ l, uToX t marg u (e l) ≤ x l} =
    orthant (Ro.submatrix e e) fun l => (marg (e l)).xToU (x l) := by
  rw [← orthant_eq _ (sub_fact h he hx) (h.posDef.submatrix he)]
  unfold orth
  congr 1
  ext u
  refine forall_congr' fun l => ?_
  have hr := (h.marg (e l)).round
  have e1 := hr.right (x l) (hx l)
  show (marg (e l)).uToX (t.invT (e l) ⬝ᵥ u) ≤ x l ↔ _
  conv_lhs => rw [← e1]
  exact hr.mono_x.le_iff_le

/-- The probability that all of them do. -/
theorem all_eq : (stdGauss n).real {u | ∀ l, x l < uToX t marg u (e l)} =
    orthant (Ro.submatrix e e) fun l => -(marg (e l)).xToU (x l) := by
  have hneg : (-t.invT.submatrix e id) * (-t.invT.submatrix e id)ᵀ = Ro.submatrix e e := by
    rw [transpose_neg, Matrix.neg_mul, Matrix.mul_neg, neg_neg, sub_fact h he hx]
  rw [← orthant_eq _ hneg (h.posDef.submatrix he)]
  unfold orth
  have hne : ∀ l, ∀ᵐ u ∂(stdGauss n), t.invT (e l) ⬝ᵥ u ≠ (marg (e l)).xToU (x l) := by
    intro l
    have h1 : t.invT (e l) ⬝ᵥ t.invT (e l) = 1 := by rw [h.row, h.diag]
    have h2 : (stdGauss n) {u | t.invT (e l) ⬝ᵥ u = (marg (e l)).xToU (x l)} = 0 := by
      have e2 : (stdGauss n) {u | t.invT (e l) ⬝ᵥ u = (marg (e l)).xToU (x l)} =
          (stdGauss n).map (fun u => t.invT (e l) ⬝ᵥ u) {(marg (e l)).xToU (x l)} := by
        rw [Measure.map_apply (dot_meas _) (measurableSet_singleton _)]; rfl
      rw [e2, map_dot h1]
      haveI := noAtoms_gaussianReal (μ := 0) (v := 1) one_ne_zero
      exact measure_singleton _
    rw [ae_iff]
    simpa using h2
  refine measureReal_congr ?_
  filter_upwards [ae_all_iff.2 hne] with u hu
  refine propext (forall_congr' fun l => ?_)
  have hr := (h.marg (e l)).round
  have e1 := hr.right (x l) (hx l)
  show x l < (marg (e l)).uToX (t.invT (e l) ⬝ᵥ u) ↔ (-t.invT (e l)) ⬝ᵥ u ≤ -(marg (e l)).xToU (x l)
  conv_lhs => rw [← e1]
  rw [hr.mono_x.lt_iff_lt, neg_dotProduct, neg_le_neg_iff]
  exact ⟨le_of_lt, fun hle => lt_of_le_of_ne hle (hu l).symm⟩

theorem some_eq : (stdGauss n).real {u | ∃ l, x l < uToX t marg u (e l)} =
    1 - (stdGauss n).real {u | ∀ l, uToX t marg u (e l) ≤ x l} := by
  have ms : MeasurableSet {u | ∃ l, x l < uToX t marg u (e l)} := by
    rw [setOf_exists]
    exact MeasurableSet.iUnion fun l => measurableSet_lt measurable_const
      ((measurable_pi_apply (e l)).comp (measurable_uToX fun i => (h.marg i).round.mono_x.monotone.measurable))
  have : {u | ∀ l, uToX t marg u (e l) ≤ x l} = {u | ∃ l, x l < uToX t marg u (e l)}ᶜ := by
    ext u; simp
  rw [this, probReal_compl_eq_one_sub ms]
  ring

/-- One variable alone. -/
theorem below_eq (l : Fin m) : (stdGauss n).real {u | uToX t marg u (e l) ≤ x l} = (gaussianReal 0 1).real (Iic ((marg (e l)).xToU (x l))) := by
  rw [← map_dot (show t.invT (e l) ⬝ᵥ t.invT (e l) = 1 by rw [h.row, h.diag]), map_measureReal_apply (dot_meas _) measurableSet_Iic]
  congr 1
  ext u
  have hr := (h.marg (e l)).round
  have e1 := hr.right (x l) (hx l)
  show (marg (e l)).uToX (t.invT (e l) ⬝ᵥ u) ≤ x l ↔ _
  conv_lhs => rw [← e1]
  exact hr.mono_x.le_iff_le

theorem exceeds_eq (l : Fin m) : (stdGauss n).real {u | x l < uToX t marg u (e l)} = (gaussianReal 0 1).real (Iic (-(marg (e l)).xToU (x l))) := by
  have h1 := all_eq h (e := fun _ : Fin 1 => e l) (fun a b _ => Subsingleton.elim a b) (x := fun _ => x l) fun _ => hx l
  have h2 : Ro.submatrix (fun _ : Fin 1 => e l) (fun _ : Fin 1 => e l) = 1 := by
    ext i j; rw [submatrix_apply, h.diag, Subsingleton.elim i j]; simp
  have h3 : {u | ∀ _ : Fin 1, x l < uToX t marg u (e l)} = {u | x l < uToX t marg u (e l)} := by ext u; simp
  rw [h3, h2, ← orthant_eq (1 : Matrix (Fin 1) (Fin 1) ℝ) (by simp) PosDef.one] at h1
  rw [h1, ← map_dot (n := 1) (a := fun _ => 1) (by simp [dotProduct]), map_measureReal_apply (dot_meas _) measurableSet_Iic]
  unfold orth
  congr 1
  ext u
  simp [dotProduct, Matrix.one_apply]

end

theorem orthant_one (b : Fin m → ℝ) : orthant (1 : Matrix (Fin m) (Fin m) ℝ) b = ∏ l, (gaussianReal 0 1).real (Iic (b l)) := by
  rw [← orthant_eq (1 : Matrix (Fin m) (Fin m) ℝ) (by simp) PosDef.one]
  unfold orth stdGauss
  have : {u : Fin m → ℝ | ∀ l, (1 : Matrix (Fin m) (Fin m) ℝ) l ⬝ᵥ u ≤ b l} = Set.univ.pi fun l => Iic (b l) := by
    ext u
    simp only [mem_setOf_eq, mem_univ_pi, mem_Iic]
    refine forall_congr' fun l => ?_
    have : (1 : Matrix (Fin m) (Fin m) ℝ) l ⬝ᵥ u = u l := congrFun (one_mulVec u) l
    rw [this]
  rw [this, measureReal_def, Measure.pi_pi, ENNReal.toReal_prod]
  rfl

/-- C120: two models with the same distributions for `m` variables (among possibly others), the second with larger or equal
entries of the matrix between them. A parallel system, which fails when all of them exceed their limits, fails at least as often
in the second; a series system, which fails when one of them does, at most as often; and more, respectively less, often as
soon as one of the entries is larger. The same holds when the limits are lower limits. -/
theorem C120_systems (h : NatafSetting la ty Ro t marg S) (h' : NatafSetting la' ty' Ro' t' marg' S') {e : Fin m → Fin n}
    {e' : Fin m → Fin k} (he : Function.Injective e) (he' : Function.Injective e') (hm : ∀ l, marg (e l) = marg' (e' l))
    {x : Fin m → ℝ} (hx : ∀ l, x l ∈ S (e l)) (hx' : ∀ l, x l ∈ S' (e' l)) (hle : ∀ i j, Ro (e i) (e j) ≤ Ro' (e' i) (e' j)) :
    ((stdGauss n).real {u | ∀ l, x l < uToX t marg u (e l)} ≤ (stdGauss k).real {u | ∀ l, x l < uToX t' marg' u (e' l)} ∧
      (stdGauss k).real {u | ∃ l, x l < uToX t' marg' u (e' l)} ≤ (stdGauss n).real {u | ∃ l, x l < uToX t marg u (e l)} ∧
      (stdGauss n).real {u | ∀ l, uToX t marg u (e l) ≤ x l} ≤ (stdGauss k).real {u | ∀ l, uToX t' marg' u (e' l) ≤ x l} ∧
      (stdGauss k).real {u | ∃ l, uToX t' marg' u (e' l) ≤ x l} ≤ (stdGauss n).real {u | ∃ l, uToX t marg u (e l) ≤ x l}) ∧
    ((∃ i j, Ro (e i) (e j) < Ro' (e' i) (e' j)) →
      (stdGauss n).real {u | ∀ l, x l < uToX t marg u (e l)} < (stdGauss k).real {u | ∀ l, x l < uToX t' marg' u (e' l)} ∧
      (stdGauss k).real {u | ∃ l, x l < uToX t' marg' u (e' l)} < (stdGauss n).real {u | ∃ l, x l < uToX t marg u (e l)} ∧
      (stdGauss n).real {u | ∀ l, uToX t marg u (e l) ≤ x l} < (stdGauss k).real {u | ∀ l, uToX t' marg' u (e' l) ≤ x l} ∧
      (stdGauss k).real {u | ∃ l, uToX t' marg' u (e' l) ≤ x l} < (stdGauss n).real {u | ∃ l, uToX t marg u (e l) ≤ x l}) := by
  have mono := fun b => orthant_mono (h.posDef.submatrix he) (h'.posDef.submatrix he')
    (fun i => by rw [submatrix_apply, submatrix_apply, h.diag, h'.diag]) hle b
  have low : ∀ {n : ℕ} {la : LinAlg} {ty : TransformType} {Ro : Matrix (Fin n) (Fin n) ℝ} {t : Mats n} {marg : Fin n → Marginal}
      {S : Fin n → Set ℝ}, NatafSetting la ty Ro t marg S → ∀ e : Fin m → Fin n, (stdGauss n).real {u | ∃ l, uToX t marg u (e l) ≤ x l} =
      1 - (stdGauss n).real {u | ∀ l, x l < uToX t marg u (e l)} := by
    intro n la ty Ro t marg S h e
    have ms : MeasurableSet {u | ∃ l, uToX t marg u (e l) ≤ x l} := by
      rw [setOf_exists]
      exact MeasurableSet.iUnion fun l => measurableSet_le
        ((measurable_pi_apply (e l)).comp (measurable_uToX fun i => (h.marg i).round.mono_x.monotone.measurable)) measurable_const
    have : {u | ∀ l, x l < uToX t marg u (e l)} = {u | ∃ l, uToX t marg u (e l) ≤ x l}ᶜ := by
      ext u; simp
    rw [this, probReal_compl_eq_one_sub ms]
    ring
  obtain ⟨a1, a2⟩ := mono fun l => (marg (e l)).xToU (x l)
  obtain ⟨b1, b2⟩ := mono fun l => -(marg (e l)).xToU (x l)
  rw [low h, low h', some_eq h he hx, some_eq h' he' hx', none_eq h he hx, none_eq h' he' hx', all_eq h he hx, all_eq h' he' hx']
  simp only [← hm]
  refine ⟨⟨b1, by linarith, a1, by linarith⟩, fun hs => ?_⟩
  have a3 := a2 hs
  have b3 := b2 hs
  exact ⟨b3, by linarith, a3, by linarith⟩

/-- C120: when the entries between the variables are not negative, taking the variables for independent underestimates the
probability that all limits are exceeded and the probability that none is (so it overestimates the failure probability of the
series system); when they are not positive, the other way round. -/
theorem C120_independent (h : NatafSetting la ty Ro t marg S) {e : Fin m → Fin n} (he : Function.Injective e) {x : Fin m → ℝ}
    (hx : ∀ l, x l ∈ S (e l)) :
    ((∀ i j, i ≠ j → 0 ≤ Ro (e i) (e j)) →
      ∏ l, (stdGauss n).real {u | x l < uToX t marg u (e l)} ≤ (stdGauss n).real {u | ∀ l, x l < uToX t marg u (e l)} ∧
      (stdGauss n).real {u | ∃ l, x l < uToX t marg u (e l)} ≤ 1 - ∏ l, (1 - (stdGauss n).real {u | x l < uToX t marg u (e l)})) ∧
    ((∀ i j, i ≠ j → Ro (e i) (e j) ≤ 0) →
      (stdGauss n).real {u | ∀ l, x l < uToX t marg u (e l)} ≤ ∏ l, (stdGauss n).real {u | x l < uToX t marg u (e l)} ∧
      1 - ∏ l, (1 - (stdGauss n).real {u | x l < uToX t marg u (e l)}) ≤ (stdGauss n).real {u | ∃ l, x l < uToX t marg u (e l)}) := by
  have p1 : ∏ l, (stdGauss n).real {u | x l < uToX t marg u (e l)} = orthant (1 : Matrix (Fin m) (Fin m) ℝ) fun l => -(marg (e l)).xToU (x l) := by
    rw [orthant_one]
    exact Finset.prod_congr rfl fun l _ => exceeds_eq h he hx l
  have hc : ∀ l, 1 - (stdGauss n).real {u | x l < uToX t marg u (e l)} = (stdGauss n).real {u | uToX t marg u (e l) ≤ x l} := by
    intro l
    have ms : MeasurableSet {u | x l < uToX t marg u (e l)} := measurableSet_lt measurable_const
      ((measurable_pi_apply (e l)).comp (measurable_uToX fun i => (h.marg i).round.mono_x.monotone.measurable))
    rw [← probReal_compl_eq_one_sub ms]
    congr 1
    ext u; simp
  have p2 : ∏ l, (1 - (stdGauss n).real {u | x l < uToX t marg u (e l)}) = orthant (1 : Matrix (Fin m) (Fin m) ℝ) fun l => (marg (e l)).xToU (x l) := by
    rw [orthant_one]
    exact Finset.prod_congr rfl fun l _ => by rw [hc, below_eq h he hx l]
  rw [p1, p2, some_eq h he hx, none_eq h he hx, all_eq h he hx]
  have hd : ∀ i, (1 : Matrix (Fin m) (Fin m) ℝ) i i = Ro.submatrix e e i i := fun i => by rw [submatrix_apply, h.diag]; simp
  constructor
  · intro h0
    have mono := fun b => (orthant_mono PosDef.one (h.posDef.submatrix he) hd (fun i j => by
      by_cases hij : i = j
      · rw [hij, hd]
      · rw [one_apply_ne hij]; exact h0 i j hij) b).1
    exact ⟨mono _, by linarith [mono fun l => (marg (e l)).xToU (x l)]⟩
  · intro h0
    have mono := fun b => (orthant_mono (h.posDef.submatrix he) PosDef.one (fun i => (hd i).symm) (fun i j => by
      by_cases hij : i = j
      · rw [hij, hd]
      · rw [one_apply_ne hij]; exact h0 i j hij) b).1
    exact ⟨mono _, by linarith [mono fun l => (marg (e l)).xToU (x l)]⟩

/-- C120: what a simulation shows of it. The limit state of the series system is given to both models, the second with at least
one larger entry: for almost every stream of draws, from some number of samples on (and for small target coefficients of
variation), the second run reports a smaller failure probability than the first; with the limit state of the parallel system a
larger one. -/
theorem C120_simulation (h : NatafSetting la ty Ro t marg S) (h' : NatafSetting la' ty' Ro' t' marg' S') {e : Fin m → Fin n}
    {e' : Fin m → Fin k} (he : Function.Injective e) (he' : Function.Injective e') (hm : ∀ l, marg (e l) = marg' (e' l))
    {x : Fin m → ℝ} (hx : ∀ l, x l ∈ S (e l)) (hx' : ∀ l, x l ∈ S' (e' l)) (hle : ∀ i j, Ro (e i) (e j) ≤ Ro' (e' i) (e' j))
    (hlt : ∃ i j, Ro (e i) (e j) < Ro' (e' i) (e' j)) {σ : Type} {ev evp : Evaluator σ n} {ev' evp' : Evaluator σ k} {P Pp P' Pp' : σ → Prop}
    {f fp : (Fin n → ℝ) → ℝ} {f' fp' : (Fin k → ℝ) → ℝ} (hev : Values ev P f) (hevp : Values evp Pp fp) (hev' : Values ev' P' f')
    (hevp' : Values evp' Pp' fp') (hf : ∀ y, f y < 0 ↔ ∃ l, x l < y (e l)) (hf' : ∀ y, f' y < 0 ↔ ∃ l, x l < y (e' l))
    (hfp : ∀ y, fp y < 0 ↔ ∀ l, x l < y (e l)) (hfp' : ∀ y, fp' y < 0 ↔ ∀ l, x l < y (e' l))
    (bs : ℕ) (hb : 1 ≤ bs) (stdv : ℝ) (hs : 0 < stdv) (pos : ℕ) {s sp s' sp' : σ} (hP : P s) (hPp : Pp sp) (hP' : P' s') (hPp' : Pp' sp') :
    ∀ᵐ ω ∂stream, ∃ c0 > 0, ∃ N0 : ℕ, ∀ (N fuel : ℕ) (cov : ℝ), N0 ≤ N → N ≤ fuel → cov ≤ c0 → ∃ r rp r' rp',
      MonteCarlo.run t marg ev ⟨N, bs, stdv, cov, 0⟩ none ω pos fuel s = some (.ok r) ∧
      MonteCarlo.run t marg evp ⟨N, bs, stdv, cov, 0⟩ none ω pos fuel sp = some (.ok rp) ∧
      MonteCarlo.run t' marg' ev' ⟨N, bs, stdv, cov, 0⟩ none ω pos fuel s' = some (.ok r') ∧
      MonteCarlo.run t' marg' evp' ⟨N, bs, stdv, cov, 0⟩ none ω pos fuel sp' = some (.ok rp') ∧
      r'.Pf < r.Pf ∧ rp.Pf < rp'.Pf := by
  have ms : ∀ {n : ℕ} {la : LinAlg} {ty : TransformType} {Ro : Matrix (Fin n) (Fin n) ℝ} {t : Mats n} {marg : Fin n → Marginal}
      {S : Fin n → Set ℝ}, NatafSetting la ty Ro t marg S → ∀ (e : Fin m → Fin n),
      MeasurableSet {u | ∃ l, x l < uToX t marg u (e l)} ∧ MeasurableSet {u | ∀ l, x l < uToX t marg u (e l)} := by
    intro n la ty Ro t marg S h e
    have one : ∀ l, MeasurableSet {u | x l < uToX t marg u (e l)} := fun l => measurableSet_lt measurable_const
      ((measurable_pi_apply (e l)).comp (measurable_uToX fun i => (h.marg i).round.mono_x.monotone.measurable))
    rw [setOf_exists, setOf_forall]
    exact ⟨MeasurableSet.iUnion one, MeasurableSet.iInter one⟩
  have sys := (C120_systems h h' he he' hm hx hx' hle).2 hlt
  have g1 := C97_simulation (t := t) (marg := marg) hev (by simp only [hf]; exact (ms h e).1) bs hb stdv hs none pos s hP
  have g2 := C97_simulation (t := t) (marg := marg) hevp (by simp only [hfp]; exact (ms h e).2) bs hb stdv hs none pos sp hPp
  have g3 := C97_simulation (t := t') (marg := marg') hev' (by simp only [hf']; exact (ms h' e').1) bs hb stdv hs none pos s' hP'
  have g4 := C97_simulation (t := t') (marg := marg') hevp' (by simp only [hfp']; exact (ms h' e').2) bs hb stdv hs none pos sp' hPp'
  simp only [hf] at g1
  simp only [hfp] at g2
  simp only [hf'] at g3
  simp only [hfp'] at g4
  filter_upwards [g1, g2, g3, g4] with ω w1 w2 w3 w4
  obtain ⟨d1, d2, -⟩ := sys
  obtain ⟨a1, ha1, N1, k1⟩ := w1 _ (half_pos (sub_pos.2 d2))
  obtain ⟨a2, ha2, N2, k2⟩ := w2 _ (half_pos (sub_pos.2 d1))
  obtain ⟨a3, ha3, N3, k3⟩ := w3 _ (half_pos (sub_pos.2 d2))
  obtain ⟨a4, ha4, N4, k4⟩ := w4 _ (half_pos (sub_pos.2 d1))
  refine ⟨min (min a1 a2) (min a3 a4), lt_min (lt_min ha1 ha2) (lt_min ha3 ha4), max (max N1 N2) (max N3 N4), ?_⟩
  intro N fuel cov hN hfuel hc
  obtain ⟨r, r1, r2⟩ := k1 N fuel cov (by omega) hfuel (hc.trans ((min_le_left _ _).trans (min_le_left _ _)))
  obtain ⟨rp, rp1, rp2⟩ := k2 N fuel cov (by omega) hfuel (hc.trans ((min_le_left _ _).trans (min_le_right _ _)))
  obtain ⟨r', r1', r2'⟩ := k3 N fuel cov (by omega) hfuel (hc.trans ((min_le_right _ _).trans (min_le_left _ _)))
  obtain ⟨rp', rp1', rp2'⟩ := k4 N fuel cov (by omega) hfuel (hc.trans ((min_le_right _ _).trans (min_le_right _ _)))
  rw [abs_lt] at r2 rp2 r2' rp2'
  exact ⟨r, rp, r', rp', r1, rp1, r1', rp1', by linarith [r2.1, r2'.2], by linarith [rp2.2, rp2'.1]⟩

/-- Products of probabilities of half-spaces: directions with products that are all nonnegative, or all nonpositive. -/
theorem orth_prod {A : Matrix (Fin m) (Fin n) ℝ} (hA : ∀ l, A l ⬝ᵥ A l = 1) (b : Fin m → ℝ) :
    ((∀ i j, i ≠ j → 0 ≤ A i ⬝ᵥ A j) → ∏ l, (stdGauss n).real {u | A l ⬝ᵥ u ≤ b l} ≤ orth A b) ∧
    ((∀ i j, i ≠ j → A i ⬝ᵥ A j ≤ 0) → orth A b ≤ ∏ l, (stdGauss n).real {u | A l ⬝ᵥ u ≤ b l}) := by
  have e : ∏ l, (stdGauss n).real {u | A l ⬝ᵥ u ≤ b l} = orth (1 : Matrix (Fin m) (Fin m) ℝ) b := by
    rw [orthant_eq (1 : Matrix (Fin m) (Fin m) ℝ) (by simp) PosDef.one, orthant_one]
    refine Finset.prod_congr rfl fun l _ => ?_
    rw [← map_dot (hA l), map_measureReal_apply (dot_meas _) measurableSet_Iic]
    rfl
  have g : ∀ i j, (1 : Matrix (Fin m) (Fin m) ℝ) i ⬝ᵥ (1 : Matrix (Fin m) (Fin m) ℝ) j = (1 : Matrix (Fin m) (Fin m) ℝ) i j := by
    intro i j
    have : ((1 : Matrix (Fin m) (Fin m) ℝ) * (1 : Matrix (Fin m) (Fin m) ℝ)ᵀ) i j = (1 : Matrix (Fin m) (Fin m) ℝ) i ⬝ᵥ (1 : Matrix (Fin m) (Fin m) ℝ) j := rfl
    rw [← this, transpose_one, Matrix.mul_one]
  have g1 : ∀ i, (1 : Matrix (Fin m) (Fin m) ℝ) i ⬝ᵥ (1 : Matrix (Fin m) (Fin m) ℝ) i = 1 := fun i => by rw [g, one_apply_eq]
  rw [e]
  constructor <;> intro h0
  · refine orth_mono g1 hA (fun i j => ?_) b
    by_cases hij : i = j
    · rw [hij, hA, g1]
    · rw [g, one_apply_ne hij]; exact h0 i j hij
  · refine orth_mono hA g1 (fun i j => ?_) b
    by_cases hij : i = j
    · rw [hij, hA, g1]
    · rw [g, one_apply_ne hij]; exact h0 i j hij

/-- C120: a system of `m` affine limit states in correlated normal variables, from the FORM runs of its components (any number
of components, their gradients may be dependent). When no two of the reported vectors `alpha` have a negative product, the
failure probability of the series system is at most `1 - ∏ (1 - Pf)` and that of the parallel system at least `∏ Pf`, `Pf` the
reported probabilities; when no two have a positive product, the other way round. These products are the correlation
coefficients of the limit states. -/
theorem C120_form (hla : LinAlgOK la) (hR : Ro.PosDef) (ht : Transformation.compute la ty Ro = .ok t) {μ sd : Fin n → ℝ}
    {sp : Fin n → Option ℝ} (hsd : ∀ i, 0 < sd i) (hm : ∀ i, Normal.new (μ i) (.fin (sd i)) (sp i) = .ok (marg i)) (a0 : Fin m → ℝ)
    (a : Fin m → Fin n → ℝ) (ha : ∀ l, a l ≠ 0) {σ : Type} {ev : Fin m → Evaluator σ n} {P : Fin m → σ → Prop}
    (hev : ∀ l, Exact (ev l) (P l) (fun x => a0 l + ∑ i, a l i * x i) (fun _ => a l)) (opt : Form.Options) (hst : opt.stepSize = 1)
    (he1 : 0 < opt.e1) (he1' : opt.e1 ≤ 1) (he2 : 0 < opt.e2) (hi : 2 ≤ opt.iMax) (s : Fin m → σ) (hs : ∀ l, P l (s l)) (fuel : ℕ)
    (hf : opt.iMax ≤ fuel) :
    ∃ (r : Fin m → Form.Result n) (s' : Fin m → σ), (∀ l, runFrom t marg (ev l) opt fuel (s l) = some (.done (r l) (s' l))) ∧
      (∀ i j, (r i).alpha ⬝ᵥ (r j).alpha = (∑ p, ∑ q, a i p * sd p * Ro p q * (a j q * sd q)) /
        (√(∑ p, ∑ q, a i p * sd p * Ro p q * (a i q * sd q)) * √(∑ p, ∑ q, a j p * sd p * Ro p q * (a j q * sd q)))) ∧
      ((∀ i j, i ≠ j → 0 ≤ (r i).alpha ⬝ᵥ (r j).alpha) →
        (stdGauss n).real {u | ∃ l, a0 l + ∑ i, a l i * uToX t marg u i ≤ 0} ≤ 1 - ∏ l, (1 - (r l).Pf) ∧
        ∏ l, (r l).Pf ≤ (stdGauss n).real {u | ∀ l, a0 l + ∑ i, a l i * uToX t marg u i ≤ 0}) ∧
      ((∀ i j, i ≠ j → (r i).alpha ⬝ᵥ (r j).alpha ≤ 0) →
        1 - ∏ l, (1 - (r l).Pf) ≤ (stdGauss n).real {u | ∃ l, a0 l + ∑ i, a l i * uToX t marg u i ≤ 0} ∧
        (stdGauss n).real {u | ∀ l, a0 l + ∑ i, a l i * uToX t marg u i ≤ 0} ≤ ∏ l, (r l).Pf) := by
  choose r s' h1 h2 h3 h4 h5 h6 h7 using fun l => C30_exact hla hR ht hsd hm (a0 l) (a l) (ha l) (hev l) opt hst he1 he1' he2 hi (s l)
    (hs l) fuel hf
  refine ⟨r, s', h1, ?_⟩
  obtain ⟨t', ht', hfac, hT1, hT2⟩ := C22_posdef hla ty hR
  rw [ht] at ht'; injection ht' with ht'; subst ht'
  obtain ⟨w, hw⟩ : ∃ w : Fin m → Fin n → ℝ, w = fun l => vecMul (fun i => a l i * sd i) t.invT := ⟨_, rfl⟩
  have hw0 : ∀ l, w l ⬝ᵥ w l ≠ 0 := by
    intro l h0
    rw [dotProduct_self_eq_zero] at h0
    apply ha l
    have : vecMul (w l) t.T = fun i => a l i * sd i := by
      rw [hw]; simp only; rw [vecMul_vecMul, hT2, vecMul_one]
    rw [h0, zero_vecMul] at this
    funext i
    have := congrFun this i
    simpa [(hsd i).ne'] using this.symm
  have hg : ∀ l u, a0 l + ∑ i, a l i * uToX t marg u i = (a0 l + ∑ i, a l i * μ i) + w l ⬝ᵥ u := by
    intro l u
    have e1 : ∀ i, uToX t marg u i = μ i + sd i * (t.invT *ᵥ u) i := fun i => by
      simp only [uToX, (normal_ok (hm i)).1, Normal.uToX]; ring
    have e2 : w l ⬝ᵥ u = ∑ i, a l i * sd i * (t.invT *ᵥ u) i := by
      rw [hw]; exact (dotProduct_mulVec _ _ _).symm
    simp only [e1, e2, mul_add, Finset.sum_add_distrib]
    rw [add_assoc]
    congr 2
    exact Finset.sum_congr rfl fun i _ => by ring
  obtain ⟨p, hp⟩ : ∃ p : Fin m → ℝ, p = fun l => √(w l ⬝ᵥ w l) := ⟨_, rfl⟩
  have hpp : ∀ l, 0 < p l := fun l => by
    rw [hp]
    exact Real.sqrt_pos.2 (lt_of_le_of_ne (by simpa using dotProduct_star_self_nonneg (w l)) (Ne.symm (hw0 l)))
  have hp2 : ∀ l, p l * p l = w l ⬝ᵥ w l := fun l => by
    rw [hp]; exact Real.mul_self_sqrt (by simpa using dotProduct_star_self_nonneg (w l))
  obtain ⟨A, hA⟩ : ∃ A : Matrix (Fin m) (Fin n) ℝ, A = of fun l => (1 / p l) • w l := ⟨_, rfl⟩
  have hAr : ∀ l, A l = (1 / p l) • w l := fun l => by rw [hA]; rfl
  have hal : ∀ l, (r l).alpha = -A l := by
    intro l
    rw [h7, hAr]
    have : norm2 (w l) = p l := by
      rw [hp]
      simp only [norm2, dotProduct]
      congr 1
      exact Finset.sum_congr rfl fun i _ => by ring
    funext i
    have e : w l = (fun i => a l i * sd i) ᵥ* t.invT := by rw [hw]
    rw [← e, alpha, this]
    simp only [Pi.neg_apply, Pi.smul_apply, smul_eq_mul]
    rw [one_div]; ring
  have hAA : ∀ l, A l ⬝ᵥ A l = 1 := by
    intro l
    rw [hAr, dotProduct_smul, smul_dotProduct, smul_eq_mul, smul_eq_mul, ← hp2]
    have := (hpp l).ne'
    field_simp
  obtain ⟨c, hc⟩ : ∃ c : Fin m → ℝ, c = fun l => -(a0 l + ∑ i, a l i * μ i) / p l := ⟨_, rfl⟩
  have hiff : ∀ l u, a0 l + ∑ i, a l i * uToX t marg u i ≤ 0 ↔ A l ⬝ᵥ u ≤ c l := by
    intro l u
    rw [hg, hAr, hc, smul_dotProduct, smul_eq_mul, le_div_iff₀ (hpp l), mul_comm (1 / p l), mul_assoc, one_div, inv_mul_cancel₀ (hpp l).ne',
      mul_one]
    constructor <;> intro h <;> linarith
  simp only [hiff] at h3 ⊢
  simp only [hal, neg_dotProduct_neg]
  have hww : ∀ i j, w i ⬝ᵥ w j = ∑ p, ∑ q, a i p * sd p * Ro p q * (a j q * sd q) := by
    intro i j
    have e1 : ∀ l, w l = t.invTᵀ *ᵥ fun p => a l p * sd p := fun l => by rw [hw, mulVec_transpose]
    have e2 : w i ⬝ᵥ w j = (fun p => a i p * sd p) ⬝ᵥ (Ro *ᵥ fun q => a j q * sd q) := by
      rw [← hfac, ← mulVec_mulVec, ← e1 j, dotProduct_mulVec]
      congr 1
      rw [hw]
    rw [e2]
    simp only [dotProduct, mulVec, Finset.mul_sum]
    exact Finset.sum_congr rfl fun p _ => Finset.sum_congr rfl fun q _ => by ring
  refine ⟨fun i j => ?_, ?_⟩
  · rw [hAr, hAr, dotProduct_smul, smul_dotProduct, smul_eq_mul, smul_eq_mul, hww, ← hww i i, ← hww j j]
    have e3 : ∀ l, √(w l ⬝ᵥ w l) = p l := fun l => by rw [hp]
    have n1 := (hpp i).ne'
    have n2 := (hpp j).ne'
    rw [e3, e3]
    field_simp
  have hn : ∀ l, (-A) l ⬝ᵥ (-A) l = 1 := fun l => by
    have : (-A) l = -A l := rfl
    rw [this, neg_dotProduct_neg, hAA]
  have hnd : ∀ i j, (-A) i ⬝ᵥ (-A) j = A i ⬝ᵥ A j := fun i j => by
    have : ∀ l, (-A) l = -A l := fun _ => rfl
    rw [this, this, neg_dotProduct_neg]
  have flip : ∀ l, ∀ᵐ u ∂(stdGauss n), (¬ A l ⬝ᵥ u ≤ c l) ↔ (-A) l ⬝ᵥ u ≤ -c l := by
    intro l
    filter_upwards [plane_null (show A l ⬝ᵥ A l ≠ 0 by rw [hAA]; norm_num) (c l)] with u hu
    have : (-A) l = -A l := rfl
    rw [this, neg_dotProduct, neg_le_neg_iff, not_le]
    exact ⟨le_of_lt, fun h => lt_of_le_of_ne h hu.symm⟩
  have ms : ∀ l, MeasurableSet {u | A l ⬝ᵥ u ≤ c l} := fun l => measurableSet_le (dot_meas _) measurable_const
  have q1 : ∀ l, 1 - (r l).Pf = (stdGauss n).real {u | (-A) l ⬝ᵥ u ≤ -c l} := by
    intro l
    rw [h3, ← probReal_compl_eq_one_sub (ms l)]
    refine measureReal_congr ?_
    filter_upwards [flip l] with u hu
    exact propext hu
  have q2 : (stdGauss n).real {u | ∃ l, A l ⬝ᵥ u ≤ c l} = 1 - orth (-A) fun l => -c l := by
    have m2 : MeasurableSet {u | ∃ l, A l ⬝ᵥ u ≤ c l} := by rw [setOf_exists]; exact MeasurableSet.iUnion ms
    have : orth (-A) (fun l => -c l) = (stdGauss n).real {u | ∃ l, A l ⬝ᵥ u ≤ c l}ᶜ := by
      unfold orth
      refine measureReal_congr ?_
      filter_upwards [ae_all_iff.2 flip] with u hu
      refine propext ?_
      show (∀ l, (-A) l ⬝ᵥ u ≤ -c l) ↔ ¬ ∃ l, A l ⬝ᵥ u ≤ c l
      rw [not_exists]
      exact forall_congr' fun l => (hu l).symm
    rw [this, probReal_compl_eq_one_sub m2]
    ring
  have P1 := orth_prod hAA c
  have P2 := orth_prod hn fun l => -c l
  simp only [hnd] at P2
  simp only [q1, q2]
  simp only [h3]
  refine ⟨fun h0 => ⟨?_, P1.1 h0⟩, fun h0 => ⟨?_, P1.2 h0⟩⟩
  · linarith [P2.1 h0]
  · linarith [P2.2 h0]

/-- The hypotheses of `C120_form` are met: three limit states of two independent normal variables, with positive products. -/
example {la : LinAlg} (hla : LinAlgOK la) (fuel : ℕ) (hf : 100 ≤ fuel) : ∃ (t : Mats 2) (marg : Fin 2 → Marginal) (r : Fin 3 → Form.Result 2),
    (∀ l : Fin 3, runFrom t marg (⟨fun _ x => ((), .ok (7 + ∑ i, ![-1, -((l : ℕ) : ℝ)] i * x i, ![-1, -((l : ℕ) : ℝ)], x)), fun _ _ => ((), .ok [])⟩ :
      Evaluator Unit 2) ⟨100, 0.001, 0.001, 1, 1⟩ fuel () = some (.done (r l) ())) ∧
    (stdGauss 2).real {u | ∃ l : Fin 3, 7 + ∑ i, ![-1, -((l : ℕ) : ℝ)] i * uToX t marg u i ≤ 0} ≤ 1 - ∏ l, (1 - (r l).Pf) := by
  obtain ⟨t, ht, -⟩ := C22_posdef hla .svd (PosDef.one : (1 : Matrix (Fin 2) (Fin 2) ℝ).PosDef)
  have hm : ∀ i : Fin 2, ∃ m, Normal.new (![1, 2] i) (.fin (1 : ℝ)) none = .ok m := fun i => ⟨_, rfl⟩
  choose marg hmarg using hm
  obtain ⟨r, s', h1, h2, h3, -⟩ := C120_form hla PosDef.one ht (μ := ![1, 2]) (sd := fun _ => 1) (sp := fun _ => none)
    (fun _ => one_pos) hmarg (fun _ : Fin 3 => 7) (fun l => ![-1, -((l : ℕ) : ℝ)]) (fun l h => by simpa using congrFun h 0)
    (ev := fun l => (⟨fun _ x => ((), .ok (7 + ∑ i, ![-1, -((l : ℕ) : ℝ)] i * x i, ![-1, -((l : ℕ) : ℝ)], x)), fun _ _ => ((), .ok [])⟩ :
      Evaluator Unit 2)) (P := fun _ _ => True) (fun l _ _ x => ⟨(), x, rfl, trivial⟩)
    ⟨100, 0.001, 0.001, 1, 1⟩ rfl (by norm_num) (by norm_num) (by norm_num) (by norm_num) (fun _ => ()) (fun _ => trivial) fuel hf
  refine ⟨t, marg, r, h1, (h3 fun i j _ => ?_).1⟩
  rw [h2]
  refine div_nonneg ?_ (by positivity)
  simp [Fin.sum_univ_two, Matrix.one_apply]
  positivity

/-- Three lognormal variables, correlation 0.3 and 0.5. -/
theorem three_settings : ∃ (la : LinAlg) (t t' : Mats 3) (m : Marginal),
    NatafSetting la .cholesky (of fun i j : Fin 3 => if i = j then 1 else 0.3) t (fun _ => m) (fun _ => Ioi 0) ∧
    NatafSetting la .svd (of fun i j : Fin 3 => if i = j then 1 else 0.5) t' (fun _ => m) (fun _ => Ioi 0) := by
  obtain ⟨la, hla⟩ := linAlgOK_exists
  obtain ⟨m, hm, hf⟩ := (C74_classes none).2.1 5 5 (by norm_num) (by norm_num)
  have pd : ∀ r : ℝ, 0 ≤ r → r < 1 → (of fun i j : Fin 3 => if i = j then 1 else r : Matrix (Fin 3) (Fin 3) ℝ).PosDef := by
    intro r h0 h1
    rw [posDef_iff_dotProduct_mulVec]
    refine ⟨by ext i j; simp [eq_comm], fun {x} hx => ?_⟩
    have hpos : 0 < x 0 ^ 2 + x 1 ^ 2 + x 2 ^ 2 := by
      by_contra hc
      apply hx
      have a0 := sq_nonneg (x 0); have a1 := sq_nonneg (x 1); have a2 := sq_nonneg (x 2)
      funext i
      fin_cases i <;> simp <;> nlinarith
    simp [dotProduct, mulVec, Fin.sum_univ_three]
    nlinarith [mul_nonneg h0 (sq_nonneg (x 0 + x 1 + x 2)), mul_pos (sub_pos.2 h1) hpos]
  have set : ∀ (r : ℝ), 0 ≤ r → r < 1 → ∀ ty, ∃ t, NatafSetting la ty (of fun i j : Fin 3 => if i = j then 1 else r) t (fun _ => m) (fun _ => Ioi 0) := by
    intro r h0 h1 ty
    obtain ⟨t, ht, -⟩ := C22_posdef hla ty (pd r h0 h1)
    exact ⟨t, hla, pd r h0 h1, fun i => by simp, ht, fun _ => hf⟩
  obtain ⟨t, h⟩ := set 0.3 (by norm_num) (by norm_num) .cholesky
  obtain ⟨t', h'⟩ := set 0.5 (by norm_num) (by norm_num) .svd
  exact ⟨la, t, t', m, h, h'⟩

/-- The hypotheses of C120 are met: three lognormal variables with the correlations 0.3 and 0.5, in models with different
transformations. -/
example : ∃ (la : LinAlg) (t t' : Mats 3) (m : Marginal) (R R' : Matrix (Fin 3) (Fin 3) ℝ),
    NatafSetting la .cholesky R t (fun _ => m) (fun _ => Ioi 0) ∧ NatafSetting la .svd R' t' (fun _ => m) (fun _ => Ioi 0) ∧
    (stdGauss 3).real {u | ∃ l, (9 : ℝ) < uToX t' (fun _ => m) u l} < (stdGauss 3).real {u | ∃ l, (9 : ℝ) < uToX t (fun _ => m) u l} ∧
    (stdGauss 3).real {u | ∃ l, (9 : ℝ) < uToX t (fun _ => m) u l} ≤
      1 - ∏ l : Fin 3, (1 - (stdGauss 3).real {u | (9 : ℝ) < uToX t (fun _ => m) u l}) := by
  obtain ⟨la, t, t', m, h, h'⟩ := three_settings
  refine ⟨la, t, t', m, _, _, h, h', ?_, ?_⟩
  · refine ((C120_systems h h' (e := id) (e' := id) (fun _ _ h => h) (fun _ _ h => h) (fun _ => rfl) (x := fun _ => 9)
      (fun _ => by simp) (fun _ => by simp) (fun i j => ?_)).2 ⟨0, 1, ?_⟩).2.1
    · simp only [of_apply, id]; split_ifs <;> norm_num
    · simp; norm_num
  · refine ((C120_independent h (e := id) (fun _ _ h => h) (x := fun _ => 9) (fun _ => by simp)).1 fun i j hij => ?_).2
    simp [hij]; norm_num

/-- The hypotheses of `C120_simulation`: three lognormal variables, system limit states as minimum and maximum of three margins. -/
example : ∃ (t t' : Mats 3) (m : Marginal), ∀ᵐ ω ∂stream, ∃ c0 > 0, ∃ N0 : ℕ, ∀ (N fuel : ℕ) (cov : ℝ), N0 ≤ N → N ≤ fuel → cov ≤ c0 →
    ∃ r r' : MonteCarlo.Result Unit 3,
      MonteCarlo.run t (fun _ => m) (⟨fun s _ => (s, .error .typeError), fun s xs => (s, .ok (xs.map fun x => min (9 - x 0) (min (9 - x 1) (9 - x 2))))⟩ :
        Evaluator Unit 3) ⟨N, 100, 1, cov, 0⟩ none ω 0 fuel () = some (.ok r) ∧
      MonteCarlo.run t' (fun _ => m) (⟨fun s _ => (s, .error .typeError), fun s xs => (s, .ok (xs.map fun x => min (9 - x 0) (min (9 - x 1) (9 - x 2))))⟩ :
        Evaluator Unit 3) ⟨N, 100, 1, cov, 0⟩ none ω 0 fuel () = some (.ok r') ∧ r'.Pf < r.Pf := by
  obtain ⟨la, t, t', m, h, h'⟩ := three_settings
  refine ⟨t, t', m, ?_⟩
  have hv : ∀ f : (Fin 3 → ℝ) → ℝ, Values (⟨fun s _ => (s, .error .typeError), fun s xs => (s, .ok (xs.map f))⟩ : Evaluator Unit 3)
      (fun _ => True) f := fun f s xs _ => ⟨s, rfl, trivial⟩
  have e1 : ∀ y : Fin 3 → ℝ, min (9 - y 0) (min (9 - y 1) (9 - y 2)) < 0 ↔ ∃ l, (fun _ => (9 : ℝ)) l < y (id l) := by
    intro y
    simp [Fin.exists_fin_succ, sub_neg]
  have e2 : ∀ y : Fin 3 → ℝ, max (9 - y 0) (max (9 - y 1) (9 - y 2)) < 0 ↔ ∀ l, (fun _ => (9 : ℝ)) l < y (id l) := by
    intro y
    simp [Fin.forall_fin_succ, sub_neg]
  have key := C120_simulation h h' (e := id) (e' := id) (fun _ _ h => h) (fun _ _ h => h) (fun _ => rfl) (x := fun _ => 9)
    (fun _ => by simp) (fun _ => by simp) (fun i j => by simp only [of_apply, id]; split_ifs <;> norm_num) ⟨0, 1, by simp; norm_num⟩
    (hv _) (hv _) (hv _) (hv _) e1 e1 e2 e2 100 (by norm_num) 1 one_pos 0 (s := ()) (sp := ()) (s' := ()) (sp' := ()) trivial trivial trivial trivial
  filter_upwards [key] with ω hω
  obtain ⟨c0, hc0, N0, hN⟩ := hω
  refine ⟨c0, hc0, N0, fun N fuel cov h1 h2 h3 => ?_⟩
  obtain ⟨r, rp, r', rp', g1, -, g2, -, g3, -⟩ := hN N fuel cov h1 h2 h3
  exact ⟨r, r', g1, g2, g3⟩

end Pystra.Props
