import Verif.Props.FormGlobal

/-! C103, the other side: where the curvature condition fails, the search may alternate between two points for ever. -/

namespace Pystra.Props
open Matrix Spec Transformation Form Set

variable {σ : Type} {n m : ℕ}

/-- A set of points of equal value, equal length and equal gradient length that full steps do not leave. -/
theorem cycle_loop {t : Mats n} {marg : Fin n → Marginal} {ev : Evaluator σ n} {P : σ → Prop} {opt : Form.Options}
    {q : (Fin n → ℝ) → ℝ} {Gr : (Fin n → ℝ) → Fin n → ℝ} {U : Set (Fin n → ℝ)} {q0 l : ℝ} (hq0 : q0 ≠ 0)
    (hlin : ∀ u s, P s → ∃ s' p, linearise t marg ev u s = (s', .ok p) ∧ P s' ∧ p.gradient = Gr u ∧ p.G = q u)
    (hval : ∀ (us : List (Fin n → ℝ)) s, P s → ∃ s', ev.values s (us.map (uToX t marg)) = (s', .ok (us.map q)) ∧ P s')
    (hU : ∀ u ∈ U, Gr u ≠ 0 ∧ q u = q0 ∧ norm2 u = l ∧ hlrf q Gr u ∈ U)
    (hst : opt.stepSize = 1 ∨ (opt.stepSize = 0 ∧ opt.multiProc = 1)) (he : opt.e1 ≤ 1) (fuel : ℕ) :
    ∀ (i : ℕ) (Go : ℝ) (u : Fin n → ℝ) (s : σ), 1 ≤ i → i ≤ opt.iMax → opt.iMax + 1 ≤ fuel + i → P s →
      u ∈ U → (i ≠ 1 → Go = q0) →
    ∃ r s', loop t marg ev opt fuel i Go u s = some (.done r s') ∧ r.i = opt.iMax ∧ r.point.u ∈ U ∧ r.point.G = q0 ∧
      r.beta = alpha (Gr r.point.u) ⬝ᵥ r.point.u := by
  induction fuel with
  | zero => intro i Go u s h1 h2 h3; omega
  | succ k ih =>
    intro i Go u s h1 h2 h3 hP hu hi2
    obtain ⟨hgn, hqu, hnu, hTu⟩ := hU u hu
    obtain ⟨s', p, hl, hP', hg, hG⟩ := hlin u s hP
    have hgo : (if i = 1 then p.G else Go) = q0 := by
      by_cases hi : i = 1
      · rw [if_pos hi, hG, hqu]
      · rw [if_neg hi, hi2 hi]
    have hpu : p.u = u := by
      unfold linearise at hl
      dsimp only at hl
      split at hl
      · cases hl
      · split at hl
        · cases hl
        · cases hl; rfl
    have hc1 : cond1 opt q0 q0 = false := by
      unfold cond1
      rw [mul_inv_cancel₀ hq0, abs_one]
      simp [not_lt.2 he]
    by_cases hi : i = opt.iMax
    · have hit : iteration t marg ev opt i Go u s = .done ⟨i, p, q0, alpha (Gr u), alpha (Gr u) ⬝ᵥ u,
          StdNormal.cdf (-(alpha (Gr u) ⬝ᵥ u))⟩ s' := by
        unfold iteration
        rw [hl]
        simp only [hgo, hg, if_neg hgn]
        have : (cond1 opt p.G q0 && cond2 opt u (alpha (Gr u)) || decide (i = opt.iMax)) = true := by simp [hi]
        rw [if_pos this]
      refine ⟨_, s', by unfold Form.loop; rw [hit], hi, by rw [hpu]; exact hu, hG.trans hqu, ?_⟩
      simp only [hpu]
    · have hstep : ∃ s2, getStepSize t marg ev opt q0 (Gr u) u (direction q0 (Gr u) (alpha (Gr u)) u) s' = (s2, .ok 1) ∧ P s2 := by
        rcases hst with hst | ⟨hst, hmp⟩
        · refine ⟨s', ?_, hP'⟩
          unfold getStepSize
          rw [hst]
          simp
        · obtain ⟨d, hd⟩ : ∃ d, d = direction q0 (Gr u) (alpha (Gr u)) u := ⟨_, rfl⟩
          rw [← hd]
          obtain ⟨s2, hv, hP2⟩ := hval ((List.range 6).map (fun j i => u i * 1 + d i * 0.5 ^ j)) s' hP'
          refine ⟨s2, ?_, hP2⟩
          unfold getStepSize computeStepSize
          rw [if_pos hst]
          simp only [if_pos hmp]
          rw [List.map_map] at hv
          have e : (List.range 6).map (fun j => uToX t marg (fun i => u i * 1 + d i * 0.5 ^ j)) =
            (List.range 6).map (uToX t marg ∘ fun j i => u i * 1 + d i * 0.5 ^ j) := rfl
          rw [e, hv]
          have hT : (fun i => u i * 1 + d i * (0.5 : ℝ) ^ 0) = hlrf q Gr u := by
            have := full_step hgn (q u) u
            unfold hlrf
            rw [← this, hqu, ← hd]
            funext i; simp
          obtain ⟨-, hqT, hnT, -⟩ := hU _ hTu
          have hacc := armijo_accept (m := merit (meritC u (Gr u)) u q0) (trial := fun j => (0.5 : ℝ) ^ j)
            (mNew := fun j => merit (meritC u (Gr u)) (fun i => u i * 1 + d i * 0.5 ^ j)
              ((List.map q (List.map (fun j i => u i * 1 + d i * 0.5 ^ j) (List.range 6))).getD j 0)) (by
            change merit _ (fun i => u i * 1 + d i * (0.5 : ℝ) ^ 0) (q (fun i => u i * 1 + d i * (0.5 : ℝ) ^ 0)) ≤ _
            rw [hT]
            unfold merit
            rw [hqT, hnT, hnu])
          dsimp only at hacc ⊢
          rw [hacc]
          norm_num
      obtain ⟨s2, hstep, hP2⟩ := hstep
      have hit : iteration t marg ev opt i Go u s = .next q0 (hlrf q Gr u) s2 := by
        unfold iteration
        rw [hl]
        have hgo2 : (if i = 1 then q0 else Go) = q0 := by rw [hG, hqu] at hgo; exact hgo
        simp only [hg, if_neg hgn, hG, hqu, hgo2]
        have : (cond1 opt q0 q0 && cond2 opt u (alpha (Gr u)) || decide (i = opt.iMax)) = false := by simp [hi, hc1]
        rw [this]
        simp only [Bool.false_eq_true, if_false, hstep]
        congr 1
        have := full_step hgn (q u) u
        rw [hqu] at this
        rw [this]
        unfold hlrf
        rw [hqu]
      obtain ⟨r, s3, r1, r2⟩ := ih (i + 1) q0 (hlrf q Gr u) s2 (by omega) (by omega) (by omega) hP2 hTu (fun _ => rfl)
      exact ⟨r, s3, by unfold Form.loop; rw [hit]; exact r1, r2⟩

/-- The two points. -/
noncomputable def cyclePoint (κ y : ℝ) (i0 : Fin m) : Fin (m + 1) → ℝ :=
  fun k => if k = i0.castSucc then y / κ else if k = Fin.last m then 1 / κ else 0

theorem cyclePoint_last (κ y : ℝ) (i0 : Fin m) : cyclePoint κ y i0 (Fin.last m) = 1 / κ := by
  unfold cyclePoint
  rw [if_neg (Fin.castSucc_lt_last i0).ne', if_pos rfl]

theorem cyclePoint_castSucc (κ y : ℝ) (i0 i : Fin m) : cyclePoint κ y i0 i.castSucc = if i = i0 then y / κ else 0 := by
  unfold cyclePoint
  simp [Fin.castSucc_inj, (Fin.castSucc_lt_last i).ne]

/-- C103, the condition on the curvatures cannot be left out: the limit state is a paraboloid `c (β - v_n + ½ Σ κᵢ vᵢ²)` as in
`C103_global`, and for one of the curvatures `β κ > 1`.  The point `β` times the last row of `Q` is then still a design point, but
there is a starting point from which FORM, with full steps *or with the default step size rule*, whatever the iteration limit and the
tolerances (`e1 ≤ 1`), alternates between two points: it stops only because the iteration limit is reached, and reports, without an
error, a result at which the limit state still has exactly the value `4 c (βκ - 1)/(3 κ)` that it had at the start; the reported
reliability index is `(1 - y²)/(κ √(1 + y²))` with `y² = 2(βκ - 1)/3`, less than `1/κ < β`. -/
theorem C103_cycle {la : LinAlg} {ty : TransformType} {Ro : Matrix (Fin (m + 1)) (Fin (m + 1)) ℝ} {t : Mats (m + 1)}
    (ht : Transformation.compute la ty Ro = .ok t) {marg : Fin (m + 1) → Marginal} {S : Fin (m + 1) → Set ℝ}
    (hmarg : ∀ i, RoundTrip (marg i) (S i)) (hS : ∀ i, IsOpen (S i)) (hj : ∀ i, JacobianCorrect (marg i) (S i))
    (hdiff : ∀ i, Differentiable ℝ (marg i).uToX)
    {f : (Fin (m + 1) → ℝ) → ℝ} {grad : (Fin (m + 1) → ℝ) → Fin (m + 1) → ℝ}
    (hf : ∀ x, (∀ i, x i ∈ S i) → HasFDerivAt f (gradMap (grad x)) x)
    {ev : Evaluator σ (m + 1)} {P : σ → Prop} (hex : Exact ev P f grad) (hval : Values ev P f)
    {Q : Matrix (Fin (m + 1)) (Fin (m + 1)) ℝ} (hQ : Q * Qᵀ = 1) {κ : Fin m → ℝ} {c β : ℝ} (hc : 0 < c)
    (hq : ∀ u, f (uToX t marg u) = c * (β - Q.mulVec u (Fin.last m) + 1 / 2 * ∑ i : Fin m, κ i * Q.mulVec u i.castSucc ^ 2))
    {i0 : Fin m} (hκ : 0 < κ i0) (h1 : 1 < β * κ i0) :
    ∃ x0 : Fin (m + 1) → ℝ, (∀ i, x0 i ∈ S i) ∧
    ∀ (opt : Form.Options), opt.stepSize = 1 ∨ (opt.stepSize = 0 ∧ opt.multiProc = 1) → opt.e1 ≤ 1 → 1 ≤ opt.iMax →
    ∀ (fuel : ℕ), opt.iMax ≤ fuel → ∀ (s : σ), P s →
    ∃ r s', runFrom t (fun i => { marg i with startpoint := x0 i }) ev opt fuel s = some (.done r s') ∧ r.i = opt.iMax ∧
      r.point.G = f x0 ∧ r.point.G = 4 / 3 * c * (β * κ i0 - 1) / κ i0 ∧
      r.beta = (1 - 2 / 3 * (β * κ i0 - 1)) / (κ i0 * √(1 + 2 / 3 * (β * κ i0 - 1))) ∧ r.beta < 1 / κ i0 ∧ 1 / κ i0 < β := by
  have hQ' : Qᵀ * Q = 1 := mul_eq_one_comm.1 hQ
  have hQt : (Qᵀ)ᵀ * Qᵀ = 1 := by rw [transpose_transpose]; exact hQ
  obtain ⟨k, hk⟩ : ∃ k, k = κ i0 := ⟨_, rfl⟩
  rw [← hk] at hκ h1 ⊢
  obtain ⟨y, hy⟩ : ∃ y, y = √(2 / 3 * (β * k - 1)) := ⟨_, rfl⟩
  have hy2 : y ^ 2 = 2 / 3 * (β * k - 1) := by rw [hy, Real.sq_sqrt (by linarith)]
  have hfun : (fun u => f (uToX t marg u)) = fun u => parVal κ c β (Q *ᵥ u) := funext hq
  obtain ⟨Gr, hGrd⟩ : ∃ Gr : (Fin (m + 1) → ℝ) → Fin (m + 1) → ℝ, Gr = fun u => Qᵀ *ᵥ parGrad κ c (Q *ᵥ u) := ⟨_, rfl⟩
  have hGr : ∀ u, HasFDerivAt (fun u => f (uToX t marg u)) (gradMap (Gr u)) u := by
    intro u
    rw [hfun, hGrd]
    exact par_hasFDerivAt κ c β u
  have hlin : ∀ u s, P s → ∃ s' p, linearise t marg ev u s = (s', .ok p) ∧ P s' ∧ p.gradient = Gr u ∧ p.G = f (uToX t marg u) := by
    intro u s hs
    have hch := C23_chain_rule ht marg S hmarg hS hj u
    obtain ⟨Ji, hJ⟩ := hch.1.2 (fun i => jac_ne_zero (hmarg i) (hj i) (hdiff i _))
    obtain ⟨s1, xa, he, hP⟩ := hex s hs (uToX t marg u)
    refine ⟨s1, _, by unfold linearise; dsimp only; rw [hJ, he], hP, ?_, rfl⟩
    have h1 := (hch.2 Ji hJ).2 f (grad _) (hf _ fun i => (hmarg i).mem _)
    have h2 := h1.unique (hGr u)
    funext i
    have := congrArg (fun (L : (Fin (m + 1) → ℝ) →L[ℝ] ℝ) => L (Pi.single i 1)) h2
    simp only [gradMap_apply] at this
    simpa [Pi.single_apply] using this
  have hval' : ∀ (us : List (Fin (m + 1) → ℝ)) s, P s →
      ∃ s', ev.values s (us.map (uToX t marg)) = (s', .ok (us.map (fun u => f (uToX t marg u)))) ∧ P s' := by
    intro us s hs
    obtain ⟨s', h, hp⟩ := hval s hs (us.map (uToX t marg))
    refine ⟨s', ?_, hp⟩
    rw [h, List.map_map]
    rfl
  -- at the two points
  have hpt : ∀ z : ℝ, z ^ 2 = y ^ 2 → ∀ u, u = Qᵀ *ᵥ cyclePoint k z i0 →
      Gr u ≠ 0 ∧ f (uToX t marg u) = 4 / 3 * c * (β * k - 1) / k ∧ norm2 u = √((1 + y ^ 2) / k ^ 2) ∧
      hlrf (fun u => f (uToX t marg u)) Gr u = Qᵀ *ᵥ cyclePoint k (-z) i0 ∧
      alpha (Gr u) ⬝ᵥ u = (1 - y ^ 2) / (k * √(1 + y ^ 2)) := by
    intro z hz u hu
    have hQu : Q *ᵥ u = cyclePoint k z i0 := by rw [hu, mulVec_mulVec, hQ, one_mulVec]
    have hA : ∑ i : Fin m, κ i * cyclePoint k z i0 i.castSucc ^ 2 = z ^ 2 / k := by
      rw [Finset.sum_eq_single i0]
      · rw [cyclePoint_castSucc, if_pos rfl, ← hk]; field_simp
      · intro i _ hi
        rw [cyclePoint_castSucc, if_neg hi]; ring
      · intro h; exact absurd (Finset.mem_univ _) h
    have hB : norm2 (fun i : Fin m => κ i * cyclePoint k z i0 i.castSucc) ^ 2 = z ^ 2 := by
      rw [norm2_sq, Finset.sum_eq_single i0]
      · rw [cyclePoint_castSucc, if_pos rfl, ← hk]; field_simp
      · intro i _ hi
        rw [cyclePoint_castSucc, if_neg hi]; ring
      · intro h; exact absurd (Finset.mem_univ _) h
    have hqu : f (uToX t marg u) = c * (β - 1 / k + 1 / 2 * (z ^ 2 / k)) := by
      rw [hq, hQu, hA, cyclePoint_last]
    have hGu : Gr u = Qᵀ *ᵥ parGrad κ c (cyclePoint k z i0) := by rw [hGrd]; dsimp only; rw [hQu]
    have hn2 : norm2 (Gr u) ^ 2 = c ^ 2 * (1 + z ^ 2) := by
      rw [hGu, rot_norm hQt, parGrad_sq, hB]
    have hne : Gr u ≠ 0 := by
      intro h
      rw [h, norm2_zero] at hn2
      have : 0 < c ^ 2 * (1 + z ^ 2) := by positivity
      rw [← hn2] at this
      norm_num at this
    have hdot : Gr u ⬝ᵥ u = c * (z ^ 2 / k - 1 / k) := by
      rw [hGu, dotProduct_comm, dotProduct_mulVec, vecMul_transpose, hQu, dotProduct_comm, parGrad_dot, hA, cyclePoint_last]
    refine ⟨hne, ?_, ?_, ?_, ?_⟩
    · rw [hqu, hz, hy2]; field_simp; ring
    · have : norm2 u ^ 2 = (1 + y ^ 2) / k ^ 2 := by
        rw [hu, rot_norm hQt, norm2_snoc_sq, cyclePoint_last, norm2_sq, Finset.sum_eq_single i0]
        · rw [cyclePoint_castSucc, if_pos rfl, div_pow, hz]; field_simp; ring
        · intro i _ hi
          rw [cyclePoint_castSucc, if_neg hi]; ring
        · intro h; exact absurd (Finset.mem_univ _) h
      rw [← this, Real.sqrt_sq (norm2_nonneg _)]
    · have e : (Gr u ⬝ᵥ u - f (uToX t marg u)) / (Gr u ⬝ᵥ Gr u) = -1 / (c * k) := by
        rw [dot_self, hn2, hdot, hqu, hz, hy2]
        have hne2 : 0 < c ^ 2 * (1 + 2 / 3 * (β * k - 1)) := by
          have : 0 < 1 + 2 / 3 * (β * k - 1) := by linarith
          positivity
        rw [div_eq_div_iff hne2.ne' (by positivity)]
        field_simp
        ring
      unfold hlrf
      dsimp only
      rw [e, hGu, ← mulVec_smul]
      congr 1
      funext j
      refine Fin.lastCases ?_ (fun i => ?_) j
      · rw [Pi.smul_apply, cyclePoint_last]
        simp only [parGrad, Fin.snoc_last, smul_eq_mul]
        field_simp
      · rw [Pi.smul_apply, cyclePoint_castSucc]
        simp only [parGrad, Fin.snoc_castSucc, smul_eq_mul, cyclePoint_castSucc]
        by_cases hi : i = i0
        · rw [if_pos hi, if_pos hi, hi, ← hk]; field_simp
        · rw [if_neg hi, if_neg hi]; ring
    · have hn : norm2 (Gr u) = c * √(1 + y ^ 2) := by
        rw [← Real.sqrt_sq (norm2_nonneg (Gr u)), hn2, hz, Real.sqrt_mul (sq_nonneg c), Real.sqrt_sq hc.le]
      rw [alpha_dot, hdot, hn, hz]
      have : 0 < √(1 + y ^ 2) := Real.sqrt_pos.2 (by positivity)
      field_simp
      ring
  have hnz : 4 / 3 * c * (β * k - 1) / k ≠ 0 := by
    have : 0 < 4 / 3 * c * (β * k - 1) / k := by
      have : 0 < β * k - 1 := by linarith
      positivity
    exact this.ne'
  obtain ⟨u0, hu0⟩ : ∃ u0, u0 = Qᵀ *ᵥ cyclePoint k y i0 := ⟨_, rfl⟩
  obtain ⟨r1, r2, -⟩ := C21_round_trip ht marg S hmarg
  refine ⟨uToX t marg u0, r1 u0, fun opt hst he hi fuel hfu s hs => ?_⟩
  have hlin' : ∀ u s, P s → ∃ s' p, linearise t (fun i => { marg i with startpoint := uToX t marg u0 i }) ev u s = (s', .ok p) ∧ P s' ∧
      p.gradient = Gr u ∧ p.G = f (uToX t marg u) := hlin
  have hstart : startingPoint t (fun i => { marg i with startpoint := uToX t marg u0 i }) = u0 := r2 u0
  obtain ⟨r, s', h2, h3, h4, h5, h6⟩ := cycle_loop (t := t) (marg := fun i => { marg i with startpoint := uToX t marg u0 i }) (ev := ev)
    (opt := opt) (P := P) (q := fun u => f (uToX t marg u)) (Gr := Gr)
    (U := {u | u = Qᵀ *ᵥ cyclePoint k y i0 ∨ u = Qᵀ *ᵥ cyclePoint k (-y) i0}) (l := √((1 + y ^ 2) / k ^ 2)) hnz hlin' hval'
    (fun u hu => by
      rcases hu with hu | hu
      · obtain ⟨a, b, c, d, -⟩ := hpt y rfl u hu
        exact ⟨a, b, c, Or.inr d⟩
      · obtain ⟨a, b, c, d, -⟩ := hpt (-y) (by ring) u hu
        exact ⟨a, b, c, Or.inl (by rw [d, neg_neg])⟩) hst he fuel 1 0 u0 s le_rfl hi (by omega) hs (Or.inl hu0) (fun h => absurd rfl h)
  have hb : r.beta = (1 - y ^ 2) / (k * √(1 + y ^ 2)) := by
    rw [h6]
    rcases h4 with h4 | h4
    · exact (hpt y rfl _ h4).2.2.2.2
    · exact (hpt (-y) (by ring) _ h4).2.2.2.2
  refine ⟨r, s', ?_, h3, ?_, h5, ?_, ?_, ?_⟩
  · unfold runFrom
    rw [hstart]
    exact h2
  · rw [h5, (hpt y rfl u0 hu0).2.1]
  · rw [hb, hy2]
  · have hyp : 0 < y ^ 2 := by rw [hy2]; linarith
    have hs1 : 1 < √(1 + y ^ 2) := by
      rw [Real.lt_sqrt (by norm_num)]; linarith
    rw [hb, div_lt_div_iff₀ (by positivity) hκ]
    nlinarith
  · rw [div_lt_iff₀ hκ]; exact h1

end Pystra.Props
