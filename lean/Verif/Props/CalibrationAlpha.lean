import Verif.Props.CalibrationMatrix
import Verif.Lemmas.AlphaNewton

/-! C110: convergence of the alpha calibration, for a case whose FORM analyses are exact. -/

namespace Pystra.Props
open Calib Spec Frame AlphaNewton

variable {D : Type}

/-- What the analyses of a case and the design parameters computed from them are, for resistance and load effects with means `muR`, `muS`,
standard deviations `A`, `B` and covariance `c`, when the design parameter's own constant is `κ`. -/
structure Projects (C : Calib D) (case : String) (muR muS A B c κ : ℝ) : Prop where
  labels : ∃ cols, ∀ z, 0 ≤ z → ∃ f, C.relFunc case z = .ok f ∧ xstarLabels f = cols ∧ f.beta = (z * muR - muS) / dev A B c z ∧
    ∃ df, oneRow cols (f.uToX (f.alpha.map (fun a => a * C.betaT))) = .ok df ∧
      C.calcDesignParam df "0" = if κ * resist muR A B c C.betaT z = 0 then .error .zeroDivision
        else .ok |load muS A B c C.betaT z / (κ * resist muR A B c C.betaT z)|

/-- The sequence of design parameters. -/
theorem newton_sequence {muR muS A B c b : ℝ} (H : Ok muR muS A B c b) {zs : ℝ} (hzs : 0 ≤ zs)
    (h0 : worst muR muS A B c b zs = 0) {ζ : ℕ → ℝ} (hζ0 : 0 ≤ ζ 0) {n : ℕ}
    (hstep : ∀ i < n, 0 ≤ ζ i → ζ (i + 1) = |load muS A B c b (ζ i) / (1 * resist muR A B c b (ζ i))|) :
    (∀ i ≤ n, 0 ≤ ζ i) ∧ (∀ i < n, ζ (i + 1) ≤ zs ∧ zs - ζ (i + 1) ≤ (b * A / muR) ^ i * zs) ∧
    ∀ i < n, ζ i ≤ zs → ζ i ≤ ζ (i + 1) ∧ zs - ζ (i + 1) ≤ b * A ^ 2 / (B * (muR - b * A)) * (zs - ζ i) ^ 2 := by
  have hst : ∀ i < n, 0 ≤ ζ i → ζ (i + 1) = load muS A B c b (ζ i) / resist muR A B c b (ζ i) := by
    intro i hi hz
    rw [hstep i hi hz, one_mul, abs_of_nonneg (div_nonneg (H.load_nonneg hz) (H.resist_pos hz).le)]
  have hpos : ∀ i ≤ n, 0 ≤ ζ i := by
    intro i
    induction i with
    | zero => intro _; exact hζ0
    | succ i ih =>
      intro hi
      have hz := ih (by omega)
      exact (H.step hzs h0 hz (hst i (by omega) hz)).1
  have hq : 0 ≤ b * A / muR := div_nonneg (mul_nonneg H.b0 H.A0) H.muR_pos.le
  refine ⟨hpos, ?_, ?_⟩
  · intro i
    induction i with
    | zero =>
      intro hi
      have h1 := H.step hzs h0 hζ0 (hst 0 hi hζ0)
      refine ⟨h1.2.1, ?_⟩
      rw [pow_zero, one_mul]
      linarith [h1.1]
    | succ i ih =>
      intro hi
      obtain ⟨i1, i2⟩ := ih (by omega)
      have hz := hpos (i + 1) (by omega)
      have h1 := H.step hzs h0 hz (hst (i + 1) hi hz)
      refine ⟨h1.2.1, (h1.2.2 i1).2.1.trans ?_⟩
      rw [pow_succ', mul_assoc]
      exact mul_le_mul_of_nonneg_left i2 hq
  · intro i hi hle
    have hz := hpos i (by omega)
    obtain ⟨h1, -, h3⟩ := (H.step hzs h0 hz (hst i hi hz)).2.2 hle
    exact ⟨h1, h3⟩

/-- The loop does not fail. -/
theorem alphaLoop_noerror {C : Calib D} {case : String} {cols : List String} {muR muS A B c κ : ℝ}
    (hP : ∀ z, 0 ≤ z → ∃ f, C.relFunc case z = .ok f ∧ xstarLabels f = cols ∧ f.beta = (z * muR - muS) / dev A B c z ∧
      ∃ df, oneRow cols (f.uToX (f.alpha.map (fun a => a * C.betaT))) = .ok df ∧
        C.calcDesignParam df "0" = if κ * resist muR A B c C.betaT z = 0 then .error .zeroDivision
          else .ok |load muS A B c C.betaT z / (κ * resist muR A B c C.betaT z)|)
    (hR : ∀ z, 0 ≤ z → κ * resist muR A B c C.betaT z ≠ 0) (atol : ℝ) (maxIter : ℕ) :
    ∀ (fuel n : ℕ) (z : ZVal) (f : FormObj D), 0 ≤ z.val → C.relFunc case z.val = .ok f → ∀ e,
      C.alphaLoop case cols atol maxIter fuel n z f ≠ some (.error e) := by
  intro fuel
  induction fuel with
  | zero =>
    intro n z f hz hf e h
    rw [alphaLoop] at h
    split at h <;> cases h
  | succ fuel ih =>
    intro n z f hz hf e h
    obtain ⟨f', h1, h2, h3, df, h4, h5⟩ := hP z.val hz
    rw [hf] at h1
    injection h1 with h1
    subst h1
    rw [if_neg (hR _ hz)] at h5
    rw [alphaLoop] at h
    split at h
    · cases h
    · dsimp only at h
      rw [h4] at h
      dsimp only at h
      rw [h5] at h
      dsimp only at h
      obtain ⟨f2, k1, -⟩ := hP _ (abs_nonneg (load muS A B c C.betaT z.val / (κ * resist muR A B c C.betaT z.val)))
      rw [k1] at h
      dsimp only at h
      split at h
      · cases h
      · exact ih _ (.arr _) _ (abs_nonneg _) k1 e h

/-- What any finished run of the loop went through. -/
theorem projects_rounds {C : Calib D} {case : String} {muR muS A B c κ : ℝ} (hP : Projects C case muR muS A B c κ) {z0 : ℝ}
    (hz0 : 0 ≤ z0) {target abstol : ℝ} {maxIter fuel : ℕ} {z : ZVal} {f : FormObj D} {n : ℕ}
    (h : C.calibrationAlpha case z0 target abstol maxIter fuel = some (.ok (z, f, n))) :
    ∃ ζ : ℕ → ℝ, ζ 0 = z0 ∧ ζ n = z.val ∧ (∀ i ≤ n, 0 ≤ ζ i) ∧ f.beta = (ζ n * muR - muS) / dev A B c (ζ n) ∧
      (∀ i < n, ζ (i + 1) = |load muS A B c C.betaT (ζ i) / (κ * resist muR A B c C.betaT (ζ i))|) ∧
      ∀ i < n, ¬ |(ζ i * muR - muS) / dev A B c (ζ i) - C.betaT| ≤ abstol + 1e-5 * |C.betaT| := by
  obtain ⟨cols, hcols⟩ := hP.labels
  obtain ⟨ζ, φ, a1, a2, a3, a4, a5⟩ := C60_rounds C case z0 target abstol h
  have hlab : xstarLabels (φ 0) = cols := by
    obtain ⟨f', b1, b2, -⟩ := hcols z0 hz0
    have := a4 0 (Nat.zero_le _)
    rw [a1, b1] at this
    injection this with this
    rw [← this, b2]
  have hone : ∀ i < n, 0 ≤ ζ i → ζ (i + 1) = |load muS A B c C.betaT (ζ i) / (κ * resist muR A B c C.betaT (ζ i))| := by
    intro i hi hz
    obtain ⟨f', b1, -, b3, df, b4, b5⟩ := hcols (ζ i) hz
    have h1 := a4 i hi.le
    rw [b1] at h1
    injection h1 with h1
    obtain ⟨-, df', c1, c2⟩ := a5 i hi
    rw [hlab, ← h1, b4] at c1
    injection c1 with c1
    rw [← c1, b5] at c2
    split at c2
    · cases c2
    · injection c2 with c2
      exact c2.symm
  have hpos : ∀ i ≤ n, 0 ≤ ζ i := by
    intro i
    induction i with
    | zero => intro _; rw [a1]; exact hz0
    | succ i ih =>
      intro hi
      rw [hone i (by omega) (ih (by omega))]
      exact abs_nonneg _
  have hbeta : ∀ i ≤ n, (φ i).beta = (ζ i * muR - muS) / dev A B c (ζ i) := by
    intro i hi
    obtain ⟨f', b1, -, b3, -⟩ := hcols (ζ i) (hpos i hi)
    have h1 := a4 i hi
    rw [b1] at h1
    injection h1 with h1
    rw [← h1, b3]
  refine ⟨ζ, a1, a2, hpos, ?_, fun i hi => hone i hi (hpos i hi.le), fun i hi => ?_⟩
  · rw [← a3, hbeta n le_rfl]
  · have := (a5 i hi).1
    rwa [hbeta i hi.le] at this

/-- C110 for a case whose analyses are exact: the calibration succeeds. -/
theorem projects_converges {C : Calib D} {case : String} {muR muS A B c : ℝ} (hP : Projects C case muR muS A B c 1)
    (H : Ok muR muS A B c C.betaT) {z0 : ℝ} (hz0 : 0 ≤ z0) (target : ℝ) {abstol : ℝ} {maxIter fuel : ℕ} (hmax : 1 ≤ maxIter)
    (hfuel : maxIter ≤ fuel) :
    ∃ zs, 0 ≤ zs ∧ (zs * muR - muS) / dev A B c zs = C.betaT ∧
      (∀ y, 0 ≤ y → (y * muR - muS) / dev A B c y = C.betaT → y = zs) ∧
    ∃ (z : ZVal) (f : FormObj D) (n : ℕ), C.calibrationAlpha case z0 target abstol maxIter fuel = some (.ok (z, f, n)) ∧ n ≤ maxIter ∧
      0 ≤ z.val ∧ f.beta = (z.val * muR - muS) / dev A B c z.val ∧
      (1 ≤ n → z.val ≤ zs ∧ zs - z.val ≤ (C.betaT * A / muR) ^ (n - 1) * zs ∧ f.beta ≤ C.betaT) ∧
      ∀ K, 1 ≤ K → K ≤ maxIter →
        (C.betaT * A / muR) ^ (K - 1) * ((muS / B + C.betaT) / (1 - C.betaT * A / muR)) ≤ abstol + 1e-5 * |C.betaT| →
        n ≤ K ∧ |f.beta - C.betaT| ≤ abstol + 1e-5 * |C.betaT| := by
  obtain ⟨zs, hzs, h0, hbd, huniq⟩ := H.target
  refine ⟨zs, hzs, (H.index_iff hzs).2 h0, fun y hy e => huniq y hy ((H.index_iff hy).1 e), ?_⟩
  have hok : ∃ z f n, C.calibrationAlpha case z0 target abstol maxIter fuel = some (.ok (z, f, n)) := by
    have hs := C60_terminates C case z0 target abstol hmax hfuel
    obtain ⟨res, hres⟩ := Option.isSome_iff_exists.1 hs
    rcases res with e | ⟨z, f, n⟩
    · exfalso
      obtain ⟨cols, hcols⟩ := hP.labels
      obtain ⟨f0, b1, b2, -⟩ := hcols z0 hz0
      unfold calibrationAlpha at hres
      rw [b1] at hres
      dsimp only at hres
      rw [b2] at hres
      refine alphaLoop_noerror hcols (fun z hz => ?_) abstol maxIter fuel 0 (.scalar z0) f0 hz0 b1 e hres
      rw [one_mul]
      exact (H.resist_pos hz).ne'
    · exact ⟨z, f, n, hres⟩
  obtain ⟨z, f, n, hres⟩ := hok
  obtain ⟨ζ, a1, a2, a3, a4, a5, a6⟩ := projects_rounds hP hz0 hres
  obtain ⟨-, s2, -⟩ := newton_sequence H hzs h0 (ζ := ζ) (n := n) (by rw [a1]; exact hz0) (fun i hi _ => a5 i hi)
  obtain ⟨-, h2, h3, -⟩ := C60_alpha C case z0 target abstol hres
  have hn := h2 hmax
  refine ⟨z, f, n, hres, hn, by rw [← a2]; exact a3 n le_rfl, by rw [← a2]; exact a4, fun h1 => ?_, fun K hK1 hK hb => ?_⟩
  · obtain ⟨i, rfl⟩ : ∃ i, n = i + 1 := ⟨n - 1, by omega⟩
    have := s2 i (by omega)
    rw [← a2]
    refine ⟨this.1, by simpa using this.2, ?_⟩
    have hg := (H.index_gap h0 (a3 (i + 1) le_rfl) this.1).1
    rw [a4]
    linarith
  · have hq : 0 ≤ C.betaT * A / muR := div_nonneg (mul_nonneg H.b0 H.A0) H.muR_pos.le
    have hq1 : 0 < 1 - C.betaT * A / muR := by
      rw [sub_pos, div_lt_one H.muR_pos]; exact H.reach
    have hzb : muR / B * zs ≤ (muS / B + C.betaT) / (1 - C.betaT * A / muR) := by
      have hm := sub_pos.2 H.reach
      have e : (muS / B + C.betaT) / (1 - C.betaT * A / muR) = muR / B * ((muS + C.betaT * B) / (muR - C.betaT * A)) := by
        have := H.B0.ne'
        have := H.muR_pos.ne'
        have : 1 - C.betaT * A / muR = (muR - C.betaT * A) / muR := by field_simp
        rw [this]
        field_simp
      rw [e]
      exact mul_le_mul_of_nonneg_left hbd (div_nonneg H.muR_pos.le H.B0.le)
    have close : ∀ i, K ≤ i → 1 ≤ i → i ≤ n → |(ζ i * muR - muS) / dev A B c (ζ i) - C.betaT| ≤ abstol + 1e-5 * |C.betaT| := by
      intro i hKi hi1 hin
      obtain ⟨j, rfl⟩ : ∃ j, i = j + 1 := ⟨i - 1, by omega⟩
      obtain ⟨t1, t2⟩ := s2 j (by omega)
      obtain ⟨g1, g2⟩ := H.index_gap h0 (a3 (j + 1) hin) t1
      rw [abs_sub_comm, abs_of_nonneg g1]
      refine g2.trans (le_trans ?_ hb)
      have hpow : (C.betaT * A / muR) ^ j ≤ (C.betaT * A / muR) ^ (K - 1) :=
        pow_le_pow_of_le_one hq (by linarith) (by omega)
      have hRB : 0 ≤ muR / B := div_nonneg H.muR_pos.le H.B0.le
      calc muR / B * (zs - ζ (j + 1)) ≤ muR / B * ((C.betaT * A / muR) ^ j * zs) := mul_le_mul_of_nonneg_left t2 hRB
        _ = (C.betaT * A / muR) ^ j * (muR / B * zs) := by ring
        _ ≤ (C.betaT * A / muR) ^ (K - 1) * (muR / B * zs) := mul_le_mul_of_nonneg_right hpow (mul_nonneg hRB hzs)
        _ ≤ _ := mul_le_mul_of_nonneg_left hzb (pow_nonneg hq _)
    have hnK : n ≤ K := by
      by_contra hcon
      push Not at hcon
      exact a6 K hcon (close K le_rfl hK1 hcon.le)
    refine ⟨hnK, ?_⟩
    by_cases hnm : n = maxIter
    · rw [a4]
      exact close n (by omega) (by omega) le_rfl
    · exact h3 hnm

/-- C110 for a case whose analyses are exact: a target that no design parameter reaches is never reported as reached. -/
theorem projects_unreachable {C : Calib D} {case : String} {muR muS A B c κ : ℝ} (hP : Projects C case muR muS A B c κ)
    (hA : 0 < A) (hB : 0 < B) (hc : c ≤ 0) (hR : 0 < muR) (hS : 0 ≤ muS) {z0 : ℝ} (hz0 : 0 ≤ z0) {target abstol : ℝ}
    {maxIter fuel : ℕ} (hb : muR / A + (abstol + 1e-5 * |C.betaT|) ≤ C.betaT) {z : ZVal} {f : FormObj D} {n : ℕ}
    (h : C.calibrationAlpha case z0 target abstol maxIter fuel = some (.ok (z, f, n))) :
    n = maxIter ∧ f.beta < muR / A ∧ ¬ |f.beta - C.betaT| ≤ abstol + 1e-5 * |C.betaT| := by
  obtain ⟨ζ, a1, a2, a3, a4, a5, a6⟩ := projects_rounds hP hz0 h
  obtain ⟨-, -, h3, -⟩ := C60_alpha C case z0 target abstol h
  have hlt : f.beta < muR / A := by rw [a4]; exact index_lt hA hB hc hR hS (a3 n le_rfl)
  have hnot : ¬ |f.beta - C.betaT| ≤ abstol + 1e-5 * |C.betaT| := by
    intro hle
    have := abs_le.1 hle
    linarith [this.1]
  refine ⟨?_, hlt, hnot⟩
  by_contra hne
  exact hnot (h3 hne)

/-- C110 (finding) for a case whose analyses are exact: with a start value `κ > 1` every computed design parameter stays below
`zs / κ`, where `zs` is the one with the target index. -/
theorem projects_start {C : Calib D} {case : String} {muR muS A B c κ : ℝ} (hP : Projects C case muR muS A B c κ) (hκ : 1 < κ)
    (H : Ok muR muS A B c C.betaT) {z0 : ℝ} (hz0 : 0 ≤ z0) {target abstol : ℝ} {maxIter fuel : ℕ} {zs : ℝ} (hzs : 0 ≤ zs)
    (h0 : (zs * muR - muS) / dev A B c zs = C.betaT) {z : ZVal} {f : FormObj D} {n : ℕ} (hn : 1 ≤ n)
    (h : C.calibrationAlpha case z0 target abstol maxIter fuel = some (.ok (z, f, n))) :
    z.val ≤ zs / κ ∧ f.beta ≤ (zs / κ * muR - muS) / dev A B c (zs / κ) ∧
    (abstol + 1e-5 * |C.betaT| < C.betaT - (zs / κ * muR - muS) / dev A B c (zs / κ) →
      n = maxIter ∧ ¬ |f.beta - C.betaT| ≤ abstol + 1e-5 * |C.betaT|) := by
  have h0' := (H.index_iff hzs).1 h0
  have hκ0 : 0 < κ := by linarith
  obtain ⟨ζ, a1, a2, a3, a4, a5, a6⟩ := projects_rounds hP hz0 h
  obtain ⟨-, -, h3, -⟩ := C60_alpha C case z0 target abstol h
  obtain ⟨i, rfl⟩ : ∃ i, n = i + 1 := ⟨n - 1, by omega⟩
  have hz := a3 i (by omega)
  have hs := a5 i (by omega)
  have hle : ζ (i + 1) ≤ zs / κ := by
    have h1 := (H.step hzs h0' hz rfl).2.1
    have e : load muS A B c C.betaT (ζ i) / (κ * resist muR A B c C.betaT (ζ i)) =
        load muS A B c C.betaT (ζ i) / resist muR A B c C.betaT (ζ i) / κ := by
      rw [div_div, mul_comm κ]
    rw [hs, e, abs_of_nonneg (div_nonneg (div_nonneg (H.load_nonneg hz) (H.resist_pos hz).le) hκ0.le)]
    exact div_le_div_of_nonneg_right h1 hκ0.le
  have hzk : zs / κ ≤ zs := div_le_self hzs hκ.le
  have hzk0 : 0 ≤ zs / κ := div_nonneg hzs hκ0.le
  have hmono : (ζ (i + 1) * muR - muS) / dev A B c (ζ (i + 1)) ≤ (zs / κ * muR - muS) / dev A B c (zs / κ) := by
    have hy := a3 (i + 1) le_rfl
    rw [H.index_eq hy, H.index_eq hzk0]
    have d1 := dev_pos (A := A) H.B0 H.c0 hy
    have d2 := dev_pos (A := A) H.B0 H.c0 hzk0
    have d3 := dev_mono (A := A) (B := B) H.c0 hy hle
    have w1 : worst muR muS A B c C.betaT (ζ (i + 1)) ≤ worst muR muS A B c C.betaT (zs / κ) := by
      have := H.slope hy hle
      have := mul_nonneg (sub_pos.2 H.reach).le (sub_nonneg.2 hle)
      linarith
    have w2 : worst muR muS A B c C.betaT (zs / κ) ≤ 0 := by
      have := H.slope hzk0 hzk
      have := mul_nonneg (sub_pos.2 H.reach).le (sub_nonneg.2 hzk)
      rw [h0'] at *
      linarith
    have : worst muR muS A B c C.betaT (ζ (i + 1)) / dev A B c (ζ (i + 1)) ≤
        worst muR muS A B c C.betaT (zs / κ) / dev A B c (zs / κ) := by
      rw [div_le_div_iff₀ d1 d2]
      nlinarith [mul_nonneg (sub_nonneg.2 w1) d2.le, mul_nonneg (neg_nonneg.2 w2) (sub_nonneg.2 d3)]
    linarith
  rw [← a2]
  refine ⟨hle, by rw [a4]; exact hmono, fun hgap => ?_⟩
  have hnot : ¬ |f.beta - C.betaT| ≤ abstol + 1e-5 * |C.betaT| := by
    intro hc
    have := (abs_le.1 hc).1
    rw [a4] at this
    linarith
  refine ⟨?_, hnot⟩
  by_contra hne
  exact hnot (h3 hne)

end Pystra.Props
