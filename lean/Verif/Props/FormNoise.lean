import Verif.Lemmas.HlrfNoise
import Verif.Props.FormLocal
import Verif.Props.FormBoundExample
import Verif.Props.FormDistanceExample
import Verif.Props.Importance
import Mathlib.Analysis.Calculus.ContDiff.Basic

/-! C105: FORM with inaccurate gradients, in particular with the finite differences of the code. -/

namespace Pystra.Props
open Matrix Spec Transformation Form Set Filter Topology

variable {σ : Type} {n : ℕ}

theorem uToX_contDiff (t : Mats n) {marg : Fin n → Marginal} (h : ∀ i, ContDiff ℝ 1 (marg i).uToX) : ContDiff ℝ 1 (uToX t marg) := by
  rw [contDiff_pi]
  intro i
  have h1 : ContDiff ℝ 1 (fun u : Fin n → ℝ => (linMap t.invT u) i) :=
    (contDiff_apply ℝ ℝ i).comp (linMap t.invT).contDiff
  exact (h i).comp h1

theorem norm2_vecMul_le {v : Fin n → ℝ} {J : Matrix (Fin n) (Fin n) ℝ} {B : ℝ} (hB : ‖linMap J‖ ≤ B) :
    norm2 (vecMul v J) ≤ √(n : ℝ) * (n * B) * norm2 v := by
  have hB0 : 0 ≤ B := (norm_nonneg _).trans hB
  have hentry : ∀ i j, |J i j| ≤ B := by
    intro i j
    have h1 := (linMap J).le_opNorm (Pi.single j 1)
    have h2 := norm_le_pi_norm ((linMap J) (Pi.single j 1)) i
    rw [linMap_apply, mulVec_single_one] at h2 h1
    have h3 : ‖(Pi.single j 1 : Fin n → ℝ)‖ ≤ 1 := by
      refine (pi_norm_le_iff_of_nonneg zero_le_one).2 fun k => ?_
      by_cases hk : k = j
      · subst hk; simp
      · simp [hk]
    have h4 : ‖linMap J‖ * ‖(Pi.single j 1 : Fin n → ℝ)‖ ≤ B * 1 := mul_le_mul hB h3 (norm_nonneg _) hB0
    rw [Real.norm_eq_abs] at h2
    simp only [col_apply] at h2
    linarith
  have hsup : ‖vecMul v J‖ ≤ n * B * norm2 v := by
    refine (pi_norm_le_iff_of_nonneg (by have := norm2_nonneg v; positivity)).2 fun j => ?_
    rw [Real.norm_eq_abs]
    change |∑ i, v i * J i j| ≤ _
    refine (Finset.abs_sum_le_sum_abs _ _).trans ?_
    calc ∑ i, |v i * J i j| ≤ ∑ _i : Fin n, norm2 v * B := Finset.sum_le_sum fun i _ => by
          rw [abs_mul]
          refine mul_le_mul ?_ (hentry i j) (abs_nonneg _) (norm2_nonneg _)
          have := (norm_le_pi_norm v i).trans (sup_le_norm2 v)
          rwa [Real.norm_eq_abs] at this
      _ = n * B * norm2 v := by simp; ring
  calc norm2 (vecMul v J) ≤ √(n : ℝ) * ‖vecMul v J‖ := norm2_le_sup _
    _ ≤ √(n : ℝ) * (n * B * norm2 v) := mul_le_mul_of_nonneg_left hsup (Real.sqrt_nonneg _)
    _ = _ := by ring

/-- **C105 (inaccurate gradients).**  The setting of `C103_local` (a design point with curvatures at most `κ`, `|β| κ < 1`), for marginals
whose transformations are continuously differentiable.  There are a radius, an accuracy `ε0`, a rate `ρ < 1` and a constant `C` such that, for
every limit-state object that returns the value `f` and some vector `ĝ` in place of the gradient which, within `r` of the design point, is
within `ε ≤ ε0` of the gradient of `f`: FORM converges from every starting point close enough, up to an error proportional to `ε`. -/
theorem C105_noise {la : LinAlg} {ty : TransformType} {Ro : Matrix (Fin n) (Fin n) ℝ} {t : Mats n}
    (ht : Transformation.compute la ty Ro = .ok t) {marg : Fin n → Marginal} {S : Fin n → Set ℝ}
    (hmarg : ∀ i, RoundTrip (marg i) (S i)) (hS : ∀ i, IsOpen (S i)) (hj : ∀ i, JacobianCorrect (marg i) (S i))
    (hdiff : ∀ i, ContDiff ℝ 1 (marg i).uToX)
    {f : (Fin n → ℝ) → ℝ} {grad : (Fin n → ℝ) → Fin n → ℝ}
    (hf : ∀ x, (∀ i, x i ∈ S i) → HasFDerivAt f (gradMap (grad x)) x)
    {Gr : (Fin n → ℝ) → Fin n → ℝ} (hGr : ∀ u, HasFDerivAt (fun u => f (uToX t marg u)) (gradMap (Gr u)) u)
    {us : Fin n → ℝ} {H : (Fin n → ℝ) →L[ℝ] (Fin n → ℝ)} (hH : HasFDerivAt Gr H us)
    (h0 : f (uToX t marg us) = 0) (hne : Gr us ≠ 0) {β κ : ℝ} (hus : ∀ i, us i = -β * Gr us i / len (Gr us))
    (hκ : ∀ h : Fin n → ℝ, ∑ i, Gr us i * h i = 0 →
      len (fun i => H h i - (∑ j, Gr us j * H h j) / (∑ j, Gr us j ^ 2) * Gr us i) ≤ κ * len (Gr us) * len h)
    (hκ0 : 0 ≤ κ) (hβ : |β| * κ < 1) {r : ℝ} (hr : 0 < r) :
    ∃ δ ε0 ρ C : ℝ, 0 < δ ∧ 0 < ε0 ∧ 0 < ρ ∧ ρ < 1 ∧ 0 < C ∧
    ∀ (σ : Type) (ev : Evaluator σ n) (P : σ → Prop) (gh : (Fin n → ℝ) → Fin n → ℝ) (ε : ℝ), Exact ev P f gh → 0 ≤ ε → ε ≤ ε0 →
      (∀ x, len (fun i => x i - uToX t marg us i) ≤ r → len (fun i => gh x i - grad x i) ≤ ε) →
      ∀ x0, len (fun i => xToU t marg x0 i - us i) ≤ δ → ConvergesFrom t marg ev P f us β x0 ρ C ε := by
  have hd1 : ∀ i, Differentiable ℝ (marg i).uToX := fun i => (hdiff i).differentiable one_ne_zero
  have hN := norm2_pos hne
  have hus' : us = (-β / norm2 (Gr us)) • Gr us := by
    funext i
    rw [Pi.smul_apply, smul_eq_mul, div_mul_eq_mul_div]
    exact hus i
  have hbeta : alpha (Gr us) ⬝ᵥ us = β := by
    have : alpha (Gr us) ⬝ᵥ ((-β / norm2 (Gr us)) • Gr us) = β := by
      rw [dotProduct_smul, dotProduct_comm, grad_alpha hne, smul_eq_mul]
      field_simp
    rwa [← hus'] at this
  obtain ⟨E, ρ, δ1, C, M, ε1, hE, hρ0, hρ1, hδ1, hC1, hM1, hε1, hloc⟩ := hlrf_noise (hGr us) hH h0 hne hus' (K := κ * norm2 (Gr us))
    (by positivity)
    (fun h hh => by
      have := hκ h hh
      have e : tang (Gr us) (H h) = (fun i => H h i - (∑ j, Gr us j * H h j) / (∑ j, Gr us j ^ 2) * Gr us i) := by
        funext i
        simp only [tang, Pi.sub_apply, Pi.smul_apply, smul_eq_mul, dotProduct, sq]
      rw [e]
      exact this)
    (by
      rw [abs_div, abs_neg, abs_of_pos hN]
      have : |β| / norm2 (Gr us) * (κ * norm2 (Gr us)) = |β| * κ := by field_simp
      rw [this]; exact hβ)
  rw [hbeta] at hloc
  have hcd := uToX_contDiff t hdiff
  -- the derivative of the transformation is bounded near the design point
  obtain ⟨B, hB⟩ : ∃ B, B = ‖fderiv ℝ (uToX t marg) us‖ + 1 := ⟨_, rfl⟩
  have hB0 : 0 < B := by rw [hB]; positivity
  have hevB : ∀ᶠ u in 𝓝 us, ‖fderiv ℝ (uToX t marg) u‖ < B := by
    have hc : Continuous (fun u => ‖fderiv ℝ (uToX t marg) u‖) := (hcd.continuous_fderiv one_ne_zero).norm
    exact hc.continuousAt.eventually_lt_const (by rw [hB]; linarith)
  have hevr : ∀ᶠ u in 𝓝 us, norm2 (uToX t marg u - uToX t marg us) < r := by
    have hc : Continuous (fun u => norm2 (uToX t marg u - uToX t marg us)) := by
      have h2 : Continuous (fun v : Fin n → ℝ => norm2 v) := by unfold norm2; fun_prop
      exact h2.comp (hcd.continuous.sub continuous_const)
    exact hc.continuousAt.eventually_lt_const (by dsimp only; rw [sub_self, norm2_zero]; exact hr)
  obtain ⟨δ2, hδ2, hnear⟩ := eventually_gauge hE hne (hevB.and hevr)
  obtain ⟨B', hB'⟩ : ∃ B', B' = √(n : ℝ) * (n * B) + 1 := ⟨_, rfl⟩
  have hB'1 : 1 ≤ B' := by rw [hB']; have : 0 ≤ √(n : ℝ) * (n * B) := by positivity
                           linarith
  obtain ⟨δ, hδ⟩ : ∃ δ, δ = min δ1 δ2 := ⟨_, rfl⟩
  have hδ0 : 0 < δ := by rw [hδ]; exact lt_min hδ1 hδ2
  obtain ⟨A, hA⟩ : ∃ A, A = 1 + E * norm2 (Gr us) := ⟨_, rfl⟩
  obtain ⟨c, hc⟩ : ∃ c, c = 1 + 1 / (E * norm2 (Gr us)) := ⟨_, rfl⟩
  have hA1 : 1 ≤ A := by rw [hA]; have : 0 ≤ E * norm2 (Gr us) := by positivity
                         linarith
  have hc1 : 1 ≤ c := by rw [hc]; have : 0 ≤ 1 / (E * norm2 (Gr us)) := by positivity
                         linarith
  have hMB : 1 ≤ M * B' := by nlinarith
  refine ⟨δ / (2 * A), min (ε1 / B') (δ / (2 * (M * B'))), ρ, 2 * (C ^ 2 * A * c) * (M * B'), by positivity, by positivity, hρ0, hρ1,
    by positivity, fun σ ev P gh ε hex hε0 hε hgh x0 hx0 => ?_⟩
  have hεa : B' * ε ≤ ε1 := by
    have := hε.trans (min_le_left _ _)
    rw [le_div_iff₀ (by linarith)] at this
    linarith
  have hεb : M * B' * ε ≤ δ / 2 := by
    have := hε.trans (min_le_right _ _)
    rw [le_div_iff₀ (by linarith)] at this
    linarith
  -- the gradient the code works with
  have hJ : ∀ u, ∃ Ji, npInv (jacobian t marg u (uToX t marg u)) = .ok Ji ∧ HasFDerivAt (uToX t marg) (linMap Ji) u ∧
      vecMul (grad (uToX t marg u)) Ji = Gr u := by
    intro u
    have hch := C23_chain_rule ht marg S hmarg hS hj u
    obtain ⟨Ji, hJ⟩ := hch.1.2 (fun i => jac_ne_zero (hmarg i) (hj i) (hd1 i _))
    refine ⟨Ji, hJ, (hch.2 Ji hJ).1, ?_⟩
    have h1 := (hch.2 Ji hJ).2 f (grad _) (hf _ fun i => (hmarg i).mem _)
    have h2 := h1.unique (hGr u)
    funext i
    have := congrArg (fun (L : (Fin n → ℝ) →L[ℝ] ℝ) => L (Pi.single i 1)) h2
    simp only [gradMap_apply] at this
    simpa [Pi.single_apply] using this
  choose Ji hJ1 hJ2 hJ3 using hJ
  have hlin : ∀ u s, P s → ∃ s' p, linearise t marg ev u s = (s', .ok p) ∧ P s' ∧
      p.gradient = vecMul (gh (uToX t marg u)) (Ji u) ∧ p.G = f (uToX t marg u) := by
    intro u s hs
    obtain ⟨s1, xa, he, hP⟩ := hex s hs (uToX t marg u)
    exact ⟨s1, _, by unfold linearise; dsimp only; rw [hJ1, he], hP, rfl, rfl⟩
  refine converges_approx (κ := M * B') (η := ε) (E := M * (B' * ε)) (N := fun u => gauge E (Gr us) (u - us)) (δ := δ) hlin hA1 hc1
    (fun u => gauge_nonneg hE.le _ _) (gauge_convex hE.le _ us) (fun u => by rw [hA]; exact gauge_le hE.le _ _)
    (fun u => by rw [hc]; exact le_gauge hE hne _) hρ0 hρ1 hC1 hMB hε0 (by ring) (fun u hu => ?_) x0 ?_
  · obtain ⟨n1, n2⟩ := hnear u (hu.trans (by rw [hδ]; exact min_le_right _ _))
    refine hloc (fun u => vecMul (gh (uToX t marg u)) (Ji u)) (B' * ε) (mul_nonneg (by linarith) hε0) hεa u
      (hu.trans (by rw [hδ]; exact min_le_left _ _)) ?_
    have e : vecMul (gh (uToX t marg u)) (Ji u) - Gr u = vecMul (gh (uToX t marg u) - grad (uToX t marg u)) (Ji u) := by
      rw [sub_vecMul, hJ3]
    have h1 : ‖linMap (Ji u)‖ ≤ B := by rw [← (hJ2 u).fderiv]; exact n1.le
    have h2 : norm2 (gh (uToX t marg u) - grad (uToX t marg u)) ≤ ε := hgh _ n2.le
    rw [e]
    refine (norm2_vecMul_le h1).trans ?_
    refine mul_le_mul ?_ h2 (norm2_nonneg _) (by linarith)
    rw [hB']; linarith
  · have h1 := gauge_le hE.le (Gr us) (xToU t marg x0 - us)
    rw [← hA] at h1
    have h2 : norm2 (xToU t marg x0 - us) ≤ δ / (2 * A) := hx0
    rw [le_div_iff₀ (by linarith)] at h2
    have e : M * (B' * ε) = M * B' * ε := by ring
    linarith

/-- The forward difference quotient of a function whose derivative is Lipschitz. -/
theorem fd_error {φ φ' : ℝ → ℝ} {h L : ℝ} (hh : 0 < h) (hd : ∀ t ∈ Set.Icc (0:ℝ) h, HasDerivAt φ (φ' t) t)
    (hL : ∀ t ∈ Set.Icc (0:ℝ) h, |φ' t - φ' 0| ≤ L * t) : |(φ h - φ 0) / h - φ' 0| ≤ L * h / 2 := by
  have key : |φ h - φ 0 - φ' 0 * h| ≤ L * h ^ 2 / 2 := by
    have := image_norm_le_of_norm_deriv_right_le_deriv_boundary (a := 0) (b := h)
      (f := fun t => φ t - φ 0 - φ' 0 * t) (f' := fun t => φ' t - φ' 0)
      (B := fun t => L * t ^ 2 / 2) (B' := fun t => L * t) ?_ ?_ ?_ ?_ ?_ (x := h)
      ⟨hh.le, le_rfl⟩
    · simpa using this
    · intro t ht
      exact ((((hd t ht).sub_const (φ 0)).sub ((hasDerivAt_id t).const_mul (φ' 0))).continuousAt).continuousWithinAt
    · intro t ht
      have ht' : t ∈ Set.Icc 0 h := ⟨ht.1, ht.2.le⟩
      have := (((hd t ht').sub_const (φ 0)).sub ((hasDerivAt_id t).const_mul (φ' 0)))
      rw [mul_one] at this
      exact this.hasDerivWithinAt
    · simp
    · intro t
      have := ((hasDerivAt_pow 2 t).const_mul (L / 2))
      have e : L / 2 * (((2 : ℕ) : ℝ) * t ^ (2 - 1)) = L * t := by norm_num; ring
      rw [e] at this
      have e2 : (fun t : ℝ => L * t ^ 2 / 2) = fun y => L / 2 * y ^ 2 := by funext s; ring
      rw [e2]
      exact this
    · intro t ht
      rw [Real.norm_eq_abs]
      exact hL t ⟨ht.1, ht.2.le⟩
  have : (φ h - φ 0) / h - φ' 0 = (φ h - φ 0 - φ' 0 * h) / h := by field_simp
  rw [this, abs_div, abs_of_pos hh, div_le_iff₀ hh]
  calc _ ≤ L * h ^ 2 / 2 := key
    _ = L * h / 2 * h := by ring

/-- The finite-difference mode returns the value and the forward difference quotients. -/
theorem ffd_quotients {D : Type} {expr : Kwargs → GRet} {g : Dict String ℝ → ℝ} (hp : Pointwise expr g) (lo : LSOptions)
    (hbs : 1 ≤ lo.blockSize) (hmp : lo.multiProc ≠ 0) (hd1 : lo.diffMode ≠ "no")
    (hd2 : lo.diffMode ≠ "ddm") (stdv : Fin n → ℝ) (m : StochModel D ℝ) (hm : Reachable m)
    (hn : m.nMarg ≤ n) (hne : m.getNames ≠ []) :
    Exact (lsEvaluator expr lo stdv) (fun ev : Ev D => ∃ k, ev.model = m.addCallFunction k)
      (fun x => g (pointArgs m x))
      (fun x j => (g (pointArgs m (Function.update x j (x j + stdv j / lo.ffdpara))) - g (pointArgs m x)) / (stdv j / lo.ffdpara)) := by
  rintro ev ⟨k, hk⟩ x
  have hm' : Reachable ev.model := hk ▸ reachable_calls hm k
  obtain ⟨ev', out, h1, h2, h3, -⟩ := C06_ffd hp lo hbs stdv x ev hm' (hk ▸ hn) (hk ▸ hne) (7 + n) (by omega)
  have he : LimitState.evaluateLsf (7 + n) expr lo stdv none [x] ev = some (ev', .ok out) := by
    rw [(C08_modes (7 + n) expr lo hmp stdv [x] ev).2 hd2 hd1, h1]
  refine ⟨ev', out.xAfter.getD 0 0, ?_, ?_⟩
  · beta_reduce at h2 h3
    simp only [lsEvaluator, he, h2, h3, hk]; rfl
  · have := (C04_counts _ _ _ _ _ _ _ _ _ he).2 out rfl
    change ∃ k, ev'.model = m.addCallFunction k
    rw [this, hk]
    exact ⟨_, addCall_addCall m k _⟩

/-- The error of the gradient by forward differences. -/
theorem fd_gradient {f : (Fin n → ℝ) → ℝ} {grad : (Fin n → ℝ) → Fin n → ℝ} {h xs : Fin n → ℝ} {R L : ℝ}
    (hf : ∀ x, norm2 (x - xs) ≤ 2 * R → HasFDerivAt f (gradMap (grad x)) x)
    (hL : ∀ x y, norm2 (x - xs) ≤ 2 * R → norm2 (y - xs) ≤ 2 * R → norm2 (grad x - grad y) ≤ L * norm2 (x - y))
    (hh0 : ∀ j, 0 < h j) (hhR : ∀ j, h j ≤ R) {x : Fin n → ℝ} (hx : norm2 (x - xs) ≤ R) :
    norm2 (fun j => (f (Function.update x j (x j + h j)) - f x) / h j - grad x j) ≤ L * (∑ j, h j) / 2 := by
  have hcomp : ∀ j, |(f (Function.update x j (x j + h j)) - f x) / h j - grad x j| ≤ L * h j / 2 := by
    intro j
    obtain ⟨ej, hej⟩ : ∃ ej : Fin n → ℝ, ej = Pi.single j 1 := ⟨_, rfl⟩
    have hup : ∀ s : ℝ, Function.update x j (x j + s) = x + s • ej := by
      intro s
      funext i
      by_cases hi : i = j
      · subst hi; simp [hej]
      · simp [hi, hej]
    have hn1 : norm2 ej = 1 := by
      have h1 := dot_self ej
      rw [hej, single_dotProduct, Pi.single_eq_same, mul_one, ← hej] at h1
      have h2 := norm2_nonneg ej
      nlinarith
    have hR0 : 0 < R := (hh0 j).trans_le (hhR j)
    have hx2 : norm2 (x - xs) ≤ 2 * R := by linarith
    have hnear : ∀ s ∈ Set.Icc (0 : ℝ) (h j), norm2 (x + s • ej - xs) ≤ 2 * R := by
      intro s hs
      have e : x + s • ej - xs = (x - xs) + s • ej := by abel
      rw [e]
      refine (norm2_add_le _ _).trans ?_
      rw [norm2_smul, hn1, abs_of_nonneg hs.1]
      linarith [hs.2, hhR j]
    have hd : ∀ s ∈ Set.Icc (0 : ℝ) (h j), HasDerivAt (fun s => f (Function.update x j (x j + s)))
        (grad (x + s • ej) j) s := by
      intro s hs
      have h1 := hf _ (hnear s hs)
      have e : (fun s : ℝ => f (Function.update x j (x j + s))) = f ∘ fun s => x + s • ej := by
        funext s; simp only [Function.comp, hup]
      rw [e]
      have h2 : HasDerivAt (fun s : ℝ => x + s • ej) ej s := by
        have := ((hasDerivAt_id s).smul_const ej).const_add x
        rwa [one_smul] at this
      have h3 := h1.comp_hasDerivAt s h2
      have e2 : gradMap (grad (x + s • ej)) ej = grad (x + s • ej) j := by
        rw [gradMap_apply]; simp [hej, Pi.single_apply]
      rw [e2] at h3
      exact h3
    have hl : ∀ s ∈ Set.Icc (0 : ℝ) (h j), |grad (x + s • ej) j - grad (x + (0 : ℝ) • ej) j| ≤ L * s := by
      intro s hs
      rw [zero_smul, add_zero]
      have h2 := hL (x + s • ej) x (hnear s hs) hx2
      have e3 : x + s • ej - x = s • ej := by abel
      rw [e3, norm2_smul, hn1, mul_one, abs_of_nonneg hs.1] at h2
      have h3 := (norm_le_pi_norm (grad (x + s • ej) - grad x) j).trans (sup_le_norm2 _)
      rw [Real.norm_eq_abs, Pi.sub_apply] at h3
      exact h3.trans h2
    have hfd := fd_error (φ := fun s => f (Function.update x j (x j + s)))
      (φ' := fun s => grad (x + s • ej) j) (L := L) (hh0 j) hd hl
    rw [zero_smul, add_zero, add_zero, Function.update_eq_self] at hfd
    exact hfd
  obtain ⟨e, he⟩ : ∃ e : Fin n → ℝ, e = fun j => (f (Function.update x j (x j + h j)) - f x) / h j - grad x j := ⟨_, rfl⟩
  rw [← he]
  have hsum : norm2 e ≤ ∑ j, |e j| := by
    apply le_of_sq_le_sq _ (Finset.sum_nonneg fun j _ => abs_nonneg _)
    rw [norm2_sq]
    have h1 := Finset.sum_sq_le_sq_sum_of_nonneg (s := Finset.univ) (f := fun j => |e j|) (fun j _ => abs_nonneg _)
    simpa [sq_abs] using h1
  refine hsum.trans ?_
  rw [Finset.mul_sum, Finset.sum_div]
  exact Finset.sum_le_sum fun j _ => by rw [he]; exact hcomp j

/-- **C105 (the gradients of the code).**  The same with the gradients of the default mode of the code, forward differences with steps
`stdv_j / ffdpara`, for a vectorised limit-state function `g` of the model's random variables whose gradient is Lipschitz (constant `L`) within `r` of
the design point.  For `ffdpara` large enough FORM converges from every starting point close enough, with the default step rule or any fixed step
size in `(0, 1]`, up to an error proportional to the accuracy `L Σ stdv_j / (2 ffdpara)` of the gradients. -/
theorem C105_ffd {D : Type} {la : LinAlg} {ty : TransformType} {Ro : Matrix (Fin n) (Fin n) ℝ} {t : Mats n}
    (ht : Transformation.compute la ty Ro = .ok t) {marg : Fin n → Marginal} {S : Fin n → Set ℝ}
    (hmarg : ∀ i, RoundTrip (marg i) (S i)) (hS : ∀ i, IsOpen (S i)) (hj : ∀ i, JacobianCorrect (marg i) (S i))
    (hdiff : ∀ i, ContDiff ℝ 1 (marg i).uToX) (hsd : ∀ i, 0 < (marg i).stdv)
    {expr : Kwargs → GRet} {g : Dict String ℝ → ℝ} (hp : Pointwise expr g) {m : StochModel D ℝ} (hm : Reachable m) (hn : m.nMarg ≤ n)
    (hnm : m.getNames ≠ []) {grad : (Fin n → ℝ) → Fin n → ℝ}
    (hf : ∀ x, (∀ i, x i ∈ S i) → HasFDerivAt (fun x => g (pointArgs m x)) (gradMap (grad x)) x)
    {Gr : (Fin n → ℝ) → Fin n → ℝ} (hGr : ∀ u, HasFDerivAt (fun u => g (pointArgs m (uToX t marg u))) (gradMap (Gr u)) u)
    {us : Fin n → ℝ} {H : (Fin n → ℝ) →L[ℝ] (Fin n → ℝ)} (hH : HasFDerivAt Gr H us)
    (h0 : g (pointArgs m (uToX t marg us)) = 0) (hne : Gr us ≠ 0) {β κ : ℝ} (hus : ∀ i, us i = -β * Gr us i / len (Gr us))
    (hκ : ∀ h : Fin n → ℝ, ∑ i, Gr us i * h i = 0 →
      len (fun i => H h i - (∑ j, Gr us j * H h j) / (∑ j, Gr us j ^ 2) * Gr us i) ≤ κ * len (Gr us) * len h)
    (hκ0 : 0 ≤ κ) (hβ : |β| * κ < 1) {r L : ℝ} (hr : 0 < r) (hL0 : 0 ≤ L)
    (hL : ∀ x y, len (fun i => x i - uToX t marg us i) ≤ r → len (fun i => y i - uToX t marg us i) ≤ r →
      len (fun i => grad x i - grad y i) ≤ L * len (fun i => x i - y i)) :
    ∃ δ p0 ρ C : ℝ, 0 < δ ∧ 0 < p0 ∧ 0 < ρ ∧ ρ < 1 ∧ 0 < C ∧
    ∀ lo : LSOptions, 1 ≤ lo.blockSize → lo.multiProc ≠ 0 → lo.diffMode ≠ "no" → lo.diffMode ≠ "ddm" → p0 ≤ lo.ffdpara →
      Values (lsEvaluator expr lo (fun i => (marg i).stdv)) (fun ev : Ev D => ∃ k, ev.model = m.addCallFunction k)
        (fun x => g (pointArgs m x)) ∧
      ∀ x0, len (fun i => xToU t marg x0 i - us i) ≤ δ →
        ConvergesFrom t marg (lsEvaluator expr lo (fun i => (marg i).stdv)) (fun ev : Ev D => ∃ k, ev.model = m.addCallFunction k)
          (fun x => g (pointArgs m x)) us β x0 ρ C (L * (∑ j, (marg j).stdv) / (2 * lo.ffdpara)) := by
  obtain ⟨xs, hxs⟩ : ∃ xs, xs = uToX t marg us := ⟨_, rfl⟩
  -- a ball around the design point in which everything is smooth
  obtain ⟨r1, hr1, hball⟩ : ∃ r1 > 0, ∀ x, norm2 (x - xs) ≤ r1 → ∀ i, x i ∈ S i := by
    have hmem : ∀ i, xs i ∈ S i := fun i => by rw [hxs]; exact (hmarg i).mem _
    have hev : ∀ᶠ x in 𝓝 xs, ∀ i, x i ∈ S i :=
      eventually_all.2 fun i => (continuous_apply i).continuousAt.eventually_mem ((hS i).mem_nhds (hmem i))
    obtain ⟨r1, h1, h2⟩ := Metric.eventually_nhds_iff.1 hev
    refine ⟨r1 / 2, by positivity, fun x hx => h2 ?_⟩
    rw [dist_eq_norm]
    have := sup_le_norm2 (x - xs)
    linarith
  obtain ⟨R, hR⟩ : ∃ R, R = min r r1 / 2 := ⟨_, rfl⟩
  have hR0 : 0 < R := by rw [hR]; have := lt_min hr hr1; positivity
  have hRr : 2 * R ≤ r := by rw [hR]; have := min_le_left r r1; linarith
  have hRr1 : 2 * R ≤ r1 := by rw [hR]; have := min_le_right r r1; linarith
  obtain ⟨δ, ε0, ρ, C, hδ, hε0, hρ0, hρ1, hC, hmain⟩ := C105_noise ht hmarg hS hj hdiff hf hGr hH h0 hne hus hκ hκ0 hβ hR0
  obtain ⟨T, hT⟩ : ∃ T, T = ∑ j, (marg j).stdv := ⟨_, rfl⟩
  have hT0 : 0 ≤ T := by rw [hT]; exact Finset.sum_nonneg fun j _ => (hsd j).le
  have hTj : ∀ j, (marg j).stdv ≤ T := fun j => by
    rw [hT]; exact Finset.single_le_sum (f := fun j => (marg j).stdv) (fun j _ => (hsd j).le) (Finset.mem_univ j)
  refine ⟨δ, T / R + L * T / (2 * ε0) + 1, ρ, C, hδ, by positivity, hρ0, hρ1, hC, fun lo hbs hmp hd1 hd2 hpara => ?_⟩
  have hq1 : 0 ≤ T / R := by positivity
  have hq2 : 0 ≤ L * T / (2 * ε0) := by positivity
  have hpp : 0 < lo.ffdpara := by linarith
  refine ⟨ls_values hp lo hbs hmp _ m hm hn hnm, fun x0 hx0 => ?_⟩
  rw [← hT]
  refine hmain (Ev D) _ _ _ _ (ffd_quotients hp lo hbs hmp hd1 hd2 (fun i => (marg i).stdv) m hm hn hnm) (by positivity) ?_ ?_ x0 hx0
  · have h1 : L * T / (2 * ε0) ≤ lo.ffdpara := by linarith
    rw [div_le_iff₀ (by positivity)] at h1 ⊢
    linarith
  · intro x hx
    rw [← hxs] at hx hL
    have h1 := fd_gradient (f := fun x => g (pointArgs m x)) (h := fun j => (marg j).stdv / lo.ffdpara) (xs := xs) (R := R) (L := L)
      (fun y hy => hf y (hball y (hy.trans hRr1))) (fun y z hy hz => hL y z (hy.trans hRr) (hz.trans hRr))
      (fun j => div_pos (hsd j) hpp) (fun j => ?_) hx
    · refine h1.trans (le_of_eq ?_)
      rw [hT, ← Finset.sum_div]
      field_simp
    · rw [div_le_iff₀ hpp]
      have h1 : T / R ≤ lo.ffdpara := by linarith
      rw [div_le_iff₀ hR0] at h1
      have := hTj j
      linarith

/-- `2 - S + R**2 / 8`. -/
noncomputable def bowlG (d : Dict String ℝ) : ℝ := 2 - (d.get? "S").getD 0 + (d.get? "R").getD 0 ^ 2 / 8

theorem bowlG_point (p : Fin 2 → ℝ) : bowlG (pointArgs sideModel p) = 2 - p 1 + p 0 ^ 2 / 8 := by
  rw [sideModel_eq]
  simp [bowlG, pointArgs, StochModel.getVariables, StochModel.getConstants, Dict.keys, Dict.get?]

/-- A case of `C105_ffd`: two standard normal variables, `g = 2 - S + R**2/8` (index 2, curvature 1/4), the finite differences and the step
rule of the code. -/
example {la : LinAlg} (hla : LinAlgOK la) : ∃ mg, Normal.new 0 (.fin 1) none = .ok mg ∧
    Transformation.compute la .cholesky (1 : Matrix (Fin 2) (Fin 2) ℝ) = .ok ⟨1, 1⟩ ∧
    ∃ δ p0 ρ C : ℝ, 0 < δ ∧ 0 < p0 ∧ 0 < ρ ∧ ρ < 1 ∧ 0 < C ∧ ∀ p, p0 ≤ p →
      ∀ x0 : Fin 2 → ℝ, len (fun i => xToU (⟨1, 1⟩ : Mats 2) (fun _ => mg) x0 i - (![0, 2] : Fin 2 → ℝ) i) ≤ δ →
        ConvergesFrom (⟨1, 1⟩ : Mats 2) (fun _ => mg) (lsEvaluator (vectorised bowlG) ⟨"ffd", 1, 1000, p⟩ (fun _ => mg.stdv))
          (fun ev : Ev Unit => ∃ k, ev.model = sideModel.addCallFunction k)
          (fun x => bowlG (pointArgs sideModel x)) ![0, 2] 2 x0 ρ C (1 / (4 * p)) := by
  obtain ⟨mg, hm, -⟩ := C12_normal 0 (σ := 1) (by norm_num) none
  have hok := normal_ok hm
  have ht := compute_one (n := 2) hla
  obtain ⟨_, hmg, -, -, -, h1, h2, -⟩ := (good_normal 0 one_pos none).ex
  rw [hm] at hmg
  injection hmg with hmg
  subst hmg
  have hsd : mg.stdv = 1 := hok.2.2.2.2.1
  have hu : ∀ u : Fin 2 → ℝ, uToX (⟨1, 1⟩ : Mats 2) (fun _ => mg) u = u := std_uToX hm
  have hcd : ContDiff ℝ 1 mg.uToX := by
    rw [hok.1]; unfold Normal.uToX; fun_prop
  obtain ⟨gr, hgr⟩ : ∃ gr : (Fin 2 → ℝ) → Fin 2 → ℝ, gr = fun x => ![x 0 / 4, -1] := ⟨_, rfl⟩
  have hf : ∀ x : Fin 2 → ℝ, HasFDerivAt (fun x => bowlG (pointArgs sideModel x)) (gradMap (gr x)) x := by
    intro x
    have e : (fun x : Fin 2 → ℝ => bowlG (pointArgs sideModel x)) = fun x => 2 - x 1 + x 0 ^ 2 / 8 := funext bowlG_point
    have p0 : HasFDerivAt (fun x : Fin 2 → ℝ => x 0) (ContinuousLinearMap.proj (R := ℝ) (φ := fun _ : Fin 2 => ℝ) 0) x :=
      (ContinuousLinearMap.proj (R := ℝ) (φ := fun _ : Fin 2 => ℝ) 0).hasFDerivAt
    have p1 : HasFDerivAt (fun x : Fin 2 → ℝ => x 1) (ContinuousLinearMap.proj (R := ℝ) (φ := fun _ : Fin 2 => ℝ) 1) x :=
      (ContinuousLinearMap.proj (R := ℝ) (φ := fun _ : Fin 2 => ℝ) 1).hasFDerivAt
    rw [e]
    refine (((p1.const_sub 2).add ((p0.pow 2).mul_const (1 / 8 : ℝ))).congr_of_eventuallyEq ?_).congr_fderiv ?_
    · exact Eventually.of_forall fun y => by simp; ring
    · ext v
      simp [gradMap_apply, hgr, Fin.sum_univ_two]
      ring
  have hH : HasFDerivAt gr (linMap !![1 / 4, 0; 0, 0]) ![0, 2] := by
    have e : gr = fun x => linMap !![1 / 4, 0; 0, 0] x + ![0, -1] := by
      funext x i
      rw [hgr, linMap_apply]
      fin_cases i <;> simp [mulVec, dotProduct, Fin.sum_univ_two] <;> ring
    rw [e]
    exact (linMap _).hasFDerivAt.add_const _
  have hg0 : gr ![0, 2] = ![0, -1] := by rw [hgr]; simp
  have hlen : len (![0, -1] : Fin 2 → ℝ) = 1 := by simp [len, Fin.sum_univ_two]
  obtain ⟨δ, p0, ρ, C, c1, c2, c3, c4, c5, c6⟩ := C105_ffd (marg := fun _ : Fin 2 => mg) ht (fun _ => h1) (fun _ => isOpen_univ) (fun _ => h2)
    (fun _ => hcd) (fun _ => by rw [hsd]; norm_num) (vectorised_pointwise bowlG) (m := sideModel) ⟨_, rfl⟩
    (by rw [sideModel_eq]; simp [StochModel.nMarg]) (by rw [sideModel_eq]; simp [StochModel.getNames]) (grad := gr) (fun x _ => hf x) (Gr := gr)
    (fun u => by
      have e : (fun u : Fin 2 → ℝ => bowlG (pointArgs sideModel (uToX (⟨1, 1⟩ : Mats 2) (fun _ => mg) u))) =
          fun x => bowlG (pointArgs sideModel x) := by funext u; rw [hu]
      rw [e]; exact hf u)
    (us := ![0, 2]) hH (by rw [hu, bowlG_point]; simp) (by rw [hg0]; intro h; simpa using congrFun h 1) (β := 2) (κ := 1 / 4)
    (fun i => by rw [hg0, hlen]; fin_cases i <;> simp)
    (fun h hh => by
      rw [hg0, hlen, linMap_apply]
      rw [hg0] at hh
      simp [Fin.sum_univ_two] at hh
      have e : (fun i => (!![1 / 4, 0; 0, 0] *ᵥ h) i - (∑ j, (![0, -1] : Fin 2 → ℝ) j * (!![1 / 4, 0; 0, 0] *ᵥ h) j) /
          (∑ j, (![0, -1] : Fin 2 → ℝ) j ^ 2) * (![0, -1] : Fin 2 → ℝ) i) = (1 / 4 : ℝ) • h := by
        funext i
        fin_cases i <;> simp [mulVec, dotProduct, Fin.sum_univ_two, hh]
      rw [e]
      have h3 : len ((1 / 4 : ℝ) • h) = |(1 / 4 : ℝ)| * len h := norm2_smul _ _
      rw [h3]
      norm_num)
    (by norm_num) (by norm_num) (r := 1) (L := 1 / 4) one_pos (by norm_num)
    (fun x y _ _ => by
      have h3 : (1 / 4 : ℝ) * len (fun i => x i - y i) = len ((1 / 4 : ℝ) • fun i => x i - y i) := by
        have h4 : len ((1 / 4 : ℝ) • fun i => x i - y i) = |(1 / 4 : ℝ)| * len (fun i => x i - y i) := norm2_smul _ _
        rw [h4]; norm_num
      rw [h3, hgr]
      unfold len
      apply Real.sqrt_le_sqrt
      simp [Fin.sum_univ_two]
      have e : x 0 / 4 - y 0 / 4 = 4⁻¹ * (x 0 - y 0) := by ring
      rw [e]
      have := sq_nonneg (4⁻¹ * (x 1 - y 1))
      linarith)
  refine ⟨mg, hm, ht, δ, p0, ρ, C, c1, c2, c3, c4, c5, fun p hp x0 hx0 => ?_⟩
  have h := (c6 ⟨"ffd", 1, 1000, p⟩ (by norm_num) (by norm_num) (by simp) (by simp) hp).2 x0 hx0
  have hp0 : 0 < p := lt_of_lt_of_le c2 hp
  have e : (1 / 4 : ℝ) * (∑ _j : Fin 2, mg.stdv) / (2 * p) = 1 / (4 * p) := by
    rw [hsd]; simp; field_simp
  rw [e] at h
  exact h

end Pystra.Props
