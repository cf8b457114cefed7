import Verif.Props.FormDistanceExample

/-! C112: how accurate the reliability index of a converged FORM run is, in terms of the tolerances `e1` and `e2`. -/

namespace Pystra.Props
open Matrix Spec Transformation Form MeasureTheory Set

variable {σ : Type} {n : ℕ}

/-- Along a line, a function whose gradient has Lipschitz constant `L` lies below its tangent plus `L s²/2`. -/
theorem descent {γ : (Fin n → ℝ) → ℝ} {D : (Fin n → ℝ) → Fin n → ℝ} (hD : ∀ u, HasFDerivAt γ (gradMap (D u)) u) {L : ℝ}
    (hL : ∀ u v, len (fun i => D u i - D v i) ≤ L * len (fun i => u i - v i)) (u a : Fin n → ℝ) (ha : len a = 1) {s : ℝ} (hs : 0 ≤ s) :
    γ (u + s • a) ≤ γ u + s * (∑ i, D u i * a i) + L * s ^ 2 / 2 := by
  have hder : ∀ s : ℝ, HasDerivAt (fun s : ℝ => γ (u + s • a) - s * (∑ i, D u i * a i) - L * s ^ 2 / 2)
      ((∑ i, D (u + s • a) i * a i) - (∑ i, D u i * a i) - L * s) s := by
    intro s
    have hl : HasDerivAt (fun s : ℝ => u + s • a) a s := by
      have := ((hasDerivAt_id s).smul_const a).const_add u
      simpa using this
    have h1 := (hD (u + s • a)).comp_hasDerivAt s hl
    rw [gradMap_apply] at h1
    have h2 := (h1.sub ((hasDerivAt_id s).mul_const (∑ i, D u i * a i))).sub ((((hasDerivAt_id s).pow 2).const_mul L).div_const 2)
    refine (h2.congr_deriv ?_)
    simp
    ring
  have hanti : AntitoneOn (fun s : ℝ => γ (u + s • a) - s * (∑ i, D u i * a i) - L * s ^ 2 / 2) (Ici 0) := by
    refine antitoneOn_of_deriv_nonpos (convex_Ici 0) (fun x _ => (hder x).continuousAt.continuousWithinAt)
      (fun x _ => (hder x).differentiableAt.differentiableWithinAt) (fun x hx => ?_)
    rw [interior_Ici] at hx
    have hx0 : (0 : ℝ) < x := hx
    rw [(hder x).deriv]
    have h1 := (abs_le.1 (dot_le_len (fun i => D (u + x • a) i - D u i) a)).2
    have h2 := hL (u + x • a) u
    have e : len (fun i => (u + x • a) i - u i) = x := by
      have : (fun i => (u + x • a) i - u i) = fun i => x * a i := by funext i; simp
      rw [this, len_smul, ha, abs_of_pos hx0, mul_one]
    rw [e] at h2
    rw [ha, mul_one] at h1
    simp only [sub_mul, Finset.sum_sub_distrib] at h1
    linarith
  have h := hanti (mem_Ici.2 le_rfl) (mem_Ici.2 hs) hs
  simp only [zero_smul, add_zero, zero_mul, sub_zero] at h
  norm_num at h
  linarith

/-- The distribution function of the standard normal law has Lipschitz constant `1/√(2π)`. -/
theorem stdCdf_lipschitz (x y : ℝ) : |StdNormal.cdf x - StdNormal.cdf y| ≤ |x - y| / √(2 * Real.pi) := by
  have h := Convex.norm_image_sub_le_of_norm_hasDerivWithin_le (f := StdNormal.cdf) (f' := StdNormal.pdf) (C := 1 / √(2 * Real.pi)) (s := univ)
    (fun u _ => (StdNormal.hasDerivAt_cdf u).hasDerivWithinAt) (fun u _ => ?_) convex_univ (mem_univ y) (mem_univ x)
  · rw [Real.norm_eq_abs, Real.norm_eq_abs] at h
    rw [div_eq_inv_mul, ← one_div]
    exact h
  · rw [Real.norm_eq_abs, abs_of_pos (StdNormal.pdf_pos u)]
    unfold StdNormal.pdf
    refine div_le_div_of_nonneg_right (Real.exp_le_one_iff.2 ?_) (Real.sqrt_nonneg _)
    have := sq_nonneg u
    norm_num
    linarith

section general
variable {t : Mats n} {marg : Fin n → Marginal} {ev : Evaluator σ n} {P : σ → Prop} {opt : Form.Options}

/-- C112, the upper bound, for every limit state whose gradient in standard normal space has Lipschitz constant `L`: if the run ended before
the last allowed iteration, and the tolerance `e1·|G₀|` is small against the squared length of the last gradient, then there are failure
points, and their distance `d` from the origin is below `√((|β| + 2δ)² + e2²)` for `δ = e1·|G₀|/‖∇‖` — whether or not the
reported design point itself fails. -/
theorem C112_upper {la : LinAlg} {ty : TransformType} {Ro : Matrix (Fin n) (Fin n) ℝ}
    (ht : Transformation.compute la ty Ro = .ok t) {S : Fin n → Set ℝ}
    (hmarg : ∀ i, RoundTrip (marg i) (S i)) (hS : ∀ i, IsOpen (S i)) (hj : ∀ i, JacobianCorrect (marg i) (S i))
    {f : (Fin n → ℝ) → ℝ} {grad : (Fin n → ℝ) → Fin n → ℝ}
    (hf : ∀ x, (∀ i, x i ∈ S i) → HasFDerivAt f (gradMap (grad x)) x)
    {D : (Fin n → ℝ) → Fin n → ℝ} (hD : ∀ u, HasFDerivAt (fun u => f (uToX t marg u)) (gradMap (D u)) u) {L : ℝ}
    (hL : ∀ u v, len (fun i => D u i - D v i) ≤ L * len (fun i => u i - v i))
    (hex : Exact ev P f grad) (hv : ∀ s xs s' Gs, P s → ev.values s xs = (s', .ok Gs) → P s') {fuel : ℕ} {s s' : σ} {r : Result n} (hs : P s)
    (h : runFrom t marg ev opt fuel s = some (.done r s')) (hi : r.i ≠ opt.iMax)
    (hsmall : 2 * L * (opt.e1 * |r.Go|) ≤ len r.point.gradient ^ 2) :
    ∃ d, IsGLB (len '' {u | f (uToX t marg u) ≤ 0}) d ∧ 0 ≤ d ∧
      d < √((|r.beta| + 2 * (opt.e1 * |r.Go| / len r.point.gradient)) ^ 2 + opt.e2 ^ 2) := by
  obtain ⟨hd, hG, hg, -⟩ := result_exact ht hmarg hS hj hf hex hv hs h
  obtain ⟨-, -, hav, hal, hbe, -, -, -, hc⟩ := C29_identities h
  obtain ⟨hc1, -, hc2⟩ := hc hi
  have hp := len_pos hg
  have eD : D r.point.u = r.point.gradient := by
    have e := (hD r.point.u).unique hd
    funext i
    have := congrArg (fun l => l (Pi.single i 1)) e
    simpa [gradMap_apply, Pi.single_apply] using this
  have ha1 : len r.alpha = 1 := by unfold len; rw [hal, Real.sqrt_one]
  have hslope : ∑ i, D r.point.u i * r.alpha i = -len r.point.gradient := by
    rw [eD]
    have e : ∀ i, r.point.gradient i * r.alpha i = -(r.point.gradient i ^ 2) / len r.point.gradient := by
      intro i; rw [hav i]; change _ * (-r.point.gradient i / len r.point.gradient) = _; ring
    rw [Finset.sum_congr rfl fun i _ => e i, ← Finset.sum_div, Finset.sum_neg_distrib, ← len_sq]
    field_simp
  obtain ⟨c, hcdef⟩ : ∃ c, c = len r.point.gradient := ⟨_, rfl⟩
  rw [← hcdef] at hp hslope hsmall ⊢
  obtain ⟨g, hgdef⟩ : ∃ g, g = max r.point.G 0 := ⟨_, rfl⟩
  have hg0 : 0 ≤ g := by rw [hgdef]; exact le_max_right _ _
  have hgG : r.point.G ≤ g := by rw [hgdef]; exact le_max_left _ _
  have hge : g ≤ opt.e1 * |r.Go| := by
    rw [hgdef]; exact max_le ((le_abs_self _).trans hc1.le) ((abs_nonneg _).trans hc1.le)
  have hs0 : 0 ≤ 2 * g / c := by positivity
  have hdesc := descent hD hL r.point.u r.alpha ha1 hs0
  rw [hslope, ← hG] at hdesc
  have hLg : 2 * L * g ≤ c ^ 2 := by
    rcases le_total 0 L with hl | hl
    · exact (mul_le_mul_of_nonneg_left hge (by positivity)).trans hsmall
    · have : 2 * L * g ≤ 0 := mul_nonpos_of_nonpos_of_nonneg (by linarith) hg0
      have := sq_nonneg c
      linarith
  have hfail : f (uToX t marg (r.point.u + (2 * g / c) • r.alpha)) ≤ 0 := by
    refine hdesc.trans ?_
    have e : r.point.G + 2 * g / c * -c + L * (2 * g / c) ^ 2 / 2 = (r.point.G - g) + g * (2 * L * g - c ^ 2) / c ^ 2 := by
      field_simp
      ring
    rw [e]
    have : g * (2 * L * g - c ^ 2) / c ^ 2 ≤ 0 :=
      div_nonpos_of_nonpos_of_nonneg (mul_nonpos_of_nonneg_of_nonpos hg0 (by linarith)) (sq_nonneg c)
    linarith
  obtain ⟨d, h1, h0, h2⟩ := distance_exists (A := {u | f (uToX t marg u) ≤ 0}) hfail
  refine ⟨d, h1, h0, lt_of_le_of_lt h2 ?_⟩
  unfold len
  refine Real.sqrt_lt_sqrt (Finset.sum_nonneg fun i _ => sq_nonneg _) ?_
  have hexp : ∑ i, (r.point.u + (2 * g / c) • r.alpha) i ^ 2 =
      ∑ i, r.point.u i ^ 2 + 2 * (2 * g / c) * r.beta + (2 * g / c) ^ 2 := by
    have e : ∀ i, (r.point.u + (2 * g / c) • r.alpha) i ^ 2 =
        r.point.u i ^ 2 + 2 * (2 * g / c) * (r.alpha i * r.point.u i) + (2 * g / c) ^ 2 * r.alpha i ^ 2 := by
      intro i; simp only [Pi.add_apply, Pi.smul_apply, smul_eq_mul]; ring
    rw [Finset.sum_congr rfl fun i _ => e i, Finset.sum_add_distrib, Finset.sum_add_distrib, ← Finset.mul_sum, ← Finset.mul_sum, hal, ← hbe,
      mul_one]
  rw [hexp]
  have hsle : 2 * g / c ≤ 2 * (opt.e1 * |r.Go| / c) := by
    rw [mul_div_assoc]
    exact mul_le_mul_of_nonneg_left (div_le_div_of_nonneg_right hge hp.le) (by norm_num)
  have hsq : (|r.beta| + 2 * g / c) ^ 2 ≤ (|r.beta| + 2 * (opt.e1 * |r.Go| / c)) ^ 2 :=
    pow_le_pow_left₀ (by positivity) (by linarith) 2
  have hbb : 2 * (2 * g / c) * r.beta ≤ 2 * (2 * g / c) * |r.beta| := mul_le_mul_of_nonneg_left (le_abs_self _) (by positivity)
  have hab := sq_abs r.beta
  nlinarith [hsq, hbb, hab, hc2]

/-- C112: for a convex limit state whose gradient in standard normal space has Lipschitz constant `L`, a run that ended before the last
allowed iteration with `β ≥ 0` reports the distance `d` of the failure set from the origin up to `2·e1·|G₀|/‖∇‖ + e2`, never more than
`e1·|G₀|/‖∇‖` too large; and the reported probability `Φ(-d)` up to that divided by `√(2π)`. -/
theorem C112_accuracy {la : LinAlg} {ty : TransformType} {Ro : Matrix (Fin n) (Fin n) ℝ}
    (ht : Transformation.compute la ty Ro = .ok t) {S : Fin n → Set ℝ}
    (hmarg : ∀ i, RoundTrip (marg i) (S i)) (hS : ∀ i, IsOpen (S i)) (hj : ∀ i, JacobianCorrect (marg i) (S i))
    {f : (Fin n → ℝ) → ℝ} {grad : (Fin n → ℝ) → Fin n → ℝ}
    (hf : ∀ x, (∀ i, x i ∈ S i) → HasFDerivAt f (gradMap (grad x)) x)
    (hconv : ConvexOn ℝ univ (fun u => f (uToX t marg u)))
    {D : (Fin n → ℝ) → Fin n → ℝ} (hD : ∀ u, HasFDerivAt (fun u => f (uToX t marg u)) (gradMap (D u)) u) {L : ℝ}
    (hL : ∀ u v, len (fun i => D u i - D v i) ≤ L * len (fun i => u i - v i))
    (hex : Exact ev P f grad) (hv : ∀ s xs s' Gs, P s → ev.values s xs = (s', .ok Gs) → P s') {fuel : ℕ} {s s' : σ} {r : Result n} (hs : P s)
    (h : runFrom t marg ev opt fuel s = some (.done r s')) (hi : r.i ≠ opt.iMax) (hb : 0 ≤ r.beta) (he2 : 0 ≤ opt.e2)
    (hsmall : 2 * L * (opt.e1 * |r.Go|) ≤ len r.point.gradient ^ 2) :
    ∃ d, IsGLB (len '' {u | f (uToX t marg u) ≤ 0}) d ∧
      r.beta - d ≤ opt.e1 * |r.Go| / len r.point.gradient ∧
      |r.beta - d| ≤ 2 * (opt.e1 * |r.Go| / len r.point.gradient) + opt.e2 ∧
      |r.Pf - StdNormal.cdf (-d)| ≤ (2 * (opt.e1 * |r.Go| / len r.point.gradient) + opt.e2) / √(2 * Real.pi) := by
  obtain ⟨d, h1, h0, h2⟩ := C112_upper ht hmarg hS hj hf hD hL hex hv hs h hi hsmall
  obtain ⟨-, -, -, -, -, hpf, -, -, hc⟩ := C29_identities h
  obtain ⟨hc1, -, -⟩ := hc hi
  obtain ⟨-, -, hg, -⟩ := result_exact ht hmarg hS hj hf hex hv hs h
  have hp := len_pos hg
  have hlow := (C99_convex ht hmarg hS hj hf hconv hex hv hs h).1
  have h3 : r.beta + r.point.G / len r.point.gradient ≤ d := h1.2 (by rintro _ ⟨u, hu, rfl⟩; exact hlow u hu)
  have h4 : -(opt.e1 * |r.Go| / len r.point.gradient) ≤ r.point.G / len r.point.gradient := by
    rw [← neg_div]
    exact div_le_div_of_nonneg_right ((neg_le_neg hc1.le).trans (neg_abs_le _)) hp.le
  have hd0 : 0 ≤ opt.e1 * |r.Go| / len r.point.gradient := div_nonneg ((abs_nonneg _).trans hc1.le) hp.le
  obtain ⟨δ, hδ⟩ : ∃ δ, δ = opt.e1 * |r.Go| / len r.point.gradient := ⟨_, rfl⟩
  rw [← hδ] at h2 h4 hd0 ⊢
  have h5 : r.beta - d ≤ δ := by linarith
  have h6 : d ≤ r.beta + 2 * δ + opt.e2 := by
    refine h2.le.trans ?_
    rw [abs_of_nonneg hb]
    refine Real.sqrt_le_iff.2 ⟨by positivity, ?_⟩
    have : 0 ≤ (r.beta + 2 * δ) * opt.e2 := by positivity
    nlinarith [this]
  have h7 : |r.beta - d| ≤ 2 * δ + opt.e2 := abs_le.2 ⟨by linarith, by linarith⟩
  refine ⟨d, h1, h5, h7, ?_⟩
  rw [hpf]
  refine (stdCdf_lipschitz _ _).trans (div_le_div_of_nonneg_right ?_ (Real.sqrt_nonneg _))
  have e : -r.beta - -d = -(r.beta - d) := by ring
  rw [e, abs_neg]
  exact h7

end general

/-- A convex limit state of two variables. -/
noncomputable def cup (x : Fin 2 → ℝ) : ℝ := 3 - x 0 + x 1 ^ 2 / 4

noncomputable def cupGrad (x : Fin 2 → ℝ) : Fin 2 → ℝ := ![-1, x 1 / 2]

theorem cup_hasFDerivAt (x : Fin 2 → ℝ) : HasFDerivAt cup (gradMap (cupGrad x)) x := by
  have hp : ∀ i : Fin 2, HasFDerivAt (fun x : Fin 2 → ℝ => x i) (ContinuousLinearMap.proj (R := ℝ) (φ := fun _ : Fin 2 => ℝ) i) x :=
    fun i => (ContinuousLinearMap.proj (R := ℝ) (φ := fun _ : Fin 2 => ℝ) i).hasFDerivAt
  have h := ((hp 0).const_sub 3).add (((hp 1).pow 2).mul_const (4 : ℝ)⁻¹)
  refine h.congr_fderiv ?_
  ext v
  simp [gradMap_apply, cupGrad]
  ring

/-- A case of `C112_accuracy`: the curved limit state `3 - x₀ + x₁²/4` of two standard normal variables, whose gradient has Lipschitz constant
1/2; FORM with tolerances 0.001 reports 3, and the distance of the failure set lies within 0.007 of it. -/
example {la : LinAlg} (hla : LinAlgOK la) : ∃ m r, Normal.new 0 (.fin 1) none = .ok m ∧
    runFrom ⟨1, 1⟩ (fun _ => m) (gradEv cup cupGrad) ⟨100, 0.001, 0.001, 1, 1⟩ 100 () = some (.done r ()) ∧ r.beta = 3 ∧
    ∃ d, IsGLB (len '' {u | cup (uToX ⟨1, 1⟩ (fun _ => m) u) ≤ 0}) d ∧ |3 - d| ≤ 0.007 := by
  obtain ⟨m, hm, -⟩ := C12_normal 0 (σ := 1) one_pos none
  have hg0 : cupGrad 0 = ![-1, 0] := by funext i; fin_cases i <;> simp [cupGrad]
  have hg3 : cupGrad ![3, 0] = ![-1, 0] := by funext i; fin_cases i <;> simp [cupGrad]
  have hn : norm2 ![(-1 : ℝ), 0] = 1 := by unfold norm2; rw [Fin.sum_univ_two]; simp
  have hlen : len ![(-1 : ℝ), 0] = 1 := hn
  have ha : alpha ![(-1 : ℝ), 0] = ![1, 0] := by funext i; fin_cases i <;> simp [alpha, hn]
  have hne : (![-1, 0] : Fin 2 → ℝ) ≠ 0 := fun h => by have := congrFun h 0; norm_num at this
  have h00 : cup 0 = 3 := by simp [cup]
  have hrun := two_steps hm (f := cup) (grad := cupGrad) (by simp [cup]) (by rw [hg0]; exact hne) (u1 := ![3, 0])
    (fun i => by rw [hg0, hn, ha]; fin_cases i <;> simp [cup]) (by simp [cup]) (by rw [hg3]; exact hne) (b := 3)
    (by rw [hg3, ha]; simp) (fun i => by rw [hg3, ha]; fin_cases i <;> simp) (iMax := 100) (by norm_num)
    (e1 := 0.001) (e2 := 0.001) (by norm_num) (by norm_num) (by norm_num) 98 1
  have hconv : ConvexOn ℝ univ (fun u => cup (uToX ⟨1, 1⟩ (fun _ => m) u)) := by
    simp only [std_uToX hm]
    refine ⟨convex_univ, fun x _ y _ a b ha hb hab => ?_⟩
    simp only [cup, Pi.add_apply, Pi.smul_apply, smul_eq_mul]
    obtain rfl : b = 1 - a := by linarith
    nlinarith [mul_nonneg (mul_nonneg ha hb) (sq_nonneg (x 1 - y 1))]
  have hL : ∀ u v : Fin 2 → ℝ, len (fun i => cupGrad u i - cupGrad v i) ≤ 1 / 2 * len (fun i => u i - v i) := by
    intro u v
    have e : (fun i => cupGrad u i - cupGrad v i) = fun i => (1 / 2 : ℝ) * (![0, u 1 - v 1] : Fin 2 → ℝ) i := by
      funext i; fin_cases i <;> simp [cupGrad]; ring
    rw [e, len_smul, abs_of_pos (by norm_num : (0 : ℝ) < 1 / 2)]
    refine mul_le_mul_of_nonneg_left (Real.sqrt_le_sqrt ?_) (by norm_num)
    rw [Fin.sum_univ_two, Fin.sum_univ_two]
    have := sq_nonneg (u 0 - v 0)
    simp
    linarith
  have h := C112_accuracy (t := ⟨1, 1⟩) (marg := fun _ => m) (S := fun _ => univ) (compute_one hla) (fun _ => (std_ok hm).1) (fun _ => isOpen_univ)
    (fun _ => (std_ok hm).2) (f := cup) (grad := cupGrad) (fun x _ => cup_hasFDerivAt x) hconv (D := cupGrad)
    (fun u => by simp only [std_uToX hm]; exact cup_hasFDerivAt u) hL (gradEv_exact cup cupGrad) (fun _ _ _ _ _ _ => trivial)
    (s := ()) trivial hrun (by norm_num) (by norm_num) (by norm_num)
    (by simp only [hg3, hlen, h00]; rw [abs_of_pos (by norm_num : (0 : ℝ) < 3)]; norm_num)
  obtain ⟨d, h1, -, h2, -⟩ := h
  refine ⟨m, _, hm, hrun, rfl, d, h1, h2.trans ?_⟩
  simp only [hg3, hlen, h00]
  rw [abs_of_pos (by norm_num : (0 : ℝ) < 3)]
  norm_num

end Pystra.Props
