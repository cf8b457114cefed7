import Verif.Props.FormBound

/-! C99: the reliability index of FORM and the distance of the failure set from the origin of standard normal space. -/

namespace Pystra.Props
open Matrix Spec Transformation Form MeasureTheory Set

variable {σ : Type} {n : ℕ}

/-- Cauchy–Schwarz. -/
theorem dot_le_len (w u : Fin n → ℝ) : |∑ i, w i * u i| ≤ len w * len u := by
  unfold len
  rw [← Real.sqrt_mul (Finset.sum_nonneg fun i _ => sq_nonneg _)]
  refine Real.le_sqrt_of_sq_le ?_
  rw [sq_abs]
  exact Finset.sum_mul_sq_le_sq_mul_sq _ _ _

theorem len_nonneg (u : Fin n → ℝ) : 0 ≤ len u := Real.sqrt_nonneg _

theorem len_pos {w : Fin n → ℝ} (h : w ≠ 0) : 0 < len w := norm2_pos h

theorem len_sq (u : Fin n → ℝ) : len u ^ 2 = ∑ i, u i ^ 2 := Real.sq_sqrt (Finset.sum_nonneg fun i _ => sq_nonneg _)

theorem len_smul (a : ℝ) (w : Fin n → ℝ) : len (fun i => a * w i) = |a| * len w := by
  unfold len
  rw [← Real.sqrt_sq_eq_abs, ← Real.sqrt_mul (sq_nonneg a), Finset.mul_sum]
  congr 1
  exact Finset.sum_congr rfl fun i _ => by ring

section general
variable {t : Mats n} {marg : Fin n → Marginal} {ev : Evaluator σ n} {P : σ → Prop} {opt : Form.Options}

/-- The reported index times the length of the gradient. -/
theorem beta_mul_len {fuel : ℕ} {s s' : σ} {r : Result n} (hg : r.point.gradient ≠ 0)
    (h : runFrom t marg ev opt fuel s = some (.done r s')) :
    r.beta * len r.point.gradient = -∑ i, r.point.gradient i * r.point.u i := by
  obtain ⟨-, -, ha, -, hb, -⟩ := C29_identities h
  have hp := len_pos hg
  rw [hb, Finset.sum_mul, ← Finset.sum_neg_distrib]
  refine Finset.sum_congr rfl fun i _ => ?_
  rw [ha]
  change -r.point.gradient i / len r.point.gradient * r.point.u i * len r.point.gradient = _
  field_simp

/-- The least distance of a failure point from the origin exists, and the design point bounds it if it fails. -/
theorem distance_exists {A : Set (Fin n → ℝ)} {u : Fin n → ℝ} (hu : u ∈ A) : ∃ d, IsGLB (len '' A) d ∧ 0 ≤ d ∧ d ≤ len u := by
  have hb : BddBelow (len '' A) := ⟨0, by rintro _ ⟨v, -, rfl⟩; exact len_nonneg v⟩
  have hn : (len '' A).Nonempty := ⟨_, u, hu, rfl⟩
  refine ⟨_, isGLB_csInf hn hb, le_csInf hn (by rintro _ ⟨v, -, rfl⟩; exact len_nonneg v), csInf_le hb ⟨u, hu, rfl⟩⟩

/-- C99, for every limit state: if FORM ends with a design point `u` that fails, the Hasofer–Lind distance `d` of the failure set
exists and is at most `‖u‖`; and if the run ended before the last allowed iteration, `d < √(β² + e2²)`. -/
theorem C99_upper {f : (Fin n → ℝ) → ℝ} {fuel : ℕ} {s s' : σ} {r : Result n}
    (h : runFrom t marg ev opt fuel s = some (.done r s')) (hx : f r.point.x ≤ 0) :
    ∃ d, IsGLB (len '' {u | f (uToX t marg u) ≤ 0}) d ∧ d ≤ len r.point.u ∧
      (r.i ≠ opt.iMax → d < √(r.beta ^ 2 + opt.e2 ^ 2)) := by
  obtain ⟨hxu, -, -, -, -, -, -, -, hc⟩ := C29_identities h
  obtain ⟨d, h1, h0, h2⟩ := distance_exists (A := {u | f (uToX t marg u) ≤ 0}) (u := r.point.u) (by rw [mem_setOf_eq, ← hxu]; exact hx)
  refine ⟨d, h1, h2, fun hi => lt_of_le_of_lt h2 ?_⟩
  obtain ⟨-, -, h3⟩ := hc hi
  unfold len
  exact Real.sqrt_lt_sqrt (Finset.sum_nonneg fun i _ => sq_nonneg _) (by linarith)

/-- C99, convex limit states: no failure point is closer to the origin than `β + G/‖∇‖`, whether or not FORM has converged.  If the
reported design point lies on the limit state surface and the run ended before the last allowed iteration, the Hasofer–Lind distance `d` is
`β ≤ d < √(β² + e2²)`; if the design point is also parallel to its gradient, it is exactly `β`, and attained. -/
theorem C99_convex {la : LinAlg} {ty : TransformType} {Ro : Matrix (Fin n) (Fin n) ℝ}
    (ht : Transformation.compute la ty Ro = .ok t) {S : Fin n → Set ℝ}
    (hmarg : ∀ i, RoundTrip (marg i) (S i)) (hS : ∀ i, IsOpen (S i)) (hj : ∀ i, JacobianCorrect (marg i) (S i))
    {f : (Fin n → ℝ) → ℝ} {grad : (Fin n → ℝ) → Fin n → ℝ}
    (hf : ∀ x, (∀ i, x i ∈ S i) → HasFDerivAt f (gradMap (grad x)) x)
    (hconv : ConvexOn ℝ univ (fun u => f (uToX t marg u)))
    (hex : Exact ev P f grad) (hv : ∀ s xs s' Gs, P s → ev.values s xs = (s', .ok Gs) → P s') {fuel : ℕ} {s s' : σ} {r : Result n} (hs : P s)
    (h : runFrom t marg ev opt fuel s = some (.done r s')) :
    (∀ u, f (uToX t marg u) ≤ 0 → r.beta + r.point.G / len r.point.gradient ≤ len u) ∧
    (f r.point.x = 0 → r.i ≠ opt.iMax → ∃ d, IsGLB (len '' {u | f (uToX t marg u) ≤ 0}) d ∧ r.beta ≤ d ∧
      d < √(r.beta ^ 2 + opt.e2 ^ 2)) ∧
    (f r.point.x = 0 → 0 ≤ r.beta → (∀ i, r.point.u i = r.beta * r.alpha i) →
      IsLeast (len '' {u | f (uToX t marg u) ≤ 0}) r.beta) := by
  obtain ⟨hd, hG, hg, -⟩ := result_exact ht hmarg hS hj hf hex hv hs h
  obtain ⟨hxu, -, -, hal, -, -⟩ := C29_identities h
  have hb := beta_mul_len hg h
  have hp := len_pos hg
  have low : ∀ u, f (uToX t marg u) ≤ 0 → r.beta + r.point.G / len r.point.gradient ≤ len u := by
    intro u hu
    have h1 := convex_above hconv hd u
    have h2 := (abs_le.1 (dot_le_len r.point.gradient u)).1
    simp only [mul_sub, Finset.sum_sub_distrib] at h1
    rw [← hG] at h1
    have h3 : r.beta * len r.point.gradient + r.point.G ≤ len r.point.gradient * len u := by linarith
    have e : r.beta + r.point.G / len r.point.gradient = (r.beta * len r.point.gradient + r.point.G) / len r.point.gradient := by
      field_simp
    rw [e, div_le_iff₀ hp]
    linarith
  have h0 : f r.point.x = 0 → ∀ u, f (uToX t marg u) ≤ 0 → r.beta ≤ len u := by
    intro hx u hu
    have := low u hu
    rw [hxu, ← hG] at hx
    rw [hx, zero_div, add_zero] at this
    exact this
  refine ⟨low, fun hx hi => ?_, fun hx hb0 hpar => ?_⟩
  · obtain ⟨d, h1, -, h3⟩ := C99_upper (f := f) h hx.le
    exact ⟨d, h1, h1.2 (by rintro _ ⟨u, hu, rfl⟩; exact h0 hx u hu), h3 hi⟩
  · refine ⟨⟨r.point.u, by rw [mem_setOf_eq, ← hxu]; exact hx.le, ?_⟩, by rintro _ ⟨u, hu, rfl⟩; exact h0 hx u hu⟩
    have e : r.point.u = fun i => r.beta * r.alpha i := funext hpar
    have h1 : len r.alpha = 1 := by unfold len; rw [hal, Real.sqrt_one]
    rw [e, len_smul, h1, mul_one, abs_of_nonneg hb0]

/-- C99, concave limit states: some failure point has distance `|β + G/‖∇‖|` from the origin, so the failure set is at least that
close. -/
theorem C99_concave {la : LinAlg} {ty : TransformType} {Ro : Matrix (Fin n) (Fin n) ℝ}
    (ht : Transformation.compute la ty Ro = .ok t) {S : Fin n → Set ℝ}
    (hmarg : ∀ i, RoundTrip (marg i) (S i)) (hS : ∀ i, IsOpen (S i)) (hj : ∀ i, JacobianCorrect (marg i) (S i))
    {f : (Fin n → ℝ) → ℝ} {grad : (Fin n → ℝ) → Fin n → ℝ}
    (hf : ∀ x, (∀ i, x i ∈ S i) → HasFDerivAt f (gradMap (grad x)) x)
    (hconv : ConcaveOn ℝ univ (fun u => f (uToX t marg u)))
    (hex : Exact ev P f grad) (hv : ∀ s xs s' Gs, P s → ev.values s xs = (s', .ok Gs) → P s') {fuel : ℕ} {s s' : σ} {r : Result n} (hs : P s)
    (h : runFrom t marg ev opt fuel s = some (.done r s')) :
    ∃ u, f (uToX t marg u) ≤ 0 ∧ len u = |r.beta + r.point.G / len r.point.gradient| := by
  obtain ⟨hd, hG, hg, -⟩ := result_exact ht hmarg hS hj hf hex hv hs h
  have hb := beta_mul_len hg h
  have hp := len_pos hg
  set w := r.point.gradient with hw
  set c : ℝ := -(r.beta + r.point.G / len w) / len w with hc
  refine ⟨fun i => c * w i, ?_, ?_⟩
  · refine (concave_below hconv hd _).trans (le_of_eq ?_)
    simp only [mul_sub, Finset.sum_sub_distrib]
    rw [← hG]
    have e1 : ∑ i, w i * (c * w i) = c * len w ^ 2 := by
      rw [len_sq, Finset.mul_sum]
      exact Finset.sum_congr rfl fun i _ => by ring
    have e2 : ∑ i, w i * r.point.u i = -(r.beta * len w) := by rw [hb]; ring
    rw [e1, e2, hc]
    field_simp
    ring
  · rw [len_smul, hc, abs_div, abs_neg, abs_of_pos hp]
    field_simp

end general

end Pystra.Props
