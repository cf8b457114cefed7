import Verif.Props.FormMargin
import Verif.Spec.Margin
import Mathlib.Analysis.SpecialFunctions.Pow.Deriv

/-! C104: the margin of normal and lognormal variables, the safety factor of lognormal variables. -/

namespace Pystra.Props
open Matrix Spec Transformation Form Set MeasureTheory

variable {σ : Type} {n : ℕ}

/-- What FORM needs to know about such a variable. -/
theorem normalOrLogOf_ok {k : Bool} {μ s : ℝ} {sp : Option ℝ} {m : Marginal} (hs : 0 < s) (h : NormalOrLogOf k μ s sp m) :
    ∃ S, IsOpen S ∧ RoundTrip m S ∧ JacobianCorrect m S ∧ (∀ u, DifferentiableAt ℝ m.uToX u) ∧ (k = true → S = Ioi 0) ∧
      0 < scoreStd k μ s ∧ ∀ z, scoreOf k (m.uToX z) = scoreMean k μ s + scoreStd k μ s * z := by
  cases k with
  | false =>
    have hn : Normal.new μ (.fin s) sp = .ok m := h
    obtain ⟨m', e, -, hst, -, h1, h2, -⟩ := (good_normal μ hs sp).ex
    rw [hn] at e; injection e with e; subst e
    have hu : m.uToX = fun u => u * s + μ := (normal_ok hn).1
    refine ⟨univ, isOpen_univ, h1, h2, fun u => by rw [hu]; fun_prop, fun h => (nomatch h), hs, fun z => ?_⟩
    rw [hu]
    simp only [scoreOf, scoreMean, scoreStd, Bool.false_eq_true, if_false]
    ring
  | true =>
    obtain ⟨hμ, hn⟩ : 0 < μ ∧ Lognormal.new μ s false sp = .ok m := h
    obtain ⟨m', e, -, hst, -, h1, h2, -⟩ := (good_lognormal hμ hs sp).ex
    rw [hn] at e; injection e with e; subst e
    have hu : m.uToX = fun u => Real.exp (u * (Lognormal.params μ s).2 + (Lognormal.params μ s).1) := by
      unfold Lognormal.new at hn
      simp only [Bool.false_eq_true, if_false] at hn
      unfold Lognormal.ofParams at hn
      dsimp only at hn
      split at hn
      · cases hn
      · injection hn with hn; rw [← hn]; rfl
    have hpos : 0 < Real.log (1 + (s / μ) ^ 2) := Real.log_pos (by have : 0 < (s / μ) ^ 2 := by positivity
                                                                   linarith)
    refine ⟨Ioi 0, isOpen_Ioi, h1, h2, fun u => by rw [hu]; fun_prop, fun _ => rfl, Real.sqrt_pos.2 hpos, fun z => ?_⟩
    rw [hu]
    simp only [scoreOf, scoreMean, scoreStd, if_true, Real.log_exp, Lognormal.params, Real.sq_sqrt hpos.le]
    ring

/-- The margin in standard normal space. -/
theorem margin_linear {t : Mats n} {marg : Fin n → Marginal} {k : Fin n → Bool} {lam zet : Fin n → ℝ}
    (hsc : ∀ i z, scoreOf (k i) ((marg i).uToX z) = lam i + zet i * z) (a0 : ℝ) (a : Fin n → ℝ) (u : Fin n → ℝ) :
    a0 + ∑ i, a i * scoreOf (k i) (uToX t marg u i) =
      (a0 + ∑ i, a i * lam i) + ∑ i, vecMul (fun i => a i * zet i) t.invT i * u i := by
  have e : ∑ i, vecMul (fun i => a i * zet i) t.invT i * u i = vecMul (fun i => a i * zet i) t.invT ⬝ᵥ u := rfl
  rw [e, ← dotProduct_mulVec, add_assoc, dotProduct, ← Finset.sum_add_distrib]
  congr 1
  refine Finset.sum_congr rfl fun i _ => ?_
  simp only [uToX, hsc]
  ring

/-- Its coefficients. -/
theorem margin_coeff {t : Mats n} {Ro : Matrix (Fin n) (Fin n) ℝ} (hfac : t.invT * t.invTᵀ = Ro) (h2 : t.invT * t.T = 1)
    {a zet : Fin n → ℝ} (hz : ∀ i, 0 < zet i) (ha : a ≠ 0) :
    vecMul (fun i => a i * zet i) t.invT ≠ 0 ∧
    norm2 (vecMul (fun i => a i * zet i) t.invT) = √(∑ i, ∑ j, a i * zet i * Ro i j * (a j * zet j)) := by
  obtain ⟨w, hwdef⟩ : ∃ w, w = vecMul (fun i => a i * zet i) t.invT := ⟨_, rfl⟩
  rw [← hwdef]
  constructor
  · intro h0
    apply ha
    have : vecMul w t.T = fun i => a i * zet i := by
      rw [hwdef, vecMul_vecMul, h2, vecMul_one]
    rw [h0, zero_vecMul] at this
    funext i
    have := congrFun this i
    simp only [Pi.zero_apply] at this ⊢
    rcases mul_eq_zero.1 this.symm with h | h
    · exact h
    · exact absurd h (hz i).ne'
  · have e : norm2 w ^ 2 = ∑ i, ∑ j, a i * zet i * Ro i j * (a j * zet j) := by
      rw [← dot_self, hwdef]
      rw [← dotProduct_mulVec, ← mulVec_transpose, mulVec_mulVec, hfac]
      simp only [dotProduct, mulVec, Finset.mul_sum]
      exact Finset.sum_congr rfl fun i _ => Finset.sum_congr rfl fun j _ => by ring
    rw [← e, Real.sqrt_sq (norm2_nonneg _)]

/-- **C104 (normal and lognormal variables).**  The user's limit state is `φ(M)` where the margin `M = a₀ + Σ aᵢ Yᵢ`, with `Yᵢ` the normal
variable `Xᵢ` or the logarithm of the lognormal variable `Xᵢ`, and `φ` is convex or concave with positive derivative and `φ(0) = 0`.  With
exact gradients FORM converges linearly, for the default step rule and every fixed step size in `(0, 1]`, from every starting point; the limit does not depend on `φ`: the index is the mean of
`M` over its standard deviation, the design point is the point of the plane `M = 0` nearest to the origin, and the probability of failure is
exactly the one that belongs to this index.  What a run reports as `Pf` misses it by at most the error of the index over `√(2π)`. -/
theorem C104_formulation {la : LinAlg} (hla : LinAlgOK la) {ty : TransformType} {Ro : Matrix (Fin n) (Fin n) ℝ} (hR : Ro.PosDef)
    {t : Mats n} (ht : Transformation.compute la ty Ro = .ok t) {k : Fin n → Bool} {μ sd : Fin n → ℝ} {sp : Fin n → Option ℝ}
    (hsd : ∀ i, 0 < sd i) {marg : Fin n → Marginal} (hm : ∀ i, NormalOrLogOf (k i) (μ i) (sd i) (sp i) (marg i))
    {a0 : ℝ} {a : Fin n → ℝ} (ha : a ≠ 0) {φ φ' : ℝ → ℝ} (h0 : φ 0 = 0) (hd : ∀ y, HasDerivAt φ (φ' y) y) (hpos : ∀ y, 0 < φ' y)
    (hmono : Monotone φ' ∨ Antitone φ') {f : (Fin n → ℝ) → ℝ} {grad : (Fin n → ℝ) → Fin n → ℝ}
    (hform : ∀ x, (∀ i, k i = true → 0 < x i) → f x = φ (a0 + ∑ i, a i * scoreOf (k i) (x i)))
    (hf : ∀ x, (∀ i, k i = true → 0 < x i) → HasFDerivAt f (gradMap (grad x)) x)
    {ev : Evaluator σ n} {P : σ → Prop} (hex : Exact ev P f grad) :
    let sdY := fun i => scoreStd (k i) (μ i) (sd i)
    let s := √(∑ i, ∑ j, a i * sdY i * Ro i j * (a j * sdY j))
    let β := (a0 + ∑ i, a i * scoreMean (k i) (μ i) (sd i)) / s
    ∃ us : Fin n → ℝ,
      (len us = |β| ∧ a0 + ∑ i, a i * scoreOf (k i) (uToX t marg us i) = 0 ∧
        ∀ i, scoreOf (k i) (uToX t marg us i) = scoreMean (k i) (μ i) (sd i) - β * sdY i * (∑ j, Ro i j * (a j * sdY j)) / s) ∧
      (∀ x0, ∃ ρ C : ℝ, 0 < ρ ∧ ρ < 1 ∧ 0 < C ∧ ConvergesFrom t marg ev P f us β x0 ρ C 0) ∧
      (stdGauss n).real {u | f (uToX t marg u) < 0} = StdNormal.cdf (-β) ∧
      ∀ (opt : Form.Options) (x0 : Fin n → ℝ) (fuel : ℕ) (s0 s' : σ) (r : Result n),
        runFrom t (fun i => { marg i with startpoint := x0 i }) ev opt fuel s0 = some (.done r s') →
        |r.Pf - (stdGauss n).real {u | f (uToX t marg u) < 0}| ≤ |r.beta - β| / √(2 * Real.pi) := by
  intro sdY s β
  obtain ⟨m', hm', hfac, h1, h2⟩ := C22_posdef hla ty hR
  rw [ht] at hm'; injection hm' with hm'; subst hm'
  choose S hS hmarg hj hdiff hlog hz hsc using fun i => normalOrLogOf_ok (hsd i) (hm i)
  obtain ⟨hw, hnorm⟩ := margin_coeff hfac h2 (a := a) (zet := sdY) hz ha
  obtain ⟨w, hwdef⟩ : ∃ w, w = vecMul (fun i => a i * sdY i) t.invT := ⟨_, rfl⟩
  rw [← hwdef] at hw hnorm
  have hlin := fun u => margin_linear (t := t) hsc a0 a u
  rw [← hwdef] at hlin
  have hmem : ∀ x : Fin n → ℝ, (∀ i, x i ∈ S i) → ∀ i, k i = true → 0 < x i := by
    intro x hx i hi
    have := hx i
    rw [hlog i hi] at this
    exact this
  have hq : ∀ u, f (uToX t marg u) = φ ((a0 + ∑ i, a i * scoreMean (k i) (μ i) (sd i)) + ∑ i, w i * u i) := by
    intro u
    rw [hform (uToX t marg u) (hmem _ fun i => (hmarg i).mem _), hlin u]
  obtain ⟨hconv, hPf⟩ := C104_margin ht hmarg hS hj (fun i u => hdiff i u) (fun x hx => hf x (hmem x hx)) hex h0 hd hpos hmono hw hq
  have hβ : (a0 + ∑ i, a i * scoreMean (k i) (μ i) (sd i)) / len w = β := by
    change _ / norm2 w = _
    rw [hnorm]
  have hs : len w = s := hnorm
  have hN : 0 < s := by rw [← hs]; exact norm2_pos hw
  rw [hβ] at hconv hPf
  have hwu : ∀ i, ∑ j, t.invT i j * w j = ∑ j, Ro i j * (a j * sdY j) := by
    intro i
    have : t.invT *ᵥ w = Ro *ᵥ fun i => a i * sdY i := by
      rw [hwdef, ← mulVec_transpose, mulVec_mulVec, hfac]
    exact congrFun this i
  refine ⟨fun i => -β * w i / len w, ⟨?_, ?_, ?_⟩, hconv, hPf, ?_⟩
  · have e : (fun i => -β * w i / len w) = (-β / norm2 w) • w := by
      funext i; change -β * w i / norm2 w = -β / norm2 w * w i; ring
    rw [e]
    change norm2 _ = _
    rw [norm2_smul, abs_div, abs_neg, abs_of_pos (norm2_pos hw), div_mul_cancel₀ _ (norm2_pos hw).ne']
  · rw [hlin]
    have e : ∑ i, w i * (-β * w i / len w) = -β * (norm2 w ^ 2) / norm2 w := by
      rw [norm2_sq, Finset.mul_sum, Finset.sum_div]
      exact Finset.sum_congr rfl fun i _ => by change _ * (_ / norm2 w) = _; ring
    rw [e, ← hβ]
    change _ + -(_ / norm2 w) * norm2 w ^ 2 / norm2 w = 0
    have := norm2_pos hw
    field_simp
    ring
  · intro i
    rw [show uToX t marg (fun i => -β * w i / len w) i = (marg i).uToX ((t.invT *ᵥ fun i => -β * w i / len w) i) from rfl, hsc i]
    have e : (t.invT *ᵥ fun i => -β * w i / len w) i = -β / s * ∑ j, Ro i j * (a j * sdY j) := by
      rw [← hwu i, Finset.mul_sum, ← hs]
      change ∑ j, t.invT i j * (-β * w j / len w) = _
      exact Finset.sum_congr rfl fun j _ => by ring
    rw [e]
    change _ + sdY i * _ = _
    ring
  · intro opt x0 fuel s0 s' r hr
    obtain ⟨-, -, -, -, -, hp, -⟩ := C29_identities hr
    rw [hp, hPf]
    refine (StdNormal.cdf_lip _ _).trans (le_of_eq ?_)
    congr 1
    rw [← abs_neg]
    congr 1
    ring

/-- **C104 (the safety factor of lognormal variables).**  The user writes the same requirement `F(x) = c Π xᵢ^aᵢ ≥ 1` in one of three ways:
`F - 1`, `1 - 1/F` or `ln F`.  FORM converges from every starting point, to the same index, the exact one. -/
theorem C104_factor {la : LinAlg} (hla : LinAlgOK la) {ty : TransformType} {Ro : Matrix (Fin n) (Fin n) ℝ} (hR : Ro.PosDef)
    {t : Mats n} (ht : Transformation.compute la ty Ro = .ok t) {μ sd : Fin n → ℝ} {sp : Fin n → Option ℝ}
    (hμ : ∀ i, 0 < μ i) (hsd : ∀ i, 0 < sd i) {marg : Fin n → Marginal} (hm : ∀ i, Lognormal.new (μ i) (sd i) false (sp i) = .ok (marg i))
    {c : ℝ} (hc : 0 < c) {a : Fin n → ℝ} (ha : a ≠ 0) {f : (Fin n → ℝ) → ℝ} {grad : (Fin n → ℝ) → Fin n → ℝ}
    (hform : (∀ x : Fin n → ℝ, (∀ i, 0 < x i) → f x = c * ∏ i, x i ^ a i - 1) ∨
      (∀ x : Fin n → ℝ, (∀ i, 0 < x i) → f x = 1 - 1 / (c * ∏ i, x i ^ a i)) ∨
      (∀ x : Fin n → ℝ, (∀ i, 0 < x i) → f x = Real.log (c * ∏ i, x i ^ a i)))
    (hf : ∀ x : Fin n → ℝ, (∀ i, 0 < x i) → HasFDerivAt f (gradMap (grad x)) x)
    {ev : Evaluator σ n} {P : σ → Prop} (hex : Exact ev P f grad) :
    let ζ := fun i => √(Real.log (1 + (sd i / μ i) ^ 2))
    let s := √(∑ i, ∑ j, a i * ζ i * Ro i j * (a j * ζ j))
    let β := (Real.log c + ∑ i, a i * (Real.log (μ i) - ζ i ^ 2 / 2)) / s
    ∃ us : Fin n → ℝ,
      (∀ i, uToX t marg us i = μ i / √(1 + (sd i / μ i) ^ 2) * Real.exp (-β * ζ i * (∑ j, Ro i j * (a j * ζ j)) / s)) ∧
      (∀ x0, ∃ ρ C : ℝ, 0 < ρ ∧ ρ < 1 ∧ 0 < C ∧ ConvergesFrom t marg ev P f us β x0 ρ C 0) ∧
      (stdGauss n).real {u | c * ∏ i, uToX t marg u i ^ a i < 1} = StdNormal.cdf (-β) := by
  intro ζ s β
  have hcov : ∀ i, 0 < 1 + (sd i / μ i) ^ 2 := fun i => by positivity
  have hcov1 : ∀ i, 1 < 1 + (sd i / μ i) ^ 2 := fun i => by
    have h1 := hsd i; have h2 := hμ i
    have : 0 < (sd i / μ i) ^ 2 := by positivity
    linarith
  have hζ : ∀ i, ζ i ^ 2 = Real.log (1 + (sd i / μ i) ^ 2) := fun i => Real.sq_sqrt (Real.log_nonneg (hcov1 i).le)
  have hF : ∀ x : Fin n → ℝ, (∀ i, 0 < x i) → c * ∏ i, x i ^ a i = Real.exp (Real.log c + ∑ i, a i * Real.log (x i)) := by
    intro x hx
    rw [Real.exp_add, Real.exp_log hc, Real.exp_sum]
    congr 1
    exact Finset.prod_congr rfl fun i _ => by rw [Real.rpow_def_of_pos (hx i), mul_comm]
  have hm' : ∀ i, NormalOrLogOf ((fun _ : Fin n => true) i) (μ i) (sd i) (sp i) (marg i) := fun i => ⟨hμ i, hm i⟩
  obtain ⟨φ, φ', h0, hd, hpos, hmono, hφ⟩ : ∃ φ φ' : ℝ → ℝ, φ 0 = 0 ∧ (∀ y, HasDerivAt φ (φ' y) y) ∧ (∀ y, 0 < φ' y) ∧
      (Monotone φ' ∨ Antitone φ') ∧ ∀ x : Fin n → ℝ, (∀ i, 0 < x i) → f x = φ (Real.log c + ∑ i, a i * Real.log (x i)) := by
    rcases hform with h | h | h
    · refine ⟨fun y => Real.exp y - 1, Real.exp, by simp, fun y => (Real.hasDerivAt_exp y).sub_const 1, Real.exp_pos,
        Or.inl Real.exp_monotone, fun x hx => ?_⟩
      rw [h x hx, hF x hx]
    · refine ⟨fun y => 1 - Real.exp (-y), fun y => Real.exp (-y), by simp, fun y => ?_, fun y => Real.exp_pos _,
        Or.inr fun p q hpq => Real.exp_le_exp.2 (by linarith), fun x hx => ?_⟩
      · have := ((Real.hasDerivAt_exp (-y)).comp y (hasDerivAt_neg y)).const_sub 1
        refine this.congr_deriv ?_
        ring
      · rw [h x hx, hF x hx, one_div, ← Real.exp_neg]
    · refine ⟨id, fun _ => 1, rfl, fun y => hasDerivAt_id y, fun _ => one_pos, Or.inl monotone_const, fun x hx => ?_⟩
      rw [h x hx, hF x hx, Real.log_exp]
      rfl
  have hall : ∀ x : Fin n → ℝ, (∀ i, (fun _ : Fin n => true) i = true → 0 < x i) → ∀ i, 0 < x i := fun x hx i => hx i rfl
  obtain ⟨us, ⟨-, -, h3⟩, h4, h5, -⟩ := C104_formulation hla hR ht (k := fun _ => true) hsd hm' (a0 := Real.log c) ha h0 hd hpos hmono
    (fun x hx => hφ x (hall x hx)) (fun x hx => hf x (hall x hx)) hex
  have hmean : ∀ i, scoreMean true (μ i) (sd i) = Real.log (μ i) - ζ i ^ 2 / 2 := fun i => by
    simp only [scoreMean, if_true]; rw [hζ]
  have hstd : ∀ i, scoreStd true (μ i) (sd i) = ζ i := fun i => by simp only [scoreStd, if_true]; rfl
  simp only [hmean, hstd] at h3 h4 h5
  choose S hS hmarg hj hdiff hlog hz hsc using fun i => normalOrLogOf_ok (hsd i) (hm' i)
  have hxpos : ∀ u i, 0 < uToX t marg u i := fun u i => by
    have := (hmarg i).mem (t.invT.mulVec u i)
    rw [hlog i rfl] at this
    exact this
  refine ⟨us, fun i => ?_, h4, ?_⟩
  · have e := h3 i
    simp only [scoreOf, if_true] at e
    rw [← Real.exp_log (hxpos us i), e]
    have e2 : Real.log (μ i) - ζ i ^ 2 / 2 - β * ζ i * (∑ j, Ro i j * (a j * ζ j)) / s =
        (Real.log (μ i) - ζ i ^ 2 / 2) + -β * ζ i * (∑ j, Ro i j * (a j * ζ j)) / s := by ring
    change Real.exp (Real.log (μ i) - ζ i ^ 2 / 2 - β * ζ i * (∑ j, Ro i j * (a j * ζ j)) / s) = _
    rw [e2, Real.exp_add, Real.exp_sub, Real.exp_log (hμ i), hζ, ← Real.log_sqrt (hcov i).le, Real.exp_log (Real.sqrt_pos.2 (hcov i))]
  · rw [← h5]
    congr 1
    ext u
    rw [mem_setOf_eq, mem_setOf_eq, hF _ (hxpos u), hφ _ (hxpos u)]
    have hinc : StrictMono φ := strictMono_of_hasDerivAt_pos hd hpos
    rw [← Real.exp_zero, Real.exp_lt_exp]
    conv_rhs => rw [← h0]
    exact hinc.lt_iff_lt.symm

end Pystra.Props

namespace Pystra.Props
open Matrix Spec Transformation Form Set MeasureTheory

variable {σ : Type} {n : ℕ}

/-- **C104 (the margin itself).**  When the user's limit state is the margin `a₀ + Σ aᵢ Yᵢ` itself (`Yᵢ` the normal variable or the logarithm
of the lognormal variable), FORM is exact, with full steps (2 passes) and with the default step rule (at most 37 passes). -/
theorem C104_exact {la : LinAlg} (hla : LinAlgOK la) {ty : TransformType} {Ro : Matrix (Fin n) (Fin n) ℝ} (hR : Ro.PosDef)
    {t : Mats n} (ht : Transformation.compute la ty Ro = .ok t) {k : Fin n → Bool} {μ sd : Fin n → ℝ} {sp : Fin n → Option ℝ}
    (hsd : ∀ i, 0 < sd i) {marg : Fin n → Marginal} (hm : ∀ i, NormalOrLogOf (k i) (μ i) (sd i) (sp i) (marg i))
    {a0 : ℝ} {a : Fin n → ℝ} (ha : a ≠ 0) {f : (Fin n → ℝ) → ℝ} {grad : (Fin n → ℝ) → Fin n → ℝ}
    (hform : ∀ x, (∀ i, k i = true → 0 < x i) → f x = a0 + ∑ i, a i * scoreOf (k i) (x i))
    (hf : ∀ x, (∀ i, k i = true → 0 < x i) → HasFDerivAt f (gradMap (grad x)) x)
    {ev : Evaluator σ n} {P : σ → Prop} (hex : Exact ev P f grad) (hval : Values ev P f)
    (opt : Form.Options) (he1 : 0 < opt.e1) (he1' : opt.e1 ≤ 1 / 6) (he2 : 0 < opt.e2) (hi : 37 ≤ opt.iMax)
    (hst : opt.stepSize = 1 ∨ (opt.stepSize = 0 ∧ opt.multiProc = 1)) (s0 : σ) (hs0 : P s0) (fuel : ℕ) (hfuel : opt.iMax ≤ fuel) :
    let sdY := fun i => scoreStd (k i) (μ i) (sd i)
    let β := (a0 + ∑ i, a i * scoreMean (k i) (μ i) (sd i)) / √(∑ i, ∑ j, a i * sdY i * Ro i j * (a j * sdY j))
    ∃ r s', runFrom t marg ev opt fuel s0 = some (.done r s') ∧ r.beta = β ∧ r.Pf = (stdGauss n).real {u | f (uToX t marg u) < 0} ∧
      r.point.u = r.beta • r.alpha ∧ f r.point.x = 0 ∧
      (f (uToX t marg (startingPoint t marg)) ≠ 0 → r.i ≤ 37 ∧ (opt.stepSize = 1 → r.i = 2)) := by
  intro sdY β
  obtain ⟨m', hm', hfac, h1, h2⟩ := C22_posdef hla ty hR
  rw [ht] at hm'; injection hm' with hm'; subst hm'
  choose S hS hmarg hj hdiff hlog hz hsc using fun i => normalOrLogOf_ok (hsd i) (hm i)
  obtain ⟨hw, hnorm⟩ := margin_coeff hfac h2 (a := a) (zet := sdY) hz ha
  obtain ⟨w, hwdef⟩ : ∃ w, w = vecMul (fun i => a i * sdY i) t.invT := ⟨_, rfl⟩
  rw [← hwdef] at hw hnorm
  have hlin := fun u => margin_linear (t := t) hsc a0 a u
  rw [← hwdef] at hlin
  obtain ⟨b, hb⟩ : ∃ b, b = a0 + ∑ i, a i * scoreMean (k i) (μ i) (sd i) := ⟨_, rfl⟩
  have hmem : ∀ x : Fin n → ℝ, (∀ i, x i ∈ S i) → ∀ i, k i = true → 0 < x i := by
    intro x hx i hi
    have := hx i
    rw [hlog i hi] at this
    exact this
  have hq : ∀ u, f (uToX t marg u) = b + w ⬝ᵥ u := by
    intro u
    rw [hform (uToX t marg u) (hmem _ fun i => (hmarg i).mem _), hlin u, hb]
    rfl
  have hgr : ∀ u, HasFDerivAt (fun u => f (uToX t marg u)) (gradMap w) u := by
    intro u
    have e : (fun u => f (uToX t marg u)) = fun u => b + gradMap w u := by
      funext u; rw [hq, gradMap_apply]; rfl
    rw [e]
    exact (gradMap w).hasFDerivAt.const_add b
  have hL : LinOK t marg ev P b w := by
    intro u s hs
    have hch := C23_chain_rule ht marg S hmarg hS hj u
    obtain ⟨Ji, hJ⟩ := hch.1.2 (fun i => jac_ne_zero (hmarg i) (hj i) (hdiff i _))
    obtain ⟨s1, xa, he, hP⟩ := hex s hs (uToX t marg u)
    refine ⟨s1, _, by unfold linearise; dsimp only; rw [hJ, he], hP, rfl, rfl, ?_, hq u⟩
    have h1 := (hch.2 Ji hJ).2 f (grad _) (hf _ (hmem _ fun i => (hmarg i).mem _))
    have h2 := h1.unique (hgr u)
    funext i
    have := congrArg (fun (L : (Fin n → ℝ) →L[ℝ] ℝ) => L (Pi.single i 1)) h2
    simp only [gradMap_apply] at this
    simpa [Pi.single_apply] using this
  have hV : ValOK t marg ev P b w := by
    intro us s hs
    obtain ⟨s', h, hP⟩ := hval s hs (us.map (uToX t marg))
    refine ⟨s', ?_, hP⟩
    rw [h, List.map_map]
    congr 2
    exact List.map_congr_left fun u _ => hq u
  have hPf : (stdGauss n).real {u | f (uToX t marg u) < 0} = StdNormal.cdf (-(b / norm2 w)) := by
    simp only [hq]
    exact halfspace_lt w (by rw [← norm2_sq]; have := norm2_pos hw; positivity) b
  have hβ : b / norm2 w = β := by rw [hnorm, hb]
  rcases hst with hst | ⟨hst, hmp⟩
  · obtain ⟨s1, p, hl, hP1, hu1, hx1, hg1, hG1⟩ := hL (startingPoint t marg) s0 hs0
    have hit : iteration t marg ev opt 1 0 (startingPoint t marg) s0 = .next p.G ((b / norm2 w) • alpha w) s1 := by
      unfold iteration
      rw [hl]
      simp only [hg1]
      rw [if_neg hw]
      have c1 : cond1 opt p.G p.G = false := by
        simp only [cond1, decide_eq_false_iff_not, not_and, not_lt]
        intro h0
        rw [mul_inv_cancel₀ h0, abs_one]; linarith
      have c2 : decide (1 = opt.iMax) = false := by rw [decide_eq_false_iff_not]; omega
      simp only [if_true, c1, c2, Bool.false_and, Bool.or_false, Bool.false_eq_true, if_false, getStepSize, hst,
        one_ne_zero]
      have := newton_step b hw (startingPoint t marg)
      rw [← hG1] at this
      rw [this]
    obtain ⟨fu, rfl⟩ : ∃ k, fuel = k + 1 := ⟨fuel - 1, by omega⟩
    obtain ⟨r, s', hloop, hP', hri, hbeta, hPf', halpha, hu, hG, hx⟩ :=
      loop_at_solution (t := t) (marg := marg) (opt := opt) hw hL hst he1 he2 p.G fu 2 s1 le_rfl (by omega) (by omega) hP1
    have hrun : runFrom t marg ev opt (fu + 1) s0 = some (.done r s') := by
      unfold runFrom loop
      rw [hit]; exact hloop
    refine ⟨r, s', hrun, by rw [hbeta, hβ], by rw [hPf, hPf'], by rw [hu, hbeta, halpha], ?_, fun hne => ?_⟩
    · rw [hx, hq, hu, (at_solution b hw).1]
    · rw [hq, ← hG1] at hne
      rw [if_neg hne] at hri
      exact ⟨by omega, fun _ => hri⟩
  · obtain ⟨r, s', hloop, hP', hri, hbeta, hPf', halpha, hu, hx⟩ :=
      armijo_run (t := t) (marg := marg) hw hL hV hst hmp he1 he1' he2 hi (startingPoint t marg) fuel hfuel s0 hs0
    refine ⟨r, s', hloop, by rw [hbeta, hβ], by rw [hPf, hPf'], by rw [hu, hbeta, halpha], ?_, fun hne => ?_⟩
    · rw [hx, hq, hu, (at_solution b hw).1]
    · rw [hq] at hne
      rw [if_neg hne] at hri
      exact ⟨hri, fun h => absurd (h.symm.trans hst) one_ne_zero⟩

/-- The evaluator of the program in mode `ddm` (the user's function returns value and gradient) is exact. -/
theorem ddm_exact {D : Type} {expr : Kwargs → GRet} (lo : LSOptions) (hmp : lo.multiProc ≠ 0) (hd : lo.diffMode = "ddm") (stdv : Fin n → ℝ)
    (ev : Ev D) (f : (Fin n → ℝ) → ℝ) (grad : (Fin n → ℝ) → Fin n → ℝ)
    (hr : ∀ x, ∃ kw, LimitState.inpdict ev.model [x] = .ok kw ∧ expr kw = .tuple [.arr [f x], .arr (List.ofFn (grad x))]) :
    Exact (lsEvaluator expr lo stdv) (fun e : Ev D => ∃ k, e.model = ev.model.addCallFunction k) f grad := by
  intro s hs x
  obtain ⟨s', h1, h2⟩ := C48_ddm lo hmp hd stdv ev.model f grad hr s hs x
  exact ⟨s', x, h1, h2⟩

end Pystra.Props
