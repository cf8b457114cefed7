import Verif.Spec.FormBound
import Verif.Props.FormArmijo
import Verif.Props.LineSamplingRun
import Verif.Props.SormHessian
import Verif.Props.FormCalls
import Mathlib.Analysis.Convex.Deriv
import Mathlib.Analysis.Convex.SpecificFunctions.Basic

/-! C96: on which side of the exact failure probability the result of FORM lies. -/

namespace Pystra.Props
open Matrix Spec Transformation Form MeasureTheory Set

variable {σ : Type} {n : ℕ}

section general
variable {t : Mats n} {marg : Fin n → Marginal} {ev : Evaluator σ n} {P : σ → Prop} {opt : Form.Options}

/-- What the evaluations keep, the passes keep. -/
theorem reaches_keeps (hg : ∀ s, P s → ∀ x, P (ev.withGrad s x).1) (hv : ∀ s xs s' Gs, P s → ev.values s xs = (s', .ok Gs) → P s')
    {u0 : Fin n → ℝ} {s0 : σ} (h0 : P s0) {i : ℕ} {Go : ℝ} {u : Fin n → ℝ} {s : σ}
    (hr : Reaches t marg ev opt u0 s0 i Go u s) : P s := by
  induction hr with
  | start => exact h0
  | @next i Go u s Go' u' s' hr hit ih =>
    obtain ⟨s1, p, step, hl, -, -, -, -, hst, -⟩ := iteration_next hit
    have h1 : P s1 := by
      unfold linearise at hl
      dsimp only at hl
      split at hl
      · cases hl
      · split at hl
        · cases hl
        · next s3 G gx xa he =>
          injection hl with e1 _
          have := hg s ih (uToX t marg u)
          rw [he] at this
          exact e1 ▸ this
    unfold getStepSize at hst
    split at hst
    · unfold computeStepSize at hst
      dsimp only at hst
      split at hst
      · split at hst
        · cases hst
        · next s3 tg he =>
          injection hst with e1 _
          exact e1 ▸ hv _ _ _ _ h1 he
      · cases hst
    · injection hst with e1 _
      exact e1 ▸ h1

/-- A differentiable convex function lies above its tangent planes. -/
theorem convex_above {γ : (Fin n → ℝ) → ℝ} (hc : ConvexOn ℝ univ γ) {w u0 : Fin n → ℝ} (hd : HasFDerivAt γ (gradMap w) u0)
    (u : Fin n → ℝ) : γ u0 + ∑ i, w i * (u i - u0 i) ≤ γ u := by
  have h1 : ConvexOn ℝ univ (fun s : ℝ => γ (u0 + s • (u - u0))) := by
    refine ⟨convex_univ, fun x _ y _ a b ha hb hab => ?_⟩
    have := hc.2 (mem_univ (u0 + x • (u - u0))) (mem_univ (u0 + y • (u - u0))) ha hb hab
    refine le_trans (le_of_eq ?_) this
    have hb' : b = 1 - a := by linarith
    subst hb'
    refine congrArg γ (funext fun i => ?_)
    simp only [Pi.add_apply, Pi.smul_apply, Pi.sub_apply, smul_eq_mul]
    ring
  have h2 : HasDerivAt (fun s : ℝ => γ (u0 + s • (u - u0))) (∑ i, w i * (u i - u0 i)) 0 := by
    have hl : HasDerivAt (fun s : ℝ => u0 + s • (u - u0)) (u - u0) 0 := by
      have := ((hasDerivAt_id (0 : ℝ)).smul_const (u - u0)).const_add u0
      simpa using this
    have hd' : HasFDerivAt γ (gradMap w) (u0 + (0 : ℝ) • (u - u0)) := by simpa using hd
    have := hd'.comp_hasDerivAt (0 : ℝ) hl
    rw [gradMap_apply] at this
    exact this
  have h3 := h1.le_slope_of_hasDerivAt (mem_univ 0) (mem_univ 1) one_pos h2
  rw [slope_def_field] at h3
  simp only [one_smul, zero_smul, add_zero, sub_zero, div_one, add_sub_cancel] at h3
  linarith

theorem concave_below {γ : (Fin n → ℝ) → ℝ} (hc : ConcaveOn ℝ univ γ) {w u0 : Fin n → ℝ} (hd : HasFDerivAt γ (gradMap w) u0)
    (u : Fin n → ℝ) : γ u ≤ γ u0 + ∑ i, w i * (u i - u0 i) := by
  have h := convex_above (w := -w) hc.neg (by
    have := hd.neg
    refine this.congr_fderiv ?_
    ext v
    simp [gradMap_apply]) u
  simp only [Pi.neg_apply, neg_mul, Finset.sum_neg_distrib] at h
  linarith

/-- The result of a run with exact gradients: value, gradient, and the half space of the linearised limit state. -/
theorem result_exact {la : LinAlg} {ty : TransformType} {Ro : Matrix (Fin n) (Fin n) ℝ}
    (ht : Transformation.compute la ty Ro = .ok t) {S : Fin n → Set ℝ}
    (hmarg : ∀ i, RoundTrip (marg i) (S i)) (hS : ∀ i, IsOpen (S i)) (hj : ∀ i, JacobianCorrect (marg i) (S i))
    {f : (Fin n → ℝ) → ℝ} {grad : (Fin n → ℝ) → Fin n → ℝ}
    (hf : ∀ x, (∀ i, x i ∈ S i) → HasFDerivAt f (gradMap (grad x)) x)
    (hex : Exact ev P f grad) (hv : ∀ s xs s' Gs, P s → ev.values s xs = (s', .ok Gs) → P s') {fuel : ℕ} {s s' : σ} {r : Result n} (hs : P s)
    (h : runFrom t marg ev opt fuel s = some (.done r s')) :
    HasFDerivAt (fun u => f (uToX t marg u)) (gradMap r.point.gradient) r.point.u ∧ r.point.G = f (uToX t marg r.point.u) ∧
    r.point.gradient ≠ 0 ∧
    (stdGauss n).real {u | r.point.G + ∑ i, r.point.gradient i * (u i - r.point.u i) ≤ 0} =
      StdNormal.cdf (-(r.beta + r.point.G / len r.point.gradient)) := by
  obtain ⟨i, Go, u, s2, hr, hit, -⟩ := loop_reaches fuel .start h
  obtain ⟨hl, hi, hgo, hg, ha, hb, hp, hu, hc⟩ := iteration_done hit
  have hP : P s2 := reaches_keeps (fun s hs x => by obtain ⟨s', _, h, hp⟩ := hex s hs x; rw [h]; exact hp) hv hs hr
  have hch := C23_chain_rule ht marg S hmarg hS hj u
  have key : HasFDerivAt (fun u => f (uToX t marg u)) (gradMap r.point.gradient) r.point.u ∧
      r.point.G = f (uToX t marg r.point.u) := by
    unfold linearise at hl
    dsimp only at hl
    split at hl
    · cases hl
    · next J hJ =>
      obtain ⟨s3, xa, he, -⟩ := hex s2 hP (uToX t marg u)
      rw [he] at hl
      dsimp only at hl
      injection hl with e1 e2
      injection e2 with e2
      rw [← e2]
      exact ⟨(hch.2 J hJ).2 f (grad _) (hf _ fun i => (hmarg i).mem _), rfl⟩
  refine ⟨key.1, key.2, hg, ?_⟩
  set w := r.point.gradient with hw
  have hpos : 0 < ∑ i, w i ^ 2 := by rw [← norm2_sq]; have := norm2_pos hg; positivity
  have e : {u : Fin n → ℝ | r.point.G + ∑ i, w i * (u i - r.point.u i) ≤ 0} =
      {u : Fin n → ℝ | (r.point.G - ∑ i, w i * r.point.u i) + ∑ i, w i * u i ≤ 0} := by
    ext u
    simp only [mem_setOf_eq, mul_sub, Finset.sum_sub_distrib]
    constructor <;> intro h <;> linarith
  rw [e, halfspace_prob w hpos]
  congr 2
  have hbeta : r.beta = -(∑ i, w i * r.point.u i) / √(∑ i, w i ^ 2) := by
    rw [hb, ha, alpha_dot]; rfl
  rw [hbeta]
  have : len w = √(∑ i, w i ^ 2) := rfl
  rw [this]
  ring

/-- C96: if the limit state is a convex function of the standard normal variables then the probability of failure is at most
`Φ(-(β + G/‖∇‖))`, where `β` is the reliability index that FORM reports, and `G` and `∇` are the limit-state value and the gradient at
the design point that it reports — whether or not the iteration has converged.  In particular, when `G ≥ 0` at that point, the
probability of failure is at most the reported one. -/
theorem C96_convex {la : LinAlg} {ty : TransformType} {Ro : Matrix (Fin n) (Fin n) ℝ}
    (ht : Transformation.compute la ty Ro = .ok t) {S : Fin n → Set ℝ}
    (hmarg : ∀ i, RoundTrip (marg i) (S i)) (hS : ∀ i, IsOpen (S i)) (hj : ∀ i, JacobianCorrect (marg i) (S i))
    {f : (Fin n → ℝ) → ℝ} {grad : (Fin n → ℝ) → Fin n → ℝ}
    (hf : ∀ x, (∀ i, x i ∈ S i) → HasFDerivAt f (gradMap (grad x)) x)
    (hconv : ConvexOn ℝ univ (fun u => f (uToX t marg u)))
    (hex : Exact ev P f grad) (hv : ∀ s xs s' Gs, P s → ev.values s xs = (s', .ok Gs) → P s') {fuel : ℕ} {s s' : σ} {r : Result n} (hs : P s)
    (h : runFrom t marg ev opt fuel s = some (.done r s')) :
    (stdGauss n).real {u | f (uToX t marg u) ≤ 0} ≤ StdNormal.cdf (-(r.beta + r.point.G / len r.point.gradient)) ∧
    (0 ≤ f r.point.x → (stdGauss n).real {u | f (uToX t marg u) ≤ 0} ≤ r.Pf) := by
  obtain ⟨hd, hG, hg, hpr⟩ := result_exact ht hmarg hS hj hf hex hv hs h
  have hle : (stdGauss n).real {u | f (uToX t marg u) ≤ 0} ≤ StdNormal.cdf (-(r.beta + r.point.G / len r.point.gradient)) := by
    rw [← hpr]
    refine measureReal_mono (fun u hu => ?_)
    have := convex_above hconv hd u
    simp only [mem_setOf_eq] at hu ⊢
    rw [hG]
    linarith
  refine ⟨hle, fun h0 => hle.trans ?_⟩
  obtain ⟨hx, -, -, -, -, hPf, -⟩ := C29_identities h
  rw [hPf]
  refine StdNormal.strictMono_cdf.monotone ?_
  rw [hx, ← hG] at h0
  have : 0 ≤ r.point.G / len r.point.gradient := div_nonneg h0 (Real.sqrt_nonneg _)
  linarith

/-- C96: if the limit state is a concave function of the standard normal variables then the probability of failure is at least
`Φ(-(β + G/‖∇‖))`; in particular, when `G ≤ 0` at the reported design point, it is at least the reported one. -/
theorem C96_concave {la : LinAlg} {ty : TransformType} {Ro : Matrix (Fin n) (Fin n) ℝ}
    (ht : Transformation.compute la ty Ro = .ok t) {S : Fin n → Set ℝ}
    (hmarg : ∀ i, RoundTrip (marg i) (S i)) (hS : ∀ i, IsOpen (S i)) (hj : ∀ i, JacobianCorrect (marg i) (S i))
    {f : (Fin n → ℝ) → ℝ} {grad : (Fin n → ℝ) → Fin n → ℝ}
    (hf : ∀ x, (∀ i, x i ∈ S i) → HasFDerivAt f (gradMap (grad x)) x)
    (hconv : ConcaveOn ℝ univ (fun u => f (uToX t marg u)))
    (hex : Exact ev P f grad) (hv : ∀ s xs s' Gs, P s → ev.values s xs = (s', .ok Gs) → P s') {fuel : ℕ} {s s' : σ} {r : Result n} (hs : P s)
    (h : runFrom t marg ev opt fuel s = some (.done r s')) :
    StdNormal.cdf (-(r.beta + r.point.G / len r.point.gradient)) ≤ (stdGauss n).real {u | f (uToX t marg u) ≤ 0} ∧
    (f r.point.x ≤ 0 → r.Pf ≤ (stdGauss n).real {u | f (uToX t marg u) ≤ 0}) := by
  obtain ⟨hd, hG, hg, hpr⟩ := result_exact ht hmarg hS hj hf hex hv hs h
  have hle : StdNormal.cdf (-(r.beta + r.point.G / len r.point.gradient)) ≤ (stdGauss n).real {u | f (uToX t marg u) ≤ 0} := by
    rw [← hpr]
    refine measureReal_mono (fun u hu => ?_)
    have := concave_below hconv hd u
    simp only [mem_setOf_eq] at hu ⊢
    rw [hG] at hu
    linarith
  refine ⟨hle, fun h0 => le_trans ?_ hle⟩
  obtain ⟨hx, -, -, -, -, hPf, -⟩ := C29_identities h
  rw [hPf]
  refine StdNormal.strictMono_cdf.monotone ?_
  rw [hx, ← hG] at h0
  have : r.point.G / len r.point.gradient ≤ 0 := div_nonpos_of_nonpos_of_nonneg h0 (Real.sqrt_nonneg _)
  linarith

/-- A run in which no evaluation fails and no gradient vanishes ends with a result. -/
theorem run_finishes (hl : ∀ s, P s → ∀ u, ∃ s1 p, linearise t marg ev u s = (s1, .ok p) ∧ p.gradient ≠ 0 ∧ P s1)
    (hst : ∀ s, P s → ∀ G gr u d, ∃ s1 st, getStepSize t marg ev opt G gr u d s = (s1, .ok st) ∧ P s1)
    (hi : 1 ≤ opt.iMax) {fuel : ℕ} (hf : opt.iMax ≤ fuel) {s : σ} (hs : P s) :
    ∃ r s', runFrom t marg ev opt fuel s = some (.done r s') := by
  have key : ∀ fuel i Go u s, P s → i ≤ opt.iMax → opt.iMax + 1 ≤ fuel + i →
      ∃ r s', loop t marg ev opt fuel i Go u s = some (.done r s') := by
    intro fuel
    induction fuel with
    | zero => intros; omega
    | succ k ih =>
      intro i Go u s hs hi hf
      obtain ⟨s1, p, hp, hg, h1⟩ := hl s hs u
      have hit : (∃ r s', iteration t marg ev opt i Go u s = .done r s') ∨
          (i ≠ opt.iMax ∧ ∃ a b s', iteration t marg ev opt i Go u s = .next a b s' ∧ P s') := by
        unfold iteration
        rw [hp]
        simp only [if_neg hg]
        generalize (if i = 1 then p.G else Go) = G1
        split
        · exact Or.inl ⟨_, _, rfl⟩
        · next hc =>
          obtain ⟨s2, st, h2, h3⟩ := hst s1 h1 p.G p.gradient u (direction p.G p.gradient (alpha p.gradient) u)
          rw [h2]
          refine Or.inr ⟨?_, _, _, _, rfl, h3⟩
          rintro rfl
          simp at hc
      unfold loop
      rcases hit with ⟨r, s', h⟩ | ⟨hne, a, b, s', h, h'⟩
      · rw [h]; exact ⟨r, s', rfl⟩
      · rw [h]; exact ih _ _ _ _ h' (by omega) (by omega)
  exact key fuel 1 0 _ s hs hi (by omega)

/-- A correct derivative of an inverse function does not vanish. -/
theorem jac_ne_zero {m : Marginal} {S : Set ℝ} (hr : RoundTrip m S) (hj : JacobianCorrect m S) {u : ℝ}
    (hd : DifferentiableAt ℝ m.uToX u) : m.jac u (m.uToX u) ≠ 0 := by
  intro h0
  have h1 := hj _ (hr.mem u)
  rw [hr.left, h0] at h1
  have h2 := h1.comp u hd.hasDerivAt
  have h3 : m.xToU ∘ m.uToX = id := funext hr.left
  rw [h3] at h2
  have := h2.unique (hasDerivAt_id u)
  simp at this

end general

theorem convexOn_comp_affine (a b : ℝ) {h : ℝ → ℝ} (hc : ConvexOn ℝ univ h) : ConvexOn ℝ univ (fun u => h (u * a + b)) := by
  refine ⟨convex_univ, fun x _ y _ p q hp hq hpq => ?_⟩
  have := hc.2 (mem_univ (x * a + b)) (mem_univ (y * a + b)) hp hq hpq
  refine le_trans (le_of_eq ?_) this
  have hq' : q = 1 - p := by linarith
  subst hq'
  refine congrArg h ?_
  simp only [smul_eq_mul]
  ring

theorem normalOrLog_ok {k : Bool} {m : Marginal} (h : NormalOrLog k m) :
    ∃ S, IsOpen S ∧ RoundTrip m S ∧ JacobianCorrect m S ∧ (∀ u, DifferentiableAt ℝ m.uToX u) ∧ 0 < m.stdv ∧
      ConvexOn ℝ univ m.uToX ∧ (k = false → ConcaveOn ℝ univ m.uToX) := by
  cases h with
  | normal μ s sp hs hn =>
    obtain ⟨m', e, -, hst, -, h1, h2, -⟩ := (good_normal μ hs sp).ex
    rw [hn] at e; injection e with e; subst e
    have hu : m.uToX = fun u => u * s + μ := (normal_ok hn).1
    refine ⟨univ, isOpen_univ, h1, h2, ?_, by rw [hst]; exact hs, ?_, fun _ => ?_⟩
    · intro u; rw [hu]; fun_prop
    · rw [hu]; exact convexOn_comp_affine s μ (convexOn_id convex_univ)
    · rw [hu]
      have := (convexOn_comp_affine (-s) (-μ) (convexOn_id convex_univ)).neg
      refine this.congr fun u _ => ?_
      simp; ring
  | lognormal μ s sp hμ hs hn =>
    obtain ⟨m', e, -, hst, -, h1, h2, -⟩ := (good_lognormal hμ hs sp).ex
    rw [hn] at e; injection e with e; subst e
    have hu : m.uToX = fun u => Real.exp (u * (Lognormal.params μ s).2 + (Lognormal.params μ s).1) := by
      unfold Lognormal.new at hn
      simp only [Bool.false_eq_true, if_false] at hn
      unfold Lognormal.ofParams at hn
      dsimp only at hn
      split at hn
      · cases hn
      · injection hn with hn; rw [← hn]; rfl
    refine ⟨Ioi 0, isOpen_Ioi, h1, h2, ?_, by rw [hst]; exact hs, ?_, fun h => by cases h⟩
    · intro u; rw [hu]; fun_prop
    · rw [hu]; exact convexOn_comp_affine _ _ convexOn_exp

/-- An affine function of the physical variables is convex in the standard normal ones if every variable is a convex function of its
normal score and has a coefficient that is nonnegative, or is an affine one. -/
theorem affine_convex {t : Mats n} {marg : Fin n → Marginal} {k : Fin n → Bool} (hk : ∀ i, NormalOrLog (k i) (marg i)) (a0 : ℝ)
    (a : Fin n → ℝ) (ha : ∀ i, k i = true → 0 ≤ a i) : ConvexOn ℝ univ (fun u => a0 + ∑ i, a i * uToX t marg u i) := by
  have h1 : ∀ i, ConvexOn ℝ univ (fun u : Fin n → ℝ => a i * uToX t marg u i) := by
    intro i
    obtain ⟨S, -, -, -, -, -, hc, hc'⟩ := normalOrLog_ok (hk i)
    have hlin : ∀ {h : ℝ → ℝ}, ConvexOn ℝ univ h → ConvexOn ℝ univ (fun u : Fin n → ℝ => h (t.invT.mulVec u i)) := by
      intro h hh
      refine ⟨convex_univ, fun x _ y _ p q hp hq hpq => ?_⟩
      have := hh.2 (mem_univ (t.invT.mulVec x i)) (mem_univ (t.invT.mulVec y i)) hp hq hpq
      refine le_trans (le_of_eq ?_) this
      refine congrArg h ?_
      rw [mulVec_add, mulVec_smul, mulVec_smul]
      rfl
    cases hki : k i with
    | true => exact (hlin hc).smul (ha i hki)
    | false =>
      rcases le_total 0 (a i) with h0 | h0
      · exact (hlin hc).smul h0
      · have := (hlin (hc' hki).neg).smul (neg_nonneg.2 h0)
        refine this.congr fun u _ => ?_
        simp only [Pi.neg_apply, smul_eq_mul, uToX]
        ring
  have h2 : ConvexOn ℝ univ (fun u : Fin n → ℝ => ∑ i, a i * uToX t marg u i) := by
    have : ∀ A : Finset (Fin n), ConvexOn ℝ univ (fun u : Fin n → ℝ => ∑ i ∈ A, a i * uToX t marg u i) := by
      intro A
      induction A using Finset.cons_induction with
      | empty => simpa using convexOn_const (0 : ℝ) convex_univ
      | cons i A hi ih =>
        simp only [Finset.sum_cons]
        exact (h1 i).add ih
    exact this Finset.univ
  exact (convexOn_const a0 convex_univ).add h2

theorem affine_concave {t : Mats n} {marg : Fin n → Marginal} {k : Fin n → Bool} (hk : ∀ i, NormalOrLog (k i) (marg i)) (a0 : ℝ)
    (a : Fin n → ℝ) (ha : ∀ i, k i = true → a i ≤ 0) : ConcaveOn ℝ univ (fun u => a0 + ∑ i, a i * uToX t marg u i) := by
  have := (affine_convex (t := t) hk (-a0) (-a) (fun i h => by have := ha i h; simp only [Pi.neg_apply]; linarith)).neg
  refine this.congr fun u _ => ?_
  simp only [Pi.neg_apply, neg_mul, Finset.sum_neg_distrib]
  ring

/-- C96 for the code's finite-difference gradients: the model's variables are normal and lognormal, with any correlation, and the
user's function is affine in them (constants may enter in any way).  FORM ends with a result, with the Armijo rule or with a fixed step.
If no lognormal variable has a negative coefficient, the probability of failure is at most `Φ(-(β + G/‖∇‖))`, and at most the
reported one when `G ≥ 0` at the design point; if no lognormal variable has a positive coefficient, as for a resistance that is normal
and loads that are lognormal, it is at least that number, and at least the reported one when `G ≤ 0` at the design point.  When the
iteration limit was not hit, `|G|` is below the tolerance. -/
theorem C96_affine {D : Type} {la : LinAlg} (hla : LinAlgOK la) {ty : TransformType} {Ro : Matrix (Fin n) (Fin n) ℝ}
    (hR : Ro.PosDef) {t : Mats n} (ht : Transformation.compute la ty Ro = .ok t) {marg : Fin n → Marginal} {k : Fin n → Bool}
    (hk : ∀ i, NormalOrLog (k i) (marg i)) {expr : Kwargs → GRet} {g : Dict String ℝ → ℝ}
    (hp : Pointwise expr g) (lo : LSOptions) (hbs : 1 ≤ lo.blockSize) (hpara : lo.ffdpara ≠ 0) (hmp : lo.multiProc ≠ 0)
    (hd1 : lo.diffMode ≠ "no") (hd2 : lo.diffMode ≠ "ddm") (ev : Ev D) (hmod : Reachable ev.model)
    (hn : ev.model.nMarg ≤ n) (hne : ev.model.getNames ≠ []) (a0 : ℝ) (a : Fin n → ℝ) (ha : a ≠ 0)
    (haff : ∀ p : Fin n → ℝ, g (pointArgs ev.model p) = a0 + ∑ i, a i * p i)
    (opt : Form.Options) (hst : opt.stepSize ≠ 0 ∨ opt.multiProc = 1) (hi : 1 ≤ opt.iMax) (fuel : ℕ) (hf : opt.iMax ≤ fuel) :
    ∃ r ev', runFrom t marg (lsEvaluator expr lo (fun i => (marg i).stdv)) opt fuel ev = some (.done r ev') ∧
      r.point.G = g (pointArgs ev.model r.point.x) ∧
      (r.i ≠ opt.iMax → |r.point.G| < opt.e1 * |r.Go|) ∧
      ((∀ i, k i = true → 0 ≤ a i) →
        (stdGauss n).real {u | g (pointArgs ev.model (uToX t marg u)) ≤ 0} ≤
          StdNormal.cdf (-(r.beta + r.point.G / len r.point.gradient)) ∧
        (0 ≤ r.point.G → (stdGauss n).real {u | g (pointArgs ev.model (uToX t marg u)) ≤ 0} ≤ r.Pf)) ∧
      ((∀ i, k i = true → a i ≤ 0) →
        StdNormal.cdf (-(r.beta + r.point.G / len r.point.gradient)) ≤
          (stdGauss n).real {u | g (pointArgs ev.model (uToX t marg u)) ≤ 0} ∧
        (r.point.G ≤ 0 → r.Pf ≤ (stdGauss n).real {u | g (pointArgs ev.model (uToX t marg u)) ≤ 0})) := by
  choose S hS hmarg hj hdiff hsd _ _ using fun i => normalOrLog_ok (hk i)
  have hex := ffd_exact hp lo hbs hpara hmp hd1 hd2 (fun i => (marg i).stdv) (fun j => (hsd j).ne') ev.model hmod hn hne a0 a haff
  have hval : Values (lsEvaluator expr lo (fun i => (marg i).stdv)) (fun ev' : Ev D => ∃ k, ev'.model = ev.model.addCallFunction k)
      (fun x => a0 + ∑ i, a i * x i) := by
    have := ls_values hp lo hbs hmp (fun i => (marg i).stdv) ev.model hmod hn hne
    simpa only [haff] using this
  have hf' : ∀ x : Fin n → ℝ, (∀ i, x i ∈ S i) → HasFDerivAt (fun x : Fin n → ℝ => a0 + ∑ i, a i * x i) (gradMap a) x := by
    intro x _
    have h := (gradMap a).hasFDerivAt (x := x)
    have e : (fun x : Fin n → ℝ => a0 + ∑ i, a i * x i) = fun x => a0 + gradMap a x := funext fun x => by rw [gradMap_apply]
    rw [e]
    exact h.const_add a0
  have hv : ∀ s xs s' Gs, (∃ k, s.model = ev.model.addCallFunction k) →
      (lsEvaluator expr lo (fun i => (marg i).stdv)).values s xs = (s', .ok Gs) → ∃ k, s'.model = ev.model.addCallFunction k := by
    intro s xs s' Gs hs he
    obtain ⟨s1, h, hp⟩ := hval s hs xs
    rw [h] at he
    cases he
    exact hp
  have hjac : ∀ u i, (marg i).jac ((t.invT.mulVec u) i) (uToX t marg u i) ≠ 0 := fun u i =>
    jac_ne_zero (hmarg i) (hj i) (hdiff i _)
  obtain ⟨r, ev', hrun⟩ : ∃ r ev', runFrom t marg (lsEvaluator expr lo (fun i => (marg i).stdv)) opt fuel ev = some (.done r ev') := by
    refine run_finishes (P := fun ev' : Ev D => ∃ k, ev'.model = ev.model.addCallFunction k) ?_ ?_ hi hf ⟨0, rfl⟩
    · intro s hs u
      obtain ⟨Ji, hJ⟩ := (C23_chain_rule ht marg S hmarg hS hj u).1.2 (hjac u)
      obtain ⟨s1, xa, he, hP⟩ := hex s hs (uToX t marg u)
      refine ⟨s1, _, by unfold linearise; dsimp only; rw [hJ, he], ?_, hP⟩
      dsimp only
      intro h0
      apply ha
      have hu : Ji * jacobian t marg u (uToX t marg u) = 1 := (npInv_ok hJ).1
      have : vecMul (vecMul a Ji) (jacobian t marg u (uToX t marg u)) = a := by rw [vecMul_vecMul, hu, vecMul_one]
      rw [← this, h0, zero_vecMul]
    · intro s hs G gr u d
      unfold getStepSize
      split
      · next h0 =>
        unfold computeStepSize
        dsimp only
        rw [if_pos (hst.resolve_left (not_not.2 h0))]
        obtain ⟨s1, he, hP⟩ := hval s hs ((List.range 6).map (fun j => uToX t marg (fun i => u i * 1 + d i * 0.5 ^ j)))
        rw [he]
        exact ⟨_, _, rfl, hP⟩
      · exact ⟨_, _, rfl, hs⟩
  obtain ⟨hx, -, -, -, -, -, -, -, htol⟩ := C29_identities hrun
  have hG : r.point.G = g (pointArgs ev.model r.point.x) := by
    rw [(result_exact ht hmarg hS hj hf' hex hv ⟨0, rfl⟩ hrun).2.1, hx, haff]
  refine ⟨r, ev', hrun, hG, fun h => (htol h).1, fun h => ?_, fun h => ?_⟩
  · have := C96_convex ht hmarg hS hj hf' (affine_convex hk a0 a h) hex hv ⟨0, rfl⟩ hrun
    simp only [← haff] at this
    exact ⟨this.1, fun h0 => this.2 (by rw [← hG]; exact h0)⟩
  · have := C96_concave ht hmarg hS hj hf' (affine_concave hk a0 a h) hex hv ⟨0, rfl⟩ hrun
    simp only [← haff] at this
    exact ⟨this.1, fun h0 => this.2 (by rw [← hG]; exact h0)⟩

/-- C96 for gradients supplied by the user (mode `ddm`): normal variables with any correlation, and a limit state that is a
differentiable function of them of which the user's function returns the value and the gradient.  Whatever the options, a result that
FORM reports bounds the probability of failure from above if the limit state is convex and from below if it is concave. -/
theorem C96_ddm {D : Type} {la : LinAlg} {ty : TransformType} {Ro : Matrix (Fin n) (Fin n) ℝ} {t : Mats n}
    (ht : Transformation.compute la ty Ro = .ok t) {marg : Fin n → Marginal} (hk : ∀ i, NormalOrLog false (marg i))
    {expr : Kwargs → GRet} (lo : LSOptions) (hmp : lo.multiProc ≠ 0) (hd : lo.diffMode = "ddm") (stdv : Fin n → ℝ) (ev : Ev D)
    (f : (Fin n → ℝ) → ℝ) (grad : (Fin n → ℝ) → Fin n → ℝ) (hf : ∀ x, HasFDerivAt f (gradMap (grad x)) x)
    (hr : ∀ x, ∃ kw, LimitState.inpdict ev.model [x] = .ok kw ∧ expr kw = .tuple [.arr [f x], .arr (List.ofFn (grad x))])
    (opt : Form.Options) {fuel : ℕ} {ev' : Ev D} {r : Result n}
    (h : runFrom t marg (lsEvaluator expr lo stdv) opt fuel ev = some (.done r ev')) :
    r.point.G = f r.point.x ∧
    (ConvexOn ℝ univ f →
      (stdGauss n).real {u | f (uToX t marg u) ≤ 0} ≤ StdNormal.cdf (-(r.beta + r.point.G / len r.point.gradient)) ∧
      (0 ≤ r.point.G → (stdGauss n).real {u | f (uToX t marg u) ≤ 0} ≤ r.Pf)) ∧
    (ConcaveOn ℝ univ f →
      StdNormal.cdf (-(r.beta + r.point.G / len r.point.gradient)) ≤ (stdGauss n).real {u | f (uToX t marg u) ≤ 0} ∧
      (r.point.G ≤ 0 → r.Pf ≤ (stdGauss n).real {u | f (uToX t marg u) ≤ 0})) := by
  choose S hS hmarg hj hdiff hsd _ _ using fun i => normalOrLog_ok (hk i)
  have hex : Exact (lsEvaluator expr lo stdv) (fun e : Ev D => ∃ k, e.model = ev.model.addCallFunction k) f grad := by
    intro s hs x
    obtain ⟨s', h1, h2⟩ := C48_ddm lo hmp hd stdv ev.model f grad hr s hs x
    exact ⟨s', x, h1, h2⟩
  have hv : ∀ s xs s' Gs, (∃ k, s.model = ev.model.addCallFunction k) →
      (lsEvaluator expr lo stdv).values s xs = (s', .ok Gs) → ∃ k, s'.model = ev.model.addCallFunction k := by
    rintro s xs s' Gs ⟨k, hk⟩ he
    rw [values_calls he, hk]
    exact ⟨_, addCall_addCall _ _ _⟩
  obtain ⟨hx, -⟩ := C29_identities h
  have hG : r.point.G = f r.point.x := by
    rw [(result_exact ht hmarg hS hj (fun x _ => hf x) hex hv ⟨0, rfl⟩ h).2.1, hx]
  have hlin : ∀ p q : ℝ, ∀ x y : Fin n → ℝ, p + q = 1 → uToX t marg (p • x + q • y) = p • uToX t marg x + q • uToX t marg y := by
    intro p q x y hpq
    funext i
    obtain ⟨μ, s, hu⟩ : ∃ μ s : ℝ, (marg i).uToX = fun u => u * s + μ := by
      cases hk i with
      | normal μ s sp hs hn => exact ⟨μ, s, (normal_ok hn).1⟩
    have hq : q = 1 - p := by linarith
    subst hq
    simp only [uToX, hu, Pi.add_apply, Pi.smul_apply, mulVec_add, mulVec_smul, smul_eq_mul]
    ring
  refine ⟨hG, fun hc => ?_, fun hc => ?_⟩
  · have hc' : ConvexOn ℝ univ (fun u => f (uToX t marg u)) := by
      refine ⟨convex_univ, fun x _ y _ p q hp hq hpq => ?_⟩
      have := hc.2 (mem_univ (uToX t marg x)) (mem_univ (uToX t marg y)) hp hq hpq
      dsimp only
      rw [hlin p q x y hpq]
      exact this
    have := C96_convex ht hmarg hS hj (fun x _ => hf x) hc' hex hv ⟨0, rfl⟩ h
    exact ⟨this.1, fun h0 => this.2 (by rw [← hG]; exact h0)⟩
  · have hc' : ConcaveOn ℝ univ (fun u => f (uToX t marg u)) := by
      refine ⟨convex_univ, fun x _ y _ p q hp hq hpq => ?_⟩
      have := hc.2 (mem_univ (uToX t marg x)) (mem_univ (uToX t marg y)) hp hq hpq
      dsimp only
      rw [hlin p q x y hpq]
      exact this
    have := C96_concave ht hmarg hS hj (fun x _ => hf x) hc' hex hv ⟨0, rfl⟩ h
    exact ⟨this.1, fun h0 => this.2 (by rw [← hG]; exact h0)⟩

end Pystra.Props
