import Verif.Spec.SurfaceDistance
import Mathlib.Analysis.Calculus.Deriv.Prod
import Mathlib.Analysis.Calculus.Deriv.Mul
import Mathlib.Analysis.Calculus.Deriv.Inv
import Mathlib.Analysis.SpecialFunctions.Sqrt
import Mathlib.Topology.Compactness.Compact
import Mathlib.Topology.MetricSpace.ProperSpace

/-! The derivative of a minimum over a set that does not move (Danskin), without any smoothness of the minimiser. -/

namespace Pystra.Danskin
open Filter Topology Asymptotics

variable {X : Type*} [TopologicalSpace X] {θ : ℝ} {x0 : X}

/-- `F s x` changes with velocity `w` in `s`, uniformly for `x` near `x0`. -/
structure Rate (θ : ℝ) (x0 : X) (F : ℝ → X → ℝ) (w : ℝ) : Prop where
  cont : ContinuousAt (fun p : ℝ × X => F p.1 p.2) (θ, x0)
  rate : (fun p : ℝ × X => F p.1 p.2 - F θ p.2 - w * (p.1 - θ)) =o[𝓝 (θ, x0)] fun p => p.1 - θ

theorem Rate.base {F : ℝ → X → ℝ} {w : ℝ} (h : Rate θ x0 F w) : ContinuousAt (fun p : ℝ × X => F θ p.2) (θ, x0) := by
  have h1 : ContinuousAt (fun p : ℝ × X => (θ, p.2)) (θ, x0) := by fun_prop
  exact ContinuousAt.comp (f := fun p : ℝ × X => (θ, p.2)) (g := fun p : ℝ × X => F p.1 p.2) h.cont h1

theorem Rate.of_deriv {f : ℝ → ℝ} {w : ℝ} (h : HasDerivAt f w θ) : Rate θ x0 (fun s _ => f s) w := by
  constructor
  · exact ContinuousAt.comp (f := fun p : ℝ × X => p.1) (g := f) h.continuousAt continuousAt_fst
  · have h1 := (hasDerivAt_iff_isLittleO.1 h).comp_tendsto (k := fun p : ℝ × X => p.1) (l' := 𝓝 (θ, x0)) continuousAt_fst
    refine h1.congr (fun p => ?_) (fun p => rfl)
    simp [mul_comm]

theorem Rate.of_fixed {f : X → ℝ} (h : ContinuousAt f x0) : Rate θ x0 (fun _ x => f x) 0 := by
  constructor
  · exact ContinuousAt.comp (f := fun p : ℝ × X => p.2) (g := f) h continuousAt_snd
  · simpa using isLittleO_zero _ _

theorem Rate.add {F G : ℝ → X → ℝ} {v w : ℝ} (hF : Rate θ x0 F v) (hG : Rate θ x0 G w) :
    Rate θ x0 (fun s x => F s x + G s x) (v + w) := by
  constructor
  · exact hF.cont.add hG.cont
  · refine (hF.rate.add hG.rate).congr_left fun p => ?_
    ring

theorem Rate.sum {ι : Type*} (s : Finset ι) {F : ι → ℝ → X → ℝ} {w : ι → ℝ} (h : ∀ i ∈ s, Rate θ x0 (F i) (w i)) :
    Rate θ x0 (fun t x => ∑ i ∈ s, F i t x) (∑ i ∈ s, w i) := by
  classical
  induction s using Finset.induction_on with
  | empty => simpa using Rate.of_fixed (f := fun _ => (0:ℝ)) continuousAt_const
  | insert a s ha ih =>
    simp only [Finset.sum_insert ha]
    exact (h a (Finset.mem_insert_self _ _)).add (ih fun i hi => h i (Finset.mem_insert_of_mem hi))

theorem Rate.mul {F G : ℝ → X → ℝ} {v w : ℝ} (hF : Rate θ x0 F v) (hG : Rate θ x0 G w) :
    Rate θ x0 (fun s x => F s x * G s x) (v * G θ x0 + F θ x0 * w) := by
  constructor
  · exact hF.cont.mul hG.cont
  · have hGO : (fun p : ℝ × X => G p.1 p.2) =O[𝓝 (θ, x0)] fun _ => (1:ℝ) := hG.cont.tendsto.isBigO_one ℝ
    have hFO : (fun p : ℝ × X => F θ p.2) =O[𝓝 (θ, x0)] fun _ => (1:ℝ) := hF.base.tendsto.isBigO_one ℝ
    have hGc : (fun p : ℝ × X => v * (G p.1 p.2 - G θ x0)) =o[𝓝 (θ, x0)] fun _ => (1:ℝ) := by
      refine (isLittleO_one_iff ℝ).2 ?_
      have := (hG.cont.tendsto.sub_const (G θ x0)).const_mul v
      simpa using this
    have hFc : (fun p : ℝ × X => w * (F θ p.2 - F θ x0)) =o[𝓝 (θ, x0)] fun _ => (1:ℝ) := by
      refine (isLittleO_one_iff ℝ).2 ?_
      have := (hF.base.tendsto.sub_const (F θ x0)).const_mul w
      simpa using this
    have hid : (fun p : ℝ × X => p.1 - θ) =O[𝓝 (θ, x0)] fun p => p.1 - θ := isBigO_refl _ _
    have h1 := hF.rate.mul_isBigO hGO
    have h2 := hFO.mul_isLittleO hG.rate
    have h3 := hGc.mul_isBigO hid
    have h4 := hFc.mul_isBigO hid
    simp only [mul_one, one_mul] at h1 h2 h3 h4
    refine ((h1.add h2).add (h3.add h4)).congr_left fun p => ?_
    ring

theorem Rate.congr {F G : ℝ → X → ℝ} {w : ℝ} (h : Rate θ x0 F w)
    (he : ∀ᶠ p : ℝ × X in 𝓝 (θ, x0), F p.1 p.2 = G p.1 p.2) : Rate θ x0 G w := by
  have h1 : ContinuousAt (fun p : ℝ × X => (θ, p.2)) (θ, x0) := by fun_prop
  have he' : ∀ᶠ p : ℝ × X in 𝓝 (θ, x0), F θ p.2 = G θ p.2 := h1.eventually he
  constructor
  · exact h.cont.congr he
  · refine h.rate.congr' ?_ EventuallyEq.rfl
    filter_upwards [he, he'] with p hp hp'
    rw [hp, hp']

theorem Rate.comp {F : ℝ → X → ℝ} {w : ℝ} (h : Rate θ x0 F w) {f : ℝ → ℝ} {c : ℝ} (hf : HasStrictDerivAt f c (F θ x0)) :
    Rate θ x0 (fun s x => f (F s x)) (c * w) := by
  constructor
  · exact ContinuousAt.comp (f := fun p : ℝ × X => F p.1 p.2) (g := f) hf.hasDerivAt.continuousAt h.cont
  · have ht : Tendsto (fun p : ℝ × X => (F p.1 p.2, F θ p.2)) (𝓝 (θ, x0)) (𝓝 (F θ x0, F θ x0)) :=
      h.cont.tendsto.prodMk_nhds h.base.tendsto
    have h1 := hf.isLittleO.comp_tendsto ht
    have hO : (fun p : ℝ × X => F p.1 p.2 - F θ p.2) =O[𝓝 (θ, x0)] fun p => p.1 - θ := by
      have h2 := h.rate.isBigO.add (show (fun p : ℝ × X => w * (p.1 - θ)) =O[𝓝 (θ, x0)] fun p => p.1 - θ from
        (isBigO_refl _ _).const_mul_left w)
      refine h2.congr_left fun p => ?_
      ring
    have h3 := h1.trans_isBigO hO
    have h4 := h.rate.const_mul_left c
    refine (h3.add h4).congr_left fun p => ?_
    simp [Function.comp_def]
    ring

/-- At the point itself the velocity is the derivative. -/
theorem Rate.hasDerivAt {F : ℝ → X → ℝ} {w : ℝ} (h : Rate θ x0 F w) : HasDerivAt (fun s => F s x0) w θ := by
  have t1 : Tendsto (fun s : ℝ => (s, x0)) (𝓝 θ) (𝓝 (θ, x0)) := tendsto_id.prodMk_nhds tendsto_const_nhds
  rw [hasDerivAt_iff_isLittleO]
  refine (h.rate.comp_tendsto t1).congr (fun s => ?_) fun s => rfl
  simp [mul_comm]

/-- The value of a minimum over points `xs s` that minimise `f s` over `Ω` up to `(s - θ)^2`. -/
theorem value_hasDerivAt {f : ℝ → X → ℝ} {d : ℝ} (hr : Rate θ x0 f d) {b : ℝ → ℝ} {xs : ℝ → X} (hb0 : b θ = f θ x0)
    (hup : ∀ᶠ s in 𝓝 θ, b s ≤ f s x0) (hlow : ∀ᶠ s in 𝓝 θ, f s (xs s) ≤ b s + (s - θ) ^ 2)
    (hmin : ∀ᶠ s in 𝓝 θ, f θ x0 ≤ f θ (xs s)) (hxs : Tendsto xs (𝓝 θ) (𝓝 x0)) : HasDerivAt b d θ := by
  rw [hasDerivAt_iff_isLittleO, isLittleO_iff]
  intro ε hε
  have hr' := isLittleO_iff.1 hr.rate (half_pos hε)
  have t1 : Tendsto (fun s : ℝ => (s, x0)) (𝓝 θ) (𝓝 (θ, x0)) := by
    exact (tendsto_id).prodMk_nhds tendsto_const_nhds
  have t2 : Tendsto (fun s : ℝ => (s, xs s)) (𝓝 θ) (𝓝 (θ, x0)) := by
    exact (tendsto_id).prodMk_nhds hxs
  have hsm : ∀ᶠ s in 𝓝 θ, |s - θ| < ε / 2 := by
    have : Tendsto (fun s : ℝ => |s - θ|) (𝓝 θ) (𝓝 |θ - θ|) := by
      apply Continuous.tendsto; fun_prop
    rw [sub_self, abs_zero] at this
    exact this.eventually_lt_const (half_pos hε)
  filter_upwards [t1.eventually hr', t2.eventually hr', hup, hlow, hmin, hsm] with s h1 h2 h3 h4 h5 h6
  simp only [Real.norm_eq_abs, smul_eq_mul] at h1 h2 ⊢
  rw [hb0]
  obtain ⟨-, h1b⟩ := abs_le.1 h1
  obtain ⟨h2a, -⟩ := abs_le.1 h2
  have hsq : (s - θ) ^ 2 ≤ ε / 2 * |s - θ| := by
    rw [← sq_abs, sq]
    exact mul_le_mul_of_nonneg_right h6.le (abs_nonneg _)
  have := mul_nonneg hε.le (abs_nonneg (s - θ))
  rw [abs_le]
  constructor <;> linarith

end Pystra.Danskin
