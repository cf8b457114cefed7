import Verif.Spec.Marginal
import Verif.Lemmas.StdNormal
import Mathlib.MeasureTheory.Integral.IntegralEqImproper
import Mathlib.MeasureTheory.Integral.Gamma
import Mathlib.MeasureTheory.Function.JacobianOneDim
import Mathlib.Analysis.SpecialFunctions.Pow.Deriv
import Mathlib.Probability.Distributions.Beta
import Mathlib.MeasureTheory.Integral.Prod

/-! Regularity of the frozen distributions. -/

namespace Pystra
open Real MeasureTheory Set Filter Topology

/-- A frozen distribution that is a well-behaved continuous law on the open set `S`. -/
structure Regular (f : Frozen) (S : Set ℝ) : Prop where
  mem01 : ∀ x ∈ S, 0 < f.cdf x ∧ f.cdf x < 1
  mono : StrictMonoOn f.cdf S
  inv : ∀ p, 0 < p → p < 1 → f.ppf p ∈ S ∧ f.cdf (f.ppf p) = p
  deriv : ∀ x ∈ S, HasDerivAt f.cdf (f.pdf x) x

namespace Regular
variable {f : Frozen} {S : Set ℝ}

theorem ppf_cdf (h : Regular f S) {x : ℝ} (hx : x ∈ S) : f.ppf (f.cdf x) = x := by
  obtain ⟨h0, h1⟩ := h.mem01 x hx
  obtain ⟨hm, he⟩ := h.inv _ h0 h1
  exact h.mono.injOn hm hx he

theorem locScale (h : Regular f S) (loc : ℝ) {scale : ℝ} (hs : 0 < scale) :
    Regular (f.locScale loc scale) {x | (x - loc) / scale ∈ S} where
  mem01 x hx := h.mem01 _ hx
  mono x hx y hy hxy := h.mono hx hy (by
    have : x - loc < y - loc := by linarith
    exact div_lt_div_of_pos_right this hs)
  inv p h0 h1 := by
    obtain ⟨a, b⟩ := h.inv p h0 h1
    have e : (loc + scale * f.ppf p - loc) / scale = f.ppf p := by field_simp; ring
    refine ⟨?_, ?_⟩
    · simp only [Frozen.locScale, mem_ofPred_eq, e]; exact a
    · simp only [Frozen.locScale, e]; exact b
  deriv x hx := by
    have h1 : HasDerivAt (fun y => (y - loc) / scale) (1 / scale) x :=
      ((hasDerivAt_id x).sub_const loc).div_const scale
    have := (h.deriv _ hx).comp x h1
    simp only [Frozen.locScale]
    refine this.congr_deriv ?_
    ring

end Regular

/-- A marginal whose maps are `ppf ∘ Φ` and `Φ⁻¹ ∘ cdf` of a regular law. -/
theorem roundTrip_of_regular {f : Frozen} {S : Set ℝ} (h : Regular f S) (m : Marginal)
    (hx : ∀ u, m.uToX u = f.ppf (StdNormal.cdf u)) (hu : ∀ x ∈ S, m.xToU x = StdNormal.ppf (f.cdf x)) :
    Spec.RoundTrip m S := by
  have hmem : ∀ u, m.uToX u ∈ S := fun u => by
    rw [hx]; exact (h.inv _ (StdNormal.cdf_pos u) (StdNormal.cdf_lt_one u)).1
  have hleft : ∀ u, m.xToU (m.uToX u) = u := fun u => by
    rw [hu _ (hmem u), hx, (h.inv _ (StdNormal.cdf_pos u) (StdNormal.cdf_lt_one u)).2, StdNormal.ppf_cdf]
  have hmono : StrictMonoOn m.xToU S := fun x hxS y hyS hxy => by
    rw [hu x hxS, hu y hyS]
    exact StdNormal.strictMonoOn_ppf (h.mem01 x hxS) (h.mem01 y hyS) (h.mono hxS hyS hxy)
  refine ⟨hmem, hleft, ?_, ?_, hmono⟩
  · intro x hxS
    obtain ⟨h0, h1⟩ := h.mem01 x hxS
    rw [hx, hu x hxS, StdNormal.cdf_ppf h0 h1, h.ppf_cdf hxS]
  · intro u v huv
    by_contra hc
    rcases (not_lt.1 hc).eq_or_lt with e | e
    · have := congrArg m.xToU e
      rw [hleft, hleft] at this
      exact huv.ne this.symm
    · have := hmono (hmem v) (hmem u) e
      rw [hleft, hleft] at this
      exact absurd huv this.not_gt

theorem jacobian_of_regular {f : Frozen} {S : Set ℝ} (h : Regular f S) (hS : IsOpen S) (m : Marginal)
    (hu : ∀ x ∈ S, m.xToU x = StdNormal.ppf (f.cdf x))
    (hj : ∀ x ∈ S, ∀ u, m.jac u x = f.pdf x / StdNormal.pdf u) :
    Spec.JacobianCorrect m S := by
  intro x hx
  obtain ⟨h0, h1⟩ := h.mem01 x hx
  have hd := (StdNormal.hasDerivAt_ppf h0 h1).comp x (h.deriv x hx)
  have he : m.xToU =ᶠ[𝓝 x] (StdNormal.ppf ∘ f.cdf) := by
    filter_upwards [hS.mem_nhds hx] with y hy
    exact hu y hy
  refine (hd.congr_of_eventuallyEq he).congr_deriv ?_
  rw [hj x hx, hu x hx]
  rw [div_eq_inv_mul]

namespace Frozen

theorem regular_of_deriv {f : Frozen} {S : Set ℝ} (hconv : Convex ℝ S) (hopen : IsOpen S)
    (hd : ∀ x ∈ S, HasDerivAt f.cdf (f.pdf x) x) (hpos : ∀ x ∈ S, 0 < f.pdf x)
    (hm : ∀ x ∈ S, 0 < f.cdf x ∧ f.cdf x < 1)
    (hi : ∀ p, 0 < p → p < 1 → f.ppf p ∈ S ∧ f.cdf (f.ppf p) = p) : Regular f S where
  mem01 := hm
  mono := by
    apply strictMonoOn_of_deriv_pos hconv
    · exact fun x hx => (hd x hx).continuousAt.continuousWithinAt
    · intro x hx
      rw [hopen.interior_eq] at hx
      rw [(hd x hx).deriv]; exact hpos x hx
  inv := hi
  deriv := hd

theorem regular_gumbelR : Regular gumbelR univ := by
  apply regular_of_deriv convex_univ isOpen_univ
  · intro x _
    have h := ((hasDerivAt_exp (-exp (-x))).comp x (((hasDerivAt_exp (-x)).comp x (hasDerivAt_neg x)).neg))
    refine h.congr_deriv ?_
    simp only [gumbelR]
    rw [show -(x + exp (-x)) = -exp (-x) + -x by ring, exp_add]
    ring
  · intro x _; simp only [gumbelR]; positivity
  · intro x _
    simp only [gumbelR]
    exact ⟨exp_pos _, by rw [exp_lt_one_iff]; simp [exp_pos]⟩
  · intro p h0 h1
    refine ⟨trivial, ?_⟩
    have hl : 0 < -log p := by have := log_neg h0 h1; linarith
    simp only [gumbelR, neg_neg, exp_log hl, exp_log h0]

theorem regular_gumbelL : Regular gumbelL univ := by
  apply regular_of_deriv convex_univ isOpen_univ
  · intro x _
    have h := ((hasDerivAt_exp (-exp x)).comp x (hasDerivAt_exp x).neg).const_sub 1
    refine h.congr_deriv ?_
    simp only [gumbelL]
    rw [show x - exp x = -exp x + x by ring, exp_add]
    ring
  · intro x _; simp only [gumbelL]; positivity
  · intro x _
    simp only [gumbelL]
    have : exp (-exp x) < 1 := by rw [exp_lt_one_iff]; simp [exp_pos]
    have := exp_pos (-exp x)
    constructor <;> linarith
  · intro p h0 h1
    refine ⟨trivial, ?_⟩
    have hl : 0 < -log (1 - p) := by have := log_neg (x := 1 - p) (by linarith) (by linarith); linarith
    simp only [gumbelL, exp_log hl, neg_neg, exp_log (show 0 < 1 - p by linarith)]
    ring

theorem regular_uniform01 : Regular uniform01 (Ioo 0 1) := by
  have hc : ∀ x ∈ Ioo (0:ℝ) 1, uniform01.cdf x = x := fun x hx => by
    simp only [uniform01]; rw [min_eq_left hx.2.le, max_eq_right hx.1.le]
  apply regular_of_deriv (convex_Ioo 0 1) isOpen_Ioo
  · intro x hx
    have he : uniform01.cdf =ᶠ[𝓝 x] id := by
      filter_upwards [isOpen_Ioo.mem_nhds hx] with y hy using hc y hy
    refine ((hasDerivAt_id x).congr_of_eventuallyEq he).congr_deriv ?_
    simp [uniform01, hx.1.le, hx.2.le]
  · intro x hx
    simp [uniform01, hx.1.le, hx.2.le]
  · intro x hx; rw [hc x hx]; exact hx
  · intro p h0 h1
    exact ⟨⟨h0, h1⟩, hc p ⟨h0, h1⟩⟩

theorem regular_expon : Regular expon (Ioi 0) := by
  have hc : ∀ x ∈ Ioi (0:ℝ), expon.cdf x = 1 - exp (-x) := fun x hx => if_pos (le_of_lt hx)
  have hp : ∀ x ∈ Ioi (0:ℝ), expon.pdf x = exp (-x) := fun x hx => if_pos (le_of_lt hx)
  apply regular_of_deriv (convex_Ioi 0) isOpen_Ioi
  · intro x hx
    have he : expon.cdf =ᶠ[𝓝 x] (fun x => 1 - exp (-x)) := by
      filter_upwards [isOpen_Ioi.mem_nhds hx] with y hy using hc y hy
    have h := ((hasDerivAt_exp (-x)).comp x (hasDerivAt_neg x)).const_sub 1
    refine (HasDerivAt.congr_of_eventuallyEq h he).congr_deriv ?_
    rw [hp x hx]; ring
  · intro x hx; rw [hp x hx]; exact exp_pos _
  · intro x hx
    rw [hc x hx]
    have : exp (-x) < 1 := by rw [exp_lt_one_iff]; simpa using hx
    have := exp_pos (-x)
    constructor <;> linarith
  · intro p h0 h1
    have hl : 0 < -log (1 - p) := by have := log_neg (x := 1 - p) (by linarith) (by linarith); linarith
    refine ⟨hl, ?_⟩
    show expon.cdf (-log (1 - p)) = p
    rw [hc _ hl]
    simp only [neg_neg, exp_log (show 0 < 1 - p by linarith)]
    ring

theorem regular_rayleigh : Regular rayleigh (Ioi 0) := by
  have hc : ∀ x ∈ Ioi (0:ℝ), rayleigh.cdf x = 1 - exp (-x ^ 2 / 2) := fun x hx => if_pos (le_of_lt hx)
  have hp : ∀ x ∈ Ioi (0:ℝ), rayleigh.pdf x = x * exp (-x ^ 2 / 2) := fun x hx => if_pos (le_of_lt hx)
  apply regular_of_deriv (convex_Ioi 0) isOpen_Ioi
  · intro x hx
    have he : rayleigh.cdf =ᶠ[𝓝 x] (fun x => 1 - exp (-x ^ 2 / 2)) := by
      filter_upwards [isOpen_Ioi.mem_nhds hx] with y hy using hc y hy
    have h := ((hasDerivAt_exp (-x ^ 2 / 2)).comp x ((hasDerivAt_pow 2 x).neg.div_const 2)).const_sub 1
    refine (HasDerivAt.congr_of_eventuallyEq h he).congr_deriv ?_
    rw [hp x hx]; norm_num; ring
  · intro x hx; rw [hp x hx]; exact mul_pos hx (exp_pos _)
  · intro x hx
    rw [hc x hx]
    have : exp (-x ^ 2 / 2) < 1 := by
      rw [exp_lt_one_iff]
      have : 0 < x ^ 2 := pow_pos hx 2
      linarith
    have := exp_pos (-x ^ 2 / 2)
    constructor <;> linarith
  · intro p h0 h1
    have hl : 0 < -2 * log (1 - p) := by have := log_neg (x := 1 - p) (by linarith) (by linarith); linarith
    refine ⟨sqrt_pos.2 hl, ?_⟩
    show rayleigh.cdf √(-2 * log (1 - p)) = p
    rw [hc _ (sqrt_pos.2 hl)]
    rw [sq_sqrt hl.le, show -(-2 * log (1 - p)) / 2 = log (1 - p) by ring,
      exp_log (show 0 < 1 - p by linarith)]
    ring

theorem regular_weibullMin {c : ℝ} (hc0 : 0 < c) : Regular (weibullMin c) (Ioi 0) := by
  have hc : ∀ x ∈ Ioi (0:ℝ), (weibullMin c).cdf x = 1 - exp (-x ^ c) := fun x hx => if_pos hx
  have hp : ∀ x ∈ Ioi (0:ℝ), (weibullMin c).pdf x = c * x ^ (c - 1) * exp (-x ^ c) := fun x hx => if_pos hx
  apply regular_of_deriv (convex_Ioi 0) isOpen_Ioi
  · intro x hx
    have he : (weibullMin c).cdf =ᶠ[𝓝 x] (fun x => 1 - exp (-x ^ c)) := by
      filter_upwards [isOpen_Ioi.mem_nhds hx] with y hy using hc y hy
    have h := ((hasDerivAt_exp (-x ^ c)).comp x
      (hasDerivAt_rpow_const (p := c) (Or.inl (ne_of_gt hx))).neg).const_sub 1
    refine (HasDerivAt.congr_of_eventuallyEq h he).congr_deriv ?_
    rw [hp x hx]; ring
  · intro x hx; rw [hp x hx]; have := rpow_pos_of_pos hx (c - 1); positivity
  · intro x hx
    rw [hc x hx]
    have : exp (-x ^ c) < 1 := by
      rw [exp_lt_one_iff]
      have : 0 < x ^ c := rpow_pos_of_pos hx c
      linarith
    have := exp_pos (-x ^ c)
    constructor <;> linarith
  · intro p h0 h1
    have hl : 0 < -log (1 - p) := by have := log_neg (x := 1 - p) (by linarith) (by linarith); linarith
    have hx : 0 < (-log (1 - p)) ^ (1 / c) := rpow_pos_of_pos hl _
    refine ⟨hx, ?_⟩
    have : (weibullMin c).ppf p = (-log (1 - p)) ^ (1 / c) := rfl
    rw [this, hc _ hx, ← rpow_mul hl.le, one_div_mul_cancel hc0.ne', rpow_one, neg_neg,
      exp_log (show 0 < 1 - p by linarith)]
    ring

theorem regular_invweibull {c : ℝ} (hc0 : 0 < c) : Regular (invweibull c) (Ioi 0) := by
  have hc : ∀ x ∈ Ioi (0:ℝ), (invweibull c).cdf x = exp (-x ^ (-c)) := fun x hx => if_pos hx
  have hp : ∀ x ∈ Ioi (0:ℝ), (invweibull c).pdf x = c * x ^ (-c - 1) * exp (-x ^ (-c)) := fun x hx => if_pos hx
  apply regular_of_deriv (convex_Ioi 0) isOpen_Ioi
  · intro x hx
    have he : (invweibull c).cdf =ᶠ[𝓝 x] (fun x => exp (-x ^ (-c))) := by
      filter_upwards [isOpen_Ioi.mem_nhds hx] with y hy using hc y hy
    have h := ((hasDerivAt_exp (-x ^ (-c))).comp x
      (hasDerivAt_rpow_const (p := -c) (Or.inl (ne_of_gt hx))).neg)
    refine (HasDerivAt.congr_of_eventuallyEq h he).congr_deriv ?_
    rw [hp x hx]; ring
  · intro x hx; rw [hp x hx]; have := rpow_pos_of_pos hx (-c - 1); positivity
  · intro x hx
    rw [hc x hx]
    refine ⟨exp_pos _, ?_⟩
    rw [exp_lt_one_iff]
    have : 0 < x ^ (-c) := rpow_pos_of_pos hx _
    linarith
  · intro p h0 h1
    have hl : 0 < -log p := by have := log_neg h0 h1; linarith
    have hx : 0 < (-log p) ^ (-1 / c) := rpow_pos_of_pos hl _
    refine ⟨hx, ?_⟩
    have : (invweibull c).ppf p = (-log p) ^ (-1 / c) := rfl
    rw [this, hc _ hx, ← rpow_mul hl.le, show -1 / c * -c = 1 by field_simp, rpow_one, neg_neg,
      exp_log h0]

theorem regular_lognorm {s : ℝ} (hs : 0 < s) : Regular (lognorm s) (Ioi 0) := by
  have hc : ∀ x ∈ Ioi (0:ℝ), (lognorm s).cdf x = StdNormal.cdf (log x / s) := fun x hx => if_pos hx
  have hp : ∀ x ∈ Ioi (0:ℝ), (lognorm s).pdf x = StdNormal.pdf (log x / s) / (s * x) := fun x hx => by
    have : (0:ℝ) < x := hx
    simp only [lognorm, if_pos this, StdNormal.pdf]
    rw [show -0.5 * (log x / s) ^ 2 = -log x ^ 2 / (2 * s ^ 2) by field_simp; norm_num; ring]
    field_simp
  apply regular_of_deriv (convex_Ioi 0) isOpen_Ioi
  · intro x hx
    have he : (lognorm s).cdf =ᶠ[𝓝 x] (fun x => StdNormal.cdf (log x / s)) := by
      filter_upwards [isOpen_Ioi.mem_nhds hx] with y hy using hc y hy
    have h := (StdNormal.hasDerivAt_cdf (log x / s)).comp x ((hasDerivAt_log (ne_of_gt hx)).div_const s)
    refine (HasDerivAt.congr_of_eventuallyEq h he).congr_deriv ?_
    have : (0:ℝ) < x := hx
    rw [hp x hx]; field_simp
  · intro x hx
    rw [hp x hx]
    exact div_pos (StdNormal.pdf_pos _) (mul_pos hs hx)
  · intro x hx
    rw [hc x hx]
    exact ⟨StdNormal.cdf_pos _, StdNormal.cdf_lt_one _⟩
  · intro p h0 h1
    refine ⟨exp_pos _, ?_⟩
    show (lognorm s).cdf (exp (s * StdNormal.ppf p)) = p
    rw [hc _ (exp_pos _), log_exp, mul_div_cancel_left₀ _ hs.ne', StdNormal.cdf_ppf h0 h1]

end Frozen
end Pystra
