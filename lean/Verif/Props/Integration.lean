import Verif.Model.Integration
import Verif.Lemmas.StdNormal
import Verif.Props.Quadrature
import Mathlib.Probability.Distributions.Gaussian.Real
import Mathlib.Probability.Distributions.Gaussian.Basic
import Mathlib.Analysis.Calculus.Deriv.Inv
import Mathlib.Analysis.SpecialFunctions.ExpDeriv
import Mathlib.Analysis.SpecialFunctions.Sqrt

/-! C53, C54: the bivariate normal density and the correlation integral. -/

namespace Pystra.Props
open Real MeasureTheory Integration

/-- C53: the density inlined in `rho_integral` and `_phi2` are the same function. -/
theorem C53_inline (z1 z2 rho : ℝ) : phi2Inline z1 z2 rho = phi2 z1 z2 rho := by
  unfold phi2Inline phi2
  simp only
  rw [one_mul]
  congr 2
  rw [div_eq_mul_inv]
  ring

/-- The conditional density of `z2` given `z1`: normal with mean `m` and standard deviation `s`. -/
theorem scaled_pdf_eq (m : ℝ) {s : ℝ} (hs : 0 < s) (z : ℝ) :
    StdNormal.pdf ((z - m) / s) / s = ProbabilityTheory.gaussianPDFReal m (Real.toNNReal (s ^ 2)) z := by
  unfold StdNormal.pdf ProbabilityTheory.gaussianPDFReal
  rw [Real.coe_toNNReal _ (sq_nonneg s)]
  rw [Real.sqrt_mul (x := 2 * π) (by positivity) (s ^ 2), Real.sqrt_sq hs.le, div_div, div_eq_mul_inv, mul_comm]
  congr 2
  field_simp
  ring

theorem c_pos {rho : ℝ} (h : |rho| < 1) : 0 < 1 - rho ^ 2 := by
  have := (sq_lt_one_iff_abs_lt_one rho).2 h
  linarith

/-- C53: for `|rho| < 1`, `phi2` is the marginal density of `z1` times the conditional density of `z2`, normal with
mean `rho z1` and variance `1 - rho²`: this is the standard bivariate normal density. -/
theorem C53_density (z1 z2 : ℝ) {rho : ℝ} (h : |rho| < 1) :
    phi2 z1 z2 rho = StdNormal.pdf z1 * (StdNormal.pdf ((z2 - rho * z1) / √(1 - rho ^ 2)) / √(1 - rho ^ 2)) := by
  have hc := c_pos h
  have hs : 0 < √(1 - rho ^ 2) := Real.sqrt_pos.2 hc
  have e2 : √(1 - rho ^ 2) ^ 2 = 1 - rho ^ 2 := Real.sq_sqrt hc.le
  unfold phi2 StdNormal.pdf
  simp only
  have : √(2 * π) ^ 2 = 2 * π := Real.sq_sqrt (by positivity)
  have hp : 0 < √(2 * π) := by positivity
  have hexp : rexp (-(z1 ^ 2 - 2 * rho * z1 * z2 + z2 ^ 2) / (2 * (1 - rho ^ 2))) =
      rexp (-0.5 * z1 ^ 2) * rexp (-0.5 * ((z2 - rho * z1) / √(1 - rho ^ 2)) ^ 2) := by
    rw [← Real.exp_add, div_pow, e2]
    congr 1
    field_simp
    ring
  rw [hexp]
  calc _ = (√(2 * π) ^ 2 * √(1 - rho ^ 2))⁻¹ * (rexp (-0.5 * z1 ^ 2) * rexp (-0.5 * ((z2 - rho * z1) / √(1 - rho ^ 2)) ^ 2)) := by rw [this]
    _ = _ := by field_simp

/-- C53: symmetric in its arguments, positive for `|rho| < 1`. -/
theorem C53_symmetric (z1 z2 rho : ℝ) : phi2 z1 z2 rho = phi2 z2 z1 rho ∧ (|rho| < 1 → 0 < phi2 z1 z2 rho) := by
  constructor
  · unfold phi2
    simp only
    congr 3
    ring
  · intro h
    have := Real.sqrt_pos.2 (c_pos h)
    unfold phi2
    positivity

theorem integrable_std (m : ℝ) {s : ℝ} (hs : 0 < s) :
    Integrable (fun z => StdNormal.pdf ((z - m) / s) / s) ∧ ∫ z, StdNormal.pdf ((z - m) / s) / s = 1 ∧
    Integrable (fun z => z * (StdNormal.pdf ((z - m) / s) / s)) ∧ ∫ z, z * (StdNormal.pdf ((z - m) / s) / s) = m := by
  have hv : (Real.toNNReal (s ^ 2)) ≠ 0 := by
    exact (Real.toNNReal_pos.2 (by positivity)).ne'
  simp only [scaled_pdf_eq m hs]
  refine ⟨ProbabilityTheory.integrable_gaussianPDFReal _ _, ProbabilityTheory.integral_gaussianPDFReal_eq_one _ hv, ?_, ?_⟩
  · have h := (ProbabilityTheory.memLp_id_gaussianReal (μ := m) (v := (Real.toNNReal (s ^ 2))) 1).integrable le_rfl
    rw [ProbabilityTheory.gaussianReal_of_var_ne_zero _ hv] at h
    rw [integrable_withDensity_iff_integrable_smul' (by fun_prop)
      (Filter.Eventually.of_forall fun x => ProbabilityTheory.gaussianPDF_lt_top)] at h
    refine h.congr (Filter.Eventually.of_forall fun x => ?_)
    simp [ProbabilityTheory.toReal_gaussianPDF, mul_comm]
  · have h := ProbabilityTheory.integral_gaussianReal_eq_integral_smul (μ := m) hv (f := fun x => x)
    rw [ProbabilityTheory.integral_id_gaussianReal] at h
    refine Eq.trans ?_ h.symm
    congr 1
    funext z
    rw [smul_eq_mul, mul_comm]

/-- C53: integrating `z2` out leaves the standard normal density of `z1`, and the conditional mean of `z2` is
`rho z1`. -/
theorem C53_marginal (z1 : ℝ) {rho : ℝ} (h : |rho| < 1) :
    ∫ z2, phi2 z1 z2 rho = StdNormal.pdf z1 ∧ ∫ z2, z2 * phi2 z1 z2 rho = rho * z1 * StdNormal.pdf z1 := by
  have hs : 0 < √(1 - rho ^ 2) := Real.sqrt_pos.2 (c_pos h)
  obtain ⟨-, h2, -, h4⟩ := integrable_std (rho * z1) hs
  simp only [C53_density z1 _ h]
  constructor
  · rw [integral_const_mul, h2, mul_one]
  · have : ∀ z2, z2 * (StdNormal.pdf z1 * (StdNormal.pdf ((z2 - rho * z1) / √(1 - rho ^ 2)) / √(1 - rho ^ 2))) =
        StdNormal.pdf z1 * (z2 * (StdNormal.pdf ((z2 - rho * z1) / √(1 - rho ^ 2)) / √(1 - rho ^ 2))) :=
      fun z2 => by ring
    simp only [this]
    rw [integral_const_mul, h4]
    ring

/-- C53: total mass one, means zero, and the covariance of the two coordinates is `rho` (as iterated integrals). -/
theorem C53_correlation {rho : ℝ} (h : |rho| < 1) :
    ∫ z1, ∫ z2, phi2 z1 z2 rho = 1 ∧ ∫ z1, ∫ z2, z1 * z2 * phi2 z1 z2 rho = rho := by
  constructor
  · simp only [(C53_marginal _ h).1]
    exact StdNormal.integral_pdf
  · have e : ∀ z1, ∫ z2, z1 * z2 * phi2 z1 z2 rho = rho * (z1 ^ 2 * StdNormal.pdf z1) := by
      intro z1
      simp only [mul_assoc]
      rw [integral_const_mul, (C53_marginal z1 h).2]
      ring
    simp only [e]
    rw [integral_const_mul]
    have hvar : ∫ z, z ^ 2 * StdNormal.pdf z = 1 := by
      have h1 := ProbabilityTheory.variance_id_gaussianReal (μ := 0) (v := 1)
      rw [ProbabilityTheory.variance_eq_integral (by fun_prop)] at h1
      simp only [id_eq, ProbabilityTheory.integral_id_gaussianReal, sub_zero, NNReal.coe_one] at h1
      rw [ProbabilityTheory.integral_gaussianReal_eq_integral_smul one_ne_zero] at h1
      rw [← h1]
      congr 1
      funext z
      rw [smul_eq_mul, StdNormal.pdf_eq_gaussian, mul_comm]
    rw [hvar, mul_one]

/-- C53: the implemented `rho`-derivative is the derivative. -/
theorem C53_derivative (z1 z2 : ℝ) {rho : ℝ} (h : |rho| < 1) :
    HasDerivAt (fun r => phi2 z1 z2 r) (dphi2 z1 z2 rho (phi2 z1 z2 rho)) rho := by
  have hc := c_pos h
  have hs : 0 < √(1 - rho ^ 2) := Real.sqrt_pos.2 hc
  have e2 : √(1 - rho ^ 2) ^ 2 = 1 - rho ^ 2 := Real.sq_sqrt hc.le
  have dc : HasDerivAt (fun r : ℝ => 1 - r ^ 2) (-(2 * rho)) rho := by
    have := (hasDerivAt_pow 2 rho).const_sub 1
    simpa using this
  have ds : HasDerivAt (fun r : ℝ => √(1 - r ^ 2)) (-(2 * rho) / (2 * √(1 - rho ^ 2))) rho := dc.sqrt hc.ne'
  have d1 : HasDerivAt (fun r : ℝ => (2 * π * √(1 - r ^ 2))⁻¹)
      (-(2 * π * (-(2 * rho) / (2 * √(1 - rho ^ 2)))) / (2 * π * √(1 - rho ^ 2)) ^ 2) rho :=
    (ds.const_mul (2 * π)).fun_inv (by positivity)
  have dQ : HasDerivAt (fun r : ℝ => -(z1 ^ 2 - 2 * r * z1 * z2 + z2 ^ 2)) (2 * z1 * z2) rho := by
    have := ((((hasDerivAt_id rho).const_mul 2).mul_const z1).mul_const z2).const_sub (z1 ^ 2)
    have := (this.add_const (z2 ^ 2)).neg
    refine this.congr_deriv ?_
    ring
  have d2 := (dQ.fun_div (dc.const_mul 2) (by positivity)).exp
  have := d1.mul d2
  refine this.congr_deriv ?_
  unfold dphi2 phi2
  simp only
  have hK : -(2 * π * (-(2 * rho) / (2 * √(1 - rho ^ 2)))) / (2 * π * √(1 - rho ^ 2)) ^ 2 =
      (2 * π * √(1 - rho ^ 2))⁻¹ * (rho / (1 - rho ^ 2)) := by
    rw [← e2, Real.sqrt_sq hs.le]
    field_simp
  rw [hK]
  generalize rexp _ = E
  generalize (2 * π * √(1 - rho ^ 2))⁻¹ = K
  have := hc.ne'
  field_simp
  ring

open Finset in
/-- C54: the grid is the tensor product of the one-dimensional rule scaled to `[-zmax, zmax]`, mapped to physical
values by the marginals; `detJ = zmax²`. -/
theorem C54_grid (mi mj : Marginal) (zmax : ℝ) {k : ℕ} {x w : List ℝ}
    (hq : Quadrature.quadratureRule k = .ok (x, w)) :
    ∃ g, ziAndXi mi mj zmax k = .ok g ∧ g.nIP = k ∧ g.detJ = zmax ^ 2 ∧
      ∀ i j, g.Z1 i j = zmax * x.getD i 0 ∧ g.Z2 i j = zmax * x.getD j 0 ∧
        g.X1 i j = mi.uToX (g.Z1 i j) ∧ g.X2 i j = mj.uToX (g.Z2 i j) ∧ g.WIP i j = w.getD i 0 * w.getD j 0 := by
  unfold ziAndXi
  rw [hq]
  refine ⟨_, rfl, rfl, by ring, fun i j => ⟨by ring, by ring, rfl, rfl, rfl⟩⟩

open Finset in
/-- C54: `rho_integral` is the double quadrature sum of `h_i(z1) h_j(z2) phi2(z1, z2, rho0)`, where
`h(z) = (u_to_x(z) - mean)/stdv`, over `[-zmax, zmax]²`. -/
theorem C54_sum (mi mj : Marginal) (zmax rho0 : ℝ) {k : ℕ} {x w : List ℝ} {g : Grid}
    (hq : Quadrature.quadratureRule k = .ok (x, w)) (hg : ziAndXi mi mj zmax k = .ok g) :
    let h := fun (m : Marginal) (z : ℝ) => (m.uToX z - m.mean) / m.stdv
    rhoIntegral rho0 mi mj g = ∑ i ∈ range k, (zmax * w.getD i 0) * ∑ j ∈ range k, (zmax * w.getD j 0) *
      (h mi (zmax * x.getD i 0) * h mj (zmax * x.getD j 0) *
        phi2 (zmax * x.getD i 0) (zmax * x.getD j 0) rho0) := by
  intro h
  obtain ⟨g', hg', hn, hd, hz⟩ := C54_grid mi mj zmax hq
  rw [hg] at hg'
  injection hg' with hg'
  subst hg'
  unfold rhoIntegral gridSum
  rw [hn]
  refine sum_congr rfl fun i _ => ?_
  rw [mul_sum]
  refine sum_congr rfl fun j _ => ?_
  obtain ⟨h1, h2, h3, h4, h5⟩ := hz i j
  beta_reduce
  rw [C53_inline, h3, h4, h5, h1, h2, hd]
  simp only [h]
  ring

open Finset in
/-- C54: the integral does not depend on the order of the pair. -/
theorem C54_symmetric (mi mj : Marginal) (zmax rho0 : ℝ) {k : ℕ} {g g' : Grid}
    (hg : ziAndXi mi mj zmax k = .ok g) (hg' : ziAndXi mj mi zmax k = .ok g') :
    rhoIntegral rho0 mi mj g = rhoIntegral rho0 mj mi g' := by
  cases hq : Quadrature.quadratureRule k with
  | error e => unfold ziAndXi at hg; rw [hq] at hg; cases hg
  | ok r =>
    obtain ⟨x, w⟩ := r
    rw [C54_sum mi mj zmax rho0 hq hg, C54_sum mj mi zmax rho0 hq hg']
    simp only [mul_sum]
    rw [sum_comm]
    refine sum_congr rfl fun i _ => sum_congr rfl fun j _ => ?_
    rw [(C53_symmetric _ _ rho0).1]
    ring

open Finset in
/-- C54: `drho_drho0` is the derivative of `rho_integral` in `rho0`, on any grid. -/
theorem C54_derivative (mi mj : Marginal) (g : Grid) {rho0 : ℝ} (h : |rho0| < 1) :
    HasDerivAt (fun r => rhoIntegral r mi mj g) (drhoDrho0 rho0 mi mj g) rho0 := by
  unfold rhoIntegral drhoDrho0 gridSum
  refine HasDerivAt.fun_sum fun i _ => HasDerivAt.fun_sum fun j _ => ?_
  simp only [C53_inline]
  exact (((C53_derivative (g.Z1 i j) (g.Z2 i j) h).const_mul _).mul_const g.detJ).mul_const (g.WIP i j)

/-- One standardised value along a parameter path. -/
theorem std_hasDerivAt {x mu sig : ℝ → ℝ} {dx dmu dsig t : ℝ} (hx : HasDerivAt x dx t) (hm : HasDerivAt mu dmu t)
    (hs : HasDerivAt sig dsig t) (h0 : sig t ≠ 0) :
    HasDerivAt (fun s => (x s - mu s) / sig s) ((dx - dmu) / sig t - (x t - mu t) / sig t * dsig / sig t) t := by
  refine ((hx.sub hm).fun_div hs h0).congr_deriv ?_
  simp only [Pi.sub_apply]
  field_simp

open Finset in
/-- C54: implicit differentiation.  Let a parameter `θ` move the first distribution, let `rho0(θ)` keep the
correlation integral constant, and let the distribution report `dF`, `dmu`, `dsig` truthfully: at the quadrature
points `x(θ)` moves with velocity `-dF(x)/pdf(x)`, the mean with velocity `dmu` and the standard deviation with
velocity `dsig`.  If the density at the points is not below the clipping value and the denominator is not zero then
`rho0(θ)` moves with velocity `drho0_dtheta(…, var_idx = 0)`. -/
theorem C54_implicit_first (mi : ℝ → Marginal) (mj : Marginal) (zmax : ℝ) (k : ℕ) (g : ℝ → Grid) (rho0 : ℝ → ℝ)
    (t dmu dsig r' c : ℝ) (dF : ℝ → ℝ) (hg : ∀ s, ziAndXi (mi s) mj zmax k = .ok (g s))
    (hX : ∀ i j, i < k → j < k → HasDerivAt (fun s => (g s).X1 i j)
      (-dF ((g t).X1 i j) / (mi t).pdf ((g t).X1 i j)) t ∧ 1e-300 ≤ (mi t).pdf ((g t).X1 i j))
    (hmu : HasDerivAt (fun s => (mi s).mean) dmu t) (hsig : HasDerivAt (fun s => (mi s).stdv) dsig t)
    (h0 : (mi t).stdv ≠ 0) (hr : |rho0 t| < 1) (hr' : HasDerivAt rho0 r' t)
    (hconst : ∀ᶠ s in nhds t, rhoIntegral (rho0 s) (mi s) mj (g s) = c)
    (hden : drhoDrho0 (rho0 t) (mi t) mj (g t) ≠ 0) :
    r' = drho0Dtheta (rho0 t) (mi t) mj (g t) true dF dmu dsig := by
  cases hq : Quadrature.quadratureRule k with
  | error e => have := hg t; unfold ziAndXi at this; rw [hq] at this; cases this
  | ok r =>
    obtain ⟨x, w⟩ := r
    have G : ∀ s, (g s).nIP = k ∧ (g s).detJ = zmax ^ 2 ∧ ∀ i j, (g s).Z1 i j = zmax * x.getD i 0 ∧
        (g s).Z2 i j = zmax * x.getD j 0 ∧ (g s).X2 i j = mj.uToX (zmax * x.getD j 0) ∧
        (g s).WIP i j = w.getD i 0 * w.getD j 0 := by
      intro s
      obtain ⟨g', hg', hn, hd, hz⟩ := C54_grid (mi s) mj zmax hq
      rw [hg s] at hg'
      injection hg' with hg'
      rw [hg']
      refine ⟨hn, hd, fun i j => ?_⟩
      obtain ⟨a, b, -, c', d⟩ := hz i j
      exact ⟨a, b, by rw [c', b], d⟩
    -- the derivative of the integral along the path
    have key : HasDerivAt (fun s => rhoIntegral (rho0 s) (mi s) mj (g s))
        (gridSum k (fun i j =>
          (((-dF ((g t).X1 i j) / (mi t).pdf ((g t).X1 i j) - dmu) / (mi t).stdv -
              ((g t).X1 i j - (mi t).mean) / (mi t).stdv * dsig / (mi t).stdv) *
            (((g t).X2 i j - mj.mean) / mj.stdv) * phi2 ((g t).Z1 i j) ((g t).Z2 i j) (rho0 t) +
          (((g t).X1 i j - (mi t).mean) / (mi t).stdv) * (((g t).X2 i j - mj.mean) / mj.stdv) *
            (dphi2 ((g t).Z1 i j) ((g t).Z2 i j) (rho0 t) (phi2 ((g t).Z1 i j) ((g t).Z2 i j) (rho0 t)) * r')) *
          (g t).detJ * (g t).WIP i j)) t := by
      have e : (fun s => rhoIntegral (rho0 s) (mi s) mj (g s)) = fun s => ∑ i ∈ range k, ∑ j ∈ range k,
          (((g s).X1 i j - (mi s).mean) / (mi s).stdv) * (((g t).X2 i j - mj.mean) / mj.stdv) *
            phi2 ((g t).Z1 i j) ((g t).Z2 i j) (rho0 s) * (g t).detJ * (g t).WIP i j := by
        funext s
        unfold rhoIntegral gridSum
        rw [(G s).1]
        refine sum_congr rfl fun i _ => sum_congr rfl fun j _ => ?_
        obtain ⟨-, a, b⟩ := G s
        obtain ⟨-, a', b'⟩ := G t
        beta_reduce
        rw [C53_inline, a, a', (b i j).1, (b' i j).1, (b i j).2.1, (b' i j).2.1, (b i j).2.2.1, (b' i j).2.2.1,
          (b i j).2.2.2, (b' i j).2.2.2]
      rw [e]
      unfold gridSum
      refine HasDerivAt.fun_sum fun i hi => HasDerivAt.fun_sum fun j hj => ?_
      have hstd := std_hasDerivAt (hX i j (mem_range.1 hi) (mem_range.1 hj)).1 hmu hsig h0
      have hphi : HasDerivAt (fun s => phi2 ((g t).Z1 i j) ((g t).Z2 i j) (rho0 s))
          (dphi2 ((g t).Z1 i j) ((g t).Z2 i j) (rho0 t) (phi2 ((g t).Z1 i j) ((g t).Z2 i j) (rho0 t)) * r') t :=
        HasDerivAt.comp t (C53_derivative _ _ hr) hr'
      exact (((hstd.mul_const _).mul hphi).mul_const _).mul_const _
    have hz := key.unique ((hasDerivAt_const t c).congr_of_eventuallyEq hconst)
    -- split the sum
    have hnum : drho0Dtheta (rho0 t) (mi t) mj (g t) true dF dmu dsig = -(gridSum k (fun i j =>
        ((-dF ((g t).X1 i j) / (mi t).pdf ((g t).X1 i j) - dmu) / (mi t).stdv -
              ((g t).X1 i j - (mi t).mean) / (mi t).stdv * dsig / (mi t).stdv) *
            (((g t).X2 i j - mj.mean) / mj.stdv) * phi2 ((g t).Z1 i j) ((g t).Z2 i j) (rho0 t) *
          (g t).detJ * (g t).WIP i j)) / drhoDrho0 (rho0 t) (mi t) mj (g t) := by
      unfold drho0Dtheta drhoDrho0 gridSum
      simp only [if_true]
      rw [(G t).1]
      congr 2
      refine sum_congr rfl fun i hi => sum_congr rfl fun j hj => ?_
      rw [max_eq_left (hX i j (mem_range.1 hi) (mem_range.1 hj)).2]
    rw [hnum, eq_div_iff hden]
    have hsplit : gridSum k (fun i j =>
        ((-dF ((g t).X1 i j) / (mi t).pdf ((g t).X1 i j) - dmu) / (mi t).stdv -
              ((g t).X1 i j - (mi t).mean) / (mi t).stdv * dsig / (mi t).stdv) *
            (((g t).X2 i j - mj.mean) / mj.stdv) * phi2 ((g t).Z1 i j) ((g t).Z2 i j) (rho0 t) *
          (g t).detJ * (g t).WIP i j) + r' * drhoDrho0 (rho0 t) (mi t) mj (g t) = 0 := by
      rw [← hz]
      unfold drhoDrho0 gridSum
      rw [(G t).1, mul_sum, ← sum_add_distrib]
      refine sum_congr rfl fun i _ => ?_
      rw [mul_sum, ← sum_add_distrib]
      refine sum_congr rfl fun j _ => ?_
      ring
    linarith

theorem gridSum_swap (k : ℕ) (f : ℕ → ℕ → ℝ) : gridSum k f = gridSum k (fun i j => f j i) := by
  unfold gridSum; exact Finset.sum_comm

/-- Exchanging the two variables exchanges the coordinates of the grid. -/
theorem grid_swap (mi mj : Marginal) (zmax : ℝ) {k : ℕ} {g g' : Grid}
    (hg : ziAndXi mi mj zmax k = .ok g) (hg' : ziAndXi mj mi zmax k = .ok g') :
    g'.nIP = g.nIP ∧ g'.detJ = g.detJ ∧ ∀ i j, g'.Z1 i j = g.Z2 j i ∧ g'.Z2 i j = g.Z1 j i ∧ g'.X1 i j = g.X2 j i ∧
      g'.X2 i j = g.X1 j i ∧ g'.WIP i j = g.WIP j i := by
  cases hq : Quadrature.quadratureRule k with
  | error e => unfold ziAndXi at hg; rw [hq] at hg; cases hg
  | ok r =>
    unfold ziAndXi at hg hg'
    rw [hq] at hg hg'
    injection hg with hg
    injection hg' with hg'
    subst hg hg'
    exact ⟨rfl, rfl, fun i j => ⟨rfl, rfl, rfl, rfl, mul_comm _ _⟩⟩

theorem dphi2_symm (a b r p : ℝ) : dphi2 a b r p = dphi2 b a r p := by
  unfold dphi2; simp only; congr 2; ring

/-- C54: the same for a parameter of the second distribution (`var_idx = 1`). -/
theorem C54_implicit_second (mi : Marginal) (mj : ℝ → Marginal) (zmax : ℝ) (k : ℕ) (g : ℝ → Grid) (rho0 : ℝ → ℝ)
    (t dmu dsig r' c : ℝ) (dF : ℝ → ℝ) (hg : ∀ s, ziAndXi mi (mj s) zmax k = .ok (g s))
    (hX : ∀ i j, i < k → j < k → HasDerivAt (fun s => (g s).X2 i j)
      (-dF ((g t).X2 i j) / (mj t).pdf ((g t).X2 i j)) t ∧ 1e-300 ≤ (mj t).pdf ((g t).X2 i j))
    (hmu : HasDerivAt (fun s => (mj s).mean) dmu t) (hsig : HasDerivAt (fun s => (mj s).stdv) dsig t)
    (h0 : (mj t).stdv ≠ 0) (hr : |rho0 t| < 1) (hr' : HasDerivAt rho0 r' t)
    (hconst : ∀ᶠ s in nhds t, rhoIntegral (rho0 s) mi (mj s) (g s) = c)
    (hden : drhoDrho0 (rho0 t) mi (mj t) (g t) ≠ 0) :
    r' = drho0Dtheta (rho0 t) mi (mj t) (g t) false dF dmu dsig := by
  have hk : ∃ r, Quadrature.quadratureRule k = .ok r := by
    cases hq : Quadrature.quadratureRule k with
    | error e => have := hg t; unfold ziAndXi at this; rw [hq] at this; cases this
    | ok r => exact ⟨r, rfl⟩
  obtain ⟨⟨x, w⟩, hq⟩ := hk
  have hex : ∀ s, ∃ g', ziAndXi (mj s) mi zmax k = .ok g' := fun s =>
    (C54_grid (mj s) mi zmax hq).imp fun g' h => h.1
  choose g' hg' using hex
  have S := fun s => grid_swap mi (mj s) zmax (hg s) (hg' s)
  have hden' : drhoDrho0 (rho0 t) (mj t) mi (g' t) = drhoDrho0 (rho0 t) mi (mj t) (g t) := by
    obtain ⟨h1, h2, h3⟩ := S t
    unfold drhoDrho0
    rw [h1, gridSum_swap]
    congr 1
    funext i j
    obtain ⟨a, b, c', d, e⟩ := h3 j i
    simp only [a, b, c', d, e, h2]
    rw [dphi2_symm, (C53_symmetric ((g t).Z2 i j) ((g t).Z1 i j) _).1]
    ring
  have hfirst := C54_implicit_first mj mi zmax k g' rho0 t dmu dsig r' c dF hg' ?_ hmu hsig h0 hr hr' ?_ ?_
  · rw [hfirst]
    obtain ⟨h1, h2, h3⟩ := S t
    unfold drho0Dtheta
    simp only [if_true, Bool.false_eq_true, if_false]
    rw [h1, gridSum_swap, gridSum_swap (g t).nIP (fun i j =>
      (((g' t).X1 i j - (mj t).mean) / (mj t).stdv * (((g' t).X2 i j - mi.mean) / mi.stdv)) * _ * _ * _)]
    congr 2
    · unfold gridSum
      refine Finset.sum_congr rfl fun i _ => Finset.sum_congr rfl fun j _ => ?_
      obtain ⟨a, b, c', d, e⟩ := h3 j i
      beta_reduce
      rw [a, b, c', d, e, h2, (C53_symmetric ((g t).Z2 i j) ((g t).Z1 i j) _).1]
    · funext i j
      obtain ⟨a, b, c', d, e⟩ := h3 j i
      rw [a, b, c', d, e, h2, dphi2_symm, (C53_symmetric ((g t).Z2 i j) ((g t).Z1 i j) _).1]
      ring
  · intro i j hi hj
    have e : (fun s => (g' s).X1 i j) = fun s => (g s).X2 j i := by
      funext s; exact ((S s).2.2 i j).2.2.1
    rw [e, ((S t).2.2 i j).2.2.1]
    exact hX j i hj hi
  · filter_upwards [hconst] with s hs
    rw [← hs]
    exact (C54_symmetric mi (mj s) zmax (rho0 s) (hg s) (hg' s)).symm
  · rw [hden']; exact hden

set_option exponentiation.threshold 1000 in
theorem small_le_one : (1e-300 : ℝ) ≤ 1 := by norm_num

/-- The hypotheses of `C54_implicit_first` are met in a case with a nonzero answer: the one-point rule, a value
proportional to the parameter and `rho0(s) = √(1 - s²)`. -/
example : ∃ (mi : ℝ → Marginal) (mj : Marginal) (g : ℝ → Grid) (rho0 : ℝ → ℝ) (r' c : ℝ) (dF : ℝ → ℝ),
    (∀ s, ziAndXi (mi s) mj 6 1 = .ok (g s)) ∧
    (∀ i j, i < 1 → j < 1 → HasDerivAt (fun s => (g s).X1 i j)
      (-dF ((g (1/2)).X1 i j) / (mi (1/2)).pdf ((g (1/2)).X1 i j)) (1/2) ∧
        1e-300 ≤ (mi (1/2)).pdf ((g (1/2)).X1 i j)) ∧
    HasDerivAt (fun s => (mi s).mean) 0 (1/2) ∧ HasDerivAt (fun s => (mi s).stdv) 0 (1/2) ∧
    (mi (1/2)).stdv ≠ 0 ∧ |rho0 (1/2)| < 1 ∧ HasDerivAt rho0 r' (1/2) ∧
    (∀ᶠ s in nhds (1/2), rhoIntegral (rho0 s) (mi s) mj (g s) = c) ∧
    drhoDrho0 (rho0 (1/2)) (mi (1/2)) mj (g (1/2)) ≠ 0 ∧ r' ≠ 0 := by
  have hex : ∀ s : ℝ, ∃ g, ziAndXi ⟨0, 1, 0, fun _ => 1, fun _ => 0, fun _ => 0, fun _ => s, fun _ => 0, fun _ _ => 0⟩
      ⟨0, 1, 0, fun _ => 1, fun _ => 0, fun _ => 0, fun _ => 1, fun _ => 0, fun _ _ => 0⟩ 6 1 = .ok g ∧ g.nIP = 1 ∧
      g.detJ = 36 ∧ g.Z1 0 0 = 0 ∧ g.Z2 0 0 = 0 ∧ g.X1 0 0 = s ∧ g.X2 0 0 = 1 ∧ g.WIP 0 0 = 4 := by
    intro s
    obtain ⟨g, h1, h2, h3, h4⟩ := C54_grid
      ⟨0, 1, 0, fun _ => 1, fun _ => 0, fun _ => 0, fun _ => s, fun _ => 0, fun _ _ => 0⟩
      ⟨0, 1, 0, fun _ => 1, fun _ => 0, fun _ => 0, fun _ => 1, fun _ => 0, fun _ _ => 0⟩ 6 C55_one
    obtain ⟨a, b, c, d, e⟩ := h4 0 0
    refine ⟨g, h1, h2, by rw [h3]; norm_num, by rw [a]; simp, by rw [b]; simp, by rw [c], by rw [d], by rw [e]; norm_num⟩
  choose g hg hn hd hz1 hz2 hx1 hx2 hw using hex
  have hrho : |√(1 - (1/2 : ℝ) ^ 2)| < 1 := by
    rw [abs_of_nonneg (Real.sqrt_nonneg _), Real.sqrt_lt' one_pos]; norm_num
  refine ⟨_, _, g, fun s => √(1 - s ^ 2), -(2 * (1/2 : ℝ)) / (2 * √(1 - (1/2) ^ 2)), 36 * 4 / (2 * π), fun _ => -1,
    hg, ?_, hasDerivAt_const _ _, hasDerivAt_const _ _, one_ne_zero, hrho, ?_, ?_, ?_, ?_⟩
  · intro i j hi hj
    obtain rfl : i = 0 := by omega
    obtain rfl : j = 0 := by omega
    simp only [hx1]
    refine ⟨(hasDerivAt_id _).congr_deriv (by norm_num), small_le_one⟩
  · have : HasDerivAt (fun r : ℝ => 1 - r ^ 2) (-(2 * (1/2 : ℝ))) (1/2) := by
      have := (hasDerivAt_pow 2 (1/2 : ℝ)).const_sub 1
      simpa using this
    exact this.sqrt (by norm_num)
  · have : ∀ᶠ s : ℝ in nhds (1/2), s ∈ Set.Ioo (0:ℝ) 1 := Ioo_mem_nhds (by norm_num) (by norm_num)
    filter_upwards [this] with s hs
    unfold rhoIntegral gridSum
    simp only [hn, Finset.sum_range_one, hx1, hx2, hz1, hz2, hd, hw, C53_inline]
    unfold phi2
    have h1 : 0 ≤ 1 - s ^ 2 := by nlinarith [hs.1, hs.2]
    have h2 : √(1 - √(1 - s ^ 2) ^ 2) = s := by
      rw [Real.sq_sqrt h1, show 1 - (1 - s ^ 2) = s ^ 2 by ring, Real.sqrt_sq hs.1.le]
    simp only [h2]
    have := hs.1.ne'
    norm_num
    field_simp
    norm_num
  · unfold drhoDrho0 gridSum
    simp only [hn, Finset.sum_range_one, hx1, hx2, hz1, hz2, hd, hw]
    have hp : 0 < phi2 0 0 √(1 - (1/2 : ℝ) ^ 2) := (C53_symmetric 0 0 _).2 hrho
    have hs : 0 < √(1 - (1/2 : ℝ) ^ 2) := Real.sqrt_pos.2 (by norm_num)
    unfold dphi2
    have hc := c_pos hrho
    simp only
    have : 0 < (√(1 - (1/2 : ℝ) ^ 2) * (1 - √(1 - (1/2 : ℝ) ^ 2) ^ 2)) := by positivity
    have key : 0 < (1/2 - 0) / 1 * ((1 - 0) / 1) * (phi2 0 0 √(1 - (1/2 : ℝ) ^ 2) *
        (√(1 - (1/2 : ℝ) ^ 2) * (1 - √(1 - (1/2 : ℝ) ^ 2) ^ 2) + 0 * 0 * (1 + √(1 - (1/2 : ℝ) ^ 2) ^ 2) -
          √(1 - (1/2 : ℝ) ^ 2) * (0 ^ 2 + 0 ^ 2)) / (1 - √(1 - (1/2 : ℝ) ^ 2) ^ 2) ^ 2) * 36 * 4 := by
      rw [show (√(1 - (1/2 : ℝ) ^ 2) * (1 - √(1 - (1/2 : ℝ) ^ 2) ^ 2) + 0 * 0 * (1 + √(1 - (1/2 : ℝ) ^ 2) ^ 2) -
          √(1 - (1/2 : ℝ) ^ 2) * (0 ^ 2 + 0 ^ 2)) = √(1 - (1/2 : ℝ) ^ 2) * (1 - √(1 - (1/2 : ℝ) ^ 2) ^ 2) by ring]
      positivity
    exact key.ne'
  · have hs : 0 < √(1 - (1/2 : ℝ) ^ 2) := Real.sqrt_pos.2 (by norm_num)
    have : 0 < 2 * (1/2 : ℝ) / (2 * √(1 - (1/2) ^ 2)) := by positivity
    rw [neg_div]
    linarith

end Pystra.Props
