import Verif.Lemmas.Sensitivity
import Verif.Spec.SensitivityPath
import Verif.Props.Cholesky
import Verif.Props.Integration
import Verif.Props.CdfSens
import Mathlib.Analysis.Calculus.Deriv.Prod

/-! C50, C51: the closed-form sensitivities. -/

namespace Pystra.Props
open Spec Sensitivity Transformation Matrix Filter Topology CholeskySens

variable {n : ℕ}

/-- C51: the correlation sensitivities form a symmetric matrix with zero diagonal, whatever the distributions, the dimension, the
correlations and the FORM result. -/
theorem C51_shape (dist : Fin n → Dist) (names : Fin n → String) (R Ro : Matrix (Fin n) (Fin n) ℝ) (t : Mats n)
    (alpha u : Fin n → ℝ) (r : CfResult n) (h : cfSens dist names R Ro t alpha u = .ok r) :
    (∀ i j, r.correlation i j = r.correlation j i) ∧ (∀ i, r.correlation i i = 0) ∧
    ∀ i j, j < i → r.correlation i j = corrOne dist Ro t alpha u (gridOf (R i j) (dist i).marg (dist j).marg) i j := by
  unfold cfSens at h
  split at h
  · cases h
  · next m hm =>
    obtain ⟨C, h1, h2⟩ := corrLoop_eq dist R Ro t alpha u (Sensitivity.pairs n) (fun p hp => Sensitivity.mem_pairs.1 hp) 0
    rw [h1] at h
    injection h with h
    subst h
    simp only [Sensitivity.mem_pairs] at h2
    refine ⟨fun i j => ?_, fun i => by simp [h2], fun i j hij => by simp [h2, hij]⟩
    rcases lt_trichotomy i j with h | h | h
    · simp [h2, h, h.not_gt]
    · rw [h]
    · simp [h2, h, h.not_gt]

/-- How the standard-space image of a moving point moves when its distribution moves too. -/
theorem path_z {m : ℝ → Marginal} {θ : ℝ} {dF : ℝ → ℝ} {dmu dsig : ℝ} {S : Set ℝ} (hp : ParamPath m θ dF dmu dsig S)
    (hj : JacobianCorrect (m θ) S) (hS : IsOpen S) {x : ℝ → ℝ} {x' : ℝ} (hx : HasDerivAt x x' θ) (hxS : x θ ∈ S) :
    HasDerivAt (fun s => (m s).xToU (x s))
      ((m θ).jac ((m θ).xToU (x θ)) (x θ) * x' + dF (x θ) / StdNormal.pdf ((m θ).xToU (x θ))) θ := by
  set z := (m θ).xToU (x θ) with hz
  have hF0 : (m θ).cdf (x θ) = StdNormal.cdf z := ((hp.link _ hxS).self_of_nhds).symm
  have hppf : HasDerivAt StdNormal.ppf (StdNormal.pdf z)⁻¹ ((m θ).cdf (x θ)) := by
    have := StdNormal.hasDerivAt_ppf (StdNormal.cdf_pos z) (StdNormal.cdf_lt_one z)
    rw [StdNormal.ppf_cdf] at this
    rwa [hF0]
  have hcomp : HasFDerivAt (fun p : ℝ × ℝ => StdNormal.ppf ((m p.1).cdf p.2))
      ((StdNormal.pdf z)⁻¹ • (dF (x θ) • ContinuousLinearMap.fst ℝ ℝ ℝ + (m θ).pdf (x θ) • ContinuousLinearMap.snd ℝ ℝ ℝ))
      (θ, x θ) := HasDerivAt.comp_hasFDerivAt (θ, x θ) (f := fun p : ℝ × ℝ => (m p.1).cdf p.2) hppf (hp.cdf _ hxS)
  have hZ : HasFDerivAt (fun p : ℝ × ℝ => (m p.1).xToU p.2)
      ((StdNormal.pdf z)⁻¹ • (dF (x θ) • ContinuousLinearMap.fst ℝ ℝ ℝ + (m θ).pdf (x θ) • ContinuousLinearMap.snd ℝ ℝ ℝ))
      (θ, x θ) := by
    refine hcomp.congr_of_eventuallyEq ?_
    filter_upwards [hp.link _ hxS] with p hpp
    rw [← hpp, StdNormal.ppf_cdf]
  -- the partial derivative in x is the Jacobian
  have hjac : (m θ).jac z (x θ) = (StdNormal.pdf z)⁻¹ * (m θ).pdf (x θ) := by
    have h1 : HasDerivAt (fun y : ℝ => (θ, y)) (0, 1) (x θ) := (hasDerivAt_const _ _).prodMk (hasDerivAt_id _)
    have h2 := HasFDerivAt.comp_hasDerivAt (x θ) (f := fun y : ℝ => (θ, y)) hZ h1
    have h3 := hj _ hxS
    have := h3.unique h2
    rw [← hz] at this
    rw [this]
    simp
  have h1 : HasDerivAt (fun s : ℝ => (s, x s)) (1, x') θ := (hasDerivAt_id _).prodMk hx
  have h2 := HasFDerivAt.comp_hasDerivAt θ (f := fun s : ℝ => (s, x s)) hZ h1
  refine h2.congr_deriv ?_
  rw [hjac]
  simp
  ring

/-- The derivative of the FORM index in terms of the moving transformation: the motion of the design point along the surface does
not contribute. -/
theorem envelope {g : (Fin n → ℝ) → ℝ} {t : ℝ → Mats n} {marg : ℝ → Fin n → Marginal} {θ : ℝ} {x : ℝ → Fin n → ℝ} {β : ℝ → ℝ}
    {α : ℝ → Fin n → ℝ} (hd : DesignPath g t marg θ x β α) (hform : FormDirection g (t θ) (marg θ) (x θ) (α θ))
    (hinv : (t θ).invT * (t θ).T = 1) {dT : Matrix (Fin n) (Fin n) ℝ} {dz : Fin n → ℝ}
    (hT : ∀ i j, HasDerivAt (fun s => (t s).T i j) (dT i j) θ)
    (hz : ∀ x' : Fin n → ℝ, (∀ i, HasDerivAt (fun s => x s i) (x' i) θ) → ∀ i, HasDerivAt (fun s => (marg s i).xToU (x s i))
      ((marg θ i).jac ((marg θ i).xToU (x θ i)) (x θ i) * x' i + dz i) θ) :
    HasDerivAt β (α θ ⬝ᵥ (t θ).T *ᵥ dz + α θ ⬝ᵥ dT *ᵥ (fun i => (marg θ i).xToU (x θ i))) θ := by
  have hx : ∀ i, HasDerivAt (fun s => x s i) (deriv (fun s => x s i) θ) θ := fun i => (hd.smooth i).hasDerivAt
  set y : Fin n → ℝ := fun i => deriv (fun s => x s i) θ with hy
  have hzz := hz y hx
  set D : Fin n → ℝ := fun i => (marg θ i).jac ((marg θ i).xToU (x θ i)) (x θ i) with hD
  set z : Fin n → ℝ := fun i => (marg θ i).xToU (x θ i) with hzdef
  have hu : ∀ i, HasDerivAt (fun s => xToU (t s) (marg s) (x s) i)
      ((dT *ᵥ z + (t θ).T *ᵥ (fun j => D j * y j + dz j)) i) θ := by
    intro i
    have : HasDerivAt (fun s => ∑ j, (t s).T i j * (marg s j).xToU (x s j))
        (∑ j, (dT i j * z j + (t θ).T i j * (D j * y j + dz j))) θ :=
      HasDerivAt.fun_sum fun j _ => (hT i j).mul (hzz j)
    refine this.congr_deriv ?_
    simp [mulVec, dotProduct, Finset.sum_add_distrib]
  have hb := beta_hasDerivAt hu hd.polar hd.cont
  refine hb.congr_deriv ?_
  -- the contribution of the motion along the surface vanishes
  obtain ⟨grad, Ji, hg, hJi, hα⟩ := hform
  have hgx : grad ⬝ᵥ y = 0 := by
    have h1 : HasDerivAt (fun s => x s) y θ := hasDerivAt_pi.2 hx
    have h2 := HasFDerivAt.comp_hasDerivAt θ hg h1
    have h3 : HasDerivAt (g ∘ fun s => x s) 0 θ :=
      (hasDerivAt_const θ (0 : ℝ)).congr_of_eventuallyEq (hd.surface.mono fun s hs => hs)
    have := h2.unique h3
    rwa [gradMap_apply] at this
  have hzi : (t θ).invT *ᵥ xToU (t θ) (marg θ) (x θ) = z := by
    unfold xToU
    rw [mulVec_mulVec, hinv, one_mulVec]
  have hJ : jacobian (t θ) (marg θ) (xToU (t θ) (marg θ) (x θ)) (x θ) = (t θ).T * diagonal D := by
    unfold jacobian
    rw [hzi]
  have hJJ : Ji * ((t θ).T * diagonal D) = 1 := by
    rw [← hJ]
    exact (npInv_ok hJi).1
  have hzero : α θ ⬝ᵥ (t θ).T *ᵥ (fun j => D j * y j) = 0 := by
    have e : (t θ).T *ᵥ (fun j => D j * y j) = ((t θ).T * diagonal D) *ᵥ y := by
      rw [← mulVec_mulVec]
      congr 1
      funext j; rw [mulVec_diagonal]
    have e2 : Form.alpha (vecMul grad Ji) = (-(norm2 (vecMul grad Ji))⁻¹) • vecMul grad Ji := by
      funext i; simp [Form.alpha]; ring
    rw [e, hα, e2, smul_dotProduct, dotProduct_mulVec, vecMul_vecMul, hJJ, vecMul_one, hgx, smul_zero]
  have e3 : (fun j => D j * y j + dz j) = (fun j => D j * y j) + dz := rfl
  rw [e3, mulVec_add, dotProduct_add, dotProduct_add, hzero, zero_add, add_comm]

/-- The transformation computed from a moving modified correlation matrix. -/
theorem path_T {la : LinAlg} (hla : LinAlgOK la) {Ro : ℝ → Matrix (Fin n) (Fin n) ℝ} {t : ℝ → Mats n} {θ : ℝ}
    {dR0 : Matrix (Fin n) (Fin n) ℝ} (hpd : ∀ᶠ s in 𝓝 θ, (Ro s).PosDef)
    (ht : ∀ᶠ s in 𝓝 θ, Transformation.compute la .cholesky (Ro s) = .ok (t s)) (hD : dR0.IsSymm)
    (h : ∀ i j, HasDerivAt (fun s => Ro s i j) (dR0 i j) θ) (i j : Fin n) :
    HasDerivAt (fun s => (t s).T i j) (dinvL0 (t θ).invT (choleskyWithDerivative (Ro θ) dR0).2 i j) θ := by
  have key : ∀ᶠ s in 𝓝 θ, (t s).invT = (choleskyWithDerivative (Ro s) dR0).1 ∧ (t s).T = (t s).invT⁻¹ := by
    filter_upwards [hpd, ht] with s h1 h2
    obtain ⟨L, hL, hc⟩ := hla.chol (Ro s) h1
    simp only [Transformation.compute, computeCholesky, hL] at h2
    have hu := isUnit_det_of_diag hc.lower hc.diag
    rw [npInv_of_unit hu] at h2
    injection h2 with h2
    rw [← h2]
    exact ⟨cholesky_unique hc (C26_factor h1 hD), rfl⟩
  rw [key.self_of_nhds.1]
  refine (C27_combined hpd.self_of_nhds hD h i j).congr_of_eventuallyEq ?_
  filter_upwards [key] with s hs
  rw [hs.2, hs.1]

/-- The inverse transformation computed from a moving modified correlation matrix is continuous. -/
theorem path_invT {la : LinAlg} (hla : LinAlgOK la) {Ro : ℝ → Matrix (Fin n) (Fin n) ℝ} {t : ℝ → Mats n} {θ : ℝ}
    {dR0 : Matrix (Fin n) (Fin n) ℝ} (hpd : ∀ᶠ s in 𝓝 θ, (Ro s).PosDef)
    (ht : ∀ᶠ s in 𝓝 θ, Transformation.compute la .cholesky (Ro s) = .ok (t s)) (hD : dR0.IsSymm)
    (h : ∀ i j, HasDerivAt (fun s => Ro s i j) (dR0 i j) θ) (i j : Fin n) :
    ContinuousAt (fun s => (t s).invT i j) θ := by
  have key : ∀ᶠ s in 𝓝 θ, (t s).invT = (choleskyWithDerivative (Ro s) dR0).1 := by
    filter_upwards [hpd, ht] with s h1 h2
    obtain ⟨L, hL, hc⟩ := hla.chol (Ro s) h1
    simp only [Transformation.compute, computeCholesky, hL] at h2
    have hu := isUnit_det_of_diag hc.lower hc.diag
    rw [npInv_of_unit hu] at h2
    injection h2 with h2
    rw [← h2]
    exact cholesky_unique hc (C26_factor h1 hD)
  refine (C27_path hpd.self_of_nhds hD h i j).continuousAt.congr ?_
  filter_upwards [key] with s hs
  rw [hs]

/-- Off-diagonal entries of a correlation matrix. -/
theorem abs_entry_lt_one {A : Matrix (Fin n) (Fin n) ℝ} (hp : A.PosDef) (hone : ∀ a, A a a = 1) {i j : Fin n} (hij : i ≠ j) :
    |A i j| < 1 := by
  have hsy : A.IsSymm := by
    have := hp.1
    unfold IsHermitian at this
    rwa [conjTranspose_eq_transpose_of_trivial] at this
  rw [posDef_iff_dotProduct_mulVec] at hp
  have key : ∀ c : ℝ, c ^ 2 = 1 → 0 < 1 + c * A i j := by
    intro c hc
    have hne : (Pi.single i 1 + Pi.single j c : Fin n → ℝ) ≠ 0 := by
      intro h
      have := congrFun h i
      simp [hij] at this
    have := hp.2 hne
    rw [star_trivial, mulVec_add, add_dotProduct, dotProduct_add, dotProduct_add] at this
    simp only [mulVec_single, single_dotProduct, one_mul, mul_one, col_apply, MulOpposite.op_one, one_smul,
      Pi.smul_apply, MulOpposite.smul_eq_mul_unop, MulOpposite.unop_op] at this
    have e : A j i = A i j := hsy.apply i j
    rw [hone, hone, e] at this
    nlinarith
  have h1 := key 1 (by norm_num)
  have h2 := key (-1) (by norm_num)
  rw [abs_lt]; constructor <;> linarith

set_option exponentiation.threshold 1000 in
/-- How the transformation moves with the correlation of a pair, and that this is what the correlation sensitivity multiplies by `alpha`. -/
theorem corr_velocity {la : LinAlg} (hla : LinAlgOK la) (dist : Fin n → Dist)
    {Ro : ℝ → Matrix (Fin n) (Fin n) ℝ} {t : ℝ → Mats n} {ρ : ℝ} {i j : Fin n} (hij : j < i)
    (hpd : ∀ᶠ s in 𝓝 ρ, (Ro s).PosDef)
    (ht : ∀ᶠ s in 𝓝 ρ, Transformation.compute la .cholesky (Ro s) = .ok (t s)) (hone : ∀ a, Ro ρ a a = 1)
    (hdiff : DifferentiableAt ℝ (fun s => Ro s i j) ρ)
    (hsolve : ∀ᶠ s in 𝓝 ρ, Integration.rhoIntegral (Ro s i j) (dist i).marg (dist j).marg
      (gridOf ρ (dist i).marg (dist j).marg) = s)
    (hother : ∀ a b, ¬ (a = i ∧ b = j) → ¬ (a = j ∧ b = i) → ∀ᶠ s in 𝓝 ρ, Ro s a b = Ro ρ a b)
    (hbig : 1e-300 < |Integration.drhoDrho0 (Ro ρ i j) (dist i).marg (dist j).marg (gridOf ρ (dist i).marg (dist j).marg)|) :
    ∃ dT : Matrix (Fin n) (Fin n) ℝ, (∀ a b, HasDerivAt (fun s => (t s).T a b) (dT a b) ρ) ∧
      (∀ a b, ContinuousAt (fun s => (t s).invT a b) ρ) ∧
      ∀ α u, corrOne dist (Ro ρ) (t ρ) α u (gridOf ρ (dist i).marg (dist j).marg) i j = α ⬝ᵥ dT *ᵥ ((t ρ).invT *ᵥ u) := by
  set gr := gridOf ρ (dist i).marg (dist j).marg with hgr
  set D := Integration.drhoDrho0 (Ro ρ i j) (dist i).marg (dist j).marg gr with hDdef
  have hsymm : ∀ᶠ s in 𝓝 ρ, (Ro s).IsSymm := by
    filter_upwards [hpd] with s hs
    have := hs.1
    unfold IsHermitian at this
    rwa [conjTranspose_eq_transpose_of_trivial] at this
  have hD0 : D ≠ 0 := by
    intro h
    rw [h, abs_zero] at hbig
    have : (0 : ℝ) ≤ 1e-300 := by norm_num
    linarith
  -- |Ro i j| < 1
  have hlt : |Ro ρ i j| < 1 := abs_entry_lt_one hpd.self_of_nhds hone hij.ne'
  -- the modified coefficient moves with velocity 1/D
  have hvel : HasDerivAt (fun s => Ro s i j) (1 / D) ρ := by
    have h1 := hdiff.hasDerivAt
    have h2 := HasDerivAt.comp ρ (C54_derivative (dist i).marg (dist j).marg gr hlt) h1
    have h3 : HasDerivAt (fun s => s) 1 ρ := hasDerivAt_id ρ
    have h4 := h2.unique (h3.congr_of_eventuallyEq hsolve)
    rw [← hDdef] at h4
    have : deriv (fun s => Ro s i j) ρ = 1 / D := by field_simp; linarith
    rwa [this] at h1
  set dR0 : Matrix (Fin n) (Fin n) ℝ := setSym 0 i j (1 / D) with hdR0
  have hDs : dR0.IsSymm := by
    ext a b
    rw [transpose_apply, hdR0, setSym_apply, setSym_apply]
    have : ((b = i ∧ a = j) ∨ (b = j ∧ a = i)) ↔ ((a = i ∧ b = j) ∨ (a = j ∧ b = i)) := by tauto
    simp only [this]
    rfl
  have hR : ∀ a b, HasDerivAt (fun s => Ro s a b) (dR0 a b) ρ := by
    intro a b
    rw [hdR0, setSym_apply]
    by_cases e1 : a = i ∧ b = j
    · obtain ⟨rfl, rfl⟩ := e1
      rw [if_pos (Or.inl ⟨rfl, rfl⟩)]; exact hvel
    by_cases e2 : a = j ∧ b = i
    · obtain ⟨rfl, rfl⟩ := e2
      rw [if_pos (Or.inr ⟨rfl, rfl⟩)]
      refine hvel.congr_of_eventuallyEq ?_
      filter_upwards [hsymm] with s hs
      exact hs.apply b a
    · rw [if_neg (by tauto)]
      exact (hasDerivAt_const ρ (Ro ρ a b)).congr_of_eventuallyEq (hother a b e1 e2)
  refine ⟨_, path_T hla hpd ht hDs hR, path_invT hla hpd ht hDs hR, fun α u => ?_⟩
  unfold corrOne
  simp only [gt_iff_lt]
  rw [← hDdef, if_pos hbig]

set_option exponentiation.threshold 1000 in
/-- C51: when the Cholesky factor is used, the entry `(i, j)` of the correlation sensitivities is the derivative of the FORM index with
respect to the correlation `ρ` of the pair `(i, j)`.  Here `Ro s` is the modified correlation matrix as a function of that correlation:
the coefficient of the pair solves the code's correlation integral for `s`, the other coefficients do not move; the family of design
points is smooth and the FORM result at `ρ` is an exact design point; and the derivative of the correlation integral is not below the
threshold under which the code reports 0. -/
theorem C51_derivative {la : LinAlg} (hla : LinAlgOK la) (dist : Fin n → Dist) {S : Fin n → Set ℝ}
    (hj : ∀ i, JacobianCorrect (dist i).marg (S i)) {g : (Fin n → ℝ) → ℝ}
    {Ro : ℝ → Matrix (Fin n) (Fin n) ℝ} {t : ℝ → Mats n} {ρ : ℝ} {i j : Fin n} (hij : j < i)
    (hpd : ∀ᶠ s in 𝓝 ρ, (Ro s).PosDef)
    (ht : ∀ᶠ s in 𝓝 ρ, Transformation.compute la .cholesky (Ro s) = .ok (t s)) (hone : ∀ a, Ro ρ a a = 1)
    (hdiff : DifferentiableAt ℝ (fun s => Ro s i j) ρ)
    (hsolve : ∀ᶠ s in 𝓝 ρ, Integration.rhoIntegral (Ro s i j) (dist i).marg (dist j).marg
      (gridOf ρ (dist i).marg (dist j).marg) = s)
    (hother : ∀ a b, ¬ (a = i ∧ b = j) → ¬ (a = j ∧ b = i) → ∀ᶠ s in 𝓝 ρ, Ro s a b = Ro ρ a b)
    (hbig : 1e-300 < |Integration.drhoDrho0 (Ro ρ i j) (dist i).marg (dist j).marg (gridOf ρ (dist i).marg (dist j).marg)|)
    {x : ℝ → Fin n → ℝ} (hxS : ∀ a, x ρ a ∈ S a) {β : ℝ → ℝ} {α : ℝ → Fin n → ℝ}
    (hd : DesignPath g t (fun _ a => (dist a).marg) ρ x β α)
    (hform : FormDirection g (t ρ) (fun a => (dist a).marg) (x ρ) (α ρ)) :
    HasDerivAt β (corrOne dist (Ro ρ) (t ρ) (α ρ) (β ρ • α ρ) (gridOf ρ (dist i).marg (dist j).marg) i j) ρ := by
  obtain ⟨dT, hT, -, hc⟩ := corr_velocity hla dist hij hpd ht hone hdiff hsolve hother hbig
  obtain ⟨hinv1, hinv2⟩ := compute_inverse ht.self_of_nhds
  have hb := envelope (dz := 0) hd hform hinv2 hT (fun x' hx a => by
    have h1 := HasDerivAt.comp ρ (hj a (x ρ a) (hxS a)) (hx a)
    refine h1.congr_deriv ?_
    simp)
  refine hb.congr_deriv ?_
  have hz : (t ρ).invT *ᵥ (β ρ • α ρ) = fun a => ((dist a).marg).xToU (x ρ a) := by
    rw [← hd.polar.self_of_nhds.1]
    unfold xToU
    rw [mulVec_mulVec, hinv2, one_mulVec]
  rw [hc, hz]
  simp only [mulVec_zero, dotProduct_zero, zero_add]

theorem gridOf_spec (rho : ℝ) (mi mj : Marginal) : (gridOf rho mi mj).nIP = Correlation.selectNIP rho ∧
    ∃ z : ℕ → ℝ, ∀ (mi mj : Marginal) i j, (gridOf rho mi mj).X1 i j = mi.uToX (z i) ∧ (gridOf rho mi mj).X2 i j = mj.uToX (z j) := by
  obtain ⟨⟨x, w⟩, hr⟩ := quadratureRule_ok (selectNIP_ne_zero rho)
  constructor
  · obtain ⟨g, hg, hn, -⟩ := C54_grid mi mj 6 hr
    rw [gridOf_eq] at hg; injection hg with hg; rw [hg, hn]
  · refine ⟨fun i => 6 * x.getD i 0, fun mi mj i j => ?_⟩
    obtain ⟨g, hg, -, -, hz⟩ := C54_grid mi mj 6 hr
    rw [gridOf_eq] at hg; injection hg with hg; rw [hg]
    obtain ⟨h1, h2, h3, h4, -⟩ := hz i j
    rw [h3, h4, h1, h2]
    exact ⟨rfl, rfl⟩

/-- What `_compute_dR0_dtheta` returns is the derivative of the modified correlation matrix. -/
theorem dR0_true (dist : Fin n → Dist) (k : Fin n) (param : String) {dF : ℝ → ℝ} {dmu dsig : ℝ}
    (hF : (dist k).dFParam param = .ok dF) (hm : (dist k).dmoments param = .ok (dmu, dsig)) {m : ℝ → Marginal} {θ : ℝ}
    (hm0 : m θ = (dist k).marg) {S : Set ℝ} (hp : ParamPath m θ dF dmu dsig S) (hsd : (m θ).stdv ≠ 0)
    {R : Matrix (Fin n) (Fin n) ℝ} {Ro : ℝ → Matrix (Fin n) (Fin n) ℝ} (hpd : ∀ᶠ s in 𝓝 θ, (Ro s).PosDef)
    (hN : NatafPath (fun i => (dist i).marg) k m θ R Ro) :
    ∃ dR0, dR0Loop dist R (Ro θ) k param (Sensitivity.pairs n) 0 = .ok dR0 ∧ dR0.IsSymm ∧
      ∀ a b, HasDerivAt (fun s => Ro s a b) (dR0 a b) θ := by
  obtain ⟨dR0, h1, h2⟩ := dR0Loop_eq dist R (Ro θ) k param hF hm (Sensitivity.pairs n)
    (fun p hp => Sensitivity.mem_pairs.1 hp) 0
  have hmem : ∀ a b : Fin n, (a, b) ∈ Sensitivity.pairs n ↔ b < a := fun a b => Sensitivity.mem_pairs
  have hsym : dR0.IsSymm := by
    ext a b
    rw [transpose_apply, h2, h2]
    by_cases c1 : (a, b) ∈ Sensitivity.pairs n ∧ ¬ Skip R (Ro θ) k a b
    · have c2 : ¬ ((b, a) ∈ Sensitivity.pairs n ∧ ¬ Skip R (Ro θ) k b a) := fun h =>
        absurd ((hmem b a).1 h.1) ((hmem a b).1 c1.1).not_gt
      rw [if_neg c2, if_pos c1, if_pos c1]
    · by_cases c2 : (b, a) ∈ Sensitivity.pairs n ∧ ¬ Skip R (Ro θ) k b a
      · rw [if_pos c2, if_neg c1, if_pos c2]
      · rw [if_neg c2, if_neg c1, if_neg c1, if_neg c2]; rfl
  have hsymm : ∀ᶠ s in 𝓝 θ, (Ro s).IsSymm := by
    filter_upwards [hpd] with s hs
    have := hs.1
    unfold IsHermitian at this
    rwa [conjTranspose_eq_transpose_of_trivial] at this
  have hone : ∀ a, Ro θ a a = 1 := fun a => (hN.diag a).self_of_nhds
  have hmw : (fun i => margWith (fun i => (dist i).marg) k (m θ) i) = fun i => (dist i).marg := by
    funext i
    unfold margWith
    split_ifs with h
    · rw [hm0, h]
    · rfl
  -- below the diagonal
  have hlow : ∀ a b, b < a → HasDerivAt (fun s => Ro s a b) (dR0 a b) θ := by
    intro a b hba
    rw [h2]
    have c2 : ¬ ((b, a) ∈ Sensitivity.pairs n ∧ ¬ Skip R (Ro θ) k b a) := fun h => absurd ((hmem b a).1 h.1) hba.not_gt
    rw [if_neg c2]
    by_cases hk : k = a ∨ k = b
    · rcases hN.pair a b hba hk with ⟨hz, he⟩ | ⟨hbig, hsolve, hden, hclip⟩
      · have : Skip R (Ro θ) k a b := Or.inr (by
          rw [hz, he.self_of_nhds]; norm_num)
        rw [if_neg (fun h => h.2 this)]
        exact (hasDerivAt_const θ (0 : ℝ)).congr_of_eventuallyEq he
      · have hns : ¬ Skip R (Ro θ) k a b := by
          rintro (h | h)
          · rcases hk with hk | hk
            · exact h.1 hk
            · exact h.2 hk
          · exact absurd h.2 (not_lt.2 hbig)
        rw [if_pos ⟨(hmem a b).2 hba, hns⟩]
        have hr' := (hN.smooth a b).hasDerivAt
        have hlt : |Ro θ a b| < 1 := abs_entry_lt_one hpd.self_of_nhds hone hba.ne'
        obtain ⟨-, z, hz⟩ := gridOf_spec (R a b) (m θ) (m θ)
        rcases hk with hk | hk
        · subst hk
          have hb : b ≠ k := hba.ne
          have e1 : ∀ s, margWith (fun i => (dist i).marg) k (m s) k = m s := fun s => if_pos rfl
          have e2 : ∀ s, margWith (fun i => (dist i).marg) k (m s) b = (dist b).marg := fun s => if_neg hb
          simp only [e1, e2] at hsolve hden
          have := C54_implicit_first m (dist b).marg 6 (Correlation.selectNIP (R k b))
            (fun s => gridOf (R k b) (m s) (dist b).marg) (fun s => Ro s k b) θ dmu dsig _ (R k b) dF
            (fun s => gridOf_eq _ _ _)
            (fun i j hi _ => ⟨by
              simp only [(hz _ _ i j).1]
              exact hp.quantile (z i), by
              have := hclip i hi
              rw [(hz _ _ i 0).1] at this
              rw [(hz _ _ i j).1]; exact this⟩)
            hp.mean hp.stdv hsd hlt hr' hsolve hden
          rw [this] at hr'
          rw [hm0] at hr'
          simpa using hr'
        · subst hk
          have ha : a ≠ k := hba.ne'
          have e1 : ∀ s, margWith (fun i => (dist i).marg) k (m s) k = m s := fun s => if_pos rfl
          have e2 : ∀ s, margWith (fun i => (dist i).marg) k (m s) a = (dist a).marg := fun s => if_neg ha
          simp only [e1, e2] at hsolve hden
          have := C54_implicit_second (dist a).marg m 6 (Correlation.selectNIP (R a k))
            (fun s => gridOf (R a k) (dist a).marg (m s)) (fun s => Ro s a k) θ dmu dsig _ (R a k) dF
            (fun s => gridOf_eq _ _ _)
            (fun i j _ hj => ⟨by
              simp only [(hz _ _ i j).2]
              exact hp.quantile (z j), by
              have := hclip j hj
              rw [(hz _ _ j 0).1] at this
              rw [(hz _ _ i j).2]; exact this⟩)
            hp.mean hp.stdv hsd hlt hr' hsolve hden
          rw [this] at hr'
          rw [hm0] at hr'
          simpa [ha.symm] using hr'
    · push Not at hk
      have : Skip R (Ro θ) k a b := Or.inl hk
      rw [if_neg (fun h => h.2 this)]
      exact (hasDerivAt_const θ (Ro θ a b)).congr_of_eventuallyEq (hN.other a b hk.1.symm hk.2.symm)
  refine ⟨dR0, h1, hsym, fun a b => ?_⟩
  rcases lt_trichotomy a b with h | h | h
  · rw [← hsym.apply a b]
    refine (hlow b a h).congr_of_eventuallyEq ?_
    filter_upwards [hsymm] with s hs
    exact (hs.apply a b).symm
  · subst h
    rw [h2]
    rw [if_neg (fun h => lt_irrefl _ ((hmem a a).1 h.1)), if_neg (fun h => lt_irrefl _ ((hmem a a).1 h.1))]
    exact (hasDerivAt_const θ (1 : ℝ)).congr_of_eventuallyEq (hN.diag a)
  · exact hlow a b h

/-- C50: when the Cholesky factor is used, the closed-form sensitivity of variable `k` to one of its parameters is the derivative of the
FORM index with respect to that parameter, for any distributions and correlations.  `m s` is the distribution of variable `k` as a
function of the parameter, whose derivatives the distribution reports truthfully (`ParamPath`; for normal and lognormal variables see
`normal_mean_path` and the other three); `Ro s` is the modified correlation matrix (`NatafPath`); the family of design points is smooth
(`DesignPath`) and the FORM result at `θ` is an exact design point; the standard normal density at the design point is above the
threshold under which the code drops the term. -/
theorem C50_derivative {la : LinAlg} (hla : LinAlgOK la) (dist : Fin n → Dist) (k : Fin n) (param : String) {dF : ℝ → ℝ}
    {dmu dsig : ℝ} (hF : (dist k).dFParam param = .ok dF) (hm : (dist k).dmoments param = .ok (dmu, dsig)) {S : Fin n → Set ℝ}
    (hS : ∀ i, IsOpen (S i)) (hrt : ∀ i, RoundTrip (dist i).marg (S i)) (hj : ∀ i, JacobianCorrect (dist i).marg (S i))
    {m : ℝ → Marginal} {θ : ℝ} (hm0 : m θ = (dist k).marg) (hp : ParamPath m θ dF dmu dsig (S k)) (hsd : (m θ).stdv ≠ 0)
    {R : Matrix (Fin n) (Fin n) ℝ} {Ro : ℝ → Matrix (Fin n) (Fin n) ℝ} {t : ℝ → Mats n}
    (hpd : ∀ᶠ s in 𝓝 θ, (Ro s).PosDef)
    (ht : ∀ᶠ s in 𝓝 θ, Transformation.compute la .cholesky (Ro s) = .ok (t s))
    (hN : NatafPath (fun i => (dist i).marg) k m θ R Ro) {g : (Fin n → ℝ) → ℝ}
    {x : ℝ → Fin n → ℝ} (hxS : ∀ a, x θ a ∈ S a) {β : ℝ → ℝ} {α : ℝ → Fin n → ℝ}
    (hd : DesignPath g t (fun s => margWith (fun a => (dist a).marg) k (m s)) θ x β α)
    (hform : FormDirection g (t θ) (fun a => (dist a).marg) (x θ) (α θ))
    (hphi : 1e-300 < StdNormal.pdf ((dist k).marg.xToU (x θ k))) :
    ∃ v, marginalOne dist R (Ro θ) (t θ) (α θ) (β θ • α θ) k param = .ok v ∧ HasDerivAt β v θ := by
  obtain ⟨dR0, h1, hsym, hR⟩ := dR0_true dist k param hF hm hm0 hp hsd hpd hN
  have hT := path_T hla hpd ht hsym hR
  obtain ⟨hinv1, hinv2⟩ := compute_inverse ht.self_of_nhds
  have hmw : margWith (fun i => (dist i).marg) k (m θ) = fun i => (dist i).marg := by
    funext i
    unfold margWith
    split_ifs with h
    · rw [hm0, h]
    · rfl
  have hform' : FormDirection g (t θ) (margWith (fun i => (dist i).marg) k (m θ)) (x θ) (α θ) := by rwa [hmw]
  have hb := envelope (marg := fun s => margWith (fun a => (dist a).marg) k (m s))
    (dz := fun i => if i = k then dF (x θ k) / StdNormal.pdf ((dist k).marg.xToU (x θ k)) else 0) hd hform' hinv2 hT
    (fun x' hx a => by
      by_cases ha : a = k
      · subst ha
        have h := path_z hp (by rw [hm0]; exact hj a) (hS a) (hx a) (hxS a)
        simp only [margWith, if_true, hm0] at h ⊢
        exact h
      · simp only [margWith, if_neg ha, add_zero]
        exact HasDerivAt.comp θ (hj a (x θ a) (hxS a)) (hx a))
  have hux : xToU (t θ) (fun a => (dist a).marg) (x θ) = β θ • α θ := by
    have := hd.polar.self_of_nhds.1
    rwa [hmw] at this
  have hz : (t θ).invT *ᵥ (β θ • α θ) = fun a => ((dist a).marg).xToU (x θ a) := by
    rw [← hux]
    unfold xToU
    rw [mulVec_mulVec, hinv2, one_mulVec]
  have hx : uToX (t θ) (fun i => (dist i).marg) (β θ • α θ) = x θ := by
    unfold uToX
    rw [hz]
    funext i
    exact (hrt i).right _ (hxS i)
  unfold marginalOne
  simp only [hz, hx, hF, h1]
  refine ⟨_, rfl, hb.congr_deriv ?_⟩
  simp only [if_pos hphi, hmw, gt_iff_lt]

end Pystra.Props
