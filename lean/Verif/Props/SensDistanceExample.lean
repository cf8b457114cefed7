import Verif.Props.SensDistance
import Verif.Props.SensitivityNormal
import Mathlib.Analysis.Calculus.Deriv.Abs

/-! C109 for independent variables, one of them normal or lognormal, and a limit state whose design point does not move smoothly. -/

namespace Pystra.Props
open Spec Sensitivity Transformation Matrix Filter Topology CholeskySens

variable {n : ℕ}

theorem normalOf_roundTrip (sp : Option ℝ) (μ : ℝ) {σ : ℝ} (hσ : 0 < σ) : RoundTrip (normalOf sp μ σ) Set.univ ∧
    JacobianCorrect (normalOf sp μ σ) Set.univ := by
  obtain ⟨m, h, -, -, -, h1, h2, -⟩ := (good_normal μ hσ sp).ex
  rw [normal_new] at h
  injection h with h
  rw [h]
  exact ⟨h1, h2⟩

theorem lognormalOf_roundTrip (sp : Option ℝ) {μ σ : ℝ} (hμ : 0 < μ) (hσ : 0 < σ) : RoundTrip (lognormalOf sp μ σ) (Set.Ioi 0) := by
  obtain ⟨m, h, -, -, -, h1, -⟩ := (good_lognormal hμ hσ sp).ex
  rw [(lognormal_new sp hμ hσ).1] at h
  injection h with h
  rw [h]
  exact h1

/-- Independent variables stay independent. -/
theorem nataf_independent (marg : Fin n → Marginal) (k : Fin n) (m : ℝ → Marginal) (θ : ℝ) :
    NatafPath marg k m θ 1 (fun _ => 1) where
  diag := fun a => Eventually.of_forall fun _ => by simp
  smooth := fun a b => differentiableAt_const _
  other := fun a b _ _ => Eventually.of_forall fun _ => rfl
  pair := fun a b hba _ => Or.inl ⟨by simp [hba.ne'], Eventually.of_forall fun _ => by simp [hba.ne']⟩

/-- C109 for independent variables: the sensitivity of the index to the mean and to the standard deviation of a normal variable, for any
continuous limit-state function with one nearest point and any distributions of the other variables. -/
theorem C109_normal {la : LinAlg} (hla : LinAlgOK la) (dist : Fin n → Dist) {S : Fin n → Set ℝ} (hS : ∀ i, IsOpen (S i))
    (hrt : ∀ i, RoundTrip (dist i).marg (S i)) (hj : ∀ i, JacobianCorrect (dist i).marg (S i)) {k : Fin n} {sp : Option ℝ} {μ σ : ℝ}
    (hσ : 0 < σ) (hk : dist k = ⟨Normal.cls, normalOf sp μ σ, []⟩) {t : Mats n}
    (ht : Transformation.compute la .cholesky 1 = .ok t) {g : (Fin n → ℝ) → ℝ} (hg : ∀ x, (∀ i, x i ∈ S i) → ContinuousAt g x)
    {u0 α : Fin n → ℝ} (hu0 : u0 ≠ 0) (hnear : OnlyNearest g t (fun i => (dist i).marg) u0)
    (hform : FormDirection g t (fun i => (dist i).marg) (uToX t (fun i => (dist i).marg) u0) α) (hα : α ≠ 0)
    (hphi : 1e-300 < StdNormal.pdf ((uToX t (fun i => (dist i).marg) u0 k - μ) / σ)) :
    α ⬝ᵥ u0 = hasoferLind g t (fun i => (dist i).marg) ∧
    (∃ v, marginalOne dist 1 1 t α u0 k "mean" = .ok v ∧
      HasDerivAt (fun s => hasoferLind g t (margWith (fun i => (dist i).marg) k (normalOf sp s σ))) v μ) ∧
    ∃ v, marginalOne dist 1 1 t α u0 k "std" = .ok v ∧
      HasDerivAt (fun s => hasoferLind g t (margWith (fun i => (dist i).marg) k (normalOf sp μ s))) v σ := by
  have hmk : (dist k).marg = normalOf sp μ σ := by rw [hk]
  have hF1 : (dist k).dFParam "mean" = .ok (fun x => (Normal.dFdTheta μ σ x).1) := by
    rw [hk]; exact (normals_dF (fun _ : Fin 1 => sp) (fun _ => μ) (fun _ => σ) 0).1
  have hF2 : (dist k).dFParam "std" = .ok (fun x => (Normal.dFdTheta μ σ x).2) := by
    rw [hk]; exact (normals_dF (fun _ : Fin 1 => sp) (fun _ => μ) (fun _ => σ) 0).2.1
  have hm1 : (dist k).dmoments "mean" = .ok (1, 0) := by simp [Dist.dmoments]
  have hm2 : (dist k).dmoments "std" = .ok (0, 1) := by simp [Dist.dmoments]
  have hSk : S k = Set.univ := by
    rw [Set.eq_univ_iff_forall]
    intro x
    have h1 := (hrt k).mem ((x - μ) / σ)
    rw [hmk] at h1
    have : (normalOf sp μ σ).uToX ((x - μ) / σ) = x := by
      show (x - μ) / σ * σ + μ = x
      field_simp
      ring
    rwa [this] at h1
  have hphi' : 1e-300 < StdNormal.pdf ((dist k).marg.xToU (uToX t (fun i => (dist i).marg) u0 k)) := by
    rw [hmk]; exact hphi
  have hpd : (1 : Matrix (Fin n) (Fin n) ℝ).PosDef := PosDef.one
  refine ⟨?_, ?_, ?_⟩
  · refine (C109_marginal hla dist k "mean" hF1 hm1 hS hrt hj (m := fun s => normalOf sp s σ) (θ := μ) hmk.symm
      (by rw [hSk]; exact normal_mean_path sp μ hσ) hσ.ne' (S' := fun _ => Set.univ)
      (Eventually.of_forall fun s => (normalOf_roundTrip sp s hσ).1) (Eventually.of_forall fun _ => hpd)
      (Eventually.of_forall fun _ => ht) (nataf_independent _ _ _ _) hg hu0 hnear rfl (Eventually.of_forall fun _ => trivial)
      ?_ hform hα hphi').1
    exact uniform_of_std (ψ := id) (lam := id) (zet := fun _ => σ) (normal_mean_path sp μ hσ) isOpen_univ differentiableAt_id
      (differentiableAt_const σ) hσ.ne' (Eventually.of_forall fun s x _ => rfl) trivial continuousAt_id
  · refine (C109_marginal hla dist k "mean" hF1 hm1 hS hrt hj (m := fun s => normalOf sp s σ) (θ := μ) hmk.symm
      (by rw [hSk]; exact normal_mean_path sp μ hσ) hσ.ne' (S' := fun _ => Set.univ)
      (Eventually.of_forall fun s => (normalOf_roundTrip sp s hσ).1) (Eventually.of_forall fun _ => hpd)
      (Eventually.of_forall fun _ => ht) (nataf_independent _ _ _ _) hg hu0 hnear rfl (Eventually.of_forall fun _ => trivial)
      ?_ hform hα hphi').2
    exact uniform_of_std (ψ := id) (lam := id) (zet := fun _ => σ) (normal_mean_path sp μ hσ) isOpen_univ differentiableAt_id
      (differentiableAt_const σ) hσ.ne' (Eventually.of_forall fun s x _ => rfl) trivial continuousAt_id
  · refine (C109_marginal hla dist k "std" hF2 hm2 hS hrt hj (m := fun s => normalOf sp μ s) (θ := σ) hmk.symm
      (by rw [hSk]; exact normal_std_path sp μ hσ) hσ.ne' (S' := fun _ => Set.univ)
      ((eventually_gt_nhds hσ).mono fun s hs => (normalOf_roundTrip sp μ hs).1) (Eventually.of_forall fun _ => hpd)
      (Eventually.of_forall fun _ => ht) (nataf_independent _ _ _ _) hg hu0 hnear rfl (Eventually.of_forall fun _ => trivial)
      ?_ hform hα hphi').2
    exact uniform_of_std (ψ := id) (lam := fun _ => μ) (zet := id) (normal_std_path sp μ hσ) isOpen_univ (differentiableAt_const μ)
      differentiableAt_id hσ.ne' (Eventually.of_forall fun s x _ => rfl) trivial continuousAt_id

/-- The same for a lognormal variable. -/
theorem C109_lognormal {la : LinAlg} (hla : LinAlgOK la) (dist : Fin n → Dist) {S : Fin n → Set ℝ} (hS : ∀ i, IsOpen (S i))
    (hrt : ∀ i, RoundTrip (dist i).marg (S i)) (hj : ∀ i, JacobianCorrect (dist i).marg (S i)) {k : Fin n} {sp : Option ℝ} {μ σ : ℝ}
    (hμ : 0 < μ) (hσ : 0 < σ) (hk : dist k = ⟨Lognormal.cls, lognormalOf sp μ σ, []⟩) {t : Mats n}
    (ht : Transformation.compute la .cholesky 1 = .ok t) {g : (Fin n → ℝ) → ℝ} (hg : ∀ x, (∀ i, x i ∈ S i) → ContinuousAt g x)
    {u0 α : Fin n → ℝ} (hu0 : u0 ≠ 0) (hnear : OnlyNearest g t (fun i => (dist i).marg) u0)
    (hform : FormDirection g t (fun i => (dist i).marg) (uToX t (fun i => (dist i).marg) u0) α) (hα : α ≠ 0)
    (hphi : 1e-300 < StdNormal.pdf ((dist k).marg.xToU (uToX t (fun i => (dist i).marg) u0 k))) :
    α ⬝ᵥ u0 = hasoferLind g t (fun i => (dist i).marg) ∧
    (∃ v, marginalOne dist 1 1 t α u0 k "mean" = .ok v ∧
      HasDerivAt (fun s => hasoferLind g t (margWith (fun i => (dist i).marg) k (lognormalOf sp s σ))) v μ) ∧
    ∃ v, marginalOne dist 1 1 t α u0 k "std" = .ok v ∧
      HasDerivAt (fun s => hasoferLind g t (margWith (fun i => (dist i).marg) k (lognormalOf sp μ s))) v σ := by
  obtain ⟨-, hmean, hstd, -, hux, -⟩ := lognormal_new sp hμ hσ
  have hmk : (dist k).marg = lognormalOf sp μ σ := by rw [hk]
  have hF1 : (dist k).dFParam "mean" =
      .ok (fun x => (Lognormal.dFdTheta μ σ (Lognormal.params μ σ).1 (Lognormal.params μ σ).2 x).1) := by
    rw [hk]; simp [Dist.dFParam, Dist.dFDtheta, Lognormal.cls, Dict.get?, hmean, hstd]
  have hF2 : (dist k).dFParam "std" =
      .ok (fun x => (Lognormal.dFdTheta μ σ (Lognormal.params μ σ).1 (Lognormal.params μ σ).2 x).2) := by
    rw [hk]; simp [Dist.dFParam, Dist.dFDtheta, Lognormal.cls, Dict.get?, hmean, hstd]
  have hm1 : (dist k).dmoments "mean" = .ok (1, 0) := by simp [Dist.dmoments]
  have hm2 : (dist k).dmoments "std" = .ok (0, 1) := by simp [Dist.dmoments]
  have hSk : S k = Set.Ioi 0 := by
    have hr := lognormalOf_roundTrip sp hμ hσ
    ext x
    constructor
    · intro hx
      have h1 := (hrt k).right x hx
      rw [hmk] at h1
      rw [← h1]
      exact hr.mem _
    · intro hx
      have h1 := (hrt k).mem ((lognormalOf sp μ σ).xToU x)
      rw [hmk, hr.right x hx] at h1
      exact h1
  have hpd : (1 : Matrix (Fin n) (Fin n) ℝ).PosDef := PosDef.one
  have hpz := zeta_pos hμ hσ
  have hc0 : 0 < σ / μ := by positivity
  have hxk : 0 < uToX t (fun i => (dist i).marg) u0 k := by
    have := (hrt k).mem ((t.invT *ᵥ u0) k)
    rw [hSk] at this
    exact this
  have key1 := C109_marginal hla dist k "mean" hF1 hm1 hS hrt hj (m := fun s => lognormalOf sp s σ) (θ := μ) hmk.symm
      (by rw [hSk]; exact lognormal_mean_path sp hμ hσ) (by simpa [hstd] using hσ.ne') (S' := fun _ => Set.Ioi 0)
      ((eventually_gt_nhds hμ).mono fun s hs => lognormalOf_roundTrip sp hs hσ) (Eventually.of_forall fun _ => hpd)
      (Eventually.of_forall fun _ => ht) (nataf_independent _ _ _ _) hg hu0 hnear rfl (Eventually.of_forall fun _ => hxk)
      (by
        have hz' := hasDerivAt_zeta (hasDerivAt_const_div σ hμ.ne') hc0
        refine uniform_of_std (ψ := Real.log) (lam := fun s => (Lognormal.params s σ).1) (zet := fun s => (Lognormal.params s σ).2)
          (lognormal_mean_path sp hμ hσ) isOpen_Ioi ?_ hz'.differentiableAt hpz.ne' ?_ hxk (Real.continuousAt_log hxk.ne')
        · exact ((Real.hasDerivAt_log hμ.ne').sub ((hz'.pow 2).const_mul 0.5)).differentiableAt
        · filter_upwards [Ioi_mem_nhds hμ] with s hs x hx
          exact ((lognormal_new sp hs hσ).2.2.2.1 x hx).1) hform hα hphi
  have key2 := C109_marginal hla dist k "std" hF2 hm2 hS hrt hj (m := fun s => lognormalOf sp μ s) (θ := σ) hmk.symm
      (by rw [hSk]; exact lognormal_std_path sp hμ hσ) (by simpa [hstd] using hσ.ne') (S' := fun _ => Set.Ioi 0)
      ((eventually_gt_nhds hσ).mono fun s hs => lognormalOf_roundTrip sp hμ hs) (Eventually.of_forall fun _ => hpd)
      (Eventually.of_forall fun _ => ht) (nataf_independent _ _ _ _) hg hu0 hnear rfl (Eventually.of_forall fun _ => hxk)
      (by
        have hz' := hasDerivAt_zeta (hasDerivAt_id σ |>.div_const μ) hc0
        refine uniform_of_std (ψ := Real.log) (lam := fun s => (Lognormal.params μ s).1) (zet := fun s => (Lognormal.params μ s).2)
          (lognormal_std_path sp hμ hσ) isOpen_Ioi ?_ hz'.differentiableAt hpz.ne' ?_ hxk (Real.continuousAt_log hxk.ne')
        · exact ((hasDerivAt_const σ (Real.log μ)).sub ((hz'.pow 2).const_mul 0.5)).differentiableAt
        · filter_upwards [Ioi_mem_nhds hσ] with s hs x hx
          exact ((lognormal_new sp hμ hs).2.2.2.1 x hx).1) hform hα hphi
  exact ⟨key1.1, key1.2, key2.2⟩

/-- `g(x) = √(4 + x₂⁴ - x₂²) - x₁`.  With standard normal variables its surface is at the distance `√(4 + x₂⁴)` from the origin; when the
mean of the second variable is `μ` the nearest point has `2 x₂³ = μ`, which is not differentiable in `μ` at 0. -/
noncomputable def flatG (x : Fin 2 → ℝ) : ℝ := √(4 + x 1 ^ 4 - x 1 ^ 2) - x 0

theorem flat_pos (v : ℝ) : 0 < 4 + v ^ 4 - v ^ 2 := by nlinarith [sq_nonneg (v ^ 2 - 1)]

theorem flat_deriv : HasFDerivAt flatG (gradMap ![-1, 0]) ![2, 0] := by
  have h1 : HasFDerivAt (fun x : Fin 2 → ℝ => x 1) (ContinuousLinearMap.proj (R := ℝ) (φ := fun _ : Fin 2 => ℝ) 1) ![2, 0] :=
    (ContinuousLinearMap.proj (R := ℝ) (φ := fun _ : Fin 2 => ℝ) 1).hasFDerivAt
  have h0 : HasFDerivAt (fun x : Fin 2 → ℝ => x 0) (ContinuousLinearMap.proj (R := ℝ) (φ := fun _ : Fin 2 => ℝ) 0) ![2, 0] :=
    (ContinuousLinearMap.proj (R := ℝ) (φ := fun _ : Fin 2 => ℝ) 0).hasFDerivAt
  have h2 : HasDerivAt (fun v : ℝ => √(4 + v ^ 4 - v ^ 2)) 0 ((![2, 0] : Fin 2 → ℝ) 1) := by
    have h3 : HasDerivAt (fun v : ℝ => 4 + v ^ 4 - v ^ 2) 0 ((![2, 0] : Fin 2 → ℝ) 1) := by
      have := ((hasDerivAt_pow 4 ((![2, 0] : Fin 2 → ℝ) 1)).const_add 4).sub (hasDerivAt_pow 2 ((![2, 0] : Fin 2 → ℝ) 1))
      refine this.congr_deriv ?_
      simp
    have := h3.sqrt (flat_pos _).ne'
    refine this.congr_deriv ?_
    simp
  have h4 := (HasDerivAt.comp_hasFDerivAt (![2, 0] : Fin 2 → ℝ) (f := fun x : Fin 2 → ℝ => x 1) h2 h1).sub h0
  refine h4.congr_fderiv ?_
  ext v
  simp [gradMap_apply, Fin.sum_univ_two]

/-- Standard normal variables. -/
noncomputable def flatDist : Fin 2 → Dist := normals (n := 2) (fun _ => none) (fun _ => 0) (fun _ => 1)

theorem flat_setting {la : LinAlg} (hla : LinAlgOK la) {t : Mats 2} (ht : Transformation.compute la .cholesky 1 = .ok t) :
    t = ⟨1, 1⟩ ∧ (∀ u, uToX t (fun i => (flatDist i).marg) u = u) ∧ OnlyNearest flatG t (fun i => (flatDist i).marg) ![2, 0] ∧
    FormDirection flatG t (fun i => (flatDist i).marg) (uToX t (fun i => (flatDist i).marg) ![2, 0]) ![1, 0] := by
  obtain ⟨hi1, hi2⟩ := compute_inverse ht
  have hone : t.invT = 1 := by
    obtain ⟨L, hL, hc⟩ := hla.chol (1 : Matrix (Fin 2) (Fin 2) ℝ) PosDef.one
    have h1 : IsCholesky (1 : Matrix (Fin 2) (Fin 2) ℝ) 1 := ⟨fun a b h => by simp [h.ne], fun i => by simp, by simp⟩
    have ht' := ht
    simp only [Transformation.compute, computeCholesky, hL] at ht'
    split at ht'
    · cases ht'
    · injection ht' with ht'
      rw [← ht']
      exact cholesky_unique hc h1
  have hT : t.T = 1 := by rw [hone] at hi1; simpa using hi1
  have ht1 : t = ⟨1, 1⟩ := by
    rcases t with ⟨A, B⟩
    simp only at hone hT
    rw [hone, hT]
  obtain ⟨dist, hdist⟩ : ∃ dist, dist = flatDist := ⟨_, rfl⟩
  rw [← hdist]
  have hk : ∀ k, dist k = ⟨Normal.cls, normalOf none 0 1, []⟩ := fun k => by rw [hdist]; rfl
  have hux : ∀ u, uToX t (fun i => (dist i).marg) u = u := by
    intro u
    funext i
    unfold uToX
    rw [hone, one_mulVec]
    simp only [hk]
    show u i * 1 + 0 = u i
    ring
  have hxu : ∀ u, xToU t (fun i => (dist i).marg) u = u := by
    intro u
    unfold xToU
    rw [hT, one_mulVec]
    funext i
    simp only [hk]
    show (u i - 0) / 1 = u i
    ring
  have hl2 : len (![2, 0] : Fin 2 → ℝ) = 2 := by
    unfold len
    simp only [Fin.sum_univ_two]
    rw [show ((![2, 0] : Fin 2 → ℝ) 0 ^ 2 + (![2, 0] : Fin 2 → ℝ) 1 ^ 2) = 2 ^ 2 by simp]
    exact Real.sqrt_sq (by norm_num)
  have hnear : OnlyNearest flatG t (fun i => (dist i).marg) ![2, 0] := by
    constructor
    · rw [hux]
      unfold flatG
      simp
      rw [show (4 : ℝ) = 2 ^ 2 by norm_num, Real.sqrt_sq (by norm_num)]
      norm_num
    · intro u hu hne
      rw [hux] at hu
      unfold flatG at hu
      have h1 : u 0 ^ 2 = 4 + u 1 ^ 4 - u 1 ^ 2 := by
        rw [← sub_eq_zero.1 hu, Real.sq_sqrt (flat_pos _).le]
      have h2 : u 1 ≠ 0 := by
        intro h
        apply hne
        have h3 : u 0 = 2 := by
          rw [← sub_eq_zero.1 hu, h]
          norm_num
          rw [show (4 : ℝ) = 2 ^ 2 by norm_num, Real.sqrt_sq (by norm_num)]
        funext i
        fin_cases i
        · exact h3
        · exact h
      rw [hl2]
      unfold len
      apply Real.lt_sqrt_of_sq_lt
      rw [Fin.sum_univ_two, h1]
      have : 0 < u 1 ^ 4 := by positivity
      linarith
  have hform : FormDirection flatG t (fun i => (dist i).marg) (uToX t (fun i => (dist i).marg) ![2, 0]) ![1, 0] := by
    rw [hux]
    refine ⟨![-1, 0], 1, flat_deriv, ?_, ?_⟩
    · have hJ : jacobian t (fun i => (dist i).marg) (xToU t (fun i => (dist i).marg) ![2, 0]) ![2, 0] = 1 := by
        unfold jacobian
        rw [hT, Matrix.one_mul]
        have : (fun i => ((dist i).marg).jac ((t.invT *ᵥ xToU t (fun i => (dist i).marg) ![2, 0]) i) ((![2, 0] : Fin 2 → ℝ) i)) =
            fun _ => (1:ℝ) := by
          funext i
          rw [hk]
          simp [normalOf, Normal.jac]
        rw [this, diagonal_one]
      rw [hJ, npInv_of_unit (by simp)]
      simp
    · rw [vecMul_one]
      have : norm2 (![-1, 0] : Fin 2 → ℝ) = 1 := by
        simp [norm2, Fin.sum_univ_two]
      funext i
      unfold Form.alpha
      rw [this]
      fin_cases i <;> simp
  exact ⟨ht1, hux, hnear, hform⟩

theorem flatDist_eq (k : Fin 2) : flatDist k = ⟨Normal.cls, normalOf none 0 1, []⟩ := rfl

theorem flat_round : (∀ i, RoundTrip (flatDist i).marg ((fun _ => Set.univ : Fin 2 → Set ℝ) i)) ∧
    ∀ i, JacobianCorrect (flatDist i).marg ((fun _ => Set.univ : Fin 2 → Set ℝ) i) :=
  ⟨fun i => (normalOf_roundTrip none 0 one_pos).1, fun i => (normalOf_roundTrip none 0 one_pos).2⟩

theorem flat_continuous : Continuous flatG := by unfold flatG; fun_prop

/-- The hypotheses of C109 are met by this limit state, to which `C50_derivative` does not apply: its index has the derivatives `-1` and
`0` with respect to the two means, and these are the numbers reported. -/
example {la : LinAlg} (hla : LinAlgOK la) : ∃ t : Mats 2, Transformation.compute la .cholesky 1 = .ok t ∧
    hasoferLind flatG t (fun i => (flatDist i).marg) = 2 ∧
    (marginalOne flatDist 1 1 t ![1, 0] ![2, 0] 0 "mean" = .ok (-1) ∧
      HasDerivAt (fun s => hasoferLind flatG t (margWith (fun i => (flatDist i).marg) 0 (normalOf none s 1))) (-1) 0) ∧
    marginalOne flatDist 1 1 t ![1, 0] ![2, 0] 1 "mean" = .ok 0 ∧
      HasDerivAt (fun s => hasoferLind flatG t (margWith (fun i => (flatDist i).marg) 1 (normalOf none s 1))) 0 0 := by
  obtain ⟨t, ht, -⟩ := C22_posdef hla .cholesky (PosDef.one (n := Fin 2) (R := ℝ))
  obtain ⟨ht1, hux, hnear, hform⟩ := flat_setting hla ht
  refine ⟨t, ht, ?_⟩
  have hu0 : (![2, 0] : Fin 2 → ℝ) ≠ 0 := fun h => by simpa using congrFun h 0
  have hα : (![1, 0] : Fin 2 → ℝ) ≠ 0 := fun h => by simpa using congrFun h 0
  have hS : ∀ i : Fin 2, IsOpen ((fun _ => Set.univ : Fin 2 → Set ℝ) i) := fun i => isOpen_univ
  have hphi : ∀ k, 1e-300 < StdNormal.pdf ((uToX t (fun i => (flatDist i).marg) ![2, 0] k - 0) / 1) := by
    intro k
    rw [hux]
    apply pdf_not_tiny
    fin_cases k <;> norm_num
  obtain ⟨a1, ⟨v, a2, a3⟩, -⟩ := C109_normal hla flatDist hS flat_round.1 flat_round.2 one_pos (flatDist_eq 0) ht (fun _ _ => flat_continuous.continuousAt) hu0 hnear hform hα (hphi 0)
  obtain ⟨-, ⟨w, b2, b3⟩, -⟩ := C109_normal hla flatDist hS flat_round.1 flat_round.2 one_pos (flatDist_eq 1) ht (fun _ _ => flat_continuous.continuousAt) hu0 hnear hform hα (hphi 1)
  have hd2 : flatDist = fun _ => normalDist (normalOf none 0 1) := by
    funext k; rfl
  have val : ∀ k, marginalOne flatDist 1 1 t ![1, 0] ![2, 0] k "mean" = .ok (-(![1, 0] : Fin 2 → ℝ) k / 1) := by
    intro k
    rw [ht1, hd2]
    refine (C50_normal (n := 2) (μ := fun _ => 0) (sd := fun _ => 1) (sp := fun _ => none) (fun _ => one_pos)
      (fun _ => normal_new none 0 1) ![1, 0] ![2, 0] k (pdf_not_tiny ?_)).1
    fin_cases k <;> norm_num
  have hv : v = -1 := by
    have := a2.symm.trans (val 0)
    injection this with this
    rw [this]; simp
  have hw : w = 0 := by
    have := b2.symm.trans (val 1)
    injection this with this
    rw [this]; simp
  rw [hv] at a2 a3
  rw [hw] at b2 b3
  refine ⟨?_, ⟨a2, a3⟩, b2, b3⟩
  rw [← a1]
  simp [dotProduct, Fin.sum_univ_two]

/-- The hypotheses of `C109_modified` are met by this limit state at correlation 0. -/
example {la : LinAlg} (hla : LinAlgOK la) (R : Matrix (Fin 2) (Fin 2) ℝ) : ∃ t : ℝ → Mats 2,
    Transformation.compute la .cholesky 1 = .ok (t 0) ∧
    ∃ d, HasDerivAt (fun s => hasoferLind flatG (t s) fun i => (flatDist i).marg) d 0 ∧
      corrOne flatDist 1 (t 0) ![1, 0] ![2, 0] (gridOf (R 1 0) (flatDist 1).marg (flatDist 0).marg) 1 0 = kappa flatDist R 1 1 0 * d := by
  classical
  have hex : ∀ s, ∃ t, (setSym (1 : Matrix (Fin 2) (Fin 2) ℝ) 1 0 s).PosDef →
      Transformation.compute la .cholesky (setSym (1 : Matrix (Fin 2) (Fin 2) ℝ) 1 0 s) = .ok t := by
    intro s
    by_cases h : (setSym (1 : Matrix (Fin 2) (Fin 2) ℝ) 1 0 s).PosDef
    · obtain ⟨t, ht, -⟩ := C22_posdef hla .cholesky h
      exact ⟨t, fun _ => ht⟩
    · exact ⟨⟨1, 1⟩, fun h' => absurd h' h⟩
  choose t ht using hex
  have h10 : (1 : Matrix (Fin 2) (Fin 2) ℝ) 1 0 = 0 := rfl
  have h0 : setSym (1 : Matrix (Fin 2) (Fin 2) ℝ) 1 0 0 = 1 := by
    ext a b
    fin_cases a <;> fin_cases b <;> simp [setSym, setEntry]
  have ht0 := ht 0 (by rw [h0]; exact PosDef.one)
  rw [h0] at ht0
  obtain ⟨-, -, hnear, hform⟩ := flat_setting hla ht0
  have := C109_modified hla flatDist (fun _ => isOpen_univ) flat_round.1 flat_round.2 (fun _ _ => flat_continuous.continuousAt) R
    (PosDef.one) (i := 1) (j := 0) ht (u0 := ![2, 0]) (α := ![1, 0]) (fun h => by simpa using congrFun h 0)
    (by rw [h10]; exact hnear) (by rw [h10]; exact hform) (fun h => by simpa using congrFun h 0)
  rw [h10] at this
  exact ⟨t, ht0, this.2.2⟩

/-- C109, why only one point may be nearest: one variable `x` with mean `s` and standard deviation 1, `g = 1 - x²`.  The index is
`1 - |s|`, which has no derivative at `s = 0`; there two points are nearest, and the closed form reports `-1` at one and `1` at the other. -/
theorem C109_two_points : (∀ s ∈ Set.Icc (-1 : ℝ) 1,
      hasoferLind (fun x : Fin 1 → ℝ => 1 - x 0 ^ 2) (⟨1, 1⟩ : Mats 1) (fun _ => normalOf none s 1) = 1 - |s|) ∧
    ¬ DifferentiableAt ℝ (fun s => hasoferLind (fun x : Fin 1 → ℝ => 1 - x 0 ^ 2) (⟨1, 1⟩ : Mats 1) (fun _ => normalOf none s 1)) 0 ∧
    marginalOne (fun _ : Fin 1 => normalDist (normalOf none 0 1)) 1 1 ⟨1, 1⟩ ![1] ![1] 0 "mean" = .ok (-1) ∧
    marginalOne (fun _ : Fin 1 => normalDist (normalOf none 0 1)) 1 1 ⟨1, 1⟩ ![-1] ![-1] 0 "mean" = .ok 1 := by
  have hux : ∀ (s : ℝ) (u : Fin 1 → ℝ), uToX (⟨1, 1⟩ : Mats 1) (fun _ => normalOf none s 1) u 0 = u 0 + s := by
    intro s u
    unfold uToX
    rw [one_mulVec]
    show u 0 * 1 + s = u 0 + s
    ring
  have hlen : ∀ u : Fin 1 → ℝ, len u = |u 0| := by
    intro u
    unfold len
    rw [Fin.sum_univ_one, Real.sqrt_sq_eq_abs]
  have hidx : ∀ s ∈ Set.Icc (-1 : ℝ) 1,
      hasoferLind (fun x : Fin 1 → ℝ => 1 - x 0 ^ 2) (⟨1, 1⟩ : Mats 1) (fun _ => normalOf none s 1) = 1 - |s| := by
    rintro s ⟨h1, h2⟩
    have habs : |s| ≤ 1 := abs_le.2 ⟨h1, h2⟩
    unfold hasoferLind
    rw [if_neg (by
      beta_reduce
      rw [hux]
      simp only [Pi.zero_apply, zero_add, not_lt, sub_nonneg]
      rw [← sq_abs]
      nlinarith [abs_nonneg s])]
    unfold surfaceDist
    apply le_antisymm
    · apply csInf_le
      · exact ⟨0, by rintro r ⟨u, -, rfl⟩; exact Real.sqrt_nonneg _⟩
      · rcases le_total 0 s with h | h
        · refine ⟨fun _ => 1 - s, ?_, ?_⟩
          · beta_reduce; rw [hux]; ring
          · rw [hlen, abs_of_nonneg h, abs_of_nonneg (by linarith)]
        · refine ⟨fun _ => -1 - s, ?_, ?_⟩
          · beta_reduce; rw [hux]; ring
          · rw [hlen, abs_of_nonpos h, abs_of_nonpos (by linarith)]
            ring
    · apply le_csInf
      · exact ⟨_, fun _ => 1 - s, by beta_reduce; rw [hux]; ring, rfl⟩
      · rintro r ⟨u, hu, rfl⟩
        beta_reduce at hu
        rw [hux] at hu
        rw [hlen]
        have h3 : |u 0 + s| = 1 := by
          have : |u 0 + s| ^ 2 = 1 := by rw [sq_abs]; linarith
          nlinarith [abs_nonneg (u 0 + s)]
        have := abs_add_le (u 0) s
        linarith
  have val : ∀ c : ℝ, |c| ≤ 1 → marginalOne (fun _ : Fin 1 => normalDist (normalOf none 0 1)) 1 1 ⟨1, 1⟩ ![c] ![c] 0 "mean" = .ok (-c) := by
    intro c hc
    have := (C50_normal (n := 1) (μ := fun _ => 0) (sd := fun _ => 1) (sp := fun _ => none) (fun _ => one_pos)
      (fun _ => normal_new none 0 1) ![c] ![c] 0 (pdf_not_tiny (by simpa using hc.trans (by norm_num)))).1
    rw [this]
    simp
  refine ⟨hidx, fun hd => ?_, val 1 (by norm_num), by simpa using val (-1) (by norm_num)⟩
  have h1 : DifferentiableAt ℝ (fun s : ℝ => 1 - |s|) 0 := by
    refine hd.congr_of_eventuallyEq ?_
    filter_upwards [Icc_mem_nhds (show (-1 : ℝ) < 0 by norm_num) (show (0 : ℝ) < 1 by norm_num)] with s hs
    exact (hidx s hs).symm
  have h2 : DifferentiableAt ℝ (fun s : ℝ => |s|) 0 := by
    have := (differentiableAt_const (1 : ℝ)).sub h1
    simpa using this
  exact not_differentiableAt_abs_zero h2

end Pystra.Props
