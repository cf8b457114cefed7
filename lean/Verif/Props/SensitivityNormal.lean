import Verif.Props.SensitivityPaths
import Verif.Props.FormArmijo

/-! C50, C51 for normal variables: explicit values, and the true derivatives for affine limit states. -/

namespace Pystra.Props
open Spec Sensitivity Transformation Matrix CholeskySens Filter Topology

variable {n : ℕ}

/-- Normal variables. -/
noncomputable def normals (sp : Fin n → Option ℝ) (μ sd : Fin n → ℝ) : Fin n → Dist :=
  fun i => ⟨Normal.cls, normalOf (sp i) (μ i) (sd i), []⟩

theorem normals_dF (sp : Fin n → Option ℝ) (μ sd : Fin n → ℝ) (k : Fin n) :
    (normals sp μ sd k).dFParam "mean" = .ok (fun x => (Normal.dFdTheta (μ k) (sd k) x).1) ∧
    (normals sp μ sd k).dFParam "std" = .ok (fun x => (Normal.dFdTheta (μ k) (sd k) x).2) ∧
    (normals sp μ sd k).dmoments "mean" = .ok (1, 0) ∧ (normals sp μ sd k).dmoments "std" = .ok (0, 1) := by
  refine ⟨?_, ?_, ?_, ?_⟩
  · simp [Dist.dFParam, Dist.dFDtheta, normals, Normal.cls, Dict.get?, normalOf]
  · simp [Dist.dFParam, Dist.dFDtheta, normals, Normal.cls, Dict.get?, normalOf]
  · simp [Dist.dmoments]
  · simp [Dist.dmoments]

/-- A zero derivative matrix gives a zero derivative of the factor. -/
theorem cholesky_zero {Ro : Matrix (Fin n) (Fin n) ℝ} (hR : Ro.PosDef) : (choleskyWithDerivative Ro 0).2 = 0 := by
  obtain ⟨M, hM⟩ := exists_cholesky hR
  have := recovers (N := 0) hM.lower (fun _ _ _ => rfl) hM.diag
  rw [hM.fact] at this
  simp only [Matrix.zero_mul, Matrix.transpose_zero, Matrix.mul_zero, add_zero] at this
  rw [this]

/-- The densities at the quadrature points of the correlated pairs of variable `k` are not clipped and the derivatives of the
correlation integrals of these pairs are not zero. -/
def GridOK (dist : Fin n → Dist) (R Ro : Matrix (Fin n) (Fin n) ℝ) (k : Fin n) : Prop :=
  ∀ a b, b < a → ¬ Skip R Ro k a b →
    Integration.drhoDrho0 (Ro a b) (dist a).marg (dist b).marg (gridOf (R a b) (dist a).marg (dist b).marg) ≠ 0 ∧
    ∀ q, q < Correlation.selectNIP (R a b) → 1e-300 ≤ (dist k).marg.pdf ((gridOf (R a b) (dist k).marg (dist k).marg).X1 q 0)

open Finset in
/-- For normal variables the modified correlation does not move with the parameters. -/
theorem normals_dR0 (sp : Fin n → Option ℝ) (μ : Fin n → ℝ) {sd : Fin n → ℝ} (hsd : ∀ i, 0 < sd i)
    (R Ro : Matrix (Fin n) (Fin n) ℝ) (k : Fin n) (hg : GridOK (normals sp μ sd) R Ro k) :
    dR0Loop (normals sp μ sd) R Ro k "mean" (Sensitivity.pairs n) 0 = .ok 0 ∧
    dR0Loop (normals sp μ sd) R Ro k "std" (Sensitivity.pairs n) 0 = .ok 0 := by
  obtain ⟨f1, f2, m1, m2⟩ := normals_dF sp μ sd k
  -- one entry
  have key : ∀ (a b : Fin n) (dF : ℝ → ℝ) (dmu dsig : ℝ), b < a → ¬ Skip R Ro k a b →
      (∀ z, 1e-300 ≤ (normals sp μ sd k).marg.pdf ((normals sp μ sd k).marg.uToX z) →
        (-dF ((normals sp μ sd k).marg.uToX z) / max ((normals sp μ sd k).marg.pdf ((normals sp μ sd k).marg.uToX z)) 1e-300 - dmu) / sd k -
          ((normals sp μ sd k).marg.uToX z - μ k) / sd k * dsig / sd k = 0) → ∀ first : Bool, (first = true ↔ k = a) →
      Integration.drho0Dtheta (Ro a b) (normals sp μ sd a).marg (normals sp μ sd b).marg
        (gridOf (R a b) (normals sp μ sd a).marg (normals sp μ sd b).marg) first dF dmu dsig = 0 := by
    intro a b dF dmu dsig hba hs hz first hfirst
    obtain ⟨-, hclip⟩ := hg a b hba hs
    obtain ⟨hn, -⟩ := gridOf_spec (R a b) (normals sp μ sd a).marg (normals sp μ sd b).marg
    obtain ⟨-, z, hzz⟩ := gridOf_spec (R a b) (normals sp μ sd a).marg (normals sp μ sd b).marg
    have hk : k = a ∨ k = b := by
      by_contra h
      push Not at h
      exact hs (Or.inl h)
    have hnum : Integration.gridSum (gridOf (R a b) (normals sp μ sd a).marg (normals sp μ sd b).marg).nIP (fun i j =>
        ((-dF ((if first then (gridOf (R a b) (normals sp μ sd a).marg (normals sp μ sd b).marg).X1
            else (gridOf (R a b) (normals sp μ sd a).marg (normals sp μ sd b).marg).X2) i j) /
            max ((if first then (normals sp μ sd a).marg else (normals sp μ sd b).marg).pdf
              ((if first then (gridOf (R a b) (normals sp μ sd a).marg (normals sp μ sd b).marg).X1
                else (gridOf (R a b) (normals sp μ sd a).marg (normals sp μ sd b).marg).X2) i j)) 1e-300 - dmu) /
            (if first then (normals sp μ sd a).marg else (normals sp μ sd b).marg).stdv -
          (if first then fun i j => ((gridOf (R a b) (normals sp μ sd a).marg (normals sp μ sd b).marg).X1 i j -
                (normals sp μ sd a).marg.mean) / (normals sp μ sd a).marg.stdv
            else fun i j => ((gridOf (R a b) (normals sp μ sd a).marg (normals sp μ sd b).marg).X2 i j -
                (normals sp μ sd b).marg.mean) / (normals sp μ sd b).marg.stdv) i j * dsig /
            (if first then (normals sp μ sd a).marg else (normals sp μ sd b).marg).stdv) *
          (if first then fun i j => ((gridOf (R a b) (normals sp μ sd a).marg (normals sp μ sd b).marg).X2 i j -
                (normals sp μ sd b).marg.mean) / (normals sp μ sd b).marg.stdv
            else fun i j => ((gridOf (R a b) (normals sp μ sd a).marg (normals sp μ sd b).marg).X1 i j -
                (normals sp μ sd a).marg.mean) / (normals sp μ sd a).marg.stdv) i j *
          Integration.phi2 ((gridOf (R a b) (normals sp μ sd a).marg (normals sp μ sd b).marg).Z1 i j)
            ((gridOf (R a b) (normals sp μ sd a).marg (normals sp μ sd b).marg).Z2 i j) (Ro a b) *
          (gridOf (R a b) (normals sp μ sd a).marg (normals sp μ sd b).marg).detJ *
          (gridOf (R a b) (normals sp μ sd a).marg (normals sp μ sd b).marg).WIP i j) = 0 := by
      unfold Integration.gridSum
      rw [hn]
      refine sum_eq_zero fun i hi => sum_eq_zero fun j hj => ?_
      rw [mem_range] at hi hj
      by_cases hf : first = true
      · have hka := hfirst.1 hf
        subst hka
        have hc := hclip i hi
        rw [(hzz _ _ i 0).1] at hc
        have := hz (z i) hc
        simp only [hf, if_true, (hzz _ _ i j).1]
        have e : (normals sp μ sd k).marg.stdv = sd k ∧ (normals sp μ sd k).marg.mean = μ k := ⟨rfl, rfl⟩
        rw [e.1, e.2, this]; ring
      · have hkb : k = b := hk.resolve_left (fun h => hf (hfirst.2 h))
        subst hkb
        have hc := hclip j hj
        rw [(hzz _ _ j 0).1] at hc
        have := hz (z j) hc
        have hf' : first = false := by simpa using hf
        simp only [hf', Bool.false_eq_true, if_false, (hzz _ _ i j).2]
        have e : (normals sp μ sd k).marg.stdv = sd k ∧ (normals sp μ sd k).marg.mean = μ k := ⟨rfl, rfl⟩
        rw [e.1, e.2, this]; ring
    unfold Integration.drho0Dtheta
    dsimp only
    have e0 : ∀ d : ℝ, -(0:ℝ) / d = 0 := fun d => by simp
    rw [hnum, e0]
  have hx : ∀ z, (normals sp μ sd k).marg.uToX z = z * sd k + μ k := fun z => rfl
  have hzz : ∀ z, (z * sd k + μ k - μ k) / sd k = z := fun z => by have := (hsd k).ne'; field_simp; ring
  have hp : ∀ z, (normals sp μ sd k).marg.pdf ((normals sp μ sd k).marg.uToX z) = StdNormal.pdf z / sd k := by
    intro z
    change StdNormal.pdf ((z * sd k + μ k - μ k) / sd k) / sd k = _
    rw [hzz]
  have hs0 := (hsd k).ne'
  constructor
  · obtain ⟨A, h1, h2⟩ := dR0Loop_eq (normals sp μ sd) R Ro k "mean" f1 m1 (Sensitivity.pairs n)
      (fun p hp => Sensitivity.mem_pairs.1 hp) 0
    rw [h1]
    congr 1
    ext a b
    rw [h2]
    have hdh : ∀ z, 1e-300 ≤ (normals sp μ sd k).marg.pdf ((normals sp μ sd k).marg.uToX z) →
        (-(fun x => (Normal.dFdTheta (μ k) (sd k) x).1) ((normals sp μ sd k).marg.uToX z) /
          max ((normals sp μ sd k).marg.pdf ((normals sp μ sd k).marg.uToX z)) 1e-300 - 1) / sd k -
          ((normals sp μ sd k).marg.uToX z - μ k) / sd k * 0 / sd k = 0 := by
      intro z hc
      rw [max_eq_left hc, hp, hx]
      simp only [Normal.dFdTheta, hzz]
      have := (StdNormal.pdf_pos z).ne'
      field_simp
      ring
    split_ifs with c1 c2
    · exact key a b _ 1 0 (Sensitivity.mem_pairs.1 c1.1) c1.2 hdh _ (by simp)
    · exact key b a _ 1 0 (Sensitivity.mem_pairs.1 c2.1) c2.2 hdh _ (by simp)
    · rfl
  · obtain ⟨A, h1, h2⟩ := dR0Loop_eq (normals sp μ sd) R Ro k "std" f2 m2 (Sensitivity.pairs n)
      (fun p hp => Sensitivity.mem_pairs.1 hp) 0
    rw [h1]
    congr 1
    ext a b
    rw [h2]
    have hdh : ∀ z, 1e-300 ≤ (normals sp μ sd k).marg.pdf ((normals sp μ sd k).marg.uToX z) →
        (-(fun x => (Normal.dFdTheta (μ k) (sd k) x).2) ((normals sp μ sd k).marg.uToX z) /
          max ((normals sp μ sd k).marg.pdf ((normals sp μ sd k).marg.uToX z)) 1e-300 - 0) / sd k -
          ((normals sp μ sd k).marg.uToX z - μ k) / sd k * 1 / sd k = 0 := by
      intro z hc
      rw [max_eq_left hc, hp, hx]
      simp only [Normal.dFdTheta, hzz]
      have := (StdNormal.pdf_pos z).ne'
      field_simp
      ring
    split_ifs with c1 c2
    · exact key a b _ 0 1 (Sensitivity.mem_pairs.1 c1.1) c1.2 hdh _ (by simp)
    · exact key b a _ 0 1 (Sensitivity.mem_pairs.1 c2.1) c2.2 hdh _ (by simp)
    · rfl

end Pystra.Props
