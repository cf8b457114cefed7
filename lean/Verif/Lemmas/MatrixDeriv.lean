import Mathlib.Analysis.Calculus.Deriv.Mul
import Mathlib.Analysis.Calculus.Deriv.Inv
import Mathlib.Analysis.Calculus.Deriv.Add
import Mathlib.Analysis.Calculus.FDeriv.Pi
import Mathlib.Analysis.Calculus.FDeriv.Mul
import Mathlib.LinearAlgebra.Matrix.NonsingularInverse
import Mathlib.Data.Real.Basic

/-! Entrywise derivatives of matrix-valued functions. -/

namespace Pystra
open Matrix

variable {n : ℕ}

theorem differentiableAt_det {A : ℝ → Matrix (Fin n) (Fin n) ℝ} {t : ℝ}
    (h : ∀ i j, DifferentiableAt ℝ (fun s => A s i j) t) : DifferentiableAt ℝ (fun s => (A s).det) t := by
  simp only [Matrix.det_apply]
  apply DifferentiableAt.fun_sum
  intro σ _
  apply DifferentiableAt.const_smul
  apply DifferentiableAt.fun_finsetProd
  intro i _
  exact h _ _

theorem differentiableAt_inv {A : ℝ → Matrix (Fin n) (Fin n) ℝ} {t : ℝ}
    (h : ∀ i j, DifferentiableAt ℝ (fun s => A s i j) t) (hu : IsUnit (A t).det) (i j : Fin n) :
    DifferentiableAt ℝ (fun s => (A s)⁻¹ i j) t := by
  have hadj : DifferentiableAt ℝ (fun s => (A s).adjugate i j) t := by
    simp only [Matrix.adjugate_apply]
    apply differentiableAt_det
    intro a b
    by_cases hb : a = j
    · subst hb; simp only [Matrix.updateRow_self]; exact differentiableAt_const _
    · simp only [Matrix.updateRow_ne hb]; exact h a b
  have hd := differentiableAt_det h
  have e : (fun s => (A s)⁻¹ i j) = fun s => ((A s).det)⁻¹ * (A s).adjugate i j := by
    funext s
    rw [Matrix.inv_def, Matrix.smul_apply, smul_eq_mul, Ring.inverse_eq_inv']
  rw [e]
  exact (hd.inv hu.ne_zero).mul hadj

theorem hasDerivAt_matMul {A B : ℝ → Matrix (Fin n) (Fin n) ℝ} {A' B' : Matrix (Fin n) (Fin n) ℝ} {t : ℝ}
    (hA : ∀ i j, HasDerivAt (fun s => A s i j) (A' i j) t) (hB : ∀ i j, HasDerivAt (fun s => B s i j) (B' i j) t)
    (i j : Fin n) : HasDerivAt (fun s => (A s * B s) i j) ((A' * B t + A t * B') i j) t := by
  simp only [Matrix.mul_apply, Matrix.add_apply, ← Finset.sum_add_distrib]
  exact HasDerivAt.fun_sum (fun m _ => (hA i m).mul (hB m j))

/-- Derivative of the inverse. -/
theorem hasDerivAt_matInv {A : ℝ → Matrix (Fin n) (Fin n) ℝ} {A' : Matrix (Fin n) (Fin n) ℝ} {t : ℝ}
    (hA : ∀ i j, HasDerivAt (fun s => A s i j) (A' i j) t) (hu : IsUnit (A t).det) (i j : Fin n) :
    HasDerivAt (fun s => (A s)⁻¹ i j) ((-(A t)⁻¹ * A' * (A t)⁻¹) i j) t := by
  have hd : ∀ i j, DifferentiableAt ℝ (fun s => (A s)⁻¹ i j) t :=
    differentiableAt_inv (fun i j => (hA i j).differentiableAt) hu
  set X : Matrix (Fin n) (Fin n) ℝ := fun i j => deriv (fun s => (A s)⁻¹ i j) t
  have hX : ∀ i j, HasDerivAt (fun s => (A s)⁻¹ i j) (X i j) t := fun i j => (hd i j).hasDerivAt
  have hprod := hasDerivAt_matMul hA hX
  have hcont : ∀ᶠ s in nhds t, (A s).det ≠ 0 :=
    (differentiableAt_det (fun i j => (hA i j).differentiableAt)).continuousAt.eventually_ne hu.ne_zero
  have hz : A' * (A t)⁻¹ + A t * X = 0 := by
    ext i j
    have h1 := hprod i j
    have h2 : HasDerivAt (fun s => (A s * (A s)⁻¹) i j) 0 t := by
      refine HasDerivAt.congr_of_eventuallyEq (hasDerivAt_const t ((1 : Matrix (Fin n) (Fin n) ℝ) i j)) ?_
      filter_upwards [hcont] with s hs
      rw [Matrix.mul_nonsing_inv _ hs.isUnit]
    exact h1.unique h2
  have e : X = -(A t)⁻¹ * A' * (A t)⁻¹ := by
    have : (A t)⁻¹ * (A t * X) = (A t)⁻¹ * (-(A' * (A t)⁻¹)) := by
      rw [eq_neg_of_add_eq_zero_right hz]
    rw [← Matrix.mul_assoc, Matrix.nonsing_inv_mul _ hu, Matrix.one_mul] at this
    rw [this]; simp only [Matrix.mul_neg, Matrix.neg_mul, Matrix.mul_assoc]
  rw [← e]; exact hX i j

end Pystra
