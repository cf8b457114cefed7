import Verif.Spec.Legendre
import Mathlib.Tactic.LinearCombination
import Mathlib.Tactic.FieldSimp
import Mathlib.Algebra.Polynomial.Eval.Defs

/-! Recurrences of the Legendre polynomials from Rodrigues' formula. -/

namespace Pystra
open Polynomial Spec

namespace Legendre

/-- The constant of Rodrigues' formula. -/
noncomputable def c (n : ℕ) : ℝ := 1 / (2 ^ n * (n.factorial : ℝ))

theorem c_succ (n : ℕ) : c (n + 1) * (2 * (n + 1)) = c n := by
  unfold c
  rw [Nat.factorial_succ]
  push_cast
  have : (n.factorial : ℝ) ≠ 0 := by exact_mod_cast n.factorial_ne_zero
  have h : (n : ℝ) + 1 ≠ 0 := by positivity
  field_simp
  ring

/-- `(x² - 1)ⁿ`. -/
noncomputable def f (n : ℕ) : ℝ[X] := (X ^ 2 - 1) ^ n

theorem deriv_f (n : ℕ) : derivative (f (n + 1)) = C (2 * (n + 1 : ℝ)) * (X * f n) := by
  unfold f
  rw [derivative_pow_succ]
  simp only [derivative_sub, derivative_one, derivative_pow, derivative_X, map_mul, map_add, map_ofNat, map_natCast,
    map_one]
  push_cast
  ring

theorem deriv2_f (n : ℕ) : derivative (derivative (f (n + 2))) =
    C (2 * (n + 2 : ℝ) * (2 * (n + 1) + 1)) * f (n + 1) + C (4 * (n + 1) * (n + 2 : ℝ)) * f n := by
  rw [deriv_f, derivative_C_mul, derivative_mul, derivative_X, deriv_f]
  have : X * (C (2 * (n + 1 : ℝ)) * (X * f n)) = C (2 * (n + 1 : ℝ)) * (f (n + 1) + f n) := by
    have : f (n + 1) = (X ^ 2 - 1) * f n := by unfold f; ring
    rw [this]; ring
  rw [this]
  push_cast
  simp only [map_mul, map_add, map_ofNat, map_natCast, map_one]
  ring

/-- `Q n = c_n D^{n-1} (x² - 1)ⁿ`, shifted: `Q (n+1) = c_{n+1} Dⁿ f_{n+1}`. -/
noncomputable def Q (n : ℕ) : ℝ[X] := C (c (n + 1)) * derivative^[n] (f (n + 1))

theorem legendre_eq (n : ℕ) : legendre n = C (c n) * derivative^[n] (f n) := rfl

theorem deriv_Q (n : ℕ) : derivative (Q n) = legendre (n + 1) := by
  rw [legendre_eq]; unfold Q
  rw [derivative_C_mul, Function.iterate_succ_apply']

theorem iter_X_mul (n : ℕ) (p : ℝ[X]) : derivative^[n + 1] (X * p) =
    X * derivative^[n + 1] p + C (n + 1 : ℝ) * derivative^[n] p := by
  induction n with
  | zero => simp; ring
  | succ n ih =>
    rw [Function.iterate_succ_apply', ih, derivative_add, derivative_mul, derivative_C_mul, derivative_X,
      ← Function.iterate_succ_apply' derivative, ← Function.iterate_succ_apply' derivative]
    push_cast
    simp only [map_add, map_natCast, map_one]
    ring

/-- `P_{n+2} = x P_{n+1} + (n+1) Q`. -/
theorem rec_a (n : ℕ) : legendre (n + 2) = X * legendre (n + 1) + C (n + 1 : ℝ) * Q n := by
  rw [legendre_eq, legendre_eq]
  unfold Q
  rw [Function.iterate_succ_apply, deriv_f, iterate_derivative_C_mul, iter_X_mul]
  have h := c_succ (n + 1)
  push_cast at h
  rw [← h]
  push_cast
  simp only [map_mul, map_add, map_ofNat, map_natCast, map_one]
  ring

/-- `P_{n+2} = (2n+3) Q + P_n`. -/
theorem rec_b (n : ℕ) : legendre (n + 2) = C (2 * (n + 1) + 1 : ℝ) * Q n + legendre n := by
  rw [legendre_eq (n + 2), legendre_eq n]
  unfold Q
  rw [Function.iterate_succ_apply, Function.iterate_succ_apply, deriv2_f, iterate_map_add derivative n,
    iterate_derivative_C_mul, iterate_derivative_C_mul]
  have h1 := c_succ (n + 1)
  have h2 := c_succ n
  push_cast at h1
  rw [← h2, ← h1]
  push_cast
  simp only [map_mul, map_add, map_ofNat, map_natCast, map_one]
  ring

theorem legendre_zero : legendre 0 = 1 := by simp [legendre]

theorem legendre_one : legendre 1 = X := by
  rw [legendre_eq]
  have : (C (2:ℝ)⁻¹ : ℝ[X]) * C 2 = 1 := by rw [← C_mul]; norm_num
  have e : derivative (f 1) = C 2 * X := by
    have := deriv_f 0
    simpa [f] using this
  rw [Function.iterate_one, e, ← mul_assoc]
  have : c 1 = 2⁻¹ := by simp [c]
  rw [this, ‹C (2:ℝ)⁻¹ * C 2 = 1›, one_mul]

/-- Bonnet's recursion `(n+2) P_{n+2} = (2n+3) x P_{n+1} - (n+1) P_n`. -/
theorem bonnet (n : ℕ) : C (n + 2 : ℝ) * legendre (n + 2) =
    C (2 * n + 3 : ℝ) * (X * legendre (n + 1)) - C (n + 1 : ℝ) * legendre n := by
  have ha := rec_a n
  have hb := rec_b n
  simp only [map_mul, map_add, map_ofNat, map_natCast, map_one] at *
  linear_combination (2 * (n:ℝ[X]) + 3) * ha - ((n:ℝ[X]) + 1) * hb

/-- `P_{n+2}' = (n+2) P_{n+1} + x P_{n+1}'`. -/
theorem deriv_a (n : ℕ) : derivative (legendre (n + 2)) =
    C (n + 2 : ℝ) * legendre (n + 1) + X * derivative (legendre (n + 1)) := by
  have h := congrArg derivative (rec_a n)
  rw [derivative_add, derivative_mul, derivative_X, derivative_C_mul, deriv_Q] at h
  rw [h]
  simp only [map_add, map_ofNat, map_natCast, map_one]
  ring

/-- `P_{n+2}' = (2n+3) P_{n+1} + P_n'`. -/
theorem deriv_b (n : ℕ) : derivative (legendre (n + 2)) =
    C (2 * n + 3 : ℝ) * legendre (n + 1) + derivative (legendre n) := by
  have h := congrArg derivative (rec_b n)
  rw [derivative_add, derivative_C_mul, deriv_Q] at h
  rw [h]
  simp only [map_mul, map_add, map_ofNat, map_natCast, map_one]
  ring

theorem deriv_a' (n : ℕ) : derivative (legendre (n + 1)) =
    C (n + 1 : ℝ) * legendre n + X * derivative (legendre n) := by
  cases n with
  | zero => simp [legendre_zero, legendre_one]
  | succ n =>
    rw [deriv_a]
    push_cast
    congr 3
    ring

/-- `x P_{n+1}' - P_n' = (n+1) P_{n+1}`. -/
theorem deriv_c (n : ℕ) : X * derivative (legendre (n + 1)) - derivative (legendre n) =
    C (n + 1 : ℝ) * legendre (n + 1) := by
  have ha := deriv_a n
  have hb := deriv_b n
  simp only [map_mul, map_add, map_ofNat, map_natCast, map_one] at *
  linear_combination hb - ha

/-- `(1 - x²) P_{n+1}' = (n+1) (P_n - x P_{n+1})`. -/
theorem one_sub_sq (n : ℕ) : (1 - X ^ 2) * derivative (legendre (n + 1)) =
    C (n + 1 : ℝ) * (legendre n - X * legendre (n + 1)) := by
  have ha := deriv_a' n
  have hc := deriv_c n
  linear_combination ha - X * hc

/-- Legendre's equation `(1 - x²) P'' = 2 x P' - n (n+1) P`. -/
theorem ode (n : ℕ) : (1 - X ^ 2) * derivative (derivative (legendre (n + 1))) =
    2 * X * derivative (legendre (n + 1)) - C ((n + 1) * (n + 2) : ℝ) * legendre (n + 1) := by
  have h := congrArg derivative (one_sub_sq n)
  simp only [derivative_mul, derivative_sub, derivative_C, derivative_one, derivative_pow, derivative_X] at h
  have hc := deriv_c n
  simp only [map_mul, map_add, map_ofNat, map_natCast, map_one] at *
  push_cast at h
  linear_combination h - ((n:ℝ[X]) + 1) * hc

theorem ode3 (n : ℕ) : (1 - X ^ 2) * derivative^[3] (legendre (n + 1)) =
    4 * X * derivative^[2] (legendre (n + 1)) + (2 - C ((n + 1) * (n + 2) : ℝ)) * derivative (legendre (n + 1)) := by
  have h := congrArg derivative (ode n)
  simp only [derivative_mul, derivative_sub, derivative_C, derivative_one, derivative_pow, derivative_X, derivative_ofNat] at h
  push_cast at h
  simp only [map_ofNat] at h
  simp only [Function.iterate_succ_apply', Function.iterate_zero_apply]
  linear_combination h

theorem ode4 (n : ℕ) : (1 - X ^ 2) * derivative^[4] (legendre (n + 1)) =
    6 * X * derivative^[3] (legendre (n + 1)) + (6 - C ((n + 1) * (n + 2) : ℝ)) * derivative^[2] (legendre (n + 1)) := by
  have h := congrArg derivative (ode3 n)
  simp only [derivative_mul, derivative_add, derivative_sub, derivative_one, derivative_pow, derivative_X, derivative_ofNat, derivative_C] at h
  push_cast at h
  simp only [map_ofNat] at h
  simp only [Function.iterate_succ_apply', Function.iterate_zero_apply] at h ⊢
  linear_combination h

theorem eval_one (n : ℕ) : (legendre n).eval 1 = 1 := by
  induction n using Nat.strong_induction_on with
  | _ n ih =>
    match n with
    | 0 => simp [legendre_zero]
    | 1 => simp [legendre_one]
    | n + 2 =>
      have h := congrArg (eval 1) (bonnet n)
      simp [ih n (by omega), ih (n + 1) (by omega)] at h
      have : (n : ℝ) + 2 ≠ 0 := by positivity
      have h2 : ((n:ℝ) + 2) * eval 1 (legendre (n + 2)) = ((n:ℝ) + 2) * 1 := by rw [h]; ring
      exact mul_left_cancel₀ this h2

theorem eval_neg (n : ℕ) (x : ℝ) : (legendre n).eval (-x) = (-1) ^ n * (legendre n).eval x := by
  induction n using Nat.strong_induction_on with
  | _ n ih =>
    match n with
    | 0 => simp [legendre_zero]
    | 1 => simp [legendre_one]
    | n + 2 =>
      have h := congrArg (eval (-x)) (bonnet n)
      have h' := congrArg (eval x) (bonnet n)
      simp [ih n (by omega), ih (n + 1) (by omega)] at h h'
      have : (n : ℝ) + 2 ≠ 0 := by positivity
      apply mul_left_cancel₀ this
      rw [h]
      rw [show ((n:ℝ) + 2) * ((-1) ^ (n + 2) * eval x (legendre (n + 2))) =
        (-1) ^ (n + 2) * (((n:ℝ) + 2) * eval x (legendre (n + 2))) by ring, h']
      ring

/-- Odd Legendre polynomials vanish at zero. -/
theorem eval_zero_odd (k : ℕ) : (legendre (2 * k + 1)).eval 0 = 0 := by
  have h := eval_neg (2 * k + 1) 0
  rw [neg_zero, pow_succ, pow_mul] at h
  norm_num at h
  linarith

end Legendre
end Pystra
