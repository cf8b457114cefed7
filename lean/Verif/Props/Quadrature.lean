import Verif.Model.Quadrature
import Verif.Lemmas.Legendre
import Mathlib.Data.List.GetD

/-! C55: the Gauss–Legendre rule. -/

namespace Pystra.Props
open Real Polynomial Spec Quadrature

theorem legendreLoop_succ (n : ℕ) (x : ℝ) : legendreLoop (n + 2) x =
    ((legendreLoop (n + 1) x).2,
      x * (legendreLoop (n + 1) x).2 - (legendreLoop (n + 1) x).1 -
        (x * (legendreLoop (n + 1) x).2 - (legendreLoop (n + 1) x).1) * ((n : ℝ) + 2)⁻¹ +
        x * (legendreLoop (n + 1) x).2) := by
  unfold legendreLoop
  rw [show n + 2 - 1 = n + 1 from rfl, show n + 1 - 1 = n from rfl, List.range'_concat, List.foldl_append]
  simp only [List.foldl_cons, List.foldl_nil]
  push_cast
  rw [one_mul, add_comm (2:ℝ)]

/-- C55: for every `n ≥ 1` the inner loop computes the Legendre polynomials `P_{n-1}` and `P_n` (as defined by
Rodrigues' formula) at `x`. -/
theorem C55_recursion (n : ℕ) (x : ℝ) :
    legendreLoop (n + 1) x = ((legendre n).eval x, (legendre (n + 1)).eval x) := by
  induction n with
  | zero => simp [legendreLoop, Legendre.legendre_zero, Legendre.legendre_one]
  | succ n ih =>
    rw [legendreLoop_succ, ih]
    have h := congrArg (eval x) (Legendre.bonnet n)
    simp only [eval_mul, eval_C, eval_sub, eval_X] at h
    have h2 : (n : ℝ) + 2 ≠ 0 := by positivity
    congr 1
    apply mul_left_cancel₀ h2
    rw [h]
    field_simp
    ring

/-- C55: at every `x ≠ ±1` the quantities of one refinement pass are the true value and the first four derivatives of
`P_n` (`n ≥ 1`). -/
theorem C55_derivatives (n : ℕ) {x : ℝ} (hx : x ^ 2 ≠ 1) :
    (pass (n + 1) x).pk = (legendre (n + 1)).eval x ∧
    (pass (n + 1) x).d1 = (1 - x ^ 2) * (derivative (legendre (n + 1))).eval x ∧
    (pass (n + 1) x).dpn = (derivative (legendre (n + 1))).eval x ∧
    (pass (n + 1) x).d2pn = (derivative^[2] (legendre (n + 1))).eval x ∧
    (pass (n + 1) x).d3pn = (derivative^[3] (legendre (n + 1))).eval x ∧
    (pass (n + 1) x).d4pn = (derivative^[4] (legendre (n + 1))).eval x := by
  have hd : 1 - x ^ 2 ≠ 0 := fun h => hx (by linarith)
  have e : 1 - x * x = 1 - x ^ 2 := by ring
  have h1 := congrArg (eval x) (Legendre.one_sub_sq n)
  have h2 := congrArg (eval x) (Legendre.ode n)
  have h3 := congrArg (eval x) (Legendre.ode3 n)
  have h4 := congrArg (eval x) (Legendre.ode4 n)
  simp only [eval_mul, eval_C, eval_sub, eval_X, eval_one, eval_pow, eval_add, eval_ofNat] at h1 h2 h3 h4
  have a0 : (pass (n + 1) x).pk = (legendre (n + 1)).eval x := by
    unfold pass; simp only [C55_recursion]
  have a1 : (pass (n + 1) x).d1 = (1 - x ^ 2) * (derivative (legendre (n + 1))).eval x := by
    unfold pass; simp only [C55_recursion]; rw [h1]; push_cast; ring
  have a2 : (pass (n + 1) x).dpn = (derivative (legendre (n + 1))).eval x := by
    have : (pass (n + 1) x).dpn = (pass (n + 1) x).d1 * (1 - x * x)⁻¹ := rfl
    rw [this, a1, e]; field_simp
  have a3 : (pass (n + 1) x).d2pn = (derivative^[2] (legendre (n + 1))).eval x := by
    have : (pass (n + 1) x).d2pn = (2 * x * (pass (n + 1) x).dpn -
      (((n + 1 : ℕ) : ℝ) * (((n + 1 : ℕ) : ℝ) + 1)) * (pass (n + 1) x).pk) * (1 - x * x)⁻¹ := rfl
    rw [this, a2, a0, e]
    apply mul_left_cancel₀ hd
    rw [show derivative^[2] (legendre (n + 1)) = derivative (derivative (legendre (n + 1))) from rfl, h2]
    push_cast
    field_simp
    ring
  have a4 : (pass (n + 1) x).d3pn = (derivative^[3] (legendre (n + 1))).eval x := by
    have : (pass (n + 1) x).d3pn = (4 * x * (pass (n + 1) x).d2pn +
      (2 - (((n + 1 : ℕ) : ℝ) * (((n + 1 : ℕ) : ℝ) + 1))) * (pass (n + 1) x).dpn) * (1 - x * x)⁻¹ := rfl
    rw [this, a3, a2, e]
    apply mul_left_cancel₀ hd
    rw [h3]
    push_cast
    field_simp
    ring
  have a5 : (pass (n + 1) x).d4pn = (derivative^[4] (legendre (n + 1))).eval x := by
    have : (pass (n + 1) x).d4pn = (6 * x * (pass (n + 1) x).d3pn +
      (6 - (((n + 1 : ℕ) : ℝ) * (((n + 1 : ℕ) : ℝ) + 1))) * (pass (n + 1) x).d2pn) * (1 - x * x)⁻¹ := rfl
    rw [this, a4, a3, e]
    apply mul_left_cancel₀ hd
    rw [h4]
    push_cast
    field_simp
    ring
  exact ⟨a0, a1, a2, a3, a4, a5⟩

/-- C55: a root of `P_n` is a fixed point of the refinement, and there the result is the Gauss node `-x` with the Gauss
weight `2 / ((1 - x²) P_n'(x)²)`. -/
theorem C55_exact_root (n : ℕ) {x : ℝ} (hx : x ^ 2 ≠ 1) (h0 : (legendre (n + 1)).eval x = 0) :
    (pass (n + 1) x).h = 0 ∧ (pass (n + 1) x).xo = x ∧
    finish (n + 1) (pass (n + 1) x) = (-x, 2 / ((1 - x ^ 2) * ((derivative (legendre (n + 1))).eval x) ^ 2)) := by
  obtain ⟨a0, a1, -⟩ := C55_derivatives n hx
  rw [h0] at a0
  have hpk : (legendreLoop (n + 1) x).2 = 0 := a0
  have hh : (pass (n + 1) x).h = 0 := by
    unfold pass
    simp only [hpk]
    norm_num
  have hxo : (pass (n + 1) x).xo = x := by
    have : (pass (n + 1) x).xo = x + (pass (n + 1) x).h := rfl
    rw [this, hh, add_zero]
  refine ⟨hh, hxo, ?_⟩
  have hd : 1 - x ^ 2 ≠ 0 := fun h => hx (by linarith)
  unfold finish
  simp only [hh, hxo, a0, a1]
  simp only [sub_zero, zero_mul, even_two, Even.neg_pow]
  congr 1
  by_cases hp : (derivative (legendre (n + 1))).eval x = 0
  · rw [hp]; simp
  · field_simp

theorem half_length (n : ℕ) : (half n).length = (n + 1) / 2 := by simp [half, start]

/-- The rule as two lists of length `n`. -/
theorem rule_eq {n : ℕ} (hn : n ≠ 0) {x w : List ℝ} (h : quadratureRule n = .ok (x, w)) :
    x.length = n ∧ w.length = n ∧
    (∀ i, i < n → x.getD i 0 = if i < (n + 1) / 2 then ((half n).map Prod.fst).getD i 0
      else -((half n).map Prod.fst).getD (n - 1 - i) 0) ∧
    (∀ i, i < n → w.getD i 0 = if i < (n + 1) / 2 then ((half n).map Prod.snd).getD i 0
      else ((half n).map Prod.snd).getD (n - 1 - i) 0) := by
  unfold quadratureRule at h
  rw [if_neg hn] at h
  injection h with h
  obtain ⟨h1, h2⟩ := Prod.mk.inj h
  have hlen := half_length n
  have hm : (if (n + 1) / 2 + (n + 1) / 2 ≠ n then (n + 1) / 2 - 1 else (n + 1) / 2) = n / 2 := by
    split_ifs <;> omega
  rw [hm] at h1 h2
  subst h1 h2
  refine ⟨by simp [hlen]; omega, by simp [hlen]; omega, fun i hi => ?_, fun i hi => ?_⟩
  · by_cases hi2 : i < (n + 1) / 2
    · rw [if_pos hi2, List.getD_append _ _ _ _ (by simpa [hlen] using hi2)]
    · rw [if_neg hi2, List.getD_append_right _ _ _ _ (by simp [hlen]; omega)]
      have hlt : i - (n + 1) / 2 < n / 2 := by omega
      simp only [List.length_map, hlen, List.map_map]
      rw [List.getD_eq_getElem?_getD, List.getElem?_map, List.getElem?_range hlt]
      simp only [Option.map_some, Option.getD_some, Function.comp_apply]
      rw [show n / 2 - 1 - (i - (n + 1) / 2) = n - 1 - i by omega]
  · by_cases hi2 : i < (n + 1) / 2
    · rw [if_pos hi2, List.getD_append _ _ _ _ (by simpa [hlen] using hi2)]
    · rw [if_neg hi2, List.getD_append_right _ _ _ _ (by simp [hlen]; omega)]
      have hlt : i - (n + 1) / 2 < n / 2 := by omega
      simp only [List.length_map, hlen, List.map_map]
      rw [List.getD_eq_getElem?_getD, List.getElem?_map, List.getElem?_range hlt]
      simp only [Option.map_some, Option.getD_some, Function.comp_apply]
      rw [show n / 2 - 1 - (i - (n + 1) / 2) = n - 1 - i by omega]

/-- C55: for every `n ≥ 1` the rule has `n` points and `n` weights; `n = 0` raises. -/
theorem C55_length (n : ℕ) :
    (n = 0 → quadratureRule n = .error .zeroDivision) ∧
    (n ≠ 0 → ∃ x w, quadratureRule n = .ok (x, w) ∧ x.length = n ∧ w.length = n) := by
  refine ⟨fun h => by unfold quadratureRule; rw [if_pos h], fun h => ?_⟩
  cases hq : quadratureRule n with
  | error e => unfold quadratureRule at hq; rw [if_neg h] at hq; cases hq
  | ok r => exact ⟨r.1, r.2, rfl, (rule_eq h hq).1, (rule_eq h hq).2.1⟩

/-- The middle point of an odd rule is exactly zero. -/
theorem middle_zero (k : ℕ) : ((half (2 * k + 1)).map Prod.fst).getD k 0 = 0 := by
  have hlt : k < (2 * k + 1 + 1) / 2 := by omega
  unfold half start
  simp only [List.map_map]
  rw [List.getD_eq_getElem?_getD, List.getElem?_map, List.getElem?_range hlt]
  simp only [Option.map_some, Option.getD_some, Function.comp_apply]
  have hcos : cos (π * (4 * ((2 * k + 1 : ℕ) : ℝ) + 2)⁻¹ * (4 * (k : ℝ) + 3)) = 0 := by
    rw [show π * (4 * ((2 * k + 1 : ℕ) : ℝ) + 2)⁻¹ * (4 * (k : ℝ) + 3) = π / 2 by
      push_cast
      have : (4 * (2 * (k:ℝ) + 1) + 2) ≠ 0 := by positivity
      field_simp
      ring]
    exact cos_pi_div_two
  rw [hcos, mul_zero]
  obtain ⟨-, h2, h3⟩ := C55_exact_root (2 * k) (x := 0) (by norm_num) (Legendre.eval_zero_odd k)
  rw [h2, h3]
  simp

/-- C55: the points are antisymmetric and the weights symmetric about the midpoint, for every `n`. -/
theorem C55_symmetry {n : ℕ} {x w : List ℝ} (h : quadratureRule n = .ok (x, w)) (i : ℕ) (hi : i < n) :
    x.getD i 0 = -x.getD (n - 1 - i) 0 ∧ w.getD i 0 = w.getD (n - 1 - i) 0 := by
  obtain ⟨-, -, hx, hw⟩ := rule_eq (by omega) h
  have hi' : n - 1 - i < n := by omega
  rw [hx i hi, hx _ hi', hw i hi, hw _ hi']
  have hii : n - 1 - (n - 1 - i) = i := by omega
  by_cases h1 : i < (n + 1) / 2
  · by_cases h2 : n - 1 - i < (n + 1) / 2
    · -- the middle
      have hm : n - 1 - i = i := by omega
      rw [if_pos h1, if_pos h2, if_pos h1, if_pos h2, hm]
      refine ⟨?_, rfl⟩
      obtain ⟨k, rfl⟩ : ∃ k, n = 2 * k + 1 := ⟨i, by omega⟩
      obtain rfl : i = k := by omega
      rw [middle_zero, neg_zero]
    · rw [if_pos h1, if_neg h2, if_pos h1, if_neg h2, hii, neg_neg]
      exact ⟨rfl, rfl⟩
  · have h2 : n - 1 - i < (n + 1) / 2 := by omega
    rw [if_neg h1, if_pos h2, if_neg h1, if_pos h2]
    exact ⟨rfl, rfl⟩

/-- C55: the one-point rule is exact: the point `0` with weight `2`. -/
theorem C55_one : quadratureRule 1 = .ok ([0], [2]) := by
  have hh : half 1 = [(0, 2)] := by
    have hcos : cos (π * (4 * ((1 : ℕ) : ℝ) + 2)⁻¹ * (4 * ((0 : ℕ) : ℝ) + 3)) = 0 := by
      rw [show π * (4 * ((1 : ℕ) : ℝ) + 2)⁻¹ * (4 * ((0 : ℕ) : ℝ) + 3) = π / 2 by push_cast; field_simp; norm_num]
      exact cos_pi_div_two
    obtain ⟨-, h2, h3⟩ := C55_exact_root 0 (x := 0) (by norm_num) (by simp [Legendre.legendre_one])
    have : half 1 = [finish 1 (pass 1 (pass 1 0).xo)] := by
      unfold half start
      simp only [show (1 + 1) / 2 = 1 from rfl, List.range_one, List.map_cons, List.map_nil, hcos, mul_zero]
    rw [this, h2, h3]
    simp [Legendre.legendre_one]
  unfold quadratureRule
  rw [hh]
  simp

/-- C55 (finding): the correction of a pass is *not* the Newton step on the fourth-order Taylor polynomial of `P_n`:
with `h0` the first correction, the residual divided by `P_n'` contains the fourth-order term with the factor `25`
in place of `1/4`, i.e. it exceeds the Taylor polynomial by `(33/8) h0⁴ P_n⁗(x)`. -/
theorem C55_residual (n : ℕ) {x : ℝ} (hx : x ^ 2 ≠ 1) :
    let D := fun k => (derivative^[k] (legendre (n + 1))).eval x
    let u := D 0 * (D 1)⁻¹
    let v := D 2 * (D 1)⁻¹
    let h0 := -u * (1 + (0.5 * u) * (v + u * (v * v - u * D 3 * (3 * D 1)⁻¹)))
    let taylor := D 0 + h0 * D 1 + h0 ^ 2 / 2 * D 2 + h0 ^ 3 / 6 * D 3 + h0 ^ 4 / 24 * D 4
    let slope := D 1 + h0 * D 2 + h0 ^ 2 / 2 * D 3 + h0 ^ 3 / 6 * D 4
    (pass (n + 1) x).h = h0 - (taylor + 33 / 8 * h0 ^ 4 * D 4) * slope⁻¹ := by
  intro D u v h0 taylor slope
  obtain ⟨a0, a1, a2, a3, a4, a5⟩ := C55_derivatives n hx
  set P := pass (n + 1) x with hP
  have b0 : P.pk = D 0 := a0
  have b1 : P.dpn = D 1 := a2
  have b2 : P.d2pn = D 2 := a3
  have b3 : P.d3pn = D 3 := a4
  have b4 : P.d4pn = D 4 := a5
  have e : P.h =
      (let u := P.pk * P.dpn⁻¹
       let v := P.d2pn * P.dpn⁻¹
       let h := -u * (1 + (0.5 * u) * (v + u * (v * v - u * P.d3pn * (3 * P.dpn)⁻¹)))
       let p := P.pk + h * (P.dpn + (0.5 * h) * (P.d2pn + (h * 3⁻¹) * (P.d3pn + 25 * h * P.d4pn)))
       let dp := P.dpn + h * (P.d2pn + (0.5 * h) * (P.d3pn + h * P.d4pn * 3⁻¹))
       h - p * dp⁻¹) := rfl
  rw [e]
  simp only [b0, b1, b2, b3, b4]
  change h0 - (D 0 + h0 * (D 1 + (0.5 * h0) * (D 2 + (h0 * 3⁻¹) * (D 3 + 25 * h0 * D 4)))) *
    (D 1 + h0 * (D 2 + (0.5 * h0) * (D 3 + h0 * D 4 * 3⁻¹)))⁻¹ = _
  have s1 : D 1 + h0 * (D 2 + (0.5 * h0) * (D 3 + h0 * D 4 * 3⁻¹)) = slope := by simp only [slope]; ring
  have s2 : D 0 + h0 * (D 1 + (0.5 * h0) * (D 2 + (h0 * 3⁻¹) * (D 3 + 25 * h0 * D 4))) =
      taylor + 33 / 8 * h0 ^ 4 * D 4 := by simp only [taylor]; ring
  rw [s1, s2]

end Pystra.Props
