import Verif.Model.Basic
import Mathlib.Analysis.SpecialFunctions.Trigonometric.Basic

/-!
Model of src/pystra/quadrature.py: `quadratureRule(n)` (Gauss–Legendre; `wfun`, `alpha`, `beta` at their defaults).
The numpy code works on the array `xo` elementwise; the model works on one element and maps.
-/

namespace Pystra.Quadrature
open Real

/-- Lines 64–69: the inner loop `for k in range(2, n + 1)`; returns `(pkm1, pk)`. -/
noncomputable def legendreLoop (n : ℕ) (xo : ℝ) : ℝ × ℝ :=
  (List.range' 2 (n - 1)).foldl
    (fun st (k : ℕ) =>
      let pkm1 := st.1
      let pk := st.2
      let t1 := xo * pk
      let pkp1 := t1 - pkm1 - (t1 - pkm1) * (k : ℝ)⁻¹ + t1
      (pk, pkp1))
    (1, xo)

/-- The variables of one pass of the refinement loop (lines 63–84). -/
structure Pass where
  /-- `pk` -/
  pk : ℝ
  /-- `d1` -/
  d1 : ℝ
  /-- `dpn` -/
  dpn : ℝ
  /-- `d2pn` -/
  d2pn : ℝ
  /-- `d3pn` -/
  d3pn : ℝ
  /-- `d4pn` -/
  d4pn : ℝ
  /-- `h` -/
  h : ℝ
  /-- `xo` after the pass -/
  xo : ℝ

/-- One pass (lines 64–84), including the factor `25 * h` of line 81. -/
noncomputable def pass (n : ℕ) (xo : ℝ) : Pass :=
  let e1 : ℝ := n * (n + 1)
  let (pkm1, pk) := legendreLoop n xo
  let den := 1 - xo * xo
  let d1 := n * (pkm1 - xo * pk)
  let dpn := d1 * den⁻¹
  let d2pn := (2 * xo * dpn - e1 * pk) * den⁻¹
  let d3pn := (4 * xo * d2pn + (2 - e1) * dpn) * den⁻¹
  let d4pn := (6 * xo * d3pn + (6 - e1) * d2pn) * den⁻¹
  let u := pk * dpn⁻¹
  let v := d2pn * dpn⁻¹
  let h := -u * (1 + (0.5 * u) * (v + u * (v * v - u * d3pn * (3 * dpn)⁻¹)))
  let p := pk + h * (dpn + (0.5 * h) * (d2pn + (h * 3⁻¹) * (d3pn + 25 * h * d4pn)))
  let dp := dpn + h * (d2pn + (0.5 * h) * (d3pn + h * d4pn * 3⁻¹))
  let h := h - p * dp⁻¹
  { pk := pk, d1 := d1, dpn := dpn, d2pn := d2pn, d3pn := d3pn, d4pn := d4pn, h := h, xo := xo + h }

/-- Lines 85–94: abscissa and weight from the last pass. -/
noncomputable def finish (n : ℕ) (s : Pass) : ℝ × ℝ :=
  let e1 : ℝ := n * (n + 1)
  let bp := -s.xo - s.h
  let fx := s.d1 - s.h * e1 * (s.pk + (s.h * 0.5) * (s.dpn + (s.h * 3⁻¹) * (s.d2pn + (s.h * 4⁻¹) * (s.d3pn + (0.2 * s.h) * s.d4pn))))
  (bp, 2 * (1 - bp ^ 2) * (fx * fx)⁻¹)

/-- Lines 55–62: the starting values; `m = fix((n + 1)/2)`, `vec = 3, 7, …, 4m - 1`. -/
noncomputable def start (n : ℕ) : List ℝ :=
  let m := (n + 1) / 2
  let nn : ℝ := 1 - (1 - 1 * (n : ℝ)⁻¹) * (8 * n * n : ℝ)⁻¹
  (List.range m).map (fun (i : ℕ) => nn * cos ((π * (4 * n + 2 : ℝ)⁻¹) * (4 * i + 3 : ℝ)))

/-- The first half: abscissas and weights after `iter = 2` passes. -/
noncomputable def half (n : ℕ) : List (ℝ × ℝ) := (start n).map (fun x => finish n (pass n (pass n x).xo))

/-- `quadratureRule(n)` (quadrature.py 13–108).  `n = 0` raises `ZeroDivisionError` (line 61: `n ** (-1)` on an
integer).  The assignment `bp[m - 1] = 0` is dead code: its condition `2(m - 1) > n - 1` is false for every `n`. -/
noncomputable def quadratureRule (n : ℕ) : Except PyErr (List ℝ × List ℝ) :=
  if n = 0 then .error .zeroDivision
  else
    let bp := (half n).map Prod.fst
    let wf := (half n).map Prod.snd
    let m := (n + 1) / 2
    let m := if m + m ≠ n then m - 1 else m
    let n1j := (List.range m).map (fun jj => m - 1 - jj)
    .ok (bp ++ n1j.map (fun i => -bp.getD i 0), wf ++ n1j.map (fun i => wf.getD i 0))

end Pystra.Quadrature
