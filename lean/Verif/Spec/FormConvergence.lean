import Verif.Spec.Form
import Verif.Spec.MonteCarlo

/-! Specification vocabulary for the convergence of FORM. -/

namespace Pystra.Spec
open Transformation

variable {σ : Type} {n : ℕ}

/-- The options a run may have: a fixed step size between 0 and 1, or (`step_size = 0`, the default) the step size rule of the code, for
which the limit state must deliver its values `f` without gradients too. -/
def StepRule (opt : Form.Options) (ev : Form.Evaluator σ n) (P : σ → Prop) (f : (Fin n → ℝ) → ℝ) : Prop :=
  (0 < opt.stepSize ∧ opt.stepSize ≤ 1) ∨ (opt.stepSize = 0 ∧ opt.multiProc = 1 ∧ Values ev P f)

open Classical in
/-- The shortest step the options allow: the fixed step size, or `2⁻⁵` under the step size rule. -/
noncomputable def minStep (opt : Form.Options) : ℝ := if opt.stepSize = 0 then 1 / 32 else opt.stepSize

/-- Linear convergence of FORM from the starting point `x0` to the design point `us` at the signed distance `β`, with the rate `ρ`
for full steps, the constant `C` and up to the accuracy `η`.  With `θ = 1 - s (1 - ρ)`, where `s` is the shortest step (so `θ = ρ` for
`step_size = 1`), every run ends with a result;
* after `i` passes the reported design point and reliability index are within `C (θ^(i-1) D + η)`, where `D` is the initial distance;
* unless the iteration limit was hit, they are within `C (e1 |g(start)| + e2 + η)`;
* if the limit state is not zero at the start, the run needs no more than `N` passes as soon as `C (θ^(N-1) D + η)` is below
`e1 |g(start)|` and `e2`. -/
def ConvergesFrom (t : Mats n) (marg : Fin n → Marginal) (ev : Form.Evaluator σ n) (P : σ → Prop) (f : (Fin n → ℝ) → ℝ)
    (us : Fin n → ℝ) (β : ℝ) (x0 : Fin n → ℝ) (ρ C η : ℝ) : Prop :=
  ∀ (opt : Form.Options), StepRule opt ev P f → 1 ≤ opt.iMax → ∀ (fuel : ℕ), opt.iMax ≤ fuel → ∀ (s : σ), P s →
    ∃ r s', Form.runFrom t (fun i => { marg i with startpoint := x0 i }) ev opt fuel s = some (.done r s') ∧
      (1 ≤ r.i ∧ r.i ≤ opt.iMax) ∧
      (len (fun i => r.point.u i - us i) ≤
          C * ((1 - minStep opt * (1 - ρ)) ^ (r.i - 1) * len (fun i => xToU t marg x0 i - us i) + η) ∧
        |r.beta - β| ≤ C * ((1 - minStep opt * (1 - ρ)) ^ (r.i - 1) * len (fun i => xToU t marg x0 i - us i) + η)) ∧
      (r.i ≠ opt.iMax →
        len (fun i => r.point.u i - us i) ≤ C * (opt.e1 * |f (uToX t marg (xToU t marg x0))| + opt.e2 + η) ∧
        |r.beta - β| ≤ C * (opt.e1 * |f (uToX t marg (xToU t marg x0))| + opt.e2 + η)) ∧
      (f (uToX t marg (xToU t marg x0)) ≠ 0 → ∀ N, 1 ≤ N →
        C * ((1 - minStep opt * (1 - ρ)) ^ (N - 1) * len (fun i => xToU t marg x0 i - us i) + η) <
          opt.e1 * |f (uToX t marg (xToU t marg x0))| →
        C * ((1 - minStep opt * (1 - ρ)) ^ (N - 1) * len (fun i => xToU t marg x0 i - us i) + η) < opt.e2 → r.i ≤ N)

end Pystra.Spec
