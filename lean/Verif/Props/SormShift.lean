import Verif.Props.SormHessian
import Mathlib.Analysis.Convex.SpecificFunctions.Basic
import Mathlib.Analysis.SpecialFunctions.Log.NegMulLog

/-! C48: the Jacobian used by SORM with finite-difference gradients. -/

namespace Pystra.Props
open Matrix Spec Transformation Form Sorm

variable {n : ℕ}

/-- C48: with finite differences the gradient at `x` is mapped to standard normal space with the inverse Jacobian at the shifted point
`x + stdv / ffdpara` (the limit state moves the caller's array, C07, and SORM computes the Jacobian afterwards); FORM, in contrast,
uses the Jacobian at `x` itself. -/
theorem C48_ffd_jacobian {D : Type} {t : Mats n} {marg : Fin n → Marginal} {expr : Kwargs → GRet} {lo : LSOptions}
    (hmp : lo.multiProc ≠ 0) (hd1 : lo.diffMode ≠ "no") (hd2 : lo.diffMode ≠ "ddm") {stdv x : Fin n → ℝ}
    {ev ev' : Ev D} {G : ℝ} {gu : Fin n → ℝ}
    (h : evaluateLSF t marg (lsEvaluator expr lo stdv) x ev = (ev', .ok (G, gu))) :
    ∃ grad xa J, (lsEvaluator expr lo stdv).withGrad ev x = (ev', .ok (G, grad, xa)) ∧
      xa = (fun j => x j + stdv j / lo.ffdpara) ∧ npInv (jacobian t marg (xToU t marg xa) xa) = .ok J ∧ gu = vecMul grad J := by
  unfold evaluateLSF at h
  split at h
  · cases h
  · next s G' grad x0 he =>
    split at h
    · cases h
    · next J hJ =>
      injection h with h1 h2
      injection h2 with h2
      injection h2 with h2 h3
      subst h1 h2 h3
      refine ⟨grad, x0, J, he, ?_, hJ, rfl⟩
      simp only [lsEvaluator] at he
      split at he
      · cases he
      · cases he
      · next ev1 out ho =>
        rw [(C08_modes _ expr lo hmp stdv _ ev).2 hd2 hd1] at ho
        have hx := (C07_caller_array _ expr lo stdv [x] ev ev1 out).2.2 ho
        injection he with h1 h2
        injection h2 with h2
        injection h2 with h2 h3
        injection h3 with h3 h4
        rw [← h4, hx]; rfl

theorem ratio_mono {a b : ℝ} (ha : 0 < a) (hab : a < b) :
    (1 + a) * Real.log (1 + a) / a < (1 + b) * Real.log (1 + b) / b := by
  have := Real.strictConvexOn_mul_log.secant_strict_mono (a := 1) (x := 1 + a) (y := 1 + b) (by simp) (by simp; linarith)
    (by simp; linarith) (by linarith) (by linarith) (by linarith)
  simpa using this

theorem lognormal_ok {μ s : ℝ} (hμ : 0 < μ) (hs : 0 < s) {sp : Option ℝ} {m : Marginal} (h : Lognormal.new μ s false sp = .ok m) :
    ∃ lamb zeta : ℝ, 0 < zeta ∧ m.uToX = Lognormal.uToX lamb zeta ∧ m.xToU = Lognormal.xToU lamb zeta ∧
      m.jac = Distribution.baseJac (Lognormal.pdf lamb zeta) ∧ m.stdv = s := by
  obtain ⟨m', h', -, hsd, -⟩ := (good_lognormal hμ hs sp).ex
  rw [h] at h'; injection h' with h'; subst h'
  obtain ⟨hz, -⟩ := lognormal_params_spec hμ hs
  refine ⟨(Lognormal.params μ s).1, (Lognormal.params μ s).2, hz, ?_, ?_, ?_, hsd⟩
  all_goals
    unfold Lognormal.new Lognormal.ofParams at h
    simp only [Bool.false_eq_true, if_false] at h
    split at h
    · cases h
    · injection h with h
      rw [← h]

/-- C48: consequently a limit state that is exactly linear in standard normal space is given a curvature: one lognormal variable
(any mean and standard deviation), `g = log x`, finite differences with any positive `ffdpara`, any positive Hessian step, any FORM
result: the Hessian is a negative number although `g(u_to_x(u)) = ζu + λ`. -/
theorem C48_ffd_inexact {D : Type} {μ s : ℝ} (hμ : 0 < μ) (hs : 0 < s) {sp : Option ℝ} {m : Marginal}
    (hm : Lognormal.new μ s false sp = .ok m) {expr : Kwargs → GRet} {g : Dict String ℝ → ℝ}
    (hp : Pointwise expr g) (lo : LSOptions) (hbs : 1 ≤ lo.blockSize) (hpara : 0 < lo.ffdpara) (hmp : lo.multiProc ≠ 0)
    (hd1 : lo.diffMode ≠ "no") (hd2 : lo.diffMode ≠ "ddm") (ev : Ev D) (hmod : Reachable ev.model)
    (hn : ev.model.nMarg ≤ 1) (hne : ev.model.getNames ≠ []) (hq : ∀ p : Fin 1 → ℝ, g (pointArgs ev.model p) = Real.log (p 0))
    (form : Result 1) {para : ℝ} (hpa : 0 < para) :
    (∃ zeta lamb : ℝ, ∀ u : Fin 1 → ℝ, g (pointArgs ev.model (uToX ⟨1, 1⟩ (fun _ => m) u)) = zeta * u 0 + lamb) ∧
    ∃ ev' H, computeHessian ⟨1, 1⟩ (fun _ => m) (lsEvaluator expr lo (fun _ => m.stdv)) form para ev = (ev', .ok H) ∧
      H 0 0 < 0 := by
  obtain ⟨lamb, zeta, hz, e1, e2, e3, e4⟩ := lognormal_ok hμ hs hm
  have hx : ∀ u : Fin 1 → ℝ, uToX ⟨1, 1⟩ (fun _ => m) u 0 = Real.exp (u 0 * zeta + lamb) := by
    intro u
    simp only [uToX, e1, Lognormal.uToX, one_mulVec]
  set h : ℝ := s / lo.ffdpara with hh
  have h0 : 0 < h := div_pos hs hpara
  set X : (Fin 1 → ℝ) → ℝ := fun u => Real.exp (u 0 * zeta + lamb) with hX
  have hX0 : ∀ u, 0 < X u := fun u => Real.exp_pos _
  set G : (Fin 1 → ℝ) → Fin 1 → ℝ := fun u _ => zeta * ((1 + h / X u) * Real.log (1 + h / X u) / (h / X u)) with hG
  have hgiv : Gives ⟨1, 1⟩ (fun _ => m) (lsEvaluator expr lo (fun _ => m.stdv))
      (fun e : Ev D => ∃ k, e.model = ev.model.addCallFunction k) (fun u => Real.log (X u)) G := by
    rintro e ⟨k, hk⟩ u
    have hm' : Reachable e.model := hk ▸ reachable_calls hmod k
    have hargs : ∀ p : Fin 1 → ℝ, pointArgs e.model p = pointArgs ev.model p := fun p => by rw [hk]; rfl
    obtain ⟨e', out, h3, h4, h5, -⟩ := C06_ffd hp lo hbs (fun _ => m.stdv) (uToX ⟨1, 1⟩ (fun _ => m) u) e hm' (hk ▸ hn)
      (hk ▸ hne) (7 + 1) (by omega)
    have he : LimitState.evaluateLsf (7 + 1) expr lo (fun _ => m.stdv) none [uToX ⟨1, 1⟩ (fun _ => m) u] e =
        some (e', .ok out) := by
      rw [(C08_modes (7 + 1) expr lo hmp _ [uToX ⟨1, 1⟩ (fun _ => m) u] e).2 hd2 hd1, h3]
    have hxa := (C07_caller_array _ expr lo _ _ e e' out).2.2 h3
    have hinv : npInv (jacobian ⟨1, 1⟩ (fun _ => m) (xToU ⟨1, 1⟩ (fun _ => m) (fun _ => X u + h)) (fun _ => X u + h)) =
        .ok (diagonal (fun _ : Fin 1 => zeta * (X u + h))) := by
      have hpos : 0 < X u + h := add_pos (hX0 u) h0
      have hj : jacobian ⟨1, 1⟩ (fun _ => m) (xToU ⟨1, 1⟩ (fun _ => m) (fun _ => X u + h)) (fun _ : Fin 1 => X u + h) =
          diagonal (fun _ => 1 / (zeta * (X u + h))) := by
        simp only [jacobian, xToU, e2, e3, one_mulVec, Matrix.one_mul]
        congr 1
        funext i
        simp only [Distribution.baseJac, Lognormal.pdf, Lognormal.xToU, StdNormal.pdf]
        have := Real.exp_pos (-0.5 * ((Real.log (X u + h) - lamb) / zeta) ^ 2)
        have hpi : 0 < √(2 * Real.pi) := Real.sqrt_pos.2 (by positivity)
        have e : Real.exp (-((Real.log (X u + h) - lamb) / zeta) ^ 2 / 2) =
            Real.exp (-0.5 * ((Real.log (X u + h) - lamb) / zeta) ^ 2) := by congr 1; ring
        try rw [e]
        field_simp
      have hmul : diagonal (fun _ : Fin 1 => zeta * (X u + h)) *
          jacobian ⟨1, 1⟩ (fun _ => m) (xToU ⟨1, 1⟩ (fun _ => m) (fun _ => X u + h)) (fun _ => X u + h) = 1 := by
        rw [hj, diagonal_mul_diagonal, ← diagonal_one]
        congr 1
        funext i
        have : zeta * (X u + h) ≠ 0 := (mul_pos hz hpos).ne'
        rw [mul_one_div, div_self this]
      have hu := congrArg det hmul
      rw [det_mul, det_one, mul_comm] at hu
      rw [npInv_of_unit (IsUnit.of_mul_eq_one _ hu), inv_eq_left_inv hmul]
    refine ⟨e', ?_, ?_⟩
    · unfold evaluateLSF
      have hxa' : out.xAfter = [fun _ => X u + h] := by
        rw [hxa]
        simp only [List.map_cons, List.map_nil, List.cons.injEq, and_true]
        funext j
        rw [Subsingleton.elim j 0, hx, e4]
      simp only [lsEvaluator, he, h4, h5, List.getD_cons_zero, hxa', hinv, hargs, hq]
      refine Prod.ext rfl (congrArg Except.ok (Prod.ext ?_ ?_))
      · simp only [hx, hX]
      · funext i
        dsimp only
        rw [Subsingleton.elim i 0, vecMul_diagonal]
        simp only [Function.update_self, hx, e4, ← hh, hG]
        have h1 := hX0 u
        have hl : Real.log (X u + h) - Real.log (X u) = Real.log (1 + h / X u) := by
          rw [← Real.log_div (by positivity) (by positivity)]
          congr 1
          field_simp
        change (Real.log (X u + h) - Real.log (X u)) / h * (zeta * (X u + h)) = _
        rw [hl]
        field_simp
    · have := (C04_counts _ _ _ _ _ _ _ _ _ he).2 out rfl
      change ∃ k, e'.model = ev.model.addCallFunction k
      rw [this, hk]
      exact ⟨_, addCall_addCall _ k _⟩
  refine ⟨⟨zeta, lamb, fun u => by rw [hq, hx, Real.log_exp]; ring⟩, ?_⟩
  obtain ⟨ev', hH, -⟩ := hessian_of_gives hgiv form hpa.ne' ev ⟨0, (addCall_zero _).symm⟩
  refine ⟨ev', _, hH, ?_⟩
  have hlt : X form.point.u < X (Function.update form.point.u 0 (form.point.u 0 + 1 / para)) := by
    simp only [hX, Function.update_self]
    apply Real.exp_lt_exp.2
    have : 0 < 1 / para := by positivity
    nlinarith
  have hr := ratio_mono (div_pos h0 (hX0 _)) (div_lt_div_of_pos_left h0 (hX0 _) hlt)
  apply div_neg_of_neg_of_pos _ (by positivity)
  simp only [hG]
  nlinarith

end Pystra.Props
