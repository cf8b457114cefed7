import Verif.Model.Sorm

/-!
The runs of SORM with their parts written out.
-/

namespace Pystra.Sorm
open Transformation Form Matrix

variable {σ : Type} {m : ℕ}

theorem runCurvefit_eq (eig : Matrix (Fin m) (Fin m) ℝ → List ℝ) (t : Mats (m + 1)) (marg : Fin (m + 1) → Marginal)
    (ev : Evaluator σ (m + 1)) (form : Result (m + 1)) (ffdpara : ℝ) (print : Bool) (s : σ) :
    runCurvefit eig t marg ev form ffdpara print s =
      match computeHessian t marg ev form ffdpara s with
      | (s, .error e) => (s, .error e)
      | (s, .ok hess) =>
        match orthonormalMatrix form.alpha with
        | .error e => (s, .error e)
        | .ok R =>
          let A := (norm2 form.point.gradient)⁻¹ • (R * hess * Rᵀ)
          let kappa := sort (eig (A.submatrix Fin.castSucc Fin.castSucc))
          (s, finish print { betaHL := form.beta, kappa := kappa, kappaPf := none, breitung := pfBreitung form.beta kappa
                             breitungM := pfBreitungM form.beta kappa }) := by
  unfold runCurvefit fitCurvatures computeHessian
  generalize computeHessianAt t marg ev (designPoint t marg form false) (designPoint t marg form true) ffdpara s = x
  rcases x with ⟨s, e | hess⟩
  · rfl
  · dsimp only
    generalize orthonormalMatrix form.alpha = y
    rcases y with e | R <;> rfl

open Classical in
theorem runPointfit_eq (t : Mats (m + 1)) (marg : Fin (m + 1) → Marginal)
    (ev : Evaluator σ (m + 1)) (form : Result (m + 1)) (print : Bool) (s : σ) :
    runPointfit t marg ev form print s =
      match orthonormalMatrix form.alpha with
      | .error e => (s, .error e)
      | .ok R =>
        if form.beta = 0 then (s, .error .runtimeError)
        else
          match fitAxes t marg ev R form.beta (stepCoeff form.beta) (List.finRange m) s with
          | (s, .error e) => (s, .error e)
          | (s, .ok l) =>
            let km := l.map Prod.fst
            let kp := l.map Prod.snd
            (s, finish print { betaHL := form.beta, kappa := sort (l.map (fun p => 0.5 * (p.1 + p.2))), kappaPf := some (km, kp)
                               breitung := pfBreitungPf form.beta km kp, breitungM := pfBreitungMPf form.beta km kp }) := by
  unfold runPointfit fitPoints
  generalize orthonormalMatrix form.alpha = y
  rcases y with e | R
  · rfl
  · dsimp only
    split_ifs
    · rfl
    · generalize fitAxes t marg ev R form.beta (stepCoeff form.beta) (List.finRange m) s = x
      rcases x with ⟨s, e | l⟩ <;> rfl

end Pystra.Sorm
