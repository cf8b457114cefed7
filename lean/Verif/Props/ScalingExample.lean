import Verif.Props.ScalingStep
import Verif.Props.ScalingSubset
import Verif.Props.ScalingSorm
import Verif.Props.SormExample
import Verif.Props.SormRotation

/-! C89: instances. -/

namespace Pystra.Props
open Matrix Spec Transformation Form LimitState

/-- The hypotheses of the C89 theorems for the code's own evaluator: any limit-state function in kN and in N. -/
example {D : Type} {n : ℕ} (expr : Kwargs → GRet) (lo : LSOptions) (stdv : Fin n → ℝ) (t : Mats n) (marg : Fin n → Marginal)
    (opt : MonteCarlo.Options) (sopt : Subset.Options) (fopt : Form.Options) (hf : fopt.stepSize = 1) (ω υ : ℕ → ℝ) (fuel N : ℕ)
    (ev : Ev D) :
    RelOut (SameEstimate fun a b => b = 1000 * a)
      (MonteCarlo.run t marg (lsEvaluator expr lo stdv) opt none ω 0 fuel ev)
      (MonteCarlo.run t marg (lsEvaluator (fun kw => scaleRet 1000 (expr kw)) lo stdv) opt none ω 0 fuel ev) ∧
    LineSampling.run t marg (lsEvaluator (fun kw => scaleRet 1000 (expr kw)) lo stdv) fopt none N ω fuel ev =
      LineSampling.run t marg (lsEvaluator expr lo stdv) fopt none N ω fuel ev ∧
    (Subset.run t marg (lsEvaluator (fun kw => scaleRet 1000 (expr kw)) lo stdv) sopt ω υ fuel ev).isSome =
      (Subset.run t marg (lsEvaluator expr lo stdv) sopt ω υ fuel ev).isSome := by
  have he := lsEvaluator_scaled (D := D) (c := 1000) expr lo stdv
  refine ⟨C89_simulation ?_ he.rel opt none ω 0 fuel ev, C89_line (by norm_num) he fopt none (fun _ => Or.inl (by rw [hf]; norm_num)) N ω fuel ev, ?_⟩
  · rintro a b rfl
    exact (Brent.neg_scaled (by norm_num)).symm
  · rw [C89_subset (by norm_num) he]
    rw [Option.isSome_map]

/-- Two limit-state functions with the same failure domain, `x` and `x³`, one of them far from the other's scale everywhere. -/
example : RelValues (n := 1) (fun a b => a < 0 ↔ b < 0) (⟨fun _ x => ((), .ok (x 0, fun _ => 1, x)), fun _ xs => ((), .ok (xs.map fun x => x 0))⟩ : Evaluator Unit 1)
    ⟨fun _ x => ((), .ok (x 0 ^ 3, fun _ => 3 * x 0 ^ 2, x)), fun _ xs => ((), .ok (xs.map fun x => x 0 ^ 3))⟩ := by
  intro s xs
  refine ⟨rfl, ?_⟩
  simp only [RelOk, List.forall₂_map_left_iff, List.forall₂_map_right_iff]
  exact List.forall₂_same.2 (fun x _ => (Odd.pow_neg_iff (by decide)).symm)

/-- The limit state `c · cos x₁` of two variables. -/
noncomputable def cosEval (c : ℝ) : Evaluator Unit (1 + 1) :=
  ⟨fun _ x => ((), .ok (c * Real.cos (x 0), fun i => c * ![-Real.sin (x 0), 0] i, x)), fun _ xs => ((), .ok (xs.map fun x => c * Real.cos (x 0)))⟩

/-- An instance of `C89_pointfit`: a bounded limit state, in a unit `10⁷` times larger. -/
example : ∃ (t : Mats (1 + 1)) (marg : Fin (1 + 1) → Marginal) (form : Result (1 + 1)) (r : Sorm.SResult),
    Sorm.runPointfit t marg (cosEval 1e-7) form false () = ((), .ok r) ∧ r.kappa = [0] ∧ r.breitung.pf = .fin (StdNormal.cdf (-2)) := by
  obtain ⟨R, hR⟩ := (C47_defined (m := 1) ![3 / 5, 4 / 5] (by simp [dotProduct, Fin.sum_univ_two]; norm_num)).2.1 (by norm_num)
    (by simp [Fin.last]; norm_num)
  have hm : ∀ i : Fin (1 + 1), ∃ m, Normal.new 0 (.fin (1 : ℝ)) none = .ok m := fun i => ⟨_, rfl⟩
  choose marg hmarg using hm
  obtain ⟨s', r, h1, h2, -, h3, -⟩ := C89_pointfit (t := ⟨1, 1⟩) (marg := marg) (ev := cosEval 1) (ev' := cosEval 1e-7) (c := 1e-7) (B := 1)
    (P := fun _ => True) (R := R)
    (form := ⟨1, ⟨0, 0, 0, 1, 0, 0⟩, 0, ![3 / 5, 4 / 5], 2, 0⟩)
    ⟨fun s x => by simp [cosEval, mapOk], fun s xs => by simp [cosEval, mapOk]⟩ (by norm_num [abs_of_pos])
    (fun s x _ => by
      refine ⟨(), 1 * Real.cos (x 0), vecMul (fun i => 1 * ![-Real.sin (x 0), 0] i) (diagonal (fun _ => 1) * 1), ?_, ?_, trivial⟩
      · unfold Sorm.evaluateLSF cosEval
        dsimp only
        rw [normal_jacobian_inv (by simp) (μ := fun _ => 0) (sd := fun _ => 1) (fun _ => one_pos) hmarg]
      · rw [one_mul]; exact Real.abs_cos_le_one _)
    hR (by norm_num) () trivial
  exact ⟨_, _, _, r, h1, by simpa using h2, h3⟩

end Pystra.Props
