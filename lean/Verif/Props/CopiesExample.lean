import Verif.Props.CdfDifferencesMore

/-! C85 and C86: cases that meet the hypotheses. -/

namespace Pystra.Props
open Real Set Spec Distribution Family

/-- Solvers that always return the same numbers. -/
noncomputable def fixedSolvers : Solvers := ⟨fun _ _ => 2, fun _ _ => 3, fun _ _ _ _ => 2⟩

/-- A uniform variable on [2, 5], given by its bounds, with a start point of its own. -/
example : ∃ o c, Family.uniform.object fixedSolvers 2 5 [] true (some 4) = .ok o ∧ o.makeCopy [] = .ok c ∧ Rebuilt o c :=
  C85_copy _ _ _ _ _ _ [] _ rfl (by norm_num [Reproducible])

/-- A Weibull variable given by mean and standard deviation, whose solver finds the shape 2. -/
example : ∃ o c, Family.weibull.object fixedSolvers (1 + Gamma (1 + 1 / 2)) (√(Gamma (1 + 2 / 2) - Gamma (1 + 1 / 2) ^ 2))
    [("epsilon", 1)] false none = .ok o ∧ o.makeCopy [] = .ok c ∧ Rebuilt o c :=
  C85_copy _ _ _ _ _ _ [("epsilon", 1)] _ (by simp [Family.bind, Family.keywords, Family.bindAll, Dict.get?]) (by
    have hG : 0 < Gamma (1 + 1 / 2) := Gamma_pos_of_pos (by norm_num)
    simp only [Reproducible, Family.arg, Dict.get?, fixedSolvers, Weibull.parameter, if_true, Option.getD_some]
    refine ⟨by linarith, by norm_num, ?_⟩
    rw [add_sub_cancel_left, div_mul_cancel₀ _ hG.ne', sub_self])

/-- A Beta variable with exponents 2 and 3 on [0, 1]. -/
example : ∃ o c, Family.beta.object fixedSolvers 2 3 [] true none = .ok o ∧ o.makeCopy [] = .ok c ∧ Rebuilt o c :=
  C85_copy _ _ _ _ _ _ [("a", 0), ("b", 1)] _ (by simp [Family.bind, Family.keywords, Family.bindAll, Dict.get?])
    (by simp [Reproducible, fixedSolvers, Family.arg, Dict.get?])

theorem gev_tenth_bind : Family.gevMax.bind [("shape", 0.1)] = .ok [("shape", 0.1)] := bind_of_keys rfl

theorem gev_tenth_arg : Family.arg [("shape", (0.1 : ℝ))] "shape" = 0.1 := by simp [Family.arg, Dict.get?]

theorem gev_tenth (inp : Bool) (p : ℝ) {q : ℝ} (hq : 0 < q) : Reproducible fixedSolvers .gevMax inp p q [("shape", 0.1)] := by
  cases inp <;> simp only [Reproducible, gev_tenth_arg] <;> refine ⟨hq, by norm_num, Or.inr ?_⟩ <;> rw [abs_of_pos] <;> norm_num

/-- A GEV variable given by location and scale. -/
example : ∃ o c, Family.gevMax.object fixedSolvers 20 3 [("shape", 0.1)] true none = .ok o ∧ o.makeCopy [] = .ok c ∧ Rebuilt o c :=
  C85_copy _ _ _ _ _ _ _ _ gev_tenth_bind (gev_tenth true 20 (by norm_num))

/-- Standard deviation 10: the sensitivities are there. -/
example : ∃ o, Family.gevMax.object fixedSolvers 100 10 [("shape", 0.1)] false none = .ok o ∧
    ∀ x, o.dFDtheta x = .ok (cdfDifferences fixedSolvers .gevMax [("shape", 0.1)] o.marg.mean o.marg.stdv x) := by
  obtain ⟨o, ho, h⟩ := C86_total fixedSolvers .gevMax (by simp [explicitFamilies]) false 100 10 _ _ none gev_tenth_bind
    (gev_tenth false 100 (by norm_num))
  refine ⟨o, ho, h (by simp) fun _ => ?_⟩
  obtain ⟨m, hm, rfl⟩ := object_ok gev_tenth_bind ho
  obtain ⟨m', hm', _, h2, _⟩ := (good_gevMax (σ := 10) (s := 0.1) 100 (by norm_num) (by norm_num)
    (Or.inr (by rw [abs_of_pos] <;> norm_num)) none).ex
  have hm0 : GEV.newMax 100 10 (Family.arg [("shape", (0.1 : ℝ))] "shape") false none = .ok m := hm
  rw [gev_tenth_arg] at hm0
  rw [hm0] at hm'
  cases hm'
  rw [gev_tenth_arg]
  simp only [h2, step]
  rw [abs_of_pos (by norm_num)]
  norm_num

/-- The same quantity with a standard deviation of `1e8` (another unit): they are not. -/
example : ∃ o, Family.gevMax.object fixedSolvers 1e9 1e8 [("shape", 0.1)] false none = .ok o ∧ ∀ x, o.dFDtheta x = .error .valueError := by
  obtain ⟨o, ho, h⟩ := C86_shape_step fixedSolvers .gevMax (Or.inl rfl) false 1e9 1e8 _ _ none gev_tenth_bind
    (gev_tenth false 1e9 (by norm_num))
  refine ⟨o, ho, h ?_⟩
  obtain ⟨m, hm, rfl⟩ := object_ok gev_tenth_bind ho
  obtain ⟨m', hm', _, h2, _⟩ := (good_gevMax (σ := 1e8) (s := 0.1) 1e9 (by norm_num) (by norm_num)
    (Or.inr (by rw [abs_of_pos] <;> norm_num)) none).ex
  have hm0 : GEV.newMax 1e9 1e8 (Family.arg [("shape", (0.1 : ℝ))] "shape") false none = .ok m := hm
  rw [gev_tenth_arg] at hm0
  rw [hm0] at hm'
  cases hm'
  rw [gev_tenth_arg]
  simp only [h2, step]
  rw [abs_of_pos (by norm_num)]
  norm_num

/-- The entry for the mean of a Gumbel variable with mean 10 and standard deviation 2, with step `1e-5`. -/
example (x : ℝ) : ∃ t ∈ Ioo (10 - 1e-5 : ℝ) (10 + 1e-5),
    central (fun t => Family.gumbel.construct fixedSolvers t 2 [] false none) 10 1e-5 x =
      -pdfAt (Family.gumbel.construct fixedSolvers t 2 [] false none) x := by
  refine (C86_location_scale fixedSolvers .gumbel (by simp [locationScale]) 10 (by norm_num) (by norm_num) x).1 fun t _ => ?_
  obtain ⟨m, hm, _⟩ := (good_gumbel t (σ := 2) (by norm_num) none).ex
  have hm' : Family.gumbel.construct fixedSolvers t 2 [] false none = .ok m := hm
  rw [hm']
  simp only [cdfAt, (ofFrozen_ok hm).2.1]
  have := Frozen.regular_gumbelR.mem01 ((x - (t - 0.5772156649 * 2 * √6 / π)) / (2 * √6 / π)) (mem_univ _)
  exact this

example : Reproducible fixedSolvers .chiSquare true 6 0 [] := by norm_num [Reproducible]

end Pystra.Props
