import Verif.Props.ScalingForm
import Verif.Props.FormArmijo

/-! C89: the automatic step size of FORM depends on the unit of the limit-state function. -/

namespace Pystra.Props
open Matrix Spec Transformation Form LimitState

/-- The limit state `c · (1 - x/10)` of one variable, with its gradient. -/
noncomputable def unitEval (c : ℝ) : Evaluator Unit 1 :=
  ⟨fun _ x => ((), .ok (c + ∑ i, (fun _ => -(c / 10)) i * x i, fun _ => -(c / 10), x)),
    fun _ xs => ((), .ok (xs.map fun x => c + ∑ i, (fun _ => -(c / 10)) i * x i))⟩

theorem unit_x {m : Marginal} (hm : Normal.new 0 (.fin 1) none = .ok m) (u : Fin 1 → ℝ) : uToX ⟨1, 1⟩ (fun _ => m) u = u := by
  funext i
  unfold uToX
  simp [(normal_ok hm).1, Normal.uToX]

theorem unit_linearise {m : Marginal} (hm : Normal.new 0 (.fin 1) none = .ok m) (c : ℝ) (u : Fin 1 → ℝ) :
    ∃ p : Point 1, linearise ⟨1, 1⟩ (fun _ => m) (unitEval c) u () = ((), .ok p) ∧ p.u = u ∧
      p.G = c - c / 10 * u 0 ∧ p.gradient = fun _ => -(c / 10) := by
  have h := normal_linearise (n := 1) (t := ⟨1, 1⟩) (marg := fun _ => m) (μ := fun _ => 0) (sd := fun _ => 1) (sp := fun _ => none)
    (fun _ => hm) (by simp) (by simp) (by simp) c (fun _ => -(c / 10)) (ev := unitEval c) (P := fun _ => True)
    (fun s _ x => ⟨(), x, rfl, trivial⟩) u () trivial
  obtain ⟨_, p, h1, -, h2, -, h3, h4⟩ := h
  refine ⟨p, h1, h2, ?_, ?_⟩
  · rw [h4]; simp [dotProduct]; ring
  · rw [h3]; simp

theorem norm2_one (v : Fin 1 → ℝ) : norm2 v = |v 0| := by
  unfold norm2; simp [Real.sqrt_sq_eq_abs]

/-- The values the step rule compares, and the step it chooses. -/
theorem unit_step {m : Marginal} (hm : Normal.new 0 (.fin 1) none = .ok m) (c : ℝ) {opt : Form.Options} (h0 : opt.stepSize = 0)
    (h1 : opt.multiProc = 1) :
    getStepSize ⟨1, 1⟩ (fun _ => m) (unitEval c) opt c (fun _ => -(c / 10)) (fun _ => 0) (fun _ => 10) () =
      ((), .ok (armijoLoop (10 * |c|) (fun j => 0.5 ^ j) (fun j => if j < 6 then 50 * (0.5 ^ j) ^ 2 + 10 * |c * (1 - 0.5 ^ j)| else
        50 * (0.5 ^ j) ^ 2) 6 0 1 50)) := by
  unfold getStepSize
  rw [if_pos h0]
  unfold computeStepSize
  rw [if_pos h1]
  have hx : ∀ v, uToX ⟨1, 1⟩ (fun _ => m) v = v := unit_x hm
  simp only [hx]
  unfold unitEval
  dsimp only
  have hc : meritC (fun _ : Fin 1 => (0:ℝ)) (fun _ => -(c / 10)) = 10 := by
    unfold meritC; rw [norm2_one]; simp
  have hf : (fun j => merit (meritC (fun _ : Fin 1 => (0:ℝ)) (fun _ => -(c / 10))) (fun _ : Fin 1 => (0:ℝ) * 1 + 10 * 0.5 ^ j)
      ((List.map (fun x : Fin 1 → ℝ => c + ∑ i, -(c / 10) * x i)
        (List.map (fun j (i : Fin 1) => (0:ℝ) * 1 + 10 * 0.5 ^ j) (List.range 6))).getD j 0)) =
      (fun j : ℕ => if j < 6 then 50 * ((0.5:ℝ) ^ j) ^ 2 + 10 * |c * (1 - 0.5 ^ j)| else 50 * ((0.5:ℝ) ^ j) ^ 2) := by
    funext j
    rw [hc]
    unfold merit
    rw [norm2_one, List.map_map, List.getD_eq_getElem?_getD, List.getElem?_map]
    by_cases hj : j < 6
    · rw [List.getElem?_range hj, if_pos hj]
      simp only [Option.map_some, Option.getD_some, Function.comp, Fin.sum_univ_one, sq_abs]
      rw [show c + -(c / 10) * (0 * 1 + 10 * 0.5 ^ j) = c * (1 - 0.5 ^ j) by ring]
      ring
    · rw [List.getElem?_eq_none (by simpa using hj), if_neg hj]
      simp only [Option.map_none, Option.getD_none, abs_zero, sq_abs]
      ring
  rw [hf, hc]
  have hm0 : merit 10 (fun _ : Fin 1 => (0:ℝ)) c = 10 * |c| := by
    unfold merit; rw [norm2_one]; simp
  rw [hm0]
  have h50 : merit 10 (fun _ : Fin 1 => (10:ℝ)) 0 = 50 := by
    unfold merit; rw [norm2_one]; norm_num
  simp [h50]

theorem unit_run {m : Marginal} (hm : Normal.new 0 (.fin 1) none = .ok m) (c : ℝ) (hc : 0 < c) {opt : Form.Options}
    (hi : opt.iMax = 2) (he : opt.e1 ≤ 1) (h0 : opt.stepSize = 0) (h1 : opt.multiProc = 1) {st : ℝ}
    (hst : armijoLoop (10 * |c|) (fun j => 0.5 ^ j) (fun j => if j < 6 then 50 * (0.5 ^ j) ^ 2 + 10 * |c * (1 - 0.5 ^ j)| else
        50 * (0.5 ^ j) ^ 2) 6 0 1 50 = st) :
    ∃ r, (∀ fuel, 2 ≤ fuel → runFrom ⟨1, 1⟩ (fun _ => m) (unitEval c) opt fuel () = some (.done r ())) ∧ r.beta = 10 * st ∧ r.i = 2 ∧
      r.point.u = fun _ => 10 * st := by
  have hal : alpha (n := 1) (fun _ => -(c / 10)) = fun _ => 1 := by
    funext i; unfold alpha; rw [norm2_one, abs_neg, abs_of_pos (by positivity)]; field_simp
  have hg : (fun _ : Fin 1 => -(c / 10)) ≠ 0 := by
    intro h; have := congrFun h 0; simp at this; exact hc.ne' this
  have hsp : startingPoint ⟨1, 1⟩ (fun _ : Fin 1 => m) = fun _ => 0 := by
    funext i
    unfold startingPoint xToU
    simp [(normal_ok hm).2.2.1, (normal_ok hm).2.2.2.2.2, Normal.xToU]
  obtain ⟨p, hp, hpu, hpG, hpg⟩ := unit_linearise hm c (fun _ => 0)
  obtain ⟨q, hq, hqu, hqG, hqg⟩ := unit_linearise hm c (fun _ => 10 * st)
  have hpG' : p.G = c := by rw [hpG]; ring
  have hd : direction c (fun _ => -(c / 10)) (fun _ : Fin 1 => 1) (fun _ => 0) = fun _ => 10 := by
    funext i; unfold direction; rw [norm2_one, abs_neg, abs_of_pos (by positivity)]; simp; field_simp
  have i1 : iteration ⟨1, 1⟩ (fun _ => m) (unitEval c) opt 1 0 (fun _ => 0) () = .next c (fun _ => 10 * st) () := by
    unfold iteration
    rw [hp]
    dsimp only
    rw [hpg, if_neg hg, hal, hpG', if_pos rfl]
    have hno : ((cond1 opt c c && cond2 opt (fun _ => 0) fun _ : Fin 1 => 1) || decide (1 = opt.iMax)) = false := by
      have : cond1 opt c c = false := by
        unfold cond1
        rw [mul_inv_cancel₀ hc.ne', abs_one]
        simpa using fun _ => he
      rw [this, hi]; simp
    rw [hno, if_neg (by simp), hd, unit_step hm c h0 h1, hst]
    dsimp only
    congr 1
    funext k; ring
  have i2 : ∃ r, iteration ⟨1, 1⟩ (fun _ => m) (unitEval c) opt 2 c (fun _ => 10 * st) () = .done r () ∧ r.beta = 10 * st ∧ r.i = 2 ∧
      r.point.u = fun _ => 10 * st := by
    unfold iteration
    rw [hq]
    dsimp only
    rw [hqg, if_neg hg, hal, hi]
    simp only [decide_true, Bool.or_true, if_true]
    refine ⟨_, rfl, ?_, rfl, hqu⟩
    simp [dotProduct]
  obtain ⟨r, hr, h⟩ := i2
  refine ⟨r, fun fuel hf => ?_, h⟩
  obtain ⟨f, rfl⟩ : ∃ f, fuel = f + 2 := ⟨fuel - 2, by omega⟩
  unfold runFrom
  rw [hsp]
  unfold loop
  rw [i1]
  dsimp only
  unfold loop
  rw [hr]

/-- **C89** (automatic step).  With the default step rule the run does depend on the unit of the limit-state function: for one standard
normal variable and the limit states `1 - x/10` and ten times that, and two iterations, FORM stops at `β = 5/4` and at `β = 10`. -/
theorem C89_automatic_step : ∃ (m : Marginal) (r r' : Result 1), Normal.new 0 (.fin 1) none = .ok m ∧
    (∀ x, (unitEval 1).withGrad () x = ((), .ok (1 - x 0 / 10, fun _ => -(1 / 10), x))) ∧ ScaledEval 10 (unitEval 1) (unitEval 10) ∧
    (∀ fuel, 2 ≤ fuel →
      runFrom ⟨1, 1⟩ (fun _ => m) (unitEval 1) ⟨2, 0.001, 0.001, 0, 1⟩ fuel () = some (.done r ()) ∧
      runFrom ⟨1, 1⟩ (fun _ => m) (unitEval 10) ⟨2, 0.001, 0.001, 0, 1⟩ fuel () = some (.done r' ())) ∧
    r.beta = 5 / 4 ∧ r'.beta = 10 := by
  obtain ⟨m, hm⟩ : ∃ m, Normal.new 0 (.fin 1) none = .ok m := ⟨_, rfl⟩
  have s1 : armijoLoop (10 * |(1:ℝ)|) (fun j => 0.5 ^ j) (fun j => if j < 6 then 50 * (0.5 ^ j) ^ 2 + 10 * |(1:ℝ) * (1 - 0.5 ^ j)| else
        50 * (0.5 ^ j) ^ 2) 6 0 1 50 = 1 / 8 := by
    unfold armijoLoop
    rw [if_pos (by norm_num)]
    unfold armijoLoop
    rw [if_pos (by norm_num)]
    unfold armijoLoop
    rw [if_pos (by norm_num [abs_of_pos])]
    unfold armijoLoop
    rw [if_pos (by norm_num [abs_of_pos])]
    unfold armijoLoop
    rw [if_neg (by norm_num [abs_of_pos])]
    norm_num
  have s2 : armijoLoop (10 * |(10:ℝ)|) (fun j => 0.5 ^ j) (fun j => if j < 6 then 50 * (0.5 ^ j) ^ 2 + 10 * |(10:ℝ) * (1 - 0.5 ^ j)| else
        50 * (0.5 ^ j) ^ 2) 6 0 1 50 = 1 := by
    unfold armijoLoop
    rw [if_neg (by norm_num)]
  have key : ∀ c st : ℝ, 0 < c → armijoLoop (10 * |c|) (fun j => 0.5 ^ j) (fun j => if j < 6 then 50 * (0.5 ^ j) ^ 2 +
      10 * |c * (1 - 0.5 ^ j)| else 50 * (0.5 ^ j) ^ 2) 6 0 1 50 = st → ∃ r : Result 1, (∀ fuel, 2 ≤ fuel →
        runFrom ⟨1, 1⟩ (fun _ => m) (unitEval c) ⟨2, 0.001, 0.001, 0, 1⟩ fuel () = some (.done r ())) ∧ r.beta = 10 * st := by
    intro c st hc h
    obtain ⟨r, hr, hb, -⟩ := unit_run hm c hc (opt := ⟨2, 0.001, 0.001, 0, 1⟩) rfl (by norm_num) rfl rfl h
    exact ⟨r, hr, hb⟩
  obtain ⟨r, hr, hb⟩ := key 1 _ one_pos s1
  obtain ⟨r', hr', hb'⟩ := key 10 _ (by norm_num) s2
  refine ⟨m, r, r', hm, fun x => ?_, ⟨fun s x => ?_, fun s xs => ?_⟩, fun fuel hf => ⟨hr fuel hf, hr' fuel hf⟩, by rw [hb]; norm_num,
    by rw [hb']; norm_num⟩
  · unfold unitEval
    simp
    ring
  · unfold unitEval
    simp [mapOk]
    ring
  · unfold unitEval
    simp [mapOk]
    intro a ha
    ring

end Pystra.Props
