import Verif.Props.MutableWrap
import Verif.Lemmas.Families

/-! Concrete cases for theorems of C72 that have no example beside them. -/

namespace Pystra.Props
open Mutable Spec.Mut Distribution Real MeasureTheory

variable (E : Mutable.Env)

theorem witness_wf : WF ([] : List Obj) := by intro j o h; simp at h

theorem witness_leaf {b : Body} {f : Frz} (hs : 0 < f.scale) (h : f.frozen.std ≠ .nonfinite) :
    ∃ w1, initFrz ⟨[], 0⟩ b f none = (w1, none) ∧ 0 < w1.objs.length := by
  obtain ⟨s, hs'⟩ : ∃ s, f.frozen.std = .fin s := by
    cases h' : f.frozen.std with
    | fin s => exact ⟨s, rfl⟩
    | nonfinite => exact absurd h' h
  have hmo := moments_of_std hs hs'
  obtain ⟨w1, hw1⟩ : ∃ w1, initFrz ⟨[], 0⟩ b f none = (w1, none) := by
    simp only [initFrz, hmo, alloc]
    exact ⟨_, rfl⟩
  exact ⟨w1, hw1, (List.getElem?_eq_some_iff.1 (construct_leaf hw1).2).1⟩

/-- Two settings of one object, as a program. -/
theorem witness_program {w1 : World} (h : 0 < w1.objs.length) (a b : ℝ) :
    Program E w1 [.set .loc 0 a, .set .scale 0 b] ∧ KeepsStart 0 [.set .loc 0 a, .set .scale 0 b] ∧
    settings E .loc 0 w1 [.set .loc 0 a, .set .scale 0 b] = [a] ∧ settings E .scale 0 w1 [.set .loc 0 a, .set .scale 0 b] = [b] := by
  refine ⟨⟨h, by simp only [Refers, Op.run, set_length]; exact h, trivial⟩, by intro sp h; simp at h, ?_, ?_⟩ <;>
    simp [settings, Reaches.self]

/-- A log-normal variable of mean 1 and deviation 1, with `set_location(2)` and `set_scale(3)`. -/
example : ∃ w1 old m, Op.run E ⟨[], 0⟩ (.new (.lognormal (Lognormal.params 1 1).1 (Lognormal.params 1 1).2) none) = (w1, none) ∧
    Lognormal.new 1 1 false none = .ok old ∧ Lognormal.new 2 3 false (some 1) = .ok m ∧
    view E (runAll E w1 [.set .loc 0 2, .set .scale 0 3]).objs 0 = some { m with ppf := old.ppf } := by
  obtain ⟨g, hg, -⟩ := (good_lognormal (μ := 1) (σ := 1) one_pos one_pos none).ex
  obtain ⟨w1, hw1, hl⟩ := witness_leaf (b := .lognormal ⟨Frozen.lognorm (Lognormal.params 1 1).2, 0, exp (Lognormal.params 1 1).1⟩
    (Lognormal.params 1 1).1 (Lognormal.params 1 1).2)
    (f := ⟨Frozen.lognorm (Lognormal.params 1 1).2, 0, exp (Lognormal.params 1 1).1⟩) (exp_pos _) (fun hn => by
      simp only [Frz.frozen] at hn
      simp [Lognormal.new, Lognormal.ofParams, initMoments, updateMoments, hn] at hg)
  obtain ⟨hp, hk, h1, h2⟩ := witness_program E hl 2 3
  obtain ⟨old, m, h3, h4, h5⟩ := C72_lognormal E 1 1 one_pos one_pos none ⟨[], 0⟩ w1 witness_wf hw1 _ hp hk 2 3
    (by simp only [List.length_nil, h1]; rfl) (by simp only [List.length_nil, h2]; rfl) (by norm_num) (by norm_num)
  exact ⟨w1, old, m, hw1, h3, h4, h5⟩

/-- A shifted log-normal variable above 1, with `set_location(4)` and `set_scale(3)`. -/
example : ∃ w1 old m, Op.run E ⟨[], 0⟩ (.new (.shiftedLognormal 2 1 1) none) = (w1, none) ∧
    ShiftedLognormal.new 2 1 1 false none = .ok old ∧ ShiftedLognormal.new 4 3 1 false (some 2) = .ok m ∧
    view E (runAll E w1 [.set .loc 0 4, .set .scale 0 3]).objs 0 = some { m with ppf := old.ppf } := by
  obtain ⟨g, hg, -⟩ := (good_shiftedLognormal (μ := 2) (σ := 1) (lower := 1) (by norm_num) one_pos none).ex
  obtain ⟨w1, hw1, hl⟩ := witness_leaf (b := .shiftedLognormal ⟨Frozen.lognorm (Lognormal.params (2 - 1) 1).2, 1,
      exp (Lognormal.params (2 - 1) 1).1⟩ (Lognormal.params (2 - 1) 1).1 (Lognormal.params (2 - 1) 1).2 1)
    (f := ⟨Frozen.lognorm (Lognormal.params (2 - 1) 1).2, 1, exp (Lognormal.params (2 - 1) 1).1⟩) (exp_pos _) (fun hn => by
      simp only [Frz.frozen] at hn
      simp only [ShiftedLognormal.new, initMoments, updateMoments, hn] at hg
      simp at hg)
  obtain ⟨hp, hk, h1, h2⟩ := witness_program E hl 4 3
  obtain ⟨old, m, h3, h4, h5⟩ := C72_shiftedLognormal E 2 1 1 (by norm_num) one_pos none ⟨[], 0⟩ w1 witness_wf hw1 _ hp hk 4 3 1
    (by simp only [List.length_nil, h1]; rfl) (by simp only [List.length_nil, h2]; rfl) (by simp [lowers, current]) (by norm_num)
    (by norm_num)
  exact ⟨w1, old, m, hw1, h3, h4, h5⟩

/-- A uniform variable on `[0, 1]` moved to `[5, 7]`: `u_to_x` still produces values of `[0, 1]`, where the cdf is now 0. -/
example : ∃ (w1 : World) (m : Marginal), Op.run E ⟨[], 0⟩ (.new (.uniform 0 1) none) = (w1, none) ∧
    ∃ m' : Marginal, m' = { m with uToX := fun u => 0 + (1 - 0) * StdNormal.cdf u } ∧
      view E (runAll E w1 [.set .loc 0 5, .set .scale 0 2]).objs 0 = some m' ∧ ∀ u, m'.cdf (m'.uToX u) = 0 := by
  obtain ⟨g, hg, -⟩ := (good_uniform_params (a := 0) (b := 1) one_pos none).ex
  obtain ⟨g', hg', -⟩ := (good_uniform_params (a := 5) (b := 5 + 2) (by norm_num) none).ex
  obtain ⟨w1, hw1, hl⟩ := witness_leaf (b := .uniform ⟨Frozen.uniform01, 0, 1 - 0⟩ 0 1) (f := ⟨Frozen.uniform01, 0, 1 - 0⟩)
    (by norm_num) (fun hn => by
      simp only [Frz.frozen] at hn
      simp only [Uniform.new, Uniform.bounds, initMoments, updateMoments, if_true, hn] at hg
      simp at hg)
  obtain ⟨hp, hk, h1, h2⟩ := witness_program E hl 5 2
  obtain ⟨m, hm⟩ : ∃ m, ScipyDist.new (Frozen.uniform01.locScale 5 2)
      (some ((none : Option ℝ).getD (Frozen.uniform01.locScale 0 (1 - 0)).mean)) = .ok m := by
    simp only [Uniform.new, Uniform.bounds, if_true, add_sub_cancel_left] at hg'
    cases h' : (Frozen.uniform01.locScale 5 2).std with
    | fin s => exact ⟨_, by simp only [ScipyDist.new, ofFrozen, initMoments, updateMoments, h']; rfl⟩
    | nonfinite => simp [initMoments, updateMoments, h'] at hg'
  refine ⟨w1, m, hw1, _, rfl, C72_uniform E 0 1 none ⟨[], 0⟩ w1 witness_wf hw1 _ hp hk 5 2 (by simp only [List.length_nil, h1]; rfl)
    (by simp only [List.length_nil, h2]; rfl) (by norm_num) m hm, C72_uniform_stale 0 1 5 2 one_pos (by norm_num) (by norm_num) m _ hm⟩

/-! A normal variable `X` and a variable `Z` that is `X` or zero, each with probability 1/2. -/

theorem witness_two_wf : WF (twoObjects E).objs := by
  rw [← twoObjects_built E]
  refine run_wf E _ _ ?_ (run_wf E _ _ trivial witness_wf)
  simp [Op.run, construct, alloc, Refers]

/-- `Z.set_location(10)` sets the mean of `X`, and `Z` is then what a new variable on `X` would be. -/
example : ∃ d, view E (Op.run E (twoObjects E) (.set .loc 1 10)).1.objs 0 = some d ∧ d.mean = 10 ∧
    view E (Op.run E (twoObjects E) (.set .loc 1 10)).1.objs 1 = some (ZeroInflated.obj d 0.5 (0.5 * 0)) := by
  obtain ⟨l, e, hok⟩ : ∃ l, (Op.run E (twoObjects E) (.set .loc 1 10)).1.objs = ⟨.normal, some (10, 1), some 0⟩ :: l ∧
      (Op.run E (twoObjects E) (.set .loc 1 10)).2 = none := by
    have e0 : Mutable.set E .loc 10 (twoObjects E) 0 = (⟨⟨.normal, some (10, 1), some 0⟩ ::
        [⟨.zeroInflated 0 0.5, some (0.5 * 0, √(0.5 * 1 ^ 2 + 0.5 * 0.5 * 0 ^ 2)), some (0.5 * 0)⟩], 0⟩, none) := by
      rw [Mutable.set]
      simp [twoObjects, Body.child, setLeaf, Param.put]
    have e1 : Mutable.set E .loc 10 (twoObjects E) 1 = (refresh E (Mutable.set E .loc 10 (twoObjects E) 0).1 1
        ⟨.zeroInflated 0 0.5, some (0.5 * 0, √(0.5 * 1 ^ 2 + 0.5 * 0.5 * 0 ^ 2)), some (0.5 * 0)⟩, none) := by
      conv_lhs => rw [Mutable.set]
      have ho : (twoObjects E).objs[1]? = some ⟨.zeroInflated 0 0.5, some (0.5 * 0, √(0.5 * 1 ^ 2 + 0.5 * 0.5 * 0 ^ 2)),
        some (0.5 * 0)⟩ := rfl
      simp only [ho, Body.child, e0]
      rw [dif_pos one_pos, if_pos trivial]
    have e2 : ∀ (o : Obj) (r : Option (ℝ × ℝ) × ℕ), ([⟨.normal, some (10, 1), some 0⟩, o] : List Obj).set 1 { o with moments := r.1 } =
      ⟨.normal, some (10, 1), some 0⟩ :: [{ o with moments := r.1 }] := fun _ _ => rfl
    exact ⟨_, by simp only [Op.run, e1, e0]; exact e2 _ _, by simp only [Op.run, e1]⟩
  obtain ⟨d, h1, h2, -⟩ := normal_view E 10 1 0 l
  rw [← e] at h1
  exact ⟨d, h1, h2, (C72_zeroInflated E .loc 10 (twoObjects E) (witness_two_wf E) 1 0 0.5 (0.5 * 0) _ rfl hok d h1).2⟩

/-- `Z.set_zero_probability(0.2)` and `X.setStartPoint(3)`. -/
example : ∃ d, view E (twoObjects E).objs 0 = some d ∧
    view E (Op.run E (twoObjects E) (.setZero 1 0.2)).1.objs 1 = some (ZeroInflated.obj d 0.2 (0.5 * 0)) ∧
    view E (Op.run E (twoObjects E) (.setStart 0 (some 3))).1.objs 0 = some { d with startpoint := 3 } := by
  obtain ⟨d, h1, -⟩ := normal_view E 0 1 0 [⟨.zeroInflated 0 0.5, some (0.5 * 0, √(0.5 * 1 ^ 2 + 0.5 * 0.5 * 0 ^ 2)), some (0.5 * 0)⟩]
  exact ⟨d, h1, ((C72_parameters E (twoObjects E) (witness_two_wf E) 1 0 (0.5 * 0) _ d h1).1 0.5 0.2 rfl).2.1,
    (C72_start E (twoObjects E) (witness_two_wf E) 0 d h1 (some 3)).2⟩

/-- A third variable does not disturb the first two, and setting it does not change them. -/
example (i : ℕ) (hi : i < 2) (v : ℝ) : view E (Op.run E (twoObjects E) (.new (.normal 3 4) none)).1.objs i = view E (twoObjects E).objs i ∧
    view E (Op.run E (Op.run E (twoObjects E) (.new (.normal 3 4) none)).1 (.set .loc 2 v)).1.objs i =
      view E (Op.run E (twoObjects E) (.new (.normal 3 4) none)).1.objs i := by
  refine ⟨(C72_frame_new E _ _ _ (witness_two_wf E) i hi).1, C72_frame E _ _ _ _ _ fun l h1 h2 => ?_⟩
  have e2 : l = 2 := by
    rcases h2 with _ | ⟨o, h3, h4, -⟩
    · rfl
    · simp [Op.run, construct, alloc, twoObjects] at h3
      subst h3
      simp [Body.child] at h4
  subst e2
  have := reaches_le (run_wf E (.new (.normal 3 4) none) (twoObjects E) trivial (witness_two_wf E)) h1
  omega

end Pystra.Props
