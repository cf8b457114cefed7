import Verif.Props.SubsetObject
import Verif.Props.MonteCarloExample
import Verif.Lemmas.Subset

/-! A concrete history of a `SubsetSimulation` object. -/

namespace Pystra.Props
open Spec Transformation Form

theorem subset_percentile : Subset.percentile [-8, 2] 0.5 = -3 := by
  unfold Subset.percentile
  have : ([-8, 2] : List ℝ).insertionSort (· ≤ ·) = [-8, 2] := by
    apply List.Pairwise.insertionSort_eq
    norm_num
  have hfl : ⌊(1 / 2 : ℝ)⌋₊ = 0 := Nat.floor_eq_zero.2 (by norm_num)
  simp only [this]
  norm_num [hfl]

/-- The hypotheses of C83 are met: with `p0 = 1/2` and two samples, one of which fails, the first run is complete at level 0; then
the limit state is replaced by one that raises `IndexError`.  The report shows the probability 1/2 and one level of the first run,
and no intermediate results. -/
example : ∃ (c c' : Session.Setup) (ω υ : ℕ → ℝ) (ev ev' : Ev Marginal) (pos' upos' : ℕ) (o0 a b o : SubsetObj.Obj 2)
    (sh : SubsetObj.Shown), SubsetObj.new 0.5 1 = .ok o0 ∧
    subsetRuns ω υ 0.5 1 [.run ⟨c, 2, 1000, true⟩, .run ⟨c', 2, 1000, true⟩] ev 0 0 =
        some (ev', pos', upos', [(a, .ok ()), (b, .error .indexError)]) ∧ b.transform.isSome ∧
    SubsetObj.history ω υ [.run ⟨c, 2, 1000, true⟩, .run ⟨c', 2, 1000, true⟩] o0 ev 0 0 = some (o, ev', pos', upos') ∧
    SubsetObj.showResults o = .ok sh ∧ sh.Pf = 1 / 2 ∧ sh.nLevels = some 1 ∧ sh.lines = [] := by
  obtain ⟨c, ev, ev1, t, P, f, hfuel, hls, hI, hV, hP, hagain', hagain, hf, hu⟩ := mcObject_world
  obtain ⟨c', hc'⟩ : ∃ c' : Session.Setup, c' = { c with expr := fun _ => .tuple [] } := ⟨_, rfl⟩
  obtain ⟨ω, hω⟩ : ∃ ω : ℕ → ℝ, ω = fun k => if k = 0 then 10 else 0 := ⟨_, rfl⟩
  obtain ⟨o0, ho0⟩ : ∃ o0 : SubsetObj.Obj 2, SubsetObj.new 0.5 1 = .ok o0 := by
    unfold SubsetObj.new
    rw [if_neg (by norm_num)]
    exact ⟨_, rfl⟩
  -- the first run
  obtain ⟨ev2, hv, hP2⟩ := hV ev1 hP ((Subset.randn ω 2 2 0).map (uToX t (Session.margN 2 c.default ev1.model)))
  have hG : ((Subset.randn ω 2 2 0).map (uToX t (Session.margN 2 c.default ev1.model))).map f = [-8, 2] := by
    simp [Subset.randn, List.range_succ, hu, hf, hω]
    norm_num
  rw [hG] at hv
  have hb : Subset.evalBatch t (Session.margN 2 c.default ev1.model) (Session.evaluator c 2 ev1.model) 1000 2 (Subset.randn ω 2 2 0) ev1 =
      .ok ([-8, 2], ev2) := by
    have hlen : (Subset.randn ω 2 2 0).length = 2 := by simp [Subset.randn]
    rcases hr : Subset.randn ω 2 2 0 with _ | ⟨u, us⟩
    · rw [hr] at hlen; cases hlen
    rw [hr] at hlen hv
    unfold Subset.evalBatch
    rw [if_neg (by norm_num), List.take_of_length_le (by rw [hlen]; norm_num), hv, List.drop_of_length_le (by rw [hlen]; norm_num)]
    simp [Subset.evalBatch]
  have hfr : Subset.fraction [-8, 2] 0 2 = 1 / 2 := by
    unfold Subset.fraction
    norm_num [List.filter_cons]
  have hr1 : ∃ a : SubsetObj.Obj 2, subsetAlone ⟨c, 2, 1000, true⟩ ω (fun _ => 0) 0.5 1 ev 0 0 = some (a, ev2, 4, 0, .ok ()) ∧ a.Pf = some (1 / 2) ∧
      a.nLevels = some 1 := by
    unfold subsetAlone SubsetObj.run
    simp only [hI]
    unfold SubsetObj.sample
    have e : (fun k => ω (0 + k)) = ω := by funext k; rw [Nat.zero_add]
    simp only [e, hb, subset_percentile]
    norm_num
    rw [hfr]
    unfold SubsetObj.close SubsetObj.finish SubsetObj.printed
    dsimp only
    exact ⟨_, rfl, by norm_num, rfl⟩
  obtain ⟨a, r1, r2, r3⟩ := hr1
  -- the second run
  obtain ⟨e1, t', hI'⟩ := hagain' ev2 c' hP2 (by rw [hc'])
  have hr2 : ∃ (b : SubsetObj.Obj 2) (ev3 : _), subsetAlone ⟨c', 2, 1000, true⟩ ω (fun _ => 0) 0.5 1 ev2 4 0 = some (b, ev3, 8, 0, .error .indexError) ∧
      b.transform.isSome ∧ b.thresholds = [] := by
    unfold subsetAlone SubsetObj.run
    simp only [hI']
    have hlen : (Subset.randn (fun k => ω (4 + k)) 2 2 0).length = 2 := by simp [Subset.randn]
    obtain ⟨ev3, h3⟩ : ∃ ev3, Subset.evalBatch t' (Session.margN 2 c'.default e1.model) (Session.evaluator c' 2 e1.model) 1000 2
        (Subset.randn (fun k => ω (4 + k)) 2 2 0) e1 = .error (.indexError, ev3) := by
      rcases hr : Subset.randn (fun k => ω (4 + k)) 2 2 0 with _ | ⟨u, us⟩
      · rw [hr] at hlen; cases hlen
      obtain ⟨ev3, h3⟩ := raising_values (n := 2) (c := c') (by rw [hc', hls]) (by rw [hc']) e1.model e1
        (((u :: us).take 1000).map (uToX t' (Session.margN 2 c'.default e1.model))) (by simp)
      unfold Subset.evalBatch
      rw [if_neg (by norm_num), h3]
      exact ⟨ev3, rfl⟩
    unfold SubsetObj.sample
    simp only [h3]
    exact ⟨_, _, rfl, rfl, rfl⟩
  obtain ⟨b, ev3, w1, w2, w3⟩ := hr2
  have hruns : subsetRuns ω (fun _ => 0) 0.5 1 [.run ⟨c, 2, 1000, true⟩, .run ⟨c', 2, 1000, true⟩] ev 0 0 =
      some (ev3, 8, 0, [(a, .ok ())] ++ [(b, .error .indexError)]) := by
    simp only [subsetRuns, r1, w1, Option.map_some]
    rfl
  obtain ⟨o, sh, q1, q2, q3, -, -, q6, q7, -⟩ := C83_mixed ω (fun _ => 0) 0.5 1 _ o0 ho0 ev ev3 0 0 8 0 [(a, .ok ())] a b .indexError rfl
    w2 hruns
  refine ⟨c, c', ω, _, ev, ev3, 8, 0, o0, a, b, o, sh, ho0, hruns, w2, q1, q2, ?_, ?_, ?_⟩
  · rw [SubsetObj.getFailure, r2, Option.some.injEq] at q3
    exact q3.symm
  · rw [← q6, r3]
  · rw [q7, w3]; rfl

end Pystra.Props
