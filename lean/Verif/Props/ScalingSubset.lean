import Verif.Props.ScalingSim
import Verif.Props.ScalingLine

/-! C89: subset simulation and the unit of the limit-state function. -/

namespace Pystra.Props
open Matrix Spec Transformation Form LimitState

variable {σ : Type} {n : ℕ} {c : ℝ} {ev ev' : Evaluator σ n} {t : Mats n} {marg : Fin n → Marginal}

theorem percentile_scaled (hc : 0 < c) (G : List ℝ) (p : ℝ) : Subset.percentile (G.map (c * ·)) p = c * Subset.percentile G p := by
  unfold Subset.percentile
  have h : (G.map (c * ·)).insertionSort (· ≤ ·) = (G.insertionSort (· ≤ ·)).map (c * ·) :=
    (List.map_insertionSort (fun a b : ℝ => a ≤ b) (fun a b : ℝ => a ≤ b) (fun a : ℝ => c * a) G
      (fun a _ b _ => (mul_le_mul_iff_right₀ hc).symm)).symm
  simp only [h, getD_scaled, List.length_map]
  ring

theorem fraction_scaled (hc : 0 < c) (G : List ℝ) (y : ℝ) (N : ℕ) :
    Subset.fraction (G.map (c * ·)) (c * y) N = Subset.fraction G y N := by
  unfold Subset.fraction
  rw [List.filter_map, List.length_map]
  congr 4
  funext g
  simp [mul_le_mul_iff_right₀ hc]

/-- A sample with its value times `c`. -/
def scaleSample (c : ℝ) (p : Subset.Sample n) : Subset.Sample n := (p.1, c * p.2)

theorem seedsOf_scaled (hc : 0 < c) (l : List (Subset.Sample n)) (y : ℝ) :
    Subset.seedsOf (l.map (scaleSample c)) (c * y) = (Subset.seedsOf l y).map (scaleSample c) := by
  unfold Subset.seedsOf
  rw [List.filter_map]
  congr 2
  funext g
  simp [scaleSample, mul_le_mul_iff_right₀ hc]

/-- `f` applied to a result that may carry a state with its exception. -/
def mapEx {ε α β : Type} (f : α → β) : Except ε α → Except ε β
  | .ok a => .ok (f a)
  | .error e => .error e

theorem evalBatch_scaled (he : ScaledEval c ev ev') (block : ℕ) : ∀ (fuel : ℕ) (us : List (Fin n → ℝ)) (s : σ),
    Subset.evalBatch t marg ev' block fuel us s = mapEx (fun p => (p.1.map (c * ·), p.2)) (Subset.evalBatch t marg ev block fuel us s)
  | 0, [], s => by unfold Subset.evalBatch; split <;> rfl
  | fuel + 1, [], s => by unfold Subset.evalBatch; split <;> rfl
  | 0, u :: us, s => rfl
  | fuel + 1, u :: us, s => by
    unfold Subset.evalBatch
    by_cases h0 : block = 0
    · rw [if_pos h0, if_pos h0]; rfl
    rw [if_neg h0, if_neg h0, he.values]
    rcases ev.values s (((u :: us).take block).map (uToX t marg)) with ⟨s1, e | G⟩
    · rfl
    simp only [mapOk]
    rw [evalBatch_scaled he block fuel]
    rcases Subset.evalBatch t marg ev block fuel ((u :: us).drop block) s1 with e | ⟨G', s2⟩
    · rfl
    · simp [mapEx]

theorem move_scaled (hc : 0 < c) (he : ScaledEval c ev ev') (sigma y : ℝ) (υ : ℕ → ℝ) (cur : Subset.Sample n) (pos : ℕ) (s : σ) :
    Subset.move t marg ev' sigma (c * y) υ (scaleSample c cur) pos s =
      mapEx (fun p => (scaleSample c p.1, p.2)) (Subset.move t marg ev sigma y υ cur pos s) := by
  unfold Subset.move
  dsimp only
  rw [he.values]
  have h1 : (scaleSample c cur).1 = cur.1 := rfl
  rw [h1]
  rcases ev.values s [uToX t marg (Subset.proposal sigma υ pos cur.1)] with ⟨s1, e | G⟩
  · rfl
  have hh : (G.map (c * ·)).headD 0 = c * G.headD 0 := by cases G <;> simp
  simp only [mapOk, mapEx, hh, mul_le_mul_iff_right₀ hc]
  split <;> rfl

theorem chain_scaled (hc : 0 < c) (he : ScaledEval c ev ev') (sigma y : ℝ) (υ : ℕ → ℝ) : ∀ (k : ℕ) (cur : Subset.Sample n) (pos : ℕ)
    (s : σ), Subset.chain t marg ev' sigma (c * y) υ k (scaleSample c cur) pos s =
      mapEx (fun p => (p.1.map (scaleSample c), p.2)) (Subset.chain t marg ev sigma y υ k cur pos s)
  | 0, _, _, _ => rfl
  | k + 1, cur, pos, s => by
    unfold Subset.chain
    rw [move_scaled hc he]
    rcases Subset.move t marg ev sigma y υ cur pos s with e | ⟨cur1, pos1, s1⟩
    · rfl
    simp only [mapEx]
    rw [chain_scaled hc he sigma y υ k]
    rcases Subset.chain t marg ev sigma y υ k cur1 pos1 s1 with e | ⟨l, pos2, s2⟩ <;> rfl

theorem chains_scaled (hc : 0 < c) (he : ScaledEval c ev ev') (sigma y : ℝ) (υ : ℕ → ℝ) (base rem : ℕ) :
    ∀ (seeds : List (Subset.Sample n)) (i pos : ℕ) (s : σ),
      Subset.chains t marg ev' sigma (c * y) υ base rem i (seeds.map (scaleSample c)) pos s =
        mapEx (fun p => (p.1.map (List.map (scaleSample c)), p.2)) (Subset.chains t marg ev sigma y υ base rem i seeds pos s)
  | [], _, _, _ => by simp [Subset.chains, mapEx]
  | seed :: seeds, i, pos, s => by
    rw [List.map_cons]
    unfold Subset.chains
    rw [chain_scaled hc he]
    rcases Subset.chain t marg ev sigma y υ (base + if i < rem then 1 else 0) seed pos s with e | ⟨l, pos1, s1⟩
    · rfl
    simp only [mapEx]
    rw [chains_scaled hc he sigma y υ base rem seeds]
    rcases Subset.chains t marg ev sigma y υ base rem (i + 1) seeds pos1 s1 with e | ⟨ls, pos2, s2⟩ <;> rfl

theorem mmhStep_scaled (hc : 0 < c) (he : ScaledEval c ev ev') (sigma y : ℝ) (υ : ℕ → ℝ) (N : ℕ) (seeds : List (Subset.Sample n))
    (pos : ℕ) (s : σ) : Subset.mmhStep t marg ev' sigma (c * y) υ N (seeds.map (scaleSample c)) pos s =
      mapEx (fun p => (p.1.map (List.map (scaleSample c)), p.2)) (Subset.mmhStep t marg ev sigma y υ N seeds pos s) := by
  unfold Subset.mmhStep
  rw [List.length_map]
  split
  · rfl
  · exact chains_scaled hc he _ _ _ _ _ _ _ _ _

theorem scaledSubset_finalise (N : ℕ) (th pr : List ℝ) (k : ℕ) (Pf : ℝ) (recs : List (List (Subset.Sample n))) (s : σ) :
    Subset.finalise N (th.map (c * ·)) pr k Pf (recs.map (List.map (scaleSample c))) s =
      scaledSubset c (Subset.finalise N th pr k Pf recs s) := rfl

theorem map_snd_scaled (l : List (Subset.Sample n)) : (l.map (scaleSample c)).map Prod.snd = (l.map Prod.snd).map (c * ·) := by
  rw [List.map_map, List.map_map]; rfl

theorem levels_scaled (hc : 0 < c) (he : ScaledEval c ev ev') (opt : Subset.Options) (υ : ℕ → ℝ) (fuel : ℕ) :
    ∀ (seeds : List (Subset.Sample n)) (y Pf : ℝ) (th pr : List ℝ) (level : ℕ) (recs : List (List (Subset.Sample n))) (pos : ℕ) (s : σ),
      Subset.levels t marg ev' opt υ fuel (seeds.map (scaleSample c)) (c * y) Pf (th.map (c * ·)) pr level
          (recs.map (List.map (scaleSample c))) pos s =
        (Subset.levels t marg ev opt υ fuel seeds y Pf th pr level recs pos s).map (mapEx (scaledSubset c)) := by
  induction fuel with
  | zero => intros; rfl
  | succ fuel ih =>
    intro seeds y Pf th pr level recs pos s
    unfold Subset.levels
    rw [mmhStep_scaled hc he]
    rcases Subset.mmhStep t marg ev opt.sigma y υ opt.N seeds pos s with e | ⟨ls, pos1, s1⟩
    · rfl
    simp only [mapEx]
    have hfl : (ls.map (List.map (scaleSample c))).flatten = ls.flatten.map (scaleSample c) := by rw [List.map_flatten]
    rw [hfl, map_snd_scaled, percentile_scaled hc]
    have hr : ∀ l, recs.map (List.map (scaleSample c)) ++ [l.map (scaleSample c)] = (recs ++ [l]).map (List.map (scaleSample c)) := by
      intro l; simp
    have ht : ∀ z, th.map (c * ·) ++ [c * z] = (th ++ [z]).map (c * ·) := by intro z; simp
    have h0 := fraction_scaled hc (List.map Prod.snd ls.flatten) 0 opt.N
    rw [mul_zero] at h0
    by_cases hy : Subset.percentile (List.map Prod.snd ls.flatten) opt.p0 ≤ 0
    · rw [if_pos hy, if_pos ((Brent.nonpos_scaled hc).2 hy), h0, hr]
      have := ht 0
      rw [mul_zero] at this
      rw [this, scaledSubset_finalise]
      rfl
    · rw [if_neg hy, if_neg (fun h => hy ((Brent.nonpos_scaled hc).1 h)), fraction_scaled hc, seedsOf_scaled hc, hr, ht]
      exact ih _ _ _ _ _ _ _ _ _

/-- **C89** (subset simulation).  Multiplying the limit-state function by `c > 0` multiplies the thresholds and the recorded values by
`c` and changes nothing else: same levels, conditional probabilities, `Pf`, `β`, coefficient of variation, samples and exceptions. -/
theorem C89_subset (hc : 0 < c) (he : ScaledEval c ev ev') (opt : Subset.Options) (ω υ : ℕ → ℝ) (fuel : ℕ) (s : σ) :
    Subset.run t marg ev' opt ω υ fuel s =
      (Subset.run t marg ev opt ω υ fuel s).map (fun r => match r with
        | .ok a => .ok (scaledSubset c a)
        | .error e => .error e) := by
  have hm : (fun r : Except (PyErr × σ) (Subset.Result σ n) => match r with
        | .ok a => Except.ok (scaledSubset c a)
        | .error e => .error e) = mapEx (scaledSubset c) := by funext r; cases r <;> rfl
  rw [hm]
  unfold Subset.run
  by_cases hp : ¬ (0 < opt.p0 ∧ opt.p0 < 1)
  · rw [if_pos hp, if_pos hp]; rfl
  rw [if_neg hp, if_neg hp]
  dsimp only
  rw [evalBatch_scaled he]
  rcases Subset.evalBatch t marg ev opt.block opt.N (Subset.randn ω n opt.N 0) s with e | ⟨G, s1⟩
  · rfl
  simp only [mapEx, List.length_map]
  by_cases hl : G.length = 0
  · rw [if_pos hl, if_pos hl]; rfl
  rw [if_neg hl, if_neg hl, percentile_scaled hc]
  have hz : ∀ us : List (Fin n → ℝ), us.zip (G.map (c * ·)) = (us.zip G).map (scaleSample c) := by
    intro us
    rw [List.zip_map_right]
    rfl
  rw [hz]
  have h0 := fraction_scaled hc G 0 opt.N
  rw [mul_zero] at h0
  by_cases hy : Subset.percentile G opt.p0 ≤ 0
  · rw [if_pos hy, if_pos ((Brent.nonpos_scaled hc).2 hy), h0]
    have := scaledSubset_finalise (c := c) opt.N [0] [Subset.fraction G 0 opt.N] 1 (Subset.fraction G 0 opt.N)
      [(Subset.randn ω n opt.N 0).zip G] s1
    simp only [List.map_cons, List.map_nil, mul_zero] at this
    rw [this]
    rfl
  · rw [if_neg hy, if_neg (fun h => hy ((Brent.nonpos_scaled hc).1 h)), fraction_scaled hc, seedsOf_scaled hc]
    exact levels_scaled hc he opt υ fuel _ _ _ [_] _ _ [_] _ _

end Pystra.Props
