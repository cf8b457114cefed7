import Verif.Props.Metropolis
import Verif.Props.Subset

/-! C129: the conditional levels of subset simulation are unbiased. -/

namespace Pystra.Props
open Spec Transformation Form Subset MeasureTheory ProbabilityTheory MonteCarlo
open scoped ENNReal NNReal

variable {σ : Type} {n : ℕ}

/-- The share of the `N` samples of a level with a value at or below `y'` (`0` if the level raised). -/
noncomputable def levelShare (r : Except (PyErr × σ) (List (List (Sample n)) × ℕ × σ)) (y' : ℝ) (N : ℕ) : ℝ :=
  match r with
  | .ok (ls, _, _) => (countLe (ls.flatten.map Prod.snd) y' : ℝ) / N
  | .error _ => 0

section
variable {t : Mats n} {marg : Fin n → Marginal} {ev : Evaluator σ n} {P : σ → Prop} {f : (Fin n → ℝ) → ℝ} {sigma y : ℝ}

/-- The state of a chain after `k + 1` moves. -/
@[irreducible] noncomputable def stateAt (t : Mats n) (marg : Fin n → Marginal) (f : (Fin n → ℝ) → ℝ) (sigma y : ℝ) (pos k : ℕ)
    (u : Fin n → ℝ) (υ : ℕ → ℝ) : Fin n → ℝ :=
  ((stepT sigma {u | f (uToX t marg u) ≤ y})^[k + 1] (u, shiftDraws pos υ)).1

theorem move_full (hev : Values ev P f) (u : Fin n → ℝ) {υ : ℕ → ℝ} {pos : ℕ} {s : σ} (hP : P s) :
    ∃ s', move t marg ev sigma y υ (u, f (uToX t marg u)) pos s =
      .ok ((stateAt t marg f sigma y pos 0 u υ, f (uToX t marg (stateAt t marg f sigma y pos 0 u υ))), pos + 2 * n, s') ∧ P s' := by
  obtain ⟨s', hv, hP'⟩ := hev s hP [uToX t marg (proposal sigma υ pos u)]
  have hv' : ev.values s [uToX t marg (proposal sigma υ pos u)] =
      (s', .ok [f (uToX t marg (proposal sigma υ pos u))]) := hv
  unfold move
  simp only [hv']
  refine ⟨s', ?_, hP'⟩
  have hst : stateAt t marg f sigma y pos 0 u υ = nextVec sigma {u | f (uToX t marg u) ≤ y} u (headDraws n (shiftDraws pos υ)) := by
    unfold stateAt; rfl
  rw [hst]
  unfold nextVec
  rw [← proposal_eq]
  by_cases h : ([f (uToX t marg (proposal sigma υ pos u))].headD 0) ≤ y
  · rw [if_pos h, if_pos (show proposal sigma υ pos u ∈ {u | f (uToX t marg u) ≤ y} from h)]
    rfl
  · rw [if_neg h, if_neg (show ¬ proposal sigma υ pos u ∈ {u | f (uToX t marg u) ≤ y} from h)]

theorem stateAt_succ (pos k : ℕ) (u : Fin n → ℝ) (υ : ℕ → ℝ) : stateAt t marg f sigma y pos (k + 1) u υ =
    stateAt t marg f sigma y (pos + 2 * n) k (stateAt t marg f sigma y pos 0 u υ) υ := by
  unfold stateAt
  rw [Function.iterate_succ_apply]
  congr 2
  unfold stepT
  simp only [Function.iterate_succ_apply, Function.iterate_zero, id]
  congr 1
  funext i
  simp only [shiftDraws, Nat.add_assoc]

theorem chain_full (hev : Values ev P f) (υ : ℕ → ℝ) : ∀ (m : ℕ) (u : Fin n → ℝ) (pos : ℕ) (s : σ), P s →
    ∃ s', chain t marg ev sigma y υ m (u, f (uToX t marg u)) pos s =
      .ok ((List.range m).map (fun k => (stateAt t marg f sigma y pos k u υ, f (uToX t marg (stateAt t marg f sigma y pos k u υ)))),
        pos + 2 * n * m, s') ∧ P s'
  | 0, u, pos, s, hP => ⟨s, rfl, hP⟩
  | m + 1, u, pos, s, hP => by
    obtain ⟨s', h1, h2⟩ := move_full (t := t) (marg := marg) (sigma := sigma) (y := y) hev u (υ := υ) (pos := pos) hP
    obtain ⟨s'', h3, h4⟩ := chain_full hev υ m (stateAt t marg f sigma y pos 0 u υ) (pos + 2 * n) s' h2
    refine ⟨s'', ?_, h4⟩
    unfold chain
    simp only [h1, h3]
    rw [List.range_succ_eq_map, List.map_cons, List.map_map]
    simp only [Function.comp_def, Nat.succ_eq_add_one, stateAt_succ]
    congr 3
    ring

theorem countLe_range (G : ℕ → ℝ) (y' : ℝ) : ∀ m : ℕ, (countLe ((List.range m).map G) y' : ℝ) =
    ∑ k ∈ Finset.range m, ({z : ℝ | z ≤ y'}.indicator (fun _ => (1 : ℝ)) (G k))
  | 0 => by simp [countLe]
  | m + 1 => by
    classical
    rw [List.range_succ, List.map_append, Finset.sum_range_succ, ← countLe_range G y' m]
    unfold countLe
    rw [List.filter_append, List.length_append]
    push_cast
    congr 1
    by_cases h : G m ≤ y'
    · simp [h]
    · simp [h]

theorem countLe_append (G G' : List ℝ) (y' : ℝ) : countLe (G ++ G') y' = countLe G y' + countLe G' y' := by
  unfold countLe
  rw [List.filter_append, List.length_append]

theorem stateAt_law (hF : MeasurableSet {u | f (uToX t marg u) ≤ y}) (sigma : ℝ) (pos k : ℕ) :
    Measurable (fun p : (Fin n → ℝ) × (ℕ → ℝ) => stateAt t marg f sigma y pos k p.1 p.2) ∧
    (((stdGauss n)[|{u | f (uToX t marg u) ≤ y}]).prod unifStream).map (fun p => stateAt t marg f sigma y pos k p.1 p.2) =
      (stdGauss n)[|{u | f (uToX t marg u) ≤ y}] := by
  have h1 : Measurable (fun p : (Fin n → ℝ) × (ℕ → ℝ) => stateAt t marg f sigma y pos k p.1 p.2) := by
    have h2 := ((stepT_preserving sigma hF).iterate (k + 1)).measurable
    unfold stateAt
    exact measurable_fst.comp (h2.comp (measurable_fst.prodMk ((measurable_shiftDraws pos).comp measurable_snd)))
  refine ⟨h1, ?_⟩
  have h2 := C42_invariant (t := t) (marg := marg) (ev := (⟨fun s _ => (s, .error .typeError), fun s xs => (s, .ok (xs.map f))⟩ :
    Evaluator Unit n)) (P := fun _ => True) (f := f) (sigma := sigma) (y := y) (fun s xs _ => ⟨s, rfl, trivial⟩) hF (k + 1) k pos
    (Nat.lt_succ_self k) () trivial
  refine Eq.trans ?_ h2
  congr 1
  funext p
  obtain ⟨s', h3, -⟩ := chain_full (t := t) (marg := marg) (sigma := sigma) (y := y) (ev := (⟨fun s _ => (s, .error .typeError),
    fun s xs => (s, .ok (xs.map f))⟩ : Evaluator Unit n)) (P := fun _ => True) (f := f) (fun s xs _ => ⟨s, rfl, trivial⟩) p.2 (k + 1)
    p.1 pos () trivial
  unfold chainState
  simp only [h3]
  rw [List.getElem?_map, List.getElem?_range (Nat.lt_succ_self k)]
  rfl

/-- Membership of the state in `{g ≤ y'}`, as a number. -/
@[irreducible] noncomputable def hitAt (t : Mats n) (marg : Fin n → Marginal) (f : (Fin n → ℝ) → ℝ) (sigma y y' : ℝ) (pos k : ℕ)
    (u : Fin n → ℝ) (υ : ℕ → ℝ) : ℝ :=
  {z : ℝ | z ≤ y'}.indicator (fun _ => (1 : ℝ)) (f (uToX t marg (stateAt t marg f sigma y pos k u υ)))

theorem hitAt_mean (hfm : Measurable (fun u => f (uToX t marg u))) (y' : ℝ) {K : ℕ}
    (ν : Measure (Fin K → Fin n → ℝ)) [IsProbabilityMeasure ν]
    (hν : ∀ j, ν.map (fun U => U j) = (stdGauss n)[|{u | f (uToX t marg u) ≤ y}]) (sigma : ℝ) (pos k : ℕ) (j : Fin K) :
    Integrable (fun p : (Fin K → Fin n → ℝ) × (ℕ → ℝ) => hitAt t marg f sigma y y' pos k (p.1 j) p.2) (ν.prod unifStream) ∧
    ∫ p, hitAt t marg f sigma y y' pos k (p.1 j) p.2 ∂(ν.prod unifStream) =
      ((stdGauss n)[|{u | f (uToX t marg u) ≤ y}]).real {u | f (uToX t marg u) ≤ y'} := by
  have hF : MeasurableSet {u | f (uToX t marg u) ≤ y} := hfm measurableSet_Iic
  have hF' : MeasurableSet {u | f (uToX t marg u) ≤ y'} := hfm measurableSet_Iic
  have hproj : (ν.prod unifStream).map (Prod.map (fun U : Fin K → Fin n → ℝ => U j) (id : (ℕ → ℝ) → ℕ → ℝ)) =
      ((stdGauss n)[|{u | f (uToX t marg u) ≤ y}]).prod unifStream := by
    rw [← Measure.map_prod_map _ _ (measurable_pi_apply j) measurable_id, hν, Measure.map_id]
  obtain ⟨g1, g2⟩ := stateAt_law (t := t) (marg := marg) (f := f) (y := y) hF sigma pos k
  have g3 : Measurable (Prod.map (fun U : Fin K → Fin n → ℝ => U j) (id : (ℕ → ℝ) → ℕ → ℝ)) :=
    (measurable_pi_apply j).prodMap measurable_id
  have g4 : Measurable (fun p : (Fin K → Fin n → ℝ) × (ℕ → ℝ) => stateAt t marg f sigma y pos k (p.1 j) p.2) := g1.comp g3
  have g5 : (ν.prod unifStream).map (fun p => stateAt t marg f sigma y pos k (p.1 j) p.2) =
      (stdGauss n)[|{u | f (uToX t marg u) ≤ y}] := by
    rw [← hproj, Measure.map_map g1 g3] at g2
    exact g2
  have e : (fun p : (Fin K → Fin n → ℝ) × (ℕ → ℝ) => hitAt t marg f sigma y y' pos k (p.1 j) p.2) =
      ((fun p : (Fin K → Fin n → ℝ) × (ℕ → ℝ) => stateAt t marg f sigma y pos k (p.1 j) p.2) ⁻¹' {u | f (uToX t marg u) ≤ y'}).indicator
        (fun _ => (1 : ℝ)) := by
    funext p
    unfold hitAt
    by_cases h : f (uToX t marg (stateAt t marg f sigma y pos k (p.1 j) p.2)) ≤ y'
    · rw [Set.indicator_of_mem (by exact h), Set.indicator_of_mem (by exact h)]
    · rw [Set.indicator_of_notMem (by exact h), Set.indicator_of_notMem (by exact h)]
  rw [e]
  refine ⟨(integrable_const (1 : ℝ)).indicator (g4 hF'), ?_⟩
  rw [integral_indicator_const _ (g4 hF'), smul_eq_mul, mul_one, ← map_measureReal_apply g4 hF', g5]

/-- The number of samples at or below `y'` in the chains from the seeds numbered `js`. -/
theorem chains_mean (hev : Values ev P f) (hfm : Measurable (fun u => f (uToX t marg u))) (y' : ℝ) {K : ℕ}
    (ν : Measure (Fin K → Fin n → ℝ)) [IsProbabilityMeasure ν]
    (hν : ∀ j, ν.map (fun U => U j) = (stdGauss n)[|{u | f (uToX t marg u) ≤ y}]) (base rem : ℕ) :
    ∀ (js : List (Fin K)) (i pos : ℕ),
    ∃ (T : (Fin K → Fin n → ℝ) → (ℕ → ℝ) → List (List (Sample n))) (pos' : ℕ),
      (∀ U υ s, P s → ∃ s', chains t marg ev sigma y υ base rem i (js.map fun j => (U j, f (uToX t marg (U j)))) pos s =
        .ok (T U υ, pos', s') ∧ P s') ∧
      Integrable (fun p : (Fin K → Fin n → ℝ) × (ℕ → ℝ) => (countLe ((T p.1 p.2).flatten.map Prod.snd) y' : ℝ)) (ν.prod unifStream) ∧
      ∫ p, (countLe ((T p.1 p.2).flatten.map Prod.snd) y' : ℝ) ∂(ν.prod unifStream) =
        (∑ j ∈ Finset.range js.length, (base + if i + j < rem then 1 else 0 : ℕ) : ℕ) *
          ((stdGauss n)[|{u | f (uToX t marg u) ≤ y}]).real {u | f (uToX t marg u) ≤ y'}
  | [], i, pos => ⟨fun _ _ => [], pos, fun U υ s hs => ⟨s, rfl, hs⟩, by simp [countLe], by simp [countLe]⟩
  | j :: js, i, pos => by
    set m := base + if i < rem then 1 else 0 with hm
    obtain ⟨T, pos', h1, h2, h3⟩ := chains_mean hev hfm y' ν hν base rem js (i + 1) (pos + 2 * n * m)
    set L : (Fin K → Fin n → ℝ) → (ℕ → ℝ) → List (Sample n) := fun U υ =>
      (List.range m).map (fun k => (stateAt t marg f sigma y pos k (U j) υ, f (uToX t marg (stateAt t marg f sigma y pos k (U j) υ)))) with hL
    have hind := fun k => hitAt_mean (t := t) (marg := marg) (f := f) (y := y) hfm y' ν hν sigma pos k j
    have hcount : ∀ p : (Fin K → Fin n → ℝ) × (ℕ → ℝ), (countLe ((L p.1 p.2 :: T p.1 p.2).flatten.map Prod.snd) y' : ℝ) =
        (∑ k ∈ Finset.range m, hitAt t marg f sigma y y' pos k (p.1 j) p.2) +
          (countLe ((T p.1 p.2).flatten.map Prod.snd) y' : ℝ) := by
      intro p
      have e : (∑ k ∈ Finset.range m, hitAt t marg f sigma y y' pos k (p.1 j) p.2) = (countLe ((L p.1 p.2).map Prod.snd) y' : ℝ) := by
        simp only [hL, List.map_map, Function.comp_def]
        rw [countLe_range]
        unfold hitAt
        rfl
      rw [List.flatten_cons, List.map_append, countLe_append, e]
      push_cast
      rfl
    have hsumint := integrable_finset_sum (Finset.range m) fun k _ => (hind k).1
    refine ⟨fun U υ => L U υ :: T U υ, pos', ?_, ?_, ?_⟩
    · intro U υ s hs
      obtain ⟨s1, g1, g2⟩ := chain_full (t := t) (marg := marg) (sigma := sigma) (y := y) hev υ m (U j) pos s hs
      obtain ⟨s2, g3, g4⟩ := h1 U υ s1 g2
      refine ⟨s2, ?_, g4⟩
      rw [List.map_cons]
      unfold chains
      simp only [← hm, g1, g3]
      rfl
    · simp only [hcount]
      exact hsumint.add h2
    · simp only [hcount]
      rw [integral_add hsumint h2, integral_finsetSum _ fun k _ => (hind k).1, h3, Finset.sum_congr rfl fun k _ => (hind k).2,
        List.length_cons, Finset.sum_range_succ']
      simp only [Finset.sum_const, Finset.card_range, nsmul_eq_mul, Nat.add_zero, ← hm]
      push_cast
      have e : ∀ x, (i + 1 + x < rem) = (i + (x + 1) < rem) := by intro x; rw [Nat.add_assoc, Nat.add_comm 1 x]
      simp only [e]
      ring

/-- C129: a conditional level of subset simulation with seeds that have, each by itself, the standard normal law conditioned on
`{g ≤ y}` (how they depend on each other does not matter), drawn independently of the uniform numbers: the level does not
raise, and the expected share of its `N` samples in `{g ≤ y'}` is exactly the conditional probability of `{g ≤ y'}` given
`{g ≤ y}`, for every `N`, number of seeds and width of the proposal. -/
theorem C129_level (hev : Values ev P f) (hfm : Measurable (fun u => f (uToX t marg u))) (sigma y y' : ℝ) {N K : ℕ} (hN : 1 ≤ N)
    (hK : 1 ≤ K) (ν : Measure (Fin K → Fin n → ℝ)) [IsProbabilityMeasure ν]
    (hν : ∀ j, ν.map (fun U => U j) = (stdGauss n)[|{u | f (uToX t marg u) ≤ y}]) (pos : ℕ) (s : σ) (hs : P s) :
    (∀ (U : Fin K → Fin n → ℝ) υ, ∃ r, mmhStep t marg ev sigma y υ N (List.ofFn fun j => (U j, f (uToX t marg (U j)))) pos s = .ok r) ∧
    ∫ p, levelShare (mmhStep t marg ev sigma y p.2 N (List.ofFn fun j => (p.1 j, f (uToX t marg (p.1 j)))) pos s) y' N
      ∂(ν.prod unifStream) = ((stdGauss n)[|{u | f (uToX t marg u) ≤ y}]).real {u | f (uToX t marg u) ≤ y'} := by
  set base := N / K with hbase
  obtain ⟨T, pos', h1, h2, h3⟩ := chains_mean (t := t) (marg := marg) (sigma := sigma) (y := y) hev hfm y' ν hν base (N - base * K)
    (List.finRange K) 0 pos
  have hof : ∀ U : Fin K → Fin n → ℝ, (List.ofFn fun j => (U j, f (uToX t marg (U j)))) =
      (List.finRange K).map fun j => (U j, f (uToX t marg (U j))) := fun U => by rw [List.ofFn_eq_map]
  have hstep : ∀ U υ, ∃ s', mmhStep t marg ev sigma y υ N (List.ofFn fun j => (U j, f (uToX t marg (U j)))) pos s =
      .ok (T U υ, pos', s') := by
    intro U υ
    obtain ⟨s', g1, -⟩ := h1 U υ s hs
    refine ⟨s', ?_⟩
    unfold mmhStep
    rw [List.length_ofFn, if_neg (by omega), hof]
    exact g1
  refine ⟨fun U υ => ?_, ?_⟩
  · obtain ⟨s', g1⟩ := hstep U υ
    exact ⟨_, g1⟩
  · have hshare : ∀ p : (Fin K → Fin n → ℝ) × (ℕ → ℝ),
        levelShare (mmhStep t marg ev sigma y p.2 N (List.ofFn fun j => (p.1 j, f (uToX t marg (p.1 j)))) pos s) y' N =
        (countLe ((T p.1 p.2).flatten.map Prod.snd) y' : ℝ) / N := by
      intro p
      obtain ⟨s', g1⟩ := hstep p.1 p.2
      rw [g1]
      rfl
    simp only [hshare]
    rw [integral_div, h3, List.length_finRange]
    have hrem : N - base * K < K := by
      have h4 := Nat.div_add_mod N K
      have h5 := Nat.mod_lt N (show 0 < K by omega)
      rw [hbase, Nat.mul_comm]
      omega
    have htot : ∑ j ∈ Finset.range K, (base + if 0 + j < N - base * K then 1 else 0 : ℕ) = N := by
      simp only [Nat.zero_add]
      rw [Finset.sum_add_distrib, Finset.sum_const, Finset.card_range, smul_eq_mul, ← Finset.card_filter]
      have e : (Finset.range K).filter (fun j => j < N - base * K) = Finset.range (N - base * K) := by
        ext j
        simp only [Finset.mem_filter, Finset.mem_range]
        omega
      rw [e, Finset.card_range]
      have h4 : base * K ≤ N := Nat.div_mul_le_self N K
      rw [Nat.mul_comm K base]
      omega
    rw [htot]
    have hNpos : (0:ℝ) < N := by exact_mod_cast hN
    field_simp

end

/-- Three independent seeds beyond `x₀ ≥ 1`, seven samples: the expected share beyond `x₀ ≥ 2` is the conditional probability. -/
example : ∃ m : Marginal, Normal.new 0 (.fin 1) none = .ok m ∧
    ∫ p, levelShare (mmhStep (n := 2) ⟨1, 1⟩ (fun _ => m)
      (⟨fun s _ => (s, .error .typeError), fun s xs => (s, .ok (xs.map (fun x => 3 - x 0)))⟩ : Evaluator Unit 2) 1 2 p.2 7
      (List.ofFn fun j : Fin 3 => (p.1 j, 3 - p.1 j 0)) 0 ()) 1 7
      ∂((Measure.pi fun _ : Fin 3 => (stdGauss 2)[|{u | 3 - u 0 ≤ 2}]).prod unifStream) =
    ((stdGauss 2)[|{u | 3 - u 0 ≤ 2}]).real {u | 3 - u 0 ≤ 1} := by
  obtain ⟨m, hm⟩ : ∃ m, Normal.new 0 (.fin (1 : ℝ)) none = .ok m := ⟨_, rfl⟩
  have hu := (normal_ok hm).1
  have hux : ∀ u : Fin 2 → ℝ, uToX (n := 2) ⟨1, 1⟩ (fun _ => m) u = u := by
    intro u; funext i; simp [uToX, hu, Normal.uToX]
  refine ⟨m, hm, ?_⟩
  have hne : stdGauss 2 {u | 3 - u 0 ≤ 2} ≠ 0 := by
    have h1 := halfspace_prob (n := 2) ![-1, 0] (by rw [Fin.sum_univ_two]; norm_num) 1
    have e : {u : Fin 2 → ℝ | 1 + ∑ i, ![-1, 0] i * u i ≤ 0} = {u | 3 - u 0 ≤ 2} := by
      ext u
      rw [Set.mem_setOf_eq, Fin.sum_univ_two]
      simp only [Matrix.cons_val_zero, Matrix.cons_val_one, Set.mem_setOf_eq]
      constructor <;> intro h <;> linarith
    rw [e] at h1
    intro h2
    rw [measureReal_def, h2] at h1
    exact absurd h1.symm (StdNormal.cdf_pos _).ne'
  haveI : IsProbabilityMeasure ((stdGauss 2)[|{u : Fin 2 → ℝ | 3 - u 0 ≤ 2}]) := cond_isProbabilityMeasure hne
  have h := (C129_level (t := ⟨1, 1⟩) (marg := fun _ => m)
    (ev := (⟨fun s _ => (s, .error .typeError), fun s xs => (s, .ok (xs.map (fun x => 3 - x 0)))⟩ : Evaluator Unit 2))
    (P := fun _ => True) (f := fun x : Fin 2 → ℝ => 3 - x 0) (fun s xs _ => ⟨s, rfl, trivial⟩)
    (by simp only [hux]; fun_prop) 1 2 1 (N := 7) (K := 3) (by norm_num) (by norm_num)
    (Measure.pi fun _ : Fin 3 => (stdGauss 2)[|{u | 3 - u 0 ≤ 2}])
    (fun j => by simp only [hux]; exact (measurePreserving_eval _ j).map_eq) 0 () trivial).2
  simp only [hux] at h
  exact h

end Pystra.Props
