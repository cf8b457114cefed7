import Verif.Lemmas.Brent
import Verif.Spec.MonteCarlo

namespace Pystra.LineSampling
open Transformation Form Spec

variable {σ : Type} {n : ℕ} {h : ℝ → Option ℝ} {P : σ → Prop}

section
variable {t : Mats n} {marg : Fin n → Marginal} {ev : Evaluator σ n} {v alpha : Fin n → ℝ}

theorem scan_spec (hf : Computes (evalAt t marg ev v alpha) P h) : ∀ (cs : List ℝ) (s : σ), P s →
    P (scan t marg ev v alpha cs s).1 ∧ (scan t marg ev v alpha cs s).2 = cs.map (fun c => (c, h c))
  | [], s, hs => ⟨hs, rfl⟩
  | c :: cs, s, hs => by
    have h1 := hf s hs c
    have h2 := scan_spec hf cs _ h1.1
    unfold scan
    simp only
    refine ⟨h2.1, ?_⟩
    rw [h2.2, h1.2]
    rfl

end

open Classical in
theorem bracket_spec (h : ℝ → Option ℝ) : ∀ (cs : List ℝ) (acc : Option (ℝ × ℝ)),
    bracket (cs.map (fun c => (c, h c))) acc =
      (((cs.zip cs.tail).find? (fun p => SafeToFail h p.1 p.2)).or
        (acc.or ((cs.zip cs.tail).find? (fun p => SignChange h p.1 p.2))))
  | [], acc => by simp [bracket]
  | [c], acc => by
    rcases hc : h c with _ | g <;> simp [bracket, hc]
  | c :: c' :: rest, acc => by
    have ih := bracket_spec h (c' :: rest)
    simp only [List.map_cons, List.tail_cons, List.zip_cons_cons, List.find?_cons] at ih ⊢
    rcases h1 : h c with _ | g1
    · have hs : ¬ SafeToFail h c c' := by rintro ⟨y, y', e, -⟩; rw [h1] at e; cases e
      have hc : ¬ SignChange h c c' := by rintro ⟨y, y', e, -⟩; rw [h1] at e; cases e
      simp only [hs, hc, decide_false]
      rw [bracket]
      · exact ih acc
      · rintro _ _ _ _ e _; simp at e
    rcases h2 : h c' with _ | g2
    · have hs : ¬ SafeToFail h c c' := by rintro ⟨y, y', -, e, -⟩; rw [h2] at e; cases e
      have hc : ¬ SignChange h c c' := by rintro ⟨y, y', -, e, -⟩; rw [h2] at e; cases e
      simp only [hs, hc, decide_false]
      rw [bracket, ← h2]
      · exact ih acc
      · rintro _ _ _ _ _ e; simp [h2] at e
    rw [bracket]
    rw [h2] at ih
    have es : SafeToFail h c c' ↔ 0 < g1 ∧ g2 ≤ 0 := by
      unfold SafeToFail
      rw [h1, h2]
      constructor
      · rintro ⟨y, y', e1, e2, e3⟩; cases e1; cases e2; exact e3
      · intro e; exact ⟨_, _, rfl, rfl, e⟩
    have ec : SignChange h c c' ↔ g1 * g2 ≤ 0 := by
      unfold SignChange
      rw [h1, h2]
      constructor
      · rintro ⟨y, y', e1, e2, e3⟩; cases e1; cases e2; exact e3
      · intro e; exact ⟨_, _, rfl, rfl, e⟩
    by_cases hsc : g1 * g2 ≤ 0
    · rw [if_pos hsc]
      by_cases hsf : 0 < g1 ∧ g2 ≤ 0
      · rw [if_pos hsf]
        simp [es.2 hsf]
      · rw [if_neg hsf, ih]
        simp only [es, ec, hsf, hsc, decide_false, decide_true]
        cases acc <;> simp
    · rw [if_neg hsc, ih]
      have hsf : ¬ (0 < g1 ∧ g2 ≤ 0) := fun hh => hsc (mul_nonpos_of_nonneg_of_nonpos hh.1.le hh.2)
      simp only [es, ec, hsf, hsc, decide_false]

theorem cMax_pos (c : ℝ) : 15 ≤ cMax c := le_max_right _ _

theorem scanPoint_mono {m : ℝ} (hm : 0 < m) {i j : ℕ} (hij : i ≤ j) : scanPoint m i ≤ scanPoint m j := by
  unfold scanPoint
  have : (i:ℝ) ≤ j := by exact_mod_cast hij
  have h2 : 0 < 2 * m / 39 := by positivity
  nlinarith

theorem scanPoint_zero (m : ℝ) : scanPoint m 0 = -m := by unfold scanPoint; simp

theorem scanPoint_last (m : ℝ) : scanPoint m 39 = m := by unfold scanPoint; push_cast; ring

theorem scanPoint_range {m : ℝ} (hm : 0 < m) {j : ℕ} (hj : j ≤ 39) : -m ≤ scanPoint m j ∧ scanPoint m j ≤ m :=
  ⟨(scanPoint_zero m).symm.le.trans (scanPoint_mono hm (Nat.zero_le j)),
    (scanPoint_mono hm hj).trans (scanPoint_last m).le⟩

theorem grid_eq (m : ℝ) : grid m = (List.range 40).map (scanPoint m) := rfl

theorem pairs_eq (m : ℝ) : (grid m).zip (grid m).tail = (List.range 39).map (fun j => (scanPoint m j, scanPoint m (j + 1))) := by
  apply List.ext_getElem
  · simp [grid_eq]
  · intro i h1 h2
    simp [grid_eq]

/-- The first index satisfying a predicate. -/
theorem find_first {α : Type} {p : α → Bool} {N : ℕ} {F : ℕ → α} {j : ℕ} (hj : j < N) (hp : p (F j) = true)
    (hfirst : ∀ i < j, p (F i) = false) : ((List.range N).map F).find? p = some (F j) := by
  rw [List.find?_map, Option.map_eq_some_iff]
  refine ⟨j, ?_, rfl⟩
  rw [List.find?_eq_some_iff_getElem]
  refine ⟨hp, j, by simpa using hj, by simp, ?_⟩
  intro i hi
  simp [hfirst i hi]

theorem find_none {α : Type} {p : α → Bool} {N : ℕ} {F : ℕ → α} (hfirst : ∀ i < N, p (F i) = false) :
    ((List.range N).map F).find? p = none := by
  rw [List.find?_eq_none]
  intro x hx
  obtain ⟨i, hi, rfl⟩ := List.mem_map.1 hx
  rw [hfirst i (List.mem_range.1 hi)]
  simp

theorem rtol_nonneg : 0 ≤ rtol := by unfold rtol; positivity
theorem xtol_pos : 0 < xtol := by unfold xtol; norm_num

section
variable {t : Mats n} {marg : Fin n → Marginal} {ev : Evaluator σ n} {v alpha : Fin n → ℝ}

/-- When the scan yields the bracket `[lo, hi]`. -/
theorem findLine_bracket (hf : Computes (evalAt t marg ev v alpha) P h) (cInit : ℝ) {lo hi : ℝ} (hle : lo ≤ hi)
    (hb : bracket ((grid (cMax cInit)).map (fun c => (c, h c))) none = some (lo, hi)) (s : σ) (hs : P s) :
    P (findLine t marg ev v alpha cInit s).1 ∧
    ∃ s', P s' ∧
      ((∃ c, (Brent.brentq (evalAt t marg ev v alpha) lo hi xtol rtol 50 s').2 = .ok c ∧
          (findLine t marg ev v alpha cInit s).2 = c ∧ RootWithin h lo hi (xtol + rtol * |c|) c) ∨
        (∃ e, (Brent.brentq (evalAt t marg ev v alpha) lo hi xtol rtol 50 s').2 = .error e) ∧
          (findLine t marg ev v alpha cInit s).2 = (lo + hi) / 2) := by
  obtain ⟨h1, h2⟩ := scan_spec hf (grid (cMax cInit)) s hs
  have h3 := Brent.brentq_spec hf xtol_pos rtol_nonneg hle 50 _ h1
  unfold findLine
  simp only
  rw [h2, hb]
  simp only [min_eq_left hle, max_eq_right hle]
  set s' := (scan t marg ev v alpha (grid (cMax cInit)) s).1 with hs'
  rcases hr : Brent.brentq (evalAt t marg ev v alpha) lo hi xtol rtol 50 s' with ⟨s'', e | c⟩
  · rw [hr] at h3
    simp only
    exact ⟨h3.1, s', h1, Or.inr ⟨⟨e, by rw [hr]⟩, by norm_num; ring⟩⟩
  · rw [hr] at h3
    simp only
    exact ⟨h3.1, s', h1, Or.inl ⟨c, by rw [hr], rfl, h3.2 c rfl⟩⟩

/-- When the scan yields no bracket. -/
theorem findLine_none (hf : Computes (evalAt t marg ev v alpha) P h) (cInit : ℝ)
    (hb : bracket ((grid (cMax cInit)).map (fun c => (c, h c))) none = none) (s : σ) (hs : P s) :
    P (findLine t marg ev v alpha cInit s).1 ∧
    (findLine t marg ev v alpha cInit s).2 =
      match ((grid (cMax cInit)).filterMap h).head? with
      | some g => if g < 0 then -(cMax cInit) else cMax cInit
      | none => cMax cInit := by
  obtain ⟨h1, h2⟩ := scan_spec hf (grid (cMax cInit)) s hs
  have e : ((grid (cMax cInit)).map (fun c => (c, h c))).filterMap Prod.snd = (grid (cMax cInit)).filterMap h := by
    rw [List.filterMap_map]; rfl
  unfold findLine
  simp only
  rw [h2, hb, e]
  rcases hh : ((grid (cMax cInit)).filterMap h).head? with _ | g
  · exact ⟨h1, rfl⟩
  · exact ⟨h1, rfl⟩

end
end Pystra.LineSampling
