import Verif.Model.Correlation

/-! C25: the modified correlation matrix. -/

namespace Pystra.Props
open Correlation

variable {n : ℕ}

theorem quadratureRule_ok {k : ℕ} (h : k ≠ 0) : ∃ r, Quadrature.quadratureRule k = .ok r := by
  unfold Quadrature.quadratureRule
  rw [if_neg h]
  exact ⟨_, rfl⟩

theorem selectNIP_cases (rho : ℝ) : selectNIP rho ∈ [32, 64, 128, 256, 512, 1024] := by
  unfold selectNIP
  split_ifs <;> simp

theorem selectNIP_ne_zero (rho : ℝ) : selectNIP rho ≠ 0 := by
  have := selectNIP_cases rho
  intro h
  rw [h] at this
  simp at this

/-- The quadrature grid used for one pair. -/
noncomputable def gridOf (rho : ℝ) (mi mj : Marginal) : Integration.Grid :=
  match Integration.ziAndXi mi mj 6 (selectNIP rho) with
  | .ok g => g
  | .error _ => ⟨0, fun _ _ => 0, fun _ _ => 0, fun _ _ => 0, fun _ _ => 0, fun _ _ => 0, 0⟩

theorem gridOf_eq (rho : ℝ) (mi mj : Marginal) :
    Integration.ziAndXi mi mj 6 (selectNIP rho) = .ok (gridOf rho mi mj) := by
  unfold gridOf Integration.ziAndXi
  obtain ⟨r, hr⟩ := quadratureRule_ok (selectNIP_ne_zero rho)
  simp only [hr]

open Classical in
/-- What the documentation promises for one pair: zero stays zero, otherwise the minimiser of
`|rho - rho_integral(rho0)|` found from the start value `rho`. -/
noncomputable def expectedRho0 (fmin : Fmin) (rho : ℝ) (mi mj : Marginal) : ℝ :=
  if rho = 0 then 0
  else fmin (fun rho0 => |rho - Integration.rhoIntegral rho0 mi mj (gridOf rho mi mj)|) rho

theorem pairRho0_eq (fmin : Fmin) (rho : ℝ) (mi mj : Marginal) :
    pairRho0 fmin rho mi mj = .ok (expectedRho0 fmin rho mi mj) := by
  unfold pairRho0 expectedRho0
  simp only [gridOf_eq]
  by_cases h : rho = 0
  · rw [if_neg (not_not.2 h), if_pos h]
  · rw [if_pos h, if_neg h]; rfl

theorem loop_eq (fmin : Fmin) (marg : ℕ → Marginal) (R : Matrix (Fin n) (Fin n) ℝ) (l : List (ℕ × ℕ))
    (hl : ∀ p ∈ l, p.1 < n ∧ p.2 < n) (Ro : Matrix (Fin n) (Fin n) ℝ) :
    ∃ Ro', l.foldlM (fun Ro p => loopBody fmin marg R Ro p.1 p.2) Ro = (.ok Ro' : Except PyErr _) ∧
      ∀ a b : Fin n, Ro' a b =
        if (a.val, b.val) ∈ l then expectedRho0 fmin (R a b) (marg a) (marg b) else Ro a b := by
  induction l generalizing Ro with
  | nil => exact ⟨Ro, rfl, fun a b => by simp⟩
  | cons p l ih =>
    have hp := hl p (by simp)
    have e : loopBody fmin marg R Ro p.1 p.2 = .ok (fun a b => if a = ⟨p.1, hp.1⟩ ∧ b = ⟨p.2, hp.2⟩ then
        expectedRho0 fmin (R ⟨p.1, hp.1⟩ ⟨p.2, hp.2⟩) (marg p.1) (marg p.2) else Ro a b) := by
      unfold loopBody
      rw [dif_pos hp, pairRho0_eq]
    obtain ⟨Ro', h1, h2⟩ := ih (fun q hq => hl q (by simp [hq])) (fun a b => if a = ⟨p.1, hp.1⟩ ∧ b = ⟨p.2, hp.2⟩ then
        expectedRho0 fmin (R ⟨p.1, hp.1⟩ ⟨p.2, hp.2⟩) (marg p.1) (marg p.2) else Ro a b)
    refine ⟨Ro', ?_, fun a b => ?_⟩
    · rw [List.foldlM_cons, e]; exact h1
    · rw [h2 a b]
      by_cases hin : (a.val, b.val) ∈ l
      · rw [if_pos hin, if_pos (List.mem_cons_of_mem _ hin)]
      · rw [if_neg hin]
        by_cases hab : a = ⟨p.1, hp.1⟩ ∧ b = ⟨p.2, hp.2⟩
        · rw [if_pos hab]
          obtain ⟨rfl, rfl⟩ := hab
          rw [if_pos (by simp)]
        · rw [if_neg hab, if_neg]
          intro h
          rcases List.mem_cons.1 h with h | h
          · apply hab; subst h; exact ⟨rfl, rfl⟩
          · exact hin h

theorem mem_pairs (k : ℕ) (a b : ℕ) : (a, b) ∈ pairs k ↔ b < a ∧ a < k := by
  unfold pairs
  simp [List.mem_flatMap]
  exact and_comm

/-- C25: for any number of variables, any `R` (symmetric or not) and any optimiser, the result has unit diagonal, is
symmetric, and below the diagonal holds the modified coefficient of the entry of `R` at the same place. -/
theorem C25_entries (fmin : Fmin) (marg : ℕ → Marginal) (R : Matrix (Fin n) (Fin n) ℝ) :
    ∃ Ro, computeSquare fmin n marg R = .ok Ro ∧ (∀ i, Ro i i = 1) ∧ (∀ i j, Ro i j = Ro j i) ∧
      ∀ i j, j < i → Ro i j = expectedRho0 fmin (R i j) (marg i) (marg j) := by
  obtain ⟨Ro', h1, h2⟩ := loop_eq fmin marg R (pairs n)
    (fun p hp => by
      have := (mem_pairs n p.1 p.2).1 hp
      exact ⟨this.2, this.1.trans this.2⟩) 1
  refine ⟨symmetrise Ro', by unfold computeSquare; rw [h1], ?_, ?_, ?_⟩
  · intro i
    simp [symmetrise, h2, mem_pairs]
  · intro i j
    rcases lt_trichotomy i j with h | h | h
    · have hv : i.val < j.val := h
      simp [symmetrise, h2, mem_pairs, h, not_lt.2 h.le, hv, hv.le, Matrix.one_apply_ne h.ne]
    · rw [h]
    · have hv : j.val < i.val := h
      simp [symmetrise, h2, mem_pairs, h, not_lt.2 h.le, hv, hv.le, Matrix.one_apply_ne h.ne]
  · intro i j h
    have hv : j.val < i.val := h
    simp [symmetrise, h2, mem_pairs, not_lt.2 h.le, hv]

/-- C25: uncorrelated pairs stay uncorrelated; an identity `R` gives an identity result. -/
theorem C25_zero (fmin : Fmin) (marg : ℕ → Marginal) (R Ro : Matrix (Fin n) (Fin n) ℝ)
    (h : computeSquare fmin n marg R = .ok Ro) :
    (∀ i j, j < i → R i j = 0 → Ro i j = 0 ∧ Ro j i = 0) ∧ ((∀ i j, j < i → R i j = 0) → Ro = 1) := by
  obtain ⟨Ro', h1, hd, hs, he⟩ := C25_entries fmin marg R
  rw [h] at h1
  injection h1 with h1
  subst h1
  have z : ∀ i j, j < i → R i j = 0 → Ro i j = 0 := by
    intro i j hij h0
    rw [he i j hij]
    unfold expectedRho0
    rw [if_pos h0]
  refine ⟨fun i j hij h0 => ⟨z i j hij h0, by rw [hs]; exact z i j hij h0⟩, fun h0 => ?_⟩
  ext i j
  rcases lt_trichotomy i j with h' | h' | h'
  · rw [hs, z j i h' (h0 j i h'), Matrix.one_apply_ne h'.ne]
  · subst h'; rw [hd, Matrix.one_apply_eq]
  · rw [z i j h' (h0 i j h'), Matrix.one_apply_ne h'.ne']

/-- C25: only the strict lower triangle of `R` is read (an asymmetric `R` is silently accepted). -/
theorem C25_lower_only (fmin : Fmin) (marg : ℕ → Marginal) (R R' : Matrix (Fin n) (Fin n) ℝ)
    (h : ∀ i j, j < i → R i j = R' i j) : computeSquare fmin n marg R = computeSquare fmin n marg R' := by
  obtain ⟨Ro, h1, hd, hs, he⟩ := C25_entries fmin marg R
  obtain ⟨Ro', h1', hd', hs', he'⟩ := C25_entries fmin marg R'
  rw [h1, h1']
  congr 1
  ext i j
  rcases lt_trichotomy i j with h' | h' | h'
  · rw [hs, hs', he j i h', he' j i h', h j i h']
  · subst h'; rw [hd, hd']
  · rw [he i j h', he' i j h', h i j h']

/-- C25: the number of quadrature points depends only on `|rho|`, never decreases with it, and is between 32 and
1024. -/
theorem C25_nip (rho rho' : ℝ) :
    (|rho| = |rho'| → selectNIP rho = selectNIP rho') ∧ (|rho| ≤ |rho'| → selectNIP rho ≤ selectNIP rho') ∧
    32 ≤ selectNIP rho ∧ selectNIP rho ≤ 1024 := by
  refine ⟨fun h => by unfold selectNIP; rw [h], fun h => ?_, ?_, ?_⟩
  · unfold selectNIP
    split_ifs <;> first | omega | (exfalso; linarith)
  · unfold selectNIP; split_ifs <;> omega
  · unfold selectNIP; split_ifs <;> omega

/-- C25: with any optimiser that never returns a point worse than its start (as Nelder–Mead does) the correlation
integral at the modified coefficient is at least as close to the requested correlation as at the unmodified one;
and if the optimiser gets the objective below `ε` then the requested correlation is reproduced to within `ε`. -/
theorem C25_reproduces (fmin : Fmin) (marg : ℕ → Marginal) (R Ro : Matrix (Fin n) (Fin n) ℝ)
    (h : computeSquare fmin n marg R = .ok Ro) (i j : Fin n) (hij : j < i) (h0 : R i j ≠ 0) :
    let rhoInt := fun r => Integration.rhoIntegral r (marg i) (marg j) (gridOf (R i j) (marg i) (marg j))
    ((∀ (f : ℝ → ℝ) x, f (fmin f x) ≤ f x) → |rhoInt (Ro i j) - R i j| ≤ |rhoInt (R i j) - R i j|) ∧
    ∀ ε, (∀ (f : ℝ → ℝ) x, (∃ y, f y ≤ 0) → f (fmin f x) ≤ ε) → (∃ y, rhoInt y = R i j) →
      |rhoInt (Ro i j) - R i j| ≤ ε := by
  intro rhoInt
  obtain ⟨Ro', h1, -, -, he⟩ := C25_entries fmin marg R
  rw [h] at h1
  injection h1 with h1
  subst h1
  have e : Ro i j = fmin (fun rho0 => |R i j - rhoInt rho0|) (R i j) := by
    rw [he i j hij]
    unfold expectedRho0
    rw [if_neg h0]
  rw [abs_sub_comm, abs_sub_comm (rhoInt (R i j))]
  refine ⟨fun hf => ?_, fun ε hf hex => ?_⟩
  · have := hf (fun rho0 => |R i j - rhoInt rho0|) (R i j)
    rw [← e] at this
    exact this
  · obtain ⟨y, hy⟩ := hex
    have := hf (fun rho0 => |R i j - rhoInt rho0|) (R i j) ⟨y, by simp [hy]⟩
    rw [← e] at this
    exact this

theorem loop_error (fmin : Fmin) (marg : ℕ → Marginal) (R : Matrix (Fin n) (Fin n) ℝ) (l : List (ℕ × ℕ))
    (hl : ∃ p ∈ l, ¬ (p.1 < n ∧ p.2 < n)) (Ro : Matrix (Fin n) (Fin n) ℝ) :
    l.foldlM (fun Ro p => loopBody fmin marg R Ro p.1 p.2) Ro = (.error .indexError : Except PyErr _) := by
  induction l generalizing Ro with
  | nil => obtain ⟨p, hp, _⟩ := hl; cases hp
  | cons p l ih =>
    rw [List.foldlM_cons]
    by_cases hp : p.1 < n ∧ p.2 < n
    · have e : ∃ Ro'', loopBody fmin marg R Ro p.1 p.2 = .ok Ro'' := by
        unfold loopBody
        rw [dif_pos hp, pairRho0_eq]
        exact ⟨_, rfl⟩
      obtain ⟨Ro'', e⟩ := e
      rw [e]
      refine ih ?_ Ro''
      obtain ⟨q, hq, hn⟩ := hl
      rcases List.mem_cons.1 hq with rfl | hq
      · exact absurd hp hn
      · exact ⟨q, hq, hn⟩
    · have e : loopBody fmin marg R Ro p.1 p.2 = .error .indexError := by
        unfold loopBody; rw [dif_neg hp]
      rw [e]; rfl

/-- C25: more variables than rows of `R` (two variables at least): `IndexError`. -/
theorem C25_too_many (fmin : Fmin) (marg : ℕ → Marginal) (R : Matrix (Fin n) (Fin n) ℝ) (nvr : ℕ) (h : n < nvr)
    (h2 : 2 ≤ nvr) : computeSquare fmin nvr marg R = .error .indexError := by
  unfold computeSquare
  rw [loop_error fmin marg R (pairs nvr) ⟨(nvr - 1, 0), (mem_pairs _ _ _).2 ⟨by omega, by omega⟩, by simp; omega⟩]

/-- C25: on a whole stochastic model: without variables there is no matrix (`ValueError`); otherwise, for a square `R`
of the size of the model, the new matrix is stored and nothing else is changed; a failure changes nothing. -/
theorem C25_model (fmin : Fmin) (d : Marginal) (m : StochModel Marginal ℝ) :
    (m.getCorrelation = none → setModified fmin d m = (m, .error .valueError)) ∧
    (∀ R, m.getCorrelation = some R → R.nrow = m.marg.length → R.ncol = m.marg.length →
      ∃ Ro : NDArray2, setModified fmin d m = ({ m with Ro := some Ro }, .ok ()) ∧
        ∃ (hr : Ro.nrow = m.marg.length) (hc : Ro.ncol = m.marg.length),
          ∀ i, Ro.val (Fin.cast hr.symm i) (Fin.cast hc.symm i) = 1) ∧
    (∀ e, (setModified fmin d m).2 = .error e → (setModified fmin d m).1 = m) := by
  refine ⟨fun h => ?_, fun R h hr hc => ?_, fun e h => ?_⟩
  · unfold setModified compute; rw [h]
  · obtain ⟨rn, rc, rv⟩ := R
    simp only at hr hc
    subst hr hc
    obtain ⟨Ro, h1, hd, -⟩ := C25_entries fmin (fun i => (m.marg.map DistObj.body).getD i d) rv
    refine ⟨⟨_, _, Ro⟩, ?_, rfl, rfl, hd⟩
    unfold setModified compute
    rw [h]
    simp only [dif_pos]
    have e : (fun a b => rv a (Fin.cast (rfl : m.marg.length = m.marg.length).symm b)) = rv := rfl
    rw [e, h1]
    rfl
  · unfold setModified at h ⊢
    cases hcmp : compute fmin d m with
    | error e' => rfl
    | ok Ro => rw [hcmp] at h; cases h

/-- A pair with a positive coefficient and an optimiser which simply returns its start value: the hypotheses of the
theorems are met. -/
example (m0 m1 : Marginal) : ∃ Ro, computeSquare (fun _ x => x) 2 (fun i => if i = 0 then m0 else m1)
    !![1, 0.3; 0.4, 1] = .ok Ro ∧ Ro 0 1 = 0.4 ∧ Ro 1 0 = 0.4 := by
  obtain ⟨Ro, h1, hd, hs, he⟩ := C25_entries (fun _ x => x) (fun i => if i = 0 then m0 else m1) !![1, 0.3; 0.4, (1:ℝ)]
  have : Ro 1 0 = 0.4 := by
    rw [he 1 0 (by decide)]
    unfold expectedRho0
    simp
    norm_num
  exact ⟨Ro, h1, by rw [hs, this], this⟩

end Pystra.Props
