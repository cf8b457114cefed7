import Verif.Lemmas.Cholesky
import Mathlib.Analysis.Calculus.Deriv.Mul
import Mathlib.Analysis.SpecialFunctions.Pow.Deriv

/-! The Cholesky loops compute the factor and its derivative. -/

namespace Pystra.CholeskySens
open Real Matrix Spec Finset

variable {n : ℕ}

/-- Induction over the outer loop. -/
theorem foldl_finRange_ind {α : Type} (f : α → Fin n → α) (P : ℕ → α → Prop) (a : α) (h0 : P 0 a)
    (hs : ∀ (k : Fin n) (a : α), P k.val a → P (k.val + 1) (f a k)) : P n ((List.finRange n).foldl f a) := by
  have key : ∀ k, k ≤ n → P k (((List.finRange n).take k).foldl f a) := by
    intro k
    induction k with
    | zero => intro _; simpa using h0
    | succ k ih =>
      intro hk
      have hlt : k < (List.finRange n).length := by simpa using hk
      rw [List.take_succ_eq_append_getElem hlt, List.foldl_append, List.foldl_cons, List.foldl_nil]
      have := hs ((List.finRange n)[k]) _ (by simpa using ih (by omega))
      simpa using this
  have := key n le_rfl
  rwa [List.take_of_length_le (by simp)] at this

theorem sum_ge_split (f : Fin n → ℝ) (k : Fin n) :
    ∑ m with k.val ≤ m.val, f m = f k + ∑ m with k.val + 1 ≤ m.val, f m := by
  rw [← Finset.sum_filter_add_sum_filter_not _ (fun m => m = k)]
  congr 1
  · rw [Finset.filter_filter]
    have : (univ.filter fun m : Fin n => k.val ≤ m.val ∧ m = k) = {k} := by
      ext m; simp only [mem_filter, mem_univ, true_and, mem_singleton]
      exact ⟨fun h => h.2, fun h => ⟨h ▸ le_rfl, h⟩⟩
    rw [this, sum_singleton]
  · rw [Finset.filter_filter]
    congr 1
    ext m; simp only [mem_filter, mem_univ, true_and]
    rw [Fin.ext_iff]; omega

/-- Only the first term survives when the other factor is triangular. -/
theorem sum_ge_lower {M : Matrix (Fin n) (Fin n) ℝ} (hM : LowerTri M) (g : Fin n → ℝ) (k : Fin n) :
    ∑ m with k.val + 1 ≤ m.val, g m * M k m = 0 := by
  apply Finset.sum_eq_zero
  intro m hm
  rw [mem_filter] at hm
  rw [hM k m (Fin.lt_def.2 hm.2), mul_zero]

/-- The loop invariant. -/
def Inv (M N : Matrix (Fin n) (Fin n) ℝ) (k : ℕ) (s : St n) : Prop :=
  ∀ i j : Fin n, j ≤ i →
    (j.val < k → s.A i j = M i j ∧ s.dA i j = N i j) ∧
    (k ≤ j.val → s.A i j = ∑ m with k ≤ m.val, M i m * M j m ∧
      s.dA i j = ∑ m with k ≤ m.val, (N i m * M j m + M i m * N j m))

theorem Inv.pivot_eq {M N : Matrix (Fin n) (Fin n) ℝ} (hM : LowerTri M) (hN : LowerTri N)
    {k : Fin n} {s : St n} (h : Inv M N k.val s) :
    (∀ i, k ≤ i → s.A i k = M i k * M k k) ∧ (∀ i, k ≤ i → s.dA i k = N i k * M k k + M i k * N k k) := by
  constructor
  · intro i hi
    rw [((h i k hi).2 le_rfl).1, sum_ge_split, sum_ge_lower hM, add_zero]
  · intro i hi
    rw [((h i k hi).2 le_rfl).2, sum_ge_split, sum_add_distrib, sum_ge_lower hM, sum_ge_lower hN, add_zero, add_zero]

theorem Inv.step {M N : Matrix (Fin n) (Fin n) ℝ} (hM : LowerTri M) (hN : LowerTri N) (hd : ∀ i, 0 < M i i)
    (k : Fin n) (s : St n) (h : Inv M N k.val s) : Inv M N (k.val + 1) (CholeskySens.step s k) := by
  obtain ⟨pA, pD⟩ := h.pivot_eq hM hN
  have hk := hd k
  have hsq : √(s.A k k) = M k k := by rw [pA k le_rfl, sqrt_mul_self hk.le]
  have hdd : s.dA k k / (2 * M k k) = N k k := by
    rw [pD k le_rfl]; field_simp; ring
  have hc : ∀ i, k ≤ i → (s.dA i k * M k k - s.A i k * N k k) / M k k ^ 2 = N i k := by
    intro i hi
    rw [pD i hi, pA i hi]; field_simp; ring
  have ha : ∀ i, k ≤ i → s.A i k / M k k = M i k := by
    intro i hi; rw [pA i hi]; field_simp
  rw [step_eq]
  intro i j hji
  simp only [stageA, stageD, hsq, hdd]
  refine ⟨fun hlt => ?_, fun hge => ?_⟩
  · by_cases hjk : j = k
    · subst hjk
      simp only [if_true]
      by_cases hi : i = j
      · subst hi; simp
      · have hlt' : j < i := lt_of_le_of_ne hji (Ne.symm hi)
        simp only [if_neg hi, if_pos hlt', ha i hji, hc i hji, and_self]
    · have hjlt : j.val < k.val := by
        have : j.val ≠ k.val := fun e => hjk (Fin.ext e)
        omega
      have hn : ¬ (k < j ∧ j ≤ i) := fun h => absurd (Fin.lt_def.1 h.1) (by omega)
      simp only [if_neg hjk, if_neg hn]
      exact (h i j hji).1 hjlt
  · have hkj : k < j := Fin.lt_def.2 hge
    have hki : k ≤ i := (hkj.le).trans hji
    simp only [if_neg hkj.ne', if_pos (⟨hkj, hji⟩ : k < j ∧ j ≤ i), ha i hki, ha j hkj.le, hc i hki, hc j hkj.le]
    obtain ⟨e1, e2⟩ := (h i j hji).2 (Nat.le_of_succ_le hge)
    rw [e1, e2, sum_ge_split, sum_ge_split]
    constructor <;> ring

theorem tril_of_lower {M A : Matrix (Fin n) (Fin n) ℝ} (hM : LowerTri M) (h : ∀ i j, j ≤ i → A i j = M i j) :
    tril A = M := by
  funext i j
  unfold tril
  split
  · next hji => exact h i j hji
  · next hji => exact (hM i j (not_le.1 hji)).symm

theorem inv_init (M N : Matrix (Fin n) (Fin n) ℝ) : Inv M N 0 ⟨M * Mᵀ, N * Mᵀ + M * Nᵀ⟩ := by
  intro i j _
  refine ⟨fun h => absurd h (by omega), fun _ => ?_⟩
  simp [Matrix.mul_apply, Finset.sum_add_distrib]

/-- The algorithm recovers any factor and any triangular derivative. -/
theorem recovers {M N : Matrix (Fin n) (Fin n) ℝ} (hM : LowerTri M) (hN : LowerTri N) (hd : ∀ i, 0 < M i i) :
    choleskyWithDerivative (M * Mᵀ) (N * Mᵀ + M * Nᵀ) = (M, N) := by
  have h := foldl_finRange_ind CholeskySens.step (Inv M N) _ (inv_init M N) (fun k s h => h.step hM hN hd)
  unfold choleskyWithDerivative
  simp only
  rw [tril_of_lower hM (fun i j hji => ((h i j hji).1 j.isLt).1),
    tril_of_lower hN (fun i j hji => ((h i j hji).1 j.isLt).2)]

theorem lower_mul {A B : Matrix (Fin n) (Fin n) ℝ} (hA : LowerTri A) (hB : LowerTri B) : LowerTri (A * B) := by
  intro i j hij
  rw [Matrix.mul_apply]
  apply Finset.sum_eq_zero
  intro m _
  by_cases h : i < m
  · rw [hA i m h, zero_mul]
  · rw [hB m j (lt_of_le_of_lt (not_lt.1 h) hij), mul_zero]

theorem lowerTri_iff (M : Matrix (Fin n) (Fin n) ℝ) : LowerTri M ↔ BlockTriangular M OrderDual.toDual :=
  ⟨fun h i j hij => h i j hij, fun h i j hij => h hij⟩

theorem lower_inv {M : Matrix (Fin n) (Fin n) ℝ} (h : LowerTri M) (hu : IsUnit M.det) : LowerTri M⁻¹ := by
  rw [lowerTri_iff] at *
  haveI := Matrix.invertibleOfIsUnitDet M hu
  exact blockTriangular_inv_of_blockTriangular h

theorem det_lower {M : Matrix (Fin n) (Fin n) ℝ} (h : LowerTri M) : M.det = ∏ i, M i i :=
  Matrix.det_of_lowerTriangular M ((lowerTri_iff M).1 h)

theorem isUnit_det_of_diag {M : Matrix (Fin n) (Fin n) ℝ} (h : LowerTri M) (hd : ∀ i, 0 < M i i) : IsUnit M.det := by
  rw [det_lower h]; exact (Finset.prod_pos (fun i _ => hd i)).ne'.isUnit

/-- Every positive definite matrix has a Cholesky factor. -/
theorem exists_cholesky {R : Matrix (Fin n) (Fin n) ℝ} (hR : R.PosDef) : ∃ M, IsCholesky R M := by
  set W := LDL.lowerInv hR with hW
  have hWl : LowerTri W := fun i j hij => LDL.lowerInv_triangular hR hij
  haveI : Invertible W := LDL.invertibleLowerInv hR
  have hu : IsUnit W.det := Matrix.isUnit_det_of_invertible W
  have hWd : ∀ i, W i i ≠ 0 := by
    rw [det_lower hWl] at hu
    intro i hi
    exact hu.ne_zero (Finset.prod_eq_zero (Finset.mem_univ i) hi)
  have hD : LDL.diag hR = W * R * Wᵀ := LDL.diag_eq_lowerInv_conj hR
  have hDpos : ∀ i, 0 < LDL.diagEntries hR i := by
    have hpd : (W * R * Wᴴ).PosDef := by
      apply Matrix.PosDef.mul_mul_conjTranspose_same hR
      exact Matrix.vecMul_injective_of_isUnit ((Matrix.isUnit_iff_isUnit_det W).2 hu)
    intro i
    have := hpd.diag_pos (i := i)
    have e : (W * R * Wᴴ) = LDL.diag hR := (LDL.diag_eq_lowerInv_conj hR).symm
    rw [e] at this
    simpa [LDL.diag] using this
  set d := LDL.diagEntries hR
  set sg : Fin n → ℝ := fun i => SignType.sign (W i i) with hsg
  have hsg2 : ∀ i, sg i * sg i = 1 := by
    intro i
    simp only [hsg]
    rcases lt_or_gt_of_ne (hWd i) with h | h
    · rw [sign_neg h]; simp
    · rw [sign_pos h]; simp
  have hinvl : LowerTri W⁻¹ := lower_inv hWl hu
  have hinvd : ∀ i, W⁻¹ i i = (W i i)⁻¹ := by
    intro i
    have h1 : (W⁻¹ * W) i i = 1 := by rw [Matrix.nonsing_inv_mul W hu, Matrix.one_apply_eq]
    rw [Matrix.mul_apply, Finset.sum_eq_single i] at h1
    · exact eq_inv_of_mul_eq_one_left h1
    · intro m _ hm
      rcases lt_or_gt_of_ne hm with h | h
      · rw [hWl m i h, mul_zero]
      · rw [hinvl i m h, zero_mul]
    · intro h; exact absurd (Finset.mem_univ i) h
  refine ⟨W⁻¹ * Matrix.diagonal (fun i => √(d i) * sg i), ?_, ?_, ?_⟩
  · apply lower_mul hinvl
    intro i j hij
    exact Matrix.diagonal_apply_ne _ hij.ne
  · intro i
    rw [Matrix.mul_diagonal, hinvd]
    have h1 := sqrt_pos.2 (hDpos i)
    have h2 : 0 < (W i i)⁻¹ * sg i := by
      simp only [hsg]
      rcases lt_or_gt_of_ne (hWd i) with h | h
      · rw [sign_neg h]; simp [h]
      · rw [sign_pos h]; simp [h]
    calc 0 < ((W i i)⁻¹ * sg i) * √(d i) := mul_pos h2 h1
      _ = _ := by ring
  · rw [Matrix.transpose_mul, Matrix.diagonal_transpose]
    have e : Matrix.diagonal (fun i => √(d i) * sg i) * Matrix.diagonal (fun i => √(d i) * sg i) = LDL.diag hR := by
      rw [Matrix.diagonal_mul_diagonal, LDL.diag]
      congr 1; funext i
      calc √(d i) * sg i * (√(d i) * sg i) = (√(d i) * √(d i)) * (sg i * sg i) := by ring
        _ = d i := by rw [mul_self_sqrt (hDpos i).le, hsg2, mul_one]
    calc W⁻¹ * Matrix.diagonal (fun i => √(d i) * sg i) * (Matrix.diagonal (fun i => √(d i) * sg i) * W⁻¹ᵀ)
        = W⁻¹ * (Matrix.diagonal (fun i => √(d i) * sg i) * Matrix.diagonal (fun i => √(d i) * sg i)) * W⁻¹ᵀ := by
          simp only [Matrix.mul_assoc]
      _ = W⁻¹ * (W * R * Wᵀ) * W⁻¹ᵀ := by rw [e, hD]
      _ = (W⁻¹ * W) * R * (W⁻¹ * W)ᵀ := by rw [Matrix.transpose_mul]; simp only [Matrix.mul_assoc]
      _ = R := by rw [Matrix.nonsing_inv_mul W hu]; simp

/-- Half of a symmetric matrix. -/
noncomputable def lowerHalf (X : Matrix (Fin n) (Fin n) ℝ) : Matrix (Fin n) (Fin n) ℝ :=
  fun i j => if j < i then X i j else if i = j then X i j / 2 else 0

theorem lowerHalf_add {X : Matrix (Fin n) (Fin n) ℝ} (h : X.IsSymm) : lowerHalf X + (lowerHalf X)ᵀ = X := by
  ext i j
  simp only [Matrix.add_apply, Matrix.transpose_apply, lowerHalf]
  have hs : X j i = X i j := h.apply i j
  rcases lt_trichotomy i j with h | h | h
  · rw [if_neg (not_lt.2 h.le), if_neg h.ne, if_pos h, hs, zero_add]
  · subst h; rw [if_neg (lt_irrefl _), if_pos rfl]; ring
  · rw [if_pos h, if_neg (not_lt.2 h.le), if_neg h.ne, add_zero]

/-- Every symmetric direction is `N Mᵀ + M Nᵀ` for a triangular `N`. -/
theorem exists_deriv {M D : Matrix (Fin n) (Fin n) ℝ} (hM : LowerTri M) (hd : ∀ i, 0 < M i i) (hD : D.IsSymm) :
    ∃ N, LowerTri N ∧ N * Mᵀ + M * Nᵀ = D := by
  have hu := isUnit_det_of_diag hM hd
  set X := M⁻¹ * D * M⁻¹ᵀ
  have hX : X.IsSymm := by
    unfold Matrix.IsSymm
    rw [Matrix.transpose_mul, Matrix.transpose_mul, Matrix.transpose_transpose, hD.eq, ← Matrix.mul_assoc]
  refine ⟨M * lowerHalf X, lower_mul hM ?_, ?_⟩
  · intro i j hij
    simp only [lowerHalf, if_neg (not_lt.2 hij.le), if_neg hij.ne]
  · rw [Matrix.transpose_mul]
    calc M * lowerHalf X * Mᵀ + M * ((lowerHalf X)ᵀ * Mᵀ) = M * (lowerHalf X + (lowerHalf X)ᵀ) * Mᵀ := by
          rw [Matrix.mul_add, Matrix.add_mul]; simp only [Matrix.mul_assoc]
      _ = (M * M⁻¹) * D * (M * M⁻¹)ᵀ := by
          rw [lowerHalf_add hX, Matrix.transpose_mul]; simp only [X, Matrix.mul_assoc]
      _ = D := by rw [Matrix.mul_nonsing_inv M hu]; simp

/-- The first array does not depend on the derivative array. -/
theorem foldl_A (R D : Matrix (Fin n) (Fin n) ℝ) (l : List (Fin n)) :
    (l.foldl CholeskySens.step ⟨R, D⟩).A = l.foldl stageA R := by
  induction l generalizing R D with
  | nil => rfl
  | cons k l ih => rw [List.foldl_cons, List.foldl_cons, step_eq, ih]

/-- One pass differentiates. -/
theorem stage_hasDerivAt {A : ℝ → Matrix (Fin n) (Fin n) ℝ} {D : Matrix (Fin n) (Fin n) ℝ} {t : ℝ} (k : Fin n)
    (h : ∀ i j, HasDerivAt (fun s => A s i j) (D i j) t) (hp : 0 < A t k k) (i j : Fin n) :
    HasDerivAt (fun s => stageA (A s) k i j) (stageD (A t) D k i j) t := by
  have hs : HasDerivAt (fun s => √(A s k k)) (D k k / (2 * √(A t k k))) t := (h k k).sqrt hp.ne'
  have hne : √(A t k k) ≠ 0 := (sqrt_pos.2 hp).ne'
  have hq : ∀ i, HasDerivAt (fun s => A s i k / √(A s k k))
      ((D i k * √(A t k k) - A t i k * (D k k / (2 * √(A t k k)))) / √(A t k k) ^ 2) t := fun i => (h i k).div hs hne
  simp only [stageA, stageD]
  by_cases hj : j = k
  · simp only [if_pos hj]
    by_cases hi : i = k
    · simp only [if_pos hi]; exact hs
    · by_cases hlt : k < i
      · simp only [if_neg hi, if_pos hlt]; exact hq i
      · simp only [if_neg hi, if_neg hlt]; exact h i j
  · by_cases hij : k < j ∧ j ≤ i
    · simp only [if_neg hj, if_pos hij]
      exact ((h i j).sub ((hq i).mul (hq j))).congr_deriv (by ring)
    · simp only [if_neg hj, if_neg hij]; exact h i j

/-- The loops differentiate the loops. -/
theorem fold_hasDerivAt {R : ℝ → Matrix (Fin n) (Fin n) ℝ} {D : Matrix (Fin n) (Fin n) ℝ} {t : ℝ}
    {M N : Matrix (Fin n) (Fin n) ℝ} (hM : LowerTri M) (hN : LowerTri N) (hd : ∀ i, 0 < M i i)
    (hR : R t = M * Mᵀ) (hDR : D = N * Mᵀ + M * Nᵀ) (h : ∀ i j, HasDerivAt (fun s => R s i j) (D i j) t) (i j : Fin n) :
    HasDerivAt (fun s => ((List.finRange n).foldl stageA (R s)) i j) (N i j) t ∨ i < j := by
  by_cases hij : i < j
  · exact Or.inr hij
  left
  -- invariant: state of the pair at `t`, and derivatives of the running array
  have key := foldl_finRange_ind (n := n) (α := (ℝ → Matrix (Fin n) (Fin n) ℝ) × St n)
    (fun p k => (fun s => stageA (p.1 s) k, CholeskySens.step p.2 k))
    (fun k p => Inv M N k p.2 ∧ p.1 t = p.2.A ∧ ∀ i j, HasDerivAt (fun s => p.1 s i j) (p.2.dA i j) t)
    (R, ⟨R t, D⟩) ⟨by rw [hR, hDR]; exact inv_init M N, rfl, h⟩ (by
      rintro k ⟨A, s⟩ ⟨h1, h2, h3⟩
      simp only at h1 h2 h3
      have hp : 0 < A t k k := by
        rw [h2, (h1.pivot_eq hM hN).1 k le_rfl]; have := hd k; positivity
      refine ⟨h1.step hM hN hd, ?_, ?_⟩
      · simp only [step_eq, h2]
      · intro i j
        simp only [step_eq, ← h2]
        exact stage_hasDerivAt k h3 hp i j)
  have e : ∀ (l : List (Fin n)) (A : ℝ → Matrix (Fin n) (Fin n) ℝ) (s : St n),
      (l.foldl (fun (p : (ℝ → Matrix (Fin n) (Fin n) ℝ) × St n) k => (fun s => stageA (p.1 s) k, CholeskySens.step p.2 k)) (A, s)).1 =
        fun x => l.foldl stageA (A x) := by
    intro l
    induction l with
    | nil => intro A s; rfl
    | cons k l ih => intro A s; rw [List.foldl_cons, ih]; rfl
  obtain ⟨k1, _, k3⟩ := key
  have := k3 i j
  rw [e] at this
  rw [((k1 i j (not_lt.1 hij)).1 j.isLt).2] at this
  exact this

end Pystra.CholeskySens
