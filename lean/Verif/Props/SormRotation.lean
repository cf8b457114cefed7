import Verif.Model.Sorm
import Verif.Lemmas.Form
import Mathlib.LinearAlgebra.Matrix.NonsingularInverse
import Mathlib.Data.List.GetD

/-! C47: the rotation of SORM. -/

namespace Pystra.Props
open Sorm Matrix

variable {n m : ℕ}

/-- A list of orthonormal vectors. -/
structure ONList (Q : List (Fin n → ℝ)) : Prop where
  unit : ∀ q ∈ Q, q ⬝ᵥ q = 1
  orth : Q.Pairwise (fun p q => p ⬝ᵥ q = 0)

theorem reduce_nil (q : Fin n → ℝ) : reduce [] q = q := rfl

theorem reduce_cons (p : Fin n → ℝ) (Q : List (Fin n → ℝ)) (q : Fin n → ℝ) :
    reduce (p :: Q) q = reduce Q (q - (q ⬝ᵥ p) • p) := rfl

/-- Reducing does not change the product with a vector orthogonal to the list. -/
theorem reduce_dot {w : Fin n → ℝ} : ∀ (Q : List (Fin n → ℝ)) (q : Fin n → ℝ), (∀ p ∈ Q, p ⬝ᵥ w = 0) →
    reduce Q q ⬝ᵥ w = q ⬝ᵥ w
  | [], q, _ => rfl
  | p :: Q, q, h => by
    rw [reduce_cons, reduce_dot Q _ (fun p' hp => h p' (List.mem_cons_of_mem _ hp)), sub_dotProduct, smul_dotProduct,
      h p List.mem_cons_self]
    simp

/-- The reduced vector is orthogonal to the list. -/
theorem reduce_orth : ∀ (Q : List (Fin n → ℝ)) (q : Fin n → ℝ), ONList Q → ∀ p ∈ Q, p ⬝ᵥ reduce Q q = 0
  | [], q, _, p, hp => by simp at hp
  | a :: Q, q, h, p, hp => by
    have hQ : ONList Q := ⟨fun x hx => h.unit x (List.mem_cons_of_mem _ hx), (List.pairwise_cons.1 h.orth).2⟩
    rw [reduce_cons]
    rcases List.mem_cons.1 hp with rfl | hp
    · rw [dotProduct_comm, reduce_dot Q _ (fun x hx => by rw [dotProduct_comm]; exact (List.pairwise_cons.1 h.orth).1 x hx),
        sub_dotProduct, smul_dotProduct, h.unit p List.mem_cons_self]
      simp
    · exact reduce_orth Q _ hQ p hp

theorem norm2_nonneg' (q : Fin n → ℝ) : 0 ≤ norm2 q := Real.sqrt_nonneg _

theorem norm2_sq' (q : Fin n → ℝ) : norm2 q * norm2 q = q ⬝ᵥ q := by
  unfold norm2
  rw [Real.mul_self_sqrt (Finset.sum_nonneg fun i _ => sq_nonneg _)]
  exact Finset.sum_congr rfl fun i _ => sq _

/-- What Gram-Schmidt returns. -/
theorem gramSchmidt_spec : ∀ (A Q R : List (Fin n → ℝ)), ONList Q → gramSchmidt Q A = .ok R →
    ONList R ∧ R.length = Q.length + A.length ∧ R.take Q.length = Q
  | [], Q, R, hQ, h => by
    injection h with h
    subst h
    exact ⟨hQ, by simp, by simp⟩
  | a :: A, Q, R, hQ, h => by
    unfold gramSchmidt at h
    simp only at h
    split_ifs at h with h1
    rw [not_le, abs_of_nonneg (norm2_nonneg' _)] at h1
    have hpos : 0 < norm2 (reduce Q a) := lt_trans (by norm_num) h1
    have hQ' : ONList (Q ++ [(norm2 (reduce Q a))⁻¹ • reduce Q a]) := by
      constructor
      · intro q hq
        rcases List.mem_append.1 hq with hq | hq
        · exact hQ.unit q hq
        · rw [List.mem_singleton] at hq
          subst hq
          rw [smul_dotProduct, dotProduct_smul, ← norm2_sq', smul_eq_mul, smul_eq_mul]
          field_simp
      · rw [List.pairwise_append]
        refine ⟨hQ.orth, by simp, ?_⟩
        intro p hp q hq
        rw [List.mem_singleton] at hq
        subst hq
        rw [dotProduct_smul, reduce_orth Q a hQ p hp, smul_zero]
    obtain ⟨i1, i2, i3⟩ := gramSchmidt_spec A _ R hQ' h
    refine ⟨i1, ?_, ?_⟩
    · rw [i2]; simp; omega
    · have := congrArg (List.take Q.length) i3
      rw [List.take_take] at this
      simpa using this

/-- Gram-Schmidt succeeds if every vector has, relative to the reduced ones before it, a large enough component along some
vector orthogonal to its predecessors. -/
theorem gramSchmidt_ok : ∀ (A Q : List (Fin n → ℝ)), ONList Q →
    (∀ k (hk : k < A.length), ∃ w : Fin n → ℝ, (∀ p ∈ Q, p ⬝ᵥ w = 0) ∧ (∀ j (hj : j < k), A[j] ⬝ᵥ w = 0) ∧ w ⬝ᵥ w ≤ 1 ∧
      1e-8 < |A[k] ⬝ᵥ w|) → ∃ R, gramSchmidt Q A = .ok R
  | [], Q, _, _ => ⟨Q, rfl⟩
  | a :: A, Q, hQ, h => by
    have h1 : ¬ |norm2 (reduce Q a)| ≤ 1e-8 := by
      rw [not_le, abs_of_nonneg (norm2_nonneg' _)]
      obtain ⟨w, hw1, -, hw3, hw4⟩ := h 0 (by simp)
      rw [List.getElem_cons_zero] at hw4
      rw [← reduce_dot Q a hw1] at hw4
      refine lt_of_lt_of_le hw4 ?_
      have hcs : (reduce Q a ⬝ᵥ w) ^ 2 ≤ (reduce Q a ⬝ᵥ reduce Q a) * (w ⬝ᵥ w) := by
        have := Finset.sum_mul_sq_le_sq_mul_sq Finset.univ (reduce Q a) w
        simpa [dotProduct, sq] using this
      have h0 : 0 ≤ reduce Q a ⬝ᵥ reduce Q a := by
        rw [← norm2_sq']; exact mul_self_nonneg _
      apply abs_le_of_sq_le_sq _ (norm2_nonneg' _)
      rw [sq (norm2 _), norm2_sq']
      nlinarith
    have hQ' : gramSchmidt Q (a :: A) = gramSchmidt (Q ++ [(norm2 (reduce Q a))⁻¹ • reduce Q a]) A := by
      rw [gramSchmidt, if_neg h1]
    rw [not_le, abs_of_nonneg (norm2_nonneg' _)] at h1
    have hpos : 0 < norm2 (reduce Q a) := lt_trans (by norm_num) h1
    have hON : ONList (Q ++ [(norm2 (reduce Q a))⁻¹ • reduce Q a]) := by
      constructor
      · intro q hq
        rcases List.mem_append.1 hq with hq | hq
        · exact hQ.unit q hq
        · rw [List.mem_singleton] at hq
          subst hq
          rw [smul_dotProduct, dotProduct_smul, ← norm2_sq', smul_eq_mul, smul_eq_mul]
          field_simp
      · rw [List.pairwise_append]
        refine ⟨hQ.orth, by simp, ?_⟩
        intro p hp q hq
        rw [List.mem_singleton] at hq
        subst hq
        rw [dotProduct_smul, reduce_orth Q a hQ p hp, smul_zero]
    rw [hQ']
    apply gramSchmidt_ok A _ hON
    intro k hk
    obtain ⟨w, hw1, hw2, hw3, hw4⟩ := h (k + 1) (by simpa using hk)
    refine ⟨w, ?_, ?_, hw3, by simpa using hw4⟩
    · intro p hp
      rcases List.mem_append.1 hp with hp | hp
      · exact hw1 p hp
      · rw [List.mem_singleton] at hp
        subst hp
        have := hw2 0 (by omega)
        rw [List.getElem_cons_zero] at this
        rw [smul_dotProduct, reduce_dot Q a hw1, this, smul_zero]
    · intro j hj
      have := hw2 (j + 1) (by omega)
      simpa using this

/-- Gram-Schmidt keeps a coordinate that vanishes. -/
theorem gramSchmidt_zero (i : Fin n) : ∀ (A Q R : List (Fin n → ℝ)), (∀ a ∈ A, a i = 0) → (∀ q ∈ Q, q i = 0) →
    gramSchmidt Q A = .ok R → ∀ r ∈ R, r i = 0
  | [], Q, R, _, hQ, h => by injection h with h; subst h; exact hQ
  | a :: A, Q, R, hA, hQ, h => by
    unfold gramSchmidt at h
    simp only at h
    split_ifs at h with h1
    have hred : ∀ (Q : List (Fin n → ℝ)) (q : Fin n → ℝ), (∀ p ∈ Q, p i = 0) → q i = 0 → reduce Q q i = 0 := by
      intro Q
      induction Q with
      | nil => intro q _ hq; exact hq
      | cons p Q ih =>
        intro q hp hq
        rw [reduce_cons]
        apply ih _ (fun p' hp' => hp p' (List.mem_cons_of_mem _ hp'))
        simp [hq, hp p List.mem_cons_self]
    apply gramSchmidt_zero i A _ R (fun a ha => hA a (List.mem_cons_of_mem _ ha)) _ h
    intro q hq
    rcases List.mem_append.1 hq with hq | hq
    · exact hQ q hq
    · rw [List.mem_singleton] at hq
      subst hq
      simp [hred Q a hQ (hA a List.mem_cons_self)]

/-- The columns handed to Gram-Schmidt: `alpha`, then the unit vectors from the last but one down to the first. -/
theorem columns_zero (alpha : Fin (m + 1) → ℝ) : (fun i => rot90k3 (assemble alpha) i 0) = alpha := by
  funext i
  unfold rot90k3 assemble
  rw [Fin.rev_zero, updateRow_self]

theorem columns_succ (alpha : Fin (m + 1) → ℝ) (j : Fin (m + 1)) (hj : j ≠ 0) :
    (fun i => rot90k3 (assemble alpha) i j) = Pi.single j.rev 1 := by
  funext i
  unfold rot90k3 assemble
  have : j.rev ≠ Fin.last m := by
    intro h
    apply hj
    rw [← Fin.rev_rev j, h, Fin.rev_last]
  rw [updateRow_ne this, one_apply, Pi.single_apply]
  simp only [eq_comm]

/-- C47: for a unit vector `alpha` in two or more dimensions, whenever SORM builds its rotation `R` (no exception), `R` is
orthogonal, its last row is `alpha`, and the FORM design point `beta · alpha` goes to `(0, …, 0, beta)`. -/
theorem C47_rotation {alpha : Fin (m + 1) → ℝ} (ha : alpha ⬝ᵥ alpha = 1) {R : Matrix (Fin (m + 1)) (Fin (m + 1)) ℝ}
    (h : orthonormalMatrix alpha = .ok R) :
    R * Rᵀ = 1 ∧ Rᵀ * R = 1 ∧ R (Fin.last m) = alpha ∧
    (∀ beta : ℝ, R.mulVec (beta • alpha) = fun i => if i = Fin.last m then beta else 0) ∧
    (∀ beta : ℝ, Rᵀ.mulVec (fun i => if i = Fin.last m then beta else 0) = beta • alpha) := by
  unfold orthonormalMatrix at h
  split_ifs at h with hm
  simp only at h
  split at h
  · cases h
  next cols hc =>
  injection h with h
  subst h
  obtain ⟨h1, h2, h3⟩ := gramSchmidt_spec _ _ _ ⟨by simp, by simp⟩ hc
  simp only [List.length_nil, List.length_map, List.length_finRange, zero_add] at h2
  -- the first column is alpha
  have hfirst : cols.getD 0 0 = alpha := by
    rw [List.finRange_succ, List.map_cons, columns_zero] at hc
    rw [gramSchmidt] at hc
    split_ifs at hc with h4
    obtain ⟨-, -, h5⟩ := gramSchmidt_spec _ _ _ ⟨by
      intro q hq
      simp only [List.nil_append, List.mem_singleton] at hq
      subst hq
      rw [not_le, abs_of_nonneg (norm2_nonneg' _)] at h4
      have hpos : 0 < norm2 (reduce [] alpha) := lt_trans (by norm_num) h4
      rw [smul_dotProduct, dotProduct_smul, ← norm2_sq' (reduce [] alpha), smul_eq_mul, smul_eq_mul]
      field_simp, by simp⟩ hc
    have hn : norm2 alpha = 1 := by
      have := norm2_sq' alpha
      rw [ha] at this
      nlinarith [norm2_nonneg' alpha]
    simp only [List.nil_append, List.length_singleton, reduce_nil, hn, inv_one, one_smul] at h5
    have := congrArg (fun l => l.getD 0 0) h5
    rcases cols with _ | ⟨c, cs⟩
    · simp at h2
    · simpa using this
  set R : Matrix (Fin (m + 1)) (Fin (m + 1)) ℝ := rot90 (fun i j => cols.getD j.val 0 i) with hR
  have hrow : ∀ i, R i = cols.getD i.rev.val 0 := by
    intro i; rfl
  have hmem : ∀ i : Fin (m + 1), cols.getD i.val 0 ∈ cols := by
    intro i
    rw [List.getD_eq_getElem _ _ (by rw [h2]; exact i.2)]
    exact List.getElem_mem _
  have hRR : R * Rᵀ = 1 := by
    ext i j
    rw [mul_apply_eq_vecMul]
    have : (R * Rᵀ) i j = R i ⬝ᵥ R j := by simp [mul_apply, dotProduct]
    rw [← mul_apply_eq_vecMul, this, hrow, hrow, one_apply]
    split_ifs with hij
    · subst hij; exact h1.unit _ (hmem _)
    · rw [List.getD_eq_getElem _ _ (by rw [h2]; exact i.rev.2), List.getD_eq_getElem _ _ (by rw [h2]; exact j.rev.2)]
      have hne : i.rev.val ≠ j.rev.val := fun h => hij (Fin.rev_injective (Fin.ext h))
      have hpw := List.pairwise_iff_getElem.1 h1.orth
      rcases lt_or_gt_of_ne hne with h | h
      · exact hpw _ _ _ _ h
      · rw [dotProduct_comm]; exact hpw _ _ _ _ h
  have hRtR : Rᵀ * R = 1 := mul_eq_one_comm.1 hRR
  have hlast : R (Fin.last m) = alpha := by rw [hrow, Fin.rev_last]; exact hfirst
  have hmap : ∀ beta : ℝ, R.mulVec (beta • alpha) = fun i => if i = Fin.last m then beta else 0 := by
    intro beta
    funext i
    have h6 : (R.mulVec (beta • alpha)) i = beta * (R * Rᵀ) i (Fin.last m) := by
      rw [mulVec_smul, Pi.smul_apply, smul_eq_mul, ← hlast]
      rfl
    rw [h6, hRR, one_apply]
    split_ifs <;> simp
  refine ⟨hRR, hRtR, hlast, hmap, ?_⟩
  intro beta
  rw [← hmap beta, mulVec_mulVec, hRtR, one_mulVec]

/-- C47: when the rotation exists.  One variable: never (`TypeError`).  Otherwise it is built whenever the last component of
`alpha` exceeds `1e-8`, and never when that component is zero — although every unit vector has such a rotation. -/
theorem C47_defined (alpha : Fin (m + 1) → ℝ) (ha : alpha ⬝ᵥ alpha = 1) :
    (m = 0 → orthonormalMatrix alpha = .error .typeError) ∧
    (m ≠ 0 → 1e-8 < |alpha (Fin.last m)| → ∃ R, orthonormalMatrix alpha = .ok R) ∧
    (m ≠ 0 → alpha (Fin.last m) = 0 → orthonormalMatrix alpha = .error .valueError) := by
  refine ⟨fun h => by simp [orthonormalMatrix, h], ?_, ?_⟩
  · intro hm hlast
    have hok : ∃ R, gramSchmidt [] ((List.finRange (m + 1)).map (fun j => fun i => rot90k3 (assemble alpha) i j)) = .ok R := by
      apply gramSchmidt_ok _ _ ⟨by simp, by simp⟩
      intro k hk
      rw [List.length_map, List.length_finRange] at hk
      by_cases hk0 : k = 0
      · subst hk0
        refine ⟨alpha, by simp, by intro j hj; omega, ha.le, ?_⟩
        simp only [List.getElem_map, List.getElem_finRange]
        have : (Fin.cast (List.length_finRange) (⟨0, by simp⟩ : Fin (List.finRange (m+1)).length)) = (0 : Fin (m + 1)) := by
          ext; simp
        rw [this, columns_zero, ha]; norm_num
      · set r : Fin (m + 1) := (⟨k, hk⟩ : Fin (m + 1)).rev with hr
        have hrl : r ≠ Fin.last m := by
          intro h
          have : (⟨k, hk⟩ : Fin (m + 1)) = 0 := by rw [← Fin.rev_rev (⟨k, hk⟩ : Fin (m + 1)), ← hr, h, Fin.rev_last]
          exact hk0 (congrArg Fin.val this)
        set w : Fin (m + 1) → ℝ := Pi.single r (alpha (Fin.last m)) - Pi.single (Fin.last m) (alpha r) with hw
        refine ⟨w, by simp, ?_, ?_, ?_⟩
        · intro j hj
          simp only [List.getElem_map, List.getElem_finRange]
          by_cases hj0 : j = 0
          · subst hj0
            have : (Fin.cast (List.length_finRange) (⟨0, by simp⟩ : Fin (List.finRange (m+1)).length)) = (0 : Fin (m + 1)) := by
              ext; simp
            rw [this, columns_zero, hw, dotProduct_sub, dotProduct_single, dotProduct_single]
            ring
          · have hjm : j < m + 1 := by omega
            have hne : (Fin.cast (List.length_finRange) (⟨j, by simpa using hjm⟩ : Fin (List.finRange (m+1)).length)) ≠ (0 : Fin (m + 1)) := by
              intro h
              exact hj0 (by simpa using congrArg Fin.val h)
            rw [columns_succ _ _ hne, single_dotProduct, one_mul, hw]
            have h1 : (Fin.cast (List.length_finRange) (⟨j, by simpa using hjm⟩ : Fin (List.finRange (m+1)).length)).rev ≠ r := by
              rw [hr]
              intro h
              have := congrArg Fin.val (Fin.rev_injective h)
              simp at this
              omega
            have h2 : (Fin.cast (List.length_finRange) (⟨j, by simpa using hjm⟩ : Fin (List.finRange (m+1)).length)).rev ≠ Fin.last m := by
              intro h
              apply hne
              rw [← Fin.rev_rev (Fin.cast _ _), h, Fin.rev_last]
            rw [Pi.sub_apply, Pi.single_eq_of_ne h1, Pi.single_eq_of_ne h2, sub_zero]
        · have : w ⬝ᵥ w = alpha (Fin.last m) ^ 2 + alpha r ^ 2 := by
            rw [hw, sub_dotProduct, dotProduct_sub, dotProduct_sub, single_dotProduct, single_dotProduct, single_dotProduct,
              single_dotProduct]
            simp [Pi.single_eq_of_ne hrl, Pi.single_eq_of_ne hrl.symm]
            ring
          rw [this, ← ha]
          have h3 : ∑ i ∈ {Fin.last m, r}, alpha i * alpha i ≤ ∑ i, alpha i * alpha i :=
            Finset.sum_le_sum_of_subset_of_nonneg (Finset.subset_univ _) (fun i _ _ => mul_self_nonneg _)
          rw [Finset.sum_pair hrl.symm] at h3
          simp only [dotProduct, sq]
          exact h3
        · simp only [List.getElem_map, List.getElem_finRange]
          have hne : (Fin.cast (List.length_finRange) (⟨k, by simpa using hk⟩ : Fin (List.finRange (m+1)).length)) ≠ (0 : Fin (m + 1)) := by
            intro h
            exact hk0 (by simpa using congrArg Fin.val h)
          rw [columns_succ _ _ hne, single_dotProduct, one_mul]
          have h1 : (Fin.cast (List.length_finRange) (⟨k, by simpa using hk⟩ : Fin (List.finRange (m+1)).length)).rev = r := by
            rw [hr]; congr 1
          rw [h1, hw, Pi.sub_apply, Pi.single_eq_same, Pi.single_eq_of_ne hrl, sub_zero]
          exact hlast
    obtain ⟨cols, hc⟩ := hok
    refine ⟨rot90 (fun i j => cols.getD j.val 0 i), ?_⟩
    · unfold orthonormalMatrix
      rw [if_neg hm]
      simp only
      rw [hc]
  · intro hm h0
    rcases hR : orthonormalMatrix alpha with e | R
    · unfold orthonormalMatrix at hR
      rw [if_neg hm] at hR
      simp only at hR
      split at hR
      · next e' he =>
        have hgs : ∀ (A Q : List (Fin (m + 1) → ℝ)) e, gramSchmidt Q A = .error e → e = .valueError := by
          intro A
          induction A with
          | nil => intro Q e h; cases h
          | cons a A ih =>
            intro Q e h
            unfold gramSchmidt at h
            simp only at h
            split_ifs at h with h1
            · injection h with h; exact h.symm
            · exact ih _ _ h
        injection hR with hR
        rw [← hR, hgs _ _ _ he]
      · cases hR
    · exfalso
      obtain ⟨-, hRtR, -⟩ := C47_rotation ha hR
      unfold orthonormalMatrix at hR
      rw [if_neg hm] at hR
      simp only at hR
      split at hR
      · cases hR
      next cols hc =>
      injection hR with hR
      obtain ⟨-, hlen, -⟩ := gramSchmidt_spec _ _ _ ⟨by simp, by simp⟩ hc
      simp only [List.length_nil, List.length_map, List.length_finRange, zero_add] at hlen
      have hz := gramSchmidt_zero (Fin.last m) _ _ _ (by
        intro a haa
        obtain ⟨j, -, rfl⟩ := List.mem_map.1 haa
        by_cases hj : j = 0
        · have := congrFun (columns_zero alpha) (Fin.last m)
          rw [← h0, ← this, hj]
        · have := congrFun (columns_succ alpha j hj) (Fin.last m)
          refine this.trans ?_
          apply Pi.single_eq_of_ne
          intro h
          apply hj
          rw [← Fin.rev_rev j, ← h, Fin.rev_last]) (by simp) hc
      have h1 := congrFun (congrFun hRtR (Fin.last m)) (Fin.last m)
      rw [mul_apply, one_apply_eq] at h1
      have h2 : ∀ i, R i (Fin.last m) = 0 := by
        intro i
        rw [← hR]
        change cols.getD i.rev.val 0 (Fin.last m) = 0
        rw [List.getD_eq_getElem _ _ (by rw [hlen]; exact i.rev.2)]
        exact hz _ (List.getElem_mem _)
      simp [h2] at h1

/-- The unit vector `(3/5, 4/5)` has a rotation, `(1, 0)` does not. -/
example : (∃ R, orthonormalMatrix (m := 1) ![3 / 5, 4 / 5] = .ok R) ∧ orthonormalMatrix (m := 1) ![1, 0] = .error .valueError := by
  constructor
  · refine (C47_defined ![3 / 5, 4 / 5] ?_).2.1 (by norm_num) ?_
    · simp [dotProduct, Fin.sum_univ_two]; norm_num
    · simp [Fin.last]; norm_num
  · refine (C47_defined ![1, 0] ?_).2.2 (by norm_num) ?_
    · simp [dotProduct, Fin.sum_univ_two]
    · simp [Fin.last]

end Pystra.Props
