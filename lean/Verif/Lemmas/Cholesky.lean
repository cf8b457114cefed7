import Verif.Model.Cholesky
import Verif.Spec.Cholesky
import Mathlib.Analysis.Matrix.LDL
import Mathlib.Analysis.Calculus.Deriv.Inv
import Mathlib.Analysis.SpecialFunctions.Sqrt
import Mathlib.LinearAlgebra.Matrix.Block

/-! Lemmas about the Cholesky loops. -/

namespace Pystra.CholeskySens
open Real Matrix Spec

variable {n : ℕ}

/-- Both arrays at one position. -/
def at' (s : St n) (p : Fin n × Fin n) : ℝ × ℝ := (s.A p.1 p.2, s.dA p.1 p.2)

theorem St.ext' {s t : St n} (h : ∀ p, at' s p = at' t p) : s = t := by
  cases s; cases t
  simp only [St.mk.injEq]
  constructor <;> funext i j
  · exact congrArg Prod.fst (h (i, j))
  · exact congrArg Prod.snd (h (i, j))

/-- A loop whose passes update distinct positions, each from the old value there and from positions outside the
loop. -/
theorem fold_update {ι : Type} (pos : ι → Fin n × Fin n) (f : ι → St n → ℝ × ℝ) (body : ι → St n → St n)
    (hbody : ∀ i s q, at' (body i s) q = if q = pos i then f i s else at' s q) (l : List ι)
    (hnd : (l.map pos).Nodup) (s : St n)
    (hf : ∀ i ∈ l, ∀ s t : St n, at' s (pos i) = at' t (pos i) → (∀ q ∉ l.map pos, at' s q = at' t q) → f i s = f i t) :
    (∀ i ∈ l, at' (l.foldl (fun s i => body i s) s) (pos i) = f i s) ∧
    (∀ q ∉ l.map pos, at' (l.foldl (fun s i => body i s) s) q = at' s q) := by
  -- generalise: process a suffix, positions of the suffix still untouched
  have key : ∀ (m : List ι) (s' : St n), (m.map pos).Nodup → (∀ i ∈ m, i ∈ l) →
      (∀ i ∈ m, at' s' (pos i) = at' s (pos i)) → (∀ q ∉ l.map pos, at' s' q = at' s q) →
      (∀ i ∈ m, at' (m.foldl (fun s i => body i s) s') (pos i) = f i s) ∧
      (∀ q ∉ m.map pos, at' (m.foldl (fun s i => body i s) s') q = at' s' q) := by
    intro m
    induction m with
    | nil => intro s' _ _ _ _; exact ⟨fun i hi => (by cases hi), fun q _ => rfl⟩
    | cons a m ih =>
      intro s' hnd' hsub hpos hout
      have hnd2 : pos a ∉ m.map pos ∧ (m.map pos).Nodup := by
        rw [List.map_cons, List.nodup_cons] at hnd'; exact hnd'
      have ha := hsub a List.mem_cons_self
      have hfa : f a s' = f a s := hf a ha s' s (hpos a List.mem_cons_self) hout
      obtain ⟨h1, h2⟩ := ih (body a s') hnd2.2 (fun i hi => hsub i (List.mem_cons_of_mem _ hi))
        (fun i hi => by
          rw [hbody, if_neg, hpos i (List.mem_cons_of_mem _ hi)]
          intro e; exact hnd2.1 (e ▸ List.mem_map_of_mem hi))
        (fun q hq => by
          rw [hbody, if_neg, hout q hq]
          intro e; exact hq (e ▸ List.mem_map_of_mem ha))
      refine ⟨fun i hi => ?_, fun q hq => ?_⟩
      · rcases List.mem_cons.1 hi with rfl | hi
        · rw [List.foldl_cons, h2 _ hnd2.1, hbody, if_pos rfl, hfa]
        · rw [List.foldl_cons]; exact h1 i hi
      · rw [List.map_cons, List.mem_cons, not_or] at hq
        rw [List.foldl_cons, h2 q hq.2, hbody, if_neg hq.1]
  exact key l s hnd (fun i hi => hi) (fun i _ => rfl) (fun q _ => rfl)

theorem mem_rangeFrom {a : ℕ} {i : Fin n} : i ∈ rangeFrom n a ↔ a ≤ i.val := by
  simp [rangeFrom]

theorem nodup_rangeFrom (a : ℕ) : (rangeFrom n a).Nodup := (List.nodup_finRange n).filter _

theorem at'_set {s : St n} {i j : Fin n} {a b : ℝ} (q : Fin n × Fin n) :
    at' ⟨setEntry s.A i j a, setEntry s.dA i j b⟩ q = if q = (i, j) then (a, b) else at' s q := by
  obtain ⟨x, y⟩ := q
  simp only [at', setEntry, Prod.mk.injEq]
  split <;> rfl

/-- What one outer pass computes, as a function of the arrays before it. -/
noncomputable def stageA (A : Matrix (Fin n) (Fin n) ℝ) (k : Fin n) : Matrix (Fin n) (Fin n) ℝ :=
  let d := √(A k k)
  fun i j =>
    if j = k then (if i = k then d else if k < i then A i k / d else A i j)
    else if k < j ∧ j ≤ i then A i j - A i k / d * (A j k / d)
    else A i j

/-- The same for the derivative array. -/
noncomputable def stageD (A D : Matrix (Fin n) (Fin n) ℝ) (k : Fin n) : Matrix (Fin n) (Fin n) ℝ :=
  let d := √(A k k)
  let dd := D k k / (2 * d)
  let c := fun i => (D i k * d - A i k * dd) / d ^ 2
  fun i j =>
    if j = k then (if i = k then dd else if k < i then c i else D i j)
    else if k < j ∧ j ≤ i then D i j - c i * (A j k / d) - A i k / d * c j
    else D i j

theorem pivot_at (k : Fin n) (s : St n) (q : Fin n × Fin n) :
    at' (pivot k s) q = if q = (k, k) then (√(s.A k k), s.dA k k / (2 * √(s.A k k))) else at' s q := by
  exact at'_set (s := s) q

theorem column_at (k i : Fin n) (s : St n) (q : Fin n × Fin n) :
    at' (column k i s) q = if q = (i, k) then
      (s.A i k / s.A k k, (s.dA i k * s.A k k - s.A i k * s.dA k k) / s.A k k ^ 2) else at' s q := by
  exact at'_set (s := s) q

theorem trailing_at (k j i : Fin n) (s : St n) (q : Fin n × Fin n) :
    at' (trailing k j i s) q = if q = (i, j) then
      (s.A i j - s.A i k * s.A j k, s.dA i j - s.dA i k * s.A j k - s.A i k * s.dA j k) else at' s q := by
  exact at'_set (s := s) q

/-- The positions of the double loop, flattened. -/
theorem foldl_nested (k : Fin n) (s : St n) :
    (rangeFrom n (k.val + 1)).foldl (fun s (j : Fin n) => (rangeFrom n j.val).foldl (fun s i => trailing k j i s) s) s =
    ((rangeFrom n (k.val + 1)).flatMap (fun j : Fin n => (rangeFrom n j.val).map (fun i => (i, j)))).foldl
      (fun s p => trailing k p.2 p.1 s) s := by
  generalize rangeFrom n (k.val + 1) = l
  induction l generalizing s with
  | nil => rfl
  | cons a l ih => rw [List.foldl_cons, List.flatMap_cons, List.foldl_append, ih, List.foldl_map]

theorem step_eq (s : St n) (k : Fin n) : step s k = ⟨stageA s.A k, stageD s.A s.dA k⟩ := by
  unfold step
  simp only []
  rw [foldl_nested]
  set s1 := pivot k s with hs1
  set s2 := (rangeFrom n (k.val + 1)).foldl (fun s i => column k i s) s1 with hs2
  -- column loop
  have hnd : ((rangeFrom n (k.val + 1)).map (fun i => (i, k))).Nodup :=
    (nodup_rangeFrom _).map (fun a b h => (Prod.mk.inj h).1)
  obtain ⟨c1, c2⟩ := fold_update (fun i : Fin n => (i, k))
    (fun i s => (s.A i k / s.A k k, (s.dA i k * s.A k k - s.A i k * s.dA k k) / s.A k k ^ 2))
    (fun i s => column k i s) (fun i s q => column_at k i s q) (rangeFrom n (k.val + 1)) hnd s1 (by
      intro i _ s t h1 h2
      have h2 := h2 (k, k) (by
        intro h; obtain ⟨i, hi, e⟩ := List.mem_map.1 h
        rw [mem_rangeFrom] at hi; have := (Prod.mk.inj e).1; subst this; omega)
      simp only [at', Prod.mk.injEq] at h1 h2
      rw [h1.1, h1.2, h2.1, h2.2])
  -- trailing loop
  set L := (rangeFrom n (k.val + 1)).flatMap (fun j : Fin n => (rangeFrom n j.val).map (fun i => (i, j))) with hL
  have memL : ∀ p : Fin n × Fin n, p ∈ L ↔ k < p.2 ∧ p.2 ≤ p.1 := by
    intro p
    simp only [hL, List.mem_flatMap, List.mem_map, mem_rangeFrom]
    constructor
    · rintro ⟨j, hj, i, hi, rfl⟩; exact ⟨Fin.lt_def.2 hj, hi⟩
    · rintro ⟨h1, h2⟩; exact ⟨p.2, by rw [Fin.lt_def] at h1; omega, p.1, h2, rfl⟩
  have hndL : (L.map id).Nodup := by
    rw [List.map_id, hL, List.nodup_flatMap]
    refine ⟨fun j _ => (nodup_rangeFrom _).map (fun a b h => (Prod.mk.inj h).1), ?_⟩
    refine (nodup_rangeFrom _).imp ?_
    intro a b hab
    rw [Function.onFun, List.disjoint_left]
    intro p h1 h2
    obtain ⟨i, _, rfl⟩ := List.mem_map.1 h1
    obtain ⟨i', _, e⟩ := List.mem_map.1 h2
    exact hab (Prod.mk.inj e).2.symm
  obtain ⟨t1, t2⟩ := fold_update id
    (fun (p : Fin n × Fin n) s => (s.A p.1 p.2 - s.A p.1 k * s.A p.2 k, s.dA p.1 p.2 - s.dA p.1 k * s.A p.2 k - s.A p.1 k * s.dA p.2 k))
    (fun p s => trailing k p.2 p.1 s) (fun p s q => trailing_at k p.2 p.1 s q) L hndL s2 (by
      intro p hp s t h1 h2
      have hp' := (memL p).1 hp
      have a1 := h2 (p.1, k) (by rw [List.map_id, memL]; simp)
      have a2 := h2 (p.2, k) (by rw [List.map_id, memL]; simp)
      simp only [at', Prod.mk.injEq, id] at h1 a1 a2
      rw [h1.1, h1.2, a1.1, a1.2, a2.1, a2.2])
  have hs1kk : at' s1 (k, k) = (√(s.A k k), s.dA k k / (2 * √(s.A k k))) := by rw [hs1, pivot_at, if_pos rfl]
  have hs1o : ∀ q, q ≠ (k, k) → at' s1 q = at' s q := fun q hq => by rw [hs1, pivot_at, if_neg hq]
  have hs2k : ∀ i, k < i → at' s2 (i, k) = (s.A i k / √(s.A k k),
      (s.dA i k * √(s.A k k) - s.A i k * (s.dA k k / (2 * √(s.A k k)))) / √(s.A k k) ^ 2) := by
    intro i hi
    have := c1 i (mem_rangeFrom.2 (by rw [Fin.lt_def] at hi; omega))
    have e1 := hs1o (i, k) (by intro h; have := (Prod.mk.inj h).1; subst this; exact lt_irrefl _ hi)
    simp only [at', Prod.mk.injEq] at this e1 hs1kk ⊢
    rw [this.1, this.2, e1.1, e1.2, hs1kk.1, hs1kk.2]
    exact ⟨rfl, rfl⟩
  have hs2o : ∀ q : Fin n × Fin n, ¬ (q.2 = k ∧ k < q.1) → at' s2 q = at' s1 q := by
    intro q hq
    apply c2
    intro h
    obtain ⟨i, hi, e⟩ := List.mem_map.1 h
    rw [mem_rangeFrom] at hi
    subst e
    exact hq ⟨rfl, Fin.lt_def.2 hi⟩
  apply St.ext'
  rintro ⟨i, j⟩
  by_cases hj : j = k
  · subst hj
    have h3 := t2 (i, j) (by rw [List.map_id, memL]; simp)
    rw [h3]
    by_cases hi : i = j
    · subst hi
      rw [hs2o (i, i) (by simp), hs1kk]
      simp [at', stageA, stageD]
    · by_cases hlt : j < i
      · rw [hs2k i hlt]
        simp only [at', stageA, stageD, if_neg hi, if_pos hlt]
        simp
      · rw [hs2o (i, j) (by simp [hlt]), hs1o (i, j) (by simp [hi])]
        simp only [at', stageA, stageD, if_neg hi, if_neg hlt]
        simp
  · by_cases hij : k < j ∧ j ≤ i
    · have h3 := t1 (i, j) ((memL _).2 hij)
      have hi : k < i := lt_of_lt_of_le hij.1 hij.2
      have b1 := hs2k i hi
      have b2 := hs2k j hij.1
      have b3 : at' s2 (i, j) = at' s (i, j) := by
        rw [hs2o (i, j) (by simp [hj]), hs1o (i, j) (by simp [hj])]
      simp only [id] at h3
      rw [h3]
      simp only [at', Prod.mk.injEq] at b1 b2 b3 ⊢
      rw [b1.1, b1.2, b2.1, b2.2, b3.1, b3.2]
      simp only [stageA, stageD, if_neg hj, if_pos hij]
      exact ⟨trivial, trivial⟩
    · have h3 := t2 (i, j) (by rw [List.map_id, memL]; exact hij)
      rw [h3, hs2o (i, j) (by simp [hj]), hs1o (i, j) (by simp [hj])]
      simp only [at', stageA, stageD, if_neg hj, if_neg hij]

end Pystra.CholeskySens
