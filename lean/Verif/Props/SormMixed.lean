import Verif.Props.SormHessian
import Mathlib.Algebra.Order.BigOperators.Group.List

/-! C48: the other Hessian of SORM (`diff_type` given). -/

namespace Pystra.Props
open Matrix Spec Transformation Form Sorm

variable {σ : Type} {n m : ℕ}

theorem pairIndex_eq (i j : ℕ) : pairIndex i j = i.choose 2 + j := by
  unfold pairIndex
  rw [Nat.choose_two_right, mul_comm]

theorem choose_two_succ (i : ℕ) : (i + 1).choose 2 = i.choose 2 + i := by
  rw [Nat.choose_succ_succ' i 1, Nat.choose_one_right, add_comm]

theorem choose_two_mono {i i' : ℕ} (h : i ≤ i') : i.choose 2 ≤ i'.choose 2 := Nat.choose_mono 2 h

theorem pairIndex_inj {i j i' j' : ℕ} (h : j < i) (h' : j' < i') (he : pairIndex i j = pairIndex i' j') :
    i = i' ∧ j = j' := by
  rw [pairIndex_eq, pairIndex_eq] at he
  have key : ∀ {i j i' j' : ℕ}, j < i → j' < i' → i.choose 2 + j = i'.choose 2 + j' → ¬ i < i' := by
    intro i j i' j' h h' he hlt
    have := choose_two_mono (Nat.succ_le_of_lt hlt)
    rw [Nat.succ_eq_add_one, choose_two_succ] at this
    omega
  have : i = i' := le_antisymm (not_lt.1 (key h' h he.symm)) (not_lt.1 (key h h' he))
  subst this
  exact ⟨rfl, by omega⟩

theorem pairIndex_lt {i j : ℕ} (h : j < i) (hi : i < n) : pairIndex i j < n * (n - 1) / 2 := by
  rw [pairIndex_eq, ← Nat.choose_two_right]
  have := choose_two_mono (Nat.succ_le_of_lt hi)
  rw [Nat.succ_eq_add_one, choose_two_succ] at this
  omega

theorem foldl_update {A V : Type} (key : A → ℕ) (val : A → V) (l : List A) (arr : ℕ → V)
    (hinj : ∀ a ∈ l, ∀ b ∈ l, key a = key b → val a = val b) {a : A} (ha : a ∈ l) :
    (l.foldl (fun arr a => Function.update arr (key a) (val a)) arr) (key a) = val a := by
  induction l using List.reverseRecOn with
  | nil => simp at ha
  | append_singleton l x ih =>
    rw [List.foldl_append]
    simp only [List.foldl_cons, List.foldl_nil]
    by_cases hk : key a = key x
    · rw [hk, Function.update_self]
      exact hinj x (by simp) a ha hk.symm
    · rw [Function.update_of_ne hk]
      apply ih
      · intro b hb c hc; exact hinj b (by simp [hb]) c (by simp [hc])
      · rcases List.mem_append.1 ha with h | h
        · exact h
        · exact absurd (by rw [List.mem_singleton.1 h]) hk

theorem bothPoints_spec (t : Mats n) (marg : Fin n → Marginal) (u0 : Fin n → ℝ) (h : ℝ) {i j : Fin n} (hij : j < i) :
    bothPoints t marg u0 h (pairIndex i j) =
      uToX t marg (u0 + h • Pi.single i 1 + h • Pi.single j 1) := by
  have e : bothPoints t marg u0 h = ((List.finRange n).flatMap (fun i =>
      ((List.finRange n).filter (fun j => j < i)).map (fun j => (i, j)))).foldl
      (fun arr (p : Fin n × Fin n) => Function.update arr (pairIndex p.1 p.2)
        (uToX t marg (Function.update (Function.update u0 p.1 (u0 p.1 + h)) p.2
          (Function.update u0 p.1 (u0 p.1 + h) p.2 + h)))) (fun _ => 0) := by
    unfold bothPoints
    rw [List.foldl_flatMap]
    simp only [List.foldl_map]
  rw [e]
  have hmem : ∀ p : Fin n × Fin n, p ∈ ((List.finRange n).flatMap (fun i =>
      ((List.finRange n).filter (fun j => j < i)).map (fun j => (i, j)))) ↔ p.2 < p.1 := by
    rintro ⟨a, b⟩
    simp
  have := foldl_update (fun p : Fin n × Fin n => pairIndex p.1 p.2) (fun p =>
    (uToX t marg (Function.update (Function.update u0 p.1 (u0 p.1 + h)) p.2
          (Function.update u0 p.1 (u0 p.1 + h) p.2 + h)))) _ (fun _ => 0) ?_ ((hmem (i, j)).2 hij)
  · rw [this]
    congr 1
    funext k
    have hne : i ≠ j := ne_of_gt hij
    simp only [Pi.add_apply, Pi.smul_apply, smul_eq_mul]
    by_cases hk : k = j
    · subst hk
      simp [hne.symm]
    · by_cases hk' : k = i
      · subst hk'; simp [hne]
      · simp [hk, hk']
  · rintro ⟨a, b⟩ hab ⟨a', b'⟩ hab' he
    rw [hmem] at hab hab'
    obtain ⟨h1, h2⟩ := pairIndex_inj hab hab' he
    rw [Fin.ext h1, Fin.ext h2]

/-- C48: with `diff_type` given, if the evaluation at several points returns the values of the limit state, a quadratic again
has its exact Hessian, whatever the step. -/
theorem C48_mixed {t : Mats n} {marg : Fin n → Marginal} {f : (Fin n → ℝ) → ℝ}
    {many : σ → List (Fin n → ℝ) → σ × Except PyErr (List ℝ)} {s s' : σ}
    (hmany : ∀ xs, many s xs = (s', .ok (xs.map f))) (c : ℝ) (b : Fin n → ℝ) {K : Matrix (Fin n) (Fin n) ℝ} (hK : K.IsSymm)
    (hq : ∀ u, f (uToX t marg u) = quad c b K u) (form : Result n) (hG : form.point.G = f (uToX t marg form.point.u))
    {para : ℝ} (hp : para ≠ 0) : computeHessianMixed t marg many form para s = (s', .ok K) := by
  unfold computeHessianMixed
  rw [if_neg hp]
  simp only [designPoint, if_true, hmany]
  set u0 := form.point.u with hu0
  set h := 1 / para with hh
  have h0 : h ≠ 0 := one_div_ne_zero hp
  have hup : ∀ (j : Fin n) (d : ℝ), Function.update u0 j (u0 j + d) = u0 + d • Pi.single j 1 := by
    intro j d
    funext k
    by_cases hk : k = j
    · subst hk; simp
    · simp [hk]
  have hlen : ((List.finRange n).map (fun i => uToX t marg (Function.update u0 i (u0 i + h)))).length = n := by simp
  have hlen' : ((List.finRange n).map (fun i => uToX t marg (Function.update u0 i (u0 i - h)))).length = n := by simp
  have gP : ∀ i : Fin n, ((((List.finRange n).map (fun i => uToX t marg (Function.update u0 i (u0 i + h))) ++
      (List.finRange n).map (fun i => uToX t marg (Function.update u0 i (u0 i - h))) ++
      (List.range (n * (n - 1) / 2)).map (bothPoints t marg u0 h)).map f).getD i.val 0) =
      quad c b K (u0 + h • Pi.single i 1) := by
    intro i
    rw [List.map_append, List.map_append, List.getD_append _ _ _ _ (by simp; omega), List.getD_append _ _ _ _ (by simp),
      List.getD_eq_getElem _ _ (by simp)]
    simp [hup, hq]
  have gM : ∀ i : Fin n, ((((List.finRange n).map (fun i => uToX t marg (Function.update u0 i (u0 i + h))) ++
      (List.finRange n).map (fun i => uToX t marg (Function.update u0 i (u0 i - h))) ++
      (List.range (n * (n - 1) / 2)).map (bothPoints t marg u0 h)).map f).getD (n + i.val) 0) =
      quad c b K (u0 + (-h) • Pi.single i 1) := by
    intro i
    rw [List.map_append, List.map_append, List.getD_append _ _ _ _ (by simp), List.getD_append_right _ _ _ _ (by simp),
      List.getD_eq_getElem _ _ (by simp)]
    simp [sub_eq_add_neg, hup, hq]
  have gB : ∀ i j : Fin n, j < i → ((((List.finRange n).map (fun i => uToX t marg (Function.update u0 i (u0 i + h))) ++
      (List.finRange n).map (fun i => uToX t marg (Function.update u0 i (u0 i - h))) ++
      (List.range (n * (n - 1) / 2)).map (bothPoints t marg u0 h)).map f).getD (2 * n + pairIndex i j) 0) =
      quad c b K (u0 + h • Pi.single i 1 + h • Pi.single j 1) := by
    intro i j hij
    have hlt := pairIndex_lt (n := n) hij i.2
    rw [List.map_append, List.map_append, List.getD_append_right _ _ _ _ (by simp; omega),
      List.getD_eq_getElem _ _ (by simp; omega)]
    simp only [List.length_append, List.length_map, List.length_finRange, List.getElem_map, List.getElem_range]
    rw [show 2 * n + pairIndex i j - (n + n) = pairIndex i j by omega, bothPoints_spec t marg u0 h hij, hq]
  have hd : ∀ (i j : Fin n) (d : ℝ), (K.mulVec (d • Pi.single i 1)) ⬝ᵥ Pi.single j 1 = d * K j i := by
    intro i j d
    rw [mulVec_smul, mulVec_single_one, smul_dotProduct, dotProduct_single_one]; rfl
  have q1 : ∀ (i : Fin n) (d : ℝ), quad c b K (u0 + d • Pi.single i 1) =
      quad c b K u0 + d * (b + K.mulVec u0) i + 1 / 2 * (d * d * K i i) := by
    intro i d
    rw [quad_add c b hK, dotProduct_smul, dotProduct_single_one, dotProduct_comm _ (K.mulVec _), dotProduct_smul, hd]
    simp only [smul_eq_mul]; ring
  refine congrArg (fun H => (s', Except.ok H)) ?_
  funext i j
  rw [hG, hq]
  by_cases hij : i = j
  · subst hij
    rw [if_pos rfl, gP, gM, q1, q1]
    field_simp
    ring
  · rw [if_neg hij]
    have key : ∀ a c' : Fin n, c' < a → quad c b K (u0 + h • Pi.single a 1 + h • Pi.single c' 1) =
        quad c b K (u0 + h • Pi.single c' 1) + quad c b K (u0 + h • Pi.single a 1) - quad c b K u0 + h ^ 2 * K c' a := by
      intro a c' _
      rw [quad_add c b hK _ (h • Pi.single c' 1), q1, q1, mulVec_add, dotProduct_smul, add_dotProduct, add_dotProduct,
        hd, dotProduct_single_one, dotProduct_comm _ (K.mulVec _), dotProduct_smul, hd, dotProduct_single_one]
      simp only [smul_eq_mul, Pi.add_apply]; ring
    rcases lt_or_gt_of_ne hij with hlt | hlt
    · have e1 : max i.val j.val = j.val := max_eq_right (le_of_lt hlt)
      have e2 : min i.val j.val = i.val := min_eq_left (le_of_lt hlt)
      rw [e1, e2, gB j i hlt, gP i, gP j, key j i hlt]
      field_simp
      ring
    · have e1 : max i.val j.val = i.val := max_eq_left (le_of_lt hlt)
      have e2 : min i.val j.val = j.val := min_eq_right (le_of_lt hlt)
      rw [e1, e2, gB i j hlt, gP i, gP j, key i j hlt, ← hK.apply i j]
      field_simp
      ring

/-- C48: in the code that evaluation is done in the differentiation mode of the options, which cannot handle several points:
with finite differences `computeHessian(diff_type)` raises `ValueError` for every model and every limit state. -/
theorem C48_mixed_raises_ffd {D : Type} (t : Mats n) (marg : Fin n → Marginal) (expr : Kwargs → GRet) (lo : LSOptions)
    (hmp : lo.multiProc ≠ 0) (hd1 : lo.diffMode ≠ "no") (hd2 : lo.diffMode ≠ "ddm") (stdv : Fin n → ℝ) (hn : 1 ≤ n)
    (form : Result n) {para : ℝ} (hp : para ≠ 0) (ev : Ev D) :
    computeHessianMixed t marg (lsMany expr lo stdv) form para ev = (ev, .error .valueError) := by
  unfold computeHessianMixed lsMany
  rw [if_neg hp]
  dsimp only
  rw [(C08_modes _ expr lo hmp stdv _ ev).2 hd2 hd1, C06_ffd_multi_point_raises _ _ _ _ _ (by simp; omega)]

/-- C48: … and in mode `ddm`, `IndexError`. -/
theorem C48_mixed_raises_ddm {D : Type} (t : Mats n) (marg : Fin n → Marginal) (expr : Kwargs → GRet) (lo : LSOptions)
    (hmp : lo.multiProc ≠ 0) (hd : lo.diffMode = "ddm") (stdv : Fin n → ℝ) (hn : 1 ≤ n)
    (form : Result n) {para : ℝ} (hp : para ≠ 0) (ev : Ev D) (hm : Reachable ev.model) (hmn : ev.model.nMarg ≤ n)
    (hr : ∀ kw, ∃ (v : ℝ) (dg : List ℝ), dg.length = n ∧
      (expr kw = .tuple [.scalar v, .arr dg] ∨ expr kw = .tuple [.arr [v], .arr dg])) :
    (computeHessianMixed t marg (lsMany expr lo stdv) form para ev).2 = .error .indexError := by
  unfold computeHessianMixed lsMany
  rw [if_neg hp]
  dsimp only
  rw [(C08_modes _ expr lo hmp stdv _ ev).1 hd]
  have h2 : ∀ l : List (Fin n → ℝ), 2 ≤ l.length → (LimitState.evaluateDdm expr l ev).2 = .error .indexError := by
    intro l hl
    match l, hl with
    | x0 :: x1 :: xs, _ => exact C08_ddm_multi_point_raises expr x0 x1 xs ev hm hmn hr
  have h3 := h2 _ (show 2 ≤ ((List.finRange n).map (fun i => uToX t marg (Function.update (designPoint t marg form true) i
      (designPoint t marg form true i + 1 / para))) ++
      (List.finRange n).map (fun i => uToX t marg (Function.update (designPoint t marg form true) i
      (designPoint t marg form true i - 1 / para))) ++
      (List.range (n * (n - 1) / 2)).map (bothPoints t marg (designPoint t marg form true) (1 / para))).length by
    simp; omega)
  revert h3
  generalize LimitState.evaluateDdm expr _ ev = r
  rintro h3
  obtain ⟨e, r2⟩ := r
  simp only at h3
  subst h3
  rfl

end Pystra.Props
