import Verif.Props.ScalingSorm
import Verif.Props.SormParaboloidExample
import Verif.Props.ConvergenceExample

/-! C107: analysing the safe set: the limit-state function with its sign reversed. -/

namespace Pystra.Props
open Matrix Spec Transformation Form LimitState MeasureTheory MonteCarlo

variable {σ : Type} {n m : ℕ} {c : ℝ}

/-! ### Simulation -/

/-- **C107** (simulation).  With the same draws and a fixed number of samples, the estimates for `f` and for `-f` add up to the mean of
the weights of the samples at which `f` is not 0. -/
theorem C107_weights {t : Mats n} {marg : Fin n → Marginal} {ev ev' : Evaluator σ n} {P : σ → Prop} {f : (Fin n → ℝ) → ℝ}
    (hev : Values ev P f) (hev' : Values ev' P (fun x => -f x)) {opt : MonteCarlo.Options} (hg : opt.randomGenerator = 0)
    (hb : 1 ≤ opt.blockSize) (hN : 1 ≤ opt.samples) (hs : 0 < opt.stdv) (hcov : opt.cov ≤ 0) (point : Option (Fin n → ℝ)) (ω : ℕ → ℝ)
    (pos fuel : ℕ) (hf : opt.samples ≤ fuel) (s s' : σ) (hP : P s) (hP' : P s') :
    let u := fun j : Fin opt.samples => fun r => (point.getD fun _ => 0) r + opt.stdv * mcDraw ω n opt.blockSize opt.samples pos j r
    ∃ r r', MonteCarlo.run t marg ev opt point ω pos fuel s = some (.ok r) ∧
      MonteCarlo.run t marg ev' opt point ω pos fuel s' = some (.ok r') ∧
      r.Pf + r'.Pf = (∑ j, {u | f (uToX t marg u) ≠ 0}.indicator
        (fun u => normalDensity (fun _ => 0) 1 u / normalDensity (point.getD fun _ => 0) opt.stdv u) (u j)) / opt.samples := by
  intro u
  obtain ⟨r, h1, -, h3⟩ := run_full hev hg hb hN hs hcov point ω pos fuel hf s hP (t := t) (marg := marg)
  obtain ⟨r', h1', -, h3'⟩ := run_full hev' hg hb hN hs hcov point ω pos fuel hf s' hP' (t := t) (marg := marg)
  refine ⟨r, r', h1, h1', ?_⟩
  rw [h3, h3', ← add_div, ← Finset.sum_add_distrib]
  congr 1
  refine Finset.sum_congr rfl fun j _ => ?_
  rw [summand_indicator hs, summand_indicator hs]
  change Set.indicator _ _ (u j) + Set.indicator _ _ (u j) = _
  simp only [Set.indicator, Set.mem_setOf_eq, ← weight_eq hs]
  rcases lt_trichotomy (f (uToX t marg (u j))) 0 with h | h | h
  · rw [if_pos h, if_neg (by linarith), if_pos h.ne, add_zero]
  · rw [if_neg h.not_lt, if_neg (by linarith), if_neg (not_not.2 h), add_zero]
  · rw [if_neg h.not_gt, if_pos (by linarith), if_pos h.ne', zero_add]

/-- **C107** (crude Monte Carlo).  With the same draws and a fixed number of samples, the estimates for `f` and for `-f` add up to 1
less the fraction of the samples at which `f` is 0; if there are none and both estimates are positive, the indices are opposite. -/
theorem C107_crude {t : Mats n} {marg : Fin n → Marginal} {ev ev' : Evaluator σ n} {P : σ → Prop} {f : (Fin n → ℝ) → ℝ}
    (hev : Values ev P f) (hev' : Values ev' P (fun x => -f x)) {opt : MonteCarlo.Options} (hg : opt.randomGenerator = 0)
    (hb : 1 ≤ opt.blockSize) (hN : 1 ≤ opt.samples) (hs : opt.stdv = 1) (hcov : opt.cov ≤ 0) (ω : ℕ → ℝ)
    (pos fuel : ℕ) (hf : opt.samples ≤ fuel) (s s' : σ) (hP : P s) (hP' : P s') :
    ∃ r r', MonteCarlo.run t marg ev opt none ω pos fuel s = some (.ok r) ∧
      MonteCarlo.run t marg ev' opt none ω pos fuel s' = some (.ok r') ∧
      r.Pf + r'.Pf = 1 - (Set.ncard {j | j < opt.samples ∧ f (uToX t marg (mcDraw ω n opt.blockSize opt.samples pos j)) = 0} : ℝ) /
        opt.samples ∧
      ((∀ j < opt.samples, f (uToX t marg (mcDraw ω n opt.blockSize opt.samples pos j)) ≠ 0) → 0 < r.Pf → 0 < r'.Pf →
        ∃ b, r.beta = .fin b ∧ r'.beta = .fin (-b)) := by
  have hs0 : 0 < opt.stdv := by rw [hs]; exact one_pos
  have hN' : (0:ℝ) < opt.samples := by exact_mod_cast hN
  obtain ⟨r, r', h1, h1', h2⟩ := C107_weights (t := t) (marg := marg) hev hev' hg hb hN hs0 hcov none ω pos fuel hf s s' hP hP'
  have hsum : r.Pf + r'.Pf = 1 - (Set.ncard {j | j < opt.samples ∧ f (uToX t marg (mcDraw ω n opt.blockSize opt.samples pos j)) = 0} : ℝ) /
        opt.samples := by
    rw [h2, eq_sub_iff_add_eq, ← add_div, div_eq_one_iff_eq hN'.ne']
    classical
    have hcard : Set.ncard {j | j < opt.samples ∧ f (uToX t marg (mcDraw ω n opt.blockSize opt.samples pos j)) = 0} =
        ((Finset.range opt.samples).filter fun j => f (uToX t marg (mcDraw ω n opt.blockSize opt.samples pos j)) = 0).card := by
      rw [← Set.ncard_coe_finset]
      congr 1
      ext j
      simp
    rw [hcard, Finset.card_filter, ← Fin.sum_univ_eq_sum_range (fun j => if f (uToX t marg (mcDraw ω n opt.blockSize opt.samples pos j)) = 0
      then 1 else 0)]
    push_cast
    rw [← Finset.sum_add_distrib]
    have : ∀ j : Fin opt.samples, {u | f (uToX t marg u) ≠ 0}.indicator
        (fun u => normalDensity (fun _ => 0) 1 u / normalDensity ((none : Option (Fin n → ℝ)).getD fun _ => 0) opt.stdv u)
        (fun r => ((none : Option (Fin n → ℝ)).getD fun _ => 0) r + opt.stdv * mcDraw ω n opt.blockSize opt.samples pos j r) +
        (if f (uToX t marg (mcDraw ω n opt.blockSize opt.samples pos j)) = 0 then 1 else 0) = 1 := by
      intro j
      simp only [hs, Option.getD_none, zero_add, one_mul]
      by_cases h : f (uToX t marg (mcDraw ω n opt.blockSize opt.samples pos j)) = 0
      · rw [if_pos h, Set.indicator_of_notMem (s := {u | f (uToX t marg u) ≠ 0}) (fun h' => h' h), zero_add]
      · rw [if_neg h, Set.indicator_of_mem (s := {u | f (uToX t marg u) ≠ 0}) h, add_zero]
        exact div_self (normalDensity_pos _ one_pos _).ne'
    rw [Finset.sum_congr rfl fun j _ => this j]
    simp
  refine ⟨r, r', h1, h1', hsum, fun hz hp hp' => ?_⟩
  have h0 : Set.ncard {j | j < opt.samples ∧ f (uToX t marg (mcDraw ω n opt.blockSize opt.samples pos j)) = 0} = 0 := by
    rw [show {j | j < opt.samples ∧ f (uToX t marg (mcDraw ω n opt.blockSize opt.samples pos j)) = 0} = ∅ from
      Set.eq_empty_iff_forall_notMem.2 fun j hj => hz j hj.1 hj.2]
    simp
  rw [h0, Nat.cast_zero, zero_div, sub_zero] at hsum
  have hb1 : ∀ {ev : Evaluator σ n} {f : (Fin n → ℝ) → ℝ} (_ : Values ev P f) {s : σ} (_ : P s) {r : MonteCarlo.Result σ n},
      MonteCarlo.run t marg ev opt none ω pos fuel s = some (.ok r) → 0 < r.Pf → r.Pf < 1 →
      ∃ b, r.beta = .fin b ∧ StdNormal.cdf (-b) = r.Pf := by
    intro ev f hev s hP r h ha hlt
    obtain ⟨r2, g1, -, -, -, -, g6, -⟩ := C37_run (t := t) (marg := marg) hev hg hb hN hs0 none ω pos fuel hf s hP
    rw [h] at g1
    cases g1
    exact g6 ha hlt
  obtain ⟨b, hb1', hb2⟩ := hb1 hev hP h1 hp (by linarith)
  obtain ⟨b', hb3, hb4⟩ := hb1 hev' hP' h1' hp' (by linarith)
  refine ⟨b, hb1', ?_⟩
  rw [hb3]
  congr 1
  have : StdNormal.cdf (-b') = StdNormal.cdf b := by
    rw [hb4, eq_comm, ← neg_neg b, StdNormal.cdf_neg, hb2]; linarith
  have := StdNormal.strictMono_cdf.injective this
  linarith

/-! ### SORM, curve fitting -/

/-- A list with the first entry negated. -/
def flipHead : List (Fin n → ℝ) → List (Fin n → ℝ)
  | [] => []
  | q :: l => (-q) :: l

theorem gramSchmidt_flip : ∀ (A Q : List (Fin n → ℝ)) (q : Fin n → ℝ),
    Sorm.gramSchmidt (-q :: Q) A = mapOk flipHead (Sorm.gramSchmidt (q :: Q) A)
  | [], Q, q => rfl
  | a :: A, Q, q => by
    have h : Sorm.reduce (-q :: Q) a = Sorm.reduce (q :: Q) a := by
      rw [reduce_cons, reduce_cons]
      congr 1
      rw [dotProduct_neg, neg_smul_neg]
    unfold Sorm.gramSchmidt
    simp only [h]
    split_ifs
    · rfl
    · exact gramSchmidt_flip A _ q

theorem norm2_neg (q : Fin n → ℝ) : norm2 (-q) = norm2 q := by
  unfold norm2
  simp

theorem gs_first (a : Fin n → ℝ) (L : List (Fin n → ℝ)) :
    (|norm2 a| ≤ 1e-8 → Sorm.gramSchmidt [] (a :: L) = .error .valueError) ∧
    (¬|norm2 a| ≤ 1e-8 → Sorm.gramSchmidt [] (a :: L) = Sorm.gramSchmidt [(norm2 a)⁻¹ • a] L) := by
  constructor <;> intro h <;> conv_lhs => unfold Sorm.gramSchmidt
  · exact if_pos h
  · exact if_neg h

/-- A matrix with the last row negated. -/
def flipLast (R : Matrix (Fin (m + 1)) (Fin (m + 1)) ℝ) : Matrix (Fin (m + 1)) (Fin (m + 1)) ℝ :=
  fun i => if i = Fin.last m then -R i else R i

theorem flipLast_last (R : Matrix (Fin (m + 1)) (Fin (m + 1)) ℝ) (j : Fin (m + 1)) : flipLast R (Fin.last m) j = -R (Fin.last m) j := by
  unfold flipLast; rw [if_pos rfl]; rfl

theorem flipLast_cast (R : Matrix (Fin (m + 1)) (Fin (m + 1)) ℝ) (i : Fin m) (j : Fin (m + 1)) :
    flipLast R i.castSucc j = R i.castSucc j := by
  unfold flipLast; rw [if_neg (Fin.castSucc_lt_last i).ne]

/-- The rotation of SORM for the opposite direction: the last row changes sign. -/
theorem orthonormal_flip (alpha : Fin (m + 1) → ℝ) : Sorm.orthonormalMatrix (fun k => -alpha k) =
    mapOk flipLast (Sorm.orthonormalMatrix alpha) := by
  unfold Sorm.orthonormalMatrix
  by_cases hm : m = 0
  · rw [if_pos hm, if_pos hm]; rfl
  rw [if_neg hm, if_neg hm]
  have hcol : ∀ al : Fin (m + 1) → ℝ, (List.finRange (m + 1)).map (fun j => fun i => Sorm.rot90k3 (Sorm.assemble al) i j) =
      al :: (List.finRange m).map (fun j => Pi.single (M := fun _ => ℝ) j.succ.rev 1) := by
    intro al
    rw [List.finRange_succ, List.map_cons, columns_zero, List.map_map]
    congr 1
    refine List.map_congr_left fun j _ => ?_
    exact columns_succ al j.succ (Fin.succ_ne_zero j)
  dsimp only
  rw [hcol, hcol]
  obtain ⟨L, hL⟩ : ∃ L, L = (List.finRange m).map (fun j => Pi.single (M := fun _ => ℝ) j.succ.rev 1) := ⟨_, rfl⟩
  rw [← hL]
  have hgs : Sorm.gramSchmidt [] ((fun k => -alpha k) :: L) = mapOk flipHead (Sorm.gramSchmidt [] (alpha :: L)) := by
    have e : (fun k => -alpha k) = -alpha := rfl
    rw [e]
    by_cases h : |norm2 alpha| ≤ 1e-8
    · rw [(gs_first alpha L).1 h, (gs_first (-alpha) L).1 (by rwa [norm2_neg])]; rfl
    · rw [(gs_first alpha L).2 h, (gs_first (-alpha) L).2 (by rwa [norm2_neg]), norm2_neg, smul_neg, gramSchmidt_flip]
  rw [hgs]
  obtain ⟨y, hy⟩ : ∃ y, y = Sorm.gramSchmidt [] (alpha :: L) := ⟨_, rfl⟩
  rw [← hy]
  rcases y with e | cols
  · rfl
  simp only [mapOk]
  congr 1
  funext i j
  unfold Sorm.rot90
  rcases cols with _ | ⟨q, l⟩
  · by_cases h : i = Fin.last m <;> simp [flipHead, flipLast, h]
  · by_cases h : i = Fin.last m
    · subst h
      change (flipHead (q :: l)).getD (Fin.last m).rev.val 0 j = (if Fin.last m = Fin.last m then _ else _ : Fin (m + 1) → ℝ) j
      rw [if_pos rfl]
      change _ = -((q :: l).getD (Fin.last m).rev.val 0 j)
      rw [Fin.rev_last]
      rfl
    · have h' : i.rev ≠ 0 := fun h0 => h (by rw [← Fin.rev_rev i, h0, Fin.rev_zero])
      obtain ⟨k, hk⟩ : ∃ k : ℕ, i.rev.val = k + 1 := Nat.exists_eq_succ_of_ne_zero fun h0 => h' (Fin.ext h0)
      change (flipHead (q :: l)).getD i.rev.val 0 j = (if i = Fin.last m then _ else _ : Fin (m + 1) → ℝ) j
      rw [if_neg h]
      change _ = (q :: l).getD i.rev.val 0 j
      rw [hk]
      rfl

variable {ev ev' : Evaluator σ (m + 1)} {t : Mats (m + 1)} {marg : Fin (m + 1) → Marginal}

theorem sort_map_neg (l : List ℝ) : Sorm.sort ((Sorm.sort l).map Neg.neg) = Sorm.sort (l.map Neg.neg) :=
  sort_eq_of_perm ((List.perm_insertionSort (· ≤ ·) l).map _)

/-- **C107** (SORM, curve fitting).  If the limit-state function is multiplied by a negative constant, the FORM result supplied being that
of the new function, curve-fitting SORM leaves the same state and raises the same exceptions; the index and all the curvatures
change sign.  (The eigenvalue routine must return the opposite values for the opposite matrix.) -/
theorem C107_curvefit (hc : c < 0) (he : ScaledEval c ev ev') (eig : Matrix (Fin m) (Fin m) ℝ → List ℝ)
    (heig : ∀ M, Sorm.sort (eig (-M)) = Sorm.sort ((eig M).map Neg.neg)) (form : Form.Result (m + 1)) (ffdpara : ℝ) (s : σ) :
    let x := Sorm.runCurvefit eig t marg ev form ffdpara false s
    let x' := Sorm.runCurvefit eig t marg ev' (scaledResult c form) ffdpara false s
    x'.1 = x.1 ∧ RelOk (fun r r' => r.betaHL = form.beta ∧ r'.betaHL = -form.beta ∧ r'.kappa = Sorm.sort (r.kappa.map Neg.neg) ∧
      r'.breitung = Sorm.pfBreitung (-form.beta) r'.kappa ∧ r'.breitungM = Sorm.pfBreitungM (-form.beta) r'.kappa) x.2 x'.2 := by
  intro x x'
  have hx : x = Sorm.runCurvefit eig t marg ev form ffdpara false s := rfl
  have hx' : x' = Sorm.runCurvefit eig t marg ev' (scaledResult c form) ffdpara false s := rfl
  unfold Sorm.runCurvefit Sorm.fitCurvatures designPoint at hx hx'
  have ha : (scaledResult c form).alpha = fun k => -form.alpha k := by simp [scaledResult, sign_neg hc]
  have hb : (scaledResult c form).beta = -form.beta := by simp [scaledResult, sign_neg hc]
  have hu : (scaledResult c form).point.u = form.point.u := rfl
  have hg : (scaledResult c form).point.gradient = fun k => c * form.point.gradient k := rfl
  rw [ha, hb, hu, hg, hessian_scaled he, orthonormal_flip] at hx'
  obtain ⟨y, hy⟩ : ∃ y, Sorm.computeHessianAt t marg ev (if false = true then form.point.u else uToX t marg form.point.u)
    (if true = true then form.point.u else uToX t marg form.point.u) ffdpara s = y := ⟨_, rfl⟩
  obtain ⟨z, hz⟩ : ∃ z, Sorm.orthonormalMatrix form.alpha = z := ⟨_, rfl⟩
  rw [hy, hz] at hx hx'
  obtain ⟨s1, y⟩ := y
  rcases y with e | H
  · rw [hx, hx']; exact ⟨rfl, rfl⟩
  rcases z with e | R
  · rw [hx, hx']; exact ⟨rfl, rfl⟩
  simp only [mapOk] at hx hx'
  obtain ⟨A, hA⟩ : ∃ A, A = ((norm2 form.point.gradient)⁻¹ • (R * H * Rᵀ)).submatrix Fin.castSucc Fin.castSucc := ⟨_, rfl⟩
  have hA' : ((norm2 fun k => c * form.point.gradient k)⁻¹ • (flipLast R * (c • H) *
      (flipLast R)ᵀ)).submatrix Fin.castSucc Fin.castSucc = -A := by
    rw [hA, norm2_scaled, abs_of_neg hc, Matrix.mul_smul, Matrix.smul_mul, smul_smul, mul_inv, mul_comm _ c, ← mul_assoc, inv_neg,
      mul_neg, mul_inv_cancel₀ hc.ne, neg_one_mul]
    ext i j
    simp only [submatrix_apply, Matrix.smul_apply, Matrix.neg_apply, mul_apply, transpose_apply, smul_eq_mul, neg_mul, flipLast_cast]
  rw [hA', heig] at hx'
  rw [← hA] at hx
  rw [hx, hx']
  refine ⟨rfl, rfl, rfl, ?_, rfl, rfl⟩
  exact (sort_map_neg _).symm

/-- The eigenvalues of the opposite of a symmetric matrix. -/
theorem eig_neg {eig : Matrix (Fin m) (Fin m) ℝ → List ℝ} (he : EigOK eig) {M : Matrix (Fin m) (Fin m) ℝ} (hM : M.IsSymm) :
    Sorm.sort (eig (-M)) = Sorm.sort ((eig M).map Neg.neg) := by
  open Polynomial in
  apply sort_eq_of_perm
  have h1 := he M hM
  have h2 := he (-M) hM.neg
  have hroots : ∀ l : List ℝ, ((l.map (fun a => X - C a)).prod : ℝ[X]).roots = (l : Multiset ℝ) := by
    intro l
    rw [← roots_multiset_prod_X_sub_C (l : Multiset ℝ)]
    congr 1
  have hdeg : ∀ l : List ℝ, ((l.map (fun a => X - C a)).prod : ℝ[X]).natDegree = l.length := by
    intro l
    have := natDegree_multiset_prod_X_sub_C_eq_card (l : Multiset ℝ)
    rwa [Multiset.map_coe, Multiset.prod_coe, Multiset.coe_card] at this
  have hlen : (eig M).length = m := by
    rw [← hdeg, ← h1, charpoly_natDegree_eq_dim, Fintype.card_fin]
  have h3 : (-M).charpoly = (((eig M).map Neg.neg).map (fun a => X - C a)).prod := by
    refine Polynomial.funext fun x => ?_
    rw [eval_charpoly, eval_list_prod, List.map_map, List.map_map]
    have e1 : scalar (Fin m) x - -M = -(scalar (Fin m) (-x) - M) := by
      rw [map_neg]; abel
    rw [e1, det_neg, ← eval_charpoly, h1, eval_list_prod, List.map_map, Fintype.card_fin]
    conv_lhs => rw [← hlen]
    generalize eig M = l
    induction l with
    | nil => simp
    | cons a l ih =>
      simp only [List.length_cons, List.map_cons, List.prod_cons, Function.comp_apply, eval_sub, eval_X, eval_C, pow_succ]
        at ih ⊢
      rw [← ih]
      ring
  have h4 := congrArg Polynomial.roots (h2.symm.trans h3)
  rw [hroots, hroots] at h4
  exact Multiset.coe_eq_coe.1 h4

/-- **C107** (SORM, curve fitting, Breitung's formula).  If FORM's index for the limit-state function is positive, then curve-fitting
SORM of the function multiplied by a negative constant never reports a probability by Breitung's formula: the value is the
"invalid" zero, infinite or undefined, and in a run with printing the invalid zero raises `TypeError`.  In particular the two
reported probabilities do not add up to 1. -/
theorem C107_breitung (hc : c < 0) (eig : Matrix (Fin m) (Fin m) ℝ → List ℝ) (hlen : ∀ M, (eig M).length = m) (hm : m ≠ 0)
    {form : Form.Result (m + 1)} (hb : 0 < form.beta) (ffdpara : ℝ) (print : Bool) (s : σ) {s' : σ} {r : Sorm.SResult}
    (h : Sorm.runCurvefit eig t marg ev' (scaledResult c form) ffdpara print s = (s', .ok r)) :
    (r.breitung.pf = .fin 0 ∨ r.breitung.pf = .nan ∨ r.breitung.pf = .posInf) ∧
    (print = true → r.breitung.pf = .nan ∨ r.breitung.pf = .posInf) := by
  have hb' : (scaledResult c form).beta = -form.beta := by simp [scaledResult, sign_neg hc]
  unfold Sorm.runCurvefit at h
  rw [hb'] at h
  obtain ⟨y, hy⟩ : ∃ y, Sorm.fitCurvatures eig t marg ev' (designPoint t marg (scaledResult c form) false)
    (designPoint t marg (scaledResult c form) true) (scaledResult c form).alpha (scaledResult c form).point.gradient ffdpara s = y :=
    ⟨_, rfl⟩
  rw [hy] at h
  obtain ⟨s1, y⟩ := y
  rcases y with e | kappa
  · exact absurd (congrArg Prod.snd h) (by simp)
  have hk : kappa.length = m := by
    unfold Sorm.fitCurvatures at hy
    obtain ⟨z, hz⟩ : ∃ z, Sorm.computeHessianAt t marg ev' (designPoint t marg (scaledResult c form) false)
      (designPoint t marg (scaledResult c form) true) ffdpara s = z := ⟨_, rfl⟩
    rw [hz] at hy
    obtain ⟨s2, z⟩ := z
    rcases z with e | H
    · exact absurd (congrArg Prod.snd hy) (by simp)
    obtain ⟨w, hw⟩ : ∃ w, Sorm.orthonormalMatrix (scaledResult c form).alpha = w := ⟨_, rfl⟩
    simp only [hw] at hy
    rcases w with e | R
    · exact absurd (congrArg Prod.snd hy) (by simp)
    have := congrArg Prod.snd hy
    simp only [Except.ok.injEq] at this
    rw [← this]
    unfold Sorm.sort
    rw [List.length_insertionSort, hlen]
  have hne : kappa ≠ [] := fun h0 => hm (by rw [← hk, h0]; rfl)
  obtain ⟨h1, h2⟩ := C46_negative_index (beta := -form.beta) (by linarith) kappa hne
  have h3 := congrArg Prod.snd h
  simp only at h3
  have key : (Sorm.pfBreitung (-form.beta) kappa).isArray = false → (Sorm.pfBreitung (-form.beta) kappa).pf = .fin 0 := by
    unfold Sorm.pfBreitung
    split_ifs
    · intro _; rfl
    · intro h; exact absurd h (by simp)
  unfold Sorm.finish at h3
  rcases hA : (Sorm.pfBreitung (-form.beta) kappa).isArray with _ | _
  · by_cases hpr : print = true
    · rw [if_pos hpr] at h3
      simp [Sorm.showResults, hA] at h3
    · rw [if_neg hpr] at h3
      injection h3 with h3
      rw [← h3]
      exact ⟨.inl (key hA), fun h => absurd h hpr⟩
  · have hr : r.breitung = Sorm.pfBreitung (-form.beta) kappa := by
      by_cases hpr : print = true
      · rw [if_pos hpr] at h3
        simp only [Sorm.showResults, hA, if_true] at h3
        injection h3 with h3
        rw [← h3]
      · rw [if_neg hpr] at h3
        injection h3 with h3
        rw [← h3]
    rw [hr]
    exact ⟨.inr (h2 hA), fun _ => h2 hA⟩

theorem flipLast_orth {Q : Matrix (Fin (m + 1)) (Fin (m + 1)) ℝ} (hQ : Q * Qᵀ = 1) : flipLast Q * (flipLast Q)ᵀ = 1 := by
  ext i j
  have h := congrFun (congrFun hQ i) j
  simp only [mul_apply, transpose_apply] at h ⊢
  by_cases hi : i = Fin.last m <;> by_cases hj : j = Fin.last m
  · subst hi; subst hj
    simp only [flipLast_last, neg_mul_neg]; exact h
  · have : ∀ k, flipLast Q j k = Q j k := fun k => by unfold flipLast; rw [if_neg hj]
    subst hi
    simp only [flipLast_last, this, neg_mul, Finset.sum_neg_distrib, h]
    rw [one_apply_ne (Ne.symm hj), neg_zero]
  · have : ∀ k, flipLast Q i k = Q i k := fun k => by unfold flipLast; rw [if_neg hi]
    subst hj
    simp only [flipLast_last, this, mul_neg, Finset.sum_neg_distrib, h]
    rw [one_apply_ne hi, neg_zero]
  · have h1 : ∀ k, flipLast Q i k = Q i k := fun k => by unfold flipLast; rw [if_neg hi]
    have h2 : ∀ k, flipLast Q j k = Q j k := fun k => by unfold flipLast; rw [if_neg hj]
    simp only [h1, h2]; exact h

set_option maxHeartbeats 1000000 in
/-- **C107** (SORM, curve fitting, modified formula).  For a limit state that is a paraboloid in standard normal space, analysed with
both signs: whenever the two probabilities by the modified formula are defined, each is at least the probability of its own
set, so that their sum is at least 1 — with equality only if both are exact. -/
theorem C107_modified {eig : Matrix (Fin m) (Fin m) ℝ → List ℝ} (heig : EigOK eig)
    {la : LinAlg} {ty : TransformType} {Ro : Matrix (Fin (m + 1)) (Fin (m + 1)) ℝ} {t : Mats (m + 1)}
    (ht : Transformation.compute la ty Ro = .ok t) (marg : Fin (m + 1) → Marginal) (S : Fin (m + 1) → Set ℝ)
    (hmarg : ∀ i, RoundTrip (marg i) (S i)) (hS : ∀ i, IsOpen (S i)) (hj : ∀ i, JacobianCorrect (marg i) (S i))
    (hne : ∀ i z, (marg i).jac z ((marg i).uToX z) ≠ 0) {ev ev' : Evaluator σ (m + 1)} {P : σ → Prop} {f : (Fin (m + 1) → ℝ) → ℝ}
    {grad : (Fin (m + 1) → ℝ) → Fin (m + 1) → ℝ}
    (hf : ∀ u, HasFDerivAt f (gradMap (grad (uToX t marg u))) (uToX t marg u))
    (hev : ∀ s, P s → ∀ u, ∃ s', ev.withGrad s (uToX t marg u) =
      (s', .ok (f (uToX t marg u), grad (uToX t marg u), uToX t marg u)) ∧ P s')
    (hev' : ∀ s, P s → ∀ u, ∃ s', ev'.withGrad s (uToX t marg u) =
      (s', .ok (-f (uToX t marg u), -grad (uToX t marg u), uToX t marg u)) ∧ P s')
    {Q : Matrix (Fin (m + 1)) (Fin (m + 1)) ℝ} (hQ : Q * Qᵀ = 1) (κ : Fin m → ℝ) {c β : ℝ} (hc : 0 < c)
    (hq : ∀ u, f (uToX t marg u) =
      c * (β - Q.mulVec u (Fin.last m) + 1 / 2 * ∑ i : Fin m, κ i * Q.mulVec u i.castSucc ^ 2))
    {form : Form.Result (m + 1)} (hal : form.alpha = Q (Fin.last m)) (hbeta : form.beta = β)
    (hgr : norm2 form.point.gradient = c) (hm : m ≠ 0) (hlast : 1e-8 < |form.alpha (Fin.last m)|)
    {para : ℝ} (hp : para ≠ 0) (s : σ) (hs : P s)
    (hk : ∀ i, -1 / (StdNormal.pdf β / StdNormal.cdf (-β)) < κ i)
    (hk' : ∀ i, κ i < 1 / (StdNormal.pdf β / StdNormal.cdf β)) :
    ∃ s1 s2 r r' p p', Sorm.runCurvefit eig t marg ev form para false s = (s1, .ok r) ∧
      Sorm.runCurvefit eig t marg ev' (scaledResult (-1) form) para false s = (s2, .ok r') ∧
      r.breitungM.pf = .fin p ∧ r'.breitungM.pf = .fin p' ∧
      (stdGauss (m + 1)).real {u | f (uToX t marg u) ≤ 0} ≤ p ∧ (stdGauss (m + 1)).real {u | 0 < f (uToX t marg u)} ≤ p' ∧
      1 ≤ p + p' := by
  have hneg : (-1 : ℝ) < 0 := by norm_num
  obtain ⟨s1, r, hr, -, h1, -⟩ := C98_bounds heig ht marg S hmarg hS hj hne hf hev hQ κ hc hq hal hbeta hgr hm hlast hp s hs
  obtain ⟨p, hp1, hp2⟩ := h1 hk
  have hf' : ∀ u, HasFDerivAt (fun x => -f x) (gradMap (-grad (uToX t marg u))) (uToX t marg u) := by
    intro u
    refine (hf u).neg.congr_fderiv ?_
    ext v
    simp [gradMap]
  have hq' : ∀ u, -f (uToX t marg u) = c * (-β - (flipLast Q).mulVec u (Fin.last m) +
      1 / 2 * ∑ i : Fin m, -κ i * (flipLast Q).mulVec u i.castSucc ^ 2) := by
    intro u
    have e1 : (flipLast Q).mulVec u (Fin.last m) = -Q.mulVec u (Fin.last m) := by
      simp only [mulVec, dotProduct, flipLast_last, neg_mul, Finset.sum_neg_distrib]
    have e2 : ∀ i : Fin m, (flipLast Q).mulVec u i.castSucc = Q.mulVec u i.castSucc := by
      intro i
      simp only [mulVec, dotProduct, flipLast_cast]
    simp only [hq, e1, e2, neg_mul, Finset.sum_neg_distrib]
    ring
  have ha : (scaledResult (-1) form).alpha = fun k => -form.alpha k := by simp [scaledResult, sign_neg hneg]
  have hb : (scaledResult (-1) form).beta = -form.beta := by simp [scaledResult, sign_neg hneg]
  have hg : (scaledResult (-1) form).point.gradient = fun k => -1 * form.point.gradient k := rfl
  obtain ⟨s2, r', hr', -, h2, -⟩ := C98_bounds (f := fun x => -f x) (grad := fun x => -grad x) (P := P) heig ht marg S hmarg hS hj hne
    hf' hev' (flipLast_orth hQ) (fun i => -κ i) (β := -β) hc hq' (form := scaledResult (-1) form)
    (by rw [ha, hal]; funext j; rw [flipLast_last]) (by rw [hb, hbeta])
    (by rw [hg, norm2_scaled, abs_neg, abs_one, one_mul, hgr]) hm (by rw [ha, abs_neg]; exact hlast) hp s hs
  obtain ⟨p', hp1', hp2'⟩ := h2 (by
    intro i
    have := hk' i
    rw [neg_neg, StdNormal.pdf_neg, neg_div]
    linarith)
  have hsub : {u : Fin (m + 1) → ℝ | 0 < f (uToX t marg u)} ⊆ {u | -f (uToX t marg u) ≤ 0} := by
    intro u hu
    simp only [Set.mem_setOf_eq] at hu ⊢
    linarith
  have hle := (measureReal_mono (μ := stdGauss (m + 1)) hsub).trans hp2'
  have hone : 1 ≤ (stdGauss (m + 1)).real {u | f (uToX t marg u) ≤ 0} + (stdGauss (m + 1)).real {u | 0 < f (uToX t marg u)} := by
    have hU : {u | f (uToX t marg u) ≤ 0} ∪ {u | 0 < f (uToX t marg u)} = Set.univ := by
      ext u; simp [le_or_gt]
    have := measureReal_union_le (μ := stdGauss (m + 1)) {u | f (uToX t marg u) ≤ 0} {u | 0 < f (uToX t marg u)}
    rw [hU, probReal_univ] at this
    exact this
  exact ⟨s1, s2, r, r', p, p', hr, hr', hp1, hp1', hp2, hle, by linarith⟩

/-! ### Concrete cases -/

/-- A case of `C107_crude`: the limit state `1 + x` of one standard normal variable and 1000 samples of any stream. -/
example (ω : ℕ → ℝ) : ∃ m : Marginal, Normal.new 0 (.fin 1) none = .ok m ∧ ∃ r r',
    MonteCarlo.run (n := 1) ⟨1, 1⟩ (fun _ => m) (plainEv fun x => 1 + x 0) ⟨1000, 100, 1, 0, 0⟩ none ω 0 1000 () = some (.ok r) ∧
    MonteCarlo.run (n := 1) ⟨1, 1⟩ (fun _ => m) (plainEv fun x => -(1 + x 0)) ⟨1000, 100, 1, 0, 0⟩ none ω 0 1000 () =
      some (.ok r') ∧
    r.Pf + r'.Pf = 1 - (Set.ncard {j : ℕ | j < 1000 ∧ 1 + mcDraw ω 1 100 1000 0 j 0 = 0} : ℝ) / 1000 := by
  obtain ⟨m, hm, hux, -, -⟩ := half_prob
  obtain ⟨r, r', h1, h2, h3, -⟩ := C107_crude (t := (⟨1, 1⟩ : Mats 1)) (marg := fun _ => m) (plainEv_values fun x : Fin 1 → ℝ => 1 + x 0)
    (plainEv_values fun x : Fin 1 → ℝ => -(1 + x 0)) (opt := ⟨1000, 100, 1, 0, 0⟩) rfl (by norm_num) (by norm_num) rfl le_rfl ω 0 1000
    le_rfl () () trivial trivial
  simp only [hux] at h3
  exact ⟨m, hm, r, r', h1, h2, by exact_mod_cast h3⟩

/-- The limit state of `parEv` with its sign reversed. -/
noncomputable def parNegEv (T : Matrix (Fin (1 + 1)) (Fin (1 + 1)) ℝ) (β κ : ℝ) : Evaluator Unit (1 + 1) :=
  ⟨fun _ x => ((), .ok (-quad (1 * β) parB (parK κ) (T.mulVec x), -vecMul (parB + (parK κ).mulVec (T.mulVec x)) T, x)),
    fun _ _ => ((), .ok [])⟩

theorem parNeg_scaled (T : Matrix (Fin (1 + 1)) (Fin (1 + 1)) ℝ) (β κ : ℝ) : ScaledEval (-1) (parEv T β κ) (parNegEv T β κ) := by
  refine ⟨fun s x => ?_, fun s x => rfl⟩
  unfold parNegEv parEv
  simp only [mapOk, neg_one_mul]
  rfl

/-- A case of `C107_curvefit`, `C107_breitung` and `C107_modified`: a parabola of curvature 1/10 at distance 1 in the frame `exQ`. The
probabilities by the modified formula add up to at least 1; that of Breitung's formula for the safe set is not a probability. -/
example {la : LinAlg} (hla : LinAlgOK la) {eig : Matrix (Fin 1) (Fin 1) ℝ → List ℝ} (heig : EigOK eig) (hlen : ∀ M, (eig M).length = 1) :
    ∃ t marg r r' p p',
    Sorm.runCurvefit eig t marg (parEv t.T 1 (1 / 10)) (parForm 1) 1000 false () = ((), .ok r) ∧
    Sorm.runCurvefit eig t marg (parNegEv t.T 1 (1 / 10)) (scaledResult (-1) (parForm 1)) 1000 false () = ((), .ok r') ∧
    r.breitungM.pf = .fin p ∧ r'.breitungM.pf = .fin p' ∧ 1 ≤ p + p' ∧
    (r'.breitung.pf = .fin 0 ∨ r'.breitung.pf = .nan ∨ r'.breitung.pf = .posInf) := by
  obtain ⟨t, marg, ht, hg, hne, hf, hq⟩ := par_setting hla
  have hpsi : Sorm.psi 1 < 5 := lt_trans (Pystra.psi_lt (x := 1) (by norm_num)) (by norm_num)
  have hneg : StdNormal.pdf 1 / StdNormal.cdf 1 < 5 := by
    have h1 : StdNormal.cdf (-1) ≤ StdNormal.cdf 1 := StdNormal.strictMono_cdf.monotone (by norm_num)
    refine lt_of_le_of_lt ?_ hpsi
    exact div_le_div_of_nonneg_left (StdNormal.pdf_pos 1).le (StdNormal.cdf_pos _) h1
  have hpos : 0 < StdNormal.pdf 1 / StdNormal.cdf 1 := div_pos (StdNormal.pdf_pos 1) (StdNormal.cdf_pos 1)
  obtain ⟨s1, s2, r, r', p, p', h1, h2, h3, h4, -, -, h5⟩ := C107_modified heig ht marg (fun _ => Set.univ) (fun i => (hg i).1)
    (fun _ => isOpen_univ) (fun i => (hg i).2) hne
    (ev := parEv t.T 1 (1 / 10)) (ev' := parNegEv t.T 1 (1 / 10)) (P := fun _ => True)
    (f := fun x => quad (1 * 1) parB (parK (1 / 10)) (t.T.mulVec x))
    (grad := fun x => vecMul (parB + (parK (1 / 10)).mulVec (t.T.mulVec x)) t.T) (hf 1 _) (fun _ _ u => ⟨(), rfl, trivial⟩)
    (fun _ _ u => ⟨(), rfl, trivial⟩) exQ_mul
    (fun _ => 1 / 10) (c := 1) (β := 1) one_pos (hq 1 _) (form := parForm 1) (parForm_alpha 1) rfl (parForm_grad 1) one_ne_zero
    (by simp [parForm, exForm, Fin.last]; norm_num) (para := 1000) (by norm_num) () trivial
    (fun _ => by
      change -1 / Sorm.psi 1 < _
      rw [div_lt_iff₀ (Pystra.psi_pos' 1)]
      linarith [Pystra.psi_pos' 1])
    (fun _ => by
      rw [lt_div_iff₀ hpos]
      linarith)
  have h6 := C107_breitung (by norm_num : (-1:ℝ) < 0) eig hlen one_ne_zero (form := parForm 1) (by norm_num [parForm]) 1000 false () h2
  exact ⟨t, marg, r, r', p, p', h1, h2, h3, h4, h5, h6.1⟩

/-- The hypothesis of `C107_curvefit` about the eigenvalue routine in the case of one curvature. -/
example (T : Matrix (Fin (1 + 1)) (Fin (1 + 1)) ℝ) (t : Mats (1 + 1)) (marg : Fin (1 + 1) → Marginal) (β κ : ℝ) :=
  C107_curvefit (by norm_num : (-1:ℝ) < 0) (parNeg_scaled T β κ) (t := t) (marg := marg) (fun M => [M 0 0])
    (fun M => by simp [Sorm.sort]) (parForm β) 1000 ()

end Pystra.Props
