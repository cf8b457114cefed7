import Verif.Props.OrderModel
import Verif.Props.Importance
import Verif.Props.FormCalls
import Verif.Props.Cholesky

/-! C91: models built in two orders; independent variables; the direction cosine of a correlated variable depends on the order. -/

namespace Pystra.Props
open Matrix Spec Transformation Form LimitState StochModel Session

variable {n : ℕ} {π : Equiv.Perm (Fin n)}

theorem dists_perm {D V : Type} {l l' : List (PyObj D V)} (h : l.Perm l') : (dists l).Perm (dists l') := by
  induction h with
  | nil => exact .nil
  | cons o _ ih => cases o <;> simp only [dists] <;> first | exact ih.cons _ | exact ih
  | swap a b l => cases a <;> cases b <;> simp only [dists] <;> first | exact List.Perm.swap _ _ _ | exact .refl _
  | trans _ _ i1 i2 => exact i1.trans i2

theorem keepFirst_distinct {D V : Type} (l : List (PyObj D V)) : ∀ seen : List String, (∀ o ∈ l, objName o ≠ none) →
    (l.filterMap objName).Nodup → (∀ k ∈ l.filterMap objName, k ∉ seen) → keepFirst seen l = l := by
  induction l with
  | nil => intros; rfl
  | cons o t ih =>
    intro seen h1 h2 h3
    obtain ⟨k, hk⟩ := Option.ne_none_iff_exists'.1 (h1 o (by simp))
    rw [List.filterMap_cons_some hk] at h2 h3
    rw [List.nodup_cons] at h2
    unfold keepFirst
    rw [hk]
    dsimp only
    rw [if_neg (h3 k (by simp)), ih (k :: seen) (fun o ho => h1 o (by simp [ho])) h2.2]
    intro k' hk'
    rw [List.mem_cons, not_or]
    exact ⟨fun e => h2.1 (e ▸ hk'), h3 k' (by simp [hk'])⟩

theorem offered_adds {D V : Type} (l : List (PyObj D V)) (R : NDArray2) : offered (l.map Op.add ++ [.setCorr R]) = l := by
  induction l with
  | nil => rfl
  | cons o t ih => simp only [List.map_cons, List.cons_append, offered, ih]

theorem calls_adds {V : Type} (l : List (PyObj Marginal V)) : ∀ m : StochModel Marginal V,
    (m.run (l.map Op.add)).callFunction = m.callFunction := by
  induction l with
  | nil => intro m; rfl
  | cons o t ih =>
    intro m
    simp only [List.map_cons, StochModel.run]
    rw [ih]
    cases o with
    | other => rfl
    | distribution d => simp only [StochModel.step, addVariable]; split_ifs <;> rfl
    | constant k v => simp only [StochModel.step, addVariable]; split_ifs <;> rfl

/-- **C91 (models).**  The same objects (variables and constants with distinct names) added in two orders: there is a permutation such
that the two models are reorderings of each other, for every symmetric correlation matrix whose rows and columns the user writes in the
order of the variables. -/
theorem C91_build {l l' : List (PyObj Marginal ℝ)} (hl : l'.Perm l) (ho : ∀ o ∈ l, objName o ≠ none) (hd : (l.filterMap objName).Nodup)
    (v : Fin n → DistObj Marginal) (hv : dists l = List.ofFn v) :
    ∃ π : Equiv.Perm (Fin n), dists l' = List.ofFn (v ∘ π) ∧
      ∀ R : Matrix (Fin n) (Fin n) ℝ, R.IsSymm →
        Reordered π (init.run (l.map Op.add ++ [.setCorr ⟨n, n, R⟩]))
          (init.run (l'.map Op.add ++ [.setCorr ⟨n, n, R.submatrix π π⟩])) := by
  have ho' : ∀ o ∈ l', objName o ≠ none := fun o h => ho o (hl.mem_iff.1 h)
  have hd' : (l'.filterMap objName).Nodup := (hl.filterMap objName).nodup_iff.2 hd
  have hp := dists_perm hl
  have hlen : (dists l').length = n := by rw [hp.length_eq, hv, List.length_ofFn]
  have hvn : Function.Injective v := by
    have := (dists_sublist l).nodup hd
    rw [hv, List.map_ofFn] at this
    exact (List.nodup_ofFn.1 this).of_comp
  have hdn : (dists l').Nodup := ((dists_sublist l').nodup hd').of_map
  have hex : ∀ i : Fin n, ∃ j, v j = (dists l')[i.val]'(by rw [hlen]; exact i.isLt) := by
    intro i
    have : (dists l')[i.val]'(by rw [hlen]; exact i.isLt) ∈ dists l := hp.mem_iff.1 (List.getElem_mem _)
    rw [hv, List.mem_ofFn] at this
    exact this
  choose p hpv using hex
  have hinj : Function.Injective p := by
    intro a b e
    have : (dists l')[a.val]'(by rw [hlen]; exact a.isLt) = (dists l')[b.val]'(by rw [hlen]; exact b.isLt) := by rw [← hpv, ← hpv, e]
    exact Fin.ext ((List.Nodup.getElem_inj_iff hdn).1 this)
  have hd2 : dists l' = List.ofFn (v ∘ Equiv.ofBijective p (Finite.injective_iff_bijective.1 hinj)) := by
    apply List.ext_getElem
    · rw [hlen, List.length_ofFn]
    · intro i h1 h2
      rw [List.getElem_ofFn]
      simp only [Function.comp_apply, Equiv.ofBijective_apply]
      rw [hpv]
  refine ⟨Equiv.ofBijective p (Finite.injective_iff_bijective.1 hinj), hd2, fun R hR => ?_⟩
  have r1 := refines_reachable (D := Marginal) (V := ℝ) (l.map Op.add ++ [.setCorr ⟨n, n, R⟩])
  generalize Equiv.ofBijective p (Finite.injective_iff_bijective.1 hinj) = π at hd2
  have r2 := refines_reachable (D := Marginal) (V := ℝ) (l'.map Op.add ++ [.setCorr ⟨n, n, R.submatrix π π⟩])
  rw [registered, offered_adds, keepFirst_distinct _ _ ho hd (by simp)] at r1
  rw [registered, offered_adds, keepFirst_distinct _ _ ho' hd' (by simp)] at r2
  refine ⟨⟨v, by rw [r1.marg, hv], by rw [r2.marg, hd2]⟩, ⟨R, hR, ?_, ?_⟩, ?_, ?_⟩
  · rw [StochModel.run_append]; rfl
  · rw [StochModel.run_append]; rfl
  · have c1 := (wf_of_refines r1).cnd
    have c2 := (wf_of_refines r2).cnd
    refine fun k => congrFun (Dict.get?_congr c2 c1 ?_) k
    rintro ⟨a, b⟩
    rw [r1.consts, r2.consts, mem_constants, mem_constants, hl.mem_iff]
  · rw [StochModel.run_append, StochModel.run_append]
    change (init.run (l'.map Op.add) : StochModel Marginal ℝ).callFunction = (init.run (l.map Op.add) : StochModel Marginal ℝ).callFunction
    rw [calls_adds, calls_adds]

/-- The permutation matrix. -/
theorem perm_mulVec (v : Fin n → ℝ) : (1 : Matrix (Fin n) (Fin n) ℝ).submatrix π id *ᵥ v = v ∘ π := by
  funext i
  simp [mulVec, dotProduct, one_apply]

/-- **C91 (independent variables).**  Without correlation and with the default transformation, `u` and `α` are the same as well, variable
by variable. -/
theorem C91_independent {s s' : Ev Marginal} (h : EvReordered π s s') (hn : 0 < n) (c : Setup) (hla : LinAlgOK c.la)
    (hty : c.ty = .cholesky) (hR : s.model.correlation = some (NDArray2.eye n)) {f : (String → Option ℝ) → ℝ} (hf : ByName c.expr f)
    (hbs : 1 ≤ c.lsopt.blockSize) (hd : c.lsopt.diffMode ≠ "ddm") (opt : Form.Options) :
    RelOpt (fun p q => EvReordered π p.1 q.1 ∧
        ((∃ r r', p.2 = .inl r ∧ q.2 = .inl r' ∧ r'.i = r.i ∧ r'.beta = r.beta ∧ r'.Pf = r.Pf ∧ r'.point.G = r.point.G ∧
          r'.point.x = r.point.x ∘ π ∧ r'.point.u = r.point.u ∘ π ∧ r'.alpha = r.alpha ∘ π) ∨
         (∃ o, p.2 = .inr o ∧ q.2 = .inr o ∧ (o = .nan ∨ ∃ e, o = .raised e))))
      (formRun c n opt s) (formRun c n opt s') := by
  have hR' : s'.model.correlation = some (NDArray2.eye n) := by
    obtain ⟨R, -, e1, e2⟩ := h.model.correlation
    rw [hR] at e1
    have e1 : R = 1 := by
      have := (Option.some.inj e1)
      unfold NDArray2.eye at this
      simp only [NDArray2.mk.injEq, heq_eq_eq, true_and] at this
      exact this.symm
    rw [e2, e1, submatrix_one_equiv]; rfl
  obtain ⟨A, t, g1, k1⟩ := initRun_eye (c := c) (n := n) hla h.model.length.1 hR
  obtain ⟨B, t', g2, k2⟩ := initRun_eye (c := c) (n := n) hla h.model.length.2 hR'
  have ht : t' = t := by rw [k1] at k2; injection k2 with k2; exact k2.symm
  subst ht
  have hone : t'.T = 1 ∧ t'.invT = 1 := by
    rw [hty] at k1
    obtain ⟨L, hL, hc⟩ := hla.chol (1 : Matrix (Fin n) (Fin n) ℝ) PosDef.one
    have hu := cholesky_unique hc (L' := 1) ⟨fun i j hij => one_apply_ne hij.ne, fun i => by simp, by simp⟩
    subst hu
    simp only [compute, computeCholesky, hL] at k1
    rw [npInv_of_unit (by simp)] at k1
    injection k1 with k1
    rw [← k1]; simp
  have hQ : Turned π ((1 : Matrix (Fin n) (Fin n) ℝ).submatrix π id) t' t' := by
    refine ⟨?_, ?_, ?_⟩
    · have : (1 : Matrix (Fin n) (Fin n) ℝ).submatrix π id = (1 : Matrix (Fin n) (Fin n) ℝ).submatrix π (Equiv.refl _) := rfl
      rw [this, transpose_submatrix, transpose_one, submatrix_mul_equiv]
      simp
    · rw [hone.2]; simp
    · rw [hone.1, Matrix.mul_one]
      simp
  have h' : EvReordered π { s with model := s.model.setModifiedCorrelation A } { s' with model := s'.model.setModifiedCorrelation B } :=
    ⟨reachable_setRo h.reach _, reachable_setRo h.reach' _, ⟨h.model.marg, h.model.correlation, h.model.consts, h.model.callFunction⟩, h.points⟩
  have hr := formRun_turned h' hn c hf hbs hd opt g1 g2 hQ
  rcases e1 : formRun c n opt s with _ | p <;> rcases e2 : formRun c n opt s' with _ | q <;> rw [e1, e2] at hr
  · exact trivial
  · exact hr.elim
  · exact hr.elim
  · refine ⟨hr.1, ?_⟩
    rcases hr.2 with ⟨r, r', x1, x2, hx⟩ | hx
    · refine Or.inl ⟨r, r', x1, x2, hx.i, hx.beta, hx.Pf, hx.G, hx.x, ?_, ?_⟩
      · rw [hx.u, perm_mulVec]
      · rw [hx.alpha, perm_mulVec]
    · exact Or.inr hx

/-! Two correlated normal variables and `g = 1 + x₁`. -/

/-- A function of the named arguments, vectorised the usual way. -/
def vectorise (f : (String → Option ℝ) → ℝ) (kw : Kwargs) : GRet :=
  .val (.arr ((List.range (kw.headD ("", [])).2.length).map fun c => f fun name => (kw.get? name).map fun row => row.getD c 0))

theorem vectorise_byName (f : (String → Option ℝ) → ℝ) : ByName (vectorise f) f := by
  intro kw nc h1 h2
  obtain ⟨e, t, rfl⟩ := List.exists_cons_of_ne_nil h1
  unfold vectorise
  rw [List.headD_cons, h2 e (by simp)]

/-- `g = 1 + x₁`. -/
noncomputable def orderG : Kwargs → GRet := vectorise fun a => 1 + (a "x1").getD 0

/-- An optimiser that returns its start value leaves the matrix as it is. -/
theorem compute_start {m : StochModel Marginal ℝ} {R : Matrix (Fin n) (Fin n) ℝ} (hm : m.marg.length = n)
    (hc : m.correlation = some ⟨n, n, R⟩) (hs : R.IsSymm) (h1 : ∀ i, R i i = 1) (d : Marginal) :
    Correlation.compute (fun _ x => x) d m = .ok ⟨n, n, R⟩ := by
  obtain ⟨A, a1, a2, a3, a4⟩ := C25_entries (fun _ x => x) (fun i => (m.marg.map DistObj.body).getD i d) R
  have hA : A = R := by
    have key : ∀ i j, j < i → A i j = R i j := by
      intro i j h
      rw [a4 i j h]
      unfold expectedRho0
      by_cases h0 : R i j = 0
      · rw [if_pos h0, h0]
      · rw [if_neg h0]
    ext i j
    rcases lt_trichotomy i j with h | h | h
    · rw [a3, key j i h, hs.apply]
    · rw [h, a2, h1]
    · exact key i j h
  unfold Correlation.compute getCorrelation
  rw [hc]
  simp only [dif_pos]
  rw [hm]
  have e : (fun a b => R a (Fin.cast (rfl : n = n).symm b)) = R := rfl
  rw [e, a1, hA]

theorem initRun_start {c : Setup} (hf : c.fmin = fun _ x => x) {ev : Ev Marginal} {R : Matrix (Fin n) (Fin n) ℝ} (hm : ev.model.marg.length = n)
    (hc : ev.model.correlation = some ⟨n, n, R⟩) (hs : R.IsSymm) (h1 : ∀ i, R i i = 1) :
    initRun c n ev = ({ ev with model := ev.model.setModifiedCorrelation ⟨n, n, R⟩ }, compute c.la c.ty R) := by
  unfold initRun Correlation.setModified
  rw [hf, compute_start hm hc hs h1]
  simp [setModifiedCorrelation]

/-- The correlation matrix. -/
noncomputable def orderR : Matrix (Fin 2) (Fin 2) ℝ := !![1, 1/2; 1/2, 1]

theorem orderR_posDef : orderR.PosDef := by
  unfold orderR
  rw [posDef_iff_dotProduct_mulVec]
  refine ⟨by ext i j; fin_cases i <;> fin_cases j <;> simp, fun x hx => ?_⟩
  simp only [star_trivial, dotProduct, mulVec, Fin.sum_univ_two]
  simp
  have h0 : x 0 ≠ 0 ∨ x 1 ≠ 0 := by
    by_contra h
    push Not at h
    apply hx
    funext i; fin_cases i <;> simp [h.1, h.2]
  rcases h0 with h | h <;> nlinarith [sq_nonneg (x 0 + x 1), sq_pos_of_ne_zero h, sq_nonneg (x 0), sq_nonneg (x 1)]

theorem orderR_symm : orderR.IsSymm := by
  ext i j; fin_cases i <;> fin_cases j <;> simp [orderR]

theorem orderR_chol {L : Matrix (Fin 2) (Fin 2) ℝ} (h : IsCholesky orderR L) :
    L 0 0 = 1 ∧ L 0 1 = 0 ∧ L 1 0 = 1 / 2 ∧ L 1 0 ^ 2 + L 1 1 ^ 2 = 1 := by
  have h01 : L 0 1 = 0 := h.lower 0 1 (by decide)
  have e00 := congrFun (congrFun h.fact 0) 0
  have e10 := congrFun (congrFun h.fact 1) 0
  have e11 := congrFun (congrFun h.fact 1) 1
  simp [orderR, mul_apply, Fin.sum_univ_two, h01] at e00 e10 e11
  have h00 : L 0 0 = 1 := by nlinarith [h.diag 0]
  rw [h00] at e10
  refine ⟨h00, h01, by linarith, by rw [pow_two, pow_two]; exact e11⟩

/-- The session: the default settings of the library, an optimiser that returns its start value (the equivalent correlation of normal
variables is the given one), and the function `1 + x₁`. -/
noncomputable def orderSetup (la : LinAlg) (d : Marginal) (fuel : ℕ) : Setup where
  fmin := fun _ x => x
  default := d
  la := la
  eig := fun _ _ => []
  ty := .cholesky
  expr := orderG
  lsopt := ⟨"ffd", 1, 1000, 1000⟩
  fuel := fuel

/-- FORM on either model. -/
theorem order_pair {la : LinAlg} (hla : LinAlgOK la) {m : Marginal} (hm : Normal.new 0 (.fin 1) none = .ok m) (fuel : ℕ)
    (hfuel : 100 ≤ fuel) (ev : Ev Marginal) (hr : Reachable ev.model) (n1 n2 : String) (hmarg : ev.model.marg = [⟨n1, m⟩, ⟨n2, m⟩])
    (hc : ev.model.correlation = some ⟨2, 2, orderR⟩) (a : Fin 2 → ℝ) (ha : a ≠ 0)
    (haff : ∀ p : Fin 2 → ℝ, 1 + ((pointArgs ev.model p).get? "x1").getD 0 = 1 + ∑ i, a i * p i) :
    ∃ s r L, formRun (orderSetup la m fuel) 2 ⟨100, 0.001, 0.001, 1, 1⟩ ev = some (s, .inl r) ∧ IsCholesky orderR L ∧
      r.alpha = alpha (vecMul a L) := by
  obtain ⟨L, hL, hLc⟩ := hla.chol orderR orderR_posDef
  have ht : compute la .cholesky orderR = .ok ⟨L⁻¹, L⟩ := by
    simp only [compute, computeCholesky, hL, npInv_of_unit (CholeskySens.isUnit_det_of_diag hLc.lower hLc.diag)]
  have hi := initRun_start (c := orderSetup la m fuel) (ev := ev) rfl (by rw [hmarg]; rfl) hc orderR_symm
    (fun i => by fin_cases i <;> simp [orderR])
  have hmg : ∀ i : Fin 2, margN 2 m (ev.model.setModifiedCorrelation ⟨2, 2, orderR⟩) i = m := by
    intro i
    unfold margN setModifiedCorrelation
    rw [hmarg]
    fin_cases i <;> rfl
  obtain ⟨r, s, h1, -, -, -, -, -, h7⟩ := C30_ffd hla orderR_posDef ht (μ := fun _ => 0) (sd := fun _ => 1) (sp := fun _ => none)
    (fun _ => one_pos) (marg := margN 2 m (ev.model.setModifiedCorrelation ⟨2, 2, orderR⟩)) (fun i => by rw [hmg]; exact hm)
    (pointwise_of_byName (vectorise_byName fun a => 1 + (a "x1").getD 0)) ⟨"ffd", 1, 1000, 1000⟩ (by norm_num) (by norm_num) (by norm_num)
    (by decide) (by decide) { ev with model := ev.model.setModifiedCorrelation ⟨2, 2, orderR⟩ } (reachable_setRo hr _)
    (by change ev.model.marg.length ≤ 2; rw [hmarg]; rfl)
    (names_ne_nil (reachable_setRo hr _) (by change ev.model.marg ≠ []; rw [hmarg]; simp)) 1 a ha haff
    ⟨100, 0.001, 0.001, 1, 1⟩ rfl (by norm_num) (by norm_num) (by norm_num) (by norm_num) fuel hfuel
  refine ⟨s, r, L, ?_, hLc, ?_⟩
  · unfold formRun withInit
    rw [hi]
    simp only [orderSetup, ht, evaluator] at h1 ⊢
    unfold orderG
    rw [h1]
  · rw [h7]; simp

/-- The two models. -/
noncomputable def orderModel (m : Marginal) (n1 n2 : String) : StochModel Marginal ℝ :=
  init.run [.add (.distribution ⟨n1, m⟩), .add (.distribution ⟨n2, m⟩), .setCorr ⟨2, 2, orderR⟩]

theorem orderModel_eq (m : Marginal) {n1 n2 : String} (h : n2 ≠ n1) :
    orderModel m n1 n2 = ⟨[(n1, ⟨n1, m⟩), (n2, ⟨n2, m⟩)], [n1, n2], [⟨n1, m⟩, ⟨n2, m⟩], some ⟨2, 2, orderR⟩, none, 0, []⟩ := by
  simp [orderModel, StochModel.run, StochModel.step, StochModel.init, addVariable, setCorrelation, Dict.set, h, h.symm]

/-- The hypotheses of `C91_form` are met by these two models. -/
theorem order_pair_reordered (m : Marginal) :
    EvReordered (Equiv.swap (0 : Fin 2) 1) ⟨orderModel m "x1" "x2", []⟩ ⟨orderModel m "x2" "x1", []⟩ := by
  refine ⟨⟨_, rfl⟩, ⟨_, rfl⟩, ?_, by simp [pointsOf]⟩
  rw [orderModel_eq m (by decide), orderModel_eq m (by decide)]
  refine ⟨⟨![⟨"x1", m⟩, ⟨"x2", m⟩], by simp [List.ofFn_succ], by simp [List.ofFn_succ]⟩, ⟨orderR, orderR_symm, rfl, ?_⟩, fun k => rfl, rfl⟩
  have : orderR.submatrix (Equiv.swap 0 1) (Equiv.swap 0 1) = orderR := by
    ext i j; fin_cases i <;> fin_cases j <;> simp [orderR]
  rw [this]

/-- **C91 (direction cosines of correlated variables).**  With correlation the direction cosine reported for a variable does depend on
the order in which the variables were added: for two standard normal variables with correlation 1/2 and `g = 1 + x₁`, the value that
`getAlpha(as_dict=True)` gives for `x2` is `0` when `x1` is added first and `-1/2` when `x2` is added first; `β` is the same. -/
theorem C91_alpha_order {la : LinAlg} (hla : LinAlgOK la) {m : Marginal} (hm : Normal.new 0 (.fin 1) none = .ok m) (fuel : ℕ)
    (hfuel : 100 ≤ fuel) :
    ∃ s r s' r', formRun (orderSetup la m fuel) 2 ⟨100, 0.001, 0.001, 1, 1⟩ ⟨orderModel m "x1" "x2", []⟩ = some (s, .inl r) ∧
      formRun (orderSetup la m fuel) 2 ⟨100, 0.001, 0.001, 1, 1⟩ ⟨orderModel m "x2" "x1", []⟩ = some (s', .inl r') ∧
      r'.beta = r.beta ∧ (alphaDict (orderModel m "x1" "x2").getNames (List.ofFn r.alpha)).get? "x2" = some 0 ∧
      (alphaDict (orderModel m "x2" "x1").getNames (List.ofFn r'.alpha)).get? "x2" = some (-1 / 2) := by
  have e1 := orderModel_eq m (n1 := "x1") (n2 := "x2") (by decide)
  have e2 := orderModel_eq m (n1 := "x2") (n2 := "x1") (by decide)
  obtain ⟨s, r, L, h1, h2, h3⟩ := order_pair hla hm fuel hfuel ⟨orderModel m "x1" "x2", []⟩ ⟨_, rfl⟩ "x1" "x2" (by rw [e1]) (by rw [e1])
    ![1, 0] (by intro h; simpa using congrFun h 0)
    (by intro p; rw [e1]; simp [pointArgs, getVariables, getConstants, Dict.keys, Dict.get?, List.ofFn_succ])
  obtain ⟨s', r', L', h1', h2', h3'⟩ := order_pair hla hm fuel hfuel ⟨orderModel m "x2" "x1", []⟩ ⟨_, rfl⟩ "x2" "x1" (by rw [e2]) (by rw [e2])
    ![0, 1] (by intro h; simpa using congrFun h 1)
    (by intro p; rw [e2]; simp [pointArgs, getVariables, getConstants, Dict.keys, Dict.get?, List.ofFn_succ])
  refine ⟨s, r, s', r', h1, h1', ?_, ?_, ?_⟩
  · obtain ⟨Q, -, hr⟩ := C91_form (order_pair_reordered m) (by norm_num) (orderSetup la m fuel) hla
      (vectorise_byName fun a => 1 + (a "x1").getD 0) (by norm_num [orderSetup]) (by simp [orderSetup]) ⟨100, 0.001, 0.001, 1, 1⟩
    rw [h1, h1'] at hr
    rcases hr.2 with ⟨q, q', x1, x2, hx⟩ | ⟨o, x1, -⟩
    · cases x1; cases x2; exact hx.beta
    · cases x1
  · have := (C35_labels (D := Marginal) [.add (.distribution ⟨"x1", m⟩), .add (.distribution ⟨"x2", m⟩), .setCorr ⟨2, 2, orderR⟩] r.alpha).2
      1 "x2" (by change (orderModel m "x1" "x2").names[1]? = _; rw [e1]; rfl)
    refine this.trans ?_
    obtain ⟨-, k2, -⟩ := orderR_chol h2
    rw [h3]
    simp [alpha, vecMul, dotProduct, Fin.sum_univ_two, k2]
  · have := (C35_labels (D := Marginal) [.add (.distribution ⟨"x2", m⟩), .add (.distribution ⟨"x1", m⟩), .setCorr ⟨2, 2, orderR⟩] r'.alpha).2
      0 "x2" (by change (orderModel m "x2" "x1").names[0]? = _; rw [e2]; rfl)
    refine this.trans ?_
    obtain ⟨-, -, k3, k4⟩ := orderR_chol h2'
    rw [h3']
    have : norm2 (vecMul ![0, 1] L') = 1 := by
      unfold norm2
      simp [vecMul, dotProduct, Fin.sum_univ_two, k4]
    simp [alpha, this]
    simp [vecMul, dotProduct, Fin.sum_univ_two, k3]
    norm_num

end Pystra.Props
