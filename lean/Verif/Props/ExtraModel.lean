import Verif.Props.ExtraForm
import Verif.Props.OrderModel
import Verif.Props.Cholesky
import Verif.Spec.Extra

/-! C92: variables that the limit state ignores: limit-state evaluation, modified correlation matrix, and the whole run of FORM. -/

namespace Pystra.Props
open Matrix Spec Transformation Form LimitState StochModel Session

variable {n k : ℕ} {ι : Fin n ↪ Fin k}

theorem _root_.Pystra.Spec.WithExtra.length {m m' : StochModel Marginal ℝ} (h : WithExtra ι m m') : m.marg.length = n ∧ m'.marg.length = k := by
  obtain ⟨v, v', e1, e2, -⟩ := h.marg
  rw [e1, e2]; simp

/-- Every name but those of the extra variables has the same value. -/
theorem pointArgs_extra {m m' : StochModel Marginal ℝ} (h : Reachable m) (h' : Reachable m') (ho : WithExtra ι m m') (x : Fin k → ℝ)
    {name : String} (hname : ¬ ExtraName ι m' name) : (pointArgs m' x).get? name = (pointArgs m (x ∘ ι)).get? name := by
  have w := wf_of_reachable h
  have w' := wf_of_reachable h'
  obtain ⟨v, v', e1, e2, e3⟩ := ho.marg
  have hk := keys_of_reachable h
  have hk' := keys_of_reachable h'
  rw [e1, List.map_ofFn] at hk
  rw [e2, List.map_ofFn] at hk'
  have hz : ∀ {l : ℕ} (a : Fin l → String) (b : Fin l → ℝ), (List.ofFn a).zip (List.ofFn b) = List.ofFn (fun i => (a i, b i)) := by
    intro l a b
    apply List.ext_getElem
    · simp
    · intro i _ _; simp
  have nod : ∀ {l : ℕ} {m : StochModel Marginal ℝ} (w : WF m) (a : Fin l → String) (y : Fin l → ℝ), m.vars.keys = List.ofFn a →
      (Dict.keys (pointArgs m y)).Nodup := by
    intro l m w a y ha
    have : Dict.keys (pointArgs m y) = m.vars.keys ++ m.consts.keys := by
      simp only [Dict.keys, pointArgs, getVariables, getConstants, List.map_append]
      rw [List.map_fst_zip]
      have := congrArg List.length ha
      simp only [Dict.keys, List.length_ofFn, List.length_map] at this ⊢
      omega
    rw [this]
    exact List.nodup_append.2 ⟨w.vnd, w.cnd, fun a ha b hb e => w.dis b hb (e ▸ ha)⟩
  apply Option.ext
  intro r
  rw [Dict.get?_iff _ (nod w' _ _ hk'), Dict.get?_iff _ (nod w _ _ hk)]
  unfold pointArgs getVariables getConstants
  rw [hk, hk', hz, hz, List.mem_append, List.mem_append, List.mem_ofFn, List.mem_ofFn]
  refine or_congr ⟨?_, ?_⟩ ?_
  · rintro ⟨j, e⟩
    by_cases hj : ∃ i, ι i = j
    · obtain ⟨i, rfl⟩ := hj
      refine ⟨i, ?_⟩
      simpa [e3] using e
    · push Not at hj
      refine absurd ⟨j, hj, v' j, ?_, ?_⟩ hname
      · rw [e2]; simp
      · exact congrArg Prod.fst e
  · rintro ⟨i, e⟩
    refine ⟨ι i, ?_⟩
    simpa [e3] using e
  · rw [← Dict.get?_iff _ w'.cnd, ← Dict.get?_iff _ w.cnd, ho.consts]

theorem _root_.Pystra.Spec.EvExtra.advance {s s' : Ev Marginal} (h : EvExtra ι s s') (j l : ℕ) (T T' : List Kwargs) :
    EvExtra ι (s.advance j T) (s'.advance l T') :=
  ⟨reachable_calls h.reach j, reachable_calls h.reach' l, ⟨h.model.marg, h.model.correlation, h.model.consts⟩⟩

theorem update_extra (x : Fin k → ℝ) (i : Fin n) (a : ℝ) : Function.update x (ι i) a ∘ ι = Function.update (x ∘ ι) i a := by
  funext l
  by_cases h : l = i
  · subst h; simp
  · simp [h, Function.update_of_ne]

theorem update_isExtra (x : Fin k → ℝ) {j : Fin k} (hj : IsExtra ι j) (a : ℝ) : Function.update x j a ∘ ι = x ∘ ι := by
  funext l
  simp [Function.update_of_ne (hj l)]

theorem extend_comp (e : Fin k → ℝ) (x : Fin n → ℝ) : extend ι e x ∘ ι = x := by
  funext i; exact extend_apply e x i

/-- The relation between the states of the two analyses, with the variables fixed. -/
def ExtraState (ι : Fin n ↪ Fin k) (M : List (DistObj Marginal)) (s s' : Ev Marginal) : Prop := EvExtra ι s s' ∧ s'.model.marg = M

theorem ls_extra (hn : 0 < n) {expr : Kwargs → GRet} {f : (String → Option ℝ) → ℝ} (hf : ByName expr f) (opt : LSOptions)
    (hbs : 1 ≤ opt.blockSize) (hd : opt.diffMode ≠ "ddm") (stdv : Fin n → ℝ) (stdv' : Fin k → ℝ) (hst : stdv' ∘ ι = stdv)
    (marg' : Fin k → Marginal) (m0 : StochModel Marginal ℝ) (hig : IgnoresNames f (ExtraName ι m0)) :
    Sim (ExtraState ι m0.marg) (lsEvaluator expr opt stdv) (pullExtra ι marg' (lsEvaluator expr opt stdv')) ∧
    Ignores ι (lsEvaluator expr opt stdv') (fun s' => ∃ s, ExtraState ι m0.marg s s') := by
  have hp := pointwise_of_byName hf
  subst hst
  have hk : 0 < k := (Nat.zero_le _).trans_lt (ι ⟨0, hn⟩).isLt
  have nn : ∀ {l : ℕ} {m : StochModel Marginal ℝ}, 0 < l → Reachable m → m.marg.length = l → m.getNames ≠ [] := fun h0 h hl =>
    names_ne_nil h (by intro e; rw [e] at hl; simp at hl; omega)
  have key : ∀ {s s' : Ev Marginal}, ExtraState ι m0.marg s s' → ∀ x : Fin k → ℝ,
      f (pointArgs s'.model x).get? = f (pointArgs s.model (x ∘ ι)).get? := by
    intro s s' h x
    apply hig
    intro name hname
    apply pointArgs_extra h.1.reach h.1.reach' h.1.model
    unfold ExtraName at hname ⊢
    rwa [h.2]
  have adv : ∀ {s s' : Ev Marginal}, ExtraState ι m0.marg s s' → ∀ (j l : ℕ) (T T' : List Kwargs),
      ExtraState ι m0.marg (s.advance j T) (s'.advance l T') := fun h j l T T' => ⟨h.1.advance j l T T', h.2⟩
  by_cases hmp : opt.multiProc = 0
  · refine ⟨⟨?_, ?_⟩, ?_, ?_, ?_⟩
    · intro s s' h x
      simpa [lsEvaluator, pullExtra, evaluateLsf, hmp, Except.map] using h
    · intro s s' h x
      simpa [lsEvaluator, pullExtra, evaluateLsf, hmp, Except.map] using h
    · intro s x h
      simpa [lsEvaluator, evaluateLsf, hmp] using h
    · intro s x h
      simpa [lsEvaluator, evaluateLsf, hmp] using h
    · intro s x h G g xa e
      simp [lsEvaluator, evaluateLsf, hmp] at e
  refine ⟨⟨?_, ?_⟩, ?_, ?_, ?_⟩
  · intro s s' h x
    have hE : EvExtra ι s s' := h.1
    by_cases hd1 : opt.diffMode = "no"
    · obtain ⟨T, g1, -⟩ := pointwise_no hp opt hbs hmp hd1 (stdv' ∘ ι) s hE.reach hE.model.length.1.le (nn hn hE.reach hE.model.length.1) x
      obtain ⟨T', g2, -⟩ := pointwise_no hp opt hbs hmp hd1 stdv' s' hE.reach' hE.model.length.2.le
        (nn hk hE.reach' hE.model.length.2) (extend ι (restX marg') x)
      simp only [pullExtra, g1, g2, Except.map]
      refine ⟨adv h _ _ _ _, ?_⟩
      rw [key h, extend_comp]
      rfl
    · obtain ⟨T, g1, -⟩ := pointwise_ffd hp opt hbs hmp hd1 hd (stdv' ∘ ι) s hE.reach hE.model.length.1.le (nn hn hE.reach hE.model.length.1) x
      obtain ⟨T', g2, -⟩ := pointwise_ffd hp opt hbs hmp hd1 hd stdv' s' hE.reach' hE.model.length.2.le
        (nn hk hE.reach' hE.model.length.2) (extend ι (restX marg') x)
      simp only [pullExtra, g1, g2, Except.map]
      refine ⟨adv h _ _ _ _, ?_⟩
      simp only [key h, extend_comp]
      congr 3
      · funext i
        simp only [Function.comp_apply, update_extra, extend_comp, extend_apply]
      · funext i
        simp only [Function.comp_apply, extend_apply]
  · intro s s' h xs
    have hE : EvExtra ι s s' := h.1
    obtain ⟨T, g1, -⟩ := pointwise_values hp opt hbs hmp (stdv' ∘ ι) s hE.reach hE.model.length.1.le (nn hn hE.reach hE.model.length.1) xs
    obtain ⟨T', g2, -⟩ := pointwise_values hp opt hbs hmp stdv' s' hE.reach' hE.model.length.2.le
      (nn hk hE.reach' hE.model.length.2) (xs.map (extend ι (restX marg')))
    simp only [pullExtra, g1, g2]
    refine ⟨adv h _ _ _ _, ?_⟩
    simp only [List.map_map]
    congr 1
    refine List.map_congr_left fun y _ => ?_
    simp only [Function.comp_apply, key h, extend_comp]
  · rintro s' x ⟨s, h⟩
    have hE : EvExtra ι s s' := h.1
    by_cases hd1 : opt.diffMode = "no"
    · obtain ⟨T', g2, -⟩ := pointwise_no hp opt hbs hmp hd1 stdv' s' hE.reach' hE.model.length.2.le
        (nn hk hE.reach' hE.model.length.2) x
      rw [g2]; exact ⟨_, adv h 0 _ [] _⟩
    · obtain ⟨T', g2, -⟩ := pointwise_ffd hp opt hbs hmp hd1 hd stdv' s' hE.reach' hE.model.length.2.le
        (nn hk hE.reach' hE.model.length.2) x
      rw [g2]; exact ⟨_, adv h 0 _ [] _⟩
  · rintro s' xs ⟨s, h⟩
    have hE : EvExtra ι s s' := h.1
    obtain ⟨T', g2, -⟩ := pointwise_values hp opt hbs hmp stdv' s' hE.reach' hE.model.length.2.le
      (nn hk hE.reach' hE.model.length.2) xs
    rw [g2]; exact ⟨_, adv h 0 _ [] _⟩
  · rintro s' x ⟨s, h⟩ G g xa e j hj
    have hE : EvExtra ι s s' := h.1
    by_cases hd1 : opt.diffMode = "no"
    · obtain ⟨T', g2, -⟩ := pointwise_no hp opt hbs hmp hd1 stdv' s' hE.reach' hE.model.length.2.le
        (nn hk hE.reach' hE.model.length.2) x
      rw [g2] at e
      simp only [Except.ok.injEq, Prod.mk.injEq] at e
      rw [← e.2.1]
    · obtain ⟨T', g2, -⟩ := pointwise_ffd hp opt hbs hmp hd1 hd stdv' s' hE.reach' hE.model.length.2.le
        (nn hk hE.reach' hE.model.length.2) x
      rw [g2] at e
      simp only [Except.ok.injEq, Prod.mk.injEq] at e
      rw [← e.2.1]
      simp only [key h, update_isExtra _ hj]
      simp

/-- The modified correlation matrices of the two models. -/
theorem compute_extra {m m' : StochModel Marginal ℝ} (ho : WithExtra ι m m') (fmin : Correlation.Fmin) (d : Marginal) :
    ∃ Ro : Matrix (Fin k) (Fin k) ℝ, (∀ i j, IsExtra ι j → Ro (ι i) j = 0) ∧ Correlation.compute fmin d m' = .ok ⟨k, k, Ro⟩ ∧
      Correlation.compute fmin d m = .ok ⟨n, n, Ro.submatrix ι ι⟩ := by
  obtain ⟨v, v', e1, e2, e3⟩ := ho.marg
  obtain ⟨R, hs, hc, c1, c2⟩ := ho.correlation
  obtain ⟨A, a1, a2, a3, a4⟩ := C25_entries fmin (fun i => (m'.marg.map DistObj.body).getD i d) R
  obtain ⟨B, b1, b2, b3, b4⟩ := C25_entries fmin (fun i => (m.marg.map DistObj.body).getD i d) (R.submatrix ι ι)
  have f1 : ∀ i : Fin k, (m'.marg.map DistObj.body).getD i.val d = (v' i).body := by
    intro i; rw [e2]; simp [List.getD_eq_getElem?_getD]
  have f2 : ∀ i : Fin n, (m.marg.map DistObj.body).getD i.val d = (v' (ι i)).body := by
    intro i; rw [e1, e3]; simp [List.getD_eq_getElem?_getD]
  simp only [f1] at a4
  simp only [f2] at b4
  have hA : ∀ i j, i ≠ j → A i j = expectedRho0 fmin (R i j) (v' i).body (v' j).body := by
    intro i j hij
    rcases lt_or_gt_of_ne hij with h | h
    · rw [a3, a4 j i h, expectedRho0_comm, hs.apply]
    · exact a4 i j h
  have hB : B = A.submatrix ι ι := by
    ext i j
    rw [submatrix_apply]
    rcases lt_trichotomy i j with h | h | h
    · rw [b3, b4 j i h, a3, hA _ _ (fun e => h.ne' (ι.injective e))]; rfl
    · rw [h, b2, a2]
    · rw [b4 i j h, hA _ _ (fun e => h.ne' (ι.injective e))]; rfl
  refine ⟨A, ?_, ?_, ?_⟩
  · intro i j hj
    rw [hA _ _ (hj i), hc i j hj]
    unfold expectedRho0
    rw [if_pos rfl]
  · unfold Correlation.compute getCorrelation
    rw [c1]
    simp only [dif_pos]
    rw [ho.length.2]
    have e : (fun a b => R a (Fin.cast (rfl : k = k).symm b)) = R := rfl
    rw [e, a1]
  · unfold Correlation.compute getCorrelation
    rw [c2]
    simp only [dif_pos]
    rw [ho.length.1]
    have e : (fun a b => (R.submatrix ι ι) a (Fin.cast (rfl : n = n).symm b)) = R.submatrix ι ι := rfl
    rw [e, b1, hB]

/-- FORM on the two models, given their transformations. -/
theorem formRun_embedded {s s' a b : Ev Marginal} (h' : EvExtra ι a b) (hn : 0 < n) (c : Setup)
    {f : (String → Option ℝ) → ℝ} (hf : ByName c.expr f) (hig : IgnoresNames f (ExtraName ι b.model)) (hrest : ExtraAtRest ι b.model)
    (hbs : 1 ≤ c.lsopt.blockSize) (hd : c.lsopt.diffMode ≠ "ddm")
    (opt : Form.Options) {t : Mats n} {t' : Mats k} {Q : Matrix (Fin k) (Fin n) ℝ} (g1 : initRun c n s = (a, .ok t))
    (g2 : initRun c k s' = (b, .ok t')) (hQ : Embedded ι Q t t') :
    RelOpt (FormExtra ι (ResultExtra ι Q)) (formRun c n opt s) (formRun c k opt s') := by
  unfold formRun withInit
  rw [g1, g2]
  dsimp only
  obtain ⟨v, v', m1, m2, m3⟩ := h'.model.marg
  have hb : ∀ j, margN k c.default b.model j = (v' j).body := by
    intro j; simp [margN, m2, List.getD_eq_getElem?_getD]
  have ha : ∀ i, margN n c.default a.model i = (v i).body := by
    intro j; simp [margN, m1, List.getD_eq_getElem?_getD]
  have hv : ∀ j : Fin k, b.model.marg[j.val]? = some (v' j) := by
    intro j; rw [m2]; simp
  have hm : Fits ι (margN n c.default a.model) (margN k c.default b.model) := by
    refine ⟨fun i => by rw [ha, hb, m3], fun j hj => ?_, fun j hj => ?_⟩
    · rw [hb]; exact (hrest j hj _ (hv j)).1
    · rw [hb]; exact (hrest j hj _ (hv j)).2
  obtain ⟨hsim, hi⟩ := ls_extra (ι := ι) hn hf c.lsopt hbs hd (fun i => (margN n c.default a.model i).stdv)
    (fun i => (margN k c.default b.model i).stdv) (by funext i; simp [hm.same]) (margN k c.default b.model) b.model hig
  have hab : ExtraState ι b.model.marg a b := ⟨h', rfl⟩
  have hr := Form.runFrom_sim hsim t (margN n c.default a.model) opt c.fuel hab
  have hx := extra_run hQ hm hi opt c.fuel ⟨a, hab⟩
  unfold evaluator
  have hres : ∀ {s1 : Ev Marginal}, s1.model.marg = b.model.marg → ∀ {r : Form.Result n} {r' : Form.Result k},
      extraPoint ι Q (restX (margN k c.default b.model)) r.point r'.point → r'.i = r.i → r'.Go = r.Go → r'.alpha = Q *ᵥ r.alpha →
      r'.beta = r.beta → r'.Pf = r.Pf → ResultExtra ι Q s1.model r r' := by
    intro s1 e1 r r' hp hi hGo ha hbt hP
    obtain ⟨p1, p2, -, p4, p5⟩ := hp
    refine ⟨hi, p4, hGo, hbt, hP, fun i => by rw [p2, extend_apply], fun j hj d hjd => ?_, p1, ha, p5⟩
    rw [p2, extend_extra _ _ hj]
    rw [e1, hv j] at hjd
    unfold restX
    rw [hb, Option.some.inj hjd]
  rcases hr with ⟨r1, r2⟩ | ⟨x, y, r1, r2, hxy⟩
  · rw [r2] at hx
    rw [r1]
    generalize runFrom t' (margN k c.default b.model) (lsEvaluator c.expr c.lsopt fun i => (margN k c.default b.model i).stdv) opt c.fuel b = Z at hx
    cases hx
    exact trivial
  · rw [r2] at hx
    rw [r1]
    generalize runFrom t' (margN k c.default b.model) (lsEvaluator c.expr c.lsopt fun i => (margN k c.default b.model i).stdv) opt c.fuel b = Z at hx
    cases hx with
    | some hx =>
      cases hxy with
      | done r hR => cases hx with
        | done s1 p q1 q2 q3 q4 q5 => exact ⟨hR.1, Or.inl ⟨r, _, rfl, rfl, hres hR.2 p q1 q2 q3 q4 q5⟩⟩
      | raised e hR => cases hx; exact ⟨hR.1, Or.inr (Or.inr ⟨_, rfl, rfl⟩)⟩
      | nan hR => cases hx; exact ⟨hR.1, Or.inr (Or.inl ⟨rfl, rfl⟩)⟩
      | next Go u hR => cases hx; exact trivial

/-- `init_run` of the two analyses. -/
theorem initRun_extra {s s' : Ev Marginal} (h : EvExtra ι s s') (c : Setup) :
    ∃ Ro : Matrix (Fin k) (Fin k) ℝ, (∀ i j, IsExtra ι j → Ro (ι i) j = 0) ∧
      Correlation.compute c.fmin c.default s'.model = .ok ⟨k, k, Ro⟩ ∧
      EvExtra ι { s with model := s.model.setModifiedCorrelation ⟨n, n, Ro.submatrix ι ι⟩ }
        { s' with model := s'.model.setModifiedCorrelation ⟨k, k, Ro⟩ } ∧
      initRun c n s = ({ s with model := s.model.setModifiedCorrelation ⟨n, n, Ro.submatrix ι ι⟩ }, compute c.la c.ty (Ro.submatrix ι ι)) ∧
      initRun c k s' = ({ s' with model := s'.model.setModifiedCorrelation ⟨k, k, Ro⟩ }, compute c.la c.ty Ro) := by
  obtain ⟨Ro, hc, c1, c2⟩ := compute_extra h.model c.fmin c.default
  refine ⟨Ro, hc, c1, ⟨reachable_setRo h.reach _, reachable_setRo h.reach' _, ⟨h.model.marg, h.model.correlation, h.model.consts⟩⟩, ?_, ?_⟩
  · unfold initRun Correlation.setModified
    rw [c2]
    simp [setModifiedCorrelation]
    rfl
  · unfold initRun Correlation.setModified
    rw [c1]
    simp [setModifiedCorrelation]

/-- **C92 (FORM).**  The large model has the variables of the small one and more, which are independent of them, start at 0 in the standard
normal space and are not used by the limit-state function (which sees its arguments by name).  If the modified correlation matrix of the
large model is positive definite, FORM raises the same exception on both models, or is still running on both, or ends with the same `β`,
`Pf`, `G` and number of iterations, at the same design point; the vectors of the standard normal space are related by an isometry.  Both
transformation types, every gradient method but direct differentiation. -/
theorem C92_form {s s' : Ev Marginal} (h : EvExtra ι s s') (hn : 0 < n) (c : Setup) (hla : LinAlgOK c.la)
    {f : (String → Option ℝ) → ℝ} (hf : ByName c.expr f) (hig : IgnoresNames f (ExtraName ι s'.model)) (hrest : ExtraAtRest ι s'.model)
    (hpd : ∀ Ro, Correlation.compute c.fmin c.default s'.model = .ok ⟨k, k, Ro⟩ → Ro.PosDef)
    (hbs : 1 ≤ c.lsopt.blockSize) (hd : c.lsopt.diffMode ≠ "ddm") (opt : Form.Options) :
    ∃ Q : Matrix (Fin k) (Fin n) ℝ, Qᵀ * Q = 1 ∧ RelOpt (FormExtra ι (ResultExtra ι Q)) (formRun c n opt s) (formRun c k opt s') := by
  obtain ⟨Ro, hc, hR, h', g1, g2⟩ := initRun_extra h c
  obtain ⟨t, t', Q, e1, e2, hQ⟩ := embedded_exists hla c.ty (hpd Ro hR) ι hc
  rw [e1] at g1
  rw [e2] at g2
  exact ⟨Q, hQ.orth, formRun_embedded h' hn c hf hig hrest hbs hd opt g1 g2 hQ⟩

/-- Cholesky factors of a matrix without entries between the extra variables and the others. -/
theorem cholesky_cross {Ro L : Matrix (Fin k) (Fin k) ℝ} (hL : IsCholesky Ro L) (hs : Ro.IsSymm) (hc : ∀ i j, IsExtra ι j → Ro (ι i) j = 0) :
    ∀ i j, IsExtra ι j → L (ι i) j = 0 ∧ L j (ι i) = 0 := by
  classical
  let d : Fin k → ℝ := fun j => if IsExtra ι j then -1 else 1
  have d1 : ∀ i, d (ι i) = 1 := fun i => if_neg (fun h => h i rfl)
  have d2 : ∀ j, IsExtra ι j → d j = -1 := fun j hj => if_pos hj
  have dd : ∀ j, d j * d j = 1 := by
    intro j
    by_cases hj : IsExtra ι j
    · rw [d2 j hj]; norm_num
    · unfold IsExtra at hj
      push Not at hj
      obtain ⟨i, rfl⟩ := hj
      rw [d1]; norm_num
  have ent : ∀ (M : Matrix (Fin k) (Fin k) ℝ) i j, (diagonal d * M * diagonal d) i j = d i * M i j * d j := by
    intro M i j
    rw [mul_diagonal, diagonal_mul]
  have hD : diagonal d * Ro * diagonal d = Ro := by
    ext i j
    rw [ent]
    by_cases hi : IsExtra ι i <;> by_cases hj : IsExtra ι j
    · rw [d2 i hi, d2 j hj]; ring
    · unfold IsExtra at hj
      push Not at hj
      obtain ⟨l, rfl⟩ := hj
      rw [← hs.apply, hc l i hi]; ring
    · unfold IsExtra at hi
      push Not at hi
      obtain ⟨l, rfl⟩ := hi
      rw [hc l j hj]; ring
    · unfold IsExtra at hi hj
      push Not at hi hj
      obtain ⟨l, rfl⟩ := hi
      obtain ⟨l', rfl⟩ := hj
      rw [d1, d1]; ring
  have hd2 : diagonal d * diagonal d = 1 := by
    rw [diagonal_mul_diagonal, ← diagonal_one]
    congr 1; funext j; exact dd j
  have hL' : IsCholesky Ro (diagonal d * L * diagonal d) := by
    refine ⟨fun i j hij => by rw [ent, hL.lower i j hij]; ring, fun i => ?_, ?_⟩
    · rw [ent, show d i * L i i * d i = d i * d i * L i i by ring, dd, one_mul]; exact hL.diag i
    · rw [transpose_mul, transpose_mul, diagonal_transpose, Matrix.mul_assoc (diagonal d * L), ← Matrix.mul_assoc (diagonal d) (diagonal d),
        hd2, Matrix.one_mul, Matrix.mul_assoc (diagonal d), ← Matrix.mul_assoc L, hL.fact, ← Matrix.mul_assoc, hD]
  have hu := cholesky_unique hL hL'
  intro i j hj
  have h1 := congrFun (congrFun hu (ι i)) j
  have h2 := congrFun (congrFun hu j) (ι i)
  rw [ent, d1, d2 j hj] at h1 h2
  constructor <;> linarith

/-- With the Cholesky factor and the common variables in the same order, the isometry puts 0 for the extra variables. -/
theorem embedded_cholesky {la : LinAlg} (hla : LinAlgOK la) {Ro : Matrix (Fin k) (Fin k) ℝ} (hR : Ro.PosDef)
    (hmono : StrictMono ι) (hc : ∀ i j, IsExtra ι j → Ro (ι i) j = 0) :
    ∃ t t', compute la .cholesky (Ro.submatrix ι ι) = .ok t ∧ compute la .cholesky Ro = .ok t' ∧ Embedded ι (embed ι) t t' := by
  obtain ⟨L, hL, hLc⟩ := hla.chol (Ro.submatrix ι ι) (hR.submatrix ι.injective)
  obtain ⟨L', hL', hLc'⟩ := hla.chol Ro hR
  have hs : Ro.IsSymm := by
    have := hR.1
    unfold IsHermitian at this
    rwa [conjTranspose_eq_transpose_of_trivial] at this
  have hx := cholesky_cross hLc' hs hc
  have hsub : L = L'.submatrix ι ι := by
    apply cholesky_unique hLc
    refine ⟨fun i j hij => hLc'.lower _ _ (hmono hij), fun i => hLc'.diag _, ?_⟩
    ext i j
    rw [submatrix_apply, ← hLc'.fact, mul_apply, mul_apply]
    simp only [transpose_apply, submatrix_apply]
    rw [← Finset.sum_subset (Finset.subset_univ (Finset.univ.map ι)), Finset.sum_map]
    intro l _ hl
    simp only [Finset.mem_map, Finset.mem_univ, true_and, not_exists] at hl
    rw [(hx i l hl).1, zero_mul]
  have ht : compute la .cholesky (Ro.submatrix ι ι) = .ok ⟨L⁻¹, L⟩ := by
    simp only [compute, computeCholesky, hL, npInv_of_unit (CholeskySens.isUnit_det_of_diag hLc.lower hLc.diag)]
  have ht' : compute la .cholesky Ro = .ok ⟨L'⁻¹, L'⟩ := by
    simp only [compute, computeCholesky, hL', npInv_of_unit (CholeskySens.isUnit_det_of_diag hLc'.lower hLc'.diag)]
  refine ⟨_, _, ht, ht', ?_, ?_, embed_orth, ?_, ?_⟩
  · exact nonsing_inv_mul _ (CholeskySens.isUnit_det_of_diag hLc.lower hLc.diag)
  · exact nonsing_inv_mul _ (CholeskySens.isUnit_det_of_diag hLc'.lower hLc'.diag)
  · change L' * embed ι = embed ι * L
    rw [mul_embed]
    ext j i
    have e : (embed ι * L) j i = (embed ι *ᵥ (fun l => L l i)) j := rfl
    rw [e, embed_mulVec, submatrix_apply]
    by_cases hj : ∃ l, ι l = j
    · obtain ⟨l, rfl⟩ := hj
      rw [extend_apply, hsub]; rfl
    · push Not at hj
      rw [extend_extra _ _ hj]
      exact (hx i j hj).2
  · change (embed ι)ᵀ * L' = L * (embed ι)ᵀ
    rw [embed_transpose_mul]
    ext i j
    have e : (L * (embed ι)ᵀ) i j = (embed ι *ᵥ (fun l => L i l)) j := by
      simp only [mul_apply, mulVec, dotProduct, transpose_apply]
      exact Finset.sum_congr rfl fun l _ => mul_comm _ _
    rw [e, embed_mulVec, submatrix_apply]
    by_cases hj : ∃ l, ι l = j
    · obtain ⟨l, rfl⟩ := hj
      rw [extend_apply, hsub]; rfl
    · push Not at hj
      rw [extend_extra _ _ hj]
      exact (hx i j hj).1

/-- **C92 (direction cosines).**  With the default transformation and the common variables added in the same order, the reported direction
cosines, `u` and gradient of the common variables are the same too, and those of the extra variables are exactly 0. -/
theorem C92_cholesky {s s' : Ev Marginal} (h : EvExtra ι s s') (hn : 0 < n) (hmono : StrictMono ι) (c : Setup) (hla : LinAlgOK c.la)
    (hty : c.ty = .cholesky) {f : (String → Option ℝ) → ℝ} (hf : ByName c.expr f) (hig : IgnoresNames f (ExtraName ι s'.model))
    (hrest : ExtraAtRest ι s'.model) (hpd : ∀ Ro, Correlation.compute c.fmin c.default s'.model = .ok ⟨k, k, Ro⟩ → Ro.PosDef)
    (hbs : 1 ≤ c.lsopt.blockSize) (hd : c.lsopt.diffMode ≠ "ddm") (opt : Form.Options) :
    RelOpt (FormExtra ι fun _ => ResultExtraZero ι) (formRun c n opt s) (formRun c k opt s') := by
  obtain ⟨Ro, hc, hR, h', g1, g2⟩ := initRun_extra h c
  rw [hty] at g1 g2
  obtain ⟨t, t', e1, e2, hQ⟩ := embedded_cholesky hla (hpd Ro hR) hmono hc
  rw [e1] at g1
  rw [e2] at g2
  have hr := formRun_embedded h' hn c hf hig hrest hbs hd opt g1 g2 hQ
  rcases e1 : formRun c n opt s with _ | p <;> rcases e2 : formRun c k opt s' with _ | q <;> rw [e1, e2] at hr
  · exact trivial
  · exact hr.elim
  · exact hr.elim
  · refine ⟨hr.1, ?_⟩
    rcases hr.2 with ⟨r, r', x1, x2, hx⟩ | hx
    · refine Or.inl ⟨r, r', x1, x2, hx.i, hx.G, hx.beta, hx.Pf, hx.x, ?_, ?_, ?_, ?_, ?_⟩
      · intro i; rw [hx.u, embed_mulVec, extend_apply]
      · intro i; rw [hx.alpha, embed_mulVec, extend_apply]
      · intro i; rw [hx.gradient, embed_mulVec, extend_apply]
      · intro j hj; rw [hx.u, embed_mulVec, extend_extra _ _ hj]; rfl
      · intro j hj; rw [hx.alpha, embed_mulVec, extend_extra _ _ hj]; rfl
    · exact Or.inr hx

end Pystra.Props
