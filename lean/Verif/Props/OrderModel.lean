import Verif.Props.OrderForm
import Verif.Props.LimitState
import Verif.Props.Correlation
import Verif.Props.FormLinear
import Verif.Model.Session
import Verif.Spec.Units

/-! C91: the order of the variables: limit-state evaluation, modified correlation matrix, and the whole run of FORM. -/

namespace Pystra.Props
open Matrix Spec Transformation Form LimitState StochModel Session

section
variable {K V W : Type} [DecidableEq K]

theorem Dict.get?_map_snd (d : Dict K V) (f : V → W) (k : K) :
    Dict.get? (d.map (fun e => (e.1, f e.2)) : Dict K W) k = (Dict.get? d k).map f := by
  induction d with
  | nil => rfl
  | cons p t ih =>
    obtain ⟨a, b⟩ := p
    by_cases h : a = k
    · simp [Dict.get?, h]
    · simpa [Dict.get?, h] using ih

theorem Dict.get?_iff (d : Dict K V) (hd : d.keys.Nodup) (k : K) (v : V) : d.get? k = some v ↔ (k, v) ∈ d :=
  ⟨Dict.mem_of_get? d k v, Dict.get?_of_mem d hd k v⟩

theorem Dict.get?_congr {d e : Dict K V} (hd : d.keys.Nodup) (he : e.keys.Nodup) (h : ∀ p, p ∈ d ↔ p ∈ e) : d.get? = e.get? := by
  funext k
  apply Option.ext
  intro v
  rw [Dict.get?_iff d hd, Dict.get?_iff e he, h]
end

theorem pointwise_of_byName {expr : Kwargs → GRet} {f : (String → Option ℝ) → ℝ} (h : ByName expr f) :
    Pointwise expr (fun d => f d.get?) := by
  intro kw nc h1 h2
  rw [h kw nc h1 h2]
  refine congrArg (fun l => GRet.val (.arr l)) (List.map_congr_left fun c _ => congrArg f ?_)
  funext k
  unfold column
  rw [Dict.get?_map_snd (f := fun r : List ℝ => r.getD c 0)]

variable {n : ℕ} {π : Equiv.Perm (Fin n)} {D : Type}

/-- Evaluations of a pointwise function. -/
theorem pointwise_values {expr : Kwargs → GRet} {g : Dict String ℝ → ℝ} (hp : Pointwise expr g) (opt : LSOptions)
    (hbs : 1 ≤ opt.blockSize) (hmp : opt.multiProc ≠ 0) (stdv : Fin n → ℝ) (ev : Ev D) (hm : Reachable ev.model)
    (hn : ev.model.nMarg ≤ n) (hne : ev.model.getNames ≠ []) (xs : List (Fin n → ℝ)) :
    ∃ tr, (lsEvaluator expr opt stdv).values ev xs = (ev.advance xs.length tr, .ok (xs.map fun p => g (pointArgs ev.model p))) ∧
      pointsOf tr = xs.map (pointArgs ev.model) := by
  have w := wf_of_reachable hm
  obtain ⟨tr, h1, h2, -⟩ := blockLoop_spec hp broadcastTo_len xs opt.blockSize (7 + n + xs.length) opt.blockSize 0 ev w hn hne
    (.inl hbs) le_rfl (Nat.zero_le _) (by omega)
  simp only [List.take_zero, List.map_nil] at h1
  refine ⟨tr, ?_, by simpa using h2⟩
  simp only [lsEvaluator, evaluateLsf, if_neg hmp, evaluateNogradient, h1, if_true]
  rfl

theorem pointwise_ffd {expr : Kwargs → GRet} {g : Dict String ℝ → ℝ} (hp : Pointwise expr g) (opt : LSOptions)
    (hbs : 1 ≤ opt.blockSize) (hmp : opt.multiProc ≠ 0) (hd1 : opt.diffMode ≠ "no") (hd2 : opt.diffMode ≠ "ddm")
    (stdv : Fin n → ℝ) (ev : Ev D) (hm : Reachable ev.model)
    (hn : ev.model.nMarg ≤ n) (hne : ev.model.getNames ≠ []) (x : Fin n → ℝ) :
    ∃ tr, (lsEvaluator expr opt stdv).withGrad ev x = (ev.advance (1 + n) tr, .ok (g (pointArgs ev.model x),
        (fun j => (g (pointArgs ev.model (Function.update x j (x j + stdv j / opt.ffdpara))) - g (pointArgs ev.model x)) /
          (stdv j / opt.ffdpara)), fun j => x j + stdv j / opt.ffdpara)) ∧
      pointsOf tr = pointArgs ev.model x :: List.ofFn (fun j => pointArgs ev.model (Function.update x j (x j + stdv j / opt.ffdpara))) := by
  have w := wf_of_reachable hm
  obtain ⟨t1, t2⟩ := ffd_table (fun j => stdv j / opt.ffdpara) x
  obtain ⟨tr, h1, h2, -⟩ := blockLoop_spec hp squeezeTo_len
    (ffdPerturb (fun j => stdv j / opt.ffdpara) (List.finRange n) (x, List.replicate (1 + n) x)).2 opt.blockSize (7 + n) opt.blockSize 0 ev
    w hn hne (.inl hbs) le_rfl (Nat.zero_le _) (by rw [t2]; simp <;> omega)
  simp only [List.take_zero, List.map_nil] at h1
  refine ⟨tr, ?_, ?_⟩
  · simp only [lsEvaluator, evaluateLsf, if_neg hmp, if_neg hd1, if_neg hd2, evaluateFfd, h1, t1]
    simp only [t2]
    simp
    rfl
  · rw [h2, t2]
    simp [List.map_ofFn, Function.comp_def]

theorem pointwise_no {expr : Kwargs → GRet} {g : Dict String ℝ → ℝ} (hp : Pointwise expr g) (opt : LSOptions)
    (hbs : 1 ≤ opt.blockSize) (hmp : opt.multiProc ≠ 0) (hd1 : opt.diffMode = "no")
    (stdv : Fin n → ℝ) (ev : Ev D) (hm : Reachable ev.model)
    (hn : ev.model.nMarg ≤ n) (hne : ev.model.getNames ≠ []) (x : Fin n → ℝ) :
    ∃ tr, (lsEvaluator expr opt stdv).withGrad ev x = (ev.advance 1 tr, .ok (g (pointArgs ev.model x), (fun _ => 0), x)) ∧
      pointsOf tr = [pointArgs ev.model x] := by
  have w := wf_of_reachable hm
  obtain ⟨tr, h1, h2, -⟩ := blockLoop_spec hp broadcastTo_len [x] opt.blockSize (7 + n) opt.blockSize 0 ev w hn hne
    (.inl hbs) le_rfl (Nat.zero_le _) (by simp; omega)
  simp only [List.take_zero, List.map_nil] at h1
  refine ⟨tr, ?_, by simpa using h2⟩
  simp only [lsEvaluator, evaluateLsf, if_neg hmp, hd1, evaluateNogradient, h1, if_true]
  simp
  rfl

theorem keys_of_reachable {m : StochModel D ℝ} (h : Reachable m) : m.vars.keys = m.marg.map DistObj.name := by
  obtain ⟨h, rfl⟩ := h
  have hr := refines_reachable (V := ℝ) h
  rw [hr.vars, hr.marg]
  simp [Dict.keys, Function.comp_def]

theorem names_ne_nil {m : StochModel D ℝ} (h : Reachable m) (hm : m.marg ≠ []) : m.getNames ≠ [] := by
  have w := wf_of_reachable h
  obtain ⟨d, l, e⟩ := List.exists_cons_of_ne_nil hm
  intro hn
  have : d.name ∈ m.names := (w.names _).2 (.inl (by rw [keys_of_reachable h, e]; simp))
  rw [show m.names = [] from hn] at this
  cases this

/-- Every name has the same value at a point and at the reordered point. -/
theorem pointArgs_reordered {m m' : StochModel Marginal ℝ} (h : Reachable m) (h' : Reachable m') (ho : Reordered π m m') (x : Fin n → ℝ) :
    (pointArgs m' (x ∘ π)).get? = (pointArgs m x).get? := by
  have w := wf_of_reachable h
  have w' := wf_of_reachable h'
  obtain ⟨v, e1, e2⟩ := ho.marg
  have hk := keys_of_reachable h
  have hk' := keys_of_reachable h'
  rw [e1, List.map_ofFn] at hk
  rw [e2, List.map_ofFn] at hk'
  have hz : ∀ (a : Fin n → String) (b : Fin n → ℝ), (List.ofFn a).zip (List.ofFn b) = List.ofFn (fun i => (a i, b i)) := by
    intro a b
    apply List.ext_getElem
    · simp
    · intro i _ _; simp
  have nod : ∀ {m : StochModel Marginal ℝ} (w : WF m) (a : Fin n → String) (y : Fin n → ℝ), m.vars.keys = List.ofFn a →
      (Dict.keys (pointArgs m y)).Nodup := by
    intro m w a y ha
    have : Dict.keys (pointArgs m y) = m.vars.keys ++ m.consts.keys := by
      simp only [Dict.keys, pointArgs, getVariables, getConstants, List.map_append]
      rw [List.map_fst_zip]
      have := congrArg List.length ha
      simp only [Dict.keys, List.length_ofFn, List.length_map] at this ⊢
      omega
    rw [this]
    exact List.nodup_append.2 ⟨w.vnd, w.cnd, fun a ha b hb e => w.dis b hb (e ▸ ha)⟩
  apply Dict.get?_congr (nod w' _ _ hk') (nod w _ _ hk)
  rintro ⟨k, r⟩
  unfold pointArgs getVariables getConstants
  rw [hk, hk', hz, hz, List.mem_append, List.mem_append, List.mem_ofFn, List.mem_ofFn]
  refine or_congr ⟨?_, ?_⟩ ?_
  · rintro ⟨i, e⟩; exact ⟨π i, e⟩
  · rintro ⟨i, e⟩
    refine ⟨π.symm i, ?_⟩
    simpa using e
  · rw [← Dict.get?_iff _ w'.cnd, ← Dict.get?_iff _ w.cnd, ho.consts]

theorem _root_.Pystra.Spec.Reordered.length {m m' : StochModel Marginal ℝ} (ho : Reordered π m m') : m.marg.length = n ∧ m'.marg.length = n := by
  obtain ⟨v, e1, e2⟩ := ho.marg
  rw [e1, e2]; simp

theorem _root_.Pystra.Spec.EvReordered.advance {s s' : Ev Marginal} (h : EvReordered π s s') (j : ℕ) {T T' : List Kwargs}
    (hT : ((pointsOf T').map Dict.get?).Perm ((pointsOf T).map Dict.get?)) : EvReordered π (s.advance j T) (s'.advance j T') := by
  refine ⟨reachable_calls h.reach j, reachable_calls h.reach' j, ⟨h.model.marg, h.model.correlation, h.model.consts, ?_⟩, ?_⟩
  · simp [Ev.advance, addCallFunction, h.model.callFunction]
  · simp only [Ev.advance, pointsOf_append, List.map_append]
    exact h.points.append hT

theorem update_reordered (x : Fin n → ℝ) (j : Fin n) (a : ℝ) : Function.update (x ∘ π) j a = Function.update x (π j) a ∘ π := by
  funext i
  by_cases h : i = j
  · subst h; simp
  · simp [h, Function.update_of_ne]

theorem ls_reordered (hn : 0 < n) {expr : Kwargs → GRet} {f : (String → Option ℝ) → ℝ} (hf : ByName expr f) (opt : LSOptions)
    (hbs : 1 ≤ opt.blockSize) (hd : opt.diffMode ≠ "ddm") (stdv : Fin n → ℝ) :
    Sim (EvReordered π) (lsEvaluator expr opt stdv) (pullOrder π (lsEvaluator expr opt (stdv ∘ π))) := by
  have hp := pointwise_of_byName hf
  have nn : ∀ {m : StochModel Marginal ℝ}, Reachable m → m.marg.length = n → m.getNames ≠ [] := fun h hl =>
    names_ne_nil h (by intro e; rw [e] at hl; simp at hl; omega)
  by_cases hmp : opt.multiProc = 0
  · constructor
    · intro s s' h x
      simpa [lsEvaluator, pullOrder, evaluateLsf, hmp, Except.map] using h
    · intro s s' h x
      simpa [lsEvaluator, pullOrder, evaluateLsf, hmp, Except.map] using h
  constructor
  · intro s s' h x
    have e : ∀ y, f (pointArgs s'.model (y ∘ π)).get? = f (pointArgs s.model y).get? := fun y => by
      rw [pointArgs_reordered h.reach h.reach' h.model]
    by_cases hd1 : opt.diffMode = "no"
    · obtain ⟨T, g1, p1⟩ := pointwise_no hp opt hbs hmp hd1 stdv s h.reach h.model.length.1.le (nn h.reach h.model.length.1) x
      obtain ⟨T', g2, p2⟩ := pointwise_no hp opt hbs hmp hd1 (stdv ∘ π) s' h.reach' h.model.length.2.le
        (nn h.reach' h.model.length.2) (x ∘ π)
      simp only [pullOrder, g1, g2, Except.map]
      refine ⟨h.advance 1 ?_, ?_⟩
      · rw [p1, p2]
        simp [pointArgs_reordered h.reach h.reach' h.model]
      · rw [e]
        congr 3
        funext i; simp
    · obtain ⟨T, g1, p1⟩ := pointwise_ffd hp opt hbs hmp hd1 hd stdv s h.reach h.model.length.1.le (nn h.reach h.model.length.1) x
      obtain ⟨T', g2, p2⟩ := pointwise_ffd hp opt hbs hmp hd1 hd (stdv ∘ π) s' h.reach' h.model.length.2.le
        (nn h.reach' h.model.length.2) (x ∘ π)
      simp only [pullOrder, g1, g2, Except.map]
      refine ⟨h.advance (1 + n) ?_, ?_⟩
      · rw [p1, p2]
        simp only [List.map_cons, List.map_ofFn, pointArgs_reordered h.reach h.reach' h.model, update_reordered]
        refine List.Perm.cons _ ?_
        have e1 : (Dict.get? ∘ fun j => pointArgs s'.model (Function.update x (π j) ((x ∘ π) j + (stdv ∘ π) j / opt.ffdpara) ∘ π)) =
            (fun j => (pointArgs s.model (Function.update x j (x j + stdv j / opt.ffdpara))).get?) ∘ π := by
          funext j
          simp only [Function.comp_apply]
          exact pointArgs_reordered h.reach h.reach' h.model _
        rw [e1]
        exact (Equiv.Perm.ofFn_comp_perm π (fun j => (pointArgs s.model (Function.update x j (x j + stdv j / opt.ffdpara))).get?))
      · simp only [e, update_reordered]
        congr 3
        · funext i; simp
        · funext i; simp
  · intro s s' h xs
    obtain ⟨T, g1, p1⟩ := pointwise_values hp opt hbs hmp stdv s h.reach h.model.length.1.le (nn h.reach h.model.length.1) xs
    obtain ⟨T', g2, p2⟩ := pointwise_values hp opt hbs hmp (stdv ∘ π) s' h.reach' h.model.length.2.le
      (nn h.reach' h.model.length.2) (xs.map (· ∘ π))
    simp only [pullOrder, g1, g2]
    refine ⟨?_, ?_⟩
    · rw [List.length_map]
      refine h.advance _ ?_
      rw [p1, p2]
      simp [Function.comp_def, pointArgs_reordered h.reach h.reach' h.model]
      have : ∀ y : Fin n → ℝ, (pointArgs s'.model (fun i => y (π i))).get? = (pointArgs s.model y).get? := fun y =>
        pointArgs_reordered h.reach h.reach' h.model y
      simp [this]
    · simp only [List.map_map]
      congr 1
      refine List.map_congr_left fun y _ => ?_
      simp only [Function.comp_def]
      rw [show (fun i => y (π i)) = y ∘ π from rfl, pointArgs_reordered h.reach h.reach' h.model]

theorem phi2Inline_comm (a b r : ℝ) : Integration.phi2Inline a b r = Integration.phi2Inline b a r := by
  unfold Integration.phi2Inline
  ring_nf

/-- The coefficient of a pair does not depend on which variable comes first. -/
theorem expectedRho0_comm (fmin : Correlation.Fmin) (rho : ℝ) (mi mj : Marginal) :
    expectedRho0 fmin rho mi mj = expectedRho0 fmin rho mj mi := by
  unfold expectedRho0
  have e : ∀ r, Integration.rhoIntegral r mi mj (gridOf rho mi mj) = Integration.rhoIntegral r mj mi (gridOf rho mj mi) := by
    intro r
    have h1 := gridOf_eq rho mi mj
    have h2 := gridOf_eq rho mj mi
    unfold Integration.ziAndXi at h1 h2
    obtain ⟨q, hq⟩ := quadratureRule_ok (selectNIP_ne_zero rho)
    rw [hq] at h1 h2
    simp only [Except.ok.injEq] at h1 h2
    rw [← h1, ← h2]
    unfold Integration.rhoIntegral Integration.gridSum
    rw [Finset.sum_comm]
    refine Finset.sum_congr rfl fun a _ => Finset.sum_congr rfl fun b _ => ?_
    dsimp only
    rw [phi2Inline_comm]
    ring
  simp only [e]

/-- The modified correlation matrices of the two models. -/
theorem compute_reordered {m m' : StochModel Marginal ℝ} (ho : Reordered π m m') (fmin : Correlation.Fmin) (d : Marginal) :
    ∃ Ro : Matrix (Fin n) (Fin n) ℝ, Ro.IsSymm ∧ Correlation.compute fmin d m = .ok ⟨n, n, Ro⟩ ∧
      Correlation.compute fmin d m' = .ok ⟨n, n, Ro.submatrix π π⟩ := by
  obtain ⟨v, e1, e2⟩ := ho.marg
  obtain ⟨R, hs, c1, c2⟩ := ho.correlation
  obtain ⟨A, a1, a2, a3, a4⟩ := C25_entries fmin (fun i => (m.marg.map DistObj.body).getD i d) R
  obtain ⟨B, b1, b2, b3, b4⟩ := C25_entries fmin (fun i => (m'.marg.map DistObj.body).getD i d) (R.submatrix π π)
  have f1 : ∀ i : Fin n, (m.marg.map DistObj.body).getD i.val d = (v i).body := by
    intro i; rw [e1]; simp [List.getD_eq_getElem?_getD]
  have f2 : ∀ i : Fin n, (m'.marg.map DistObj.body).getD i.val d = (v (π i)).body := by
    intro i; rw [e2]; simp [List.getD_eq_getElem?_getD]
  simp only [f1] at a4
  simp only [f2] at b4
  have hA : ∀ i j, i ≠ j → A i j = expectedRho0 fmin (R i j) (v i).body (v j).body := by
    intro i j hij
    rcases lt_or_gt_of_ne hij with h | h
    · rw [a3, a4 j i h, expectedRho0_comm, hs.apply]
    · exact a4 i j h
  have hB : B = A.submatrix π π := by
    ext i j
    rw [submatrix_apply]
    rcases lt_trichotomy i j with h | h | h
    · rw [b3, b4 j i h, a3, hA _ _ (fun e => h.ne' (π.injective e))]; rfl
    · rw [h, b2, a2]
    · rw [b4 i j h, hA _ _ (fun e => h.ne' (π.injective e))]; rfl
  refine ⟨A, Matrix.IsSymm.ext fun i j => a3 j i, ?_, ?_⟩
  · unfold Correlation.compute getCorrelation
    rw [c1]
    simp only [dif_pos]
    rw [ho.length.1]
    have e : (fun a b => R a (Fin.cast (rfl : n = n).symm b)) = R := rfl
    rw [e, a1]
  · unfold Correlation.compute getCorrelation
    rw [c2]
    simp only [dif_pos]
    rw [ho.length.2]
    have e : (fun a b => (R.submatrix π π) a (Fin.cast (rfl : n = n).symm b)) = R.submatrix π π := rfl
    rw [e, b1, hB]

theorem reachable_setRo {m : StochModel D ℝ} (h : Reachable m) (A : NDArray2) : Reachable (m.setModifiedCorrelation A) := by
  obtain ⟨hist, rfl⟩ := h
  exact ⟨hist ++ [.setRo A], by rw [StochModel.run_append]; rfl⟩

theorem order_result (π : Equiv.Perm (Fin n)) (Q : Matrix (Fin n) (Fin n) ℝ) (r : Form.Result n) :
    ResultReordered π Q r { r with point := orderPoint π Q r.point, alpha := Q *ᵥ r.alpha } :=
  ⟨rfl, rfl, rfl, rfl, rfl, rfl, rfl, rfl, rfl, rfl, rfl⟩

/-- `init_run` on the two models. -/
theorem initRun_reordered {s s' : Ev Marginal} (h : EvReordered π s s') (c : Setup) (hla : LinAlgOK c.la) :
    ∃ a b, EvReordered π a b ∧
      ((initRun c n s = (a, .error .linAlgError) ∧ initRun c n s' = (b, .error .linAlgError)) ∨
       ∃ t t' Q, initRun c n s = (a, .ok t) ∧ initRun c n s' = (b, .ok t') ∧ Turned π Q t t') := by
  obtain ⟨Ro, hs, c1, c2⟩ := compute_reordered h.model c.fmin c.default
  have h' : EvReordered π { s with model := s.model.setModifiedCorrelation ⟨n, n, Ro⟩ }
      { s' with model := s'.model.setModifiedCorrelation ⟨n, n, Ro.submatrix π π⟩ } :=
    ⟨reachable_setRo h.reach _, reachable_setRo h.reach' _, ⟨h.model.marg, h.model.correlation, h.model.consts, h.model.callFunction⟩, h.points⟩
  have e1 : initRun c n s = ({ s with model := s.model.setModifiedCorrelation ⟨n, n, Ro⟩ }, compute c.la c.ty Ro) := by
    unfold initRun Correlation.setModified
    rw [c1]
    simp [setModifiedCorrelation]
  have e2 : initRun c n s' = ({ s' with model := s'.model.setModifiedCorrelation ⟨n, n, Ro.submatrix π π⟩ },
      compute c.la c.ty (Ro.submatrix π π)) := by
    unfold initRun Correlation.setModified
    rw [c2]
    simp [setModifiedCorrelation]
    rfl
  refine ⟨_, _, h', ?_⟩
  rw [e1, e2]
  rcases compute_turned hla c.ty hs π with ⟨g1, g2⟩ | ⟨t, t', Q, g1, g2, hQ⟩
  · exact Or.inl ⟨by rw [g1], by rw [g2]⟩
  · exact Or.inr ⟨t, t', Q, by rw [g1], by rw [g2], hQ⟩

theorem formRun_turned {s s' a b : Ev Marginal} (h' : EvReordered π a b) (hn : 0 < n) (c : Setup)
    {f : (String → Option ℝ) → ℝ} (hf : ByName c.expr f) (hbs : 1 ≤ c.lsopt.blockSize) (hd : c.lsopt.diffMode ≠ "ddm")
    (opt : Form.Options) {t t' : Mats n} {Q : Matrix (Fin n) (Fin n) ℝ} (g1 : initRun c n s = (a, .ok t))
    (g2 : initRun c n s' = (b, .ok t')) (hQ : Turned π Q t t') :
    RelOpt (FormReordered π Q) (formRun c n opt s) (formRun c n opt s') := by
  unfold formRun withInit
  rw [g1, g2]
  dsimp only
  have hm : ∀ i, margN n c.default b.model i = margN n c.default a.model (π i) := by
    obtain ⟨v, m1, m2⟩ := h'.model.marg
    intro i
    simp [margN, m1, m2, List.getD_eq_getElem?_getD]
  have hst : (fun i => (margN n c.default b.model i).stdv) = (fun i => (margN n c.default a.model i).stdv) ∘ π := by
    funext i; simp [hm]
  have hsim := ls_reordered (π := π) hn hf c.lsopt hbs hd (fun i => (margN n c.default a.model i).stdv)
  have hr := Form.runFrom_sim hsim t (margN n c.default a.model) opt c.fuel h'
  unfold evaluator
  rw [hst, order_run hQ hm]
  rcases hr with ⟨r1, r2⟩ | ⟨x, y, r1, r2, hxy⟩
  · rw [r1, r2]; exact trivial
  · rw [r1, r2]
    cases hxy with
    | done r hR => exact ⟨hR, Or.inl ⟨r, _, rfl, rfl, order_result π Q r⟩⟩
    | raised e hR => exact ⟨hR, Or.inr ⟨_, rfl, rfl, Or.inr ⟨_, rfl⟩⟩⟩
    | nan hR => exact ⟨hR, Or.inr ⟨_, rfl, rfl, Or.inl rfl⟩⟩
    | next Go u hR => exact trivial

/-- **C91 (FORM).**  Two models with the same random variables in different orders and the same correlations; the user's function sees its
arguments by name.  FORM raises the same exception on both, or is still running on both, or ends with the same `β`, `Pf`, `G` and number of
iterations, at the same design point (every variable has the same value), with the vectors of the standard normal space turned by one
orthogonal matrix; and the function was evaluated at the same points (`EvReordered`: up to order), the same number of times.  Both
transformation types; nothing is assumed about the correlation matrix but its symmetry. -/
theorem C91_form {s s' : Ev Marginal} (h : EvReordered π s s') (hn : 0 < n) (c : Setup) (hla : LinAlgOK c.la)
    {f : (String → Option ℝ) → ℝ} (hf : ByName c.expr f) (hbs : 1 ≤ c.lsopt.blockSize) (hd : c.lsopt.diffMode ≠ "ddm")
    (opt : Form.Options) : ∃ Q : Matrix (Fin n) (Fin n) ℝ, Qᵀ * Q = 1 ∧
      RelOpt (FormReordered π Q) (formRun c n opt s) (formRun c n opt s') := by
  obtain ⟨a, b, h', hi⟩ := initRun_reordered h c hla
  rcases hi with ⟨g1, g2⟩ | ⟨t, t', Q, g1, g2, hQ⟩
  · refine ⟨1, by simp, ?_⟩
    unfold formRun withInit
    rw [g1, g2]
    exact ⟨h', Or.inr ⟨_, rfl, rfl, Or.inr ⟨_, rfl⟩⟩⟩
  · exact ⟨Q, hQ.orth, formRun_turned h' hn c hf hbs hd opt g1 g2 hQ⟩

end Pystra.Props
