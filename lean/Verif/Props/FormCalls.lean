import Verif.Props.Form
import Verif.Props.Correlation

/-! C34, C35: evaluation count of FORM, labelling of alpha. -/

namespace Pystra.Props
open Matrix Spec Transformation Form StochModel

variable {n : ℕ} {D : Type}

theorem withGrad_calls {expr : Kwargs → GRet} {lo : LSOptions} {stdv x : Fin n → ℝ} {ev ev' : Ev D}
    {p : ℝ × (Fin n → ℝ) × (Fin n → ℝ)} (h : (lsEvaluator expr lo stdv).withGrad ev x = (ev', .ok p)) :
    ev'.model = ev.model.addCallFunction (if lo.diffMode ≠ "no" ∧ lo.diffMode ≠ "ddm" then 1 + n else 1) := by
  simp only [lsEvaluator] at h
  split at h
  · cases h
  · cases h
  · next ev1 out he =>
    injection h with h1 h2
    subst h1
    have := (C04_counts _ _ _ _ _ _ _ _ _ he).2 out rfl
    simpa using this

theorem values_calls {expr : Kwargs → GRet} {lo : LSOptions} {stdv : Fin n → ℝ} {xs : List (Fin n → ℝ)} {ev ev' : Ev D}
    {Gs : List ℝ} (h : (lsEvaluator expr lo stdv).values ev xs = (ev', .ok Gs)) :
    ev'.model = ev.model.addCallFunction xs.length := by
  simp only [lsEvaluator] at h
  split at h
  · cases h
  · cases h
  · next ev1 out he =>
    injection h with h1 h2
    subst h1
    have := (C04_counts _ _ _ _ _ _ _ _ _ he).2 out rfl
    simpa using this

theorem linearise_calls {t : Mats n} {marg : Fin n → Marginal} {expr : Kwargs → GRet} {lo : LSOptions}
    {stdv u : Fin n → ℝ} {ev ev' : Ev D} {p : Point n}
    (h : linearise t marg (lsEvaluator expr lo stdv) u ev = (ev', .ok p)) :
    ev'.model.callFunction = ev.model.callFunction + (if lo.diffMode ≠ "no" ∧ lo.diffMode ≠ "ddm" then 1 + n else 1) := by
  unfold linearise at h
  simp only at h
  split at h
  · cases h
  · split at h
    · cases h
    · next hev =>
      injection h with h1 h2
      subst h1
      rw [withGrad_calls hev]; rfl

theorem step_calls {t : Mats n} {marg : Fin n → Marginal} {expr : Kwargs → GRet} {lo : LSOptions} {opt : Form.Options}
    {G st : ℝ} {g stdv u d : Fin n → ℝ} {ev ev' : Ev D}
    (h : getStepSize t marg (lsEvaluator expr lo stdv) opt G g u d ev = (ev', .ok st)) :
    ev'.model.callFunction = ev.model.callFunction + (if opt.stepSize = 0 then 6 else 0) := by
  by_cases h0 : opt.stepSize = 0
  · rw [if_pos h0]
    unfold getStepSize computeStepSize at h
    rw [if_pos h0] at h
    simp only at h
    by_cases h1 : opt.multiProc = 1
    · rw [if_pos h1] at h
      split at h
      · cases h
      · next hv =>
        injection h with h1 h2
        subst h1
        rw [values_calls hv]; simp [addCallFunction]
    · rw [if_neg h1] at h; cases h
  · unfold getStepSize at h
    rw [if_neg h0] at h
    injection h with h1 h2
    subst h1
    rw [if_neg h0]; rfl

theorem reaches_calls {t : Mats n} {marg : Fin n → Marginal} {expr : Kwargs → GRet} {lo : LSOptions} {opt : Form.Options}
    {stdv u0 : Fin n → ℝ} {ev0 : Ev D} {i : ℕ} {Go : ℝ} {u : Fin n → ℝ} {ev : Ev D}
    (h : Reaches t marg (lsEvaluator expr lo stdv) opt u0 ev0 i Go u ev) :
    ev.model.callFunction = ev0.model.callFunction + (i - 1) *
      ((if lo.diffMode ≠ "no" ∧ lo.diffMode ≠ "ddm" then 1 + n else 1) + (if opt.stepSize = 0 then 6 else 0)) := by
  induction h with
  | start => simp
  | @next i Go u s Go' u' s' hr hit ih =>
    obtain ⟨s1, p, step, hl, -, -, -, -, hs, -⟩ := iteration_next hit
    have := reaches_one_le hr
    rw [step_calls hs, linearise_calls hl, ih]
    obtain ⟨k, rfl⟩ : ∃ k, i = k + 1 := ⟨i - 1, by omega⟩
    simp only [Nat.add_sub_cancel, Nat.add_mul, Nat.one_mul]
    omega

/-- C34, the loop: after `i` iterations the counter has grown by `i·(1+n)` (finite differences; by `i` with `ddm` or
`no`), plus `6·(i-1)` when the step is found by the Armijo rule. -/
theorem C34_calls {t : Mats n} {marg : Fin n → Marginal} {expr : Kwargs → GRet} {lo : LSOptions} {opt : Form.Options}
    {stdv : Fin n → ℝ} {ev ev' : Ev D} {fuel : ℕ} {r : Result n}
    (h : runFrom t marg (lsEvaluator expr lo stdv) opt fuel ev = some (.done r ev')) :
    ev'.model.callFunction = ev.model.callFunction +
      r.i * (if lo.diffMode ≠ "no" ∧ lo.diffMode ≠ "ddm" then 1 + n else 1) +
      (if opt.stepSize = 0 then 6 * (r.i - 1) else 0) := by
  obtain ⟨i, Go, u, s2, hr, hit, -⟩ := loop_reaches fuel .start h
  obtain ⟨hl, hi, -⟩ := iteration_done hit
  subst hi
  have h1 := reaches_one_le hr
  rw [linearise_calls hl, reaches_calls hr]
  obtain ⟨k, hk⟩ : ∃ k, r.i = k + 1 := ⟨r.i - 1, by omega⟩
  rw [hk]
  simp only [Nat.add_sub_cancel, Nat.add_mul, Nat.mul_add, Nat.one_mul]
  by_cases h0 : opt.stepSize = 0
  · rw [if_pos h0, if_pos h0]; omega
  · rw [if_neg h0, if_neg h0]; omega

/-- C34: the whole `Form.run()`; `n` is the model's number of random variables. -/
theorem C34_run {fmin : Correlation.Fmin} {default : Marginal} {la : LinAlg} {ty : TransformType} {expr : Kwargs → GRet}
    {lo : LSOptions} {opt : Form.Options} {fuel : ℕ} {ev ev' : Ev Marginal} {r : Result ev.model.marg.length}
    (h : Form.run fmin default la ty expr lo opt fuel ev = some (.done r ev')) :
    ev'.model.callFunction = ev.model.callFunction +
      r.i * (if lo.diffMode ≠ "no" ∧ lo.diffMode ≠ "ddm" then 1 + ev.model.marg.length else 1) +
      (if opt.stepSize = 0 then 6 * (r.i - 1) else 0) := by
  unfold Form.run at h
  split at h
  · cases h
  · next m hm =>
    have hc : m.callFunction = ev.model.callFunction := by
      unfold Correlation.setModified at hm
      split at hm
      · cases hm
      · injection hm with hm _; rw [← hm]; rfl
    split at h
    · cases h
    · split at h
      · split at h
        · cases h
        · rw [C34_calls h]; simp only [hc]
      · cases h

/-! C35 -/

theorem map_snd_zip_take {A B : Type} (l : List A) (l' : List B) : (l.zip l').map Prod.snd = l'.take l.length := by
  induction l generalizing l' with
  | nil => simp
  | cons a t ih => cases l' with
    | nil => simp
    | cons b t' => simp [ih]

theorem alphaDict_eq (names : List String) (hn : names.Nodup) (al : List ℝ) :
    alphaDict names al = (al.zip names).map (fun p => (p.2, p.1)) := by
  unfold alphaDict
  have key : ∀ (l : List (ℝ × String)) (d : Dict String ℝ), (l.map Prod.snd).Nodup →
      (∀ k ∈ l.map Prod.snd, k ∉ d.keys) →
      l.foldl (fun d p => Dict.set d p.2 p.1) d = d ++ l.map (fun p => (p.2, p.1)) := by
    intro l
    induction l with
    | nil => intro d _ _; simp
    | cons p t ih =>
      intro d hnd hdis
      simp only [List.map_cons, List.nodup_cons] at hnd
      rw [List.foldl_cons, Dict.set_of_not_mem d p.2 p.1 (hdis _ (by simp)), ih _ hnd.2]
      · simp
      · intro k hk
        simp only [Dict.keys, List.map_append, List.map_cons, List.map_nil, List.mem_append, not_or,
          List.mem_singleton]
        refine ⟨hdis k (by simp at hk ⊢; tauto), ?_⟩
        rintro rfl
        exact hnd.1 hk
  have hsub : List.Sublist ((al.zip names).map Prod.snd) names := by
    rw [map_snd_zip_take]
    exact List.take_sublist _ _
  rw [key _ [] (hsub.nodup hn) (by simp [Dict.keys])]
  simp

/-- C35: what the dictionary contains: the first `n` names of the model (variables *and* constants, in order of
addition), the `k`-th carrying the `k`-th component of `alpha`. -/
theorem C35_labels (h : List (Op D ℝ)) (al : Fin n → ℝ) :
    let m : StochModel D ℝ := StochModel.init.run h
    let d := alphaDict m.getNames (List.ofFn al)
    d.keys = m.getNames.take n ∧
    ∀ (k : Fin n) name, m.getNames[k.val]? = some name → d.get? name = some (al k) := by
  intro m d
  have hr := refines_reachable h
  have hd : d = ((List.ofFn al).zip m.getNames).map (fun p => (p.2, p.1)) := alphaDict_eq _ hr.nodup _
  have hk : d.keys = m.getNames.take n := by
    rw [hd, Dict.keys, List.map_map]
    have : (Prod.fst ∘ fun p : ℝ × String => (p.2, p.1)) = Prod.snd := rfl
    rw [this, map_snd_zip_take, List.length_ofFn]
  refine ⟨hk, fun k name hn => ?_⟩
  apply Dict.get?_of_mem
  · rw [hk]; exact (List.take_sublist _ _).nodup hr.nodup
  · rw [hd, List.mem_map]
    refine ⟨(al k, name), ?_, rfl⟩
    rw [List.mem_iff_getElem?]
    refine ⟨k.val, ?_⟩
    rw [List.getElem?_zip_eq_some]
    exact ⟨by simp, hn⟩

theorem registered_names (h : List (Op D ℝ)) : ∀ o ∈ registered h, (objName o).isSome := by
  have key : ∀ (l : List (PyObj D ℝ)) (seen : List String), ∀ o ∈ keepFirst seen l, (objName o).isSome := by
    intro l
    induction l with
    | nil => intro seen o ho; simp [keepFirst] at ho
    | cons a t ih =>
      intro seen o ho
      unfold keepFirst at ho
      split at ho
      · exact ih _ o ho
      · next nm hnm =>
        split at ho
        · exact ih _ o ho
        · rw [List.mem_cons] at ho
          rcases ho with rfl | ho
          · rw [hnm]; rfl
          · exact ih _ o ho
  exact key _ _

theorem no_dists {objs : List (PyObj D ℝ)} (ho : ∀ o ∈ objs, (objName o).isSome) (h : dists objs = []) :
    objs.filterMap objName = (constants objs).map Prod.fst := by
  induction objs with
  | nil => rfl
  | cons o t ih =>
    cases o with
    | distribution d => simp [dists] at h
    | constant c v =>
      simp only [dists] at h
      simp [objName, constants, ih (fun o ho' => ho o (by simp [ho'])) h]
    | other => simpa [objName] using ho .other (by simp)

/-- C35: if no constant was added before a random variable, the dictionary maps each variable's name to its own
component, and contains nothing else. -/
theorem C35_correct (h : List (Op D ℝ)) (hc : ∀ A B, registered h = A ++ B → constants A ≠ [] → dists B = []) :
    let m : StochModel D ℝ := StochModel.init.run h
    ∀ al : Fin m.nMarg → ℝ,
      (alphaDict m.getNames (List.ofFn al)).keys = (dists (registered h)).map DistObj.name ∧
      ∀ (i : Fin m.nMarg) d, m.getMarginalDistributions[i.val]? = some d →
        (alphaDict m.getNames (List.ofFn al)).get? d.name = some (al i) := by
  intro m al
  have hr := refines_reachable h
  obtain ⟨h1, h2⟩ := C35_labels h al
  have key : ∀ objs : List (PyObj D ℝ), (∀ o ∈ objs, (objName o).isSome) →
      (∀ A B, objs = A ++ B → constants A ≠ [] → dists B = []) →
      objs.filterMap objName = (dists objs).map DistObj.name ++ (constants objs).map Prod.fst := by
    intro objs
    induction objs with
    | nil => intros; rfl
    | cons o t ih =>
      intro ho hsp
      cases o with
      | distribution d =>
        have := ih (fun o ho' => ho o (by simp [ho'])) (fun A B hAB hA => hsp (.distribution d :: A) B (by simp [hAB])
          (by simpa [constants] using hA))
        simp [objName, dists, constants, this]
      | constant c v =>
        have hd := hsp [.constant c v] t rfl (by simp [constants])
        have := no_dists (fun o ho' => ho o (by simp [ho'])) hd
        simp [objName, dists, constants, this, hd]
      | other => simpa [objName] using ho .other (by simp)
  have hnames : m.getNames = (dists (registered h)).map DistObj.name ++ (constants (registered h)).map Prod.fst := by
    have := key _ (registered_names h) hc
    rw [← this]; exact hr.names
  have hmarg : m.getMarginalDistributions = dists (registered h) := hr.marg
  have hlen : m.nMarg = ((dists (registered h)).map DistObj.name).length := by
    rw [List.length_map, ← hmarg]; rfl
  constructor
  · rw [h1, hnames, hlen, List.take_left']
    rfl
  · intro i d hd
    apply h2
    have hi : i.val < ((dists (registered h)).map DistObj.name).length := hlen ▸ i.isLt
    change m.getNames[i.val]? = some d.name
    rw [hnames, List.getElem?_append_left hi, List.getElem?_map, ← hmarg, hd]
    rfl

/-- C35: if a constant was added before a random variable, the dictionary has no entry for the last random
variable. -/
theorem C35_shifted (h : List (Op D ℝ)) (A B : List (PyObj D ℝ)) (hAB : registered h = A ++ B) (hA : constants A ≠ [])
    (hB : dists B ≠ []) :
    let m : StochModel D ℝ := StochModel.init.run h
    ∀ al : Fin m.nMarg → ℝ, ∃ d, m.getMarginalDistributions.getLast? = some d ∧
      (alphaDict m.getNames (List.ofFn al)).get? d.name = none := by
  intro m al
  have hr := refines_reachable h
  have h1 : (alphaDict m.getNames (List.ofFn al)).keys = m.getNames.take m.nMarg := (C35_labels h al).1
  have hmarg : m.marg = dists (registered h) := hr.marg
  have hnames : m.names = (registered h).filterMap objName := hr.names
  have hlast : ∀ l : List (PyObj D ℝ), dists l ≠ [] → ∃ P d S, l = P ++ .distribution d :: S ∧ dists S = [] := by
    intro l
    induction l with
    | nil => intro h; exact absurd rfl h
    | cons o t ih =>
      intro hne
      by_cases ht : dists t = []
      · cases o with
        | distribution d => exact ⟨[], d, t, rfl, ht⟩
        | constant c v => exact absurd ht hne
        | other => exact absurd ht hne
      · obtain ⟨P, d, S, e, hS⟩ := ih ht
        exact ⟨o :: P, d, S, by rw [e]; rfl, hS⟩
  obtain ⟨P, d, S, e, hS⟩ := hlast B hB
  have hfull : registered h = (A ++ P) ++ .distribution d :: S := by rw [hAB, e]; simp
  have hlen : ∀ l : List (PyObj D ℝ), (∀ o ∈ l, (objName o).isSome) →
      (l.filterMap objName).length = (dists l).length + (constants l).length := by
    intro l
    induction l with
    | nil => intro _; rfl
    | cons o t ih =>
      intro ho
      have := ih (fun o ho' => ho o (by simp [ho']))
      cases o with
      | distribution d => simp [objName, dists, constants, this]; omega
      | constant c v => simp [objName, dists, constants, this]; omega
      | other => simpa [objName] using ho .other (by simp)
  have hAP := hlen (A ++ P) (fun o ho => registered_names h o (by rw [hfull]; simp at ho ⊢; tauto))
  have hAne : 1 ≤ (constants A).length := by
    rcases hA' : constants A with _ | ⟨a, l⟩
    · exact absurd hA' hA
    · simp
  have hmargs : m.marg = dists (A ++ P) ++ [d] := by
    rw [hmarg, hfull, dists_append]; simp [dists, hS]
  refine ⟨d, ?_, ?_⟩
  · change m.marg.getLast? = some d
    rw [hmargs]; simp
  · rw [Dict.get?_eq_none, h1]
    intro hmem
    have hn : m.nMarg = (dists (A ++ P)).length + 1 := by
      change m.marg.length = _; rw [hmargs]; simp
    have hsplit : m.names = (A ++ P).filterMap objName ++ d.name :: S.filterMap objName := by
      rw [hnames, hfull, List.filterMap_append]; simp [objName]
    have hle : m.nMarg ≤ ((A ++ P).filterMap objName).length := by
      rw [hn, hAP, constants_append, List.length_append]; omega
    change d.name ∈ m.names.take m.nMarg at hmem
    rw [hsplit, List.take_append_of_le_length hle] at hmem
    have hnd : m.names.Nodup := hr.nodup
    rw [hsplit, List.nodup_append] at hnd
    exact hnd.2.2 _ (List.mem_of_mem_take hmem) _ (by simp) rfl

end Pystra.Props
