import Verif.Spec.LimitState
import Verif.Lemmas.Stochastic
import Mathlib.Data.List.FinRange
import Mathlib.Data.List.OfFn
import Mathlib.Tactic.Linarith

namespace Pystra
namespace LimitState
open Spec StochModel

variable {D : Type} {n : ℕ}

theorem bindVars_spec (x : List (Fin n → ℝ)) : ∀ (ks : List String) (i : ℕ) (d : Kwargs),
    ks.Nodup → (∀ k ∈ ks, k ∉ Dict.keys d) → i + ks.length ≤ n →
    bindVars x ks i d = .ok (d ++ ks.zip ((List.ofFn (rowOf x)).drop i)) := by
  intro ks
  induction ks with
  | nil => intro i d _ _ _; simp [bindVars]
  | cons k t ih =>
    intro i d hnd hdis hlen
    simp only [List.length_cons] at hlen
    have hi : i < n := by omega
    simp only [List.nodup_cons] at hnd
    simp only [bindVars, dif_pos hi]
    rw [Dict.set_of_not_mem _ _ _ (hdis k List.mem_cons_self)]
    rw [ih (i + 1) _ hnd.2 ?_ (by omega)]
    · have hd : (List.ofFn (rowOf x)).drop i = rowOf x ⟨i, hi⟩ :: (List.ofFn (rowOf x)).drop (i + 1) := by
        rw [List.drop_eq_getElem_cons (by simpa using hi)]
        simp
      rw [hd]
      simp
    · intro k' hk'
      simp only [Dict.keys, List.map_append, List.mem_append, not_or, List.map_cons, List.map_nil,
        List.mem_singleton]
      exact ⟨hdis k' (List.mem_cons_of_mem _ hk'), fun e => hnd.1 (e ▸ hk')⟩

theorem bindVars_short (x : List (Fin n → ℝ)) : ∀ (ks : List String) (i : ℕ) (d : Kwargs),
    n < i + ks.length → ks ≠ [] → bindVars x ks i d = .error .indexError := by
  intro ks
  induction ks with
  | nil => intro i d h h'; exact absurd rfl h'
  | cons k t ih =>
    intro i d h _
    simp only [bindVars]
    by_cases hi : i < n
    · rw [dif_pos hi]
      apply ih
      · simp only [List.length_cons] at h; omega
      · rintro rfl; simp at h; omega
    · rw [dif_neg hi]

theorem bindConsts_spec (nc : ℕ) : ∀ (cs : Dict String ℝ) (d : Kwargs),
    cs.keys.Nodup → (∀ k ∈ cs.keys, k ∉ Dict.keys d) →
    bindConsts nc cs d = d ++ cs.map (fun e => (e.1, List.replicate nc e.2)) := by
  intro cs
  induction cs with
  | nil => intro d _ _; simp [bindConsts]
  | cons e t ih =>
    obtain ⟨c, v⟩ := e
    intro d hnd hdis
    simp only [Dict.keys, List.map_cons, List.nodup_cons] at hnd
    simp only [bindConsts]
    rw [Dict.set_of_not_mem _ _ _ (hdis c (by simp [Dict.keys]))]
    rw [ih _ hnd.2 ?_]
    · simp
    · intro k' hk'
      simp only [Dict.keys, List.map_append, List.mem_append, not_or, List.map_cons, List.map_nil,
        List.mem_singleton]
      exact ⟨hdis k' (by simp only [Dict.keys, List.map_cons, List.mem_cons]; exact .inr hk'),
        fun e => hnd.1 (e ▸ hk')⟩

/-- Facts about a reachable model that evaluation relies on. -/
structure WF (m : StochModel D ℝ) : Prop where
  vnd : m.vars.keys.Nodup
  cnd : m.consts.keys.Nodup
  dis : ∀ k ∈ m.consts.keys, k ∉ m.vars.keys
  len : m.vars.keys.length = m.marg.length
  names : ∀ k, k ∈ m.names ↔ k ∈ m.vars.keys ∨ k ∈ m.consts.keys

theorem dists_sublist {V : Type} (objs : List (PyObj D V)) :
    List.Sublist ((dists objs).map DistObj.name) (objs.filterMap objName) := by
  induction objs with
  | nil => exact List.Sublist.slnil
  | cons o t ih =>
    cases o with
    | other => simpa [dists, List.filterMap_cons, objName] using ih
    | distribution d => simpa [dists, objName] using ih
    | constant m v => simpa [dists, objName] using List.Sublist.cons _ ih

theorem constants_sublist {V : Type} (objs : List (PyObj D V)) :
    List.Sublist ((constants objs).map Prod.fst) (objs.filterMap objName) := by
  induction objs with
  | nil => exact List.Sublist.slnil
  | cons o t ih =>
    cases o with
    | other => simpa [constants, List.filterMap_cons, objName] using ih
    | distribution d => simpa [constants, objName] using List.Sublist.cons _ ih
    | constant m v => simpa [constants, objName] using ih

theorem names_disjoint {V : Type} (objs : List (PyObj D V)) (hnd : (objs.filterMap objName).Nodup) (k : String)
    (h1 : k ∈ (dists objs).map DistObj.name) (h2 : k ∈ (constants objs).map Prod.fst) : False := by
  induction objs with
  | nil => simp [dists] at h1
  | cons o t ih =>
    cases o with
    | other =>
      have a : (t.filterMap objName).Nodup := by simpa [List.filterMap_cons, objName] using hnd
      have b : k ∈ (dists t).map DistObj.name := h1
      have c : k ∈ (constants t).map Prod.fst := h2
      exact ih a b c
    | distribution d =>
      simp only [List.filterMap_cons, objName, List.nodup_cons] at hnd
      simp only [dists, constants, List.map_cons, List.mem_cons] at h1 h2
      rcases h1 with rfl | h1
      · exact hnd.1 ((constants_sublist t).subset h2)
      · exact ih hnd.2 h1 h2
    | constant m v =>
      simp only [List.filterMap_cons, objName, List.nodup_cons] at hnd
      simp only [dists, constants, List.map_cons, List.mem_cons] at h1 h2
      rcases h2 with rfl | h2
      · exact hnd.1 ((dists_sublist t).subset h1)
      · exact ih hnd.2 h1 h2

theorem wf_of_refines {m : StochModel D ℝ} {objs : List (PyObj D ℝ)} (r : Refines m objs) : WF m := by
  have hv : m.vars.keys = (dists objs).map DistObj.name := by
    simp [r.vars, Dict.keys, List.map_map, Function.comp_def]
  have hc : m.consts.keys = (constants objs).map Prod.fst := by simp [r.consts, Dict.keys]
  have hnd : (objs.filterMap objName).Nodup := r.names ▸ r.nodup
  refine ⟨?_, ?_, ?_, ?_, ?_⟩
  · rw [hv]; exact (dists_sublist objs).nodup hnd
  · rw [hc]; exact (constants_sublist objs).nodup hnd
  · intro k hk hk'
    rw [hc] at hk; rw [hv] at hk'
    exact names_disjoint objs hnd k hk' hk
  · rw [hv, r.marg]; simp
  · intro k
    rw [r.names, hv, hc]
    simp only [List.mem_filterMap, List.mem_map, mem_dists, Prod.exists, mem_constants]
    constructor
    · rintro ⟨o, ho, e⟩
      cases o with
      | other => simp [objName] at e
      | distribution d => exact .inl ⟨d, ho, by simpa [objName] using e⟩
      | constant m v => exact .inr ⟨m, v, ho, by simpa [objName] using e⟩
    · rintro (⟨d, hd, rfl⟩ | ⟨m, v, hm, rfl⟩)
      · exact ⟨_, hd, rfl⟩
      · exact ⟨_, hm, rfl⟩

theorem wf_of_reachable {m : StochModel D ℝ} (h : Reachable m) : WF m := by
  obtain ⟨h, rfl⟩ := h
  exact wf_of_refines (refines_reachable h)

theorem inpdict_spec {m : StochModel D ℝ} (w : WF m) (hn : m.marg.length ≤ n) (x : List (Fin n → ℝ)) :
    inpdict m x = .ok (m.vars.keys.zip (List.ofFn (rowOf x)) ++
      m.consts.map (fun e => (e.1, List.replicate x.length e.2))) := by
  unfold inpdict getVariables getConstants
  rw [bindVars_spec x _ 0 [] w.vnd (by simp [Dict.keys]) (by rw [w.len]; omega)]
  simp only [List.drop_zero, List.nil_append]
  rw [bindConsts_spec _ _ _ w.cnd]
  intro k hk
  have : Dict.keys (m.vars.keys.zip (List.ofFn (rowOf x))) = m.vars.keys := by
    simp only [Dict.keys]
    rw [List.map_fst_zip]
    show m.vars.keys.length ≤ _
    rw [w.len, List.length_ofFn]; exact hn
  rw [this]
  exact w.dis k hk

theorem column_kw (m : StochModel D ℝ) (x : List (Fin n → ℝ)) (c : ℕ) (hc : c < x.length) :
    column (m.vars.keys.zip (List.ofFn (rowOf x)) ++
      m.consts.map (fun e => (e.1, List.replicate x.length e.2))) c = pointArgs m x[c] := by
  unfold column pointArgs getVariables getConstants
  rw [List.map_append]
  congr 1
  · have : (fun e : String × List ℝ => (e.1, e.2.getD c 0)) = Prod.map id (fun r : List ℝ => r.getD c 0) := rfl
    rw [this, ← List.zip_map_right, List.map_ofFn]
    congr 2
    funext i
    simp [rowOf, List.getD_eq_getElem?_getD, hc]
  · rw [List.map_map]
    conv_rhs => rw [← List.map_id m.consts]
    apply List.map_congr_left
    intro e _
    simp [List.getD_eq_getElem?_getD, hc]

theorem range_map_getElem {α β : Type} (x : List α) (f : α → β) :
    ∀ (F : ℕ → β), (∀ c (h : c < x.length), F c = f x[c]) → (List.range x.length).map F = x.map f := by
  intro F hF
  apply List.ext_getElem
  · simp
  · intro i h1 h2
    simp at h1
    simp [hF i h1]

theorem kw_ne_nil {m : StochModel D ℝ} (w : WF m) (hn : m.marg.length ≤ n) (hne : m.names ≠ [])
    (x : List (Fin n → ℝ)) :
    (m.vars.keys.zip (List.ofFn (rowOf x)) ++
      m.consts.map (fun e => (e.1, List.replicate x.length e.2))) ≠ [] := by
  intro h
  obtain ⟨h1, h2⟩ := List.append_eq_nil_iff.1 h
  obtain ⟨k, hk⟩ := List.exists_mem_of_ne_nil _ hne
  rcases (w.names k).1 hk with h' | h'
  · have : m.vars.keys.length ≤ (List.ofFn (rowOf x)).length := by
      rw [w.len, List.length_ofFn]; exact hn
    have hz : (m.vars.keys.zip (List.ofFn (rowOf x))).map Prod.fst = m.vars.keys := List.map_fst_zip this
    rw [h1] at hz
    rw [← hz] at h'
    simp at h'
  · have : m.consts = [] := by simpa using h2
    simp [this, Dict.keys] at h'

theorem kw_lengths (m : StochModel D ℝ) (x : List (Fin n → ℝ)) :
    ∀ e ∈ (m.vars.keys.zip (List.ofFn (rowOf x)) ++
      m.consts.map (fun e => (e.1, List.replicate x.length e.2))), e.2.length = x.length := by
  intro e he
  rcases List.mem_append.1 he with h | h
  · have := (List.of_mem_zip h).2
    rw [List.mem_ofFn] at this
    obtain ⟨i, hi⟩ := this
    rw [← hi]
    simp [rowOf]
  · obtain ⟨c, _, rfl⟩ := List.mem_map.1 h
    simp

/-- The keyword dictionary of a block. -/
def kwOf (m : StochModel D ℝ) (x : List (Fin n → ℝ)) : Kwargs :=
  m.vars.keys.zip (List.ofFn (rowOf x)) ++ m.consts.map (fun e => (e.1, List.replicate x.length e.2))

theorem computeLsf_pointwise {expr : Kwargs → GRet} {g : Dict String ℝ → ℝ} (hp : Pointwise expr g)
    {ev : Ev D} (w : WF ev.model) (hn : ev.model.marg.length ≤ n) (hne : ev.model.names ≠ [])
    (x : List (Fin n → ℝ)) :
    computeLsf expr x false ev = ({ ev with trace := ev.trace ++ [kwOf ev.model x] },
      .ok (.arr (x.map (fun p => g (pointArgs ev.model p))), none)) := by
  unfold computeLsf
  rw [inpdict_spec w hn x]
  simp only
  rw [hp _ x.length (kw_ne_nil w hn hne x) (kw_lengths _ x)]
  rw [range_map_getElem x (fun p => g (pointArgs ev.model p)) _ (fun c h => by rw [column_kw _ _ _ h])]
  rfl

theorem pointsOf_kw {m : StochModel D ℝ} (w : WF m) (hn : m.marg.length ≤ n) (hne : m.names ≠ [])
    (x : List (Fin n → ℝ)) : pointsOf [kwOf m x] = x.map (pointArgs m) := by
  have h0 := kw_ne_nil w hn hne x
  have hl := kw_lengths m x
  have hc := column_kw m x
  change kwOf m x ≠ [] at h0
  change ∀ e ∈ kwOf m x, e.2.length = x.length at hl
  change ∀ c (hc : c < x.length), column (kwOf m x) c = _ at hc
  generalize kwOf m x = kw at *
  cases kw with
  | nil => exact absurd rfl h0
  | cons e t =>
    simp only [pointsOf, List.flatMap_cons, List.flatMap_nil, List.append_nil]
    rw [hl e List.mem_cons_self]
    exact range_map_getElem x _ _ hc

theorem pointsOf_append (a b : List Kwargs) : pointsOf (a ++ b) = pointsOf a ++ pointsOf b := by
  simp [pointsOf]

theorem broadcastTo_len (l : List ℝ) (nc : ℕ) (h : l.length = nc) : broadcastTo nc (.arr l) = .ok l := by
  subst h
  match l with
  | [] => simp [broadcastTo]
  | [v] => simp [broadcastTo]
  | a :: b :: t => simp [broadcastTo]

theorem squeezeTo_len (l : List ℝ) (nc : ℕ) (h : l.length = nc) : squeezeTo nc (.arr l) = .ok l := by
  simpa [squeezeTo] using broadcastTo_len l nc h

theorem take_add_map {α β : Type} (x : List α) (f : α → β) (k b : ℕ) :
    (x.take k).map f ++ ((x.drop k).take b).map f = (x.take (k + b)).map f := by
  rw [← List.map_append, List.take_add]

/-- The block loop computes the pointwise values for any block size `≥ 1`. -/
theorem blockLoop_spec {expr : Kwargs → GRet} {g : Dict String ℝ → ℝ} (hp : Pointwise expr g)
    {assign : ℕ → GVal → Except PyErr (List ℝ)}
    (ha : ∀ (l : List ℝ) (nc : ℕ), l.length = nc → assign nc (.arr l) = .ok l)
    (x : List (Fin n → ℝ)) (B : ℕ) : ∀ (fuel bs k : ℕ) (ev : Ev D),
    WF ev.model → ev.model.marg.length ≤ n → ev.model.names ≠ [] → (1 ≤ bs ∨ x.length ≤ k) → bs ≤ B →
    k ≤ x.length → x.length ≤ k + fuel →
    ∃ tr, blockLoop assign expr x fuel bs k ((x.take k).map (fun p => g (pointArgs ev.model p))) ev =
      some ({ ev with trace := ev.trace ++ tr }, .ok (x.map (fun p => g (pointArgs ev.model p)))) ∧
      pointsOf tr = (x.drop k).map (pointArgs ev.model) ∧
      ∀ kw ∈ tr, ∃ b ≤ B, ∀ e ∈ kw, e.2.length = b := by
  intro fuel
  induction fuel with
  | zero =>
    intro bs k ev w hn hne hbs hB hk hf
    have hk' : k = x.length := by omega
    subst hk'
    refine ⟨[], ?_, by simp [pointsOf], by simp⟩
    simp [blockLoop]
  | succ fuel ih =>
    intro bs k ev w hn hne hbs hB hk hf
    by_cases hlt : k < x.length
    · have hbs1 : 1 ≤ bs := by omega
      simp only [blockLoop, if_pos hlt]
      rw [computeLsf_pointwise hp w hn hne]
      simp only
      have hlen : (((x.drop k).take (min bs (x.length - k))).map (fun p => g (pointArgs ev.model p))).length =
          min bs (x.length - k) := by simp
      rw [ha _ _ hlen]
      simp only
      rw [take_add_map]
      obtain ⟨tr, h1, h2, h3⟩ := ih (min bs (x.length - k)) (k + min bs (x.length - k))
        { ev with trace := ev.trace ++ [kwOf ev.model ((x.drop k).take (min bs (x.length - k)))] } w hn hne
        (by omega) (by omega) (by omega) (by omega)
      refine ⟨kwOf ev.model ((x.drop k).take (min bs (x.length - k))) :: tr, ?_, ?_, ?_⟩
      · rw [h1]; simp
      · have : ∀ a : Kwargs, a :: tr = [a] ++ tr := fun _ => rfl
        rw [this, pointsOf_append, pointsOf_kw w hn hne, h2]
        rw [← List.map_append, ← List.drop_drop, List.take_append_drop]
      · intro kw hkw
        rcases List.mem_cons.1 hkw with rfl | hkw
        · refine ⟨_, ?_, kw_lengths ev.model _⟩
          simp; omega
        · exact h3 kw hkw
    · have hk' : k = x.length := by omega
      subst hk'
      refine ⟨[], ?_, by simp [pointsOf], by simp⟩
      simp [blockLoop]

/-- With block size zero the loop does not end. -/
theorem blockLoop_zero {expr : Kwargs → GRet} {g : Dict String ℝ → ℝ} (hp : Pointwise expr g)
    {assign : ℕ → GVal → Except PyErr (List ℝ)}
    (ha : ∀ (l : List ℝ) (nc : ℕ), l.length = nc → assign nc (.arr l) = .ok l)
    (x : List (Fin n → ℝ)) : ∀ (fuel k : ℕ) (acc : List ℝ) (ev : Ev D),
    WF ev.model → ev.model.marg.length ≤ n → ev.model.names ≠ [] → k < x.length →
    blockLoop assign expr x fuel 0 k acc ev = none := by
  intro fuel
  induction fuel with
  | zero => intro k acc ev _ _ _ hk; simp [blockLoop, hk]
  | succ fuel ih =>
    intro k acc ev w hn hne hk
    simp only [blockLoop, if_pos hk]
    rw [computeLsf_pointwise hp w hn hne]
    simp only [Nat.zero_min, List.take_zero, List.map_nil]
    rw [ha [] 0 rfl]
    simp only [List.append_nil, Nat.add_zero]
    exact ih k acc _ w hn hne hk

/-- The table built by the perturbation loop: column 0 is the point, column `j+1` the point with
coordinate `j` shifted; the caller's point ends fully shifted. -/
theorem ffdPerturb_spec (h : Fin n → ℝ) : ∀ (js : List (Fin n)) (x : Fin n → ℝ) (allx : List (Fin n → ℝ)),
    js.Nodup →
    (ffdPerturb h js (x, allx)).1 = (fun i => if i ∈ js then x i + h i else x i) ∧
    (ffdPerturb h js (x, allx)).2.length = allx.length ∧
    ∀ i : ℕ, (ffdPerturb h js (x, allx)).2[i]? =
      if hj : ∃ j ∈ js, j.val + 1 = i then
        allx[i]?.map (fun col => Function.update col hj.choose (x hj.choose + h hj.choose)) else allx[i]? := by
  intro js
  induction js with
  | nil => intro x allx _; simp [ffdPerturb]
  | cons j t ih =>
    intro x allx hnd
    simp only [List.nodup_cons] at hnd
    simp only [ffdPerturb]
    obtain ⟨h1, h2, h3⟩ := ih (Function.update x j (x j + h j))
      (allx.modify (j.val + 1) (fun col => Function.update col j (Function.update x j (x j + h j) j))) hnd.2
    refine ⟨?_, ?_, ?_⟩
    · rw [h1]
      funext i
      by_cases hij : i = j
      · subst hij; simp [hnd.1]
      · simp [hij]
    · rw [h2]; simp
    · intro i
      rw [h3 i]
      by_cases hji : j.val + 1 = i
      · have hne : ¬ ∃ j' ∈ t, j'.val + 1 = i := by
          rintro ⟨j', hj', e⟩
          have : j' = j := Fin.ext (by omega)
          exact hnd.1 (this ▸ hj')
        have hex : ∃ j' ∈ j :: t, j'.val + 1 = i := ⟨j, List.mem_cons_self, hji⟩
        have hch : hex.choose = j := Fin.ext (by have := hex.choose_spec.2; omega)
        rw [dif_neg hne, dif_pos hex, hch]
        subst hji
        simp
      · by_cases hex : ∃ j' ∈ t, j'.val + 1 = i
        · have hex' : ∃ j' ∈ j :: t, j'.val + 1 = i := by
            obtain ⟨j', a, b⟩ := hex; exact ⟨j', List.mem_cons_of_mem _ a, b⟩
          have hch : hex'.choose = hex.choose := Fin.ext (by
            have a := hex'.choose_spec.2; have b := hex.choose_spec.2; omega)
          rw [dif_pos hex, dif_pos hex', hch]
          have hne : hex.choose ≠ j := fun e => hnd.1 (e ▸ hex.choose_spec.1)
          rw [Function.update_of_ne hne]
          simp [hji]
        · have hex' : ¬ ∃ j' ∈ j :: t, j'.val + 1 = i := by
            rintro ⟨j', a, b⟩
            rcases List.mem_cons.1 a with rfl | a
            · exact hji b
            · exact hex ⟨j', a, b⟩
          rw [dif_neg hex, dif_neg hex']
          simp [hji]

/-- The evaluation table of `evaluate_ffd`. -/
theorem ffd_table (h : Fin n → ℝ) (x0 : Fin n → ℝ) :
    (ffdPerturb h (List.finRange n) (x0, List.replicate (1 + n) x0)).1 = (fun i => x0 i + h i) ∧
    (ffdPerturb h (List.finRange n) (x0, List.replicate (1 + n) x0)).2 =
      x0 :: List.ofFn (fun j => Function.update x0 j (x0 j + h j)) := by
  obtain ⟨h1, h2, h3⟩ := ffdPerturb_spec h (List.finRange n) x0 (List.replicate (1 + n) x0) (List.nodup_finRange n)
  refine ⟨by rw [h1]; simp, ?_⟩
  apply List.ext_getElem?
  intro i
  rw [h3 i]
  cases i with
  | zero => simp
  | succ i =>
    by_cases hi : i < n
    · have hex : ∃ j ∈ List.finRange n, j.val + 1 = i + 1 := ⟨⟨i, hi⟩, by simp, rfl⟩
      have hch : hex.choose = ⟨i, hi⟩ := Fin.ext (by have := hex.choose_spec.2; simpa using this)
      rw [dif_pos hex, hch]
      have : i + 1 < 1 + n := by omega
      simp [hi, this]
    · have hex : ¬ ∃ j ∈ List.finRange n, j.val + 1 = i + 1 := by
        rintro ⟨j, _, e⟩; have := j.isLt; omega
      rw [dif_neg hex]
      have : ¬ i + 1 < 1 + n := by omega
      simp [hi, this]

theorem computeLsf_model (expr : Kwargs → GRet) (x : List (Fin n → ℝ)) (ddm : Bool) (ev : Ev D) :
    (computeLsf expr x ddm ev).1.model = ev.model := by
  unfold computeLsf; split <;> rfl

theorem blockLoop_model {assign : ℕ → GVal → Except PyErr (List ℝ)} (expr : Kwargs → GRet) (x : List (Fin n → ℝ)) :
    ∀ (fuel bs k : ℕ) (acc : List ℝ) (ev ev' : Ev D) (r : Except PyErr (List ℝ)),
    blockLoop assign expr x fuel bs k acc ev = some (ev', r) → ev'.model = ev.model := by
  intro fuel
  induction fuel with
  | zero =>
    intro bs k acc ev ev' r h
    simp only [blockLoop] at h
    split at h
    · cases h
    · cases h; rfl
  | succ fuel ih =>
    intro bs k acc ev ev' r h
    simp only [blockLoop] at h
    split at h
    · have hm := computeLsf_model expr ((x.drop k).take (min bs (x.length - k))) false ev
      split at h
      · rename_i ev1 e heq
        rw [heq] at hm
        cases h; exact hm
      · rename_i ev1 g gg heq
        rw [heq] at hm
        split at h
        · cases h; exact hm
        · exact (ih _ _ _ _ _ _ h).trans hm
    · cases h; rfl

theorem ddmLoop_model (expr : Kwargs → GRet) (nx : ℕ) : ∀ (x : List (Fin n → ℝ)) (k : ℕ) (G : List ℝ)
    (grad : List (Fin n → ℝ)) (ev : Ev D), (ddmLoop expr nx x k G grad ev).1.model = ev.model := by
  intro x
  induction x with
  | nil => intro k G grad ev; rfl
  | cons p t ih =>
    intro k G grad ev
    have hm := computeLsf_model expr [p] true ev
    simp only [ddmLoop]
    split
    · rename_i heq; rw [heq] at hm; exact hm
    · rename_i heq; rw [heq] at hm
      split
      · exact hm
      · split
        · exact hm
        · rw [ih]; exact hm

end LimitState
end Pystra
