import Verif.Spec.Sensitivity
import Verif.Lemmas.Stochastic
import Verif.Props.FormLinear

/-! C52: finite-difference sensitivities. -/

namespace Pystra.Props
open Spec Sensitivity

/-- Every model built by a history of calls is consistent. -/
theorem consistent_reachable (h : List (StochModel.Op Dist ℝ)) : Consistent ((StochModel.init : StochModel Dist ℝ).run h) := by
  have hr := StochModel.refines_reachable h
  refine ⟨by rw [hr.vars, hr.marg], ?_⟩
  have hn := hr.nodup
  rw [hr.marg]
  have : ∀ objs : List (PyObj Dist ℝ), ((dists objs).map DistObj.name).Sublist (objs.filterMap objName) := by
    intro objs
    induction objs with
    | nil => exact List.Sublist.refl _
    | cons o t ih =>
      cases o with
      | distribution d => simpa [dists, objName] using ih
      | constant n v => simpa [dists, objName] using ih.cons _
      | other => simpa [dists, List.filterMap_cons, objName] using ih
  exact (this _).nodup (by simpa [hr.names] using hn)

theorem set_map_of_mem {m : List (DistObj Dist)} (hn : (m.map DistObj.name).Nodup) {name : String} (h : name ∈ m.map DistObj.name)
    (d : Dist) :
    Dict.set (m.map (fun e => (e.name, e))) name ⟨name, d⟩ =
      (m.map (fun e => (e.name, e))).map (fun p => if p.1 = name then (p.1, ⟨name, d⟩) else p) ∧
    m.set ((m.map DistObj.name).idxOf name) ⟨name, d⟩ = m.map (fun e => if e.name = name then ⟨name, d⟩ else e) := by
  induction m with
  | nil => simp at h
  | cons e t ih =>
    rw [List.map_cons, List.nodup_cons] at hn
    by_cases he : e.name = name
    · have ht : ∀ e' ∈ t, e'.name ≠ name := by
        intro e' h' h2
        apply hn.1
        rw [he, ← h2]
        exact List.mem_map_of_mem h'
      constructor
      · simp only [List.map_cons, Dict.set, he, if_true, List.cons.injEq, true_and]
        rw [List.map_map]
        refine (List.map_congr_left fun e' h' => ?_)
        simp [ht e' h']
      · simp only [List.map_cons, he, List.idxOf_cons_self, List.set_cons_zero, if_true, List.cons.injEq, true_and]
        conv_lhs => rw [← List.map_id t]
        exact List.map_congr_left fun e' h' => by simp [ht e' h']
    · have h' : name ∈ t.map DistObj.name := by
        rcases List.mem_cons.1 (by simpa using h : name ∈ e.name :: t.map DistObj.name) with h | h
        · exact absurd h.symm he
        · exact h
      obtain ⟨h1, h2⟩ := ih hn.2 h'
      constructor
      · simp only [List.map_cons, Dict.set, he, if_false, h1]
      · simp only [List.map_cons, List.idxOf_cons_ne _ he, List.set_cons_succ, h2, he, if_false]

theorem replaceDist_eq {m : StochModel Dist ℝ} (hm : Consistent m) {name : String} (h : name ∈ m.marg.map DistObj.name) (d : Dist) :
    replaceDist m name ⟨name, d⟩ = exchanged m name d := by
  obtain ⟨h1, h2⟩ := set_map_of_mem hm.nodup h d
  have hk : Dict.keys m.vars = m.marg.map DistObj.name := by rw [hm.vars]; simp [Dict.keys]
  unfold replaceDist exchanged
  dsimp only
  rw [hk, h2, hm.vars, h1]

theorem getVariable_eq {m : StochModel Dist ℝ} (hm : Consistent m) {e : DistObj Dist} (h : e ∈ m.marg) :
    m.getVariable e.name = .ok e := by
  have hk : (Dict.keys m.vars).Nodup := by rw [hm.vars]; simpa [Dict.keys, Function.comp_def] using hm.nodup
  have : Dict.get? m.vars e.name = some e :=
    Dict.get?_of_mem _ hk _ _ (by rw [hm.vars]; exact List.mem_map_of_mem h)
  unfold StochModel.getVariable
  rw [this]

/-- What one entry of the result is: `d` is the distribution object of the perturbed variable, `(p, val)` one of its parameters;
the user's model `m` with only that variable exchanged for its copy with `p = val + δ σ` was analysed by FORM, and the entry
is the difference of the indices over the change of `p` that the copy actually shows. -/
def FDEntry (form : FormOracle) (m : StochModel Dist ℝ) (delta beta0 : ℝ) (d : DistObj Dist) (p : String) (val v : ℝ) : Prop :=
  ∃ d' beta1, d.body.makeCopy [(p, val + delta * d.body.marg.stdv)] = .ok d' ∧
    (form (exchanged m d.name d')).2 = .ok beta1 ∧
    v = (beta1 - beta0) / ((Dict.get? d'.sensitivityParams p).getD 0 - val)

theorem fdOne_spec (form : FormOracle) (beta0 delta : ℝ) (p : String) (val : ℝ) {fresh : ℕ} (hf : 0 < fresh) (H : Heap)
    (hm : Consistent (H 0)) {d : DistObj Dist} (hd : d ∈ (H 0).marg) :
    (∀ k, k ≠ fresh → (fdOne form beta0 delta d.name p val fresh H).1 k = H k) ∧
    ∀ v, (fdOne form beta0 delta d.name p val fresh H).2 = .ok v → FDEntry form (H 0) delta beta0 d p val v := by
  unfold fdOne
  have h1 : (Function.update H fresh (H 0)) fresh = H 0 := Function.update_self ..
  simp only [h1, getVariable_eq hm hd]
  cases hc : d.body.makeCopy [(p, val + delta * d.body.marg.stdv)] with
  | error e => exact ⟨fun k hk => by simp [Function.update_of_ne hk], fun v h => by cases h⟩
  | ok d' =>
    dsimp only
    rw [replaceDist_eq hm (List.mem_map_of_mem hd), Function.update_self]
    cases hform : form (exchanged (H 0) d.name d') with
    | mk m r =>
      cases r with
      | error e => exact ⟨fun k hk => by simp [Function.update_of_ne hk], fun v h => by cases h⟩
      | ok beta1 =>
        refine ⟨fun k hk => by simp [Function.update_of_ne hk], fun v h => ?_⟩
        injection h with h
        exact ⟨d', beta1, hc, by rw [hform], h.symm⟩

theorem fdVar_spec (form : FormOracle) (beta0 delta : ℝ) {d : DistObj Dist} (ps : Dict String ℝ) {fresh : ℕ} (hf : 0 < fresh)
    (H : Heap) (hm : Consistent (H 0)) (hd : d ∈ (H 0).marg) :
    (∀ k, k < fresh → (fdVar form beta0 delta d.name ps fresh H).1 k = H k) ∧
    ∀ r fresh', (fdVar form beta0 delta d.name ps fresh H).2 = .ok (r, fresh') → fresh ≤ fresh' ∧
      List.Forall₂ (fun (pv : String × ℝ) (e : String × ℝ) => e.1 = pv.1 ∧ FDEntry form (H 0) delta beta0 d pv.1 pv.2 e.2) ps r := by
  induction ps generalizing fresh H with
  | nil =>
    refine ⟨fun k _ => rfl, fun r f h => ?_⟩
    simp only [fdVar] at h
    injection h with h; injection h with h1 h2
    subst h1 h2
    exact ⟨le_rfl, List.Forall₂.nil⟩
  | cons pv ps ih =>
    obtain ⟨p, val⟩ := pv
    obtain ⟨h1, h2⟩ := fdOne_spec form beta0 delta p val hf H hm hd
    unfold fdVar
    cases he : fdOne form beta0 delta d.name p val fresh H with
    | mk H1 r1 =>
      rw [he] at h1 h2
      have h0 : H1 0 = H 0 := h1 0 hf.ne
      cases r1 with
      | error e => exact ⟨fun k hk => h1 k hk.ne, fun r f h => by cases h⟩
      | ok v =>
        obtain ⟨h3, h4⟩ := ih (Nat.succ_pos fresh) H1 (h0 ▸ hm) (h0 ▸ hd)
        simp only
        cases he2 : fdVar form beta0 delta d.name ps (fresh + 1) H1 with
        | mk H2 r2 =>
          rw [he2] at h3 h4
          cases r2 with
          | error e => exact ⟨fun k hk => (h3 k (by omega)).trans (h1 k hk.ne), fun r f h => by cases h⟩
          | ok q =>
            obtain ⟨r, f⟩ := q
            refine ⟨fun k hk => (h3 k (by omega)).trans (h1 k hk.ne), fun r' f' h => ?_⟩
            simp only at h
            injection h with h; injection h with ha hb
            subst ha hb
            obtain ⟨h5, h6⟩ := h4 r f rfl
            rw [h0] at h6
            exact ⟨by omega, List.Forall₂.cons ⟨rfl, h2 v rfl⟩ h6⟩

/-- What the result for one variable is. -/
def FDVariable (form : FormOracle) (m : StochModel Dist ℝ) (delta beta0 : ℝ) (d : DistObj Dist) (e : String × Dict String ℝ) : Prop :=
  e.1 = d.name ∧ List.Forall₂ (fun (pv : String × ℝ) (e : String × ℝ) => e.1 = pv.1 ∧
    FDEntry form m delta beta0 d pv.1 pv.2 e.2) d.body.sensitivityParams e.2

theorem fdAll_spec (form : FormOracle) (beta0 delta : ℝ) (ds : List (DistObj Dist)) {fresh : ℕ} (hf : 0 < fresh)
    (H : Heap) (hm : Consistent (H 0)) (hd : ∀ d ∈ ds, d ∈ (H 0).marg) :
    (∀ k, k < fresh → (fdAll form beta0 delta (ds.map (fun d => (d.name, d))) fresh H).1 k = H k) ∧
    ∀ r, (fdAll form beta0 delta (ds.map (fun d => (d.name, d))) fresh H).2 = .ok r →
      List.Forall₂ (FDVariable form (H 0) delta beta0) ds r := by
  induction ds generalizing fresh H with
  | nil =>
    refine ⟨fun k _ => rfl, fun r h => ?_⟩
    simp only [List.map_nil, fdAll] at h
    injection h with h
    subst h
    exact List.Forall₂.nil
  | cons d ds ih =>
    obtain ⟨h1, h2⟩ := fdVar_spec form beta0 delta d.body.sensitivityParams hf H hm (hd d (by simp))
    simp only [List.map_cons]
    unfold fdAll
    cases he : fdVar form beta0 delta d.name d.body.sensitivityParams fresh H with
    | mk H1 r1 =>
      rw [he] at h1 h2
      have h0 : H1 0 = H 0 := h1 0 hf
      cases r1 with
      | error e => exact ⟨fun k hk => h1 k hk, fun r h => by cases h⟩
      | ok q =>
        obtain ⟨v, f⟩ := q
        obtain ⟨hle, hv⟩ := h2 v f rfl
        obtain ⟨h3, h4⟩ := ih (fresh := f) (by omega) H1 (h0 ▸ hm) (fun d' h' => h0 ▸ hd d' (by simp [h']))
        simp only
        cases he2 : fdAll form beta0 delta (ds.map (fun d => (d.name, d))) f H1 with
        | mk H2 r2 =>
          rw [he2] at h3 h4
          cases r2 with
          | error e => exact ⟨fun k hk => (h3 k (by omega)).trans (h1 k hk), fun r h => by cases h⟩
          | ok q =>
            refine ⟨fun k hk => (h3 k (by omega)).trans (h1 k hk), fun r h => ?_⟩
            simp only at h
            injection h with h
            subst h
            have := h4 q rfl
            rw [h0] at this
            exact List.Forall₂.cons ⟨rfl, hv⟩ this

/-- C52: the finite-difference analysis leaves the user's model exactly as one FORM run on it leaves it, and no other existing
model is touched — whether or not it raises, for every model and whatever FORM does. -/
theorem C52_user_model (form : FormOracle) (hform : ∀ m, SameContents m (form m).1) (delta : ℝ) {fresh : ℕ} (hf : 0 < fresh)
    (H : Heap) (hm : Consistent (H 0)) :
    (numericalSens form delta fresh H).1 0 = (form (H 0)).1 ∧ SameContents (H 0) ((numericalSens form delta fresh H).1 0) ∧
    ∀ k, k ≠ 0 → k < fresh → (numericalSens form delta fresh H).1 k = H k := by
  have key : (numericalSens form delta fresh H).1 0 = (form (H 0)).1 ∧
      ∀ k, k ≠ 0 → k < fresh → (numericalSens form delta fresh H).1 k = H k := by
    have hc := hform (H 0)
    unfold numericalSens
    cases he : form (H 0) with
    | mk m r =>
      rw [he] at hc
      cases r with
      | error e => exact ⟨by simp, fun k hk _ => by simp [Function.update_of_ne hk]⟩
      | ok beta0 =>
        have hm' : Consistent (Function.update H 0 m 0) := by
          rw [Function.update_self]; exact ⟨by rw [hc.vars, hc.marg, hm.vars], by rw [hc.marg]; exact hm.nodup⟩
        have hv : m.getVariables = m.marg.map (fun d => (d.name, d)) := by
          unfold StochModel.getVariables; rw [hc.vars, hc.marg, hm.vars]
        obtain ⟨h1, -⟩ := fdAll_spec form beta0 delta m.marg hf (Function.update H 0 m) hm'
          (fun d hd => by rw [Function.update_self]; exact hd)
        simp only
        rw [hv]
        refine ⟨by rw [h1 0 hf, Function.update_self], fun k hk hkf => by rw [h1 k hkf, Function.update_of_ne hk]⟩
  exact ⟨key.1, key.1 ▸ hform (H 0), key.2⟩

/-- C52: the entries.  Every variable is reported under its name, in order, with its own parameters, and each number is the
difference quotient of the indices of two models that differ in that one parameter of that one variable only. -/
theorem C52_entries (form : FormOracle) (hform : ∀ m, SameContents m (form m).1) (delta : ℝ) {fresh : ℕ} (hf : 0 < fresh)
    (H : Heap) (hm : Consistent (H 0)) {r : Dict String (Dict String ℝ)} (h : (numericalSens form delta fresh H).2 = .ok r) :
    ∃ beta0, (form (H 0)).2 = .ok beta0 ∧ List.Forall₂ (FDVariable form (form (H 0)).1 delta beta0) (H 0).marg r := by
  have hc := hform (H 0)
  unfold numericalSens at h
  cases he : form (H 0) with
  | mk m r0 =>
    rw [he] at hc h
    cases r0 with
    | error e => cases h
    | ok beta0 =>
      have hm' : Consistent (Function.update H 0 m 0) := by
        rw [Function.update_self]; exact ⟨by rw [hc.vars, hc.marg, hm.vars], by rw [hc.marg]; exact hm.nodup⟩
      have hv : m.getVariables = m.marg.map (fun d => (d.name, d)) := by
        unfold StochModel.getVariables; rw [hc.vars, hc.marg, hm.vars]
      obtain ⟨-, h2⟩ := fdAll_spec form beta0 delta m.marg hf (Function.update H 0 m) hm'
        (fun d hd => by rw [Function.update_self]; exact hd)
      simp only at h
      rw [hv] at h
      have := h2 r h
      rw [Function.update_self, hc.marg] at this
      exact ⟨beta0, rfl, this⟩

/-- The code's FORM run changes nothing on a model but the counter and the stored `Ro`. -/
theorem formOracle_contents (fmin : Correlation.Fmin) (default : Marginal) (la : LinAlg) (ty : TransformType)
    (expr : Kwargs → GRet) (lsopt : LSOptions) (opt : Form.Options) (fuel : ℕ) (m : StochModel Dist ℝ) :
    SameContents m (formOracle fmin default la ty expr lsopt opt fuel m).1 := by
  unfold formOracle
  split <;> exact ⟨rfl, rfl, rfl, rfl, rfl⟩

/-! ### What a copy is -/

theorem keys_set {K V : Type} [DecidableEq K] (d : Dict K V) (k : K) (v : V) (h : k ∈ d.keys) : (d.set k v).keys = d.keys := by
  induction d with
  | nil => simp [Dict.keys] at h
  | cons p t ih =>
    obtain ⟨k', v'⟩ := p
    simp only [Dict.set]
    split_ifs with hk
    · simp [Dict.keys, hk]
    · have : k ∈ Dict.keys t := by
        simp only [Dict.keys, List.map_cons, List.mem_cons] at h ⊢
        rcases h with h | h
        · exact absurd h.symm hk
        · exact h
      have := ih this
      simp only [Dict.keys] at this
      simp [Dict.keys, this]

theorem update_append (d e : Dict String ℝ) (hn : e.keys.Nodup) (h : ∀ k ∈ e.keys, k ∉ d.keys) : Dist.update d e = d ++ e := by
  induction e generalizing d with
  | nil => simp [Dist.update]
  | cons p t ih =>
    obtain ⟨k, v⟩ := p
    simp only [Dict.keys, List.map_cons, List.nodup_cons] at hn
    have hk : k ∉ Dict.keys d := h k (by simp [Dict.keys])
    unfold Dist.update
    rw [List.foldl_cons, Dict.set_of_not_mem _ _ _ hk]
    change Dist.update (d ++ [(k, v)]) t = _
    rw [ih _ hn.2]
    · simp
    · intro k' hk'
      simp only [Dict.keys, List.map_append, List.map_cons, List.map_nil, List.mem_append, List.mem_singleton, not_or]
      refine ⟨h k' (by simp [Dict.keys]; exact Or.inr (by simpa [Dict.keys] using hk')), ?_⟩
      rintro rfl
      exact hn.1 hk'

/-- C52: what `_make_copy` of one changed parameter constructs: the same class with the object's own mean, standard deviation and
remembered arguments, except for the one parameter named.  (The start point is not passed on.) -/
theorem C52_copy (d : Dist) (hn : (Dict.keys d.kwargs).Nodup) (h1 : "mean" ∉ Dict.keys d.kwargs) (h2 : "std" ∉ Dict.keys d.kwargs) (v : ℝ) :
    d.makeCopy [] = (d.cls.new d.marg.mean d.marg.stdv d.kwargs).map (fun m => ⟨d.cls, m, d.kwargs⟩) ∧
    d.makeCopy [("mean", v)] = (d.cls.new v d.marg.stdv d.kwargs).map (fun m => ⟨d.cls, m, d.kwargs⟩) ∧
    d.makeCopy [("std", v)] = (d.cls.new d.marg.mean v d.kwargs).map (fun m => ⟨d.cls, m, d.kwargs⟩) ∧
    ∀ p, p ∈ Dict.keys d.kwargs →
      d.makeCopy [(p, v)] = (d.cls.new d.marg.mean d.marg.stdv (d.kwargs.set p v)).map (fun m => ⟨d.cls, m, d.kwargs.set p v⟩) := by
  have hb : Dist.update [("mean", d.marg.mean), ("std", d.marg.stdv)] d.kwargs =
      ("mean", d.marg.mean) :: ("std", d.marg.stdv) :: d.kwargs := by
    rw [update_append _ _ hn]
    · rfl
    · intro k hk
      simp only [Dict.keys, List.map_cons, List.map_nil, List.mem_cons, List.not_mem_nil, or_false, not_or]
      exact ⟨fun h => h1 (h ▸ hk), fun h => h2 (h ▸ hk)⟩
  have hfil : ∀ e : Dict String ℝ, "mean" ∉ Dict.keys e → "std" ∉ Dict.keys e →
      e.filter (fun p => decide (p.1 ≠ "mean" ∧ p.1 ≠ "std")) = e := by
    intro e he1 he2
    rw [List.filter_eq_self]
    intro p hp
    have : p.1 ∈ Dict.keys e := List.mem_map_of_mem hp
    simp only [decide_eq_true_eq]
    exact ⟨fun h => he1 (h ▸ this), fun h => he2 (h ▸ this)⟩
  have core : ∀ (a b : ℝ) (e : Dict String ℝ) (o : Dict String ℝ), "mean" ∉ Dict.keys e → "std" ∉ Dict.keys e →
      Dist.update (Dist.update [("mean", d.marg.mean), ("std", d.marg.stdv)] d.kwargs) o = ("mean", a) :: ("std", b) :: e →
      d.makeCopy o = (d.cls.new a b e).map (fun m => ⟨d.cls, m, e⟩) := by
    intro a b e o he1 he2 ho
    unfold Dist.makeCopy
    simp only [ho]
    have hf : (("mean", a) :: ("std", b) :: e).filter (fun p => decide (p.1 ≠ "mean" ∧ p.1 ≠ "std")) = e := by
      rw [List.filter_cons, List.filter_cons]
      simp only [ne_eq, not_true_eq_false, false_and, and_false, decide_false, Bool.false_eq_true, if_false]
      exact hfil e he1 he2
    simp only [hf, Dict.get?, if_true, Option.getD_some, if_neg (by decide : ¬("mean" : String) = "std")]
    cases d.cls.new a b e <;> rfl
  refine ⟨core _ _ _ _ h1 h2 (by rw [hb]; rfl), core _ _ _ _ h1 h2 (by rw [hb]; simp [Dist.update, Dict.set]),
    core _ _ _ _ h1 h2 (by rw [hb]; simp [Dist.update, Dict.set]), fun p hp => ?_⟩
  have hp1 : ¬ "mean" = p := fun h => h1 (h ▸ hp)
  have hp2 : ¬ "std" = p := fun h => h2 (h ▸ hp)
  have hks := keys_set d.kwargs p v hp
  exact core _ _ _ _ (hks ▸ h1) (hks ▸ h2) (by rw [hb]; simp [Dist.update, Dict.set, hp1, hp2])

end Pystra.Props
