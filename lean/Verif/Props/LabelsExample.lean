import Verif.Props.Labels

/-! C100: the hypotheses are met by concrete names, constants and limit-state functions. -/

namespace Pystra.Props
open Spec Session Form LimitState
open StochModel (Op)

variable {V : Type}

theorem get?_renameKeys {ρ : String → String} (hρ : Function.Injective ρ) (d : Dict String V) (k : String) :
    (renameKeys ρ d).get? (ρ k) = d.get? k := by
  induction d with
  | nil => rfl
  | cons e d ih =>
    obtain ⟨k', v'⟩ := e
    simp only [renameKeys, List.map_cons, Dict.get?, hρ.eq_iff] at ih ⊢
    rw [ih]

theorem get?_without (name k : String) (hk : k ≠ name) (d : Dict String V) : (without name d).get? k = d.get? k := by
  induction d with
  | nil => rfl
  | cons e d ih =>
    obtain ⟨k', v'⟩ := e
    by_cases h : k' = name
    · subst h
      have h2 : ¬ k' = k := fun h => hk h.symm
      simp only [without, Dict.get?, if_neg h2] at ih ⊢
      simpa using ih
    · simp only [without] at ih
      by_cases h2 : k' = k
      · subst h2
        simp [without, Dict.get?, h]
      · simp only [ne_eq, decide_not] at ih
        simp [without, h, Dict.get?, h2, ih]

/-- `R - q` with the arguments called `r` and `q`. -/
noncomputable def labelled (r q : String) : Kwargs → GRet := fun kw =>
  .val (.arr (List.zipWith (· - ·) ((kw.get? r).getD []) ((kw.get? q).getD [])))

/-- `R - 2` with the argument called `R`. -/
noncomputable def labelledTwo : Kwargs → GRet := fun kw => .val (.arr (((kw.get? "R").getD []).map (· - 2)))

theorem prefix_inj : Function.Injective fun s : String => "v_" ++ s := by
  intro a b h
  have h := congrArg String.toList h
  simp only [String.toList_append, List.append_cancel_left_eq] at h
  exact String.toList_inj.1 h

/-- Every name gets the prefix `v_`. -/
example (c : Setup) (jobs : List (Job 3)) (ev : Ev Marginal) :
    session { c with expr := labelled "v_R" "v_q" } jobs (renameEv ("v_" ++ ·) ev) =
      (session { c with expr := labelled "R" "q" } jobs ev).map fun r => (renameEv ("v_" ++ ·) r.1, r.2) :=
  C100_rename (c := { c with expr := labelled "R" "q" }) (e := labelled "v_R" "v_q") prefix_inj
    (fun kw => by
      have h1 : (renameKeys ("v_" ++ ·) kw).get? "v_R" = kw.get? "R" := get?_renameKeys prefix_inj kw "R"
      have h2 : (renameKeys ("v_" ++ ·) kw).get? "v_q" = kw.get? "q" := get?_renameKeys prefix_inj kw "q"
      simp only [labelled, h1, h2]) jobs ev

/-- For every limit-state function and every one-to-one renaming there is the function of the new names. -/
example {ρ : String → String} (hρ : Function.Injective ρ) (c : Setup) : ∃ e : Kwargs → GRet, ∀ kw, e (renameKeys ρ kw) = c.expr kw := by
  have hi : Function.Injective (renameKeys (V := List ℝ) ρ) :=
    List.map_injective_iff.2 fun a b h => by
      obtain ⟨a1, a2⟩ := a
      obtain ⟨b1, b2⟩ := b
      simp only [Prod.mk.injEq, hρ.eq_iff] at h
      simp [h]
  exact ⟨fun kw => c.expr (Function.invFun (renameKeys ρ) kw), fun kw => by simp only [Function.leftInverse_invFun hi kw]⟩

theorem labelled_fixed : FixedArg "q" 2 (labelled "R" "q") labelledTwo := by
  intro kw nc h hq
  simp only [labelled, labelledTwo, get?_without "q" "R" (by decide), hq]
  congr 2
  rcases hr : kw.get? "R" with _ | l
  · simp
  · have hl : l.length = nc := h _ (Dict.mem_of_get? kw "R" l hr)
    subst hl
    simp only [Option.getD_some]
    clear hr h hq
    induction l with
    | nil => rfl
    | cons a l ih => simp [List.replicate_succ, ih]

/-- A model with one variable and the constant `q = 2`, and the model without it: `R - q` and `R - 2`. -/
example (c : Setup) (jobs : List (Job 1)) (m : Marginal) :
    session { c with expr := labelledTwo } jobs ⟨StochModel.init.run [.add (.distribution ⟨"R", m⟩), .calls 5], []⟩ =
      (session { c with expr := labelled "R" "q" } jobs
        ⟨StochModel.init.run [.add (.distribution ⟨"R", m⟩), .add (.constant "q" 2), .calls 5], []⟩).map
        fun r => (withoutEv "q" r.1, r.2) := by
  have h := C100_constant (c := { c with expr := labelled "R" "q" }) labelled_fixed jobs
    (ev := ⟨StochModel.init.run [.add (.distribution ⟨"R", m⟩), .add (.constant "q" 2), .calls 5], []⟩) ⟨_, rfl⟩
    (by simp [StochModel.run, StochModel.step, StochModel.addVariable, StochModel.init, Dict.set, Dict.get?, StochModel.addCallFunction])
  have hm := C100_constant_model (D := Marginal) "q" (2 : ℝ) [.add (.distribution ⟨"R", m⟩)] [.calls 5]
    (by simp [NotNamed]) (by simp [NotNamed])
  simp only [List.cons_append, List.nil_append] at hm
  rw [hm]
  exact h

/-- A renaming that is not one to one merges two variables: the second addition is refused. -/
example (m : Marginal) : ∃ (ρ : String → String) (ops : List (Op Marginal ℝ)),
    (StochModel.init.run (ops.map (renameOp ρ))).marg.length = 1 ∧ (renameModel ρ (StochModel.init.run ops)).marg.length = 2 :=
  ⟨fun _ => "X", [.add (.distribution ⟨"R", m⟩), .add (.distribution ⟨"S", m⟩)], by
    simp [renameOp, renameObj, renameDist, StochModel.run, StochModel.step, StochModel.addVariable, StochModel.init], by
    simp [renameModel, StochModel.run, StochModel.step, StochModel.addVariable, StochModel.init]⟩

end Pystra.Props
