import Verif.Spec.CalibrationLife
import Verif.Props.CalibrationRun

/-! C113: the life of a `Calibration` object. -/

namespace Pystra
namespace Props
open Calib Pystra.Spec CalibState

variable {D : Type}

theorem settings_append (C : Calib D) (a b : List CalibCall) : settings C (a ++ b) = settings (settings C a) b := by
  induction a generalizing C with
  | nil => rfl
  | cons c t ih => cases c <;> exact ih _

theorem latest_append {A B : Type} (f : List A → A → Option B) (l : List A) (a : A) :
    latest f (l ++ [a]) = (f l a).or (latest f l) := by
  unfold latest
  rw [List.reverse_append]
  simp only [List.reverse_cons, List.reverse_nil, List.nil_append, List.cons_append, latestRev, List.reverse_reverse]
  cases f l a <;> rfl

/-- The constructor's labels, load combination and limit state never change. -/
theorem settings_fixed (C : Calib D) (calls : List CalibCall) :
    (settings C calls).lc = C.lc ∧ (settings C calls).lsf = C.lsf ∧ (settings C calls).form = C.form ∧ (settings C calls).dfNom = C.dfNom ∧
    (settings C calls).cvar = C.cvar := by
  induction calls generalizing C with
  | nil => exact ⟨rfl, rfl, rfl, rfl, rfl⟩
  | cons c t ih => cases c <;> exact ih _

theorem betas_settings (C : Calib D) (calls : List CalibCall) (z : ℝ) (cases : List String) :
    (settings C calls).betasAt z cases = C.betasAt z cases := by
  obtain ⟨h1, -, h3, -, h5⟩ := settings_fixed C calls
  induction cases with
  | nil => rfl
  | cons q t ih =>
    have e : (settings C calls).relFunc q z = C.relFunc q z := by unfold relFunc; rw [h1, h3, h5]
    simp only [betasAt, e, ih]

theorem lsf_settings (C : Calib D) (calls : List CalibCall) (df : Frame) (b : Bool) :
    (settings C calls).lsfTable df b = C.lsfTable df b := by
  obtain ⟨h1, h2, -⟩ := settings_fixed C calls
  have e1 : ∀ acc col rows, (settings C calls).lsfColumn acc col rows = C.lsfColumn acc col rows := by
    intro acc col rows
    induction rows with
    | nil => rfl
    | cons r t ih => simp only [lsfColumn, ih, lsfCell, Calib.eval, h1, h2]
  have e2 : ∀ cols acc, (settings C calls).lsfLoop df b cols acc = C.lsfLoop df b cols acc := by
    intro cols
    induction cols with
    | nil => intro acc; rfl
    | cons c t ih =>
      intro acc
      simp only [lsfLoop, e1]
      cases C.lsfColumn acc c df.index <;> simp [ih]
  exact e2 _ _

theorem session_append (fsolve : Fsolve) (fuel : ℕ) (s : CalibState D) (a : List CalibCall) (c : CalibCall) :
    session fsolve fuel s (a ++ [c]) = (match session fsolve fuel s a with
      | none => none
      | some (s1, os) => match exec fsolve fuel s1 c with
        | none => none
        | some (s2, o) => some (s2, os ++ [o])) := by
  induction a generalizing s with
  | nil =>
    simp only [List.nil_append, session]
    cases h : exec fsolve fuel s c with
    | none => rfl
    | some p => rfl
  | cons d t ih =>
    simp only [List.cons_append, session]
    cases h : exec fsolve fuel s d with
    | none => rfl
    | some p =>
      obtain ⟨s1, o⟩ := p
      simp only [ih]
      cases h2 : session fsolve fuel s1 t with
      | none => rfl
      | some q =>
        obtain ⟨s2, os⟩ := q
        simp only
        cases h3 : exec fsolve fuel s2 c with
        | none => rfl
        | some r => rfl

/-- What `run` does to the object, in terms of what it computes. -/
theorem run_effect {fsolve : Fsolve} {fuel : ℕ} {est : Option String} {setMax : Bool} {s s' : CalibState D} {o : CalibOut}
    (h : CalibState.run fsolve fuel est setMax s = some (s', o)) :
    s'.cfg = s.cfg ∧
    s'.xstar = (match s.cfg.runCalibration fsolve fuel with
      | some (.ok x) => some x
      | _ => none).or s.xstar ∧
    s'.factors = (match s.cfg.run fsolve est setMax fuel with
      | some (.ok (_, some F)) => some F
      | _ => none).or s.factors ∧
    o = (match s.cfg.run fsolve est setMax fuel with
      | some (.error e) => .raised e
      | _ => .nothing) := by
  unfold CalibState.run at h
  unfold Calib.run
  cases hc : s.cfg.runCalibration fsolve fuel with
  | none => rw [hc] at h; cases h
  | some q =>
    rw [hc] at h
    cases q with
    | error e =>
      simp only [Option.some.injEq, Prod.mk.injEq] at h
      obtain ⟨rfl, rfl⟩ := h
      exact ⟨rfl, rfl, rfl, rfl⟩
    | ok x =>
      dsimp only at h ⊢
      by_cases h1 : est.getD s.cfg.estMethod = "coeff"
      · rw [if_pos h1] at h ⊢
        cases he : estimate s.cfg calcPgCoeff x setMax with
        | error e =>
          rw [he] at h
          simp only [Option.some.injEq, Prod.mk.injEq] at h
          obtain ⟨rfl, rfl⟩ := h
          exact ⟨rfl, rfl, rfl, rfl⟩
        | ok F =>
          rw [he] at h
          simp only [Option.some.injEq, Prod.mk.injEq] at h
          obtain ⟨rfl, rfl⟩ := h
          exact ⟨rfl, rfl, rfl, rfl⟩
      · rw [if_neg h1] at h ⊢
        by_cases h2 : est.getD s.cfg.estMethod = "matrix"
        · rw [if_pos h2] at h ⊢
          cases he : estimate s.cfg calcPgMatrix x setMax with
          | error e =>
            rw [he] at h
            simp only [Option.some.injEq, Prod.mk.injEq] at h
            obtain ⟨rfl, rfl⟩ := h
            exact ⟨rfl, rfl, rfl, rfl⟩
          | ok F =>
            rw [he] at h
            simp only [Option.some.injEq, Prod.mk.injEq] at h
            obtain ⟨rfl, rfl⟩ := h
            exact ⟨rfl, rfl, rfl, rfl⟩
        · rw [if_neg h2] at h ⊢
          simp only [Option.some.injEq, Prod.mk.injEq] at h
          obtain ⟨rfl, rfl⟩ := h
          exact ⟨rfl, rfl, rfl, rfl⟩

/-- **C113 (life of a Calibration object).**  After any history of calls — runs, failed runs, queries, changes of the settings — the object has the
settings of the last assignments, the design points of the last `run` that could calibrate all cases, and the factors of the last `run`
that returned with a known estimation method; and every call gave the answer that the settings and results of that moment determine. -/
theorem C113_life (fsolve : Fsolve) (fuel : ℕ) (C : Calib D) (calls : List CalibCall) {s : CalibState D} {outs : List CalibOut}
    (h : session fsolve fuel (fresh C) calls = some (s, outs)) :
    s.cfg = settings C calls ∧
    s.xstar = latest (calibrated fsolve fuel C) calls ∧
    s.factors = latest (estimated fsolve fuel C) calls ∧
    outs.length = calls.length ∧
    ∀ pre c post, calls = pre ++ c :: post → outs[pre.length]? = some (outcome fsolve fuel C pre c) := by
  induction calls using List.reverseRecOn generalizing s outs with
  | nil =>
    simp only [session, Option.some.injEq, Prod.mk.injEq] at h
    obtain ⟨rfl, rfl⟩ := h
    refine ⟨rfl, rfl, rfl, rfl, fun pre c post hp => ?_⟩
    have := congrArg List.length hp
    simp at this
  | append_singleton l c ih =>
    rw [session_append] at h
    cases hl : session fsolve fuel (fresh C) l with
    | none => rw [hl] at h; cases h
    | some q =>
      obtain ⟨s1, os⟩ := q
      rw [hl] at h
      dsimp only at h
      cases he : exec fsolve fuel s1 c with
      | none => rw [he] at h; cases h
      | some q2 =>
        obtain ⟨s2, o⟩ := q2
        rw [he] at h
        simp only [Option.some.injEq, Prod.mk.injEq] at h
        obtain ⟨rfl, rfl⟩ := h
        obtain ⟨i1, i2, i3, i4, i5⟩ := ih hl
        have key : s2.cfg = settings C (l ++ [c]) ∧ s2.xstar = latest (calibrated fsolve fuel C) (l ++ [c]) ∧
            s2.factors = latest (estimated fsolve fuel C) (l ++ [c]) ∧ o = outcome fsolve fuel C l c := by
          rw [latest_append, latest_append, settings_append, ← i1, ← i2, ← i3]
          cases c with
          | run est setMax =>
            obtain ⟨k1, k2, k3, k4⟩ := run_effect he
            rw [k1, k2, k3, k4]
            simp only [calibrated, estimated, outcome, ← i1]
            exact ⟨rfl, rfl, rfl, rfl⟩
          | designParams a b =>
            simp only [exec] at he
            simp only [calibrated, estimated, outcome, ← i1, ← i3]
            cases hF : s1.factors with
            | none =>
              rw [hF] at he
              simp only [Option.some.injEq, Prod.mk.injEq] at he
              obtain ⟨rfl, rfl⟩ := he
              exact ⟨rfl, rfl, by rw [hF]; rfl, rfl⟩
            | some F =>
              rw [hF] at he
              simp only [Option.some.injEq, Prod.mk.injEq] at he
              obtain ⟨rfl, rfl⟩ := he
              refine ⟨rfl, rfl, by rw [hF]; rfl, ?_⟩
              dsimp only
              cases s1.cfg.getDesignParamFactor F a b <;> rfl
          | betas z =>
            simp only [exec, Option.some.injEq, Prod.mk.injEq] at he
            obtain ⟨rfl, rfl⟩ := he
            refine ⟨rfl, rfl, rfl, ?_⟩
            simp only [outcome]
            have e : s1.cfg.betasAt z s1.cfg.labelCombCases = C.betasAt z C.labelCombCases := by
              rw [i1, betas_settings]
              unfold labelCombCases
              rw [(settings_fixed C l).1]
            rw [e]
            cases C.betasAt z C.labelCombCases <;> rfl
          | lsfTable df b =>
            simp only [exec, Option.some.injEq, Prod.mk.injEq] at he
            obtain ⟨rfl, rfl⟩ := he
            refine ⟨rfl, rfl, rfl, ?_⟩
            simp only [outcome]
            rw [i1, lsf_settings]
            cases C.lsfTable df b <;> rfl
          | report =>
            simp only [exec] at he
            simp only [calibrated, estimated, outcome, ← i2, ← i3]
            cases hx : s1.xstar with
            | none =>
              rw [hx] at he
              simp only [Option.some.injEq, Prod.mk.injEq] at he
              obtain ⟨rfl, rfl⟩ := he
              exact ⟨rfl, by rw [hx]; rfl, rfl, rfl⟩
            | some x =>
              rw [hx] at he
              dsimp only at he
              cases hF : s1.factors with
              | none =>
                rw [hF] at he
                simp only [Option.some.injEq, Prod.mk.injEq] at he
                obtain ⟨rfl, rfl⟩ := he
                exact ⟨rfl, by rw [hx]; rfl, by rw [hF]; rfl, rfl⟩
              | some F =>
                rw [hF] at he
                simp only [Option.some.injEq, Prod.mk.injEq] at he
                obtain ⟨rfl, rfl⟩ := he
                exact ⟨rfl, by rw [hx]; rfl, by rw [hF]; rfl, rfl⟩
          | setTarget b =>
            simp only [exec, Option.some.injEq, Prod.mk.injEq] at he
            obtain ⟨rfl, rfl⟩ := he
            exact ⟨rfl, rfl, rfl, rfl⟩
          | setCalibMethod b =>
            simp only [exec, Option.some.injEq, Prod.mk.injEq] at he
            obtain ⟨rfl, rfl⟩ := he
            exact ⟨rfl, rfl, rfl, rfl⟩
          | setEstMethod b =>
            simp only [exec, Option.some.injEq, Prod.mk.injEq] at he
            obtain ⟨rfl, rfl⟩ := he
            exact ⟨rfl, rfl, rfl, rfl⟩
        obtain ⟨k1, k2, k3, k4⟩ := key
        refine ⟨k1, k2, k3, by simp [i4], fun pre d post hp => ?_⟩
        rcases List.eq_nil_or_concat post with rfl | ⟨post', e, rfl⟩
        · obtain ⟨rfl, hd⟩ := List.append_inj' hp rfl
          injection hd with hd
          subst hd
          rw [← i4, List.getElem?_append_right le_rfl, Nat.sub_self, k4]
          rfl
        · rw [List.concat_eq_append] at hp
          rw [show pre ++ d :: (post' ++ [e]) = (pre ++ d :: post') ++ [e] by simp] at hp
          obtain ⟨hl2, -⟩ := List.append_inj' hp rfl
          rw [List.getElem?_append_left, i5 pre d post' hl2]
          rw [i4, hl2]
          simp

/-- **C113 (every call ends).**  Provided that the root finder of the method "optimize" returns (or raises): the alpha method needs at most 100 rounds. -/
theorem C113_ends (fsolve : Fsolve) {fuel : ℕ} (hf : 100 ≤ fuel) (C : Calib D) (calls : List CalibCall) :
    ∃ s outs, session fsolve fuel (fresh C) calls = some (s, outs) := by
  have hcase : ∀ (C : Calib D) z case, calibrateCase fsolve C z fuel case ≠ none := by
    intro C z case
    unfold calibrateCase
    by_cases h1 : C.calibMethod = "optimize"
    · rw [if_pos h1]; simp
    · rw [if_neg h1]
      by_cases h2 : C.calibMethod = "alpha"
      · rw [if_pos h2]
        obtain ⟨r, hr⟩ := Option.isSome_iff_exists.1 (C60_terminates C case z C.betaT 1e-4 (maxIter := 100) (by norm_num) hf)
        rw [hr]
        rcases r with e | ⟨z, f, n⟩ <;> simp
      · rw [if_neg h2]; simp
  have hloop : ∀ (C : Calib D) z cases, calibrateLoop fsolve C z fuel cases ≠ none := by
    intro C z cases
    induction cases with
    | nil => simp [calibrateLoop]
    | cons q t ih =>
      simp only [calibrateLoop]
      obtain ⟨r, hr⟩ := Option.ne_none_iff_exists'.1 (hcase C z q)
      rw [hr]
      rcases r with e | r
      · simp
      · dsimp only
        obtain ⟨r2, hr2⟩ := Option.ne_none_iff_exists'.1 ih
        rw [hr2]
        rcases r2 with e | r2 <;> simp
  have hcal : ∀ C : Calib D, C.runCalibration fsolve fuel ≠ none := by
    intro C
    unfold runCalibration calibrateDesignParam
    cases C.lc.constant with
    | none => simp
    | some consts =>
      dsimp only
      cases consts.get? C.cvar with
      | none => simp
      | some c =>
        dsimp only
        obtain ⟨r, hr⟩ := Option.ne_none_iff_exists'.1 (hloop C c.val C.labelCombCases)
        rw [hr]
        rcases r with e | rs
        · simp
        · dsimp only
          cases concatZ (rs.map Prod.fst) <;> simp
  have hrun : ∀ (s : CalibState D) est sm, CalibState.run fsolve fuel est sm s ≠ none := by
    intro s est sm
    unfold CalibState.run
    obtain ⟨r, hr⟩ := Option.ne_none_iff_exists'.1 (hcal s.cfg)
    rw [hr]
    rcases r with e | x
    · simp
    · dsimp only
      by_cases h1 : est.getD s.cfg.estMethod = "coeff"
      · rw [if_pos h1]; cases estimate s.cfg calcPgCoeff x sm <;> simp
      · rw [if_neg h1]
        by_cases h2 : est.getD s.cfg.estMethod = "matrix"
        · rw [if_pos h2]; cases estimate s.cfg calcPgMatrix x sm <;> simp
        · rw [if_neg h2]; simp
  have hex : ∀ (s : CalibState D) c, exec fsolve fuel s c ≠ none := by
    intro s c
    cases c with
    | run est sm => exact hrun s est sm
    | designParams a b => simp only [exec]; cases s.factors <;> simp
    | report =>
      simp only [exec]
      cases s.xstar with
      | none => simp
      | some x => dsimp only; cases s.factors <;> simp
    | _ => simp [exec]
  have : ∀ (s : CalibState D), session fsolve fuel s calls ≠ none := by
    induction calls with
    | nil => intro s; simp [session]
    | cons c t ih =>
      intro s
      simp only [session]
      obtain ⟨⟨s1, o⟩, hr⟩ := Option.ne_none_iff_exists'.1 (hex s c)
      rw [hr]
      dsimp only
      obtain ⟨⟨s2, os⟩, hr2⟩ := Option.ne_none_iff_exists'.1 (ih s1)
      rw [hr2]
      simp
  obtain ⟨⟨s, outs⟩, h⟩ := Option.ne_none_iff_exists'.1 (this (fresh C))
  exact ⟨s, outs, h⟩

/-- **C113 (a completed run).**  When the last call is a `run` that returned, with a known estimation method, the object holds the design points
and the factors of that run — the same as those of a new object with the present settings, whatever happened before. -/
theorem C113_completed (fsolve : Fsolve) (fuel : ℕ) (C : Calib D) (calls : List CalibCall) (est : Option String) (setMax : Bool)
    {s : CalibState D} {outs : List CalibOut} (h : session fsolve fuel (fresh C) (calls ++ [.run est setMax]) = some (s, outs ++ [.nothing]))
    (hm : est.getD (settings C calls).estMethod = "coeff" ∨ est.getD (settings C calls).estMethod = "matrix") :
    ∃ x F, (settings C calls).run fsolve est setMax fuel = some (.ok (x, some F)) ∧ s.xstar = some x ∧ s.factors = some F ∧
      ∃ o', session fsolve fuel (fresh (settings C calls)) [.run est setMax] = some (s, [o']) := by
  rw [session_append] at h
  cases hl : session fsolve fuel (fresh C) calls with
  | none => rw [hl] at h; cases h
  | some q =>
    obtain ⟨s1, os⟩ := q
    rw [hl] at h
    dsimp only at h
    cases he : exec fsolve fuel s1 (.run est setMax) with
    | none => rw [he] at h; cases h
    | some q2 =>
      obtain ⟨s2, o⟩ := q2
      rw [he] at h
      simp only [Option.some.injEq, Prod.mk.injEq] at h
      obtain ⟨rfl, ho⟩ := h
      obtain ⟨-, ho⟩ := List.append_inj' ho rfl
      injection ho with ho
      subst ho
      have hcfg := (C113_life fsolve fuel C calls hl).1
      have hrun : CalibState.run fsolve fuel est setMax s1 = some (s2, .nothing) := he
      unfold CalibState.run at hrun
      unfold Calib.run
      simp only [session, exec]
      unfold CalibState.run
      simp only [fresh]
      rw [← hcfg] at hm ⊢
      cases hc : s1.cfg.runCalibration fsolve fuel with
      | none => rw [hc] at hrun; cases hrun
      | some q =>
        rw [hc] at hrun
        rcases q with e | x
        · simp at hrun
        · dsimp only at hrun ⊢
          by_cases h1 : est.getD s1.cfg.estMethod = "coeff"
          · rw [if_pos h1] at hrun ⊢
            cases hE : estimate s1.cfg calcPgCoeff x setMax with
            | error e => rw [hE] at hrun; simp at hrun
            | ok F =>
              rw [hE] at hrun
              simp only [Option.some.injEq, Prod.mk.injEq, and_true] at hrun
              subst hrun
              exact ⟨x, F, rfl, rfl, rfl, .nothing, by simp [h1]⟩
          · have h2 : est.getD s1.cfg.estMethod = "matrix" := hm.resolve_left h1
            rw [if_neg h1, if_pos h2] at hrun ⊢
            cases hE : estimate s1.cfg calcPgMatrix x setMax with
            | error e => rw [hE] at hrun; simp at hrun
            | ok F =>
              rw [hE] at hrun
              simp only [Option.some.injEq, Prod.mk.injEq, and_true] at hrun
              subst hrun
              exact ⟨x, F, rfl, rfl, rfl, .nothing, by simp [h2]⟩

/-- **C113 (a run that raises).**  The factors stay as they were; so do the design points, unless the exception came from the estimation of the
factors: then the design points are already the new ones. -/
theorem C113_raised (fsolve : Fsolve) (fuel : ℕ) (C : Calib D) (calls : List CalibCall) (est : Option String) (setMax : Bool)
    {s s' : CalibState D} {outs : List CalibOut} {e : PyErr} (h0 : session fsolve fuel (fresh C) calls = some (s, outs))
    (h : session fsolve fuel (fresh C) (calls ++ [.run est setMax]) = some (s', outs ++ [.raised e])) :
    s'.factors = s.factors ∧ s'.cfg = s.cfg ∧
    ((settings C calls).runCalibration fsolve fuel = some (.error e) → s'.xstar = s.xstar) ∧
    (∀ x, (settings C calls).runCalibration fsolve fuel = some (.ok x) → s'.xstar = some x) ∧
    ((settings C calls).runCalibration fsolve fuel = some (.error e) ∨ ∃ x, (settings C calls).runCalibration fsolve fuel = some (.ok x)) := by
  rw [session_append, h0] at h
  dsimp only at h
  cases he : exec fsolve fuel s (.run est setMax) with
  | none => rw [he] at h; cases h
  | some q2 =>
    obtain ⟨s2, o⟩ := q2
    rw [he] at h
    simp only [Option.some.injEq, Prod.mk.injEq, List.append_cancel_left_eq, List.cons.injEq, and_true] at h
    obtain ⟨rfl, rfl⟩ := h
    have hcfg := (C113_life fsolve fuel C calls h0).1
    obtain ⟨k1, k2, k3, k4⟩ := run_effect he
    rw [← hcfg]
    have hn : ∀ x F, s.cfg.run fsolve est setMax fuel ≠ some (.ok (x, F)) := by
      intro x F hx
      rw [hx] at k4
      cases k4
    refine ⟨?_, k1, fun hc => ?_, fun x hc => ?_, ?_⟩
    · rw [k3]
      split
      · next F hF => exact absurd hF (hn _ _)
      · rfl
    · rw [k2, hc]; rfl
    · rw [k2, hc]; rfl
    · cases hc : s.cfg.runCalibration fsolve fuel with
      | none =>
        have : s.cfg.run fsolve est setMax fuel = none := by unfold Calib.run; rw [hc]
        rw [this] at k4
        cases k4
      | some r =>
        rcases r with e' | x
        · have : s.cfg.run fsolve est setMax fuel = some (.error e') := by unfold Calib.run; rw [hc]
          rw [this] at k4
          injection k4 with k4
          subst k4
          exact Or.inl rfl
        · exact Or.inr ⟨x, rfl⟩

theorem lsfColumn_ok {C : Calib D} {acc : Frame} {col : String} {rows : List String} {l : List ℝ} (h : C.lsfColumn acc col rows = .ok l) :
    l.length = rows.length ∧ ∀ (i : ℕ) r, rows[i]? = some r → ∃ x v, acc.get r col = some x ∧ C.lsfCell col x = .ok v ∧ l[i]? = some v := by
  induction rows generalizing l with
  | nil =>
    simp only [lsfColumn, Except.ok.injEq] at h
    subst h
    exact ⟨rfl, fun i r hi => by simp at hi⟩
  | cons q t ih =>
    simp only [lsfColumn] at h
    cases hx : acc.get q col with
    | none => rw [hx] at h; cases h
    | some x =>
      rw [hx] at h
      dsimp only at h
      cases hv : C.lsfCell col x with
      | error e => rw [hv] at h; cases h
      | ok v =>
        rw [hv] at h
        dsimp only at h
        cases ht : C.lsfColumn acc col t with
        | error e => rw [ht] at h; cases h
        | ok r =>
          rw [ht] at h
          simp only [Except.ok.injEq] at h
          subst h
          obtain ⟨h1, h2⟩ := ih ht
          refine ⟨by simp [h1], fun i r' hi => ?_⟩
          cases i with
          | zero =>
            simp only [List.getElem?_cons_zero, Option.some.injEq] at hi
            subst hi
            exact ⟨x, v, hx, hv, rfl⟩
          | succ i =>
            simp only [List.getElem?_cons_succ] at hi ⊢
            exact h2 i r' hi

theorem lsfLoop_ok {C : Calib D} {df : Frame} {b : Bool} {cols : List String} {acc t : Frame} (hi : acc.index = df.index)
    (hnd : cols.Nodup) (hc : ∀ c ∈ cols, c ∈ acc.columns) (h : C.lsfLoop df b cols acc = .ok t) :
    t.index = df.index ∧ t.columns = acc.columns ∧ (∀ r c, c ∉ cols → t.get r c = acc.get r c) ∧
    ∀ r ∈ df.index, ∀ c ∈ cols, ∃ x v, acc.get r c = some x ∧ C.lsfCell c x = .ok v ∧ t.get r c = some (if b then |v| else v) := by
  induction cols generalizing acc with
  | nil =>
    simp only [lsfLoop, Except.ok.injEq] at h
    subst h
    exact ⟨hi, rfl, fun r c _ => rfl, fun r _ c hc => by cases hc⟩
  | cons q rest ih =>
    simp only [lsfLoop] at h
    obtain ⟨hq, hnd'⟩ := List.nodup_cons.1 hnd
    cases hl : C.lsfColumn acc q df.index with
    | error e => rw [hl] at h; cases h
    | ok l =>
      rw [hl] at h
      dsimp only at h
      obtain ⟨j1, j2⟩ := lsfColumn_ok hl
      obtain ⟨acc', hacc'⟩ : ∃ a : Frame, a = { acc with cell := fun r c => if c = q then (l[df.index.idxOf r]?).map (fun x => if b then |x| else x) else acc.cell r c } := ⟨_, rfl⟩
      rw [← hacc'] at h
      have a1 : acc'.index = acc.index := by rw [hacc']
      have a2 : acc'.columns = acc.columns := by rw [hacc']
      have a3 : ∀ r c, c ≠ q → acc'.get r c = acc.get r c := by
        intro r c hne
        rw [hacc']
        simp only [Frame.get, if_neg hne]
      have a4 : ∀ r ∈ df.index, acc'.get r q = (l[df.index.idxOf r]?).map (fun x => if b then |x| else x) := by
        intro r hr
        rw [Frame.get_of_mem acc' (by rw [a1, hi]; exact hr) (by rw [a2]; exact hc q (by simp)), hacc']
        simp
      obtain ⟨k1, k2, k3, k4⟩ := ih (acc := acc') (by rw [a1, hi]) hnd' (fun c hcc => by rw [a2]; exact hc c (by simp [hcc])) h
      refine ⟨k1, by rw [k2, a2], fun r c hcn => ?_, fun r hr c hcc => ?_⟩
      · rw [List.mem_cons, not_or] at hcn
        rw [k3 r c hcn.2, a3 r c hcn.1]
      · rcases List.mem_cons.1 hcc with rfl | hcr
        · obtain ⟨x, v, e1, e2, e3⟩ := j2 (df.index.idxOf r) r (by rw [List.getElem?_eq_getElem (List.idxOf_lt_length_iff.2 hr), List.getElem_idxOf])
          refine ⟨x, v, e1, e2, ?_⟩
          rw [k3 r c hq, a4 r hr, e3]
          rfl
        · obtain ⟨x, v, e1, e2, e3⟩ := k4 r hr c hcr
          exact ⟨x, v, by rw [← a3 r c (fun e => hq (e ▸ hcr))]; exact e1, e2, e3⟩

/-- **C113 (element-wise evaluation).**  `calc_lsf_eval_df(df)` returns a table with the rows and columns of `df`, in which the entry of a column is the
(absolute) value of the limit state at the entry of `df` in that variable, 1 in the argument `"z"`, zero in all other variables, and the
constants at their own values. -/
theorem C113_table {C : Calib D} {consts : Dict String ConstObj} (hk : C.lc.constant = some consts) (hkd : consts.keys.Nodup)
    {df t : Frame} (hnd : df.columns.Nodup) {b : Bool} (h : C.lsfTable df b = .ok t) :
    t.index = df.index ∧ t.columns = df.columns ∧
    ∀ r ∈ df.index, ∀ c ∈ df.columns, ∃ x v, df.get r c = some x ∧
      C.lsf (defaultArgs C.lc.labelAll consts 0 none (fun k => if k = c then some x else if k = "z" then some 1 else none)) = .ok v ∧
      t.get r c = some (if b then |v| else v) := by
  obtain ⟨h1, h2, -, h4⟩ := lsfLoop_ok rfl hnd (fun c hc => hc) h
  refine ⟨h1, h2, fun r hr c hc => ?_⟩
  obtain ⟨x, v, e1, e2, e3⟩ := h4 r hr c hc
  refine ⟨x, v, e1, ?_, e3⟩
  rw [lsfCell, Calib.eval, C57_evaluation _ C.lc hk hkd] at e2
  exact e2

/-! Concrete cases. -/

/-- A root finder that is exact for objective functions of slope −1. -/
noncomputable def exSolver : Fsolve := fun obj _ => obj 0

/-- One case, `g = z R - Q`; the index is the design parameter, and so are the coordinates of the design point. -/
noncomputable def exLife : Calib ℕ :=
  { lc := exLC1, lsf := fun a => .ok ((a "z").getD 0 * (a "R").getD 0 - (a "Q").getD 0)
    form := fun m => .ok ⟨m, (m.getConstants.get? "z").getD 0, [1, 0], [0, 0],
      fun _ => [(m.getConstants.get? "z").getD 0, (m.getConstants.get? "z").getD 0]⟩
    betaT := 3, calibMethod := "optimize", estMethod := "coeff"
    dfNom := ⟨["A"], ["R", "Q"], fun _ _ => some 2⟩, cvar := "z" }

theorem exLife_rel (b z : ℝ) : ∃ m, ({ exLife with betaT := b } : Calib ℕ).relFunc "A" z = .ok ⟨m, z, [1, 0], [0, 0], fun _ => [z, z]⟩ ∧
    m.getNames = ["z", "R", "Q"] ∧ m.getConstants.keys = ["z"] := by
  have hm : ∃ m, exLC1.caseModel (some "A") [("z", .constant "z" z)] = .ok m := by
    refine (C57_model exLC1 (vars := [("R", ⟨"R", 0⟩), ("Q", ⟨"Q", 1⟩)]) rfl _).2.2 ⟨?_, ?_, ?_⟩
    · intro o ho
      simp [exLC1, caseObjects, labelled, Dict.get?] at ho
      rcases ho with rfl | rfl | rfl <;> rfl
    · simp [exLC1, caseObjects, labelled, Dict.get?, objName]
    · intro f hf; cases hf
  obtain ⟨m, hm⟩ := hm
  obtain ⟨h1, -, -, h4, -⟩ := (C57_model exLC1 (vars := [("R", ⟨"R", 0⟩), ("Q", ⟨"Q", 1⟩)]) rfl _).1 m hm
  have e4 : m.getConstants = [("z", z)] := by rw [h4]; rfl
  refine ⟨m, ?_, by rw [h1]; rfl, by rw [e4]; rfl⟩
  show exLC1.runCase exLife.form (some "A") [("z", .constant "z" z)] = _
  rw [LoadComb.runCase, hm]
  show Except.ok (FormObj.mk m ((m.getConstants.get? "z").getD 0) _ _ _) = _
  rw [e4]
  rfl

/-- The design points of this calibration: the target itself. -/
theorem exLife_calibrated (b : ℝ) : ∃ x, ({ exLife with betaT := b } : Calib ℕ).runCalibration exSolver 100 = some (.ok x) ∧
    x.index = ["A"] ∧ x.columns = ["R", "Q", "z"] ∧ x.get "A" "R" = some b ∧ x.get "A" "Q" = some b ∧ x.get "A" "z" = some b := by
  obtain ⟨m0, h0, -⟩ := exLife_rel b 0
  obtain ⟨m1, h1, n1, c1⟩ := exLife_rel b b
  obtain ⟨C, hC⟩ : ∃ C : Calib ℕ, C = { exLife with betaT := b } := ⟨_, rfl⟩
  rw [← hC] at h0 h1 ⊢
  have hopt : calibrationOptimize exSolver C "A" 1 b = .ok (.arr b, ⟨m1, b, [1, 0], [0, 0], fun _ => [b, b]⟩) := by
    unfold calibrationOptimize exSolver
    simp only [h0, sub_zero]
    rw [h1]
  have hcase : calibrateCase exSolver C 1 100 "A" = some (.ok (.arr b, ⟨m1, b, [1, 0], [0, 0], fun _ => [b, b]⟩)) := by
    unfold calibrateCase
    rw [if_pos (by rw [hC]; rfl)]
    have : C.betaT = b := by rw [hC]
    rw [this, hopt]
  have hlab : xstarLabels (⟨m1, b, [1, 0], [0, 0], fun _ => [b, b]⟩ : FormObj ℕ) = ["R", "Q"] := by
    unfold xstarLabels
    rw [n1, c1]
    rfl
  have hL : C.labelCombCases = ["A"] := by rw [hC]; rfl
  have hcal : calibrateDesignParam exSolver C 100 = some (.ok ([b], [⟨m1, b, [1, 0], [0, 0], fun _ => [b, b]⟩])) := by
    unfold calibrateDesignParam
    have e1 : C.lc.constant = some [("z", ⟨"z", 1⟩)] := by rw [hC]; rfl
    have e2 : (Dict.get? ([("z", ⟨"z", 1⟩)] : Dict String ConstObj) C.cvar) = some ⟨"z", 1⟩ := by rw [hC]; rfl
    rw [e1]
    dsimp only
    rw [e2, hL]
    dsimp only
    simp only [calibrateLoop, hcase]
    rfl
  unfold runCalibration
  rw [hcal, hL]
  dsimp only
  simp only [dfXstar, hlab]
  rw [if_neg (by simp [FormObj.designX])]
  refine ⟨_, rfl, rfl, by simp, ?_, ?_, ?_⟩ <;> simp [Frame.get, FormObj.designX]

/-- The factors: the design point over the nominal value 2. -/
theorem exLife_run (b : ℝ) : ∃ x F, ({ exLife with betaT := b } : Calib ℕ).run exSolver (some "coeff") false 100 = some (.ok (x, some F)) ∧
    F.phi.get "A" "R" = some (b / 2) := by
  obtain ⟨x, hx, hi, hc, hR, hQ, hz⟩ := exLife_calibrated b
  obtain ⟨C, hC⟩ : ∃ C : Calib ℕ, C = { exLife with betaT := b } := ⟨_, rfl⟩
  rw [← hC] at hx ⊢
  have hT : DesignTable C x := by
    rw [hC]
    constructor <;> simp [hi, hc, exLife, exLC1, Calib.labelCombCases, Calib.labelR, Calib.labelOther, Calib.labelCombVrs, Dict.keys]
  obtain ⟨phi, gamma, psi, hp, -, k2⟩ := C58_coefficient hT
  have hphi := k2 "A" (by rw [hC]; simp [exLife, exLC1, Calib.labelCombCases]) "R" (by rw [hC]; simp [exLife, exLC1, Calib.labelR])
    (by rw [hC]; simp [exLife, exLC1]) b 2 hR (by rw [hC]; simp [exLife, Frame.get]) (by norm_num)
  obtain ⟨φ, e1, e2⟩ := hphi
  refine ⟨x, ⟨phi, gamma, psi⟩, ?_, ?_⟩
  · unfold Calib.run
    rw [hx]
    dsimp only
    rw [if_pos (by rfl)]
    unfold estimate
    rw [hp]
    rfl
  · show phi.get "A" "R" = _
    rw [e1, Option.some.injEq]
    linarith

/-- **C113 (finding).**  A run with an estimation method that is not known returns without an error, with new design points and the factors of an
earlier run: after a run for the target 3, and then for the target 4 with the method "coef" (misspelt), the object reports the design points for
4 and the factors for 3, and `print_detailed_output` prints them together. -/
theorem C113_mixed : ∃ s outs x F, session exSolver 100 (fresh exLife)
      [.run (some "coeff") false, .setTarget 4, .run (some "coef") false, .report] = some (s, outs) ∧
    s.xstar = some x ∧ x.get "A" "R" = some 4 ∧ s.factors = some F ∧ F.phi.get "A" "R" = some (3 / 2) ∧
    outs[2]? = some .nothing ∧ outs[3]? = some (.printed x F) := by
  obtain ⟨x3, F, h3, hF⟩ := exLife_run 3
  obtain ⟨x4, h4, -, -, hR, -⟩ := exLife_calibrated 4
  obtain ⟨s, outs, h⟩ := C113_ends exSolver (fuel := 100) le_rfl exLife
    [.run (some "coeff") false, .setTarget 4, .run (some "coef") false, .report]
  obtain ⟨-, k2, k3, -, k5⟩ := C113_life _ _ _ _ h
  have e3 : exLife.run exSolver (some "coeff") false 100 = some (.ok (x3, some F)) := h3
  have r4 : ({ exLife with betaT := 4 } : Calib ℕ).run exSolver (some "coef") false 100 = some (.ok (x4, none)) := by
    unfold Calib.run
    rw [h4]
    dsimp only
    rw [if_neg (by simp), if_neg (by simp)]
  have x1 : latest (calibrated exSolver 100 exLife) [.run (some "coeff") false, .setTarget 4, .run (some "coef") false] = some x4 := by
    simp only [latest, List.reverse_cons, List.reverse_nil, List.nil_append, List.cons_append, latestRev, calibrated, settings, h4]
  have x2 : latest (estimated exSolver 100 exLife) [.run (some "coeff") false, .setTarget 4, .run (some "coef") false] = some F := by
    simp only [latest, List.reverse_cons, List.reverse_nil, List.nil_append, List.cons_append, latestRev, estimated, settings, r4, e3]
  refine ⟨s, outs, x4, F, h, ?_, hR, ?_, hF, ?_, ?_⟩
  · rw [k2]
    exact x1
  · rw [k3]
    exact x2
  · refine (k5 [.run (some "coeff") false, .setTarget 4] (.run (some "coef") false) [.report] rfl).trans ?_
    simp only [outcome, settings, r4]
  · refine (k5 [.run (some "coeff") false, .setTarget 4, .run (some "coef") false] .report [] rfl).trans ?_
    simp only [outcome, x1, x2]

/-- A case of `C113_completed`. -/
example : ∃ s x F, session exSolver 100 (fresh exLife) ([.setTarget 4] ++ [.run none false]) = some (s, [.nothing] ++ [.nothing]) ∧
    s.xstar = some x ∧ s.factors = some F := by
  obtain ⟨x, F, h3, hF⟩ := exLife_run 4
  obtain ⟨s, outs, h⟩ := C113_ends exSolver (fuel := 100) le_rfl exLife ([.setTarget 4] ++ [.run none false])
  obtain ⟨-, -, -, k4, k5⟩ := C113_life _ _ _ _ h
  have r4 : ({ exLife with betaT := 4 } : Calib ℕ).run exSolver none false 100 = some (.ok (x, some F)) := h3
  have o1 := k5 [] (.setTarget 4) [.run none false] rfl
  have o2 := k5 [.setTarget 4] (.run none false) [] rfl
  simp only [outcome, settings, r4] at o1 o2
  have e : outs = [.nothing] ++ [.nothing] := by
    match outs, k4, o1, o2 with
    | [a, b], _, h1, h2 =>
      simp at h1 h2
      rw [h1, h2]
      rfl
  subst e
  obtain ⟨x', F', -, hx, hF', -⟩ := C113_completed _ _ _ _ _ _ h (Or.inl rfl)
  exact ⟨s, x', F', h, hx, hF'⟩

/-- A case of `C113_table`: with `g = z R - Q`, the entries of `R` and `Q` are their own load effects. -/
example : ∃ t, exLife.lsfTable ⟨["A"], ["R", "Q"], fun _ _ => some 2⟩ true = .ok t ∧ t.get "A" "R" = some 2 ∧ t.get "A" "Q" = some 2 := by
  have hcell : ∀ c x, exLife.lsfCell c x = .ok ((defaultArgs ["R", "Q", "z"] [("z", ⟨"z", 1⟩)] 0 none
      (fun k => if k = c then some x else if k = "z" then some 1 else none) "z").getD 0 *
      (defaultArgs ["R", "Q", "z"] [("z", ⟨"z", 1⟩)] 0 none (fun k => if k = c then some x else if k = "z" then some 1 else none) "R").getD 0 -
      (defaultArgs ["R", "Q", "z"] [("z", ⟨"z", 1⟩)] 0 none (fun k => if k = c then some x else if k = "z" then some 1 else none) "Q").getD 0) := by
    intro c x
    rw [lsfCell, Calib.eval, C57_evaluation _ exLife.lc (consts := [("z", ⟨"z", 1⟩)]) rfl (by decide)]
    rfl
  have hR : exLife.lsfCell "R" 2 = .ok 2 := by rw [hcell]; simp [defaultArgs, Dict.get?]
  have hQ : exLife.lsfCell "Q" 2 = .ok (-2) := by rw [hcell]; simp [defaultArgs, Dict.get?]
  obtain ⟨df, hdf⟩ : ∃ df : Frame, df = ⟨["A"], ["R", "Q"], fun _ _ => some 2⟩ := ⟨_, rfl⟩
  have hi : df.index = ["A"] := by rw [hdf]
  have hc : df.columns = ["R", "Q"] := by rw [hdf]
  have hg : df.get "A" "R" = some 2 ∧ df.get "A" "Q" = some 2 := by rw [hdf]; simp [Frame.get]
  have hcol : exLife.lsfColumn df "R" ["A"] = .ok [2] := by simp only [lsfColumn, hg.1, hR]
  have hex : ∃ t, exLife.lsfTable df true = .ok t := by
    simp only [lsfTable, hc, lsfLoop, hi, hcol]
    simp only [lsfColumn, Frame.get]
    rw [hdf]
    simp [hQ]
  obtain ⟨t, ht⟩ := hex
  rw [← hdf]
  obtain ⟨-, -, -, h4⟩ := lsfLoop_ok rfl (by rw [hc]; decide) (fun c hc => hc) ht
  obtain ⟨x, v, e1, e2, e3⟩ := h4 "A" (by rw [hi]; simp) "R" (by rw [hc]; simp)
  obtain ⟨x', v', e1', e2', e3'⟩ := h4 "A" (by rw [hi]; simp) "Q" (by rw [hc]; simp)
  rw [hg.1, Option.some.injEq] at e1
  rw [hg.2, Option.some.injEq] at e1'
  subst e1 e1'
  rw [hR] at e2
  rw [hQ] at e2'
  injection e2 with e2
  injection e2' with e2'
  refine ⟨t, ht, ?_, ?_⟩
  · rw [e3, ← e2]; simp
  · rw [e3', ← e2']; simp

end Props
end Pystra
