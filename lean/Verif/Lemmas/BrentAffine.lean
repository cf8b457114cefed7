import Verif.Lemmas.Brent

namespace Pystra.Brent
open Spec

variable {σ σ' : Type} {f : σ → ℝ → σ × Except PyErr ℝ} {P : σ → Prop} {h : ℝ → Option ℝ}
  {f' : σ' → ℝ → σ' × Except PyErr ℝ} {P' : σ' → Prop} {xtol rtol : ℝ}

/-- The outcome depends on the function only. -/
theorem loop_det (hf : Computes f P h) (hf' : Computes f' P' h) : ∀ (iter : ℕ) (st : State) (s : σ) (s' : σ'), P s → P' s' →
    (loop f xtol rtol iter st s).2.toOption = (loop f' xtol rtol iter st s').2.toOption
  | 0, st, s, s', _, _ => rfl
  | iter + 1, st, s, s', hs, hs' => by
    unfold loop
    simp only
    split_ifs with h1
    · rfl
    · set x := (advance xtol rtol (adjust st)).xcur with hx
      rcases computes_cases hf hs x with ⟨s1, e, e1, e2, e3⟩ | ⟨s1, y, e1, e2, e3⟩ <;>
        rcases computes_cases hf' hs' x with ⟨s1', e', e1', e2', e3'⟩ | ⟨s1', y', e1', e2', e3'⟩
      · simp only [e1, e1']; rfl
      · rw [e3] at e3'; cases e3'
      · rw [e3] at e3'; cases e3'
      · rw [e3] at e3'
        injection e3' with e3'
        subst e3'
        simp only [e1, e1']
        exact loop_det hf hf' iter _ s1 s1' e2 e2'

theorem brentq_det (hf : Computes f P h) (hf' : Computes f' P' h) (a b : ℝ) (iter : ℕ) (s : σ) (s' : σ') (hs : P s)
    (hs' : P' s') : (brentq f a b xtol rtol iter s).2.toOption = (brentq f' a b xtol rtol iter s').2.toOption := by
  unfold brentq
  rcases computes_cases hf hs a with ⟨s1, e, e1, e2, e3⟩ | ⟨s1, y, e1, e2, e3⟩ <;>
    rcases computes_cases hf' hs' a with ⟨s1', e', e1', e2', e3'⟩ | ⟨s1', y', e1', e2', e3'⟩
  · simp only [e1, e1']; rfl
  · rw [e3] at e3'; cases e3'
  · rw [e3] at e3'; cases e3'
  rw [e3] at e3'
  injection e3' with e3'
  subst e3'
  simp only [e1, e1']
  rcases computes_cases hf e2 b with ⟨s2, d, d1, d2, d3⟩ | ⟨s2, z, d1, d2, d3⟩ <;>
    rcases computes_cases hf' e2' b with ⟨s2', d', d1', d2', d3'⟩ | ⟨s2', z', d1', d2', d3'⟩
  · simp only [d1, d1']; rfl
  · rw [d3] at d3'; cases d3'
  · rw [d3] at d3'; cases d3'
  rw [d3] at d3'
  injection d3' with d3'
  subst d3'
  simp only [d1, d1']
  split_ifs
  · rfl
  · rfl
  · exact loop_det hf hf' iter _ s2 s2' d2 d2'
  · rfl

/-- Returning at the head of the loop. -/
theorem loop_return {iter : ℕ} {st : State} {s : σ}
    (hr : (adjust st).fcur = 0 ∨ |((adjust st).xblk - (adjust st).xcur) / 2| < delta xtol rtol (adjust st).xcur) :
    ∃ c, (loop f xtol rtol (iter + 1) st s).2 = .ok c := by
  refine ⟨(adjust st).xcur, ?_⟩
  unfold loop
  simp only
  rw [if_pos hr]

theorem adjust_zero {st : State} (h0 : st.fcur = 0) : (adjust st).fcur = 0 := by
  unfold adjust
  have h1 : ¬ oppSign st.fpre st.fcur := by rw [oppSign_iff, h0]; simp
  rw [if_neg h1]
  simp only
  rw [if_neg (by rw [h0, abs_zero]; exact not_lt.2 (abs_nonneg _))]
  exact h0

/-- For an affine function the root finder stops after at most three passes. -/
theorem loop_affine {A B : ℝ} (hB : 0 < B) (hf : Computes f P (fun x => some (A - B * x))) (hx : 0 < xtol) (hr : 0 ≤ rtol)
    (hr1 : rtol < 1) (iter : ℕ) {st : State} {s : σ} (hs : P s) (hpre : (adjust st).xpre = (adjust st).xblk)
    (hfpre : (adjust st).fpre = (adjust st).fblk) (hcur : (adjust st).fcur = A - B * (adjust st).xcur)
    (hblk : (adjust st).fblk = A - B * (adjust st).xblk) (hopp : (adjust st).fblk * (adjust st).fcur < 0)
    (hle : |(adjust st).fcur| ≤ |(adjust st).fblk|) (hsp : |(adjust st).spre| = |(adjust st).xblk - (adjust st).xcur|)
    (hd : delta xtol rtol (adjust st).xcur < |(adjust st).xblk - (adjust st).xcur| / 2) :
    ∃ c, (loop f xtol rtol (iter + 2) st s).2 = .ok c := by
  set S := adjust st with hS
  set H := S.xblk - S.xcur with hH
  set d := delta xtol rtol S.xcur with hddef
  have hd0 : 0 < d := by rw [hddef]; unfold delta; positivity
  have hHpos : 0 < |H| := by linarith
  have hH0 : H ≠ 0 := abs_pos.1 hHpos
  have hH2 : |H / 2| = |H| / 2 := by rw [abs_div, abs_two]
  have hc0 : S.fcur ≠ 0 := by intro hz; rw [hz] at hopp; simp at hopp
  have hnt : ¬ (S.fcur = 0 ∨ |H / 2| < d) := by
    rw [hH2]; push Not; exact ⟨hc0, hd.le⟩
  -- the trial step is exact
  have hfdiff : S.fcur - S.fblk = B * H := by rw [hcur, hblk, hH]; ring
  have hst : stry S = S.fcur / B := by
    unfold stry
    rw [if_pos hpre, hfpre, hpre, hfdiff]
    have e : S.xcur - S.xblk = -H := by rw [hH]; ring
    rw [e]
    field_simp
  have hBst : S.fcur = B * stry S := by rw [hst]; field_simp
  have htow : 0 < stry S * H := by
    have h1 : 0 < S.fcur * (S.fcur - S.fblk) := by nlinarith [sq_nonneg S.fcur, sq_pos_iff.2 hc0]
    rw [hfdiff, hBst] at h1
    have h2 : B * stry S * (B * H) = (stry S * H) * B ^ 2 := by ring
    rw [h2] at h1
    exact pos_of_mul_pos_left' h1 (by positivity)
  -- next point
  have hgoal : ∀ x2 : ℝ, (advance xtol rtol S).xcur = x2 →
      (A - B * x2 = 0 ∨ ((A - B * x2) * S.fcur < 0 ∧ |x2 - S.xcur| = d)) →
      ∃ c, (loop f xtol rtol (iter + 2) st s).2 = .ok c := by
    intro x2 hx2 hcase
    rcases computes_cases hf hs x2 with ⟨s1, e, -, -, e3⟩ | ⟨s1, y, e1, e2, e3⟩
    · cases e3
    · injection e3 with e3
      subst e3
      have hadv : (advance xtol rtol S).xpre = S.xcur ∧ (advance xtol rtol S).fpre = S.fcur := by
        unfold advance
        simp only
        split_ifs <;> exact ⟨rfl, rfl⟩
      set st2 : State := { advance xtol rtol S with fcur := A - B * x2 } with hst2
      have hloop : (loop f xtol rtol (iter + 2) st s) = loop f xtol rtol (iter + 1) st2 s1 := by
        conv_lhs => unfold loop
        simp only [← hS]
        rw [if_neg hnt]
        rw [hx2, e1, hst2]
        simp only [hx2]
      rw [hloop]
      apply loop_return
      rcases hcase with h1 | ⟨h1, h2⟩
      · left; exact adjust_zero (by rw [hst2]; exact h1)
      · right
        have hop : oppSign st2.fpre st2.fcur := by
          rw [oppSign_iff]
          change (advance xtol rtol S).fpre * (A - B * x2) < 0
          rw [hadv.2, mul_comm]; exact h1
        have hdd : d / 2 < delta xtol rtol x2 := by
          have h3 : |S.xcur| - d ≤ |x2| := by
            have := abs_sub_abs_le_abs_sub S.xcur x2
            rw [abs_sub_comm, h2] at this
            linarith
          have hdd : d = (xtol + rtol * |S.xcur|) / 2 := rfl
          unfold delta
          have h4 : rtol * (|S.xcur| - d) ≤ rtol * |x2| := mul_le_mul_of_nonneg_left h3 hr
          have h5 : rtol * d < 1 * d := mul_lt_mul_of_pos_right hr1 hd0
          have h6 : 0 ≤ rtol * |S.xcur| := by positivity
          rw [mul_sub] at h4
          linarith
        have hdd2 : d / 2 < delta xtol rtol S.xcur := by change d / 2 < d; linarith
        have hx2' : st2.xcur = x2 := hx2
        have hxp : st2.xpre = S.xcur := hadv.1
        unfold adjust
        rw [if_pos hop]
        simp only [hx2', hxp]
        split_ifs
        · simp only
          rw [abs_div, abs_two, h2]; exact hdd2
        · simp only
          rw [abs_div, abs_two, abs_sub_comm, h2]; exact hdd
  -- cases on the step
  have hadv : advance xtol rtol S = advance xtol rtol S := rfl
  rcases hle.lt_or_eq with hlt | heq
  · have hlen : 2 * |stry S| < |H| := by
      have h1 : |S.fcur| + |S.fblk| = B * |H| := by
        rw [← abs_of_pos hB, ← abs_mul, ← hfdiff]
        rcases mul_neg_iff.1 hopp with ⟨h2, h3⟩ | ⟨h2, h3⟩
        · rw [abs_of_neg h3, abs_of_pos h2, abs_of_neg (by linarith)]; ring
        · rw [abs_of_pos h3, abs_of_neg h2, abs_of_pos (by linarith)]; ring
      have h2 : |S.fcur| = B * |stry S| := by rw [hBst, abs_mul, abs_of_pos hB]
      have h3 : B * (2 * |stry S|) < B * |H| := by linarith
      exact lt_of_mul_lt_mul_left h3 hB.le
    have hcond1 : d < |S.spre| ∧ |S.fcur| < |S.fpre| := ⟨by rw [hsp]; linarith, by rw [hfpre]; exact hlt⟩
    have hcond2 : 2 * |stry S| < min |S.spre| (3 * |H / 2| - d) := by
      rw [hsp, hH2]
      exact lt_min hlen (by linarith)
    have hnext : (advance xtol rtol S).xcur =
        if d < |stry S| then S.xcur + stry S else S.xcur + (if 0 < H / 2 then d else -d) := by
      unfold advance
      simp only [← hddef, ← hH]
      rw [if_pos hcond1, if_pos hcond2]
    by_cases hbig : d < |stry S|
    · rw [if_pos hbig] at hnext
      apply hgoal _ hnext
      left
      rw [mul_add, ← hBst, hcur]; ring
    · rw [if_neg hbig] at hnext
      have hsm := not_lt.1 hbig
      rcases hsm.lt_or_eq with hsm | hsm
      · apply hgoal _ hnext
        right
        by_cases hp : 0 < H / 2
        · rw [if_pos hp]
          have hpos : 0 < stry S := pos_of_mul_pos_left' htow (by linarith)
          rw [abs_of_pos hpos] at hsm
          refine ⟨?_, by rw [add_sub_cancel_left, abs_of_pos hd0]⟩
          have e : A - B * (S.xcur + d) = B * (stry S - d) := by rw [mul_sub, ← hBst, hcur]; ring
          have hfp : 0 < S.fcur := by rw [hBst]; positivity
          rw [e]
          exact mul_neg_of_neg_of_pos (mul_neg_of_pos_of_neg hB (by linarith)) hfp
        · rw [if_neg hp]
          have hneg : H < 0 := lt_of_le_of_ne (by linarith [not_lt.1 hp]) hH0
          have hsneg : stry S < 0 := by
            by_contra hc
            exact absurd htow (not_lt.2 (mul_nonpos_of_nonneg_of_nonpos (not_lt.1 hc) hneg.le))
          rw [abs_of_neg hsneg] at hsm
          refine ⟨?_, by rw [add_sub_cancel_left, abs_neg, abs_of_pos hd0]⟩
          have e : A - B * (S.xcur + -d) = B * (stry S + d) := by rw [mul_add B (stry S), ← hBst, hcur]; ring
          have hfn : S.fcur < 0 := by rw [hBst]; exact mul_neg_of_pos_of_neg hB hsneg
          rw [e]
          exact mul_neg_of_pos_of_neg (mul_pos hB (by linarith)) hfn
      · apply hgoal _ hnext
        left
        have hstep : (if 0 < H / 2 then d else -d) = stry S := by
          by_cases hp : 0 < H / 2
          · rw [if_pos hp, ← hsm, abs_of_pos (pos_of_mul_pos_left' htow (by linarith))]
          · rw [if_neg hp, ← hsm]
            have hneg : H < 0 := lt_of_le_of_ne (by linarith [not_lt.1 hp]) hH0
            have hsneg : stry S < 0 := by
              by_contra hc
              exact absurd htow (not_lt.2 (mul_nonpos_of_nonneg_of_nonpos (not_lt.1 hc) hneg.le))
            rw [abs_of_neg hsneg, neg_neg]
        rw [hstep, mul_add, ← hBst, hcur]; ring
  · have hcond : ¬ (d < |S.spre| ∧ |S.fcur| < |S.fpre|) := by
      rw [hfpre, heq]; simp
    have hnext : (advance xtol rtol S).xcur = S.xcur + H / 2 := by
      unfold advance
      simp only [← hddef, ← hH]
      rw [if_neg hcond]
      simp only
      rw [if_pos (by rw [hH2]; exact hd)]
    apply hgoal _ hnext
    left
    have hsum : S.fcur + S.fblk = 0 := by
      rcases abs_eq_abs.1 heq with h1 | h1
      · exfalso; rw [h1] at hopp; nlinarith [sq_nonneg S.fblk]
      · rw [h1]; ring
    rw [hcur, hblk] at hsum
    rw [hH]
    linarith

theorem brentq_affine {A B lo hi : ℝ} (hB : 0 < B) (hf : Computes f P (fun x => some (A - B * x))) (hx : 0 < xtol)
    (hr : 0 ≤ rtol) (hr1 : rtol < 1) (hsign : (A - B * lo) * (A - B * hi) ≤ 0)
    (hdl : delta xtol rtol lo < |hi - lo| / 2) (hdh : delta xtol rtol hi < |hi - lo| / 2) (iter : ℕ) (hi2 : 2 ≤ iter) (s : σ)
    (hs : P s) : ∃ c, (brentq f lo hi xtol rtol iter s).2 = .ok c := by
  obtain ⟨k, rfl⟩ : ∃ k, iter = k + 2 := ⟨iter - 2, by omega⟩
  unfold brentq
  rcases computes_cases hf hs lo with ⟨s1, e, -, -, e3⟩ | ⟨s1, fa, h1, h2, h3⟩
  · cases e3
  injection h3 with h3
  subst h3
  simp only [h1]
  rcases computes_cases hf h2 hi with ⟨s1, e, -, -, e3⟩ | ⟨s2, fb, h4, h5, h6⟩
  · cases e3
  injection h6 with h6
  subst h6
  simp only [h4]
  split_ifs with c1 c2 c3
  · exact ⟨_, rfl⟩
  · exact ⟨_, rfl⟩
  · have hneg := oppSign_iff.1 c3
    have hadj : adjust ⟨lo, hi, 0, A - B * lo, A - B * hi, 0, 0, 0⟩ =
        if |A - B * lo| < |A - B * hi| then
          ⟨hi, lo, hi, A - B * hi, A - B * lo, A - B * hi, hi - lo, hi - lo⟩
        else ⟨lo, hi, lo, A - B * lo, A - B * hi, A - B * lo, hi - lo, hi - lo⟩ := by
      unfold adjust
      rw [if_pos c3]
    by_cases hsw : |A - B * lo| < |A - B * hi|
    · rw [if_pos hsw] at hadj
      apply loop_affine hB hf hx hr hr1 k h5 <;> rw [hadj]
      · simp only; rw [mul_comm]; exact hneg
      · exact hsw.le
      · exact hdl
    · rw [if_neg hsw] at hadj
      apply loop_affine hB hf hx hr hr1 k h5 <;> rw [hadj]
      · exact hneg
      · exact not_lt.1 hsw
      · simp only; rw [abs_sub_comm]
      · simp only; rw [abs_sub_comm lo hi]; exact hdh
  · exfalso
    rw [oppSign_iff] at c3
    rcases hsign.lt_or_eq with h7 | h7
    · exact c3 h7
    · rcases mul_eq_zero.1 h7 with h8 | h8
      · exact c1 h8
      · exact c2 h8

end Pystra.Brent
