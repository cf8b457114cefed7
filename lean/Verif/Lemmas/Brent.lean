import Verif.Model.LineSampling
import Verif.Spec.LineSampling

namespace Pystra.Brent
open Spec

theorem pos_of_mul_pos_left' {x y : ℝ} (h : 0 < x * y) (hy : 0 ≤ y) : 0 < x := by
  by_contra hc
  exact absurd h (not_lt.2 (mul_nonpos_of_nonpos_of_nonneg (not_lt.1 hc) hy))

theorem oppSign_iff {a b : ℝ} : oppSign a b ↔ a * b < 0 := by
  unfold oppSign
  rw [mul_neg_iff]
  tauto

section
variable {h : ℝ → Option ℝ} {a b xtol rtol : ℝ}

/-- The state at the head of the loop body. -/
structure Head (h : ℝ → Option ℝ) (a b : ℝ) (st : State) : Prop where
  hcur : h st.xcur = some st.fcur
  hpre : h st.xpre = some st.fpre
  curA : a ≤ st.xcur ∧ st.xcur ≤ b
  preA : a ≤ st.xpre ∧ st.xpre ≤ b
  pre0 : st.fpre ≠ 0
  alt : st.fpre * st.fcur < 0 ∨ (h st.xblk = some st.fblk ∧ (a ≤ st.xblk ∧ st.xblk ≤ b) ∧ st.fblk * st.fpre < 0 ∧
    0 < (st.xcur - st.xpre) * (st.xblk - st.xcur))

/-- The state after the adjustments. -/
structure Mid (h : ℝ → Option ℝ) (a b : ℝ) (st : State) : Prop where
  hcur : h st.xcur = some st.fcur
  hblk : h st.xblk = some st.fblk
  curA : a ≤ st.xcur ∧ st.xcur ≤ b
  blkA : a ≤ st.xblk ∧ st.xblk ≤ b
  opp : st.fcur = 0 ∨ st.fblk * st.fcur < 0
  alt : (st.xpre = st.xblk ∧ st.fpre = st.fblk) ∨ st.fcur = 0 ∨
    (0 < st.fpre * st.fcur ∧ 0 < (st.xcur - st.xpre) * (st.xblk - st.xcur))

theorem adjust_mid {st : State} (hh : Head h a b st) : Mid h a b (adjust st) := by
  unfold adjust
  by_cases h1 : oppSign st.fpre st.fcur
  · rw [if_pos h1]
    rw [oppSign_iff] at h1
    simp only
    split_ifs with h2
    · exact ⟨hh.hpre, hh.hcur, hh.preA, hh.curA, Or.inr (by simpa [mul_comm] using h1), Or.inl ⟨rfl, rfl⟩⟩
    · exact ⟨hh.hcur, hh.hpre, hh.curA, hh.preA, Or.inr h1, Or.inl ⟨rfl, rfl⟩⟩
  · rw [if_neg h1]
    rw [oppSign_iff] at h1
    rcases hh.alt with h3 | ⟨h3, h4, h5, h6⟩
    · exact absurd h3 h1
    · have hsame : st.fcur = 0 ∨ 0 < st.fpre * st.fcur := by
        rcases (not_lt.1 h1).eq_or_lt with h7 | h7
        · rcases mul_eq_zero.1 h7.symm with h8 | h8
          · exact absurd h8 hh.pre0
          · exact Or.inl h8
        · exact Or.inr h7
      have hopp : st.fcur = 0 ∨ st.fblk * st.fcur < 0 := by
        rcases hsame with h7 | h7
        · exact Or.inl h7
        · right
          by_contra hc
          have hc := not_lt.1 hc
          have : 0 < (st.fpre) ^ 2 := (sq_pos_iff).2 hh.pre0
          have e : (st.fblk * st.fpre) * (st.fpre * st.fcur) = (st.fblk * st.fcur) * st.fpre ^ 2 := by ring
          have e1 := mul_neg_of_neg_of_pos h5 h7
          have e2 := mul_nonneg hc this.le
          linarith
      simp only
      split_ifs with h2
      · refine ⟨h3, hh.hcur, h4, hh.curA, ?_, Or.inl ⟨rfl, rfl⟩⟩
        rcases hopp with h7 | h7
        · exfalso
          rw [h7, abs_zero] at h2
          exact absurd h2 (not_lt.2 (abs_nonneg _))
        · right; simpa [mul_comm] using h7
      · refine ⟨hh.hcur, h3, hh.curA, h4, hopp, ?_⟩
        rcases hsame with h7 | h7
        · exact Or.inr (Or.inl h7)
        · exact Or.inr (Or.inr ⟨h7, h6⟩)

/-- The trial step points towards the other end of the bracket. -/
theorem stry_toward {st : State} (hm : Mid h a b st) (h0 : st.fcur ≠ 0) (hp : |st.fcur| < |st.fpre|)
    (hx : st.xblk ≠ st.xcur) : 0 < stry st * (st.xblk - st.xcur) := by
  have hopp : st.fblk * st.fcur < 0 := hm.opp.resolve_left h0
  have hH : st.xblk - st.xcur ≠ 0 := sub_ne_zero.2 hx
  unfold stry
  split_ifs with he
  · have hf : st.fpre = st.fblk := by
      rcases hm.alt with h1 | h1 | h1
      · exact h1.2
      · exact absurd h1 h0
      · exfalso
        have := h1.2
        rw [he] at this
        nlinarith [sq_nonneg (st.xblk - st.xcur)]
    rw [he, hf]
    have hd : st.fcur - st.fblk ≠ 0 := by
      intro hz
      have : st.fcur = st.fblk := by linarith
      rw [this] at hopp
      nlinarith [sq_nonneg st.fblk]
    have e : -st.fcur * (st.xcur - st.xblk) / (st.fcur - st.fblk) * (st.xblk - st.xcur) =
        (st.fcur * (st.fcur - st.fblk)) * (st.xblk - st.xcur) ^ 2 / (st.fcur - st.fblk) ^ 2 := by
      field_simp
      ring
    rw [e]
    have : 0 < st.fcur * (st.fcur - st.fblk) := by
      have : 0 < st.fcur ^ 2 := by positivity
      nlinarith
    positivity
  · have h1 := hm.alt.resolve_left (fun h => he h.1)
    obtain ⟨hs, hk⟩ := h1.resolve_left h0
    set H := st.xblk - st.xcur with hHdef
    set k := st.xcur - st.xpre with hkdef
    have hk0 : k ≠ 0 := by intro hz; rw [hz] at hk; simp at hk
    have hpk : st.xpre - st.xcur = -k := by rw [hkdef]; ring
    simp only [hpk]
    -- signs relative to fcur
    have hp1 : 0 < (st.fpre - st.fcur) * st.fcur := by
      have h2 : st.fcur ^ 2 < st.fpre ^ 2 := sq_lt_sq.2 hp
      by_contra hc
      have hc := not_lt.1 hc
      have h3 : (st.fpre - st.fcur) * st.fcur * (st.fpre * st.fcur) ≤ 0 := mul_nonpos_of_nonpos_of_nonneg hc hs.le
      have h4 : 0 < st.fcur ^ 2 := by positivity
      have h5 : 0 < (st.fpre ^ 2 - st.fpre * st.fcur) := by
        by_contra h6
        have h6 := not_lt.1 h6
        nlinarith
      nlinarith
    have hq1 : (st.fblk - st.fcur) * st.fcur < 0 := by
      have : 0 < st.fcur ^ 2 := by positivity
      nlinarith
    set p := st.fpre - st.fcur with hpdef
    set q := st.fblk - st.fcur with hqdef
    have hbp : (st.fblk - st.fpre) * st.fcur < 0 := by
      have e : st.fblk - st.fpre = q - p := by rw [hpdef, hqdef]; ring
      rw [e]; nlinarith
    have hc2 : 0 < st.fcur ^ 2 := by positivity
    have hp0 : p ≠ 0 := by intro hz; rw [hz] at hp1; simp at hp1
    have hq0 : q ≠ 0 := by intro hz; rw [hz] at hq1; simp at hq1
    have hd0 : st.fblk - st.fpre ≠ 0 := by intro hz; rw [hz] at hbp; simp at hbp
    have e : -st.fcur * (st.fblk * (q / H) - st.fpre * (p / -k)) / (q / H * (p / -k) * (st.fblk - st.fpre)) * H =
        (st.fcur * (st.fblk * q * (k * H) + st.fpre * p * H ^ 2)) / (q * p * (st.fblk - st.fpre)) := by
      field_simp
      ring
    rw [e]
    -- numerator and denominator have the sign of fcur
    have hA : 0 < st.fblk * q * (k * H) + st.fpre * p * H ^ 2 := by
      have h2 : 0 < st.fblk * q := by
        have h3 : 0 < (st.fblk * st.fcur) * (q * st.fcur) := mul_pos_of_neg_of_neg hopp hq1
        have e2 : (st.fblk * st.fcur) * (q * st.fcur) = (st.fblk * q) * st.fcur ^ 2 := by ring
        rw [e2] at h3
        exact pos_of_mul_pos_left' h3 hc2.le
      have h3 : 0 < st.fpre * p := by
        have h4 : 0 < (st.fpre * st.fcur) * (p * st.fcur) := mul_pos hs hp1
        have e2 : (st.fpre * st.fcur) * (p * st.fcur) = (st.fpre * p) * st.fcur ^ 2 := by ring
        rw [e2] at h4
        exact pos_of_mul_pos_left' h4 hc2.le
      positivity
    have hB : 0 < st.fcur * (q * p * (st.fblk - st.fpre)) := by
      have h4 : 0 < (q * st.fcur) * ((st.fblk - st.fpre) * st.fcur) * (p * st.fcur) :=
        mul_pos (mul_pos_of_neg_of_neg hq1 hbp) hp1
      have e2 : (q * st.fcur) * ((st.fblk - st.fpre) * st.fcur) * (p * st.fcur) =
          (st.fcur * (q * p * (st.fblk - st.fpre))) * st.fcur ^ 2 := by ring
      rw [e2] at h4
      exact pos_of_mul_pos_left' h4 hc2.le
    have hD : q * p * (st.fblk - st.fpre) ≠ 0 := mul_ne_zero (mul_ne_zero hq0 hp0) hd0
    have e3 : (st.fcur * (st.fblk * q * (k * H) + st.fpre * p * H ^ 2)) / (q * p * (st.fblk - st.fpre)) =
        (st.fblk * q * (k * H) + st.fpre * p * H ^ 2) * (st.fcur * (q * p * (st.fblk - st.fpre))) /
          (q * p * (st.fblk - st.fpre)) ^ 2 := by
      field_simp
    rw [e3]
    positivity

theorem between_of_step {H s : ℝ} (h1 : 0 < s * H) (h2 : |s| < |H|) : 0 < s * (H - s) := by
  have h3 : s * H = |s| * |H| := by rw [← abs_mul, abs_of_pos h1]
  have h4 : 0 < |s| := abs_pos.2 (by rintro rfl; simp at h1)
  have h5 : s ^ 2 = |s| * |s| := by rw [← abs_mul, ← sq, abs_of_nonneg (sq_nonneg s)]
  nlinarith

open Classical in
/-- The new point is strictly between the current point and the other end of the bracket. -/
theorem advance_spec {st : State} (hm : Mid h a b st) (h0 : st.fcur ≠ 0) (hx : 0 < xtol) (hr : 0 ≤ rtol)
    (hnt : ¬ |(st.xblk - st.xcur) / 2| < delta xtol rtol st.xcur) :
    (advance xtol rtol st).xpre = st.xcur ∧ (advance xtol rtol st).fpre = st.fcur ∧
    (advance xtol rtol st).xblk = st.xblk ∧ (advance xtol rtol st).fblk = st.fblk ∧
    0 < ((advance xtol rtol st).xcur - st.xcur) * (st.xblk - (advance xtol rtol st).xcur) := by
  set d := delta xtol rtol st.xcur with hd
  have hd0 : 0 < d := by rw [hd]; unfold delta; positivity
  have hnt' := not_lt.1 hnt
  set H := st.xblk - st.xcur with hH
  have hH2 : |H / 2| = |H| / 2 := by rw [abs_div, abs_two]
  have hHpos : 0 < |H| := by rw [hH2] at hnt'; linarith
  have hH0 : H ≠ 0 := abs_pos.1 hHpos
  have hxx : st.xblk ≠ st.xcur := sub_ne_zero.1 hH0
  have hHsq : 0 < H * H := mul_self_pos.2 hH0
  -- any admissible step
  have key : ∀ s : ℝ, (d < |s| → 0 < s * H ∧ |s| < |H|) →
      0 < ((if d < |s| then st.xcur + s else st.xcur + (if 0 < H / 2 then d else -d)) - st.xcur) *
        (st.xblk - (if d < |s| then st.xcur + s else st.xcur + (if 0 < H / 2 then d else -d))) := by
    intro s hs
    have hstep : ∀ z : ℝ, 0 < z * H → |z| < |H| → 0 < ((st.xcur + z) - st.xcur) * (st.xblk - (st.xcur + z)) := by
      intro z h1 h2
      have := between_of_step h1 h2
      have e : ((st.xcur + z) - st.xcur) * (st.xblk - (st.xcur + z)) = z * (H - z) := by rw [hH]; ring
      rw [e]; exact this
    by_cases h1 : d < |s|
    · rw [if_pos h1]; exact hstep s (hs h1).1 (hs h1).2
    · rw [if_neg h1]
      have hdH : d < |H| := by rw [hH2] at hnt'; linarith
      by_cases h2 : 0 < H / 2
      · rw [if_pos h2]
        exact hstep d (mul_pos hd0 (by linarith)) (by rw [abs_of_pos hd0]; exact hdH)
      · rw [if_neg h2]
        have hneg : H < 0 := lt_of_le_of_ne (by linarith [not_lt.1 h2]) hH0
        exact hstep (-d) (mul_pos_of_neg_of_neg (by linarith) hneg) (by rw [abs_neg, abs_of_pos hd0]; exact hdH)
  have hbis : d < |H / 2| → 0 < H / 2 * H ∧ |H / 2| < |H| := fun _ => ⟨by nlinarith, by rw [hH2]; linarith⟩
  unfold advance
  simp only [← hd, ← hH]
  by_cases h1 : d < |st.spre| ∧ |st.fcur| < |st.fpre|
  · rw [if_pos h1]
    by_cases h2 : 2 * |stry st| < min |st.spre| (3 * |H / 2| - d)
    · rw [if_pos h2]
      refine ⟨rfl, rfl, rfl, rfl, key (stry st) fun _ => ⟨stry_toward hm h0 h1.2 hxx, ?_⟩⟩
      have := lt_of_lt_of_le h2 (min_le_right _ _)
      rw [hH2] at this
      linarith
    · rw [if_neg h2]
      exact ⟨rfl, rfl, rfl, rfl, key (H / 2) hbis⟩
  · rw [if_neg h1]
    exact ⟨rfl, rfl, rfl, rfl, key (H / 2) hbis⟩

variable {σ : Type} {f : σ → ℝ → σ × Except PyErr ℝ} {P : σ → Prop}

theorem computes_cases (hf : Computes f P h) {s : σ} (hs : P s) (x : ℝ) :
    (∃ s' e, f s x = (s', .error e) ∧ P s' ∧ h x = none) ∨ ∃ s' y, f s x = (s', .ok y) ∧ P s' ∧ h x = some y := by
  have h1 := hf s hs x
  rcases h2 : f s x with ⟨s', r⟩
  rw [h2] at h1
  rcases r with e | y
  · exact Or.inl ⟨s', e, rfl, h1.1, h1.2.symm⟩
  · exact Or.inr ⟨s', y, rfl, h1.1, h1.2.symm⟩

theorem loop_spec (hf : Computes f P h) (hx : 0 < xtol) (hr : 0 ≤ rtol) : ∀ (iter : ℕ) (st : State) (s : σ), Head h a b st →
    P s → P (loop f xtol rtol iter st s).1 ∧
      ∀ c, (loop f xtol rtol iter st s).2 = .ok c → RootWithin h a b (xtol + rtol * |c|) c
  | 0, st, s, _, hP => ⟨hP, fun c hc => by unfold loop at hc; cases hc⟩
  | iter + 1, st, s, hh, hP => by
    have hm := adjust_mid hh
    unfold loop
    set st' := adjust st with hst'
    simp only
    by_cases h1 : st'.fcur = 0 ∨ |(st'.xblk - st'.xcur) / 2| < delta xtol rtol st'.xcur
    · rw [if_pos h1]
      refine ⟨hP, fun c hc => ?_⟩
      injection hc with hc
      subst hc
      refine ⟨hm.curA.1, hm.curA.2, ?_⟩
      by_cases h0 : st'.fcur = 0
      · left; rw [hm.hcur, h0]
      · right
        have h2 := h1.resolve_left h0
        refine ⟨st'.xblk, _, _, hm.blkA.1, hm.blkA.2, ?_, hm.hcur, hm.hblk, ?_⟩
        · unfold delta at h2
          rw [abs_div, abs_two] at h2
          linarith
        · rw [mul_comm]; exact hm.opp.resolve_left h0
    · rw [if_neg h1]
      push Not at h1
      obtain ⟨h0, h2⟩ := h1
      obtain ⟨e1, e2, e3, e4, e5⟩ := advance_spec hm h0 hx hr (not_lt.2 h2)
      set A := advance xtol rtol st' with hA
      rcases computes_cases hf hP A.xcur with ⟨s', e, h3, h4, -⟩ | ⟨s', y, h3, h4, h5⟩
      · simp only [h3]
        exact ⟨h4, fun c hc => by cases hc⟩
      · simp only [h3]
        apply loop_spec hf hx hr iter _ s' _ h4
        have hc1 := hm.curA
        have hb1 := hm.blkA
        refine ⟨h5, by rw [e1, e2]; exact hm.hcur, ?_, by rw [e1]; exact hm.curA, by rw [e2]; exact h0, ?_⟩
        · rcases pos_and_pos_or_neg_and_neg_of_mul_pos e5 with h6 | h6 <;> constructor <;> simp only <;> linarith [h6.1, h6.2]
        · right
          simp only [e1, e2, e3, e4]
          exact ⟨hm.hblk, hm.blkA, hm.opp.resolve_left h0, e5⟩

/-- What `brentq` returns. -/
theorem brentq_spec (hf : Computes f P h) (hx : 0 < xtol) (hr : 0 ≤ rtol) (hab : a ≤ b) (iter : ℕ) (s : σ) (hP : P s) :
    P (brentq f a b xtol rtol iter s).1 ∧
      ∀ c, (brentq f a b xtol rtol iter s).2 = .ok c → RootWithin h a b (xtol + rtol * |c|) c := by
  unfold brentq
  rcases computes_cases hf hP a with ⟨s1, e, h1, h2, -⟩ | ⟨s1, fa, h1, h2, h3⟩
  · simp only [h1]; exact ⟨h2, fun c hc => by cases hc⟩
  simp only [h1]
  rcases computes_cases hf h2 b with ⟨s2, e, h4, h5, -⟩ | ⟨s2, fb, h4, h5, h6⟩
  · simp only [h4]; exact ⟨h5, fun c hc => by cases hc⟩
  simp only [h4]
  split_ifs with c1 c2 c3
  · exact ⟨h5, fun c hc => by injection hc with hc; subst hc; exact ⟨le_rfl, hab, Or.inl (by rw [h3, c1])⟩⟩
  · exact ⟨h5, fun c hc => by injection hc with hc; subst hc; exact ⟨hab, le_rfl, Or.inl (by rw [h6, c2])⟩⟩
  · apply loop_spec hf hx hr iter _ s2 _ h5
    rw [oppSign_iff] at c3
    exact ⟨h6, h3, ⟨hab, le_rfl⟩, ⟨le_rfl, hab⟩, c1, Or.inl c3⟩
  · exact ⟨h5, fun c hc => by cases hc⟩

end
end Pystra.Brent
