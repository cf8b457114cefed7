import Verif.Lemmas.BrentAffine

/-! `brentq` gives the same point for a function and its negative. -/

namespace Pystra.Brent
open Spec

variable {σ σ' : Type} {f : σ → ℝ → σ × Except PyErr ℝ} {P : σ → Prop} {h : ℝ → Option ℝ}
  {f' : σ' → ℝ → σ' × Except PyErr ℝ} {P' : σ' → Prop} {xtol rtol : ℝ}

/-- The loop variables with the function values negated. -/
def State.neg (st : State) : State := { st with fpre := -st.fpre, fcur := -st.fcur, fblk := -st.fblk }

theorem oppSign_neg {a b : ℝ} : oppSign (-a) (-b) ↔ oppSign a b := by
  unfold oppSign
  simp only [Left.neg_neg_iff, Left.neg_pos_iff]
  tauto

theorem adjust_neg (st : State) : adjust st.neg = (adjust st).neg := by
  have hO : oppSign st.neg.fpre st.neg.fcur ↔ oppSign st.fpre st.fcur := oppSign_neg
  unfold adjust
  by_cases h1 : oppSign st.fpre st.fcur
  · simp only [if_pos h1, if_pos (hO.2 h1)]
    by_cases h2 : |st.fpre| < |st.fcur|
    · rw [if_pos h2, if_pos (by simpa [State.neg] using h2)]; rfl
    · rw [if_neg h2, if_neg (by simpa [State.neg] using h2)]; rfl
  · simp only [if_neg h1, if_neg (fun h => h1 (hO.1 h))]
    by_cases h2 : |st.fblk| < |st.fcur|
    · rw [if_pos h2, if_pos (by simpa [State.neg] using h2)]; rfl
    · rw [if_neg h2, if_neg (by simpa [State.neg] using h2)]

theorem stry_neg (st : State) : stry st.neg = stry st := by
  unfold stry State.neg
  simp only
  split_ifs
  · rw [neg_neg, show -st.fcur - -st.fpre = -(st.fcur - st.fpre) by ring, div_neg, neg_mul, ← neg_div]
  · have e1 : (-st.fpre - -st.fcur) / (st.xpre - st.xcur) = -((st.fpre - st.fcur) / (st.xpre - st.xcur)) := by ring
    have e2 : (-st.fblk - -st.fcur) / (st.xblk - st.xcur) = -((st.fblk - st.fcur) / (st.xblk - st.xcur)) := by ring
    rw [e1, e2]
    rw [show - -st.fcur * (-st.fblk * -((st.fblk - st.fcur) / (st.xblk - st.xcur)) - -st.fpre * -((st.fpre - st.fcur) / (st.xpre - st.xcur)))
        = -(-st.fcur * (st.fblk * ((st.fblk - st.fcur) / (st.xblk - st.xcur)) - st.fpre * ((st.fpre - st.fcur) / (st.xpre - st.xcur)))) by ring,
      show -((st.fblk - st.fcur) / (st.xblk - st.xcur)) * -((st.fpre - st.fcur) / (st.xpre - st.xcur)) * (-st.fblk - -st.fpre)
        = -((st.fblk - st.fcur) / (st.xblk - st.xcur) * ((st.fpre - st.fcur) / (st.xpre - st.xcur)) * (st.fblk - st.fpre)) by ring,
      neg_div_neg_eq]

theorem advance_neg (st : State) : advance xtol rtol st.neg = (advance xtol rtol st).neg := by
  have hs := stry_neg st
  unfold advance
  simp only [hs]
  unfold State.neg
  simp only [abs_neg]
  split_ifs <;> rfl

theorem loop_neg (hf : Computes f P h) (hf' : Computes f' P' (fun x => (h x).map Neg.neg)) : ∀ (iter : ℕ) (st : State) (s : σ)
    (s' : σ'), P s → P' s' → (loop f xtol rtol iter st s).2.toOption = (loop f' xtol rtol iter st.neg s').2.toOption
  | 0, st, s, s', _, _ => rfl
  | iter + 1, st, s, s', hs, hs' => by
    have hA : (adjust st.neg).xcur = (adjust st).xcur ∧ (adjust st.neg).xblk = (adjust st).xblk ∧
        (adjust st.neg).fcur = -(adjust st).fcur := by rw [adjust_neg]; exact ⟨rfl, rfl, rfl⟩
    have hB : advance xtol rtol (adjust st.neg) = (advance xtol rtol (adjust st)).neg := by rw [adjust_neg, advance_neg]
    unfold loop
    simp only [hA, hB, neg_eq_zero]
    have hx' : (advance xtol rtol (adjust st)).neg.xcur = (advance xtol rtol (adjust st)).xcur := rfl
    split_ifs with h1
    · rfl
    · rw [hx']
      set x := (advance xtol rtol (adjust st)).xcur with hx
      rcases computes_cases hf hs x with ⟨s1, e, e1, e2, e3⟩ | ⟨s1, y, e1, e2, e3⟩ <;>
        rcases computes_cases hf' hs' x with ⟨s1', e', e1', e2', e3'⟩ | ⟨s1', y', e1', e2', e3'⟩
      · simp only [e1, e1']; rfl
      · rw [e3] at e3'; cases e3'
      · rw [e3] at e3'; cases e3'
      · rw [e3, Option.map_some] at e3'
        injection e3' with e3'
        subst e3'
        simp only [e1, e1']
        exact loop_neg hf hf' iter _ s1 s1' e2 e2'

theorem brentq_neg (hf : Computes f P h) (hf' : Computes f' P' (fun x => (h x).map Neg.neg)) (a b : ℝ) (iter : ℕ) (s : σ) (s' : σ')
    (hs : P s) (hs' : P' s') : (brentq f a b xtol rtol iter s).2.toOption = (brentq f' a b xtol rtol iter s').2.toOption := by
  unfold brentq
  rcases computes_cases hf hs a with ⟨s1, e, e1, e2, e3⟩ | ⟨s1, y, e1, e2, e3⟩ <;>
    rcases computes_cases hf' hs' a with ⟨s1', e', e1', e2', e3'⟩ | ⟨s1', y', e1', e2', e3'⟩
  · simp only [e1, e1']; rfl
  · rw [e3] at e3'; cases e3'
  · rw [e3] at e3'; cases e3'
  rw [e3, Option.map_some] at e3'
  injection e3' with e3'
  subst e3'
  simp only [e1, e1']
  rcases computes_cases hf e2 b with ⟨s2, d, d1, d2, d3⟩ | ⟨s2, z, d1, d2, d3⟩ <;>
    rcases computes_cases hf' e2' b with ⟨s2', d', d1', d2', d3'⟩ | ⟨s2', z', d1', d2', d3'⟩
  · simp only [d1, d1']; rfl
  · rw [d3] at d3'; cases d3'
  · rw [d3] at d3'; cases d3'
  rw [d3, Option.map_some] at d3'
  injection d3' with d3'
  subst d3'
  simp only [d1, d1', neg_eq_zero]
  by_cases h1 : y = 0
  · simp [h1]
  · by_cases h2 : z = 0
    · simp [h1, h2]
    · by_cases h3 : oppSign y z
      · rw [if_neg h1, if_neg h1, if_neg h2, if_neg h2, if_neg (not_not.2 h3), if_neg (not_not.2 (oppSign_neg.2 h3))]
        have := loop_neg (xtol := xtol) (rtol := rtol) hf hf' iter ⟨a, b, 0, y, z, 0, 0, 0⟩ s2 s2' d2 d2'
        rw [this]
        unfold State.neg
        simp
      · rw [if_neg h1, if_neg h1, if_neg h2, if_neg h2, if_pos h3, if_pos (fun h => h3 (oppSign_neg.1 h))]

end Pystra.Brent
