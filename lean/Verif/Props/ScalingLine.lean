import Verif.Props.ScalingSim
import Verif.Model.LineSampling

/-! C89: line sampling and the unit of the limit-state function. -/

namespace Pystra.Brent
open Props

variable {σ : Type} {c : ℝ} {f f' : σ → ℝ → σ × Except PyErr ℝ} {xtol rtol : ℝ}

/-- The loop variables with the function values times `c`. -/
def State.scaled (c : ℝ) (st : State) : State := { st with fpre := c * st.fpre, fcur := c * st.fcur, fblk := c * st.fblk }

theorem neg_scaled (hc : 0 < c) {a : ℝ} : c * a < 0 ↔ a < 0 := by
  constructor <;> intro h <;> nlinarith

theorem nonpos_scaled (hc : 0 < c) {a : ℝ} : c * a ≤ 0 ↔ a ≤ 0 := by
  constructor <;> intro h <;> nlinarith

theorem oppSign_scaled (hc : 0 < c) {a b : ℝ} : oppSign (c * a) (c * b) ↔ oppSign a b := by
  unfold oppSign
  simp only [mul_pos_iff_of_pos_left hc, neg_scaled hc]

theorem abs_scaled (hc : 0 < c) (a b : ℝ) : |c * a| < |c * b| ↔ |a| < |b| := by
  rw [abs_mul, abs_mul, abs_of_pos hc, mul_lt_mul_iff_right₀ hc]

theorem adjust_scaled (hc : 0 < c) (st : State) : adjust (st.scaled c) = (adjust st).scaled c := by
  have hO : oppSign (st.scaled c).fpre (st.scaled c).fcur ↔ oppSign st.fpre st.fcur := oppSign_scaled hc
  have hA : |(st.scaled c).fpre| < |(st.scaled c).fcur| ↔ |st.fpre| < |st.fcur| := abs_scaled hc _ _
  have hB : |(st.scaled c).fblk| < |(st.scaled c).fcur| ↔ |st.fblk| < |st.fcur| := abs_scaled hc _ _
  unfold adjust
  by_cases h1 : oppSign st.fpre st.fcur
  · simp only [if_pos h1, if_pos (hO.2 h1)]
    by_cases h2 : |st.fpre| < |st.fcur|
    · rw [if_pos h2, if_pos (hA.2 h2)]; rfl
    · rw [if_neg h2, if_neg (fun h => h2 (hA.1 h))]; rfl
  · simp only [if_neg h1, if_neg (fun h => h1 (hO.1 h))]
    by_cases h2 : |st.fblk| < |st.fcur|
    · rw [if_pos h2, if_pos (hB.2 h2)]; rfl
    · rw [if_neg h2, if_neg (fun h => h2 (hB.1 h))]

theorem stry_scaled (hc : 0 < c) (st : State) : stry (st.scaled c) = stry st := by
  have h := hc.ne'
  unfold stry State.scaled
  simp only
  split_ifs
  · rw [show -(c * st.fcur) * (st.xcur - st.xpre) = c * (-st.fcur * (st.xcur - st.xpre)) by ring, ← mul_sub, mul_div_mul_left _ _ h]
  · have e1 : (c * st.fpre - c * st.fcur) / (st.xpre - st.xcur) = c * ((st.fpre - st.fcur) / (st.xpre - st.xcur)) := by ring
    have e2 : (c * st.fblk - c * st.fcur) / (st.xblk - st.xcur) = c * ((st.fblk - st.fcur) / (st.xblk - st.xcur)) := by ring
    rw [e1, e2]
    generalize (st.fpre - st.fcur) / (st.xpre - st.xcur) = p
    generalize (st.fblk - st.fcur) / (st.xblk - st.xcur) = q
    rw [show -(c * st.fcur) * (c * st.fblk * (c * q) - c * st.fpre * (c * p)) = c ^ 3 * (-st.fcur * (st.fblk * q - st.fpre * p)) by ring,
      show c * q * (c * p) * (c * st.fblk - c * st.fpre) = c ^ 3 * (q * p * (st.fblk - st.fpre)) by ring,
      mul_div_mul_left _ _ (pow_ne_zero 3 h)]

theorem advance_scaled (hc : 0 < c) (st : State) : advance xtol rtol (st.scaled c) = (advance xtol rtol st).scaled c := by
  have hs := stry_scaled hc st
  have hA : |(st.scaled c).fcur| < |(st.scaled c).fpre| ↔ |st.fcur| < |st.fpre| := abs_scaled hc _ _
  unfold advance
  simp only [hs, hA]
  unfold State.scaled
  simp only
  split_ifs <;> rfl

/-- The second function is `c` times the first one. -/
def ScaledFun (c : ℝ) (f f' : σ → ℝ → σ × Except PyErr ℝ) : Prop := ∀ s x, f' s x = ((f s x).1, mapOk (c * ·) (f s x).2)

theorem brentLoop_scaled (hc : 0 < c) (hf : ScaledFun c f f') : ∀ (iter : ℕ) (st : State) (s : σ),
    loop f' xtol rtol iter (st.scaled c) s = loop f xtol rtol iter st s
  | 0, _, _ => rfl
  | iter + 1, st, s => by
    have hA : (adjust (st.scaled c)).xcur = (adjust st).xcur ∧ (adjust (st.scaled c)).xblk = (adjust st).xblk ∧
        (adjust (st.scaled c)).fcur = c * (adjust st).fcur := by rw [adjust_scaled hc]; exact ⟨rfl, rfl, rfl⟩
    have hB : advance xtol rtol (adjust (st.scaled c)) = (advance xtol rtol (adjust st)).scaled c := by
      rw [adjust_scaled hc, advance_scaled hc]
    unfold loop
    have hz : c * (adjust st).fcur = 0 ↔ (adjust st).fcur = 0 := by simp [hc.ne']
    simp only [hA, hB, hz]
    by_cases h1 : (adjust st).fcur = 0 ∨ |((adjust st).xblk - (adjust st).xcur) / 2| < delta xtol rtol (adjust st).xcur
    · rw [if_pos h1, if_pos h1]
    rw [if_neg h1, if_neg h1]
    have hx' : ((advance xtol rtol (adjust st)).scaled c).xcur = (advance xtol rtol (adjust st)).xcur := rfl
    rw [hx', hf]
    rcases f s (advance xtol rtol (adjust st)).xcur with ⟨s1, e | y⟩
    · rfl
    · simp only [mapOk]
      exact brentLoop_scaled hc hf iter { advance xtol rtol (adjust st) with fcur := y } s1

theorem brentq_scaled (hc : 0 < c) (hf : ScaledFun c f f') (a b : ℝ) (iter : ℕ) (s : σ) :
    brentq f' a b xtol rtol iter s = brentq f a b xtol rtol iter s := by
  unfold brentq
  rw [hf]
  rcases f s a with ⟨s1, e | y⟩
  · rfl
  simp only [mapOk]
  rw [hf]
  rcases f s1 b with ⟨s2, e | z⟩
  · rfl
  simp only [mapOk, mul_eq_zero, hc.ne', false_or]
  have hO := oppSign_scaled hc (a := y) (b := z)
  by_cases h1 : y = 0
  · simp [h1]
  by_cases h2 : z = 0
  · simp [h1, h2]
  rw [if_neg h1, if_neg h1, if_neg h2, if_neg h2]
  by_cases h3 : oppSign y z
  · rw [if_neg (not_not.2 h3), if_neg (not_not.2 (hO.2 h3))]
    have := brentLoop_scaled (xtol := xtol) (rtol := rtol) hc hf iter ⟨a, b, 0, y, z, 0, 0, 0⟩ s2
    rw [← this]
    unfold State.scaled
    simp
  · rw [if_pos h3, if_pos (fun h => h3 (hO.1 h))]

end Pystra.Brent

namespace Pystra.Props
open Matrix Spec Transformation Form LimitState

variable {σ : Type} {n : ℕ} {c : ℝ} {ev ev' : Evaluator σ n} {t : Mats n} {marg : Fin n → Marginal}

theorem evalAt_scaled (he : ScaledEval c ev ev') (v al : Fin n → ℝ) :
    Brent.ScaledFun c (LineSampling.evalAt t marg ev v al) (LineSampling.evalAt t marg ev' v al) := by
  intro s x
  unfold LineSampling.evalAt
  rw [he.values]
  rcases ev.values s [uToX t marg fun i => v i + x * al i] with ⟨s1, e | G⟩
  · rfl
  · cases G <;> simp [mapOk]

theorem scan_scaled (he : ScaledEval c ev ev') (v al : Fin n → ℝ) : ∀ (cs : List ℝ) (s : σ),
    LineSampling.scan t marg ev' v al cs s = ((LineSampling.scan t marg ev v al cs s).1,
      (LineSampling.scan t marg ev v al cs s).2.map (fun p => (p.1, p.2.map (c * ·))))
  | [], s => rfl
  | x :: cs, s => by
    unfold LineSampling.scan
    dsimp only
    rw [evalAt_scaled he]
    dsimp only
    rw [scan_scaled he v al cs]
    rcases (LineSampling.evalAt t marg ev v al s x).2 with e | y <;> rfl

theorem bracket_scaled (hc : 0 < c) : ∀ (l : List (ℝ × Option ℝ)) (acc : Option (ℝ × ℝ)),
    LineSampling.bracket (l.map (fun p => (p.1, p.2.map (c * ·)))) acc = LineSampling.bracket l acc
  | [], acc => by simp [LineSampling.bracket]
  | [p], acc => by
    rcases p with ⟨x, _ | g⟩ <;> simp [LineSampling.bracket]
  | (x1, none) :: q :: l, acc => by
    have := bracket_scaled hc (q :: l) acc
    simpa [LineSampling.bracket] using this
  | (x1, some g1) :: (x2, none) :: l, acc => by
    have := bracket_scaled hc ((x2, none) :: l) acc
    simpa [LineSampling.bracket] using this
  | (x1, some g1) :: (x2, some g2) :: l, acc => by
    have h := bracket_scaled hc ((x2, some g2) :: l)
    simp only [List.map_cons, Option.map_some] at h ⊢
    unfold LineSampling.bracket
    have e1 : c * g1 * (c * g2) ≤ 0 ↔ g1 * g2 ≤ 0 := by
      rw [show c * g1 * (c * g2) = (c * c) * (g1 * g2) by ring]
      exact Brent.nonpos_scaled (mul_pos hc hc)
    have e2 : 0 < c * g1 ∧ c * g2 ≤ 0 ↔ 0 < g1 ∧ g2 ≤ 0 := by
      rw [mul_pos_iff_of_pos_left hc, Brent.nonpos_scaled hc]
    simp only [e1, e2, h]

theorem findLine_scaled (hc : 0 < c) (he : ScaledEval c ev ev') (v al : Fin n → ℝ) (cInit : ℝ) (s : σ) :
    LineSampling.findLine t marg ev' v al cInit s = LineSampling.findLine t marg ev v al cInit s := by
  unfold LineSampling.findLine
  dsimp only
  rw [scan_scaled he]
  dsimp only
  rw [bracket_scaled hc]
  rcases LineSampling.bracket (LineSampling.scan t marg ev v al (LineSampling.grid (LineSampling.cMax cInit)) s).2 none with _ | ⟨lo, hi⟩
  · dsimp only
    have hh : (List.filterMap Prod.snd (List.map (fun p : ℝ × Option ℝ => (p.1, p.2.map (c * ·)))
        (LineSampling.scan t marg ev v al (LineSampling.grid (LineSampling.cMax cInit)) s).2)).head? =
        ((LineSampling.scan t marg ev v al (LineSampling.grid (LineSampling.cMax cInit)) s).2.filterMap Prod.snd).head?.map (c * ·) := by
      rw [List.filterMap_map, ← List.head?_map, List.map_filterMap]
      rfl
    rw [hh]
    rcases ((LineSampling.scan t marg ev v al (LineSampling.grid (LineSampling.cMax cInit)) s).2.filterMap Prod.snd).head? with _ | g
    · rfl
    · simp only [Option.map_some, Brent.neg_scaled hc]
  · dsimp only
    rw [Brent.brentq_scaled hc (evalAt_scaled he v al)]

theorem lines_scaled (hc : 0 < c) (he : ScaledEval c ev ev') (al : Fin n → ℝ) (cInit : ℝ) : ∀ (vs : List (Fin n → ℝ)) (s : σ),
    LineSampling.lines t marg ev' al cInit vs s = LineSampling.lines t marg ev al cInit vs s
  | [], _ => rfl
  | v :: vs, s => by
    unfold LineSampling.lines
    dsimp only
    rw [findLine_scaled hc he, lines_scaled hc he al cInit vs]

/-- **C89** (line sampling).  Multiplying the limit-state function by `c > 0` changes nothing in the results of line sampling: same
distances on every line, same `Pf`, `β`, coefficient of variation, same state -- for a supplied FORM result, and also when line sampling
runs FORM itself, with a fixed step size. -/
theorem C89_line (hc : 0 < c) (he : ScaledEval c ev ev') (opt : Form.Options) (form : Option (Form.Result n))
    (hopt : form = none → opt.stepSize ≠ 0 ∨ |c| = 1) (N : ℕ) (ω : ℕ → ℝ) (fuel : ℕ) (s : σ) :
    LineSampling.run t marg ev' opt form N ω fuel s = LineSampling.run t marg ev opt form N ω fuel s := by
  have hs : ∀ al be s, LineSampling.sample t marg ev' al be N ω 0 s = LineSampling.sample t marg ev al be N ω 0 s := by
    intro al be s
    unfold LineSampling.sample
    dsimp only
    rw [lines_scaled hc he]
  unfold LineSampling.run
  cases form with
  | some r => simp only [hs]
  | none =>
    have h := loop_scaled (t := t) (marg := marg) hc.ne' he (hopt rfl) fuel 1 0 (startingPoint t marg) s
    rw [mul_zero] at h
    unfold runFrom
    rw [h]
    rcases loop t marg ev opt fuel 1 0 (startingPoint t marg) s with _ | r | e | s1 | o
    · rfl
    · simp only [Option.map_some, scaledOutcome, hs]
      simp [scaledResult, sign_pos hc]
    · rfl
    · rfl
    · rfl

end Pystra.Props
