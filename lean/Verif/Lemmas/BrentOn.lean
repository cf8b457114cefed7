import Verif.Lemmas.BrentAffine
import Verif.Lemmas.LineSampling

/-! The root finder evaluates its function only on the interval it is given. -/

namespace Pystra.Brent
open Spec

variable {σ σ' : Type} {f : σ → ℝ → σ × Except PyErr ℝ} {f' : σ' → ℝ → σ' × Except PyErr ℝ} {P : σ → Prop} {P' : σ' → Prop}
variable {h h' : ℝ → Option ℝ} {a b xtol rtol : ℝ}

theorem loop_det_on (hf : Computes f P h) (hf' : Computes f' P' h') (hh' : ∀ x, a ≤ x → x ≤ b → h x = h' x) (hx : 0 < xtol)
    (hr : 0 ≤ rtol) : ∀ (iter : ℕ) (st : State) (s : σ) (s' : σ'), Head h a b st → P s → P' s' →
    (loop f xtol rtol iter st s).2.toOption = (loop f' xtol rtol iter st s').2.toOption
  | 0, st, s, s', _, _, _ => rfl
  | iter + 1, st, s, s', hh, hs, hs' => by
    have hm := adjust_mid hh
    unfold loop
    set st' := adjust st with hst'
    simp only
    split_ifs with h1
    · rfl
    · push Not at h1
      obtain ⟨h0, h2⟩ := h1
      obtain ⟨e1, e2, e3, e4, e5⟩ := advance_spec hm h0 hx hr (not_lt.2 h2)
      set A := advance xtol rtol st' with hA
      have hc1 := hm.curA
      have hb1 := hm.blkA
      have hin : a ≤ A.xcur ∧ A.xcur ≤ b := by
        rcases pos_and_pos_or_neg_and_neg_of_mul_pos e5 with h6 | h6 <;> constructor <;> linarith [h6.1, h6.2]
      have heq := hh' A.xcur hin.1 hin.2
      rcases computes_cases hf hs A.xcur with ⟨s1, e, g1, g2, g3⟩ | ⟨s1, y, g1, g2, g3⟩ <;>
        rcases computes_cases hf' hs' A.xcur with ⟨s1', e', g1', g2', g3'⟩ | ⟨s1', y', g1', g2', g3'⟩
      · simp only [g1, g1']; rfl
      · rw [heq, g3'] at g3; cases g3
      · rw [heq, g3'] at g3; cases g3
      · have : y = y' := by rw [heq, g3'] at g3; injection g3 with g3; exact g3.symm
        subst this
        simp only [g1, g1']
        apply loop_det_on hf hf' hh' hx hr iter _ s1 s1' _ g2 g2'
        refine ⟨g3, by rw [e1, e2]; exact hm.hcur, hin, by rw [e1]; exact hm.curA, by rw [e2]; exact h0, ?_⟩
        right
        simp only [e1, e2, e3, e4]
        exact ⟨hm.hblk, hm.blkA, hm.opp.resolve_left h0, e5⟩

theorem brentq_det_on (hf : Computes f P h) (hf' : Computes f' P' h') (hab : a ≤ b) (hh' : ∀ x, a ≤ x → x ≤ b → h x = h' x)
    (hx : 0 < xtol) (hr : 0 ≤ rtol) (iter : ℕ) (s : σ) (s' : σ') (hs : P s) (hs' : P' s') :
    (brentq f a b xtol rtol iter s).2.toOption = (brentq f' a b xtol rtol iter s').2.toOption := by
  unfold brentq
  have ea := hh' a le_rfl hab
  have eb := hh' b hab le_rfl
  rcases computes_cases hf hs a with ⟨s1, e, e1, e2, e3⟩ | ⟨s1, y, e1, e2, e3⟩ <;>
    rcases computes_cases hf' hs' a with ⟨s1', e', e1', e2', e3'⟩ | ⟨s1', y', e1', e2', e3'⟩
  · simp only [e1, e1']; rfl
  · rw [ea, e3'] at e3; cases e3
  · rw [ea, e3'] at e3; cases e3
  have hy : y = y' := by rw [ea, e3'] at e3; injection e3 with e3; exact e3.symm
  subst hy
  simp only [e1, e1']
  rcases computes_cases hf e2 b with ⟨s2, d, d1, d2, d3⟩ | ⟨s2, z, d1, d2, d3⟩ <;>
    rcases computes_cases hf' e2' b with ⟨s2', d', d1', d2', d3'⟩ | ⟨s2', z', d1', d2', d3'⟩
  · simp only [d1, d1']; rfl
  · rw [eb, d3'] at d3; cases d3
  · rw [eb, d3'] at d3; cases d3
  have hz : z = z' := by rw [eb, d3'] at d3; injection d3 with d3; exact d3.symm
  subst hz
  simp only [d1, d1']
  split_ifs with c1 c2 c3
  · rfl
  · rfl
  · apply loop_det_on hf hf' hh' hx hr iter _ s2 s2' _ d2 d2'
    rw [oppSign_iff] at c3
    exact ⟨d3, e3, ⟨hab, le_rfl⟩, ⟨le_rfl, hab⟩, c1, Or.inl c3⟩
  · rfl

end Pystra.Brent

namespace Pystra.LineSampling
open Spec Transformation Form Matrix

variable {σ σ' : Type} {n n' : ℕ} {t : Mats n} {t' : Mats n'} {marg : Fin n → Marginal} {marg' : Fin n' → Marginal}
  {ev : Evaluator σ n} {ev' : Evaluator σ' n'} {P : σ → Prop} {P' : σ' → Prop} {h h' : ℝ → Option ℝ}
  {v alpha : Fin n → ℝ} {v' alpha' : Fin n' → ℝ}

/-- The outcome on a line depends only on the scanned signs and on the values in the chosen scan interval. -/
theorem findLine_det_on (hf : Computes (evalAt t marg ev v alpha) P h) (hf' : Computes (evalAt t' marg' ev' v' alpha') P' h')
    (cInit : ℝ) (s : σ) (s' : σ') (hs : P s) (hs' : P' s')
    (hbr : bracket ((grid (cMax cInit)).map (fun c => (c, h c))) none = bracket ((grid (cMax cInit)).map (fun c => (c, h' c))) none)
    (hnone : bracket ((grid (cMax cInit)).map (fun c => (c, h c))) none = none →
      ((grid (cMax cInit)).filterMap h).head? = ((grid (cMax cInit)).filterMap h').head?)
    (hsome : ∀ lo hi, bracket ((grid (cMax cInit)).map (fun c => (c, h c))) none = some (lo, hi) → lo ≤ hi ∧
      ∀ x, lo ≤ x → x ≤ hi → h x = h' x) :
    (findLine t marg ev v alpha cInit s).2 = (findLine t' marg' ev' v' alpha' cInit s').2 := by
  rcases hb : bracket ((grid (cMax cInit)).map (fun c => (c, h c))) none with _ | ⟨lo, hi⟩
  · rw [(findLine_none hf cInit hb s hs).2, (findLine_none hf' cInit (hbr ▸ hb) s' hs').2, hnone hb]
  · obtain ⟨hle, hag⟩ := hsome lo hi hb
    obtain ⟨h1, h2⟩ := scan_spec hf (grid (cMax cInit)) s hs
    obtain ⟨h1', h2'⟩ := scan_spec hf' (grid (cMax cInit)) s' hs'
    unfold findLine
    simp only
    rw [h2, h2', ← hbr, hb]
    simp only [min_eq_left hle, max_eq_right hle]
    have hd := Brent.brentq_det_on hf hf' hle hag xtol_pos rtol_nonneg 50 _ _ h1 h1'
    rcases hr : Brent.brentq (evalAt t marg ev v alpha) lo hi xtol rtol 50
        (scan t marg ev v alpha (grid (cMax cInit)) s).1 with ⟨s1, e | c⟩ <;>
      rcases hr' : Brent.brentq (evalAt t' marg' ev' v' alpha') lo hi xtol rtol 50
        (scan t' marg' ev' v' alpha' (grid (cMax cInit)) s').1 with ⟨s1', e' | c'⟩ <;>
      rw [hr, hr'] at hd
    · cases hd
    · cases hd
    · injection hd

end Pystra.LineSampling
