import Verif.Props.Copies
import Mathlib.Analysis.Calculus.MeanValue

/-! C86: `_dmoments_dtheta` for the parameters beyond the mean and the standard deviation. -/

namespace Pystra.Props
open Real Set Spec Distribution

/-- C86: for a further parameter `p` (value `v`) of any object, whose copies with another value `t` of that parameter have mean `M t` and
standard deviation `S t`: `_dmoments_dtheta(p)` returns the derivatives of `M` and of `S` at parameter values within the step
`max (|v|·1e-6) 1e-10`. -/
theorem C86_moments (d : Dist) {p : String} (h1 : p ≠ "mean") (h2 : p ≠ "std") {v : ℝ} (hv : Dict.get? d.sensitivityParams p = some v)
    {M S M' S' : ℝ → ℝ} (hc : ∀ t, ∃ c, d.makeCopy [(p, t)] = .ok c ∧ c.marg.mean = M t ∧ c.marg.stdv = S t)
    (hM : ∀ t, |t - v| ≤ max (|v| * 1e-6) 1e-10 → HasDerivAt M (M' t) t)
    (hS : ∀ t, |t - v| ≤ max (|v| * 1e-6) 1e-10 → HasDerivAt S (S' t) t) :
    ∃ s t, |s - v| ≤ max (|v| * 1e-6) 1e-10 ∧ |t - v| ≤ max (|v| * 1e-6) 1e-10 ∧ d.dmoments p = .ok (M' s, S' t) := by
  have hpos : 0 < max (|v| * 1e-6) (1e-10 : ℝ) := lt_max_of_lt_right (by norm_num)
  have hd : d.dmoments p = .ok ((M (v + max (|v| * 1e-6) 1e-10) - M (v - max (|v| * 1e-6) 1e-10)) / (2 * max (|v| * 1e-6) 1e-10),
      (S (v + max (|v| * 1e-6) 1e-10) - S (v - max (|v| * 1e-6) 1e-10)) / (2 * max (|v| * 1e-6) 1e-10)) := by
    obtain ⟨c1, e1, m1, s1⟩ := hc (v + max (|v| * 1e-6) 1e-10)
    obtain ⟨c2, e2, m2, s2⟩ := hc (v - max (|v| * 1e-6) 1e-10)
    unfold Dist.dmoments
    simp only [if_neg h1, if_neg h2, hv, e1, e2, m1, m2, s1, s2]
  rw [hd]
  generalize max (|v| * 1e-6) (1e-10 : ℝ) = h at *
  have key : ∀ {F F' : ℝ → ℝ}, (∀ t, |t - v| ≤ h → HasDerivAt F (F' t) t) → ∃ s, |s - v| ≤ h ∧ (F (v + h) - F (v - h)) / (2 * h) = F' s := by
    intro F F' hF
    have hin : ∀ t ∈ Icc (v - h) (v + h), |t - v| ≤ h := fun t ht => abs_le.2 ⟨by linarith [ht.1], by linarith [ht.2]⟩
    obtain ⟨s, hs, hs'⟩ := exists_hasDerivAt_eq_slope F F' (show v - h < v + h by linarith)
      (fun t ht => (hF t (hin t ht)).continuousAt.continuousWithinAt) (fun t ht => hF t (hin t (Ioo_subset_Icc_self ht)))
    exact ⟨s, hin s (Ioo_subset_Icc_self hs), by rw [hs']; congr 1; ring⟩
  obtain ⟨s, hs, es⟩ := key hM
  obtain ⟨t, ht, et⟩ := key hS
  exact ⟨s, t, hs, ht, by rw [es, et]⟩

/-- C86: a parameter that the object does not have is a `KeyError`. -/
theorem C86_moments_unknown (d : Dist) {p : String} (h1 : p ≠ "mean") (h2 : p ≠ "std") (hp : Dict.get? d.sensitivityParams p = none) :
    d.dmoments p = .error .keyError := by
  unfold Dist.dmoments
  simp only [if_neg h1, if_neg h2, hp]

/-- A concrete case: a user's subclass of the normal distribution whose mean is `mean + shift²` and whose standard deviation is
`stdv·exp(shift)`; its object with `shift = 1` reports `(2·s, stdv·exp(t))` with `s`, `t` within `1e-6` of 1. -/
example (μ : ℝ) {σ : ℝ} (hσ : 0 < σ) : ∃ d : Dist, Dict.get? d.sensitivityParams "shift" = some 1 ∧
    ∃ s t, |s - 1| ≤ 1e-6 ∧ |t - 1| ≤ 1e-6 ∧ d.dmoments "shift" = .ok (2 * s, σ * exp t) := by
  obtain ⟨m0, hm0⟩ : ∃ m, Normal.new μ (.fin σ) none = .ok m := ⟨_, rfl⟩
  have hspec : ∀ a b : ℝ, ∃ m, Normal.new a (.fin b) none = .ok m ∧ m.mean = a ∧ m.stdv = b := fun a b => ⟨_, rfl, rfl, rfl⟩
  have h0 : m0.mean = μ ∧ m0.stdv = σ := by
    obtain ⟨m, e1, e2, e3⟩ := hspec μ σ
    rw [hm0] at e1; injection e1 with e1
    subst e1
    exact ⟨e2, e3⟩
  obtain ⟨d, hd⟩ : ∃ d : Dist, d = ⟨⟨fun mean stdv kw => Normal.new (mean + ((Dict.get? kw "shift").getD 0) ^ 2)
      (.fin (stdv * exp ((Dict.get? kw "shift").getD 0))) none, ["shift"], none⟩, m0, [("shift", 1)]⟩ := ⟨_, rfl⟩
  have hv : Dict.get? d.sensitivityParams "shift" = some 1 := by
    rw [hd]
    simp [Dist.sensitivityParams, Dict.get?]
  refine ⟨d, hv, ?_⟩
  have hmax : max (|(1:ℝ)| * 1e-6) 1e-10 = 1e-6 := by norm_num
  obtain ⟨s, t, h1, h2, h3⟩ := C86_moments d (p := "shift") (by decide) (by decide) hv (M := fun t => μ + t ^ 2)
    (S := fun t => σ * exp t) (M' := fun t => 2 * t) (S' := fun t => σ * exp t) (by
      intro t
      obtain ⟨m, e1, e2, e3⟩ := hspec (μ + t ^ 2) (σ * exp t)
      refine ⟨⟨d.cls, m, [("shift", t)]⟩, ?_, e2, e3⟩
      rw [hd]
      simp [Dist.makeCopy, Dist.update, Dict.set, Dict.get?, h0.1, h0.2, e1])
    (fun t _ => by simpa using (hasDerivAt_pow 2 t).const_add μ) (fun t _ => (Real.hasDerivAt_exp t).const_mul σ)
  rw [hmax] at h1 h2
  exact ⟨s, t, h1, h2, h3⟩

end Pystra.Props
