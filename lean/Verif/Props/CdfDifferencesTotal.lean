import Verif.Props.CdfDifferences

/-! C86: which objects have cdf sensitivities. -/

namespace Pystra.Props
open Real Set Spec Distribution Family

theorem step_pos {v σ : ℝ} (h : 0 < σ) : 0 < step v σ := lt_max_of_lt_right (by positivity)

theorem step_self {σ : ℝ} (h : 0 < σ) : step σ σ = σ * 1e-6 := by
  unfold step
  rw [abs_of_pos h]
  exact max_eq_left (by nlinarith)

theorem step_lt {μ σ : ℝ} (hμ : 0 < μ) (h : σ * 1e-8 < μ) : step μ σ < μ := by
  unfold step
  rw [abs_of_pos hμ]
  exact max_lt (by nlinarith) h

theorem _root_.Pystra.Good.returns {r : Except PyErr Marginal} {sp : Option ℝ} {D : Set ℝ} {μ σ : ℝ} (h : Good r sp D μ σ) : Returns r := by
  obtain ⟨m, hm, _⟩ := h.ex; exact ⟨m, hm⟩

/-- The classes that are rebuilt exactly and need no solver. -/
def explicitFamilies : List Family := [.uniform, .gamma, .shiftedExponential, .shiftedRayleigh, .chiSquare, .gevMax, .gevMin]

theorem explicit_returns (S : Solvers) {F : Family} (hF : F ∈ explicitFamilies) {b : Dict String ℝ} (hb : F.bind b = .ok b) {μ σ : ℝ}
    (hσ : 0 < σ) (hμ : F = .gamma ∨ F = .chiSquare → 0 < μ) (hs : F = .gevMax ∨ F = .gevMin → Family.arg b "shape" < 1 / 2) :
    Returns (F.construct S μ σ b false none) := by
  unfold Family.construct
  rw [hb]
  simp only [explicitFamilies, List.mem_cons, List.not_mem_nil, or_false] at hF
  rcases hF with rfl | rfl | rfl | rfl | rfl | rfl | rfl
  · exact (good_uniform μ hσ none).returns
  · exact (good_gamma (hμ (Or.inl rfl)) hσ none).returns
  · exact (good_shiftedExponential μ hσ none).returns
  · exact (good_shiftedRayleigh μ hσ none).returns
  · exact (good_chiSquare (hμ (Or.inr rfl)) hσ none).returns
  · have h2 := hs (Or.inl rfl)
    by_cases hc : |Family.arg b "shape"| ≤ 1e-8
    · obtain ⟨m, hm, _⟩ := C20_max_window μ hσ hc none
      exact ⟨m, hm⟩
    · obtain ⟨m, _, hm, _⟩ := C20_max μ hσ h2 (Or.inr (not_le.1 hc)) none
      exact ⟨m, hm⟩
  · obtain ⟨m, hm, _⟩ := newMin_moments S μ false hσ (hs (Or.inr rfl))
    exact ⟨m, hm⟩

/-- What such an object reports. -/
theorem explicit_reports {S : Solvers} {F : Family} (hF : F ∈ explicitFamilies) {inp : Bool} {p q : ℝ} {b : Dict String ℝ}
    (hr : Reproducible S F inp p q b) {m : Marginal} (hm : F.body S p q b inp none = .ok m) :
    0 < m.stdv ∧ (F = .gamma ∨ F = .chiSquare → 0 < m.mean) := by
  have of : ∀ {G : Family} {D : Set ℝ} {μ σ : ℝ}, Good (G.body S p q b inp none) none D μ σ → G.body S p q b inp none = .ok m →
      0 < σ → 0 < m.stdv ∧ m.mean = μ := by
    intro G D μ σ hg hm h
    obtain ⟨m', hm', h1, h2, _⟩ := hg.ex
    rw [hm] at hm'
    cases hm'
    exact ⟨h2 ▸ h, h1⟩
  have hsd : ∀ {s : ℝ}, s < 1 / 2 → 0 < q → 0 < (GEV.moments p q s).2 := by
    intro s h2 hq
    have hinv := gev_locScale_inv p hq h2
    by_cases hc : iscloseZero s
    · simp only [GEV.moments, if_pos hc]; positivity
    · by_contra hn
      have h1 : (GEV.moments p q s).2 = 0 := by
        refine le_antisymm (not_lt.1 hn) ?_
        simp only [GEV.moments, if_neg hc]; positivity
      rw [h1] at hinv
      have := congrArg Prod.snd hinv
      simp only [GEV.locScale, if_neg hc, zero_mul, zero_div] at this
      exact hq.ne this
  simp only [explicitFamilies, List.mem_cons, List.not_mem_nil, or_false] at hF
  rcases hF with rfl | rfl | rfl | rfl | rfl | rfl | rfl <;> cases inp <;> simp only [Reproducible] at hr
  · exact ⟨(of (G := .uniform) (good_uniform p hr none) hm hr).1, by simp⟩
  · exact ⟨(of (G := .uniform) (good_uniform_params hr none) hm (div_pos (sub_pos.2 hr) (by positivity))).1, by simp⟩
  · obtain ⟨h1, h2⟩ := hr
    have := of (G := .gamma) (good_gamma h1 h2 none) hm h2
    exact ⟨this.1, fun _ => this.2 ▸ h1⟩
  · obtain ⟨h1, h2⟩ := hr
    have := of (G := .gamma) (good_gamma_params h1 h2 none) hm (by positivity)
    exact ⟨this.1, fun _ => this.2 ▸ (by positivity)⟩
  · exact ⟨(of (G := .shiftedExponential) (good_shiftedExponential p hr none) hm hr).1, by simp⟩
  · exact ⟨(of (G := .shiftedExponential) (good_shiftedExponential_params hr q none) hm (by positivity)).1, by simp⟩
  · exact ⟨(of (G := .shiftedRayleigh) (good_shiftedRayleigh p hr none) hm hr).1, by simp⟩
  · have h4 : 0 < 2 - π / 2 := by linarith [pi_lt_d2]
    exact ⟨(of (G := .shiftedRayleigh) (good_shiftedRayleigh_params hr q none) hm (mul_pos hr (sqrt_pos.2 h4))).1, by simp⟩
  · obtain ⟨h1, h2⟩ := hr
    have := of (G := .chiSquare) (good_chiSquare h1 h2 none) hm (by positivity)
    exact ⟨this.1, fun _ => this.2 ▸ (by positivity)⟩
  · have := of (G := .chiSquare) (good_chiSquare_params hr q none) hm (by positivity)
    exact ⟨this.1, fun _ => this.2 ▸ hr⟩
  · exact ⟨(of (G := .gevMax) (good_gevMax p hr.1 hr.2.1 hr.2.2 none) hm hr.1).1, by simp⟩
  · exact ⟨(of (G := .gevMax) (good_gevMax_params p hr.1 hr.2.1 hr.2.2 none) hm (hsd hr.2.1 hr.1)).1, by simp⟩
  · refine ⟨?_, by simp⟩
    simp only [Family.body, GEV.newMin] at hm
    split at hm
    · cases hm
    · simp only [Bool.false_eq_true, if_false] at hm
      split at hm
      · cases hm
      · cases hm; exact hr.1
  · refine ⟨?_, by simp⟩
    simp only [Family.body, GEV.newMin] at hm
    split at hm
    · cases hm
    · simp only [if_true] at hm
      split at hm
      · cases hm
      · cases hm; exact hsd hr.2 hr.1

/-- C86: `dF_dtheta` works — it returns the central differences, at every point — for every object of these classes, provided (Gamma and
chi-square) the mean is more than `1e-8` standard deviations and (GEV) the shape stays below one half when the step is added to it. -/
theorem C86_total (S : Solvers) (F : Family) (hF : F ∈ explicitFamilies) (inp : Bool) (p q : ℝ) (kw b : Dict String ℝ) (sp : Option ℝ)
    (hb : F.bind kw = .ok b) (hr : Reproducible S F inp p q b) :
    ∃ o, F.object S p q kw inp sp = .ok o ∧
      ((F = .gamma ∨ F = .chiSquare → o.marg.stdv * 1e-8 < o.marg.mean) →
        (F = .gevMax ∨ F = .gevMin → Family.arg b "shape" + step (Family.arg b "shape") o.marg.stdv < 1 / 2) →
        ∀ x, o.dFDtheta x = .ok (cdfDifferences S F b o.marg.mean o.marg.stdv x)) := by
  obtain ⟨o, ho, h⟩ := C86_entries S F inp p q kw b sp hb hr (by
    refine ⟨?_, ?_, ?_⟩ <;> · rintro rfl; simp [explicitFamilies] at hF)
  refine ⟨o, ho, fun hg hs => h ?_⟩
  obtain ⟨m, hm, rfl⟩ := object_ok hb ho
  obtain ⟨hσ, hμ⟩ := explicit_reports hF hr hm
  have hk := bind_bound hb
  simp only at hg hs ⊢
  have hst := step_pos (v := m.mean) hσ
  have hsm : step m.stdv m.stdv < m.stdv := by rw [step_self hσ]; nlinarith
  have hsp := step_pos (v := m.stdv) hσ
  have hsh : F = .gevMax ∨ F = .gevMin → Family.arg b "shape" < 1 / 2 := fun hF => by
    have := hs hF
    have := step_pos (v := Family.arg b "shape") hσ
    linarith
  refine ⟨⟨explicit_returns S hF hk hσ (fun hF => by have := hμ hF; linarith) hsh,
      explicit_returns S hF hk hσ (fun hF => by have := step_lt (hμ hF) (hg hF); linarith) hsh⟩,
    ⟨explicit_returns S hF hk (by linarith) hμ hsh, explicit_returns S hF hk (by linarith) hμ hsh⟩, fun name hn => ?_⟩
  have hG : (F = .gevMax ∨ F = .gevMin) ∧ name = "shape" := by
    cases F <;> simp [Family.extra] at hn <;> simp [hn]
  obtain ⟨hG, rfl⟩ := hG
  have hkeys : Dict.keys b = ["shape"] := by
    rw [bind_keys hk]
    rcases hG with rfl | rfl <;> rfl
  obtain ⟨v, rfl⟩ : ∃ v, b = [("shape", v)] := by
    match b, hkeys with
    | [(a, v)], hb =>
      simp only [Dict.keys, List.map_cons, List.map_nil, List.cons.injEq, and_true] at hb
      exact ⟨v, by rw [hb]⟩
  have ha : ∀ w : ℝ, Family.arg [("shape", w)] "shape" = w := fun w => by simp [Family.arg, Dict.get?]
  have hset : ∀ w : ℝ, Dict.set [("shape", v)] "shape" w = [("shape", w)] := fun w => by simp [Dict.set]
  have hbd : ∀ w : ℝ, F.bind [("shape", w)] = .ok [("shape", w)] := fun w => bind_of_keys (by
    rcases hG with rfl | rfl <;> rfl)
  have hs' := hs hG
  rw [ha] at hs' ⊢
  rw [hset, hset]
  have hst' := step_pos (v := v) hσ
  exact ⟨explicit_returns S hF (hbd _) hσ hμ (fun _ => by rw [ha]; exact hs'),
    explicit_returns S hF (hbd _) hσ hμ (fun _ => by rw [ha]; linarith)⟩

end Pystra.Props
