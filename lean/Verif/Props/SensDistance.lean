import Verif.Lemmas.Danskin
import Verif.Props.Sensitivity
import Verif.Props.SensitivityPaths
import Verif.Props.SensCorr

/-! C109: the closed-form sensitivities are derivatives of the distance of the limit-state surface, without any assumption on how the
design point moves. -/

namespace Pystra.Props
open Spec Sensitivity Transformation Matrix Filter Topology CholeskySens Danskin

variable {n : ℕ}

theorem len_eq_sqrt (u : Fin n → ℝ) : len u = √(∑ i, u i * u i) := by
  unfold len
  simp only [pow_two]

theorem surfaceDist_le {g : (Fin n → ℝ) → ℝ} {t : Mats n} {marg : Fin n → Marginal} {u : Fin n → ℝ}
    (hu : g (uToX t marg u) = 0) : surfaceDist g t marg ≤ len u :=
  csInf_le ⟨0, by rintro r ⟨v, -, rfl⟩; exact Real.sqrt_nonneg _⟩ ⟨u, hu, rfl⟩

theorem surfaceDist_nonneg (g : (Fin n → ℝ) → ℝ) (t : Mats n) (marg : Fin n → Marginal) : 0 ≤ surfaceDist g t marg :=
  Real.sInf_nonneg (by rintro r ⟨v, -, rfl⟩; exact Real.sqrt_nonneg _)

/-- The distance is the length of the design point. -/
theorem surfaceDist_eq {g : (Fin n → ℝ) → ℝ} {t : Mats n} {marg : Fin n → Marginal} {u : Fin n → ℝ}
    (h : OnlyNearest g t marg u) : surfaceDist g t marg = len u := by
  refine le_antisymm (surfaceDist_le h.1) (le_csInf ⟨_, u, h.1, rfl⟩ ?_)
  rintro r ⟨v, hv, rfl⟩
  by_cases hvu : v = u
  · rw [hvu]
  · exact (h.2 v hv hvu).le

/-- The derivative of the distance of the surface. -/
theorem surfaceDist_hasDerivAt {g : (Fin n → ℝ) → ℝ} {t : ℝ → Mats n} {marg : ℝ → Fin n → Marginal} {θ : ℝ} {u0 : Fin n → ℝ}
    (hcont : ∀ u, ContinuousAt (fun p : ℝ × (Fin n → ℝ) => uToX (t p.1) (marg p.1) p.2) (θ, u))
    (hg : ∀ u, ContinuousAt g (uToX (t θ) (marg θ) u))
    (hleft : ∀ᶠ s in 𝓝 θ, ∀ u, xToU (t s) (marg s) (uToX (t s) (marg s) u) = u)
    (hright : ∀ᶠ s in 𝓝 θ, uToX (t s) (marg s) (xToU (t s) (marg s) (uToX (t θ) (marg θ) u0)) = uToX (t θ) (marg θ) u0)
    (hright0 : ∀ᶠ x in 𝓝 (uToX (t θ) (marg θ) u0), uToX (t θ) (marg θ) (xToU (t θ) (marg θ) x) = x)
    (hnear : OnlyNearest g (t θ) (marg θ) u0) (hu0 : 0 < len u0) {w : Fin n → ℝ}
    (hrate : ∀ i, Rate θ (uToX (t θ) (marg θ) u0) (fun s x => xToU (t s) (marg s) x i) (w i)) :
    HasDerivAt (fun s => surfaceDist g (t s) (marg s)) ((u0 ⬝ᵥ w) / len u0) θ := by
  obtain ⟨x0, hx0⟩ : ∃ x0, x0 = uToX (t θ) (marg θ) u0 := ⟨_, rfl⟩
  rw [← hx0] at hright hrate hright0
  have hu0x : xToU (t θ) (marg θ) x0 = u0 := by rw [hx0]; exact hleft.self_of_nhds u0
  -- the squared length of the image of a fixed point
  have hf : Rate θ x0 (fun s x => ∑ i, xToU (t s) (marg s) x i * xToU (t s) (marg s) x i) (2 * (u0 ⬝ᵥ w)) := by
    have := Rate.sum Finset.univ fun i _ => (hrate i).mul (hrate i)
    rw [hu0x] at this
    have e : (∑ i, (w i * u0 i + u0 i * w i)) = 2 * (u0 ⬝ᵥ w) := by
      unfold dotProduct
      rw [Finset.mul_sum]
      exact Finset.sum_congr rfl fun i _ => by ring
    rwa [e] at this
  have hlen : ∀ s x, ∑ i, xToU (t s) (marg s) x i * xToU (t s) (marg s) x i = len (xToU (t s) (marg s) x) ^ 2 := by
    intro s x
    rw [len_eq_sqrt, Real.sq_sqrt (Finset.sum_nonneg fun i _ => mul_self_nonneg _)]
  simp only [hlen] at hf
  have hcf : Tendsto (fun s => len (xToU (t s) (marg s) x0) ^ 2) (𝓝 θ) (𝓝 (len u0 ^ 2)) := by
    have h1 : Tendsto (fun s : ℝ => (s, x0)) (𝓝 θ) (𝓝 (θ, x0)) := tendsto_id.prodMk_nhds tendsto_const_nhds
    have := hf.cont.tendsto.comp h1
    simpa [Function.comp_def, hu0x] using this
  -- almost nearest points
  have hup : ∀ᶠ s in 𝓝 θ, g (uToX (t s) (marg s) (xToU (t s) (marg s) x0)) = 0 := by
    filter_upwards [hright] with s hs
    rw [hs, hx0]
    exact hnear.1
  have hex : ∀ᶠ s in 𝓝 θ, ∃ u, g (uToX (t s) (marg s) u) = 0 ∧ len u ^ 2 ≤ surfaceDist g (t s) (marg s) ^ 2 + (s - θ) ^ 2 := by
    filter_upwards [hup] with s hs
    by_cases hsθ : s = θ
    · subst hsθ
      exact ⟨u0, hnear.1, by rw [surfaceDist_eq hnear]; nlinarith⟩
    · have hpos : 0 < (s - θ) ^ 2 := by
        have : s - θ ≠ 0 := sub_ne_zero.2 hsθ
        positivity
      obtain ⟨b, hb⟩ : ∃ b, b = surfaceDist g (t s) (marg s) := ⟨_, rfl⟩
      have hb0 : 0 ≤ b := hb ▸ surfaceDist_nonneg _ _ _
      have hlt : b < √(b ^ 2 + (s - θ) ^ 2) := by
        apply Real.lt_sqrt_of_sq_lt
        linarith
      obtain ⟨r, ⟨u, hu, rfl⟩, hr⟩ := exists_lt_of_csInf_lt (s := {r | ∃ u : Fin n → ℝ, g (uToX (t s) (marg s) u) = 0 ∧ r = len u})
        ⟨_, _, hs, rfl⟩ (by rw [hb] at hlt; exact hlt)
      refine ⟨u, hu, ?_⟩
      have h0 : 0 ≤ len u := Real.sqrt_nonneg _
      have h2 : len u ^ 2 ≤ (√(surfaceDist g (t s) (marg s) ^ 2 + (s - θ) ^ 2)) ^ 2 := by
        apply pow_le_pow_left₀ h0 hr.le
      rwa [Real.sq_sqrt (by positivity)] at h2
  obtain ⟨us, hus⟩ := hex.choice
  -- they converge to the design point
  have hbd : ∀ᶠ s in 𝓝 θ, len (us s) ^ 2 ≤ len (xToU (t s) (marg s) x0) ^ 2 + (s - θ) ^ 2 := by
    filter_upwards [hus, hup] with s h1 h2
    have h3 := surfaceDist_le h2
    have h4 := surfaceDist_nonneg g (t s) (marg s)
    nlinarith [h1.2]
  have hcb : Tendsto (fun s => len (xToU (t s) (marg s) x0) ^ 2 + (s - θ) ^ 2) (𝓝 θ) (𝓝 (len u0 ^ 2)) := by
    have h1 : Tendsto (fun s : ℝ => (s - θ) ^ 2) (𝓝 θ) (𝓝 ((θ - θ) ^ 2)) := by apply Continuous.tendsto; fun_prop
    simpa using hcf.add h1
  have hconv : Tendsto us (𝓝 θ) (𝓝 u0) := by
    have hcomp : IsCompact (Metric.closedBall (0 : Fin n → ℝ) (len u0 + 1)) := isCompact_closedBall _ _
    refine hcomp.tendsto_nhds_of_unique_mapClusterPt ?_ ?_
    · filter_upwards [hbd, hcb.eventually_lt_const (show len u0 ^ 2 < (len u0 + 1) ^ 2 by nlinarith)] with s h1 h2
      rw [mem_closedBall_zero_iff, pi_norm_le_iff_of_nonneg (by linarith)]
      intro i
      have h3 : us s i ^ 2 ≤ len (us s) ^ 2 := by
        unfold len
        rw [Real.sq_sqrt (Finset.sum_nonneg fun i _ => sq_nonneg _)]
        exact Finset.single_le_sum (f := fun i => us s i ^ 2) (fun i _ => sq_nonneg _) (Finset.mem_univ i)
      rw [Real.norm_eq_abs]
      exact abs_le_of_sq_le_sq (by linarith) (by linarith)
    · intro y _ hy
      obtain ⟨U, hU, hUy⟩ := mapClusterPt_iff_ultrafilter.1 hy
      have hid : Tendsto (fun s : ℝ => s) (U : Filter ℝ) (𝓝 θ) := hU
      have hpair : Tendsto (fun s => (s, us s)) (U : Filter ℝ) (𝓝 (θ, y)) := hid.prodMk_nhds hUy
      have hx := (hcont y).tendsto.comp hpair
      have hgx := (hg y).tendsto.comp hx
      have hzero : g (uToX (t θ) (marg θ) y) = 0 := by
        refine tendsto_nhds_unique (hgx.congr' ?_) tendsto_const_nhds
        filter_upwards [hU hus] with s hs
        exact hs.1
      by_contra hne
      have hlt := hnear.2 y hzero hne
      have hcl : Continuous fun u : Fin n → ℝ => len u ^ 2 := by
        unfold len; fun_prop
      have h1 : Tendsto (fun s => len (us s) ^ 2) (U : Filter ℝ) (𝓝 (len y ^ 2)) := (hcl.tendsto y).comp hUy
      have h2 := le_of_tendsto_of_tendsto h1 (hcb.mono_left hU) (hU hbd)
      nlinarith
  have hxs : Tendsto (fun s => uToX (t s) (marg s) (us s)) (𝓝 θ) (𝓝 x0) := by
    have hpair : Tendsto (fun s => (s, us s)) (𝓝 θ) (𝓝 (θ, u0)) := tendsto_id.prodMk_nhds hconv
    have := (hcont u0).tendsto.comp hpair
    rw [hx0]
    exact this
  have hsq : HasDerivAt (fun s => surfaceDist g (t s) (marg s) ^ 2) (2 * (u0 ⬝ᵥ w)) θ := by
    refine value_hasDerivAt hf (xs := fun s => uToX (t s) (marg s) (us s)) ?_ ?_ ?_ ?_ hxs
    · rw [surfaceDist_eq hnear, hu0x]
    · filter_upwards [hup] with s hs
      exact pow_le_pow_left₀ (surfaceDist_nonneg _ _ _) (surfaceDist_le hs) 2
    · filter_upwards [hus, hleft] with s h1 h2
      rw [h2]
      exact h1.2
    · -- the points lie on the surface at `θ` too, because the surface does not move
      filter_upwards [hus, hxs.eventually hright0] with s h1 h2
      have h3 : g (uToX (t θ) (marg θ) (xToU (t θ) (marg θ) (uToX (t s) (marg s) (us s)))) = 0 := by rw [h2]; exact h1.1
      have h4 := surfaceDist_le h3
      rw [surfaceDist_eq hnear] at h4
      rw [hu0x]
      exact pow_le_pow_left₀ hu0.le h4 2
  have hs := hsq.sqrt (by rw [surfaceDist_eq hnear]; positivity)
  have e : (fun s => √(surfaceDist g (t s) (marg s) ^ 2)) = fun s => surfaceDist g (t s) (marg s) := by
    funext s
    rw [Real.sqrt_sq (surfaceDist_nonneg _ _ _)]
  rw [e, surfaceDist_eq hnear, Real.sqrt_sq hu0.le] at hs
  refine hs.congr_deriv ?_
  field_simp

/-- At the nearest point of a surface the gradient points along the radius; the sign is that of the value at the origin. -/
theorem nearest_direction {G : (Fin n → ℝ) → ℝ} {u0 c : Fin n → ℝ} (hG : Continuous G) (hd : HasFDerivAt G (gradMap c) u0)
    (h0 : G u0 = 0) (hnear : ∀ u, G u = 0 → u ≠ u0 → len u0 < len u) (hc : c ≠ 0) (hu0 : 0 < len u0) :
    u0 = (if G 0 < 0 then - len u0 else len u0) • Form.alpha c := by
  have hsq : ∀ v : Fin n → ℝ, len v ^ 2 = v ⬝ᵥ v := by
    intro v
    rw [len_eq_sqrt, Real.sq_sqrt (Finset.sum_nonneg fun i _ => mul_self_nonneg _)]
    rfl
  have hle : ∀ u, G u = 0 → len u0 ≤ len u := by
    intro u hu
    by_cases e : u = u0
    · rw [e]
    · exact (hnear u hu e).le
  have hG0 : G 0 ≠ 0 := by
    intro h
    have := hle 0 h
    have h1 : len (0 : Fin n → ℝ) = 0 := by simp [len]
    linarith
  have hcc : 0 < c ⬝ᵥ c := by
    rcases lt_or_eq_of_le (show 0 ≤ c ⬝ᵥ c from Finset.sum_nonneg fun i _ => mul_self_nonneg _) with h | h
    · exact h
    · exact absurd (dotProduct_self_eq_zero.1 h.symm) hc
  -- the sign of the origin
  obtain ⟨e, he, heG⟩ : ∃ e : ℝ, e * e = 1 ∧ 0 < e * G 0 := by
    rcases lt_or_gt_of_ne hG0 with h | h
    · exact ⟨-1, by norm_num, by linarith⟩
    · exact ⟨1, by norm_num, by linarith⟩
  -- a direction in which the limit state leaves the side of the origin points away from the origin
  have key : ∀ v : Fin n → ℝ, e * (c ⬝ᵥ v) < 0 → 0 ≤ u0 ⬝ᵥ v := by
    intro v hv
    have hline : HasDerivAt (fun r : ℝ => e * G (u0 + r • v)) (e * (c ⬝ᵥ v)) 0 := by
      have h1 : HasDerivAt (fun r : ℝ => u0 + r • v) v 0 := by
        simpa using ((hasDerivAt_id (0:ℝ)).smul_const v).const_add u0
      have h2 : HasFDerivAt G (gradMap c) (u0 + (0:ℝ) • v) := by simpa using hd
      have h3 := (h2.comp_hasDerivAt (0:ℝ) h1).const_mul e
      rw [gradMap_apply] at h3
      exact h3
    have hneg : ∀ᶠ r in 𝓝[>] (0:ℝ), e * G (u0 + r • v) < 0 := by
      have h1 := hline.hasDerivWithinAt (s := Set.Ioi 0)
      rw [hasDerivWithinAt_iff_tendsto_slope' (by simp)] at h1
      filter_upwards [h1.eventually_lt_const hv, self_mem_nhdsWithin] with r hr hr0
      rw [slope_def_field] at hr
      simp only [zero_smul, add_zero, h0, mul_zero, sub_zero] at hr
      have hr0 : (0:ℝ) < r := hr0
      rw [div_lt_iff₀ hr0] at hr
      linarith
    have hfar : ∀ᶠ r in 𝓝[>] (0:ℝ), 0 ≤ 2 * (u0 ⬝ᵥ v) + r * (v ⬝ᵥ v) := by
      filter_upwards [hneg, self_mem_nhdsWithin] with r hr hr0
      have hr0 : (0:ℝ) < r := hr0
      have hcont : ContinuousOn (fun l : ℝ => e * G (l • (u0 + r • v))) (Set.Icc 0 1) := by fun_prop
      obtain ⟨l, ⟨hl0, hl1⟩, hl⟩ := intermediate_value_Icc' (zero_le_one) hcont
        (show (0:ℝ) ∈ Set.Icc _ _ from ⟨by simpa using hr.le, by simpa using heG.le⟩)
      have hGl : G (l • (u0 + r • v)) = 0 := by
        have hl : e * G (l • (u0 + r • v)) = 0 := hl
        have he0 : e ≠ 0 := fun h => by rw [h] at he; norm_num at he
        exact (mul_eq_zero.1 hl).resolve_left he0
      have h1 := hle _ hGl
      have h2 : len u0 ^ 2 ≤ len (l • (u0 + r • v)) ^ 2 := pow_le_pow_left₀ hu0.le h1 2
      rw [hsq, hsq] at h2
      have e1 : (l • (u0 + r • v)) ⬝ᵥ (l • (u0 + r • v)) = l ^ 2 * ((u0 + r • v) ⬝ᵥ (u0 + r • v)) := by
        simp; ring
      have e2 : (u0 + r • v) ⬝ᵥ (u0 + r • v) = u0 ⬝ᵥ u0 + 2 * r * (u0 ⬝ᵥ v) + r ^ 2 * (v ⬝ᵥ v) := by
        simp [dotProduct_comm v u0]; ring
      have h3 : 0 ≤ (u0 + r • v) ⬝ᵥ (u0 + r • v) := by
        rw [← hsq]; positivity
      have h4 : l ^ 2 * ((u0 + r • v) ⬝ᵥ (u0 + r • v)) ≤ (u0 + r • v) ⬝ᵥ (u0 + r • v) :=
        mul_le_of_le_one_left h3 (pow_le_one₀ hl0 hl1)
      rw [e1] at h2
      have h5 : 0 ≤ r * (2 * (u0 ⬝ᵥ v) + r * (v ⬝ᵥ v)) := by nlinarith
      exact nonneg_of_mul_nonneg_right h5 hr0
    have hlim : Tendsto (fun r : ℝ => 2 * (u0 ⬝ᵥ v) + r * (v ⬝ᵥ v)) (𝓝[>] (0:ℝ)) (𝓝 (2 * (u0 ⬝ᵥ v) + 0 * (v ⬝ᵥ v))) := by
      refine Tendsto.mono_left (Continuous.tendsto ?_ _) nhdsWithin_le_nhds
      fun_prop
    have := ge_of_tendsto hlim hfar
    linarith
  -- hence the radius is a multiple of the gradient
  obtain ⟨k, hk⟩ : ∃ k, k = (u0 ⬝ᵥ c) / (c ⬝ᵥ c) := ⟨_, rfl⟩
  obtain ⟨p, hp⟩ : ∃ p, p = u0 - k • c := ⟨_, rfl⟩
  have hpc : c ⬝ᵥ p = 0 := by
    rw [hp, dotProduct_sub, dotProduct_smul, smul_eq_mul, hk, dotProduct_comm c u0]
    field_simp
    ring
  have hup : u0 ⬝ᵥ p = p ⬝ᵥ p := by
    have : u0 = p + k • c := by rw [hp]; abel
    conv_lhs => rw [this]
    rw [add_dotProduct, smul_dotProduct, hpc, smul_zero, add_zero]
  have hp0 : p = 0 := by
    have h1 : ∀ d : ℝ, 0 < d → 0 ≤ -(p ⬝ᵥ p) - d * e * (u0 ⬝ᵥ c) := by
      intro d hd
      have h2 := key (-p - (d * e) • c) (by
        rw [dotProduct_sub, dotProduct_neg, dotProduct_smul, hpc, smul_eq_mul]
        have : e * (-0 - d * e * (c ⬝ᵥ c)) = - (e * e) * (d * (c ⬝ᵥ c)) := by ring
        rw [this, he]
        have := mul_pos hd hcc
        linarith)
      rw [dotProduct_sub, dotProduct_neg, dotProduct_smul, hup, smul_eq_mul] at h2
      exact h2
    have h2 : Tendsto (fun d : ℝ => -(p ⬝ᵥ p) - d * e * (u0 ⬝ᵥ c)) (𝓝[>] (0:ℝ)) (𝓝 (-(p ⬝ᵥ p) - 0 * e * (u0 ⬝ᵥ c))) := by
      refine Tendsto.mono_left (Continuous.tendsto ?_ _) nhdsWithin_le_nhds
      fun_prop
    have h3 := ge_of_tendsto h2 (by filter_upwards [self_mem_nhdsWithin] with d hd using h1 d hd)
    have h4 : 0 ≤ p ⬝ᵥ p := by rw [← hsq]; positivity
    exact dotProduct_self_eq_zero.1 (by linarith)
  have hu0k : u0 = k • c := by rw [hp] at hp0; exact sub_eq_zero.1 hp0
  have hek : e * k ≤ 0 := by
    have h1 := key (-e • c) (by
      rw [dotProduct_smul, smul_eq_mul]
      have : e * (-e * (c ⬝ᵥ c)) = - (e * e) * (c ⬝ᵥ c) := by ring
      rw [this, he]; linarith)
    rw [dotProduct_smul, smul_eq_mul, hu0k, smul_dotProduct, smul_eq_mul] at h1
    by_contra h
    push Not at h
    nlinarith [mul_pos h hcc]
  have hlc : 0 < norm2 c := by
    unfold norm2
    apply Real.sqrt_pos.2
    calc 0 < c ⬝ᵥ c := hcc
      _ = _ := by simp [dotProduct, pow_two]
  have hlen : len u0 = |k| * norm2 c := by
    have h1 : len u0 ^ 2 = (|k| * norm2 c) ^ 2 := by
      rw [hsq, hu0k, mul_pow, sq_abs]
      have : norm2 c ^ 2 = c ⬝ᵥ c := by
        have := hsq c
        exact this
      rw [this]
      simp; ring
    exact (pow_left_inj₀ hu0.le (by positivity) two_ne_zero).1 h1
  have hfin : k = - e * |k| := by
    have h1 : |k| = |e * k| := by
      rw [abs_mul]
      have : |e| = 1 := by
        have h2 : |e| * |e| = 1 := by rw [← abs_mul, he, abs_one]
        nlinarith [abs_nonneg e]
      rw [this, one_mul]
    rw [h1, abs_of_nonpos hek]
    have : -e * -(e * k) = (e * e) * k := by ring
    rw [this, he, one_mul]
  have hif : (if G 0 < 0 then - len u0 else len u0) = e * len u0 := by
    by_cases h : G 0 < 0
    · rw [if_pos h]
      have h1 : e < 0 := by
        by_contra h2
        push Not at h2
        nlinarith
      have : e = -1 := by nlinarith
      rw [this]; ring
    · rw [if_neg h]
      have h1 : 0 < e := by
        by_contra h2
        push Not at h2 h
        nlinarith
      have : e = 1 := by nlinarith
      rw [this]; ring
  rw [hif]
  funext i
  rw [hlen]
  have hi : u0 i = k * c i := by rw [hu0k]; rfl
  rw [hi]
  simp only [Pi.smul_apply, smul_eq_mul, Form.alpha]
  field_simp
  linear_combination (c i) * hfin

/-- `u_to_x` of a distribution on an open support is continuous. -/
theorem uToX_continuous {m : Marginal} {S : Set ℝ} (h : RoundTrip m S) (hS : IsOpen S) : Continuous m.uToX := by
  rw [continuous_iff_continuousAt]
  intro z
  refine continuousAt_of_monotoneOn_of_image_mem_nhds (s := Set.univ) (h.mono_x.monotone.monotoneOn _) univ_mem ?_
  refine mem_of_superset (hS.mem_nhds (h.mem z)) fun x hx => ⟨m.xToU x, trivial, h.right x hx⟩

/-- Quantiles that move continuously move jointly continuously. -/
theorem quantile_joint {m : ℝ → Marginal} {θ : ℝ} (hq : ∀ z, ContinuousAt (fun s => (m s).uToX z) θ)
    (hmono : ∀ᶠ s in 𝓝 θ, Monotone (m s).uToX) (hc : Continuous (m θ).uToX) (z : ℝ) :
    ContinuousAt (fun p : ℝ × ℝ => (m p.1).uToX p.2) (θ, z) := by
  rw [Metric.continuousAt_iff']
  intro ε hε
  obtain ⟨d, hd, hd2⟩ := Metric.continuousAt_iff.1 (hc.continuousAt (x := z)) (ε / 2) (half_pos hε)
  have e1 : dist (z + d / 2) z < d := by rw [Real.dist_eq]; rw [abs_of_pos] <;> linarith
  have e2 : dist (z - d / 2) z < d := by rw [Real.dist_eq]; rw [abs_of_neg] <;> linarith
  have h1 := hd2 e1
  have h2 := hd2 e2
  have c1 := (Metric.continuousAt_iff'.1 (hq (z + d / 2))) (ε / 2) (half_pos hε)
  have c2 := (Metric.continuousAt_iff'.1 (hq (z - d / 2))) (ε / 2) (half_pos hε)
  have c3 : ∀ᶠ y in 𝓝 z, dist y z < d / 2 := Metric.ball_mem_nhds z (half_pos hd)
  rw [nhds_prod_eq]
  filter_upwards [(((c1.and c2).and hmono)).prod_mk c3] with p hp
  obtain ⟨⟨⟨b1, b2⟩, b3⟩, b4⟩ := hp
  rw [Real.dist_eq, abs_lt] at *
  have b5 : p.2 ≤ z + d / 2 := by linarith [b4.2]
  have b6 : z - d / 2 ≤ p.2 := by linarith [b4.1]
  have m1 := b3 b5
  have m2 := b3 b6
  constructor <;> linarith [b1.1, b1.2, b2.1, b2.2, h1.1, h1.2, h2.1, h2.2]

/-- The derivative of the reliability index, with its sign, and the direction FORM computes at the design point. -/
theorem hasoferLind_hasDerivAt {la : LinAlg} {Rθ : Matrix (Fin n) (Fin n) ℝ} {g : (Fin n → ℝ) → ℝ} {t : ℝ → Mats n}
    {marg : ℝ → Fin n → Marginal} {θ : ℝ} {u0 α : Fin n → ℝ} {S : Fin n → Set ℝ} (hS : ∀ i, IsOpen (S i))
    (ht : Transformation.compute la .cholesky Rθ = .ok (t θ))
    (hrt : ∀ i, RoundTrip (marg θ i) (S i)) (hj : ∀ i, JacobianCorrect (marg θ i) (S i))
    (hcont : ∀ u, ContinuousAt (fun p : ℝ × (Fin n → ℝ) => uToX (t p.1) (marg p.1) p.2) (θ, u))
    (hg : ∀ x, (∀ i, x i ∈ S i) → ContinuousAt g x)
    (hleft : ∀ᶠ s in 𝓝 θ, ∀ u, xToU (t s) (marg s) (uToX (t s) (marg s) u) = u)
    (hright : ∀ᶠ s in 𝓝 θ, uToX (t s) (marg s) (xToU (t s) (marg s) (uToX (t θ) (marg θ) u0)) = uToX (t θ) (marg θ) u0)
    (hnear : OnlyNearest g (t θ) (marg θ) u0) (hu0 : u0 ≠ 0)
    (hform : FormDirection g (t θ) (marg θ) (uToX (t θ) (marg θ) u0) α) (hα : α ≠ 0) {w : Fin n → ℝ}
    (hrate : ∀ i, Rate θ (uToX (t θ) (marg θ) u0) (fun s x => xToU (t s) (marg s) x i) (w i)) :
    HasDerivAt (fun s => hasoferLind g (t s) (marg s)) (α ⬝ᵥ w) θ ∧
    u0 = hasoferLind g (t θ) (marg θ) • α ∧ α ⬝ᵥ u0 = hasoferLind g (t θ) (marg θ) := by
  have hlen : 0 < len u0 := by
    rw [len_eq_sqrt]
    apply Real.sqrt_pos.2
    rcases lt_or_eq_of_le (show 0 ≤ u0 ⬝ᵥ u0 from Finset.sum_nonneg fun i _ => mul_self_nonneg _) with h | h
    · exact h
    · exact absurd (dotProduct_self_eq_zero.1 h.symm) hu0
  obtain ⟨hmem, hl, hr⟩ := C21_round_trip ht (marg θ) S hrt
  have hux : Continuous (uToX (t θ) (marg θ)) := by
    have h1 : ∀ i, Continuous (marg θ i).uToX := fun i => uToX_continuous (hrt i) (hS i)
    unfold uToX
    refine continuous_pi fun i => (h1 i).comp ?_
    simp only [mulVec, dotProduct]
    fun_prop
  have hG : Continuous fun u => g (uToX (t θ) (marg θ) u) :=
    continuous_iff_continuousAt.2 fun u => ContinuousAt.comp (hg _ (hmem u)) hux.continuousAt
  have hright0 : ∀ᶠ x in 𝓝 (uToX (t θ) (marg θ) u0), uToX (t θ) (marg θ) (xToU (t θ) (marg θ) x) = x := by
    have : ∀ i, ∀ᶠ x : Fin n → ℝ in 𝓝 (uToX (t θ) (marg θ) u0), x i ∈ S i := fun i =>
      (continuous_apply i).continuousAt.eventually ((hS i).mem_nhds (hmem u0 i))
    filter_upwards [eventually_all.2 this] with x hx
    exact hr x hx
  have hd := surfaceDist_hasDerivAt hcont (fun u => hg _ (hmem u)) hleft hright hright0 hnear hlen hrate
  -- the direction
  obtain ⟨grad, Ji, hgrad, hJi, hαe⟩ := hform
  rw [hl] at hJi
  have hGd := ((C23_chain_rule ht (marg θ) S hrt hS hj u0).2 Ji hJi).2 g grad hgrad
  have hc : vecMul grad Ji ≠ 0 := by
    intro h
    apply hα
    rw [hαe, h]
    funext i
    simp [Form.alpha]
  have hdir := nearest_direction hG hGd hnear.1 hnear.2 hc hlen
  rw [← hαe] at hdir
  have hidx : hasoferLind g (t θ) (marg θ) = if g (uToX (t θ) (marg θ) 0) < 0 then - len u0 else len u0 := by
    unfold hasoferLind
    rw [surfaceDist_eq hnear]
  rw [← hidx] at hdir
  -- the sign does not change
  have hg0 : g (uToX (t θ) (marg θ) 0) ≠ 0 := by
    intro h
    have h1 : len (0 : Fin n → ℝ) = 0 := by simp [len]
    have := hnear.2 0 h (Ne.symm hu0)
    linarith
  have hsgn : Tendsto (fun s => g (uToX (t s) (marg s) 0)) (𝓝 θ) (𝓝 (g (uToX (t θ) (marg θ) 0))) := by
    have h1 : Tendsto (fun s : ℝ => (s, (0 : Fin n → ℝ))) (𝓝 θ) (𝓝 (θ, 0)) := tendsto_id.prodMk_nhds tendsto_const_nhds
    exact (hg _ (hmem 0)).tendsto.comp ((hcont 0).tendsto.comp h1)
  have hαα : α ⬝ᵥ α = 1 := by
    have h1 : len u0 ^ 2 = hasoferLind g (t θ) (marg θ) ^ 2 * (α ⬝ᵥ α) := by
      have : len u0 ^ 2 = u0 ⬝ᵥ u0 := by
        rw [len_eq_sqrt, Real.sq_sqrt (Finset.sum_nonneg fun i _ => mul_self_nonneg _)]
        rfl
      rw [this]
      conv_lhs => rw [hdir]
      simp; ring
    have h2 : hasoferLind g (t θ) (marg θ) ^ 2 = len u0 ^ 2 := by
      rw [hidx]; split_ifs <;> ring
    rw [h2] at h1
    have h3 : len u0 ^ 2 ≠ 0 := by positivity
    field_simp at h1
    exact h1.symm
  refine ⟨?_, hdir, ?_⟩
  · rcases lt_or_gt_of_ne hg0 with h | h
    · have e1 : (fun s => hasoferLind g (t s) (marg s)) =ᶠ[𝓝 θ] fun s => - surfaceDist g (t s) (marg s) := by
        filter_upwards [hsgn.eventually_lt_const h] with s hs
        unfold hasoferLind
        rw [if_pos hs]
      refine (hd.neg.congr_deriv ?_).congr_of_eventuallyEq e1
      rw [hidx, if_pos h] at hdir
      have : u0 ⬝ᵥ w = - len u0 * (α ⬝ᵥ w) := by
        conv_lhs => rw [hdir]
        simp
      rw [this]
      field_simp
    · have e1 : (fun s => hasoferLind g (t s) (marg s)) =ᶠ[𝓝 θ] fun s => surfaceDist g (t s) (marg s) := by
        filter_upwards [hsgn.eventually_const_lt h] with s hs
        unfold hasoferLind
        rw [if_neg hs.not_gt]
      refine (hd.congr_deriv ?_).congr_of_eventuallyEq e1
      rw [hidx, if_neg h.not_gt] at hdir
      have : u0 ⬝ᵥ w = len u0 * (α ⬝ᵥ w) := by
        conv_lhs => rw [hdir]
        simp
      rw [this]
      field_simp
  · conv_lhs => rw [hdir]
    rw [dotProduct_smul, hαα, smul_eq_mul, mul_one]

/-- The image of a fixed point in standard space, while the transformation and one distribution move. -/
theorem xToU_rate {t : ℝ → Mats n} {marg : ℝ → Fin n → Marginal} {θ : ℝ} {x0 dz : Fin n → ℝ} {dT : Matrix (Fin n) (Fin n) ℝ}
    (hT : ∀ a b, HasDerivAt (fun s => (t s).T a b) (dT a b) θ)
    (hz : ∀ j, Rate θ x0 (fun s x => (marg s j).xToU (x j)) (dz j)) (i : Fin n) :
    Rate θ x0 (fun s x => xToU (t s) (marg s) x i)
      ((dT *ᵥ (fun j => (marg θ j).xToU (x0 j)) + (t θ).T *ᵥ dz) i) := by
  have := Rate.sum Finset.univ fun j _ => (Rate.of_deriv (x0 := x0) (hT i j)).mul (hz j)
  rw [Finset.sum_add_distrib] at this
  exact this

theorem xToU_fixed_rate {m : Marginal} {S : Set ℝ} (hj : JacobianCorrect m S) {θ : ℝ} {x0 : Fin n → ℝ} {j : Fin n}
    (hx : x0 j ∈ S) : Rate θ x0 (fun _ x => m.xToU (x j)) 0 :=
  Rate.of_fixed (f := fun x : Fin n → ℝ => m.xToU (x j))
    (ContinuousAt.comp (f := fun x : Fin n → ℝ => x j) (hj _ hx).continuousAt (continuous_apply j).continuousAt)

/-- The derivative of the index when only the transformation moves. -/
theorem index_of_T {la : LinAlg} {marg : Fin n → Marginal} {S : Fin n → Set ℝ} (hS : ∀ a, IsOpen (S a))
    (hrt : ∀ a, RoundTrip (marg a) (S a)) (hj : ∀ a, JacobianCorrect (marg a) (S a)) {g : (Fin n → ℝ) → ℝ}
    (hg : ∀ x, (∀ a, x a ∈ S a) → ContinuousAt g x) {Ro : ℝ → Matrix (Fin n) (Fin n) ℝ} {t : ℝ → Mats n} {ρ : ℝ}
    (ht : ∀ᶠ s in 𝓝 ρ, Transformation.compute la .cholesky (Ro s) = .ok (t s)) {dT : Matrix (Fin n) (Fin n) ℝ}
    (hT : ∀ a b, HasDerivAt (fun s => (t s).T a b) (dT a b) ρ) (hcT : ∀ a b, ContinuousAt (fun s => (t s).invT a b) ρ)
    {u0 α : Fin n → ℝ} (hu0 : u0 ≠ 0) (hnear : OnlyNearest g (t ρ) marg u0)
    (hform : FormDirection g (t ρ) marg (uToX (t ρ) marg u0) α) (hα : α ≠ 0) :
    α ⬝ᵥ u0 = hasoferLind g (t ρ) marg ∧
    HasDerivAt (fun s => hasoferLind g (t s) marg) (α ⬝ᵥ dT *ᵥ ((t ρ).invT *ᵥ u0)) ρ := by
  have htρ := ht.self_of_nhds
  have hround : ∀ᶠ s in 𝓝 ρ, (∀ u a, uToX (t s) marg u a ∈ S a) ∧
      (∀ u, xToU (t s) marg (uToX (t s) marg u) = u) ∧
      ∀ x, (∀ a, x a ∈ S a) → uToX (t s) marg (xToU (t s) marg x) = x := by
    filter_upwards [ht] with s hs
    exact C21_round_trip hs _ S hrt
  obtain ⟨hmem, hl, hr⟩ := hround.self_of_nhds
  have hcont : ∀ u, ContinuousAt (fun p : ℝ × (Fin n → ℝ) => uToX (t p.1) marg p.2) (ρ, u) := by
    intro u
    refine continuousAt_pi.2 fun a => ?_
    have h1 : ContinuousAt (fun p : ℝ × (Fin n → ℝ) => ((t p.1).invT *ᵥ p.2) a) (ρ, u) := by
      simp only [mulVec, dotProduct]
      refine tendsto_finset_sum _ fun b _ => Tendsto.mul ?_ ?_
      · exact ContinuousAt.comp (f := fun p : ℝ × (Fin n → ℝ) => p.1) (g := fun s => (t s).invT a b) (hcT a b) continuousAt_fst
      · exact ((continuous_apply b).comp continuous_snd).tendsto _
    exact ContinuousAt.comp (f := fun p : ℝ × (Fin n → ℝ) => ((t p.1).invT *ᵥ p.2) a)
      (uToX_continuous (hrt a) (hS a)).continuousAt h1
  have hrate := xToU_rate (marg := fun _ => marg) (x0 := uToX (t ρ) marg u0) hT
    (fun a => xToU_fixed_rate (hj a) (hmem u0 a))
  obtain ⟨h1, -, h3⟩ := hasoferLind_hasDerivAt (marg := fun _ => marg) hS htρ hrt hj hcont hg
    (hround.mono fun s hs => hs.2.1) (hround.mono fun s hs => hs.2.2 _ (hmem u0)) hnear hu0 hform hα hrate
  refine ⟨h3, h1.congr_deriv ?_⟩
  obtain ⟨-, hinv2⟩ := compute_inverse htρ
  have hz : (t ρ).invT *ᵥ u0 = fun a => (marg a).xToU (uToX (t ρ) marg u0 a) := by
    conv_lhs => rw [← hl u0]
    unfold xToU
    rw [mulVec_mulVec, hinv2, one_mulVec]
  rw [hz]
  have e0 : (fun _ : Fin n => (0:ℝ)) = 0 := rfl
  rw [e0, mulVec_zero, add_zero]

/-- Positive definite matrices form an open set. -/
theorem posDef_eventually {Ro : ℝ → Matrix (Fin n) (Fin n) ℝ} {θ : ℝ} (hc : ∀ a b, ContinuousAt (fun s => Ro s a b) θ)
    (hsym : ∀ᶠ s in 𝓝 θ, (Ro s).IsSymm) (h : (Ro θ).PosDef) : ∀ᶠ s in 𝓝 θ, (Ro s).PosDef := by
  have hK : IsCompact (Metric.sphere (0 : Fin n → ℝ) 1) := isCompact_sphere _ _
  have key : ∀ᶠ s in 𝓝 θ, ∀ y ∈ Metric.sphere (0 : Fin n → ℝ) 1, 0 < y ⬝ᵥ Ro s *ᵥ y := by
    refine hK.eventually_forall_of_forall_eventually (P := fun s y => 0 < y ⬝ᵥ Ro s *ᵥ y) fun y hy => ?_
    have h1 : ContinuousAt (fun p : ℝ × (Fin n → ℝ) => p.2 ⬝ᵥ Ro p.1 *ᵥ p.2) (θ, y) := by
      simp only [mulVec, dotProduct]
      refine tendsto_finset_sum _ fun a _ => Tendsto.mul (((continuous_apply a).comp continuous_snd).tendsto _) ?_
      refine tendsto_finset_sum _ fun b _ => Tendsto.mul ?_ (((continuous_apply b).comp continuous_snd).tendsto _)
      exact ContinuousAt.comp (f := fun p : ℝ × (Fin n → ℝ) => p.1) (g := fun s => Ro s a b) (hc a b) continuousAt_fst
    refine h1.eventually_const_lt ?_
    rw [posDef_iff_dotProduct_mulVec] at h
    have hy0 : y ≠ 0 := by
      rintro rfl
      simp at hy
    simpa using h.2 hy0
  filter_upwards [key, hsym] with s hs hsy
  rw [posDef_iff_dotProduct_mulVec]
  refine ⟨?_, fun {x} hx => ?_⟩
  · unfold IsHermitian
    rwa [conjTranspose_eq_transpose_of_trivial]
  · have hn : 0 < ‖x‖ := norm_pos_iff.2 hx
    have h1 := hs (‖x‖⁻¹ • x) (by simp [norm_smul, hn.ne'])
    rw [mulVec_smul, dotProduct_smul, smul_dotProduct, smul_eq_mul, smul_eq_mul] at h1
    rw [star_trivial]
    have h2 : 0 < ‖x‖⁻¹ := inv_pos.2 hn
    exact (mul_pos_iff_of_pos_left h2).1 ((mul_pos_iff_of_pos_left h2).1 h1)

set_option exponentiation.threshold 1000 in
/-- C109: when the Cholesky factor is used, the entry `(i, j)` of the correlation sensitivities is the derivative, with respect to the
correlation of the pair, of the Hasofer–Lind index of the model: the signed distance of the limit-state surface from the origin.  Nothing
is assumed about how the design point moves; it is enough that the surface has only one nearest point `u0 ≠ 0` at the present
correlation.  `α` is the direction FORM computes there, and `α · u0`, the index FORM reports there, is the Hasofer–Lind index. -/
theorem C109_correlation {la : LinAlg} (hla : LinAlgOK la) (dist : Fin n → Dist) {S : Fin n → Set ℝ} (hS : ∀ a, IsOpen (S a))
    (hrt : ∀ a, RoundTrip (dist a).marg (S a)) (hj : ∀ a, JacobianCorrect (dist a).marg (S a)) {g : (Fin n → ℝ) → ℝ}
    (hg : ∀ x, (∀ a, x a ∈ S a) → ContinuousAt g x)
    {Ro : ℝ → Matrix (Fin n) (Fin n) ℝ} {t : ℝ → Mats n} {ρ : ℝ} {i j : Fin n} (hij : j < i)
    (hpd : ∀ᶠ s in 𝓝 ρ, (Ro s).PosDef)
    (ht : ∀ᶠ s in 𝓝 ρ, Transformation.compute la .cholesky (Ro s) = .ok (t s)) (hone : ∀ a, Ro ρ a a = 1)
    (hdiff : DifferentiableAt ℝ (fun s => Ro s i j) ρ)
    (hsolve : ∀ᶠ s in 𝓝 ρ, Integration.rhoIntegral (Ro s i j) (dist i).marg (dist j).marg
      (gridOf ρ (dist i).marg (dist j).marg) = s)
    (hother : ∀ a b, ¬ (a = i ∧ b = j) → ¬ (a = j ∧ b = i) → ∀ᶠ s in 𝓝 ρ, Ro s a b = Ro ρ a b)
    (hbig : 1e-300 < |Integration.drhoDrho0 (Ro ρ i j) (dist i).marg (dist j).marg (gridOf ρ (dist i).marg (dist j).marg)|)
    {u0 α : Fin n → ℝ} (hu0 : u0 ≠ 0) (hnear : OnlyNearest g (t ρ) (fun a => (dist a).marg) u0)
    (hform : FormDirection g (t ρ) (fun a => (dist a).marg) (uToX (t ρ) (fun a => (dist a).marg) u0) α) (hα : α ≠ 0) :
    α ⬝ᵥ u0 = hasoferLind g (t ρ) (fun a => (dist a).marg) ∧
    HasDerivAt (fun s => hasoferLind g (t s) fun a => (dist a).marg)
      (corrOne dist (Ro ρ) (t ρ) α u0 (gridOf ρ (dist i).marg (dist j).marg) i j) ρ := by
  obtain ⟨dT, hT, hcT, hc⟩ := corr_velocity hla dist hij hpd ht hone hdiff hsolve hother hbig
  obtain ⟨h1, h2⟩ := index_of_T hS hrt hj hg ht hT hcT hu0 hnear hform hα
  exact ⟨h1, h2.congr_deriv (hc α u0).symm⟩

/-- C109: the same with respect to an entry of the modified correlation matrix, which for normal variables is the correlation itself: the
reported number is the derivative `d` of the Hasofer–Lind index with respect to that entry, times the computed derivative of the entry
with respect to the correlation the user gave. -/
theorem C109_modified {la : LinAlg} (hla : LinAlgOK la) (dist : Fin n → Dist) {S : Fin n → Set ℝ} (hS : ∀ a, IsOpen (S a))
    (hrt : ∀ a, RoundTrip (dist a).marg (S a)) (hj : ∀ a, JacobianCorrect (dist a).marg (S a)) {g : (Fin n → ℝ) → ℝ}
    (hg : ∀ x, (∀ a, x a ∈ S a) → ContinuousAt g x) (R : Matrix (Fin n) (Fin n) ℝ) {Ro : Matrix (Fin n) (Fin n) ℝ} (hR : Ro.PosDef)
    {i j : Fin n} {t : ℝ → Mats n}
    (ht : ∀ s, (setSym Ro i j s).PosDef → Transformation.compute la .cholesky (setSym Ro i j s) = .ok (t s))
    {u0 α : Fin n → ℝ} (hu0 : u0 ≠ 0) (hnear : OnlyNearest g (t (Ro i j)) (fun a => (dist a).marg) u0)
    (hform : FormDirection g (t (Ro i j)) (fun a => (dist a).marg) (uToX (t (Ro i j)) (fun a => (dist a).marg) u0) α) (hα : α ≠ 0) :
    Transformation.compute la .cholesky Ro = .ok (t (Ro i j)) ∧
    α ⬝ᵥ u0 = hasoferLind g (t (Ro i j)) (fun a => (dist a).marg) ∧
    ∃ d, HasDerivAt (fun s => hasoferLind g (t s) fun a => (dist a).marg) d (Ro i j) ∧
      corrOne dist Ro (t (Ro i j)) α u0 (gridOf (R i j) (dist i).marg (dist j).marg) i j = kappa dist R Ro i j * d := by
  have hsy : Ro.IsSymm := by
    have := hR.1
    unfold IsHermitian at this
    rwa [conjTranspose_eq_transpose_of_trivial] at this
  have hbase : setSym Ro i j (Ro i j) = Ro := by
    ext a b
    rw [setSym_apply]
    split_ifs with h1 h2
    · rw [h1.1, h1.2]; exact (hsy.apply i j).symm
    · rw [h2.1, h2.2]
    · rfl
  have hsym : ∀ s, (setSym Ro i j s).IsSymm := by
    intro s
    ext a b
    rw [transpose_apply, Pystra.Sensitivity.setSym_apply, Pystra.Sensitivity.setSym_apply]
    have : ((b = i ∧ a = j) ∨ (b = j ∧ a = i)) ↔ ((a = i ∧ b = j) ∨ (a = j ∧ b = i)) := by tauto
    simp only [this]
    split_ifs
    · rfl
    · exact hsy.apply a b
  -- the entries move with velocity `c`
  have hvel : ∀ c r : ℝ, ∀ a b, HasDerivAt (fun s => setSym Ro i j (Ro i j + c * (s - r)) a b) (setSym 0 i j c a b) r := by
    intro c r a b
    have h0 : HasDerivAt (fun s : ℝ => Ro i j + c * (s - r)) c r := by
      simpa using (((hasDerivAt_id r).sub_const r).const_mul c).const_add (Ro i j)
    simp only [Pystra.Sensitivity.setSym_apply]
    split_ifs
    · exact h0
    · exact hasDerivAt_const _ _
  have hall : ∀ c r : ℝ, (∀ᶠ s in 𝓝 r, (setSym Ro i j (Ro i j + c * (s - r))).PosDef) := by
    intro c r
    refine posDef_eventually (fun a b => (hvel c r a b).continuousAt) (Eventually.of_forall fun s => hsym _) ?_
    rw [sub_self, mul_zero, add_zero, hbase]
    exact hR
  have hdT : ∀ c r : ℝ, ∀ a b, HasDerivAt (fun s => (t (Ro i j + c * (s - r))).T a b)
      (dinvL0 (t (Ro i j)).invT (choleskyWithDerivative Ro (setSym 0 i j c)).2 a b) r := by
    intro c r a b
    have := path_T hla (hall c r) ((hall c r).mono fun s hs => ht _ hs) (setSym_symm i j c) (hvel c r) a b
    rw [sub_self, mul_zero, add_zero, hbase] at this
    exact this
  have e1 : ∀ s, Ro i j + 1 * (s - Ro i j) = s := fun s => by ring
  have hT1 := hdT 1 (Ro i j)
  simp only [e1] at hT1
  have hc1 : ∀ a b, ContinuousAt (fun s => (t s).invT a b) (Ro i j) := by
    intro a b
    have := path_invT hla (hall 1 (Ro i j)) ((hall 1 (Ro i j)).mono fun s hs => ht _ hs) (setSym_symm i j 1) (hvel 1 (Ro i j)) a b
    simpa only [e1] using this
  have hev : ∀ᶠ s in 𝓝 (Ro i j), Transformation.compute la .cholesky (setSym Ro i j s) = .ok (t s) := by
    have := (hall 1 (Ro i j)).mono fun s hs => ht _ hs
    simpa only [e1] using this
  obtain ⟨h1, h2⟩ := index_of_T hS hrt hj hg hev hT1 hc1 hu0 hnear hform hα
  have h0 := hev.self_of_nhds
  rw [hbase] at h0
  refine ⟨h0, h1, _, h2, ?_⟩
  -- linearity in the velocity
  have hlin : dinvL0 (t (Ro i j)).invT (choleskyWithDerivative Ro (setSym 0 i j (kappa dist R Ro i j))).2 =
      kappa dist R Ro i j • dinvL0 (t (Ro i j)).invT (choleskyWithDerivative Ro (setSym 0 i j 1)).2 := by
    ext a b
    have h3 := hdT (kappa dist R Ro i j) 0 a b
    have h4 : HasDerivAt (fun s : ℝ => Ro i j + kappa dist R Ro i j * (s - 0)) (kappa dist R Ro i j) 0 := by
      simpa using ((hasDerivAt_id (0:ℝ)).const_mul (kappa dist R Ro i j)).const_add (Ro i j)
    have h5 : HasDerivAt (fun s => (t s).T a b) (dinvL0 (t (Ro i j)).invT (choleskyWithDerivative Ro (setSym 0 i j 1)).2 a b)
        (Ro i j + kappa dist R Ro i j * (0 - 0)) := by simpa using hT1 a b
    have h6 := HasDerivAt.comp (0:ℝ) h5 h4
    rw [h3.unique h6]
    simp [mul_comm]
  unfold corrOne
  dsimp only
  have hk : (if |Integration.drhoDrho0 (Ro i j) (dist i).marg (dist j).marg (gridOf (R i j) (dist i).marg (dist j).marg)| > 1e-300 then
      1 / Integration.drhoDrho0 (Ro i j) (dist i).marg (dist j).marg (gridOf (R i j) (dist i).marg (dist j).marg) else 0) =
      kappa dist R Ro i j := by
    unfold kappa
    congr
  rw [hk, hlin, smul_mulVec, dotProduct_smul, smul_eq_mul]

theorem ppf_strict (z : ℝ) : HasStrictDerivAt StdNormal.ppf (StdNormal.pdf z)⁻¹ (StdNormal.cdf z) := by
  have h0 := StdNormal.cdf_pos z
  have h1 := StdNormal.cdf_lt_one z
  have hc : HasStrictDerivAt StdNormal.cdf (StdNormal.pdf z) (StdNormal.ppf (StdNormal.cdf z)) := by
    rw [StdNormal.ppf_cdf]
    exact hasStrictDerivAt_of_hasDerivAt_of_continuousAt (Eventually.of_forall fun y => StdNormal.hasDerivAt_cdf y)
      StdNormal.continuous_pdf.continuousAt
  refine HasStrictDerivAt.of_local_left_inverse (StdNormal.hasDerivAt_ppf h0 h1).continuousAt hc (StdNormal.pdf_pos z).ne' ?_
  filter_upwards [Ioo_mem_nhds h0 h1] with y hy
  exact StdNormal.cdf_ppf hy.1 hy.2

/-- How the standard-space image of a point near `x0` moves with the distribution. -/
theorem xToU_moving_rate {m : ℝ → Marginal} {θ : ℝ} {dF : ℝ → ℝ} {dmu dsig : ℝ} {S : Set ℝ} (hp : ParamPath m θ dF dmu dsig S)
    {x0 : Fin n → ℝ} {k : Fin n} (hx : x0 k ∈ S) (hs : UniformAt m θ dF (x0 k)) :
    Rate θ x0 (fun s x => (m s).xToU (x k)) (dF (x0 k) / StdNormal.pdf ((m θ).xToU (x0 k))) := by
  have h1 : Rate θ (x0 k) (fun s x => (m s).cdf x) (dF (x0 k)) := ⟨(hp.cdf _ hx).continuousAt, hs⟩
  have hF0 : (m θ).cdf (x0 k) = StdNormal.cdf ((m θ).xToU (x0 k)) := ((hp.link _ hx).self_of_nhds).symm
  have h2 := (h1.comp (hF0 ▸ ppf_strict ((m θ).xToU (x0 k)))).congr (G := fun s x => (m s).xToU x) (by
    filter_upwards [hp.link _ hx] with p hpp
    rw [← hpp, StdNormal.ppf_cdf])
  have hproj : Tendsto (fun p : ℝ × (Fin n → ℝ) => (p.1, p.2 k)) (𝓝 (θ, x0)) (𝓝 (θ, x0 k)) := by
    apply ContinuousAt.tendsto (f := fun p : ℝ × (Fin n → ℝ) => (p.1, p.2 k))
    fun_prop
  constructor
  · exact h2.cont.tendsto.comp hproj
  · refine (h2.rate.comp_tendsto hproj).congr_left fun p => ?_
    simp only [Function.comp_def]
    ring

/-- Distributions of the form `Φ((ψ(x) - λ)/ζ)` depend on their parameters uniformly. -/
theorem uniform_of_std {m : ℝ → Marginal} {θ : ℝ} {dF : ℝ → ℝ} {dmu dsig : ℝ} {S : Set ℝ} (hp : ParamPath m θ dF dmu dsig S)
    (hS : IsOpen S) {ψ lam zet : ℝ → ℝ} (hlam : DifferentiableAt ℝ lam θ) (hzet : DifferentiableAt ℝ zet θ) (h0 : zet θ ≠ 0)
    (hm : ∀ᶠ s in 𝓝 θ, ∀ x ∈ S, (m s).cdf x = StdNormal.cdf ((ψ x - lam s) / zet s)) {x0 : ℝ} (hx0 : x0 ∈ S)
    (hψ : ContinuousAt ψ x0) : UniformAt m θ dF x0 := by
  have h1 : Rate θ x0 (fun _ x => ψ x) 0 := Rate.of_fixed hψ
  have h2 := h1.add (Rate.of_deriv (x0 := x0) hlam.hasDerivAt.neg)
  have h3 := h2.mul (Rate.of_deriv (x0 := x0) (hzet.hasDerivAt.inv h0))
  have h4 := h3.comp (f := StdNormal.cdf) (hasStrictDerivAt_of_hasDerivAt_of_continuousAt
    (Eventually.of_forall fun y => StdNormal.hasDerivAt_cdf y) StdNormal.continuous_pdf.continuousAt)
  have h5 := h4.congr (G := fun s x => (m s).cdf x) (by
    have hin : ∀ᶠ p : ℝ × ℝ in 𝓝 (θ, x0), p.2 ∈ S := (continuous_snd.tendsto (θ, x0)).eventually (hS.mem_nhds hx0)
    filter_upwards [(continuous_fst.tendsto (θ, x0)).eventually hm, hin] with p hp1 hp2
    rw [hp1 _ hp2, div_eq_mul_inv]
    simp [sub_eq_add_neg])
  have h6 : HasDerivAt (fun s => (m s).cdf x0) (dF x0) θ := by
    have h7 : HasDerivAt (fun s : ℝ => (s, x0)) (1, 0) θ := (hasDerivAt_id _).prodMk (hasDerivAt_const _ _)
    have := HasFDerivAt.comp_hasDerivAt θ (f := fun s : ℝ => (s, x0)) (hp.cdf _ hx0) h7
    refine this.congr_deriv ?_
    simp
  have h8 := h5.hasDerivAt.unique h6
  have h9 := h5.rate
  rw [h8] at h9
  exact h9

/-- C109: when the Cholesky factor is used, the closed-form sensitivity of variable `k` to one of its parameters is the derivative of the
Hasofer–Lind index of the model with respect to that parameter, for any distributions and correlations.  Nothing is assumed about how the
design point moves; it is enough that the surface has only one nearest point `u0 ≠ 0` at the present parameter value.  `m s` is the
distribution of variable `k` as a function of the parameter: for each `s` near `θ` a bijection between `S' s` and the real line, with the
derivatives the distribution reports (`ParamPath`, `UniformAt`); `Ro s` is the modified correlation matrix (`NatafPath`). -/
theorem C109_marginal {la : LinAlg} (hla : LinAlgOK la) (dist : Fin n → Dist) (k : Fin n) (param : String) {dF : ℝ → ℝ}
    {dmu dsig : ℝ} (hF : (dist k).dFParam param = .ok dF) (hm : (dist k).dmoments param = .ok (dmu, dsig)) {S : Fin n → Set ℝ}
    (hS : ∀ i, IsOpen (S i)) (hrt : ∀ i, RoundTrip (dist i).marg (S i)) (hj : ∀ i, JacobianCorrect (dist i).marg (S i))
    {m : ℝ → Marginal} {θ : ℝ} (hm0 : m θ = (dist k).marg) (hp : ParamPath m θ dF dmu dsig (S k)) (hsd : (m θ).stdv ≠ 0)
    {S' : ℝ → Set ℝ} (hrt' : ∀ᶠ s in 𝓝 θ, RoundTrip (m s) (S' s))
    {R : Matrix (Fin n) (Fin n) ℝ} {Ro : ℝ → Matrix (Fin n) (Fin n) ℝ} {t : ℝ → Mats n}
    (hpd : ∀ᶠ s in 𝓝 θ, (Ro s).PosDef)
    (ht : ∀ᶠ s in 𝓝 θ, Transformation.compute la .cholesky (Ro s) = .ok (t s))
    (hN : NatafPath (fun i => (dist i).marg) k m θ R Ro) {g : (Fin n → ℝ) → ℝ}
    (hg : ∀ x, (∀ i, x i ∈ S i) → ContinuousAt g x)
    {u0 α x0 : Fin n → ℝ} (hu0 : u0 ≠ 0) (hnear : OnlyNearest g (t θ) (fun i => (dist i).marg) u0)
    (hx0 : x0 = uToX (t θ) (fun i => (dist i).marg) u0) (hxS' : ∀ᶠ s in 𝓝 θ, x0 k ∈ S' s) (hunif : UniformAt m θ dF (x0 k))
    (hform : FormDirection g (t θ) (fun i => (dist i).marg) x0 α) (hα : α ≠ 0)
    (hphi : 1e-300 < StdNormal.pdf ((dist k).marg.xToU (x0 k))) :
    α ⬝ᵥ u0 = hasoferLind g (t θ) (fun i => (dist i).marg) ∧
    ∃ v, marginalOne dist R (Ro θ) (t θ) α u0 k param = .ok v ∧
      HasDerivAt (fun s => hasoferLind g (t s) (margWith (fun i => (dist i).marg) k (m s))) v θ := by
  obtain ⟨dR0, h1, hsym, hR⟩ := dR0_true dist k param hF hm hm0 hp hsd hpd hN
  have hT := path_T hla hpd ht hsym hR
  have hcT := path_invT hla hpd ht hsym hR
  have htθ := ht.self_of_nhds
  obtain ⟨hinv1, hinv2⟩ := compute_inverse htθ
  have hmw : margWith (fun i => (dist i).marg) k (m θ) = fun i => (dist i).marg := by
    funext i
    unfold margWith
    split_ifs with h
    · rw [hm0, h]
    · rfl
  obtain ⟨marg, hmarg⟩ : ∃ marg : ℝ → Fin n → Marginal, marg = fun s => margWith (fun i => (dist i).marg) k (m s) := ⟨_, rfl⟩
  have hmargθ : marg θ = fun i => (dist i).marg := by rw [hmarg]; exact hmw
  obtain ⟨S2, hS2⟩ : ∃ S2 : ℝ → Fin n → Set ℝ, S2 = fun s i => if i = k then S' s else S i := ⟨_, rfl⟩
  obtain ⟨hmem, hl, hr⟩ := C21_round_trip htθ _ S hrt
  have hround : ∀ᶠ s in 𝓝 θ, (∀ u, xToU (t s) (marg s) (uToX (t s) (marg s) u) = u) ∧
      uToX (t s) (marg s) (xToU (t s) (marg s) x0) = x0 := by
    filter_upwards [ht, hrt', hxS'] with s hs hs2 hs3
    obtain ⟨-, h2, h3⟩ := C21_round_trip hs (marg s) (S2 s) (fun i => by
      rw [hmarg, hS2]
      unfold margWith
      by_cases h : i = k
      · simp only [if_pos h]; exact hs2
      · simp only [if_neg h]; exact hrt i)
    refine ⟨h2, h3 x0 fun i => ?_⟩
    rw [hS2]
    by_cases h : i = k
    · simp only [if_pos h]; rw [h]; exact hs3
    · simp only [if_neg h]; rw [hx0]; exact hmem u0 i
  have hcont : ∀ u, ContinuousAt (fun p : ℝ × (Fin n → ℝ) => uToX (t p.1) (marg p.1) p.2) (θ, u) := by
    intro u
    refine continuousAt_pi.2 fun a => ?_
    have h2 : ContinuousAt (fun p : ℝ × (Fin n → ℝ) => ((t p.1).invT *ᵥ p.2) a) (θ, u) := by
      simp only [mulVec, dotProduct]
      refine tendsto_finset_sum _ fun b _ => Tendsto.mul ?_ ?_
      · exact ContinuousAt.comp (f := fun p : ℝ × (Fin n → ℝ) => p.1) (g := fun s => (t s).invT a b) (hcT a b) continuousAt_fst
      · exact ((continuous_apply b).comp continuous_snd).tendsto _
    by_cases ha : a = k
    · have h3 := quantile_joint (fun z => (hp.quantile z).continuousAt) (hrt'.mono fun s hs => hs.mono_x.monotone)
        (by rw [hm0]; exact uToX_continuous (hrt k) (hS k)) (((t θ).invT *ᵥ u) a)
      have h4 : ContinuousAt (fun p : ℝ × (Fin n → ℝ) => (p.1, ((t p.1).invT *ᵥ p.2) a)) (θ, u) := continuousAt_fst.prodMk h2
      have h5 := ContinuousAt.comp (f := fun p : ℝ × (Fin n → ℝ) => (p.1, ((t p.1).invT *ᵥ p.2) a))
        (g := fun p : ℝ × ℝ => (m p.1).uToX p.2) h3 h4
      refine h5.congr (Eventually.of_forall fun p => ?_)
      simp only [Function.comp_def, uToX, hmarg, margWith, if_pos ha]
    · have h5 := ContinuousAt.comp (f := fun p : ℝ × (Fin n → ℝ) => ((t p.1).invT *ᵥ p.2) a)
        (uToX_continuous (hrt a) (hS a)).continuousAt h2
      refine h5.congr (Eventually.of_forall fun p => ?_)
      simp only [Function.comp_def, uToX, hmarg, margWith, if_neg ha]
  have hxk : x0 k ∈ S k := by rw [hx0]; exact hmem u0 k
  obtain ⟨dz, hdz⟩ : ∃ dz : Fin n → ℝ, dz = fun i => if i = k then dF (x0 k) / StdNormal.pdf ((dist k).marg.xToU (x0 k)) else 0 :=
    ⟨_, rfl⟩
  have hrate := xToU_rate (t := t) (marg := marg) (x0 := x0) (dz := dz) hT (fun a => by
    rw [hdz, hmarg]
    unfold margWith
    by_cases ha : a = k
    · simp only [if_pos ha]
      rw [ha, ← hm0]
      exact xToU_moving_rate hp hxk hunif
    · simp only [if_neg ha]
      exact xToU_fixed_rate (hj a) (by rw [hx0]; exact hmem u0 a))
  rw [← hmargθ] at hnear hform hx0
  rw [hx0] at hrate hform hround
  obtain ⟨g1, -, g3⟩ := hasoferLind_hasDerivAt (marg := marg) hS htθ (by rw [hmargθ]; exact hrt) (by rw [hmargθ]; exact hj) hcont hg
    (hround.mono fun s hs => hs.1) (hround.mono fun s hs => hs.2) hnear hu0 hform hα hrate
  rw [hmargθ] at g3
  refine ⟨g3, ?_⟩
  rw [← hx0, hmargθ] at g1
  rw [hmargθ] at hx0
  have hz : (t θ).invT *ᵥ u0 = fun a => ((dist a).marg).xToU (x0 a) := by
    conv_lhs => rw [← hl u0]
    rw [← hx0]
    unfold xToU
    rw [mulVec_mulVec, hinv2, one_mulVec]
  unfold marginalOne
  simp only [hz, ← hx0, hF, h1]
  rw [hmarg] at g1
  refine ⟨_, rfl, g1.congr_deriv ?_⟩
  simp only [if_pos hphi, gt_iff_lt]
  rw [dotProduct_add, add_comm, hdz]

end Pystra.Props
