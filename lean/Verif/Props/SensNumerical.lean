import Verif.Props.SensDistanceExample
import Verif.Props.SensFDAffine
import Verif.Props.SensObjectExample

/-! C111: the finite-difference sensitivities approach the closed-form ones. -/

namespace Pystra.Props
open Spec Sensitivity Transformation Matrix Filter Topology CholeskySens

variable {n : ℕ}

/-- A difference quotient of values that are known up to `ε`. -/
theorem quotient_close {b : ℝ → ℝ} {v θ : ℝ} (hb : HasDerivAt b v θ) {η : ℝ} (hη : 0 < η) :
    ∃ h0 > 0, ∀ h, h ≠ 0 → |h| < h0 → ∀ ε b0 b1, |b0 - b θ| ≤ ε → |b1 - b (θ + h)| ≤ ε →
      |(b1 - b0) / h - v| ≤ η + 2 * ε / |h| := by
  have h1 := (hasDerivAt_iff_isLittleO_nhds_zero.1 hb).bound hη
  obtain ⟨h0, hh0, hball⟩ := Metric.eventually_nhds_iff.1 h1
  refine ⟨h0, hh0, fun h hne hlt ε b0 b1 e0 e1 => ?_⟩
  have h2 := hball (y := h) (by simpa using hlt)
  simp only [smul_eq_mul, Real.norm_eq_abs] at h2
  have hpos : 0 < |h| := abs_pos.2 hne
  have e : (b1 - b0) / h - v = ((b (θ + h) - b θ - h * v) + (b1 - b (θ + h)) - (b0 - b θ)) / h := by
    field_simp
    ring
  rw [e, abs_div, div_le_iff₀ hpos, add_mul, div_mul_cancel₀ _ hpos.ne']
  calc |(b (θ + h) - b θ - h * v) + (b1 - b (θ + h)) - (b0 - b θ)|
      ≤ |b (θ + h) - b θ - h * v| + |b1 - b (θ + h)| + |b0 - b θ| := by
        refine (abs_sub _ _).trans ?_
        gcongr
        exact abs_add_le _ _
    _ ≤ η * |h| + 2 * ε := by linarith

theorem entries_get {K A B : Type} [DecidableEq K] {P : K → A → B → Prop} : ∀ {l : Dict K A} {r : Dict K B},
    List.Forall₂ (fun (a : K × A) (b : K × B) => b.1 = a.1 ∧ P a.1 a.2 b.2) l r → ∀ {k : K} {x : A}, Dict.get? l k = some x →
      ∃ y, Dict.get? r k = some y ∧ P k x y
  | _, _, .nil, k, x, h => by simp [Dict.get?] at h
  | _, _, .cons (a := (a1, a2)) (b := (b1, b2)) h1 h2, k, x, h => by
    obtain ⟨e, hp⟩ := h1
    simp only at e hp
    subst e
    simp only [Dict.get?] at h ⊢
    by_cases hk : b1 = k
    · rw [if_pos hk] at h ⊢
      injection h with h
      subst hk h
      exact ⟨b2, rfl, hp⟩
    · rw [if_neg hk] at h ⊢
      exact entries_get h2 h

theorem variables_get {B : Type} {Q : DistObj Dist → B → Prop} : ∀ {ds : List (DistObj Dist)} {r : Dict String B},
    List.Forall₂ (fun (d : DistObj Dist) (e : String × B) => e.1 = d.name ∧ Q d e.2) ds r → (ds.map DistObj.name).Nodup →
      ∀ {d : DistObj Dist}, d ∈ ds → ∃ y, Dict.get? r d.name = some y ∧ Q d y
  | _, _, .nil, _, d, h => by cases h
  | _, _, .cons (a := a) (b := (b1, b2)) h1 h2, hn, d, h => by
    obtain ⟨e, hp⟩ := h1
    simp only at e hp
    rw [List.map_cons, List.nodup_cons] at hn
    simp only [Dict.get?]
    rcases List.mem_cons.1 h with rfl | h
    · rw [if_pos e]
      exact ⟨b2, rfl, hp⟩
    · have hne : b1 ≠ d.name := by
        rw [e]
        intro h'
        exact hn.1 (h' ▸ List.mem_map_of_mem h)
      rw [if_neg hne]
      exact variables_get h2 hn.2 h

/-- The index depends on the distributions only through `u_to_x`. -/
theorem hasoferLind_congr {g : (Fin n → ℝ) → ℝ} {t : Mats n} {marg marg' : Fin n → Marginal} (h : ∀ i, (marg i).uToX = (marg' i).uToX) :
    hasoferLind g t marg = hasoferLind g t marg' := by
  have e : ∀ u, uToX t marg u = uToX t marg' u := fun u => by
    funext i
    unfold uToX
    rw [h i]
  unfold hasoferLind surfaceDist
  simp only [e]

/-- C111: whatever index is differentiable with respect to the parameter, the finite differences approach its derivative. -/
theorem C111_quotient {H : Heap} (hm : Consistent (H 0)) {d : DistObj Dist} (hd : d ∈ (H 0).marg) {param : String} {θ : ℝ}
    (hθ : Dict.get? d.body.sensitivityParams param = some θ) (hσ : d.body.marg.stdv ≠ 0) {index : Dist → ℝ → ℝ} {β : ℝ → ℝ}
    (hshow : ∀ᶠ s in 𝓝 θ, ∀ d', d.body.makeCopy [(param, s)] = .ok d' →
      Dict.get? d'.sensitivityParams param = some s ∧ index d' s = β s)
    {v : ℝ} (hβ : HasDerivAt β v θ) : ApproachedBy H d param θ (β θ) index v := by
  intro η hη
  obtain ⟨h0, hh0, hq⟩ := quotient_close hβ hη
  obtain ⟨h1, hh1, hs⟩ := Metric.eventually_nhds_iff.1 hshow
  have hσ' : 0 < |d.body.marg.stdv| := abs_pos.2 hσ
  refine ⟨min h0 h1 / |d.body.marg.stdv|, by positivity, fun δ hδ hlt form fresh ε r hform hf hb0 hb1 h => ?_⟩
  rw [lt_div_iff₀ hσ', ← abs_mul] at hlt
  obtain ⟨beta0, e1, e2⟩ := C52_entries form hform δ hf H hm h
  obtain ⟨e, he, hv⟩ := variables_get (Q := fun d e => List.Forall₂ (fun (pv : String × ℝ) (e : String × ℝ) => e.1 = pv.1 ∧
    FDEntry form (form (H 0)).1 δ beta0 d pv.1 pv.2 e.2) d.body.sensitivityParams e) e2 hm.nodup hd
  obtain ⟨w, hw, d', beta1, c1, c2, c3⟩ := entries_get (P := fun p x y => FDEntry form (form (H 0)).1 δ beta0 d p x y) hv hθ
  refine ⟨e, w, he, hw, ?_⟩
  obtain ⟨hs1, hs2⟩ := hs (y := θ + δ * d.body.marg.stdv) (by
    rw [Real.dist_eq]
    simpa using lt_of_lt_of_le hlt (min_le_right _ _)) d' c1
  rw [hs1, Option.getD_some, add_sub_cancel_left] at c3
  rw [c3, ← abs_mul]
  have hb1' := hb1 d' c1 _ c2
  rw [hs2] at hb1'
  exact hq _ (mul_ne_zero hδ hσ) (lt_of_lt_of_le hlt (min_le_left _ _)) ε beta0 beta1 (hb0 _ e1) hb1'

/-- C111: numerical and closed-form sensitivities: as `δ → 0` the finite differences approach the number the closed form reports at the
nearest point of the surface, for any distributions and correlations.  `m s` is the law of the copy of variable `k` whose parameter is
`s`; the other hypotheses are those of `C109_marginal`. -/
theorem C111_close {la : LinAlg} (hla : LinAlgOK la) (dist : Fin n → Dist) (k : Fin n) (param : String) {dF : ℝ → ℝ}
    {dmu dsig : ℝ} (hF : (dist k).dFParam param = .ok dF) (hm : (dist k).dmoments param = .ok (dmu, dsig)) {S : Fin n → Set ℝ}
    (hS : ∀ i, IsOpen (S i)) (hrt : ∀ i, RoundTrip (dist i).marg (S i)) (hj : ∀ i, JacobianCorrect (dist i).marg (S i))
    {m : ℝ → Marginal} {θ : ℝ} (hm0 : m θ = (dist k).marg) (hp : ParamPath m θ dF dmu dsig (S k)) (hsd : (m θ).stdv ≠ 0)
    {S' : ℝ → Set ℝ} (hrt' : ∀ᶠ s in 𝓝 θ, RoundTrip (m s) (S' s))
    {R : Matrix (Fin n) (Fin n) ℝ} {Ro : ℝ → Matrix (Fin n) (Fin n) ℝ} {t : ℝ → Mats n}
    (hpd : ∀ᶠ s in 𝓝 θ, (Ro s).PosDef)
    (ht : ∀ᶠ s in 𝓝 θ, Transformation.compute la .cholesky (Ro s) = .ok (t s))
    (hN : NatafPath (fun i => (dist i).marg) k m θ R Ro) {g : (Fin n → ℝ) → ℝ}
    (hg : ∀ x, (∀ i, x i ∈ S i) → ContinuousAt g x)
    {u0 α x0 : Fin n → ℝ} (hu0 : u0 ≠ 0) (hnear : OnlyNearest g (t θ) (fun i => (dist i).marg) u0)
    (hx0 : x0 = uToX (t θ) (fun i => (dist i).marg) u0) (hxS' : ∀ᶠ s in 𝓝 θ, x0 k ∈ S' s) (hunif : UniformAt m θ dF (x0 k))
    (hform : FormDirection g (t θ) (fun i => (dist i).marg) x0 α) (hα : α ≠ 0)
    (hphi : 1e-300 < StdNormal.pdf ((dist k).marg.xToU (x0 k)))
    {H : Heap} (hH : Consistent (H 0)) {names : Fin n → String} (hmarg : (H 0).marg = List.ofFn fun i => ⟨names i, dist i⟩)
    (hθ : Dict.get? (dist k).sensitivityParams param = some θ)
    (hcopy : ∀ᶠ s in 𝓝 θ, ∀ d', (dist k).makeCopy [(param, s)] = .ok d' →
      Dict.get? d'.sensitivityParams param = some s ∧ d'.marg.uToX = (m s).uToX) :
    ∃ v, marginalOne dist R (Ro θ) (t θ) α u0 k param = .ok v ∧
      ApproachedBy H ⟨names k, dist k⟩ param θ (hasoferLind g (t θ) fun i => (dist i).marg)
        (fun d' s => hasoferLind g (t s) (margWith (fun i => (dist i).marg) k d'.marg)) v := by
  obtain ⟨-, v, h1, h2⟩ := C109_marginal hla dist k param hF hm hS hrt hj hm0 hp hsd hrt' hpd ht hN hg hu0 hnear hx0 hxS' hunif
    hform hα hphi
  refine ⟨v, h1, ?_⟩
  have hd : (⟨names k, dist k⟩ : DistObj Dist) ∈ (H 0).marg := by
    rw [hmarg, List.mem_ofFn]
    exact ⟨k, rfl⟩
  have h0 : hasoferLind g (t θ) (margWith (fun i => (dist i).marg) k (m θ)) = hasoferLind g (t θ) fun i => (dist i).marg := by
    apply hasoferLind_congr
    intro i
    unfold margWith
    split_ifs with h
    · rw [hm0, h]
    · rfl
  have := C111_quotient hH hd (param := param) (θ := θ) hθ (by rw [← hm0]; exact hsd)
    (index := fun d' s => hasoferLind g (t s) (margWith (fun i => (dist i).marg) k d'.marg)) (hcopy.mono fun s hs d' hd' => by
      obtain ⟨a, b⟩ := hs d' hd'
      refine ⟨a, hasoferLind_congr (marg' := margWith (fun i => (dist i).marg) k (m s)) fun i => ?_⟩
      unfold margWith
      split_ifs
      · exact b
      · rfl) h2
  rw [h0] at this
  exact this

theorem copy_mean_std {cls : DistCls} {marg : Marginal} (hcls : cls.extra = []) (v : ℝ) {d' : Dist} :
    ((⟨cls, marg, []⟩ : Dist).makeCopy [("mean", v)] = .ok d' → ∃ mk, cls.new v marg.stdv [] = .ok mk ∧ d' = ⟨cls, mk, []⟩) ∧
    ((⟨cls, marg, []⟩ : Dist).makeCopy [("std", v)] = .ok d' → ∃ mk, cls.new marg.mean v [] = .ok mk ∧ d' = ⟨cls, mk, []⟩) := by
  obtain ⟨-, h1, h2, -⟩ := C52_copy (⟨cls, marg, []⟩ : Dist) (by simp [Dict.keys]) (by simp [Dict.keys]) (by simp [Dict.keys]) v
  rw [h1, h2]
  constructor
  · intro h
    cases hc : cls.new v marg.stdv [] with
    | error e => simp only [hc] at h; cases h
    | ok mk =>
      simp only [hc] at h
      injection h with h
      exact ⟨mk, rfl, h.symm⟩
  · intro h
    cases hc : cls.new marg.mean v [] with
    | error e => simp only [hc] at h; cases h
    | ok mk =>
      simp only [hc] at h
      injection h with h
      exact ⟨mk, rfl, h.symm⟩

/-- C111 for independent variables: the numerical sensitivities to the mean and the standard deviation of a normal variable approach the
closed-form ones. -/
theorem C111_normal {la : LinAlg} (hla : LinAlgOK la) (dist : Fin n → Dist) {S : Fin n → Set ℝ} (hS : ∀ i, IsOpen (S i))
    (hrt : ∀ i, RoundTrip (dist i).marg (S i)) (hj : ∀ i, JacobianCorrect (dist i).marg (S i)) {k : Fin n} {sp : Option ℝ} {μ σ : ℝ}
    (hσ : 0 < σ) (hk : dist k = ⟨Normal.cls, normalOf sp μ σ, []⟩) {t : Mats n}
    (ht : Transformation.compute la .cholesky 1 = .ok t) {g : (Fin n → ℝ) → ℝ} (hg : ∀ x, (∀ i, x i ∈ S i) → ContinuousAt g x)
    {u0 α : Fin n → ℝ} (hu0 : u0 ≠ 0) (hnear : OnlyNearest g t (fun i => (dist i).marg) u0)
    (hform : FormDirection g t (fun i => (dist i).marg) (uToX t (fun i => (dist i).marg) u0) α) (hα : α ≠ 0)
    (hphi : 1e-300 < StdNormal.pdf ((uToX t (fun i => (dist i).marg) u0 k - μ) / σ))
    {H : Heap} (hH : Consistent (H 0)) {names : Fin n → String} (hmarg : (H 0).marg = List.ofFn fun i => ⟨names i, dist i⟩) :
    (∃ v, marginalOne dist 1 1 t α u0 k "mean" = .ok v ∧
      ApproachedBy H ⟨names k, dist k⟩ "mean" μ (hasoferLind g t fun i => (dist i).marg)
        (fun d' _ => hasoferLind g t (margWith (fun i => (dist i).marg) k d'.marg)) v) ∧
    ∃ v, marginalOne dist 1 1 t α u0 k "std" = .ok v ∧
      ApproachedBy H ⟨names k, dist k⟩ "std" σ (hasoferLind g t fun i => (dist i).marg)
        (fun d' _ => hasoferLind g t (margWith (fun i => (dist i).marg) k d'.marg)) v := by
  obtain ⟨-, ⟨v, h1, h2⟩, w, h3, h4⟩ := C109_normal hla dist hS hrt hj hσ hk ht hg hu0 hnear hform hα hphi
  have hd : (⟨names k, dist k⟩ : DistObj Dist) ∈ (H 0).marg := by
    rw [hmarg, List.mem_ofFn]
    exact ⟨k, rfl⟩
  have h0 : hasoferLind g t (margWith (fun i => (dist i).marg) k (normalOf sp μ σ)) = hasoferLind g t fun i => (dist i).marg := by
    congr 1
    funext i
    unfold margWith
    split_ifs with h
    · rw [h, hk]
    · rfl
  have hst : (dist k).marg.stdv = σ := by rw [hk]; rfl
  have hidx : ∀ mk a b, mk.uToX = Normal.uToX a b →
      hasoferLind g t (margWith (fun i => (dist i).marg) k mk) = hasoferLind g t (margWith (fun i => (dist i).marg) k (normalOf sp a b)) := by
    intro mk a b h
    apply hasoferLind_congr
    intro i
    unfold margWith
    split_ifs
    · exact h
    · rfl
  refine ⟨⟨v, h1, ?_⟩, w, h3, ?_⟩
  · have := C111_quotient hH hd (param := "mean") (θ := μ) (by rw [hk]; simp [Dist.sensitivityParams, Dict.get?, normalOf])
      (by show (dist k).marg.stdv ≠ 0; rw [hst]; exact hσ.ne')
      (index := fun d' _ => hasoferLind g t (margWith (fun i => (dist i).marg) k d'.marg)) (Eventually.of_forall fun s d' hd' => by
        have hd'' : (dist k).makeCopy [("mean", s)] = .ok d' := hd'
        rw [hk] at hd''
        obtain ⟨mk, e1, rfl⟩ := (copy_mean_std rfl s).1 hd''
        have e2 : Normal.new s (.fin σ) none = .ok mk := e1
        obtain ⟨a1, -, -, a4, -⟩ := normal_ok e2
        exact ⟨by simp [Dist.sensitivityParams, Dict.get?, a4], hidx mk s σ a1⟩) h2
    rw [h0] at this
    exact this
  · have := C111_quotient hH hd (param := "std") (θ := σ) (by rw [hk]; simp [Dist.sensitivityParams, Dict.get?, normalOf])
      (by show (dist k).marg.stdv ≠ 0; rw [hst]; exact hσ.ne')
      (index := fun d' _ => hasoferLind g t (margWith (fun i => (dist i).marg) k d'.marg)) (Eventually.of_forall fun s d' hd' => by
        have hd'' : (dist k).makeCopy [("std", s)] = .ok d' := hd'
        rw [hk] at hd''
        obtain ⟨mk, e1, rfl⟩ := (copy_mean_std rfl s).2 hd''
        have e2 : Normal.new μ (.fin s) none = .ok mk := e1
        obtain ⟨a1, -, -, -, a5, -⟩ := normal_ok e2
        exact ⟨by simp [Dist.sensitivityParams, Dict.get?, a5], hidx mk μ s a1⟩) h4
    rw [h0] at this
    exact this

/-- C111 for independent variables: the same for a lognormal variable. -/
theorem C111_lognormal {la : LinAlg} (hla : LinAlgOK la) (dist : Fin n → Dist) {S : Fin n → Set ℝ} (hS : ∀ i, IsOpen (S i))
    (hrt : ∀ i, RoundTrip (dist i).marg (S i)) (hj : ∀ i, JacobianCorrect (dist i).marg (S i)) {k : Fin n} {sp : Option ℝ} {μ σ : ℝ}
    (hμ : 0 < μ) (hσ : 0 < σ) (hk : dist k = ⟨Lognormal.cls, lognormalOf sp μ σ, []⟩) {t : Mats n}
    (ht : Transformation.compute la .cholesky 1 = .ok t) {g : (Fin n → ℝ) → ℝ} (hg : ∀ x, (∀ i, x i ∈ S i) → ContinuousAt g x)
    {u0 α : Fin n → ℝ} (hu0 : u0 ≠ 0) (hnear : OnlyNearest g t (fun i => (dist i).marg) u0)
    (hform : FormDirection g t (fun i => (dist i).marg) (uToX t (fun i => (dist i).marg) u0) α) (hα : α ≠ 0)
    (hphi : 1e-300 < StdNormal.pdf ((dist k).marg.xToU (uToX t (fun i => (dist i).marg) u0 k)))
    {H : Heap} (hH : Consistent (H 0)) {names : Fin n → String} (hmarg : (H 0).marg = List.ofFn fun i => ⟨names i, dist i⟩) :
    (∃ v, marginalOne dist 1 1 t α u0 k "mean" = .ok v ∧
      ApproachedBy H ⟨names k, dist k⟩ "mean" μ (hasoferLind g t fun i => (dist i).marg)
        (fun d' _ => hasoferLind g t (margWith (fun i => (dist i).marg) k d'.marg)) v) ∧
    ∃ v, marginalOne dist 1 1 t α u0 k "std" = .ok v ∧
      ApproachedBy H ⟨names k, dist k⟩ "std" σ (hasoferLind g t fun i => (dist i).marg)
        (fun d' _ => hasoferLind g t (margWith (fun i => (dist i).marg) k d'.marg)) v := by
  obtain ⟨-, ⟨v, h1, h2⟩, w, h3, h4⟩ := C109_lognormal hla dist hS hrt hj hμ hσ hk ht hg hu0 hnear hform hα hphi
  have hd : (⟨names k, dist k⟩ : DistObj Dist) ∈ (H 0).marg := by
    rw [hmarg, List.mem_ofFn]
    exact ⟨k, rfl⟩
  have h0 : hasoferLind g t (margWith (fun i => (dist i).marg) k (lognormalOf sp μ σ)) = hasoferLind g t fun i => (dist i).marg := by
    congr 1
    funext i
    unfold margWith
    split_ifs with h
    · rw [h, hk]
    · rfl
  obtain ⟨-, hmn, hst, -⟩ := lognormal_new sp hμ hσ
  have hmn' : (dist k).marg.mean = μ := by rw [hk]; exact hmn
  have hst' : (dist k).marg.stdv = σ := by rw [hk]; exact hst
  have hidx : ∀ mk a b, 0 < a → 0 < b → Lognormal.new a b false none = .ok mk → mk.mean = a ∧ mk.stdv = b ∧
      hasoferLind g t (margWith (fun i => (dist i).marg) k mk) =
        hasoferLind g t (margWith (fun i => (dist i).marg) k (lognormalOf sp a b)) := by
    intro mk a b ha hb h
    obtain ⟨e1, e2, e3, -, e5, -⟩ := lognormal_new none ha hb
    rw [e1] at h
    injection h with h
    obtain ⟨-, -, -, -, f5, -⟩ := lognormal_new sp ha hb
    refine ⟨h ▸ e2, h ▸ e3, ?_⟩
    apply hasoferLind_congr
    intro i
    unfold margWith
    split_ifs
    · funext z
      rw [← h, e5, f5]
    · rfl
  refine ⟨⟨v, h1, ?_⟩, w, h3, ?_⟩
  · have := C111_quotient hH hd (param := "mean") (θ := μ) (by
        show Dict.get? (dist k).sensitivityParams "mean" = some μ
        simp [Dist.sensitivityParams, Dict.get?, hmn'])
      (by show (dist k).marg.stdv ≠ 0; rw [hst']; exact hσ.ne')
      (index := fun d' _ => hasoferLind g t (margWith (fun i => (dist i).marg) k d'.marg)) ((eventually_gt_nhds hμ).mono fun s hs d' hd' => by
        have hd'' : (dist k).makeCopy [("mean", s)] = .ok d' := hd'
        rw [hk] at hd''
        obtain ⟨mk, e1, rfl⟩ := (copy_mean_std rfl s).1 hd''
        rw [hst] at e1
        obtain ⟨a1, -, a3⟩ := hidx mk s σ hs hσ e1
        exact ⟨by simp [Dist.sensitivityParams, Dict.get?, a1], a3⟩) h2
    rw [h0] at this
    exact this
  · have := C111_quotient hH hd (param := "std") (θ := σ) (by
        show Dict.get? (dist k).sensitivityParams "std" = some σ
        simp [Dist.sensitivityParams, Dict.get?, hst'])
      (by show (dist k).marg.stdv ≠ 0; rw [hst']; exact hσ.ne')
      (index := fun d' _ => hasoferLind g t (margWith (fun i => (dist i).marg) k d'.marg)) ((eventually_gt_nhds hσ).mono fun s hs d' hd' => by
        have hd'' : (dist k).makeCopy [("std", s)] = .ok d' := hd'
        rw [hk] at hd''
        obtain ⟨mk, e1, rfl⟩ := (copy_mean_std rfl s).2 hd''
        rw [hmn] at e1
        obtain ⟨-, a2, a3⟩ := hidx mk μ s hμ hs e1
        exact ⟨by simp [Dist.sensitivityParams, Dict.get?, a2], a3⟩) h4
    rw [h0] at this
    exact this

/-- An analysis that reports the exact index of the model. -/
noncomputable def exactForm (g : (Fin n → ℝ) → ℝ) (t : Mats n) (d : Marginal) : FormOracle := fun m =>
  (m, .ok (hasoferLind g t fun i => (m.marg.map fun e => e.body.marg).getD i.val d))

/-- The hypotheses of C111 are met by two standard normal variables and a limit state whose design point does not move smoothly: with exact
analyses the number reported for the mean of `x1` approaches `-1`, which is what the closed form reports. -/
example {la : LinAlg} (hla : LinAlgOK la) : ∃ t : Mats 2, Transformation.compute la .cholesky 1 = .ok t ∧
    marginalOne flatDist 1 1 t ![1, 0] ![2, 0] 0 "mean" = .ok (-1) ∧
    ∀ η > 0, ∃ δ0 > 0, ∀ δ, 0 < δ → δ < δ0 → ∃ r e w,
      (numericalSens (exactForm flatG t (normalOf none 0 1)) δ 1
        (fun _ => tableModel (normalOf none 0 1) (normalOf none 0 1) "x1")).2 = .ok r ∧
      Dict.get? r "x1" = some e ∧ Dict.get? e "mean" = some w ∧ |w - -1| ≤ η := by
  obtain ⟨t, ht, -⟩ := C22_posdef hla .cholesky (PosDef.one (n := Fin 2) (R := ℝ))
  obtain ⟨ht1, hux, hnear, hform⟩ := flat_setting hla ht
  have hu0 : (![2, 0] : Fin 2 → ℝ) ≠ 0 := fun h => by simpa using congrFun h 0
  have hα : (![1, 0] : Fin 2 → ℝ) ≠ 0 := fun h => by simpa using congrFun h 0
  have hS : ∀ i : Fin 2, IsOpen ((fun _ => Set.univ : Fin 2 → Set ℝ) i) := fun i => isOpen_univ
  have hphi : 1e-300 < StdNormal.pdf ((uToX t (fun i => (flatDist i).marg) ![2, 0] 0 - 0) / 1) := by
    rw [hux]
    apply pdf_not_tiny
    norm_num
  obtain ⟨M, hM⟩ : ∃ M, M = tableModel (normalOf none 0 1) (normalOf none 0 1) "x1" := ⟨_, rfl⟩
  have hMe := tableModel_eq (normalOf none 0 1) (normalOf none 0 1) (n1 := "x1") (by decide)
  rw [← hM] at hMe
  have hcons : Consistent M := by rw [hM]; exact consistent_reachable _
  have hmarg : M.marg = List.ofFn fun i => (⟨(![ "x1", "x2" ] : Fin 2 → String) i, flatDist i⟩ : DistObj Dist) := by
    rw [hMe]
    simp [List.ofFn_succ, flatDist_eq, normalDist]
  obtain ⟨⟨v, h1, h2⟩, -⟩ := C111_normal hla flatDist hS flat_round.1 flat_round.2 one_pos (flatDist_eq 0) ht
    (fun _ _ => flat_continuous.continuousAt) hu0 hnear hform hα hphi (H := fun _ => M) hcons hmarg
  have hd2 : flatDist = fun _ => normalDist (normalOf none 0 1) := by
    funext k; rfl
  have val : marginalOne flatDist 1 1 t ![1, 0] ![2, 0] 0 "mean" = .ok (-(![1, 0] : Fin 2 → ℝ) 0 / 1) := by
    rw [ht1, hd2]
    refine (C50_normal (n := 2) (μ := fun _ => 0) (sd := fun _ => 1) (sp := fun _ => none) (fun _ => one_pos)
      (fun _ => normal_new none 0 1) ![1, 0] ![2, 0] 0 (pdf_not_tiny ?_)).1
    norm_num
  have hv : v = -1 := by
    have := h1.symm.trans val
    injection this with this
    rw [this]; simp
  rw [hv] at h1 h2
  refine ⟨t, ht, h1, fun η hη => ?_⟩
  rw [← hM]
  obtain ⟨δ0, hδ0, h3⟩ := h2 η hη
  refine ⟨δ0, hδ0, fun δ hδ hlt => ?_⟩
  have hok : ∃ r, (numericalSens (exactForm flatG t (normalOf none 0 1)) δ 1 (fun _ => M)).2 = .ok r := by
    unfold numericalSens
    have e : exactForm flatG t (normalOf none 0 1) M =
        (M, .ok (hasoferLind flatG t fun i => (M.marg.map fun e => e.body.marg).getD i.val (normalOf none 0 1))) := rfl
    simp only [e]
    have hv : M.getVariables = M.marg.map (fun d => (d.name, d)) := hcons.vars
    rw [hv]
    refine fdAll_ok _ _ δ M.marg one_pos _ (by rw [Function.update_self]; exact hcons) (fun d hd => by rw [Function.update_self]; exact hd) ?_
    intro d hd pv hpv
    rw [Function.update_self]
    rw [hMe] at hd
    have hb : d.body = normalDist (normalOf none 0 1) := by
      simp only [List.mem_cons, List.not_mem_nil, or_false] at hd
      rcases hd with rfl | rfl <;> rfl
    rw [hb, normal_params (normal_new none 0 1)] at hpv
    obtain ⟨⟨mk, -, a2⟩, mk', -, b2⟩ := normal_copies (normal_new none 0 1) (pv.2 + δ * d.body.marg.stdv)
    simp only [List.mem_cons, List.not_mem_nil, or_false] at hpv
    unfold EntryOK
    rw [hb] at a2 b2 ⊢
    rcases hpv with rfl | rfl
    · exact ⟨_, _, a2, rfl⟩
    · exact ⟨_, _, b2, rfl⟩
  obtain ⟨r, hr⟩ := hok
  have hbody : ∀ i : Fin 2, (M.marg.map fun e => e.body.marg).getD i.val (normalOf none 0 1) = (flatDist i).marg := by
    intro i
    rw [hmarg]
    fin_cases i <;> simp [List.ofFn_succ]
  obtain ⟨e, w, h4, h5, h6⟩ := h3 δ hδ.ne' (by rw [abs_of_pos hδ]; exact hlt) (exactForm flatG t (normalOf none 0 1)) 1 0 r
    (fun m => ⟨rfl, rfl, rfl, rfl, rfl⟩) one_pos
    (by
      intro b hb
      have hb' : b = hasoferLind flatG t fun i => (M.marg.map fun e => e.body.marg).getD i.val (normalOf none 0 1) := by
        injection hb with hb; exact hb.symm
      rw [hb', hasoferLind_congr (marg' := fun i => (flatDist i).marg) (fun i => by rw [hbody])]
      simp)
    (by
      intro d' _ b hb
      have hb' : b = hasoferLind flatG t fun i =>
          ((exchanged M "x1" d').marg.map fun e => e.body.marg).getD i.val (normalOf none 0 1) := by
        injection hb with hb; exact hb.symm
      rw [hb', hasoferLind_congr (marg' := margWith (fun i => (flatDist i).marg) 0 d'.marg) (fun i => by
        rw [exchanged, hMe]
        fin_cases i
        · simp [margWith]
        · simp [margWith, flatDist_eq, normalDist])]
      simp)
    hr
  exact ⟨r, e, w, hr, h4, h5, by simpa using h6⟩

end Pystra.Props
