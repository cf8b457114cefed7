import Verif.Props.LineSampling
import Verif.Props.FormLinear
import Verif.Lemmas.AnalysisSim

/-! C45: the whole `LineSampling.run()`, with FORM. -/

namespace Pystra.Props
open Spec Transformation Form LineSampling Matrix

variable {σ : Type} {n : ℕ} {t : Mats n} {marg : Fin n → Marginal} {ev : Evaluator σ n} {P : σ → Prop}

/-- What holds of every state an evaluation leaves behind holds after FORM. -/
theorem runFrom_keeps (hg : ∀ s, P s → ∀ x, P (ev.withGrad s x).1) (hv : ∀ s, P s → ∀ xs, P (ev.values s xs).1)
    {opt : Form.Options} {fuel : ℕ} {s s' : σ} {r : Form.Result n} (hs : P s)
    (h : runFrom t marg ev opt fuel s = some (.done r s')) : P s' := by
  have hsim : Sim (fun a b => a = b ∧ P a) ev ev := by
    constructor
    · rintro a b ⟨rfl, ha⟩ x; exact ⟨⟨rfl, hg a ha x⟩, rfl⟩
    · rintro a b ⟨rfl, ha⟩ x; exact ⟨⟨rfl, hv a ha x⟩, rfl⟩
  rcases runFrom_sim hsim t marg opt fuel (a := s) (b := s) ⟨rfl, hs⟩ with ⟨h1, -⟩ | ⟨p, q, h1, -, hq⟩
  · rw [h1] at h; cases h
  · rw [h1] at h
    injection h with h
    subst h
    cases hq with
    | done _ h => exact h.2

/-- C45, the whole `run()`: the direction and the scanned range come from the FORM analysis: from the one supplied by the
user, if any, and otherwise from a FORM run on the same model and limit state, which comes first.  The draws are the first
ones of the stream.  If that FORM run raises, so does line sampling. -/
theorem C45_whole {g : (Fin n → ℝ) → Option ℝ} (hev : PointValues ev P g) (opt : Form.Options)
    (form : Option (Form.Result n)) {N : ℕ} (hN : 1 ≤ N) (ω : ℕ → ℝ) (fuel : ℕ) (s : σ) :
    (∀ r s1, (form = some r ∧ s1 = s ∨ form = none ∧ runFrom t marg ev opt fuel s = some (.done r s1)) → P s1 →
      let m := max (|r.beta| * 3 + 5) 15
      ∃ s' res, LineSampling.run t marg ev opt form N ω fuel s = some (.ok (s', res)) ∧
      ∃ c : ℕ → ℝ,
        (∀ j < N, |c j| ≤ m ∧ ∃ s', P s' ∧ c j = (findLine t marg ev
          (fun i => lsDraw ω n N 0 j i - (∑ k, r.alpha k * lsDraw ω n N 0 j k) * r.alpha i) r.alpha r.beta s').2) ∧
        res.c = (List.range N).map c ∧ res.nSamples = N ∧
        res.Pf = (∑ j ∈ Finset.range N, StdNormal.cdf (-(c j))) / N ∧
        0 < res.Pf ∧ res.Pf < 1 ∧ StdNormal.cdf (-m) ≤ res.Pf ∧ res.Pf ≤ StdNormal.cdf m ∧
        (∃ b : ℝ, res.beta = b ∧ StdNormal.cdf (-b) = res.Pf) ∧
        res.cov = (√((∑ j ∈ Finset.range N, (StdNormal.cdf (-(c j)) - res.Pf) ^ 2) / N) / (√N * res.Pf) : ℝ)) ∧
    (∀ e s1, form = none → runFrom t marg ev opt fuel s = some (.raised e s1) →
      LineSampling.run t marg ev opt form N ω fuel s = some (.error e)) := by
  refine ⟨?_, ?_⟩
  · intro r s1 h hP m
    have hrun : LineSampling.run t marg ev opt form N ω fuel s =
        some (.ok (sample t marg ev r.alpha r.beta N ω 0 s1)) := by
      unfold LineSampling.run
      rcases h with ⟨rfl, rfl⟩ | ⟨rfl, h⟩
      · rfl
      · rw [h]
    obtain ⟨c, hc⟩ := C45_run (t := t) (marg := marg) hev r.alpha r.beta hN ω 0 s1 hP
    exact ⟨_, _, hrun, c, hc⟩
  · rintro e s1 rfl h
    unfold LineSampling.run
    rw [h]

/-- C45, end to end: normal marginals, any positive definite correlation, an affine limit state with exact gradients: line
sampling with its own FORM run reports the failure probability to the tolerance of the root finder, whatever the draws; its
reliability index is that of FORM to the same tolerance, and the reported coefficient of variation is zero. -/
theorem C45_exact {la : LinAlg} (hla : LinAlgOK la) {ty : TransformType} {Ro : Matrix (Fin n) (Fin n) ℝ} (hR : Ro.PosDef)
    (ht : Transformation.compute la ty Ro = .ok t) {μ sd : Fin n → ℝ} {sp : Fin n → Option ℝ}
    (hsd : ∀ i, 0 < sd i) (hm : ∀ i, Normal.new (μ i) (.fin (sd i)) (sp i) = .ok (marg i)) (a0 : ℝ) (a : Fin n → ℝ)
    (ha : a ≠ 0) (hex : Exact ev P (fun x => a0 + ∑ i, a i * x i) (fun _ => a))
    (hval : Values ev P (fun x => a0 + ∑ i, a i * x i))
    (opt : Form.Options) (hst : opt.stepSize = 1) (he1 : 0 < opt.e1) (he1' : opt.e1 ≤ 1) (he2 : 0 < opt.e2)
    (hi : 2 ≤ opt.iMax) (s : σ) (hs : P s) (fuel : ℕ) (hf : opt.iMax ≤ fuel) {N : ℕ} (hN : 1 ≤ N) (ω : ℕ → ℝ) :
    let β := (a0 + ∑ i, a i * μ i) / √(∑ i, ∑ j, a i * sd i * Ro i j * (a j * sd j))
    let tol : ℝ := 1e-6 + 4 * (1 / 2) ^ 52 * max (|β| * 3 + 5) 15
    ∃ s' res, LineSampling.run t marg ev opt none N ω fuel s = some (.ok (s', res)) ∧
      ∃ c : ℝ, res.beta = (c : EReal) ∧ |c - β| ≤ tol ∧ res.c = List.replicate N c ∧ res.cov = 0 ∧
      |res.Pf - (stdGauss n).real {u | a0 + ∑ i, a i * uToX t marg u i ≤ 0}| ≤ tol / √(2 * Real.pi) := by
  intro β tol
  obtain ⟨r, s1, h1, hbeta, -, hu, hx, -, hal⟩ := C30_exact hla hR ht hsd hm a0 a ha hex opt hst he1 he1' he2 hi s hs fuel hf
  have hP : P s1 := by
    refine runFrom_keeps ?_ ?_ hs h1
    · intro s hs x; obtain ⟨s', _, h, hp⟩ := hex s hs x; rw [h]; exact hp
    · intro s hs xs; obtain ⟨s', h, hp⟩ := hval s hs xs; rw [h]; exact hp
  set w := vecMul (fun i => a i * sd i) t.invT with hwdef
  set b := a0 + ∑ i, a i * μ i with hb
  have huToX : ∀ u, uToX t marg u = fun i => μ i + sd i * (t.invT.mulVec u) i := by
    intro u
    funext i
    simp only [uToX, (normal_ok (hm i)).1, Normal.uToX]
    ring
  have haff : ∀ u, a0 + ∑ i, a i * uToX t marg u i = b + ∑ i, w i * u i := by
    intro u
    rw [huToX]
    have e1 : ∑ i, w i * u i = ∑ i, a i * sd i * (t.invT.mulVec u) i := by
      change w ⬝ᵥ u = (fun i => a i * sd i) ⬝ᵥ (t.invT.mulVec u)
      rw [hwdef, dotProduct_mulVec]
    rw [e1, hb, add_assoc, ← Finset.sum_add_distrib]
    congr 1
    exact Finset.sum_congr rfl fun i _ => by ring
  obtain ⟨t', ht', -, -, hTi⟩ := C22_posdef hla ty hR
  rw [ht] at ht'; injection ht' with ht'; subst ht'
  have hw : w ≠ 0 := by
    intro h0
    apply ha
    have : vecMul w t.T = fun i => a i * sd i := by
      rw [hwdef, vecMul_vecMul, hTi, vecMul_one]
    rw [h0, zero_vecMul] at this
    funext i
    have h := congrFun this i
    simp only [Pi.zero_apply] at h ⊢
    rcases mul_eq_zero.1 h.symm with h | h
    · exact h
    · exact absurd h (hsd i).ne'
  have hS : 0 < ∑ i, w i ^ 2 := by
    obtain ⟨i, hi⟩ : ∃ i, w i ≠ 0 := by
      by_contra h; push Not at h; exact hw (funext h)
    exact lt_of_lt_of_le (pow_pos (abs_pos.2 hi) 2 |>.trans_le (by rw [sq_abs]))
      (Finset.single_le_sum (f := fun i => w i ^ 2) (fun j _ => sq_nonneg _) (Finset.mem_univ i))
  have halpha : r.alpha = fun i => -(w i / √(∑ i, w i ^ 2)) := by
    rw [hal]; funext i; simp only [alpha, norm2, div_eq_mul_inv, neg_mul]
  -- the distance of the plane is FORM's beta
  have hdist : b / √(∑ i, w i ^ 2) = r.beta := by
    have hpt := C29_identities h1
    have hx' : r.point.x = uToX t marg r.point.u := hpt.1
    rw [hx', haff, hu, halpha] at hx
    have hS0 : √(∑ i, w i ^ 2) ≠ 0 := (Real.sqrt_pos.2 hS).ne'
    have hSS : √(∑ i, w i ^ 2) * √(∑ i, w i ^ 2) = ∑ i, w i ^ 2 := Real.mul_self_sqrt hS.le
    have : ∑ i, w i * (r.beta • fun i => -(w i / √(∑ i, w i ^ 2))) i = -(r.beta * √(∑ i, w i ^ 2)) := by
      have e : ∀ i, w i * (r.beta • fun i => -(w i / √(∑ i, w i ^ 2))) i = -(r.beta / √(∑ i, w i ^ 2)) * w i ^ 2 := by
        intro i; simp only [Pi.smul_apply, smul_eq_mul]; ring
      simp only [e, ← Finset.mul_sum]
      have key : ∀ q S : ℝ, q ≠ 0 → q * q = S → -(r.beta / q) * S = -(r.beta * q) := by
        rintro q S hq rfl; field_simp
      exact key _ _ hS0 hSS
    rw [this] at hx
    rw [div_eq_iff hS0]; linarith
  have hin : |b / √(∑ i, w i ^ 2)| ≤ max (|r.beta| * 3 + 5) 15 := by
    rw [hdist]
    exact le_max_of_le_left (by nlinarith [abs_nonneg r.beta])
  obtain ⟨c, hc, hcl, -, hcb, hcov, hcP⟩ := C45_affine (t := t) (marg := marg) (pointValues_of_values hval) haff hS r.beta hin hN ω 0
    s1 hP
  have hrun : LineSampling.run t marg ev opt none N ω fuel s = some (.ok (sample t marg ev r.alpha r.beta N ω 0 s1)) := by
    unfold LineSampling.run; rw [h1]
  rw [halpha] at hrun
  refine ⟨_, _, hrun, c, hcb, ?_, hc, hcov, ?_⟩
  · have hβ : β = r.beta := hbeta.symm
    rw [hdist] at hcl
    simp only [tol, hβ]; exact hcl
  · have hβ : β = r.beta := hbeta.symm
    simp only [tol, hβ]; exact hcP

/-- A concrete run meeting the hypotheses of `C45_exact`: two correlated normal variables, `g = 7 - x₀ - 2x₁`, ten lines. -/
example {la : LinAlg} (hla : LinAlgOK la) (ω : ℕ → ℝ) : ∃ t marg res,
    Transformation.compute la .cholesky !![1, 1/2; 1/2, 1] = .ok t ∧
    LineSampling.run t marg (⟨fun _ x => ((), .ok (7 + ∑ i, ![-1, -2] i * x i, ![-1, -2], x)),
      fun _ xs => ((), .ok (xs.map fun x => 7 + ∑ i, ![-1, -2] i * x i))⟩ : Evaluator Unit 2) ⟨100, 0.001, 0.001, 1, 1⟩ none 10
      ω 100 () = some (.ok ((), res)) ∧ res.cov = 0 := by
  have hR : (!![1, 1/2; 1/2, 1] : Matrix (Fin 2) (Fin 2) ℝ).PosDef := by
    rw [posDef_iff_dotProduct_mulVec]
    refine ⟨by ext i j; fin_cases i <;> fin_cases j <;> simp, fun x hx => ?_⟩
    simp only [star_trivial, dotProduct, mulVec, Fin.sum_univ_two]
    simp
    have h0 : x 0 ≠ 0 ∨ x 1 ≠ 0 := by
      by_contra h
      push Not at h
      apply hx
      funext i; fin_cases i <;> simp [h.1, h.2]
    rcases h0 with h | h <;> nlinarith [sq_nonneg (x 0 + x 1), sq_pos_of_ne_zero h, sq_nonneg (x 0), sq_nonneg (x 1)]
  obtain ⟨t, ht, -⟩ := C22_posdef hla .cholesky hR
  have hm : ∀ i : Fin 2, ∃ m, Normal.new (![1, 2] i) (.fin (1 : ℝ)) none = .ok m := fun i => ⟨_, rfl⟩
  choose marg hmarg using hm
  obtain ⟨s', res, h1, c, -, -, -, h5, -⟩ := C45_exact hla hR ht (μ := ![1, 2]) (sd := fun _ => 1) (sp := fun _ => none)
    (fun _ => one_pos) hmarg 7 ![-1, -2] (by intro h; simpa using congrFun h 0)
    (ev := (⟨fun _ x => ((), .ok (7 + ∑ i, ![-1, -2] i * x i, ![-1, -2], x)),
      fun _ xs => ((), .ok (xs.map fun x => 7 + ∑ i, ![-1, -2] i * x i))⟩ : Evaluator Unit 2)) (P := fun _ => True)
    (fun _ _ x => ⟨(), x, rfl, trivial⟩) (fun _ _ xs => ⟨(), rfl, trivial⟩)
    ⟨100, 0.001, 0.001, 1, 1⟩ rfl (by norm_num) (by norm_num) (by norm_num) (by norm_num) () trivial 100 le_rfl
    (N := 10) (by norm_num) ω
  exact ⟨t, marg, res, ht, h1, h5⟩

end Pystra.Props
