import Verif.Lemmas.LimitState
import Verif.Props.Stochastic
import Mathlib.Analysis.Calculus.MeanValue
import Mathlib.Analysis.Calculus.Deriv.Pow
import Mathlib.Tactic.FieldSimp
import Mathlib.Tactic.Positivity

/-! Properties C04–C10: limit-state evaluation. -/

namespace Pystra.Props
open StochModel Spec LimitState

variable {D : Type} {n : ℕ}

/-- C09: for any model built by calls on the API, the user's function gets exactly one keyword per variable
and per constant (variables first), the `i`-th variable gets row `i`, and a constant gets its value once per
evaluation point. -/
theorem C09_binding (m : StochModel D ℝ) (hm : Reachable m) (hn : m.nMarg ≤ n) (x : List (Fin n → ℝ)) :
    ∃ kw, inpdict m x = .ok kw ∧
      kw.keys = m.getVariables.keys ++ m.getConstants.keys ∧ kw.keys.Nodup ∧
      (∀ (i : Fin n) (d : DistObj D), m.getMarginalDistributions[i.val]? = some d →
        kw.get? d.name = some (x.map (fun p => p i))) ∧
      (∀ c v, (c, v) ∈ m.getConstants → kw.get? c = some (List.replicate x.length v)) := by
  have w := wf_of_reachable hm
  have hlen : m.vars.keys.length ≤ (List.ofFn (rowOf x)).length := by
    rw [w.len, List.length_ofFn]; exact hn
  refine ⟨_, inpdict_spec w hn x, ?_, ?_⟩
  · simp only [Dict.keys, List.map_append, getVariables, getConstants]
    rw [List.map_fst_zip (by exact hlen)]
    simp [Function.comp_def]
  have hkeys : Dict.keys (m.vars.keys.zip (List.ofFn (rowOf x)) ++
      m.consts.map (fun e => (e.1, List.replicate x.length e.2))) = m.vars.keys ++ m.consts.keys := by
    simp only [Dict.keys, List.map_append]
    rw [List.map_fst_zip (by exact hlen)]
    simp [Function.comp_def]
  have hnd : (Dict.keys (m.vars.keys.zip (List.ofFn (rowOf x)) ++
      m.consts.map (fun e => (e.1, List.replicate x.length e.2)))).Nodup := by
    rw [hkeys]
    exact List.nodup_append.2 ⟨w.vnd, w.cnd, fun a ha b hb e => w.dis b hb (e ▸ ha)⟩
  refine ⟨hnd, ?_, ?_⟩
  · intro i d hd
    apply Dict.get?_of_mem _ hnd
    apply List.mem_append_left
    obtain ⟨h, rfl⟩ := hm
    have hv := (C01_alignment h i.val d hd).1
    apply List.mem_iff_getElem?.2
    refine ⟨i.val, ?_⟩
    rw [List.getElem?_zip_eq_some]
    constructor
    · simp only [Dict.keys, List.getElem?_map]
      rw [show (init.run h : StochModel D ℝ).vars[i.val]? = some (d.name, d) from hv]
      rfl
    · simp [rowOf]
  · intro c v hc
    apply Dict.get?_of_mem _ hnd
    apply List.mem_append_right
    exact List.mem_map.2 ⟨(c, v), hc, rfl⟩

/-- C09: fewer rows than variables is an `IndexError`, before the user's function is called. -/
theorem C09_too_few_rows (expr : Kwargs → GRet) (x : List (Fin n → ℝ)) (ddm : Bool) (ev : Ev D)
    (hm : Reachable ev.model) (hn : n < ev.model.nMarg) :
    computeLsf expr x ddm ev = (ev, .error .indexError) := by
  have w := wf_of_reachable hm
  have h1 : n < 0 + ev.model.vars.keys.length := by rw [w.len, Nat.zero_add]; exact hn
  have h2 : ev.model.vars.keys ≠ [] := by
    intro h; rw [h] at h1; simp at h1
  simp [computeLsf, inpdict, getVariables, bindVars_short x _ 0 [] h1 h2]

/-- C05: evaluation without gradient returns the pointwise values, whatever the block size `≥ 1`; every
point is handed to the user's function exactly once, in order, in batches of at most `block_size` points. -/
theorem C05_block_size_invisible {expr : Kwargs → GRet} {g : Dict String ℝ → ℝ} (hp : Pointwise expr g)
    (opt : LSOptions) (hbs : 1 ≤ opt.blockSize) (x : List (Fin n → ℝ)) (ev : Ev D) (hm : Reachable ev.model)
    (hn : ev.model.nMarg ≤ n) (hne : ev.model.getNames ≠ []) (fuel : ℕ) (hf : x.length ≤ fuel) :
    ∃ ev' out, evaluateNogradient fuel expr opt x ev = some (ev', .ok out) ∧
      out.G = x.map (fun p => g (pointArgs ev.model p)) ∧
      out.grad = List.replicate x.length (fun _ => 0) ∧
      ∃ tr, ev'.trace = ev.trace ++ tr ∧ pointsOf tr = x.map (pointArgs ev.model) ∧
        ∀ kw ∈ tr, ∃ b ≤ opt.blockSize, ∀ e ∈ kw, e.2.length = b := by
  have w := wf_of_reachable hm
  obtain ⟨tr, h1, h2, h3⟩ := blockLoop_spec hp broadcastTo_len x opt.blockSize fuel opt.blockSize 0 ev w hn hne
    (.inl hbs) le_rfl (Nat.zero_le _) (by omega)
  simp only [List.take_zero, List.map_nil] at h1
  refine ⟨_, _, by simp only [evaluateNogradient, h1]; rfl, rfl, rfl, tr, rfl, by simpa using h2, h3⟩

/-- C05: with block size 0 and at least one point the evaluation never ends. -/
theorem C05_block_size_zero_diverges {expr : Kwargs → GRet} {g : Dict String ℝ → ℝ} (hp : Pointwise expr g)
    (opt : LSOptions) (hbs : opt.blockSize = 0) (x : List (Fin n → ℝ)) (hx : x ≠ []) (ev : Ev D)
    (hm : Reachable ev.model) (hn : ev.model.nMarg ≤ n) (hne : ev.model.getNames ≠ []) (fuel : ℕ) :
    evaluateNogradient fuel expr opt x ev = none := by
  have w := wf_of_reachable hm
  have := blockLoop_zero hp broadcastTo_len x fuel 0 [] ev w hn hne (List.length_pos_iff.2 hx)
  simp [evaluateNogradient, hbs, this]

/-- C06: at one point, `ffd` returns `g(x)` and the forward difference quotients with step
`stdv_j / ffdpara` in coordinate `j` only. -/
theorem C06_ffd {expr : Kwargs → GRet} {g : Dict String ℝ → ℝ} (hp : Pointwise expr g)
    (opt : LSOptions) (hbs : 1 ≤ opt.blockSize) (stdv : Fin n → ℝ) (x0 : Fin n → ℝ) (ev : Ev D)
    (hm : Reachable ev.model) (hn : ev.model.nMarg ≤ n) (hne : ev.model.getNames ≠ []) (fuel : ℕ)
    (hf : 1 + n ≤ fuel) :
    let f : (Fin n → ℝ) → ℝ := fun p => g (pointArgs ev.model p)
    let h : Fin n → ℝ := fun j => stdv j / opt.ffdpara
    ∃ ev' out, evaluateFfd fuel expr opt stdv [x0] ev = some (ev', .ok out) ∧
      out.G = [f x0] ∧
      out.grad = [fun j => (f (Function.update x0 j (x0 j + h j)) - f x0) / h j] ∧
      ∃ tr, ev'.trace = ev.trace ++ tr ∧
        pointsOf tr = pointArgs ev.model x0 ::
          List.ofFn (fun j => pointArgs ev.model (Function.update x0 j (x0 j + h j))) := by
  intro f h
  have w := wf_of_reachable hm
  obtain ⟨t1, t2⟩ := ffd_table h x0
  simp only [evaluateFfd]
  have hh : (fun j => stdv j / opt.ffdpara) = h := rfl
  rw [hh]
  set pr := ffdPerturb h (List.finRange n) (x0, List.replicate (1 + n) x0) with hpr
  obtain ⟨tr, h1, h2, h3⟩ := blockLoop_spec hp squeezeTo_len pr.2 opt.blockSize fuel opt.blockSize 0 ev w hn hne
    (.inl hbs) le_rfl (Nat.zero_le _) (by rw [t2]; simp; omega)
  simp only [List.take_zero, List.map_nil] at h1
  rw [h1]
  refine ⟨_, _, rfl, ?_, ?_, tr, rfl, ?_⟩
  · simp [t2, f]
  · refine congrArg (fun c => [c]) (funext fun j => ?_)
    simp [t2, f, h]
  · rw [h2]
    simp [t2, List.map_ofFn, Function.comp_def]

/-- C06: the gradient is exact for a limit state affine in the variables. -/
theorem C06_ffd_exact_affine {expr : Kwargs → GRet} {g : Dict String ℝ → ℝ} (hp : Pointwise expr g)
    (opt : LSOptions) (hbs : 1 ≤ opt.blockSize) (hpara : opt.ffdpara ≠ 0) (stdv : Fin n → ℝ)
    (hs : ∀ j, stdv j ≠ 0) (x0 : Fin n → ℝ) (ev : Ev D)
    (hm : Reachable ev.model) (hn : ev.model.nMarg ≤ n) (hne : ev.model.getNames ≠ []) (fuel : ℕ)
    (hf : 1 + n ≤ fuel) (a0 : ℝ) (a : Fin n → ℝ)
    (haff : ∀ p : Fin n → ℝ, g (pointArgs ev.model p) = a0 + ∑ i, a i * p i) :
    ∃ ev' out, evaluateFfd fuel expr opt stdv [x0] ev = some (ev', .ok out) ∧
      out.G = [a0 + ∑ i, a i * x0 i] ∧ out.grad = [a] := by
  obtain ⟨ev', out, h1, h2, h3, _⟩ := C06_ffd hp opt hbs stdv x0 ev hm hn hne fuel hf
  beta_reduce at h2 h3
  refine ⟨ev', out, h1, by rw [h2, haff], ?_⟩
  rw [h3]
  congr 1
  funext j
  rw [haff, haff]
  have hsum : ∑ i, a i * Function.update x0 j (x0 j + stdv j / opt.ffdpara) i =
      ∑ i, a i * x0 i + a j * (stdv j / opt.ffdpara) := by
    rw [← Finset.add_sum_erase _ _ (Finset.mem_univ j), ← Finset.add_sum_erase _ _ (Finset.mem_univ j)]
    have : ∑ i ∈ Finset.univ.erase j, a i * Function.update x0 j (x0 j + stdv j / opt.ffdpara) i =
        ∑ i ∈ Finset.univ.erase j, a i * x0 i := by
      apply Finset.sum_congr rfl
      intro i hi
      rw [Function.update_of_ne (Finset.ne_of_mem_erase hi)]
    rw [this, Function.update_self]
    ring
  rw [hsum]
  have : stdv j / opt.ffdpara ≠ 0 := div_ne_zero (hs j) hpara
  rw [show a0 + (∑ i, a i * x0 i + a j * (stdv j / opt.ffdpara)) - (a0 + ∑ i, a i * x0 i) =
    a j * (stdv j / opt.ffdpara) by ring, mul_div_assoc, div_self this, mul_one]

/-- C06: accuracy for a smooth limit state. If along coordinate `j` the derivative exists between `x` and the
perturbed point and is `L`-Lipschitz there, the gradient component is within `L·step/2` of the derivative. -/
theorem C06_ffd_error {expr : Kwargs → GRet} {g : Dict String ℝ → ℝ} (hp : Pointwise expr g)
    (opt : LSOptions) (hbs : 1 ≤ opt.blockSize) (stdv : Fin n → ℝ) (x0 : Fin n → ℝ) (ev : Ev D)
    (hm : Reachable ev.model) (hn : ev.model.nMarg ≤ n) (hne : ev.model.getNames ≠ []) (fuel : ℕ)
    (hf : 1 + n ≤ fuel) (j : Fin n) (hstep : 0 < stdv j / opt.ffdpara) (φ' : ℝ → ℝ) (L : ℝ)
    (hd : ∀ t ∈ Set.Icc (0:ℝ) (stdv j / opt.ffdpara),
      HasDerivAt (fun s => g (pointArgs ev.model (Function.update x0 j (x0 j + s)))) (φ' t) t)
    (hL : ∀ t ∈ Set.Icc (0:ℝ) (stdv j / opt.ffdpara), |φ' t - φ' 0| ≤ L * t) :
    ∃ ev' out grad, evaluateFfd fuel expr opt stdv [x0] ev = some (ev', .ok out) ∧ out.grad = [grad] ∧
      |grad j - φ' 0| ≤ L * (stdv j / opt.ffdpara) / 2 := by
  obtain ⟨ev', out, h1, h2, h3, _⟩ := C06_ffd hp opt hbs stdv x0 ev hm hn hne fuel hf
  beta_reduce at h2 h3
  refine ⟨ev', out, _, h1, h3, ?_⟩
  set h := stdv j / opt.ffdpara with hh
  set φ : ℝ → ℝ := fun s => g (pointArgs ev.model (Function.update x0 j (x0 j + s))) with hφ
  have hφ0 : φ 0 = g (pointArgs ev.model x0) := by simp [hφ]
  have key : |φ h - φ 0 - φ' 0 * h| ≤ L * h ^ 2 / 2 := by
    have := image_norm_le_of_norm_deriv_right_le_deriv_boundary (a := 0) (b := h)
      (f := fun t => φ t - φ 0 - φ' 0 * t) (f' := fun t => φ' t - φ' 0)
      (B := fun t => L * t ^ 2 / 2) (B' := fun t => L * t) ?_ ?_ ?_ ?_ ?_ (x := h)
      ⟨hstep.le, le_rfl⟩
    · simpa using this
    · intro t ht
      exact ((((hd t ht).sub_const (φ 0)).sub ((hasDerivAt_id t).const_mul (φ' 0))).continuousAt).continuousWithinAt
    · intro t ht
      have ht' : t ∈ Set.Icc 0 h := ⟨ht.1, ht.2.le⟩
      have := (((hd t ht').sub_const (φ 0)).sub ((hasDerivAt_id t).const_mul (φ' 0)))
      rw [mul_one] at this
      exact this.hasDerivWithinAt
    · simp
    · intro t
      have := ((hasDerivAt_pow 2 t).const_mul (L / 2))
      have e : L / 2 * (((2 : ℕ) : ℝ) * t ^ (2 - 1)) = L * t := by norm_num; ring
      rw [e] at this
      have e2 : (fun t : ℝ => L * t ^ 2 / 2) = fun y => L / 2 * y ^ 2 := by funext s; ring
      rw [e2]
      exact this
    · intro t ht
      rw [Real.norm_eq_abs]
      exact hL t ⟨ht.1, ht.2.le⟩
  have : (g (pointArgs ev.model (Function.update x0 j (x0 j + h))) - g (pointArgs ev.model x0)) / h - φ' 0 =
      (φ h - φ 0 - φ' 0 * h) / h := by
    rw [hφ0]; field_simp; simp [hφ]
  rw [this, abs_div, abs_of_pos hstep, div_le_iff₀ hstep]
  calc _ ≤ L * h ^ 2 / 2 := key
    _ = L * h / 2 * h := by ring

/-- C06: with two or more points and at least one variable, `ffd` raises and evaluates nothing. -/
theorem C06_ffd_multi_point_raises (fuel : ℕ) (expr : Kwargs → GRet) (opt : LSOptions) (stdv : Fin n → ℝ)
    (x : List (Fin n → ℝ)) (hx : 2 ≤ x.length) (ev : Ev D) :
    evaluateFfd fuel expr opt stdv x ev = some (ev, .error .valueError) := by
  match x, hx with
  | _ :: _ :: _, _ => rfl

/-- C07: an evaluation without gradient, or with DDM, leaves the caller's array as it was; with `ffd` on one
point every coordinate comes back shifted by `stdv_j / ffdpara`. -/
theorem C07_caller_array (fuel : ℕ) (expr : Kwargs → GRet) (opt : LSOptions) (stdv : Fin n → ℝ)
    (x : List (Fin n → ℝ)) (ev ev' : Ev D) (out : EvalOut n) :
    (evaluateNogradient fuel expr opt x ev = some (ev', .ok out) → out.xAfter = x) ∧
    (evaluateDdm expr x ev = (ev', .ok out) → out.xAfter = x) ∧
    (evaluateFfd fuel expr opt stdv x ev = some (ev', .ok out) →
      out.xAfter = x.map (fun p j => p j + stdv j / opt.ffdpara)) := by
  refine ⟨?_, ?_, ?_⟩
  · intro h
    simp only [evaluateNogradient] at h
    split at h
    · cases h
    · cases h
    · cases h; rfl
  · intro h
    simp only [evaluateDdm] at h
    split at h
    · cases h
    · cases h; rfl
  · intro h
    match x with
    | [] => simp only [evaluateFfd] at h; cases h; rfl
    | [x0] =>
      simp only [evaluateFfd] at h
      obtain ⟨t1, _⟩ := ffd_table (fun j => stdv j / opt.ffdpara) x0
      split at h
      · cases h
      · cases h
      · cases h; simp [t1]
    | _ :: _ :: _ => simp only [evaluateFfd] at h; cases h

/-- C08: `multi_proc = 0` always raises `NotImplementedError`, with no evaluation and no effect. -/
theorem C08_multiproc_zero (fuel : ℕ) (expr : Kwargs → GRet) (opt : LSOptions) (h : opt.multiProc = 0)
    (stdv : Fin n → ℝ) (dm : Option String) (x : List (Fin n → ℝ)) (ev : Ev D) :
    evaluateLsf fuel expr opt stdv dm x ev = some (ev, .error .notImplemented) := by
  simp [evaluateLsf, h]

/-- C08: any explicit override, whatever the string, suppresses the gradient; so does the option `"no"`. -/
theorem C08_suppressed (fuel : ℕ) (expr : Kwargs → GRet) (opt : LSOptions) (h : opt.multiProc ≠ 0)
    (stdv : Fin n → ℝ) (dm : Option String) (hd : dm ≠ none ∨ opt.diffMode = "no") (x : List (Fin n → ℝ))
    (ev : Ev D) :
    evaluateLsf fuel expr opt stdv dm x ev = evaluateNogradient fuel expr opt x ev := by
  cases dm with
  | none => simp at hd; simp [evaluateLsf, h, hd]
  | some s => simp [evaluateLsf, h]

/-- C08: a suppressed gradient is returned as zeros, one column per point. -/
theorem C08_zero_gradient (fuel : ℕ) (expr : Kwargs → GRet) (opt : LSOptions) (x : List (Fin n → ℝ))
    (ev ev' : Ev D) (out : EvalOut n) (h : evaluateNogradient fuel expr opt x ev = some (ev', .ok out)) :
    out.grad.length = x.length ∧ ∀ col ∈ out.grad, ∀ i, col i = 0 := by
  simp only [evaluateNogradient] at h
  split at h
  · cases h
  · cases h
  · cases h
    refine ⟨by simp, ?_⟩
    intro col hc i
    have := List.eq_of_mem_replicate hc
    rw [this]

/-- C08: without override, `"ddm"` selects the user's gradient and every other string finite differences. -/
theorem C08_modes (fuel : ℕ) (expr : Kwargs → GRet) (opt : LSOptions) (h : opt.multiProc ≠ 0)
    (stdv : Fin n → ℝ) (x : List (Fin n → ℝ)) (ev : Ev D) :
    (opt.diffMode = "ddm" → evaluateLsf fuel expr opt stdv none x ev = some (evaluateDdm expr x ev)) ∧
    (opt.diffMode ≠ "ddm" → opt.diffMode ≠ "no" →
      evaluateLsf fuel expr opt stdv none x ev = evaluateFfd fuel expr opt stdv x ev) := by
  constructor
  · intro hd; simp [evaluateLsf, h, hd]
  · intro h1 h2; simp [evaluateLsf, h, h1, h2]

/-- C08/C10: DDM at one point returns the user's value and gradient, and evaluates the function once. -/
theorem C08_ddm_single (expr : Kwargs → GRet) (x0 : Fin n → ℝ) (ev : Ev D) (kw : Kwargs) (hkw : inpdict ev.model [x0] = .ok kw) (v : ℝ) (dg : List ℝ)
    (hlen : dg.length = n) (hr : expr kw = .tuple [.arr [v], .arr dg]) :
    ∃ ev' out, evaluateDdm expr [x0] ev = (ev', .ok out) ∧ out.G = [v] ∧
      out.grad.map List.ofFn = [dg] ∧ ev'.trace = ev.trace ++ [kw] := by
  subst hlen
  refine ⟨⟨ev.model.addCallFunction 1, ev.trace ++ [kw]⟩, ⟨[v], [fun i => dg[i.val]], [x0]⟩, ?_, rfl, ?_, rfl⟩
  · simp [evaluateDdm, ddmLoop, computeLsf, hkw, hr, unpackRet, ddmAssignG, broadcastTo, gradColumn]
  · simp

/-- C08: DDM with two or more points fails with `IndexError` once the first point has been processed, whatever values and
gradients the user's function returns (a gradient of the right length; the value a number or an array of one). -/
theorem C08_ddm_multi_point_raises (expr : Kwargs → GRet) (x0 x1 : Fin n → ℝ) (xs : List (Fin n → ℝ)) (ev : Ev D)
    (hm : Reachable ev.model) (hn : ev.model.nMarg ≤ n)
    (hr : ∀ kw, ∃ (v : ℝ) (dg : List ℝ), dg.length = n ∧
      (expr kw = .tuple [.scalar v, .arr dg] ∨ expr kw = .tuple [.arr [v], .arr dg])) :
    (evaluateDdm expr (x0 :: x1 :: xs) ev).2 = .error .indexError := by
  have w := wf_of_reachable hm
  obtain ⟨k1, h1⟩ : ∃ k, inpdict ev.model [x0] = .ok k := ⟨_, inpdict_spec w hn [x0]⟩
  obtain ⟨k2, h2⟩ : ∃ k, inpdict ev.model [x1] = .ok k := ⟨_, inpdict_spec w hn [x1]⟩
  obtain ⟨v, dg, hl, h⟩ := hr k1
  obtain ⟨v', dg', -, h'⟩ := hr k2
  subst hl
  rcases h with h | h <;> rcases h' with h' | h' <;>
    simp [evaluateDdm, ddmLoop, computeLsf, h1, h2, h, h', unpackRet, ddmAssignG, broadcastTo, gradColumn]

/-- C10: without a gradient the value is the function's return, or the first entry of a tuple. -/
theorem C10_no_gradient (r : GRet) (g : GVal) :
    unpackRet false r = .ok (g, none) ↔ (r = .val g ∨ ∃ t, r = .tuple (g :: t)) := by
  cases r with
  | val g' => simp [unpackRet]
  | tuple l => cases l <;> simp [unpackRet]

/-- C10: with DDM a tuple is accepted exactly when it is a pair; a scalar is a `TypeError`; other tuples and
one-entry arrays are a `ValueError`. -/
theorem C10_ddm :
    (∀ l, (∃ p, unpackRet true (.tuple l) = .ok p) ↔ l.length = 2) ∧
    (∀ g dg, unpackRet true (.tuple [g, dg]) = .ok (g, some dg)) ∧
    (∀ v, unpackRet true (.val (.scalar v)) = .error .typeError) ∧
    (∀ l, l.length ≠ 2 → unpackRet true (.tuple l) = .error .valueError) ∧
    (∀ v, unpackRet true (.val (.arr [v])) = .error .valueError) := by
  refine ⟨?_, fun _ _ => rfl, fun _ => rfl, ?_, fun _ => rfl⟩
  · intro l
    match l with
    | [] => simp [unpackRet]
    | [_] => simp [unpackRet]
    | [_, _] => simp [unpackRet]
    | _ :: _ :: _ :: _ => simp [unpackRet]
  · intro l hl
    match l, hl with
    | [], _ => rfl
    | [_], _ => rfl
    | [_, _], h => simp at h
    | _ :: _ :: _ :: _, _ => rfl

/-- C04: how many evaluations one call of `evaluate_lsf` adds to the counter when it returns a value: the number
of points without gradient or with DDM, `(1 + nrv)` per point with finite differences; nothing else in the
model changes, and a call that raises adds nothing. -/
theorem C04_counts (fuel : ℕ) (expr : Kwargs → GRet) (opt : LSOptions) (stdv : Fin n → ℝ) (dm : Option String)
    (x : List (Fin n → ℝ)) (ev ev' : Ev D) (r : Except PyErr (EvalOut n))
    (h : evaluateLsf fuel expr opt stdv dm x ev = some (ev', r)) :
    (∀ e, r = .error e → ev'.model = ev.model) ∧
    (∀ out, r = .ok out → ev'.model = ev.model.addCallFunction
      (if dm = none ∧ opt.diffMode ≠ "no" ∧ opt.diffMode ≠ "ddm" then x.length * (1 + n) else x.length)) := by
  have hno : ∀ ev' r, evaluateNogradient fuel expr opt x ev = some (ev', r) →
      (∀ e, r = .error e → ev'.model = ev.model) ∧
      (∀ out, r = .ok out → ev'.model = ev.model.addCallFunction x.length) := by
    intro ev' r h
    simp only [evaluateNogradient] at h
    split at h
    · cases h
    · rename_i heq
      cases h
      exact ⟨fun _ _ => blockLoop_model _ _ _ _ _ _ _ _ _ heq, fun _ h => by cases h⟩
    · rename_i heq
      cases h
      exact ⟨fun _ h => (by cases h), fun _ _ => by rw [blockLoop_model _ _ _ _ _ _ _ _ _ heq]⟩
  simp only [evaluateLsf] at h
  by_cases hmp : opt.multiProc = 0
  · rw [if_pos hmp] at h
    cases h; exact ⟨fun _ _ => rfl, fun _ h => by cases h⟩
  rw [if_neg hmp] at h
  cases dm with
  | some s =>
    rw [if_pos rfl] at h
    have := hno _ _ h
    refine ⟨this.1, fun out ho => ?_⟩
    rw [this.2 out ho, if_neg (by simp)]
  | none =>
  by_cases hmode : opt.diffMode = "no"
  · rw [if_pos hmode] at h
    have := hno _ _ h
    refine ⟨this.1, fun out ho => ?_⟩
    rw [this.2 out ho, if_neg (by simp [hmode])]
  · simp only at h
    rw [if_neg hmode] at h
    by_cases hd : opt.diffMode = "ddm"
    · rw [if_pos hd] at h
      rw [if_neg (by simp [hd])]
      simp only [evaluateDdm] at h
      have hmod := ddmLoop_model expr x.length x 0 [] [] ev
      split at h
      · rename_i heq
        rw [heq] at hmod
        cases h
        exact ⟨fun _ _ => hmod, fun _ h => by cases h⟩
      · rename_i heq
        rw [heq] at hmod
        cases h
        exact ⟨fun _ h => (by cases h), fun _ _ => congrArg (·.addCallFunction x.length) hmod⟩
    · rw [if_neg hd] at h
      rw [if_pos ⟨rfl, hmode, hd⟩]
      match x with
      | [] =>
        simp only [evaluateFfd] at h; cases h
        exact ⟨fun _ _ => rfl, fun _ _ => by simp [addCallFunction]⟩
      | [x0] =>
        simp only [evaluateFfd] at h
        split at h
        · cases h
        · rename_i heq
          cases h
          exact ⟨fun _ _ => blockLoop_model _ _ _ _ _ _ _ _ _ heq, fun _ h => by cases h⟩
        · rename_i heq
          cases h
          refine ⟨fun _ h => (by cases h), fun _ _ => ?_⟩
          simp [blockLoop_model _ _ _ _ _ _ _ _ _ heq]
      | _ :: _ :: _ =>
        simp only [evaluateFfd] at h; cases h
        exact ⟨fun _ _ => rfl, fun _ h => by cases h⟩

/-! Non-vacuity: a reachable two-variable model with a constant, and a pointwise limit state. -/

/-- `StochasticModel()` with a constant `c = 3` and variables `x`, `y`. -/
noncomputable def sampleModel : StochModel Unit ℝ :=
  init.run [.add (.constant "c" 3), .add (.distribution ⟨"x", ()⟩), .add (.distribution ⟨"y", ()⟩)]

/-- `lambda **kw: sum over keywords`, vectorised. -/
noncomputable def sampleExpr (kw : Kwargs) : GRet :=
  match kw with
  | [] => .val (.scalar 0)
  | e :: _ => .val (.arr ((List.range e.2.length).map (fun c => ((column kw c).map Prod.snd).sum)))

theorem sample_pointwise : Pointwise sampleExpr (fun d => (d.map Prod.snd).sum) := by
  intro kw nc hne hl
  cases kw with
  | nil => exact absurd rfl hne
  | cons e t => simp [sampleExpr, hl e List.mem_cons_self]

theorem sample_reachable : Reachable sampleModel := ⟨_, rfl⟩

theorem sample_vars : sampleModel.vars = [("x", ⟨"x", ()⟩), ("y", ⟨"y", ()⟩)] ∧ sampleModel.consts = [("c", 3)] ∧
    sampleModel.nMarg = 2 ∧ sampleModel.getNames = ["c", "x", "y"] := by
  simp [sampleModel, run, step, addVariable, init, nMarg, getNames, Dict.set]

/-- The hypotheses of C05/C06 are met by a concrete model, and the values are the expected ones. -/
example (opt : LSOptions) (hbs : opt.blockSize = 2) : ∃ ev' out,
    evaluateNogradient (n := 2) 5 sampleExpr opt [![1, 2], ![10, 20], ![0, 0]] ⟨sampleModel, []⟩ = some (ev', .ok out) ∧
    out.G = [6, 33, 3] := by
  obtain ⟨ev', out, h1, h2, _⟩ := C05_block_size_invisible (n := 2) sample_pointwise opt (by omega)
    [![1, 2], ![10, 20], ![0, 0]] ⟨sampleModel, []⟩ sample_reachable (by rw [sample_vars.2.2.1])
    (by rw [sample_vars.2.2.2]; simp) 5 (by simp)
  refine ⟨ev', out, h1, ?_⟩
  rw [h2]
  simp [pointArgs, getVariables, getConstants, sample_vars.1, sample_vars.2.1, Dict.keys]
  norm_num

example (opt : LSOptions) (hbs : opt.blockSize = 1000) (hp : opt.ffdpara = 1000) : ∃ ev' out,
    evaluateFfd (n := 2) 3 sampleExpr opt ![2, 5] [![1, 2]] ⟨sampleModel, []⟩ = some (ev', .ok out) ∧
    out.G = [6] ∧ out.grad = [![1, 1]] := by
  obtain ⟨ev', out, h1, h2, h3⟩ := C06_ffd_exact_affine (n := 2) sample_pointwise opt (by omega) (by rw [hp]; norm_num)
    ![2, 5] (by intro j; fin_cases j <;> simp) ![1, 2] ⟨sampleModel, []⟩ sample_reachable (by rw [sample_vars.2.2.1])
    (by rw [sample_vars.2.2.2]; simp) 3 (by simp) 3 ![1, 1] (by
      intro p
      simp [pointArgs, getVariables, getConstants, sample_vars.1, sample_vars.2.1, Dict.keys, Fin.sum_univ_two]
      ring)
  refine ⟨ev', out, h1, ?_, h3⟩
  rw [h2]
  simp [Fin.sum_univ_two]
  norm_num

end Pystra.Props
