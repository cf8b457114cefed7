import Verif.Spec.DistClasses
import Verif.Props.SensitivityFD
import Verif.Props.Gev
import Verif.Lemmas.Families

/-! Rebuilding a distribution object from what it reports. -/

namespace Pystra.Family
open Real Distribution Spec

theorem bindAll_keys (kw : Dict String ℝ) (l : List (String × Option ℝ)) {b : Dict String ℝ} (h : bindAll kw l = .ok b) :
    Dict.keys b = l.map Prod.fst := by
  induction l generalizing b with
  | nil => cases h; rfl
  | cons p t ih =>
    obtain ⟨k, d⟩ := p
    unfold bindAll at h
    rcases hv : (Dict.get? kw k).or d with _ | v
    · simp only [hv] at h; cases h
    · rcases ht : bindAll kw t with e | b'
      · simp only [hv, ht] at h; cases h
      · simp only [hv, ht] at h
        cases h
        simp only [Dict.keys, List.map_cons, List.cons.injEq, true_and]
        exact ih ht

theorem bind_keys {F : Family} {kw b : Dict String ℝ} (h : F.bind kw = .ok b) : Dict.keys b = F.keywords.map Prod.fst := by
  unfold bind at h
  split at h
  · cases h
  · exact bindAll_keys kw _ h

theorem bind_of_keys {F : Family} {b : Dict String ℝ} (h : Dict.keys b = F.keywords.map Prod.fst) : F.bind b = .ok b := by
  have two : ∀ {b : Dict String ℝ} {k1 k2 : String}, Dict.keys b = [k1, k2] → ∃ v1 v2, b = [(k1, v1), (k2, v2)] := by
    intro b k1 k2 hb
    match b, hb with
    | [(a, v), (c, w)], hb => 
      simp only [Dict.keys, List.map_cons, List.map_nil, List.cons.injEq, and_true] at hb
      exact ⟨v, w, by rw [hb.1, hb.2]⟩
  have one : ∀ {b : Dict String ℝ} {k1 : String}, Dict.keys b = [k1] → ∃ v1, b = [(k1, v1)] := by
    intro b k1 hb
    match b, hb with
    | [(a, v)], hb => 
      simp only [Dict.keys, List.map_cons, List.map_nil, List.cons.injEq, and_true] at hb
      exact ⟨v, by rw [hb]⟩
  have zero : ∀ {b : Dict String ℝ}, Dict.keys b = [] → b = [] := by
    intro b hb; simpa [Dict.keys] using hb
  cases F
  all_goals
    first
    | (obtain rfl := zero h; rfl)
    | (obtain ⟨v, rfl⟩ := one h; simp [bind, bindAll, keywords, Dict.get?]; done)
    | (obtain ⟨v, w, rfl⟩ := two h; simp [bind, bindAll, keywords, Dict.get?]; done)

theorem bind_bound {F : Family} {kw b : Dict String ℝ} (h : F.bind kw = .ok b) : F.bind b = .ok b := bind_of_keys (bind_keys h)

theorem keywords_plain (F : Family) : (F.keywords.map Prod.fst).Nodup ∧ "mean" ∉ F.keywords.map Prod.fst ∧
    "std" ∉ F.keywords.map Prod.fst := by
  cases F <;> simp [keywords]

theorem ofFrozen_sp (f : Frozen) (sp : Option ℝ) :
    ofFrozen f sp = (ofFrozen f none).map (fun m => { m with startpoint := sp.getD m.mean }) := by
  unfold ofFrozen initMoments
  rcases updateMoments (some f) none none with e | ⟨m, s⟩
  · rfl
  · simp only [startPoint_eq]; rfl

/-- The start point argument only sets the start point. -/
theorem body_sp (S : Solvers) (F : Family) (p q : ℝ) (kw : Dict String ℝ) (inp : Bool) (sp : Option ℝ) :
    F.body S p q kw inp sp = (F.body S p q kw inp none).map (fun m => { m with startpoint := sp.getD m.mean }) := by
  have hl : ∀ l z, Lognormal.ofParams l z sp = (Lognormal.ofParams l z none).map (fun m => { m with startpoint := sp.getD m.mean }) := by
    intro l z
    unfold Lognormal.ofParams initMoments
    dsimp only
    rcases updateMoments (some ((Frozen.lognorm z).locScale 0 (exp l))) none none with e | ⟨m, s⟩
    · rfl
    · simp only [startPoint_eq]; rfl
  cases F
  case normal => simp only [body, Normal.new, initMoments, updateMoments, startPoint_eq]; rfl
  case lognormal =>
    cases inp
    · simp only [body, Lognormal.new, Bool.false_eq_true, if_false]; exact hl _ _
    · simp only [body, Lognormal.new, if_true]; exact hl _ _
  case shiftedLognormal =>
    cases inp
    · simp only [body, ShiftedLognormal.new, Bool.false_eq_true, if_false, initMoments]
      rcases updateMoments (some ((Frozen.lognorm (Lognormal.params (p - arg kw "lower") q).2).locScale (arg kw "lower")
        (exp (Lognormal.params (p - arg kw "lower") q).1))) none none with e | ⟨m, s⟩
      · rfl
      · simp only [startPoint_eq]; rfl
    · rfl
  case uniform =>
    simp only [body, Uniform.new, initMoments]
    rcases updateMoments (some (Frozen.uniform01.locScale (Uniform.bounds p q inp).1
      ((Uniform.bounds p q inp).2 - (Uniform.bounds p q inp).1))) none none with e | ⟨m, s⟩
    · rfl
    · simp only [startPoint_eq]; rfl
  case gevMax =>
    simp only [body, GEV.newMax]
    split
    · rfl
    · exact ofFrozen_sp _ sp
  case gevMin =>
    simp only [body, GEV.newMin]
    split
    · rfl
    · rename_i h
      generalize (if inp = true then (p, q) else GEV.locScale p q (arg kw "shape")) = l
      simp only [initMoments]
      rcases updateMoments (some ((Frozen.genextreme (-(arg kw "shape"))).locScale (-l.1) l.2)) none none with e | ⟨m, s⟩
      · rfl
      · simp only [startPoint_eq]; rfl
  case composite => rfl
  all_goals exact ofFrozen_sp _ sp

/-- What a constructor call and a copy of the object are, in terms of the constructor bodies. -/
theorem copy_of_body {S : Solvers} {F : Family} {p q : ℝ} {kw b : Dict String ℝ} {inp : Bool} {sp : Option ℝ} {m m' : Marginal}
    (hb : F.bind kw = .ok b) (hm : F.body S p q b inp none = .ok m) (hc : F.body S m.mean m.stdv b false none = .ok m') :
    F.object S p q kw inp sp = .ok ⟨F.cls S (arg b "lower"), { m with startpoint := sp.getD m.mean }, b⟩ ∧
      Dist.makeCopy ⟨F.cls S (arg b "lower"), { m with startpoint := sp.getD m.mean }, b⟩ [] = .ok ⟨F.cls S (arg b "lower"), m', b⟩ := by
  have hk := bind_keys hb
  obtain ⟨k1, k2, k3⟩ := keywords_plain F
  rw [← hk] at k1 k2 k3
  constructor
  · unfold object
    rw [hb]
    simp only [body_sp S F p q b inp sp, hm]
    rfl
  · rw [(Props.C52_copy ⟨F.cls S (arg b "lower"), { m with startpoint := sp.getD m.mean }, b⟩ k1 k2 k3 0).1]
    simp only [cls, construct, bind_bound hb, hc]
    rfl

/-- The reduction: an object is rebuilt if the constructor called with what the object reports makes the same thing. -/
theorem rebuilt_of_body {S : Solvers} {F : Family} {p q : ℝ} {kw b : Dict String ℝ} {inp : Bool} {sp : Option ℝ} {m : Marginal}
    (hb : F.bind kw = .ok b) (hm : F.body S p q b inp none = .ok m) (hc : F.body S m.mean m.stdv b false none = .ok m)
    (h0 : m.startpoint = m.mean) :
    ∃ o c, F.object S p q kw inp sp = .ok o ∧ o.marg = { m with startpoint := sp.getD m.mean } ∧ o.kwargs = b ∧
      o.cls = F.cls S (arg b "lower") ∧ o.makeCopy [] = .ok c ∧ Rebuilt o c := by
  obtain ⟨h1, h2⟩ := copy_of_body (sp := sp) hb hm hc
  exact ⟨_, _, h1, rfl, rfl, rfl, h2, rfl, rfl, rfl, rfl, rfl, rfl, rfl, rfl, rfl, rfl, h0⟩

/-- The methods of an object that wraps a frozen distribution. -/
theorem ofFrozen_ok {f : Frozen} {sp : Option ℝ} {m : Marginal} (h : ofFrozen f sp = .ok m) :
    m.pdf = f.pdf ∧ m.cdf = f.cdf ∧ m.ppf = f.ppf ∧ m.uToX = (fun u => f.ppf (StdNormal.cdf u)) := by
  unfold ofFrozen at h
  rcases hi : initMoments (some f) none none sp with e | ⟨a, b, c⟩
  · simp only [hi] at h; cases h
  · simp only [hi] at h; cases h
    exact ⟨rfl, rfl, rfl, rfl⟩

end Pystra.Family
