import Verif.Model.Distribution

/-!
Distribution *objects* as Python has them: mutable, and shared when one wraps another.
`set_location`, `set_scale` (distribution.py 526–572, normal.py 106–118, lognormal.py 128–145, maximum.py 111–123,
parent.py 114–126, zeroinflated.py 135–147), `set_zero_probability` (zeroinflated.py 149–155), `set_exponent`
(parent.py 128–133), `set_lower` (shiftedlognormal.py 79–86), `setStartPoint` (distribution.py 195–199) and `sample`
(distribution.py 309–326, normal.py 59–65).

An object is named by its position in the heap; a wrapper refers to the object it was given (no copy is made), which
exists before it.  Numbers that may be nan are `Option`s.
-/

namespace Pystra.Mutable
open Real Distribution

/-- A `scipy.stats` frozen object: the shape part and the entries `"loc"` and `"scale"` of its `kwds`, which
`set_location`/`set_scale` overwrite in place.  (All pystra classes pass `loc` and `scale` by keyword; a
`ScipyDist` given an object frozen with positional `loc`/`scale` is not modelled.) -/
structure Frz where
  /-- distribution and shape arguments -/
  base : Frozen
  /-- `kwds["loc"]` -/
  loc : ℝ
  /-- `kwds["scale"]` -/
  scale : ℝ

/-- The distribution the frozen object stands for. -/
noncomputable def Frz.frozen (f : Frz) : Frozen := f.base.locScale f.loc f.scale

open Classical in
/-- `(dist_obj.mean(), dist_obj.std())`; `none` if the standard deviation is not finite (scipy returns nan for a scale
that is not positive). -/
noncomputable def Frz.moments (f : Frz) : Option (ℝ × ℝ) :=
  if 0 < f.scale then
    match f.frozen.std with
    | .fin s => some (f.frozen.mean, s)
    | .nonfinite => none
  else none

/-- What differs between the classes. -/
inductive Body where
  /-- every class that inherits all methods: ScipyDist, Gamma, Gumbel, Weibull, Beta, GEVmax, … -/
  | scipy (f : Frz)
  /-- `Uniform` keeps the end points as attributes `a`, `b` (uniform.py 28–29) -/
  | uniform (f : Frz) (a b : ℝ)
  /-- `Normal` has no frozen object -/
  | normal
  /-- `Lognormal`: frozen object, `lamb`, `zeta` -/
  | lognormal (f : Frz) (lamb zeta : ℝ)
  /-- `ShiftedLognormal`: also `lower` -/
  | shiftedLognormal (f : Frz) (lamb zeta lower : ℝ)
  /-- `GEVmin`: the frozen object is the law of `-X` -/
  | gevMin (f : Frz)
  /-- `ZeroInflated`: `self.dist`, `self.p` (`self.q` is always `1 - self.p`) -/
  | zeroInflated (dist : ℕ) (p : ℝ)
  /-- `Maximum`: `self.parent`, `self.N` -/
  | maximum (parent : ℕ) (N : ℝ)
  /-- `MaxParent`: `self.max_dist`, `self.N` -/
  | maxParent (maxDist : ℕ) (N : ℝ)

/-- The object a wrapper refers to. -/
def Body.child : Body → Option ℕ
  | .zeroInflated j _ => some j
  | .maximum j _ => some j
  | .maxParent j _ => some j
  | _ => none

/-- An object: class data and the attributes `mean`, `stdv` (`none`: not finite) and `startpoint`. -/
structure Obj where
  /-- class data -/
  body : Body
  /-- `self.mean`, `self.stdv` -/
  moments : Option (ℝ × ℝ)
  /-- `self.startpoint` -/
  startpoint : Option ℝ

/-- The heap, and how many numbers the global uniform generator has delivered. -/
structure World where
  /-- the objects, in order of creation -/
  objs : List Obj
  /-- position in the stream of `np.random` -/
  pos : ℕ

/-- The outside: `scipy.optimize.fmin` (given its start point) and the stream of `np.random.random`/`rand`. -/
structure Env where
  /-- `opt.fmin(f, x0)[0]` -/
  fmin : ℝ → Minimiser
  /-- the uniform numbers -/
  υ : ℕ → ℝ

variable (E : Env)

open Classical in
/-- The methods of an object with attributes `m`, `s`, `sp`, given the objects it refers to (`look`); the lines are
those cited at the constructors in `Model/Distribution.lean`.  `none`: calls return nan. -/
noncomputable def methods (look : ℕ → Option Marginal) (b : Body) (m s sp : ℝ) : Option Marginal :=
  match b with
  | .scipy f => if 0 < f.scale then some
      { mean := m, stdv := s, startpoint := sp, pdf := f.frozen.pdf, cdf := f.frozen.cdf, ppf := f.frozen.ppf
        uToX := fun u => f.frozen.ppf (StdNormal.cdf u)
        xToU := fun x => StdNormal.ppf (f.frozen.cdf x)
        jac := baseJac f.frozen.pdf } else none
  | .uniform f a b => if 0 < f.scale then some
      { mean := m, stdv := s, startpoint := sp, pdf := f.frozen.pdf, cdf := f.frozen.cdf, ppf := f.frozen.ppf
        uToX := fun u => a + (b - a) * StdNormal.cdf u
        xToU := fun x => StdNormal.ppf (f.frozen.cdf x)
        jac := baseJac f.frozen.pdf } else none
  | .normal => some
      { mean := m, stdv := s, startpoint := sp, pdf := Normal.pdf m s, cdf := Normal.cdf m s
        ppf := Normal.ppf m s, uToX := Normal.uToX m s, xToU := Normal.xToU m s, jac := Normal.jac s }
  | .lognormal f lamb zeta => some
      { mean := m, stdv := s, startpoint := sp, pdf := Lognormal.pdf lamb zeta, cdf := Lognormal.cdf lamb zeta
        ppf := f.frozen.ppf, uToX := Lognormal.uToX lamb zeta, xToU := Lognormal.xToU lamb zeta
        jac := baseJac (Lognormal.pdf lamb zeta) }
  | .shiftedLognormal f lamb zeta lower => some
      { mean := m, stdv := s, startpoint := sp
        pdf := fun x => Lognormal.pdf lamb zeta (x - lower)
        cdf := fun x => Lognormal.cdf lamb zeta (x - lower)
        ppf := f.frozen.ppf
        uToX := fun u => Lognormal.uToX lamb zeta u + lower
        xToU := fun x => Lognormal.xToU lamb zeta (x - lower)
        jac := baseJac (fun x => Lognormal.pdf lamb zeta (x - lower)) }
  | .gevMin f => if 0 < f.scale then some
      { mean := m, stdv := s, startpoint := sp
        pdf := fun x => f.frozen.pdf (-x)
        cdf := fun x => 1 - f.frozen.cdf (-x)
        ppf := fun u => -f.frozen.ppf u
        uToX := fun u => f.frozen.ppf (StdNormal.cdf u)
        xToU := fun x => StdNormal.ppf (1 - f.frozen.cdf (-x))
        jac := baseJac (fun x => f.frozen.pdf (-x)) } else none
  | .zeroInflated j p => (look j).map fun d =>
      { mean := m, stdv := s, startpoint := sp
        pdf := ZeroInflated.pdf d p, cdf := ZeroInflated.cdf d p, ppf := ZeroInflated.ppf d p
        uToX := fun u => ZeroInflated.ppf d p (StdNormal.cdf u)
        xToU := fun x => StdNormal.ppf (ZeroInflated.cdf d p x)
        jac := baseJac (ZeroInflated.pdf d p) }
  | .maximum j N => (look j).map fun d =>
      { mean := m, stdv := s, startpoint := sp
        pdf := Maximum.pdf d N, cdf := Maximum.cdf d N, ppf := ppfBySearch (E.fmin d.mean) (Maximum.cdf d N)
        uToX := fun u => ppfBySearch (E.fmin d.mean) (Maximum.cdf d N) (StdNormal.cdf u)
        xToU := fun x => StdNormal.ppf (Maximum.cdf d N x)
        jac := baseJac (Maximum.pdf d N) }
  | .maxParent j N => (look j).map fun d =>
      { mean := m, stdv := s, startpoint := sp
        pdf := MaxParent.pdf d N, cdf := MaxParent.cdf d N, ppf := ppfBySearch (E.fmin d.mean) (MaxParent.cdf d N)
        uToX := fun u => ppfBySearch (E.fmin d.mean) (MaxParent.cdf d N) (StdNormal.cdf u)
        xToU := fun x => StdNormal.ppf (MaxParent.cdf d N x)
        jac := baseJac (MaxParent.pdf d N) }

/-- What a user (or an analysis) sees of object `i` now: its attributes and methods.  `none` when some of them are
nan. -/
noncomputable def view (w : List Obj) (i : ℕ) : Option Marginal :=
  (w[i]?).bind fun o => o.moments.bind fun ms => o.startpoint.bind fun sp =>
    methods E (fun j => if _h : j < i then view w j else none) o.body ms.1 ms.2 sp
termination_by i

/-- `_get_stats` of `Maximum` and `MaxParent` (maximum.py 98–109, parent.py 101–112): sample mean and (population)
standard deviation of the quantiles at the next 100 uniform numbers. -/
noncomputable def simStats (ppf : ℝ → ℝ) (pos : ℕ) : ℝ × ℝ :=
  let x := fun k : Fin 100 => ppf (E.υ (pos + k))
  let mean := (∑ k, x k) / 100
  (mean, √((∑ k, (x k - mean) ^ 2) / 100))

/-- `_update_stats` / `update_stats` (zeroinflated.py 157–163, maximum.py 125–132, parent.py 135–142): mean and
standard deviation from the wrapped object's current state; the start point is not touched. -/
noncomputable def newStats (w : World) (b : Body) : Option (ℝ × ℝ) × ℕ :=
  match b with
  | .zeroInflated j p => ((view E w.objs j).map fun d => ZeroInflated.stats d p, w.pos)
  | .maximum j N => ((view E w.objs j).map fun d =>
      simStats E (ppfBySearch (E.fmin d.mean) (Maximum.cdf d N)) w.pos, w.pos + 100)
  | .maxParent j N => ((view E w.objs j).map fun d =>
      simStats E (ppfBySearch (E.fmin d.mean) (MaxParent.cdf d N)) w.pos, w.pos + 100)
  | _ => (none, w.pos)

/-- `self._update_stats()` on object `i` with record `o`. -/
noncomputable def refresh (w : World) (i : ℕ) (o : Obj) : World :=
  let r := newStats E w o.body
  { objs := w.objs.set i { o with moments := r.1 }, pos := r.2 }

/-- Which of the two common setters. -/
inductive Param where
  /-- `set_location` -/
  | loc
  /-- `set_scale` -/
  | scale
deriving DecidableEq

/-- The entry of `kwds` written by the base class setters (distribution.py 545, 569). -/
def Param.upd (k : Param) (v : ℝ) (f : Frz) : Frz :=
  match k with
  | .loc => { f with loc := v }
  | .scale => { f with scale := v }

/-- The moments after the setters of `Normal` and `Lognormal`, which mean mean and standard deviation. -/
def Param.put (k : Param) (v : ℝ) (ms : ℝ × ℝ) : ℝ × ℝ :=
  match k with
  | .loc => (v, ms.2)
  | .scale => (ms.1, v)

/-- `_update_moments()` after a change of the frozen object (distribution.py 170–181): the attributes are assigned
first, then a non-finite standard deviation raises. -/
noncomputable def rebuilt (o : Obj) (b : Body) (f : Frz) : Obj × Option PyErr :=
  ({ o with body := b, moments := f.moments }, if f.moments.isSome then none else some .exception)

/-- `set_location(v)` / `set_scale(v)` on an object that wraps no other object: base class (distribution.py 526–572),
`Normal` (normal.py 106–118), `Lognormal` (lognormal.py 128–145) and, by inheritance, `ShiftedLognormal`, whose
`_update_params` subtracts `lower` (shiftedlognormal.py 50–53). -/
noncomputable def setLeaf (k : Param) (v : ℝ) (o : Obj) : Obj × Option PyErr :=
  match o.body with
  | .scipy f => rebuilt o (.scipy (k.upd v f)) (k.upd v f)
  | .uniform f a b => rebuilt o (.uniform (k.upd v f) a b) (k.upd v f)
  | .gevMin f => rebuilt o (.gevMin (k.upd v f)) (k.upd v f)
  | .normal => ({ o with moments := o.moments.map (k.put v) }, none)
  | .lognormal f lamb zeta =>
    match o.moments with
    | none => (o, none)
    | some ms =>
      let ms := k.put v ms
      let p := Lognormal.params ms.1 ms.2
      ({ o with body := .lognormal f p.1 p.2, moments := some ms }, none)
  | .shiftedLognormal f lamb zeta lower =>
    match o.moments with
    | none => (o, none)
    | some ms =>
      let ms := k.put v ms
      let p := Lognormal.params (ms.1 - lower) ms.2
      ({ o with body := .shiftedLognormal f p.1 p.2 lower, moments := some ms }, none)
  | _ => (o, none)

/-- `set_location(v)` / `set_scale(v)` on any object: a wrapper passes the call on to the object it wraps and then
refreshes its own statistics (maximum.py 111–123, parent.py 114–126, zeroinflated.py 135–147); an exception from the
wrapped object propagates before the refresh. -/
noncomputable def set (k : Param) (v : ℝ) (w : World) (i : ℕ) : World × Option PyErr :=
  match w.objs[i]? with
  | none => (w, some .nameError)
  | some o =>
    match o.body.child with
    | none => ({ w with objs := w.objs.set i (setLeaf k v o).1 }, (setLeaf k v o).2)
    | some j =>
      if _h : j < i then
        if (set k v w j).2 = none then (refresh E (set k v w j).1 i o, none) else set k v w j
      else (w, some .nameError)
termination_by i

/-- `set_zero_probability(p)` (zeroinflated.py 149–155); other classes have no such method. -/
noncomputable def setZero (p : ℝ) (w : World) (i : ℕ) : World × Option PyErr :=
  match w.objs[i]? with
  | none => (w, some .nameError)
  | some o =>
    match o.body with
    | .zeroInflated j _ => (refresh E w i { o with body := .zeroInflated j p }, none)
    | _ => (w, some .attributeError)

/-- `set_exponent(N)` (parent.py 128–133); only `MaxParent` has it. -/
noncomputable def setExponent (N : ℝ) (w : World) (i : ℕ) : World × Option PyErr :=
  match w.objs[i]? with
  | none => (w, some .nameError)
  | some o =>
    match o.body with
    | .maxParent j _ => (refresh E w i { o with body := .maxParent j N }, none)
    | _ => (w, some .attributeError)

/-- `set_lower(lower)` (shiftedlognormal.py 79–86); only `ShiftedLognormal` has it. -/
noncomputable def setLower (lower : ℝ) (w : World) (i : ℕ) : World × Option PyErr :=
  match w.objs[i]? with
  | none => (w, some .nameError)
  | some o =>
    match o.body, o.moments with
    | .shiftedLognormal f _ _ _, some ms =>
      let p := Lognormal.params (ms.1 - lower) ms.2
      ({ w with objs := w.objs.set i { o with body := .shiftedLognormal f p.1 p.2 lower } }, none)
    | .shiftedLognormal _ _ _ _, none => (w, none)
    | _, _ => (w, some .attributeError)

/-- `setStartPoint(startpoint)` (distribution.py 195–199). -/
def setStart (sp : Option ℝ) (w : World) (i : ℕ) : World × Option PyErr :=
  match w.objs[i]? with
  | none => (w, some .nameError)
  | some o =>
    let o' := { o with startpoint := sp.or (o.moments.map Prod.fst) }
    ({ w with objs := w.objs.set i o' }, none)

/-- `sample(n)` (distribution.py 309–326, normal.py 59–65): `ppf` at the next `n` uniform numbers (`none`: nan). -/
noncomputable def sample (n : ℕ) (w : World) (i : ℕ) : Option (List ℝ) × World :=
  ((view E w.objs i).map fun m => (List.range n).map fun k => m.ppf (E.υ (w.pos + k)), { w with pos := w.pos + n })

/-- The classes, with the parameters computed by their constructors (`Model/Distribution.lean`). -/
inductive Ctor where
  /-- `ScipyDist(frozen)` and all classes that only build a frozen object -/
  | scipy (f : Frz)
  /-- `Uniform` on `[a, b]` -/
  | uniform (a b : ℝ)
  /-- `Normal` -/
  | normal (mean stdv : ℝ)
  /-- `Lognormal` with parameters `lamb`, `zeta` -/
  | lognormal (lamb zeta : ℝ)
  /-- `ShiftedLognormal` -/
  | shiftedLognormal (mean stdv lower : ℝ)
  /-- `GEVmin` with given location and scale and the moments it records -/
  | gevMin (loc scale shape mean stdv : ℝ)
  /-- `ZeroInflated(dist, p)` -/
  | zeroInflated (dist : ℕ) (p : ℝ)
  /-- `Maximum(parent, N)` -/
  | maximum (parent : ℕ) (N : ℝ)
  /-- `MaxParent(max_dist, N)` -/
  | maxParent (maxDist : ℕ) (N : ℝ)

/-- A successful constructor call: the new object goes to the end of the heap. -/
def alloc (w : World) (o : Obj) : World × Option PyErr := ({ w with objs := w.objs ++ [o] }, none)

/-- The base class constructor (distribution.py 144–164) for an object with a frozen distribution. -/
noncomputable def initFrz (w : World) (b : Body) (f : Frz) (sp : Option ℝ) : World × Option PyErr :=
  match f.moments with
  | none => (w, some .exception)
  | some ms => alloc w { body := b, moments := some ms, startpoint := sp.or (some ms.1) }

/-- The base class constructor (distribution.py 144–164) for an object with given statistics. -/
noncomputable def initStats (w : World) (b : Body) (r : Option (ℝ × ℝ) × ℕ) (sp : Option ℝ) : World × Option PyErr :=
  match r.1 with
  | none => ({ w with pos := r.2 }, some .exception)
  | some ms => alloc { w with pos := r.2 } { body := b, moments := some ms, startpoint := sp.or (some ms.1) }

open Classical in
/-- The constructors (line numbers in `Model/Distribution.lean`). -/
noncomputable def construct (c : Ctor) (sp : Option ℝ) (w : World) : World × Option PyErr :=
  match c with
  | .scipy f => initFrz w (.scipy f) f sp
  | .uniform a b => let f : Frz := ⟨Frozen.uniform01, a, b - a⟩; initFrz w (.uniform f a b) f sp
  | .normal m s => alloc w { body := .normal, moments := some (m, s), startpoint := sp.or (some m) }
  | .lognormal l z => let f : Frz := ⟨Frozen.lognorm z, 0, exp l⟩; initFrz w (.lognormal f l z) f sp
  | .shiftedLognormal m s lower =>
    let p := Lognormal.params (m - lower) s
    let f : Frz := ⟨Frozen.lognorm p.2, lower, exp p.1⟩
    initFrz w (.shiftedLognormal f p.1 p.2 lower) f sp
  | .gevMin loc scale shape m s =>
    let f : Frz := ⟨Frozen.genextreme (-shape), -loc, scale⟩
    match f.moments with
    | none => (w, some .exception)
    | some _ => alloc w { body := .gevMin f, moments := some (m, s), startpoint := sp.or (some m) }
  | .zeroInflated j p =>
    if p < 0 ∨ p ≥ 1 then (w, some .exception)
    else initStats w (.zeroInflated j p) (newStats E w (.zeroInflated j p)) sp
  | .maximum j N =>
    if N < 1 then (w, some .exception) else initStats w (.maximum j N) (newStats E w (.maximum j N)) sp
  | .maxParent j N =>
    if N < 1 then (w, some .exception) else initStats w (.maxParent j N) (newStats E w (.maxParent j N)) sp

/-- One call a user can make. -/
inductive Op where
  /-- a constructor -/
  | new (c : Ctor) (sp : Option ℝ)
  /-- `obj.set_location(v)` / `obj.set_scale(v)` -/
  | set (k : Param) (i : ℕ) (v : ℝ)
  /-- `obj.set_zero_probability(p)` -/
  | setZero (i : ℕ) (p : ℝ)
  /-- `obj.set_exponent(N)` -/
  | setExponent (i : ℕ) (N : ℝ)
  /-- `obj.set_lower(lower)` -/
  | setLower (i : ℕ) (lower : ℝ)
  /-- `obj.setStartPoint(sp)` -/
  | setStart (i : ℕ) (sp : Option ℝ)
  /-- `obj.sample(n)` -/
  | sample (i : ℕ) (n : ℕ)

/-- One call. -/
noncomputable def Op.run (w : World) : Op → World × Option PyErr
  | .new c sp => construct E c sp w
  | .set k i v => Mutable.set E k v w i
  | .setZero i p => Mutable.setZero E p w i
  | .setExponent i N => Mutable.setExponent E N w i
  | .setLower i l => Mutable.setLower l w i
  | .setStart i sp => Mutable.setStart sp w i
  | .sample i n => ((Mutable.sample E n w i).2, none)

/-- A program: calls in sequence, exceptions caught by the user between them. -/
noncomputable def runAll : World → List Op → World
  | w, [] => w
  | w, op :: ops => runAll (op.run E w).1 ops

end Pystra.Mutable
