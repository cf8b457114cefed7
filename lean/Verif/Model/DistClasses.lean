import Verif.Model.Sensitivity

/-!
The distribution classes as `_make_copy` and `dF_dtheta` see them: which extra arguments each constructor takes and remembers in
`_ctor_kwargs`, and what `type(self)(name, mean, stdv, **kwargs)` builds (src/pystra/distributions/*.py).
-/

namespace Pystra

/-- The classes of src/pystra/distributions/.  `composite` stands for `Maximum`, `MaxParent`, `ZeroInflated` and `ScipyDist`, whose
constructors take a distribution object where the others take the mean. -/
inductive Family where
  | normal
  | lognormal
  | shiftedLognormal
  | uniform
  | gamma
  | shiftedExponential
  | shiftedRayleigh
  | gumbel
  | typeIlargest
  | typeIsmallest
  | chiSquare
  | weibull
  | typeIIIsmallest
  | typeIIlargest
  | beta
  | gevMax
  | gevMin
  | composite
deriving DecidableEq

/-- What scipy's solvers return inside the constructors: `fsolve` in weibull.py 33–38 (a function of `mean - epsilon` and `stdv`), in
typeiilargestvalue.py 25–30 (`mean`, `stdv`), and `fmin` in beta.py 31–38 (`a`, `b`, `mean`, `stdv`).  They are deterministic. -/
structure Solvers where
  /-- weibull.py 33–38 -/
  weibull : ℝ → ℝ → ℝ
  /-- typeiilargestvalue.py 25–30 -/
  typeII : ℝ → ℝ → ℝ
  /-- beta.py 31–38 -/
  beta : ℝ → ℝ → ℝ → ℝ → ℝ

namespace Family

/-- The keyword arguments beyond `mean`, `stdv`, `input_type`, `startpoint`, with their defaults (`none`: required).  These are the keys
of `_ctor_kwargs` (beta.py 23–26, gev.py 36–41 and 107–112, shiftedlognormal.py 26–30, typeiiismallestvalue.py 22–24,
weibull.py 22–24; distribution.py 156–157 otherwise). -/
def keywords : Family → List (String × Option ℝ)
  | shiftedLognormal => [("lower", none)]
  | weibull => [("epsilon", some 0)]
  | typeIIIsmallest => [("epsilon", some 0)]
  | beta => [("a", some 0), ("b", some 1)]
  | gevMax => [("shape", none)]
  | gevMin => [("shape", none)]
  | _ => []

/-- The values of the listed keyword arguments: as given, or the default; a missing required one is a `TypeError`. -/
def bindAll (kw : Dict String ℝ) : List (String × Option ℝ) → Except PyErr (Dict String ℝ)
  | [] => .ok []
  | (name, default) :: rest =>
    match (Dict.get? kw name).or default, bindAll kw rest with
    | none, _ => .error .typeError
    | some _, .error e => .error e
    | some v, .ok r => .ok ((name, v) :: r)

/-- Python's binding of the keyword arguments of a call: an unexpected keyword is a `TypeError`, too. -/
def bind (F : Family) (kw : Dict String ℝ) : Except PyErr (Dict String ℝ) :=
  if kw.any (fun p => ! (F.keywords.map Prod.fst).contains p.1) then .error .typeError else bindAll kw F.keywords

/-- The value of one bound argument. -/
def arg (bound : Dict String ℝ) (name : String) : ℝ := (Dict.get? bound name).getD 0

/-- The body of each constructor.  `TypeIlargestValue` builds a `Gumbel` and takes its frozen object (typeilargestvalue.py 20–31),
`TypeIIIsmallestValue` a `Weibull` (typeiiismallestvalue.py 22–36).  The composite classes refuse a number where they need a
distribution object (maximum.py 24–27, parent.py 29–32, zeroinflated.py 27–30, scipydist.py 22–25). -/
noncomputable def body (S : Solvers) (F : Family) (mean stdv : ℝ) (kw : Dict String ℝ) (inputType : Bool) (sp : Option ℝ) :
    Except PyErr Marginal :=
  match F with
  | normal => Normal.new mean (.fin stdv) sp
  | lognormal => Lognormal.new mean stdv inputType sp
  | shiftedLognormal => ShiftedLognormal.new mean stdv (arg kw "lower") inputType sp
  | uniform => Uniform.new mean stdv inputType sp
  | gamma => GammaDist.new mean stdv inputType sp
  | shiftedExponential => ShiftedExponential.new mean stdv inputType sp
  | shiftedRayleigh => ShiftedRayleigh.new mean stdv inputType sp
  | gumbel => Gumbel.new mean stdv inputType sp
  | typeIlargest => Gumbel.new mean stdv inputType sp
  | typeIsmallest => TypeIsmallest.new mean stdv inputType sp
  | chiSquare => ChiSquare.new mean stdv inputType sp
  | weibull => Weibull.new (S.weibull (mean - arg kw "epsilon") stdv) mean stdv (arg kw "epsilon") inputType sp
  | typeIIIsmallest => Weibull.new (S.weibull (mean - arg kw "epsilon") stdv) mean stdv (arg kw "epsilon") inputType sp
  | typeIIlargest => TypeIIlargest.new (S.typeII mean stdv) mean stdv inputType sp
  | beta => BetaDist.new (S.beta (arg kw "a") (arg kw "b") mean stdv) mean stdv (arg kw "a") (arg kw "b") inputType sp
  | gevMax => GEV.newMax mean stdv (arg kw "shape") inputType sp
  | gevMin => GEV.newMin mean stdv (arg kw "shape") inputType sp
  | composite => .error .exception

/-- `Class(name, mean, stdv, input_type=…, startpoint=…, **kw)`: the object's attributes and methods. -/
noncomputable def construct (S : Solvers) (F : Family) (mean stdv : ℝ) (kw : Dict String ℝ) (inputType : Bool) (sp : Option ℝ) :
    Except PyErr Marginal :=
  match F.bind kw with
  | .error e => .error e
  | .ok bound => F.body S mean stdv bound inputType sp

/-- The overriding `dF_dtheta` of a class, if any: `Normal` (normal.py 90–104), `Lognormal` (lognormal.py 87–126) and, by inheritance,
`ShiftedLognormal` (shiftedlognormal.py 8; its `lamb` and `zeta` are those of the shifted variable). -/
noncomputable def override (lower : ℝ) : Family → Option (Marginal → ℝ → Dict String ℝ)
  | normal => some (fun m x => [("mean", (Normal.dFdTheta m.mean m.stdv x).1), ("std", (Normal.dFdTheta m.mean m.stdv x).2)])
  | lognormal => some (fun m x =>
      let p := Lognormal.params m.mean m.stdv
      [("mean", (Lognormal.dFdTheta m.mean m.stdv p.1 p.2 x).1), ("std", (Lognormal.dFdTheta m.mean m.stdv p.1 p.2 x).2)])
  | shiftedLognormal => some (fun m x =>
      [("mean", (ShiftedLognormal.dFdTheta m.mean m.stdv lower x).1), ("std", (ShiftedLognormal.dFdTheta m.mean m.stdv lower x).2)])
  | _ => none

/-- The keys of `sensitivity_params` beyond `"mean"` and `"std"` (gev.py 74–82, 161–169). -/
def extra : Family → List String
  | gevMax => ["shape"]
  | gevMin => ["shape"]
  | _ => []

/-- The class of an object, as `type(self)` is used by `_make_copy` (distribution.py 422): neither `input_type` nor `startpoint` is
passed on. -/
noncomputable def cls (S : Solvers) (F : Family) (lower : ℝ) : DistCls where
  new := fun mean stdv kw => F.construct S mean stdv kw false none
  extra := F.extra
  dF := F.override lower

/-- The distribution object made by a constructor call. -/
noncomputable def object (S : Solvers) (F : Family) (mean stdv : ℝ) (kw : Dict String ℝ) (inputType : Bool) (sp : Option ℝ) :
    Except PyErr Dist :=
  match F.bind kw with
  | .error e => .error e
  | .ok bound =>
    match F.body S mean stdv bound inputType sp with
    | .error e => .error e
    | .ok m => .ok ⟨F.cls S (arg bound "lower"), m, bound⟩

end Family
end Pystra
