import Verif.Model.GenericCalib

/-! Specification vocabulary for the setters of `GenericModel` (C61): which call stores what. -/

namespace Pystra.Spec

/-- The attributes. -/
inductive GAttr where
  | phi | gamma_g | gamma_p | gamma_q | wR | wS | R | G | P | Q | Rk | Gk | Pk | Qk

/-- A number or a distribution. -/
inductive GVal (D : Type) where
  | num (x : ℝ)
  | dist (d : DistObj D)

/-- A setter call, with the arguments in the order of the signature in calibration.py. -/
inductive GCall (D : Type) where
  | set_factors (phi gamma_g gamma_p gamma_q : ℝ)
  | set_distributions (wR wS R G P Q : DistObj D)
  | set_nominals (Rk Gk Pk Qk : ℝ)
  | set_model_errors (wR wS : DistObj D)
  | set_resistance_params (R : DistObj D) (Rk phi : ℝ)
  | set_dead_params (G : DistObj D) (Gk gamma_g : ℝ)
  | set_permanent_params (P : DistObj D) (Pk gamma_p : ℝ)
  | set_live_params (Q : DistObj D) (Qk gamma_q : ℝ)

variable {D : Type}

/-- What a call is documented to assign: to every attribute it names. -/
def GCall.assigns : GCall D → GAttr → Option (GVal D)
  | .set_factors x _ _ _, .phi => some (.num x)
  | .set_factors _ x _ _, .gamma_g => some (.num x)
  | .set_factors _ _ x _, .gamma_p => some (.num x)
  | .set_factors _ _ _ x, .gamma_q => some (.num x)
  | .set_distributions x _ _ _ _ _, .wR => some (.dist x)
  | .set_distributions _ x _ _ _ _, .wS => some (.dist x)
  | .set_distributions _ _ x _ _ _, .R => some (.dist x)
  | .set_distributions _ _ _ x _ _, .G => some (.dist x)
  | .set_distributions _ _ _ _ x _, .P => some (.dist x)
  | .set_distributions _ _ _ _ _ x, .Q => some (.dist x)
  | .set_nominals x _ _ _, .Rk => some (.num x)
  | .set_nominals _ x _ _, .Gk => some (.num x)
  | .set_nominals _ _ x _, .Pk => some (.num x)
  | .set_nominals _ _ _ x, .Qk => some (.num x)
  | .set_model_errors x _, .wR => some (.dist x)
  | .set_model_errors _ x, .wS => some (.dist x)
  | .set_resistance_params x _ _, .R => some (.dist x)
  | .set_resistance_params _ x _, .Rk => some (.num x)
  | .set_resistance_params _ _ x, .phi => some (.num x)
  | .set_dead_params x _ _, .G => some (.dist x)
  | .set_dead_params _ x _, .Gk => some (.num x)
  | .set_dead_params _ _ x, .gamma_g => some (.num x)
  | .set_permanent_params x _ _, .P => some (.dist x)
  | .set_permanent_params _ x _, .Pk => some (.num x)
  | .set_permanent_params _ _ x, .gamma_p => some (.num x)
  | .set_live_params x _ _, .Q => some (.dist x)
  | .set_live_params _ x _, .Qk => some (.num x)
  | .set_live_params _ _ x, .gamma_q => some (.num x)
  | _, _ => none

/-- Reading an attribute. -/
def read (m : GenericModel D) : GAttr → Option (GVal D)
  | .phi => m.phi.map .num
  | .gamma_g => m.gammaG.map .num
  | .gamma_p => m.gammaP.map .num
  | .gamma_q => m.gammaQ.map .num
  | .wR => m.wR.map .dist
  | .wS => m.wS.map .dist
  | .R => m.R.map .dist
  | .G => m.G.map .dist
  | .P => m.P.map .dist
  | .Q => m.Q.map .dist
  | .Rk => m.Rk.map .num
  | .Gk => m.Gk.map .num
  | .Pk => m.Pk.map .num
  | .Qk => m.Qk.map .num

/-- Making a call. -/
def GCall.apply (m : GenericModel D) : GCall D → GenericModel D
  | .set_factors a b c d => m.setFactors a b c d
  | .set_distributions a b c d e f => m.setDistributions a b c d e f
  | .set_nominals a b c d => m.setNominals a b c d
  | .set_model_errors a b => m.setModelErrors a b
  | .set_resistance_params a b c => m.setResistanceParams a b c
  | .set_dead_params a b c => m.setDeadParams a b c
  | .set_permanent_params a b c => m.setPermanentParams a b c
  | .set_live_params a b c => m.setLiveParams a b c

end Pystra.Spec
