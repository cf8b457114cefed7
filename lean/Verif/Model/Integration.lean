import Verif.Model.Quadrature
import Verif.Model.Distribution

/-!
Model of src/pystra/integration.py.  A two-dimensional `nIP × nIP` array is a function of its two indices.
-/

namespace Pystra.Integration
open Real Finset

/-- `_phi2(Z1, Z2, rho0)` (integration.py 127–144), one entry. -/
noncomputable def phi2 (Z1 Z2 rho0 : ℝ) : ℝ :=
  let c := 1 - rho0 ^ 2
  let Q := Z1 ^ 2 - 2 * rho0 * Z1 * Z2 + Z2 ^ 2
  (2 * π * √c)⁻¹ * exp (-Q / (2 * c))

/-- The same density as written out in `rho_integral` (integration.py 47–55). -/
noncomputable def phi2Inline (Z1 Z2 rho0 : ℝ) : ℝ :=
  1 * (2 * π * √(1 - rho0 ^ 2))⁻¹ * exp (-1 * (2 * (1 - rho0 ^ 2))⁻¹ * (Z1 ^ 2 - 2 * rho0 * Z1 * Z2 + Z2 ^ 2))

/-- `_dphi2_drho0(Z1, Z2, rho0, PHI2)` (integration.py 147–166), one entry. -/
noncomputable def dphi2 (Z1 Z2 rho0 PHI2 : ℝ) : ℝ :=
  let c := 1 - rho0 ^ 2
  let numer := rho0 * c + Z1 * Z2 * (1 + rho0 ^ 2) - rho0 * (Z1 ^ 2 + Z2 ^ 2)
  PHI2 * numer / c ^ 2

/-- The quadrature grid returned by `zi_and_xi`. -/
structure Grid where
  /-- number of points per axis -/
  nIP : ℕ
  /-- `Z1` -/
  Z1 : ℕ → ℕ → ℝ
  /-- `Z2` -/
  Z2 : ℕ → ℕ → ℝ
  /-- `X1` -/
  X1 : ℕ → ℕ → ℝ
  /-- `X2` -/
  X2 : ℕ → ℕ → ℝ
  /-- `WIP` -/
  WIP : ℕ → ℕ → ℝ
  /-- `detJ` -/
  detJ : ℝ

/-- `zi_and_xi(margi, margj, zmax, nIP)` (integration.py 68–124); the products with `v1`, `v2` (vectors of ones)
are the broadcasts `Z1[i, j] = z1[i]`, `Z2[i, j] = z2[j]`. -/
noncomputable def ziAndXi (margi margj : Marginal) (zmax : ℝ) (nIP : ℕ) : Except PyErr Grid :=
  let zmin := -zmax
  let detJ := (zmax - zmin) ^ 2 * 4⁻¹
  match Quadrature.quadratureRule nIP with
  | .error e => .error e
  | .ok (xIP, wIP) =>
    let z1 : ℕ → ℝ := fun i => zmin * 1 + (zmax - zmin) * (xIP.getD i 0 + 1) / 2
    let z2 := z1
    let x1 := fun i => margi.uToX (z1 i)
    let x2 := fun i => margj.uToX (z2 i)
    .ok { nIP := nIP
          Z1 := fun i _ => z1 i
          Z2 := fun _ j => z2 j
          X1 := fun i _ => x1 i
          X2 := fun _ j => x2 j
          WIP := fun i j => wIP.getD i 0 * wIP.getD j 0
          detJ := detJ }

/-- `np.sum` over a grid. -/
noncomputable def gridSum (n : ℕ) (f : ℕ → ℕ → ℝ) : ℝ := ∑ i ∈ range n, ∑ j ∈ range n, f i j

/-- `rho_integral` (integration.py 17–65). -/
noncomputable def rhoIntegral (rho0 : ℝ) (margi margj : Marginal) (g : Grid) : ℝ :=
  gridSum g.nIP (fun i j =>
    ((g.X1 i j - margi.mean) / margi.stdv) * ((g.X2 i j - margj.mean) / margj.stdv) *
      phi2Inline (g.Z1 i j) (g.Z2 i j) rho0 * g.detJ * g.WIP i j)

/-- `drho_drho0` (integration.py 169–196). -/
noncomputable def drhoDrho0 (rho0 : ℝ) (margi margj : Marginal) (g : Grid) : ℝ :=
  gridSum g.nIP (fun i j =>
    let PHI2 := phi2 (g.Z1 i j) (g.Z2 i j) rho0
    let dPHI2 := dphi2 (g.Z1 i j) (g.Z2 i j) rho0 PHI2
    let H := ((g.X1 i j - margi.mean) / margi.stdv) * ((g.X2 i j - margj.mean) / margj.stdv)
    H * dPHI2 * g.detJ * g.WIP i j)

/-- `drho0_dtheta(rho0, margi, margj, …, var_idx, param)` (integration.py 199–286).  `dF x` is
`dist.dF_dtheta(x)[param]` and `(dmu, dsig) = dist._dmoments_dtheta(param)` of the distribution selected by
`var_idx`; `var_idx = 0` is `first = true`. -/
noncomputable def drho0Dtheta (rho0 : ℝ) (margi margj : Marginal) (g : Grid) (first : Bool) (dF : ℝ → ℝ)
    (dmu dsig : ℝ) : ℝ :=
  let Hi := fun i j => (g.X1 i j - margi.mean) / margi.stdv
  let Hj := fun i j => (g.X2 i j - margj.mean) / margj.stdv
  let dist := if first then margi else margj
  let X := if first then g.X1 else g.X2
  let Hthis := if first then Hi else Hj
  let Hother := if first then Hj else Hi
  let sigma := dist.stdv
  let PHI2 := fun i j => phi2 (g.Z1 i j) (g.Z2 i j) rho0
  let dX := fun i j => -dF (X i j) / max (dist.pdf (X i j)) 1e-300
  let dh := fun i j => ((dX i j - dmu) / sigma - Hthis i j * dsig / sigma) * Hother i j
  let numer := gridSum g.nIP (fun i j => dh i j * PHI2 i j * g.detJ * g.WIP i j)
  let denom := gridSum g.nIP (fun i j =>
    (Hi i j * Hj i j) * dphi2 (g.Z1 i j) (g.Z2 i j) rho0 (PHI2 i j) * g.detJ * g.WIP i j)
  let res := -numer / denom
  res

end Pystra.Integration
