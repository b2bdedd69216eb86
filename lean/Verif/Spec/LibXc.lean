import Verif.Model.LibXc
import Mathlib.Analysis.Calculus.ContDiff.Basic
import Mathlib.MeasureTheory.Integral.IntervalIntegral.Basic

/-!
# What is expected of exchange-correlation functionals

The functionals that can be asked for, the energy of a spherical density and what it means for a function
to be the potential of an energy.
-/

namespace Hotbit

/-- The functionals listed as available. -/
def listedFunctionals : List String :=
  ["gl", "hl", "pw92", "pz", "svwn", "teter93", "zlp", "b96pbe", "beefvdw", "blyp", "bp86", "gam", "pbe",
   "pbeint", "pw86pbe", "pw91", "revpbe", "rpbe", "sogga", "sogga11", "vv10", "xlyp"]

/-- A name asks for `key` when it differs at most in upper and lower case. -/
def AsksFor (name key : String) : Prop := name.toList.map Char.toLower = key.toList

/-- The parts of a functional, each with its flag for GGA. -/
def XcFunctional.parts : XcFunctional → List (List Char × Bool)
  | .single n g => [(n, g)]
  | .pair x gx c gc => [(x, gx), (c, gc)]

/-- The energy per volume at density `n` with squared gradient `s`: density times energy per particle,
summed over the parts of the functional. -/
noncomputable def xcEnergyDensity (L : PyLibXc) (F : XcFunctional) (n s : ℝ) : ℝ :=
  (F.parts.map fun p => n * L.zk p.1 n s).sum

/-- The energy of a spherical density between the radii `a` and `b`. -/
noncomputable def xcShellEnergy (L : PyLibXc) (F : XcFunctional) (a b : ℝ) (n : ℝ → ℝ) : ℝ :=
  ∫ r in a..b, 4 * Real.pi * r ^ 2 * xcEnergyDensity L F (n r) (deriv n r ^ 2)

/-- `v` is the potential of the energy `E` at the density `n` between `a` and `b`: for every smooth change
`h` of the density that vanishes at both radii, the energy changes to first order by the integral of `v h`
over the volume. -/
def IsPotential (E : (ℝ → ℝ) → ℝ) (a b : ℝ) (n v : ℝ → ℝ) : Prop :=
  ∀ h : ℝ → ℝ, ContDiff ℝ 1 h → h a = 0 → h b = 0 →
    HasDerivAt (fun t : ℝ => E fun r => n r + t * h r) (∫ r in a..b, 4 * Real.pi * r ^ 2 * (v r * h r)) 0

/-- What `pylibxc` promises on a set `U` of densities and squared gradients: the energy per volume is smooth,
`vrho` and `vsigma` are its derivatives, and a functional that is not a GGA does not look at the gradient. -/
structure XcPromise (L : PyLibXc) (name : List Char) (gga : Bool) (U : Set (ℝ × ℝ)) : Prop where
  smooth : ContDiffOn ℝ 2 (fun p : ℝ × ℝ => p.1 * L.zk name p.1 p.2) U
  vrho : ∀ p ∈ U, HasDerivAt (fun x => x * L.zk name x p.2) (L.vrho name p.1 p.2) p.1
  vsigma : ∀ p ∈ U, HasDerivAt (fun s => p.1 * L.zk name p.1 s) (L.vsigma name p.1 p.2) p.2
  lda : gga = false → ∀ x s, L.zk name x s = L.zk name x 0 ∧ L.vrho name x s = L.vrho name x 0 ∧
    L.vsigma name x s = 0

end Hotbit
