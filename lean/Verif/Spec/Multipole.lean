import Verif.Model.Multipole
import Mathlib.Algebra.Polynomial.Derivative

/-!
# What multipole moments are supposed to be

Associated Legendre functions by the formula of Rodrigues, solid harmonics in spherical coordinates,
and the moments of a set of point charges.
-/

namespace Hotbit

open Polynomial Complex

/-- `(x²-1)^l / (2^l l!)`. -/
noncomputable def rodriguesW (l : ℕ) : ℝ[X] := C (1 / (2 ^ l * (l.factorial : ℝ))) * (X ^ 2 - 1) ^ l

/-- Associated Legendre function (with the sign `(-1)^m`):
`P_l^m(c) = (-1)^m (1-c²)^(m/2) d^(l+m)/dc^(l+m) (c²-1)^l / (2^l l!)`. -/
noncomputable def assocLegendre (l m : ℕ) (c : ℝ) : ℝ :=
  (-1) ^ m * Real.sqrt (1 - c ^ 2) ^ m * ((derivative^[l + m]) (rodriguesW l)).eval c

/-- `cos θ` of a vector. -/
noncomputable def cosTheta (r : Vec) : ℝ := r 2 / norm3 r

/-- Azimuthal angle of a vector. -/
noncomputable def azimuth (r : Vec) : ℝ := arg (r 0 + r 1 * I)

/-- Regular solid harmonic `R_l^m = r^l e^{imφ} P_l^m(cos θ)/(l+m)!`. -/
noncomputable def regularR (l m : ℕ) (r : Vec) : ℂ :=
  ((1 / ((l + m).factorial : ℝ) * norm3 r ^ l * assocLegendre l m (cosTheta r) : ℝ) : ℂ)
    * exp (I * m * azimuth r)

/-- Irregular solid harmonic `I_l^m = (l-m)! r^(-l-1) e^{imφ} P_l^m(cos θ)`. -/
noncomputable def irregularI (l m : ℕ) (r : Vec) : ℂ :=
  ((((l - m).factorial : ℝ) * (1 / norm3 r) ^ (l + 1) * assocLegendre l m (cosTheta r) : ℝ) : ℂ)
    * exp (I * m * azimuth r)

/-- Moment `l`, `m` of the charges `qr` about the point `c`. -/
noncomputable def pointMoment (qr : List (ℝ × Vec)) (c : Vec) (l m : ℕ) : ℂ :=
  (qr.map fun a => (a.1 : ℂ) * starRingEnd ℂ (regularR l m (a.2 - c))).sum

/-- The arrays `M` hold the moments up to `l_max` of the charges `qr` about `c`. -/
def IsMoments (lmax : ℕ) (M : Moments) (qr : List (ℝ × Vec)) (c : Vec) : Prop :=
  (∀ l ≤ lmax, (M.l0 l : ℂ) = pointMoment qr c l 0) ∧
  ∀ l m : ℕ, 1 ≤ m → m ≤ l → l ≤ lmax → M.lm (lm2index l m) = pointMoment qr c l m

/-- Term of degree `l` of the potential described by a local expansion, at distance `t` from its centre. -/
noncomputable def localTerm (L : Moments) (l : ℕ) (t : Vec) : ℝ :=
  L.l0 l * (regularR l 0 (-t)).re + ∑ m ∈ Finset.Icc 1 l,
    2 * (L.lm (lm2index l m) * starRingEnd ℂ (regularR l m (-t))).re

/-- The potential described by a local expansion. -/
noncomputable def localPot (lmax : ℕ) (L : Moments) (t : Vec) : ℝ :=
  ∑ l ∈ Finset.range (lmax + 1), localTerm L l t

/-- Term of degree `l` of the potential of multipole moments, at distance `r` from their centre. -/
noncomputable def multiTerm (M : Moments) (l : ℕ) (r : Vec) : ℝ :=
  M.l0 l * (irregularI l 0 r).re + ∑ m ∈ Finset.Icc 1 l,
    2 * (M.lm (lm2index l m) * irregularI l m r).re

/-- The potential of multipole moments. -/
noncomputable def multiPot (lmax : ℕ) (M : Moments) (r : Vec) : ℝ :=
  ∑ l ∈ Finset.range (lmax + 1), multiTerm M l r

/-- Potential of point charges. -/
noncomputable def chargePot (qr : List (ℝ × Vec)) (x : Vec) : ℝ := (qr.map fun a => a.1 / norm3 (x - a.2)).sum

/-- Bound of the error of an expansion of order `p` for a unit charge: the distances of the charge and of the
observer from their centres add up to `s`, the centres are `R` apart. -/
noncomputable def farError (p : ℕ) (s R : ℝ) : ℝ :=
  R⁻¹ * (s / R) ^ (p + 1) * (s / R / (1 - s / R) ^ 2 + ((p : ℝ) + 2) / (1 - s / R))

/-- Sum of the error bounds of the charges `qr` about `c`, seen at distance `t` from a centre at distance `R`. -/
noncomputable def farSum (p : ℕ) (qr : List (ℝ × Vec)) (c : Vec) (t R : ℝ) : ℝ :=
  (qr.map fun a => |a.1| * farError p (t + norm3 (a.2 - c)) R).sum

end Hotbit
