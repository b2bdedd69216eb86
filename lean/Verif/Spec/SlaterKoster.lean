import Verif.Model.Basic
import Mathlib.Analysis.SpecialFunctions.Pow.Real
import Mathlib.Algebra.BigOperators.Fin
import Mathlib.LinearAlgebra.Matrix.Trace

/-!
# Specification of two-centre integrals

Independent of the code's table.  Real orbitals are the homogeneous harmonic polynomials below,
normalised so that the member along the bond has value one on the bond axis.  For a bond with
unit direction `r`:

* the sigma part of orbital `a` is its value `cubic a r`;
* the pi part is its gradient along the sphere, normalised by `sqrt (l (l+1) / 2)`;
* what is left of a d shell is delta.
-/

namespace Hotbit

/-- Angular momentum of an orbital. -/
def orbL (a : Fin 9) : ℕ := if a.val = 0 then 0 else if a.val ≤ 3 then 1 else 2

/-- The angular function of each orbital. -/
noncomputable def cubic (a : Fin 9) (r : Vec) : ℝ :=
  ![1, r 0, r 1, r 2,
    Real.sqrt 3 * r 0 * r 1, Real.sqrt 3 * r 1 * r 2, Real.sqrt 3 * r 2 * r 0,
    Real.sqrt 3 / 2 * (r 0 ^ 2 - r 1 ^ 2), r 2 ^ 2 - (r 0 ^ 2 + r 1 ^ 2) / 2] a

/-- The Euclidean gradient of each angular function. -/
noncomputable def gradCubic (a : Fin 9) (r : Vec) : Vec :=
  ![![0, 0, 0], ![1, 0, 0], ![0, 1, 0], ![0, 0, 1],
    ![Real.sqrt 3 * r 1, Real.sqrt 3 * r 0, 0],
    ![0, Real.sqrt 3 * r 2, Real.sqrt 3 * r 1],
    ![Real.sqrt 3 * r 2, 0, Real.sqrt 3 * r 0],
    ![Real.sqrt 3 * r 0, - Real.sqrt 3 * r 1, 0],
    ![- r 0, - r 1, 2 * r 2]] a

/-- Norm of the pi component: `sqrt (l (l+1) / 2)`; never used for s. -/
noncomputable def piNorm (l : ℕ) : ℝ := if l = 2 then Real.sqrt 3 else 1

/-- Gradient along the unit sphere of a homogeneous function. -/
noncomputable def sphGrad (a : Fin 9) (r : Vec) (i : Fin 3) : ℝ :=
  gradCubic a r i - (orbL a : ℝ) * cubic a r * r i

/-- Angular coefficient of the sigma (0), pi (1), delta (2) integral between orbitals `a` and `b`
for bond direction `r`. -/
noncomputable def skCoef (k : Fin 3) (a b : Fin 9) (r : Vec) : ℝ :=
  let sigma := cubic a r * cubic b r
  let pi := (∑ i, sphGrad a r i * sphGrad b r i) / (piNorm (orbL a) * piNorm (orbL b))
  ![sigma, pi, (if a = b then 1 else 0) - sigma - pi] k

/-- Two-centre matrix element from the integrals `V la lb k`. -/
noncomputable def skSpec (V : ℕ → ℕ → Fin 3 → ℝ) (r : Vec) (a b : Fin 9) : ℝ :=
  ∑ k : Fin 3, if k.val ≤ min (orbL a) (orbL b) then V (orbL a) (orbL b) k * skCoef k a b r else 0

/-- Projection of the angular momentum on the bond axis for a bond along z
(negative for the sine-type orbital of a pair). -/
def orbM (a : Fin 9) : ℤ := ![0, 1, -1, 0, -2, -1, 1, 2, 0] a

/-- Symmetric traceless matrix of a quadratic orbital: `cubic (a+4) r = r · (quadOrb a) r`. -/
noncomputable def quadOrb (a : Fin 5) : Mat :=
  ![!![0, Real.sqrt 3 / 2, 0; Real.sqrt 3 / 2, 0, 0; 0, 0, 0],
    !![0, 0, 0; 0, 0, Real.sqrt 3 / 2; 0, Real.sqrt 3 / 2, 0],
    !![0, 0, Real.sqrt 3 / 2; 0, 0, 0; Real.sqrt 3 / 2, 0, 0],
    !![Real.sqrt 3 / 2, 0, 0; 0, -(Real.sqrt 3 / 2), 0; 0, 0, 0],
    !![-(1 / 2), 0, 0; 0, -(1 / 2), 0; 0, 0, 1]] a

/-- How the nine orbitals transform under an orthogonal matrix `R`:
`cubic a (R r) = ∑ b, orbRep R a b * cubic b r` (theorem `cubic_rot`). -/
noncomputable def orbRep (R : Mat) : Matrix (Fin 9) (Fin 9) ℝ := fun a b =>
  if a.val = 0 ∧ b.val = 0 then 1
  else if h : 1 ≤ a.val ∧ a.val ≤ 3 ∧ 1 ≤ b.val ∧ b.val ≤ 3 then
    R ⟨a.val - 1, by omega⟩ ⟨b.val - 1, by omega⟩
  else if h : 4 ≤ a.val ∧ 4 ≤ b.val then
    2 / 3 * Matrix.trace (R.transpose * quadOrb ⟨a.val - 4, by omega⟩ * R
      * quadOrb ⟨b.val - 4, by omega⟩)
  else 0

end Hotbit
