import Mathlib.Algebra.Polynomial.Derivative
import Mathlib.Analysis.Complex.Trigonometric
import Mathlib.Analysis.SpecialFunctions.Trigonometric.Basic

/-!
# Spherical harmonics as in textbooks

Legendre polynomials by the formula of Rodrigues, associated Legendre functions with the phase `(-1)^m` of Condon and Shortley,
and harmonics normalised on the sphere.
-/

namespace Hotbit

open Real Polynomial ComplexConjugate

/-- `P_l = 1/(2^l l!) d^l/dx^l (x² - 1)^l`. -/
noncomputable def legendrePoly (l : ℕ) : ℝ[X] :=
  C (1 / (2 ^ l * (l.factorial : ℝ))) * derivative^[l] ((X ^ 2 - 1) ^ l)

/-- `P_l^m(cos θ) = (-1)^m sin^m θ P_l^(m)(cos θ)` for `m ≥ 0`. -/
noncomputable def legendreAssoc (l m : ℕ) (θ : ℝ) : ℝ :=
  (-1) ^ m * sin θ ^ m * (derivative^[m] (legendrePoly l)).eval (cos θ)

/-- `Y_l^m` for `m ≥ 0`. -/
noncomputable def harmonicNonneg (l m : ℕ) (θ φ : ℝ) : ℂ :=
  (√((2 * l + 1) / (4 * π) * ((l - m).factorial / (l + m).factorial)) * legendreAssoc l m θ : ℝ)
    * Complex.exp (m * φ * Complex.I)

/-- `Y_l^m`, for negative `m` from `Y_l^{-m} = (-1)^m conj (Y_l^m)`. -/
noncomputable def harmonic (l : ℕ) (m : ℤ) (θ φ : ℝ) : ℂ :=
  if 0 ≤ m then harmonicNonneg l m.natAbs θ φ
  else (-1) ^ m.natAbs * conj (harmonicNonneg l m.natAbs θ φ)

end Hotbit
