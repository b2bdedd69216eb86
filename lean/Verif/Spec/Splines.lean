import Verif.Model.Basic
import Mathlib.Analysis.Calculus.Deriv.Basic
import Mathlib.Analysis.SpecialFunctions.Pow.Real

/-!
# Specification of natural cubic splines
-/

namespace Hotbit

/-- The first `n` grid points increase. -/
def GridInc (n : ℕ) (x : ℕ → ℝ) : Prop := ∀ i, i + 1 < n → x i < x (i + 1)

/-- The second derivatives `d` solve the equations of the natural cubic spline through `(x,y)`:
continuity of the first derivative at interior nodes, zero at the ends. -/
structure NaturalEquations (n : ℕ) (x y d : ℕ → ℝ) : Prop where
  first : d 0 = 0
  last : d (n - 1) = 0
  interior : ∀ i, i + 2 < n →
    (x (i + 1) - x i) / 6 * d i + (x (i + 2) - x i) / 3 * d (i + 1) + (x (i + 2) - x (i + 1)) / 6 * d (i + 2)
      = (y (i + 2) - y (i + 1)) / (x (i + 2) - x (i + 1)) - (y (i + 1) - y i) / (x (i + 1) - x i)

/-- `f` with derivatives `f1`, `f2` is, inside the range of the grid, the natural cubic spline: twice
differentiable, the second derivative continuous and linear between nodes and zero at the ends. -/
structure NaturalSplineOn (n : ℕ) (x y : ℕ → ℝ) (f f1 f2 : ℝ → ℝ) : Prop where
  interpolates : ∀ i, 0 < i → i + 1 < n → f (x i) = y i
  deriv : ∀ t, x 0 < t → t < x (n - 1) → HasDerivAt f (f1 t) t
  deriv2 : ∀ t, x 0 < t → t < x (n - 1) → HasDerivAt f1 (f2 t) t
  linear : ∀ i, i + 1 < n → ∃ α β, (∀ t, x i < t → t < x (i + 1) → f2 t = α + β * t) ∧
    (i = 0 → α + β * x 0 = 0) ∧ (i + 2 = n → α + β * x (n - 1) = 0)
  continuous : ∀ t, x 0 < t → t < x (n - 1) → ContinuousAt f2 t
  leftEnd : Filter.Tendsto f (nhdsWithin (x 0) (Set.Ioi (x 0))) (nhds (y 0))
  rightEnd : Filter.Tendsto f (nhdsWithin (x (n - 1)) (Set.Iio (x (n - 1)))) (nhds (y (n - 1)))

/-- A uniform grid. -/
def Uniform (n : ℕ) (x : ℕ → ℝ) : Prop := ∃ h, 0 < h ∧ ∀ i < n, x i = x 0 + i * h

/-- A power grid `x[i]=xmin+(i/(n-1))^p*(xmax-xmin)`. -/
def PowerGrid (p : ℝ) (n : ℕ) (x : ℕ → ℝ) : Prop :=
  0 < p ∧ x 0 < x (n - 1) ∧ ∀ i < n, x i = x 0 + ((i : ℝ) / ((n : ℝ) - 1)) ^ p * (x (n - 1) - x 0)

end Hotbit
