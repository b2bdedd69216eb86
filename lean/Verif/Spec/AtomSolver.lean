import Mathlib.Analysis.SpecialFunctions.Pow.Real
import Mathlib.Analysis.SpecialFunctions.Log.Basic
import Mathlib.Analysis.SpecialFunctions.Trigonometric.Basic

/-!
# What the atom program should compute
-/

namespace Hotbit

/-- The radius of the sphere that holds one electron. -/
noncomputable def wignerSeitz (n : ℝ) : ℝ := (3 / (4 * Real.pi * n)) ^ (1 / 3 : ℝ)

/-- Exchange energy per electron of the homogeneous electron gas. -/
noncomputable def ldaExchange (n : ℝ) : ℝ := -3 / 4 * (3 * n / Real.pi) ^ (1 / 3 : ℝ)

/-- The interpolation formula of Perdew and Wang (1992), eq. 10 with p = 1:
`-2A(1+α₁ rₛ) ln(1+1/(2A(β₁ rₛ^½+β₂ rₛ+β₃ rₛ^(3/2)+β₄ rₛ²)))`. -/
noncomputable def pwFormula (A a1 b1 b2 b3 b4 rs : ℝ) : ℝ :=
  -2 * A * (1 + a1 * rs) *
    Real.log (1 + 1 / (2 * A * (b1 * rs ^ (1 / 2 : ℝ) + b2 * rs + b3 * rs ^ (3 / 2 : ℝ) + b4 * rs ^ (2 : ℝ))))

/-- The left side of `c₂u'' + c₁u' + c₀u = 0` at grid point `i`, with central differences of spacing `dx`. -/
noncomputable def fdResidual (dx : ℝ) (c2 c1 c0 u : ℕ → ℝ) (i : ℕ) : ℝ :=
  c2 i * ((u (i + 1) - 2 * u i + u (i - 1)) / dx ^ 2) + c1 i * ((u (i + 1) - u (i - 1)) / (2 * dx)) + c0 i * u i

/-- The electrostatic potential at distance `x` of concentric shells with charges `q` and radii `s`. -/
noncomputable def shellPotential (m : ℕ) (q s : ℕ → ℝ) (x : ℝ) : ℝ := ∑ j ∈ Finset.range m, q j / max x (s j)

/-- Number of sign changes between neighbouring points `a ≤ i < b`. -/
noncomputable def signChanges (u : ℕ → ℝ) (a b : ℕ) : ℕ :=
  haveI : DecidablePred fun i => u i * u (i + 1) < 0 := Classical.decPred _
  ((Finset.Ico a b).filter fun i => u i * u (i + 1) < 0).card

/-- A radial grid: positive and increasing. -/
def RadialGridPts (N : ℕ) (r : ℕ → ℝ) : Prop := 0 < r 0 ∧ ∀ i, i + 1 < N → r i < r (i + 1)

end Hotbit
