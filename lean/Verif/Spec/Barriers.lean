import Verif.Model.FdForces

/-!
# The path of images: distances, length and what is made stationary
-/

namespace Hotbit

/-- The distance between the images `i` and `i+1`. -/
noncomputable def pathStep {N : ℕ} (R : ℕ → Places N) (i : ℕ) : ℝ :=
  √(∑ p : Fin N × Fin 3, (R (i + 1) p.1 p.2 - R i p.1 p.2) ^ 2)

/-- By how much the step `i` of a path of `M` images differs from the mean step. -/
noncomputable def stepDeviation {N : ℕ} (M : ℕ) (R : ℕ → Places N) (i : ℕ) : ℝ :=
  pathStep R i - (∑ j ∈ Finset.range (M - 1), pathStep R j) / ((M - 1 : ℕ) : ℝ)

/-- The energies of all images and the constraints of equal steps with their multipliers. -/
noncomputable def pathLagrangian {N : ℕ} (E : Places N → ℝ) (M : ℕ) (l : List ℝ) (R : ℕ → Places N) : ℝ :=
  ∑ i ∈ Finset.range M, E (R i) - ∑ i ∈ Finset.range (M - 1), l.getD i 0 * stepDeviation M R i

end Hotbit
