import Verif.Model.Grids

/-!
# What a basis orbital on the grid should be
-/

namespace Hotbit

open Classical in
/-- The value of an atomic orbital at the displacement `d` from its nucleus, with its radial function cut at `cut` and at `rrange`
and taken for zero where it is at most 1e-7. -/
noncomputable def orbitalAt (cut rrange : ℝ) (R : ℝ → ℝ) (a : Fin 9) (d : Vec) : ℝ :=
  let r := √(d 0 ^ 2 + d 1 ^ 2 + d 2 ^ 2)
  if r ≤ cut ∧ r ≤ rrange ∧ 1e-7 < |R r| then R r * angularVal d a else 0

/-- Displacement of the grid point `p` from the grid point closest to `x`. -/
noncomputable def gridDisp (dr : Fin 3 → ℝ) (x : Vec) (p : Fin 3 → ℤ) : Vec :=
  fun i => ((p i : ℝ) - (pyRound (x i / dr i) : ℝ)) * dr i

end Hotbit
