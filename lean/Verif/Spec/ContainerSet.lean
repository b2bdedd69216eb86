import Verif.Model.Basic

/-!
# Maps of space that accompany a change of the unit cell
-/

namespace Hotbit

open Real

/-- The point with cylinder coordinates `(ρ, φ, z)` around the z axis. -/
noncomputable def aroundZ (ρ φ z : ℝ) : Vec := ![ρ * cos φ, ρ * sin φ, z]

/-- The point at distance `ρ` from the y axis, at angle `φ` from the z towards the x direction, at height `y`. -/
noncomputable def aroundY (ρ φ y : ℝ) : Vec := ![ρ * sin φ, y, ρ * cos φ]

/-- Twist around the z axis by `da` per length `h`, with a stretch along z from `h` to `h'`. -/
noncomputable def twistStretch (da h h' : ℝ) (r : Vec) : Vec :=
  ![cos (r 2 / h * da) * r 0 - sin (r 2 / h * da) * r 1, sin (r 2 / h * da) * r 0 + cos (r 2 / h * da) * r 1, r 2 / h * h']

/-- The turn in the normal plane of a point of a tube of radius `R` around the axis `z`. -/
noncomputable def tubeTwist (R ρ φ z τ : ℝ) : Vec :=
  aroundZ (R + (ρ - R) * cos τ + z * sin τ) φ (z * cos τ - (ρ - R) * sin τ)

end Hotbit
