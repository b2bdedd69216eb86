import Verif.Props.Containers
import Mathlib.LinearAlgebra.CrossProduct

/-!
# Specification of torques
-/

namespace Hotbit

open Matrix

/-- The total torque of the forces `F` on the atoms about the origin, `∑ r_i × F_i`. -/
noncomputable def torque (A : Atoms) (F : List Vec) : Vec :=
  ((A.positions.zip F).map fun p => p.1 ⨯₃ p.2).sum

/-- The structure can be turned about the axis `u` through the origin without disturbing the symmetry:
when the atoms move with the velocities `u × r`, so do all their images. -/
def TurnsAbout (A : Atoms) (u : Vec) : Prop :=
  ∀ n, Legal A n → ∀ r, u ⨯₃ A.rawTransform r n = A.rawRotation n *ᵥ (u ⨯₃ r)

end Hotbit
