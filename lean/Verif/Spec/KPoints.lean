import Verif.Model.KPoints

/-!
# Specification of the k-point mesh (C10–C12)
-/

namespace Hotbit

open Real

/-- The `j`-th coordinate of the mesh with `n` points: the Monkhorst–Pack point in an infinite
direction, an integer fraction of the full turn in a finite one. -/
noncomputable def meshCoord (infinite : Bool) (n : ℤ) (j : ℕ) : ℝ :=
  if infinite then -π + (2 * j + 1) * π / n else 2 * π * j / n

/-- In DoubleChiral with parameter `x` the first coordinate is sheared so that the screw operation
done twice has the phase of `2x` translations. -/
noncomputable def shear (A : Atoms) (k : Vec) : Vec :=
  if A.ctype = .doubleChiral then
    ![k 0 + (pyRound (2 * A.cell 0 1) : ℝ) * k 2 / 2, k 1, k 2]
  else k

/-- The mesh point with indices `j`. -/
noncomputable def meshPoint (A : Atoms) (n : Fin 3 → ℤ) (j : Fin 3 → ℕ) : Vec :=
  shear A fun i => meshCoord (A.numberOfTransformations i).isNone (n i) (j i)

/-- The mesh coordinates in one direction. -/
noncomputable def meshLine (infinite : Bool) (n : ℤ) : List ℝ :=
  (List.range n.toNat).map (meshCoord infinite n)

open Classical in
/-- The number of points of `L` that are `k` or its (numerical) inverse. -/
noncomputable def classSize (L : List Vec) (k : Vec) : ℕ :=
  L.countP fun p => decide (p = k ∨ norm3 (p + k) < 1e-10)

end Hotbit
