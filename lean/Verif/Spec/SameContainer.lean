import Verif.Model.Atoms

/-!
# When two structures have the same symmetry operations
-/

namespace Hotbit

/-- The same kind of container and the same result of every symmetry operation, including the
error for operations that do not exist. -/
def SameSymmetry (A B : Atoms) : Prop :=
  A.ctype = B.ctype ∧ (∀ r n, A.transform r n = B.transform r n) ∧ ∀ n, A.rotation n = B.rotation n

/-- The cell tells which container it belongs to; the cell of a slab, once set by the user, no longer
does. -/
def Labelled (A : Atoms) : Prop :=
  readMagic A.cell = .ok A.ctype ∨ (A.ctype = .slab ∧ readMagic A.cell = .ok .bravais)

end Hotbit
