import Verif.Model.GroundState
import Verif.Spec.TotalEnergy

/-!
# Specification of rigid motions
-/

namespace Hotbit

open Matrix
open scoped ComplexOrder

/-- `A'` is `A` moved as a rigid body: turned (and possibly reflected) by `R`, then shifted by `c`,
together with all the images. -/
structure RigidlyMoved (A A' : Atoms) (R : Mat) (c : Vec) : Prop where
  orth : Rᵀ * R = 1
  ctype : A'.ctype = A.ctype
  ranges : A'.ranges = A.ranges
  atoms : A'.atoms = A.atoms.map fun a => (a.1, R *ᵥ a.2 + c)
  images : ∀ x n, A'.rawTransform (R *ᵥ x + c) n = R *ᵥ A.rawTransform x n + c
  rotations : ∀ n, A'.rawRotation n = R * A.rawRotation n * Rᵀ

/-- What is asked of the parameters and the structure: the images come in inverse pairs and the orbitals
follow the rotations (C29, C71), the tables for atoms of the same kind have the right parity, the
orbitals of a shell have the same energy, there is more than one orbital, LAPACK does what it promises
(C121), and the overlap matrices are positive definite. -/
structure WellPosed {P : ScfIn} {Mx : Type} (T : ScfTools P Mx) (A : Atoms) (σ : Op → Op) : Prop where
  follow : OrbitalsFollow (P.mat A)
  pairs : ∀ k, InversePairs (P.mat A) (P.kpt k) σ
  parity : ∀ i < A.atoms.length, ParityTable SkTable.h (P.tab ((P.mat A).sym i) ((P.mat A).sym i)) ∧
    ParityTable SkTable.s (P.tab ((P.mat A).sym i) ((P.mat A).sym i))
  shells : ∀ i < A.atoms.length, ∀ a b : Fin 9, a.val < P.no i → b.val < P.no i → orbL a = orbL b →
    P.eps i a = P.eps i b
  orbitals : 2 ≤ P.t.norb
  lapack : T.L.Ok
  tolerance : 0 ≤ T.tolNorm
  overlap : ∀ k st, getMatrices (P.mat A) (P.kpt k) = .ok st → (P.t.flat st.S).PosDef

end Hotbit
