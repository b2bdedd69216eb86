import Verif.Model.Bands
import Verif.Spec.Eigen
import Mathlib.LinearAlgebra.Matrix.PosDef

/-!
# Specification of the band energies
-/

namespace Hotbit

open scoped ComplexOrder

/-- `e` are the energies at the κ-point `k`, with the electrostatic part `H1` if there is one:
the energies of the states of `H(k) + H1 ∘ S(k)`. -/
def IsBand (I : MatIn) (H1 : Option (Fin I.norb → Fin I.norb → ℝ)) (k : Vec) (e : Fin I.norb → ℝ) :
    Prop :=
  ∃ H S wf, matricesAt I k = .ok (H, S) ∧ AreStates (scfHamiltonian H1 H S) S e wf

/-- The matrices at `k` can be built, the Hamiltonian is Hermitian (C29) and the overlap positive
definite. -/
def GoodPoint (I : MatIn) (k : Vec) : Prop :=
  ∃ H S, matricesAt I k = .ok (H, S) ∧ H.IsHermitian ∧ S.PosDef

/-- Energies in eV, from the Fermi level if `shift`. -/
def inEV {n : ℕ} (hartree mu : ℝ) (shift : Bool) (e : Fin n → ℝ) : Fin n → ℝ :=
  fun a => (e a - if shift then mu else 0) * hartree

/-- The electrostatic part is symmetric. -/
def SymmH1 {n : ℕ} (H1 : Option (Fin n → Fin n → ℝ)) : Prop :=
  ∀ h, H1 = some h → ∀ i j, h i j = h j i

end Hotbit
