import Verif.Model.Elements
import Mathlib.Algebra.BigOperators.Fin
import Mathlib.Data.Complex.BigOperators

/-!
# Specification: covalent energies
-/

namespace Hotbit

open Classical in
/-- The part of a symmetric pair quantity `v` that belongs to the pair of labels `i`, `j`: every ordered pair of basis
functions of which one carries the label `i` and the other the label `j`. -/
noncomputable def pairPart {n : ℕ} {α : Type} (lab : Fin n → α) (i j : α) (v : Fin n → Fin n → ℝ) : ℝ :=
  ∑ m, ∑ n', if (lab m = i ∧ lab n' = j) ∨ (lab m = j ∧ lab n' = i) then v m n' else 0

/-- The covalent energy between the basis functions `m` and `n'` in a state with coefficients `c`: the Hamiltonian
matrix element without the mean of the energies of the two orbitals. -/
noncomputable def covTerm {n : ℕ} (H S : Fin n → Fin n → ℂ) (eps : Fin n → ℝ) (c : Fin n → ℂ) (m n' : Fin n) : ℝ :=
  (c m * (starRingEnd ℂ) (c n') * (H n' m - ((eps m + eps n') / 2 : ℝ) * S n' m)).re

end Hotbit
