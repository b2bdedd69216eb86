import Verif.Model.Elements
import Mathlib.Algebra.BigOperators.Fin

/-!
# Specification: parts of a quantity given per basis function
-/

namespace Hotbit

open Classical in
/-- The part of `v` that belongs to atom `I`: the sum over the basis functions that `orbitals(mu,atom=True)`
attributes to that atom. -/
noncomputable def atomPart {n : ℕ} (t : OrbTables) (I : ℕ) (v : Fin n → ℝ) : ℝ :=
  ∑ mu : Fin n, if t.atomOf mu = .ok I then v mu else 0

open Classical in
/-- The part of `v` that belongs to the basis functions of atom `I` with angular momentum `l`, according to their
records `orbitals(mu,basis=True)`. -/
noncomputable def shellPart {n : ℕ} (t : OrbTables) (I l : ℕ) (v : Fin n → ℝ) : ℝ :=
  ∑ mu : Fin n, if ∃ r, t.basis mu = .ok r ∧ r.atom = I ∧ r.angmom = l then v mu else 0

end Hotbit
