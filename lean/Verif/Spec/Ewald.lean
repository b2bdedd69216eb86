import Verif.Model.Ewald
import Mathlib.Topology.Algebra.InfiniteSum.Basic

/-! Specification for C119: charges repeated on a lattice. -/

namespace Hotbit

open Real Filter Topology

/-- The vector of the lattice with the given cell vectors. -/
noncomputable def latticeVector (cell : Mat) (n : Ix) : Vec :=
  (n.1 : ℝ) • cell 0 + (n.2.1 : ℝ) • cell 1 + (n.2.2 : ℝ) • cell 2

/-- A cell with orthogonal sides along the axes. -/
def Orthorhombic (cell : Mat) : Prop := ∃ L : Vec, (∀ k, 0 < L k) ∧ cell = Matrix.diagonal L

/-- No two atoms (or images of atoms) on top of each other. -/
def Apart {N : ℕ} (cell : Mat) (r : Fin N → Vec) : Prop :=
  ∀ i j, i ≠ j → ∀ n, r i - r j ≠ latticeVector cell n

/-- The potentials converge with the accuracy goal to `φ`. -/
def Converges {N : ℕ} (w : ℝ) (cell : Mat) (r : Fin N → Vec) (q φ : Fin N → ℝ) : Prop :=
  ∃ f : ℝ → Fin N → ℝ, (∀ acc, 0 ≤ acc → ewPotential acc w cell r q = .ok (f acc)) ∧
    ∀ i, Tendsto (fun acc => f acc i) atTop (𝓝 (φ i))

/-- Euclidean length. -/
noncomputable def vecLen (v : Vec) : ℝ := √(v 0 ^ 2 + v 1 ^ 2 + v 2 ^ 2)

open Classical in
/-- The potential at atom `i` of all other atoms and all images, with the Coulomb interaction screened
at distances beyond `c`: `q/d · erfc(d/c)`, as the direct summation with cutoff `c` uses it. -/
noncomputable def screened {N : ℕ} (c : ℝ) (cell : Mat) (r : Fin N → Vec) (q : Fin N → ℝ)
    (i : Fin N) : ℝ :=
  ∑ j, q j * ∑' n : Ix, if j = i ∧ n = (0, 0, 0) then 0
    else coulPot (some c) (vecLen (r i - r j - latticeVector cell n))

end Hotbit
