import Verif.Model.Coulomb
import Mathlib.Analysis.SpecialFunctions.Pow.Real
import Mathlib.LinearAlgebra.Matrix.NonsingularInverse

/-!
# Ewald summation (`hotbit/coulomb/ewald_sum.py`)

Rows of the cell are its vectors. Triples of integers number lattice vectors in both spaces. Floats
are exact reals; atoms on top of each other (a division by zero in the code) are excluded where it
matters.
-/

namespace Hotbit

open Real

/-- The integers numbering a vector of a lattice. -/
abbrev Ix := ℤ × ℤ × ℤ

/-- `np.dot([x,y,z], M)`, `ewald_sum.py:121` and (without the factor 2π) `ewald_sum.py:80-81`. -/
noncomputable def latVec (M : Mat) (n : Ix) : Vec := fun j =>
  n.1 * M 0 j + n.2.1 * M 1 j + n.2.2 * M 2 j

/-- `self.alpha`, `ewald_sum.py:57`, for `N` atoms. -/
noncomputable def ewAlpha (w : ℝ) (N : ℕ) (cell : Mat) : ℝ :=
  (w * π ^ 3 * N / |cell.det|) ^ (1 / 3 : ℝ)

/-- `self.G_cutoff`, `ewald_sum.py:60`. -/
noncomputable def ewGcut (acc α : ℝ) : ℝ := 2 * √(log 10 * acc * α)

/-- `self.r_cutoff`, `ewald_sum.py:61`. -/
noncomputable def ewRcut (acc α : ℝ) : ℝ := √(log 10 * acc / α)

/-- The vector `G`, `ewald_sum.py:76-81`: integers times the *rows* of the inverse cell. -/
noncomputable def recVec (cell : Mat) (n : Ix) : Vec := fun j => 2 * π * latVec cell⁻¹ n j

/-- `lx, ly, lz` of the reciprocal sum, `ewald_sum.py:70`: lengths of the columns of the inverse. -/
noncomputable def recLen (cell : Mat) (k : Fin 3) : ℝ := √(∑ i, cell⁻¹ i k ^ 2)

/-- `lx, ly, lz` of the real-space sum, `ewald_sum.py:109`: lengths of the cell vectors. -/
noncomputable def cellLen (cell : Mat) (k : Fin 3) : ℝ := √(∑ j, cell k j ^ 2)

/-- All triples with entries between `-m` and `m`. -/
noncomputable def ixBox (m : Fin 3 → ℤ) : Finset Ix :=
  Finset.Icc (-m 0) (m 0) ×ˢ Finset.Icc (-m 1) (m 1) ×ˢ Finset.Icc (-m 2) (m 2)

/-- `maxGx, maxGy, maxGz`, `ewald_sum.py:72-74`. -/
noncomputable def maxG (acc α : ℝ) (cell : Mat) (k : Fin 3) : ℤ :=
  pyInt (ewGcut acc α / (2 * π * recLen cell k)) + 1

/-- `maxrx, maxry, maxrz`, `ewald_sum.py:111-113`. -/
noncomputable def maxR (acc α : ℝ) (cell : Mat) (k : Fin 3) : ℤ :=
  pyInt (ewRcut acc α / cellLen cell k) + 1

/-- `np.sum(v*v)`. -/
noncomputable def sqNorm (v : Vec) : ℝ := ∑ j, v j * v j

open Classical in
/-- `rec_G_sq`, `ewald_sum.py:86-90`. -/
noncomputable def recGsq (cell : Mat) (n : Ix) : ℝ :=
  if n = (0, 0, 0) then 0
  else if 0 < sqNorm (recVec cell n) then 1 / sqNorm (recVec cell n) else 0

/-- `phase`, `ewald_sum.py:92`. -/
noncomputable def ewPhase {N : ℕ} (cell : Mat) (r : Fin N → Vec) (n : Ix) (i : Fin N) : ℝ :=
  ∑ j, recVec cell n j * r i j

/-- The reciprocal sum for atom `i`, `ewald_sum.py:83-102`. -/
noncomputable def ewRec {N : ℕ} (acc α : ℝ) (cell : Mat) (r : Fin N → Vec) (q : Fin N → ℝ)
    (i : Fin N) : ℝ :=
  (∑ n ∈ ixBox (maxG acc α cell), exp (-sqNorm (recVec cell n) / (4 * α)) * recGsq cell n *
    ((∑ a, sin (ewPhase cell r n a) * q a) * sin (ewPhase cell r n i) +
      (∑ a, cos (ewPhase cell r n a) * q a) * cos (ewPhase cell r n i))) * (4 * π / |cell.det|)

/-- `abs_dr`, `ewald_sum.py:121-125`. -/
noncomputable def ewDist {N : ℕ} (cell : Mat) (r : Fin N → Vec) (n : Ix) (i j : Fin N) : ℝ :=
  √(sqNorm fun k => r i k - (latVec cell n k + r j k))

open Classical in
/-- The real-space sum for atom `i`, `ewald_sum.py:117-129` (images) and `132-143` (the cell itself,
without atom `i`). -/
noncomputable def ewReal {N : ℕ} (acc α : ℝ) (cell : Mat) (r : Fin N → Vec) (q : Fin N → ℝ)
    (i : Fin N) : ℝ :=
  (∑ n ∈ ixBox (maxR acc α cell), if n ≠ (0, 0, 0) then
      ∑ j, q j * erfc (√α * ewDist cell r n i j) / ewDist cell r n i j else 0) +
    ∑ j, if j = i then 0 else
      q j * erfc (√α * ewDist cell r (0, 0, 0) i j) / ewDist cell r (0, 0, 0) i j

open Classical in
/-- `update(a, q)` and `get_potential()`, `ewald_sum.py:47-155`. Flat cells, no atoms, weights that are
not positive and negative accuracy goals raise various exceptions, all written `exception` here. -/
noncomputable def ewPotential {N : ℕ} (acc w : ℝ) (cell : Mat) (r : Fin N → Vec) (q : Fin N → ℝ) :
    Except Exn (Fin N → ℝ) :=
  if cell.det = 0 ∨ N = 0 ∨ w ≤ 0 ∨ acc < 0 then .error .exception
  else
    let α := ewAlpha w N cell
    .ok fun i => ewRec acc α cell r q i + ewReal acc α cell r q i - 2 * q i * √(α / π)

/-- `get_potential_energy(a, q)`, `ewald_sum.py:161-166`; `unit` is `Hartree*Bohr`. -/
noncomputable def ewEnergy {N : ℕ} (unit acc w : ℝ) (cell : Mat) (r : Fin N → Vec) (q : Fin N → ℝ) :
    Except Exn ℝ :=
  match ewPotential acc w cell r q with
  | .error e => .error e
  | .ok phi => .ok (unit * (∑ i, q i * phi i) / 2)

end Hotbit
