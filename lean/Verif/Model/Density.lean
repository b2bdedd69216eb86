import Verif.Model.Elements
import Mathlib.Data.Complex.BigOperators
import Mathlib.LinearAlgebra.Matrix.ConjTranspose
import Mathlib.LinearAlgebra.Matrix.Hermitian
import Mathlib.LinearAlgebra.Matrix.PosDef

/-!
# Density matrices, Mulliken charges, band-structure energy and forces: `hotbit/states.py`
-/

namespace Hotbit

open Matrix

variable {nk n : ℕ}

/-- A complex `norb × norb` array. -/
abbrev CMat (n : ℕ) := Matrix (Fin n) (Fin n) ℂ

/-- `compute_rho(wf,occ)` at one k-point, `states.py:22-36`: the product of the transposed
eigenvector array (eigenvectors are rows) with the occupation-weighted conjugate. -/
noncomputable def computeRho (wf : CMat n) (occ : Fin n → ℝ) : CMat n :=
  wfᵀ * Matrix.of fun a j => (occ a : ℂ) * (starRingEnd ℂ) (wf a j)

/-- `compute_rhoe(wf,occ,e)` at one k-point, `states.py:39-53`. -/
noncomputable def computeRhoe (wf : CMat n) (occ e : Fin n → ℝ) : CMat n :=
  wfᵀ * Matrix.of fun a j => (e a : ℂ) * (occ a : ℂ) * (starRingEnd ℂ) (wf a j)

/-- `( A*B.transpose() ).sum(axis=1)`: entry `i` is the sum over `j` of `A_ij B_ji`. -/
def rowDot (A B : CMat n) (i : Fin n) : ℂ := ∑ j, A i j * Bᵀ i j

/-- The slice sum `v[o1:o1+no].sum()`. -/
def sliceSum {M : Type} [AddCommMonoid M] (v : Fin n → M) (b : ℕ × ℕ) : M :=
  (((List.ofFn v).drop b.1).take b.2).sum

/-- `diag` of `mulliken()`, `states.py:321-324`. -/
noncomputable def mullikenDiag (wk : Fin nk → ℝ) (rho S : Fin nk → CMat n) (i : Fin n) : ℝ :=
  ∑ k, wk k * (rowDot (rho k) (S k) i).re

/-- `mulliken()`, `states.py:307-332`: the excess populations of the atoms whose orbital blocks are
`blocks`; raises if they do not add up to the charge within the tolerance. -/
noncomputable def mulliken (wk : Fin nk → ℝ) (rho S : Fin nk → CMat n) (blocks : List (ℕ × ℕ))
    (val : List ℝ) (charge tol : ℝ) : Except Exn (List ℝ) :=
  let q := blocks.map (sliceSum (mullikenDiag wk rho S))
  let dq := List.zipWith (· - ·) q val
  let tot := (dq.map fun x => -x).sum
  if tol < |tot - charge| then .error .runtimeError else .ok dq

/-- `get_band_structure_energy()`, `states.py:335-349`. `imag < tol` only bounds the imaginary part
from above. -/
noncomputable def bandEnergy (wk : Fin nk → ℝ) (rho H0 : Fin nk → CMat n) (tolIm : ℝ) :
    Except Exn ℝ :=
  let ebs := ∑ k, (wk k : ℂ) * ∑ i, rowDot (rho k) (H0 k) i
  if ebs.im < tolIm then .ok ebs.re else .error .assertionError

/-- The Hamiltonian that is diagonalized, `solver.py:52-57`: `H0 + H1*S` elementwise in SCC mode. -/
def fullH (H0 S : CMat n) : Option (Fin n → Fin n → ℝ) → CMat n
  | none => H0
  | some h1 => Matrix.of fun i j => H0 i j + (h1 i j : ℂ) * S i j

/-- `diag` of `get_band_structure_forces()` for one direction, `states.py:364-370`. -/
noncomputable def forceDiag (wk : Fin nk → ℝ) (dH dS rho rhoe : Fin nk → CMat n) (i : Fin n) : ℂ :=
  ∑ k, -((wk k : ℂ) * ∑ j, (dH k i j * (rho k)ᵀ i j - dS k i j * (rhoe k)ᵀ i j))

/-- `get_band_structure_forces()` for one Cartesian direction, `states.py:352-377`. -/
noncomputable def bandForces (wk : Fin nk → ℝ) (dH dS rho rhoe : Fin nk → CMat n)
    (blocks : List (ℕ × ℕ)) : List ℝ :=
  blocks.map fun b => 2 * (sliceSum (forceDiag wk dH dS rho rhoe) b).re

/-- `dH` of `large_update()`, `states.py:252-258`. -/
def dHfull (dH0 dS : CMat n) : Option (Fin n → Fin n → ℝ) → CMat n
  | none => dH0
  | some h1 => Matrix.of fun i j => dH0 i j + (h1 i j : ℂ) * dS i j

/-- `guess_dq()`, `states.py:178-187`: `count` solves were made, `prev` are the stored charges. -/
noncomputable def guessDq {m : ℕ} (scc : Bool) (charge : ℝ) (count : ℕ)
    (prev : (Fin m → ℝ) × (Fin m → ℝ)) : Fin m → ℝ :=
  if !scc then 0
  else if count = 0 then fun _ => 0 - charge / m
  else if count = 1 then prev.1
  else prev.1 + (prev.1 - prev.2)

/-- `check_mulliken_charges()`, `states.py:216-227`. -/
noncomputable def checkMulliken (dQ : List ℝ) (Z : List ℕ) : Except Exn Unit :=
  if (dQ.zip Z).any (fun p => decide (p.1 < -(p.2 : ℝ)) || decide (p.1 > (p.2 : ℝ))) then
    .error .exception
  else .ok ()

end Hotbit
