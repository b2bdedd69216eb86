import Verif.Model.Coulomb
import Verif.Model.Elements
import Mathlib.Analysis.SpecialFunctions.Log.Basic

/-!
# Charge-density corrections and the electrostatic Hamiltonian (`hotbit/electrostatics.py`)
-/

namespace Hotbit

open Real

/-- `const` of the Gaussian correction, `electrostatics.py:68`. -/
noncomputable def gaussConst (fi fj : ℝ) : ℝ := 2 * √(log 2 / (fi ^ 2 + fj ^ 2))

/-- Increment of `G[i,j]` for Gaussian charges, `electrostatics.py:69,71`. -/
noncomputable def gaussG (fi fj d : ℝ) : ℝ := -erfc (gaussConst fi fj * d) / d

/-- Radial factor of the increment of `dG[i,j,:]` (times `n`), `electrostatics.py:69-72`. -/
noncomputable def gaussDG (fi fj d : ℝ) : ℝ :=
  (-erfc (gaussConst fi fj * d) / d
    - 2 / √π * exp (-(gaussConst fi fj * d) ^ 2) * gaussConst fi fj) / d

/-- `avg` of the Slater correction with equal exponents, `electrostatics.py:105-107`. -/
noncomputable def slaterAvg (ti tj : ℝ) : ℝ :=
  let src := 1 / (ti + tj)
  let fac := ti * tj * src
  1.6 * (fac + fac * fac * src)

/-- `h`, `electrostatics.py:108-111`. -/
noncomputable def slaterEqG (avg d : ℝ) : ℝ :=
  let fac := avg * d
  let fac2 := fac * fac
  let h := -(48 + 33 * fac + fac2 * (9 + fac)) * (exp (-fac) / (48 * d))
  h

/-- The factor of `n` in the equal-exponent branch, `electrostatics.py:114-117`. -/
noncomputable def slaterEqDG (avg d : ℝ) : ℝ :=
  let fac := avg * d
  let fac2 := fac * fac
  let efac := exp (-fac) / (48 * d)
  let h := slaterEqG avg d
  h / d + avg * h + (33 * avg + 18 * fac * avg + 3 * fac2 * avg) * efac

/-- `fi1` (and `fj1` with exchanged arguments), `electrostatics.py:119-121`. -/
noncomputable def slaterF1 (ti tj : ℝ) : ℝ := -tj ^ 4 * ti * (1 / (2 * (ti ^ 2 - tj ^ 2) ^ 2))

/-- `fj1 = -tau_i^4 tau_j/(2(tau_i^2-tau_j^2)^2)`, `electrostatics.py:120`. -/
noncomputable def slaterFj1 (ti tj : ℝ) : ℝ := -ti ^ 4 * tj * (1 / (2 * (ti ^ 2 - tj ^ 2) ^ 2))

/-- `fi2`, `electrostatics.py:123,125`. -/
noncomputable def slaterF2 (ti tj : ℝ) : ℝ :=
  (tj ^ 6 - 3 * tj ^ 4 * ti ^ 2) * (1 / (ti ^ 2 - tj ^ 2) ^ 3)

/-- `fj2`, `electrostatics.py:124`. -/
noncomputable def slaterFj2 (ti tj : ℝ) : ℝ :=
  -(ti ^ 6 - 3 * ti ^ 4 * tj ^ 2) * (1 / (ti ^ 2 - tj ^ 2) ^ 3)

/-- Increment of `G[i,j]` in the unequal branch, `electrostatics.py:127-132`. -/
noncomputable def slaterNeG (ti tj d : ℝ) : ℝ :=
  exp (-ti * d) * (slaterF1 ti tj + slaterF2 ti tj / d)
    + exp (-tj * d) * (slaterFj1 ti tj + slaterFj2 ti tj / d)

/-- The factor of `n` in the unequal branch, `electrostatics.py:133-135`. -/
noncomputable def slaterNeDG (ti tj d : ℝ) : ℝ :=
  exp (-ti * d) * (ti * (slaterF1 ti tj + slaterF2 ti tj / d) + slaterF2 ti tj / d ^ 2)
    + exp (-tj * d) * (tj * (slaterFj1 ti tj + slaterFj2 ti tj / d) + slaterFj2 ti tj / d ^ 2)

open Classical in
/-- Increment of `G[i,j]` for Slater charges with exponents `tau = 16 U/5`,
`electrostatics.py:104-132`. -/
noncomputable def slaterG (ti tj d : ℝ) : ℝ :=
  if |ti - tj| < 1e-6 then slaterEqG (slaterAvg ti tj) d else slaterNeG ti tj d

open Classical in
/-- Radial factor of `dG[i,j,:]` for Slater charges, `electrostatics.py:104-135`. -/
noncomputable def slaterDG (ti tj d : ℝ) : ℝ :=
  if |ti - tj| < 1e-6 then slaterEqDG (slaterAvg ti tj) d else slaterNeDG ti tj d

/-- The two choices of `charge_density`, `electrostatics.py:140-143`. The first two arguments of the
kernels are the `FWHM` (Gaussian) or `tau` (Slater) of the atoms. -/
inductive ChargeDensity | gaussian | slater
  deriving DecidableEq

noncomputable def corrG : ChargeDensity → ℝ → ℝ → ℝ → ℝ
  | .gaussian => gaussG
  | .slater => slaterG

noncomputable def corrDG : ChargeDensity → ℝ → ℝ → ℝ → ℝ
  | .gaussian => gaussDG
  | .slater => slaterDG

/-- The width parameter used by the kernels: `FWHM[i]` or `tau[i] = 16*U[i]/5`
(`electrostatics.py:46-47,93`). -/
noncomputable def widthOf (cd : ChargeDensity) (U FWHM : ℕ → ℝ) (i : ℕ) : ℝ :=
  match cd with
  | .gaussian => FWHM i
  | .slater => 16 * U i / 5

/-- `G[i,j]` of `get_*_gamma_correction`, `electrostatics.py:61-74,98-137`; `l` is the neighbour
list (empty for `None`) and `bohr` the unit conversion. -/
noncomputable def corrMatrix (cd : ChargeDensity) (bohr : ℝ) (U w : ℕ → ℝ) (l : List Nb)
    (i j : ℕ) : ℝ :=
  (if i = j then U i else 0) +
    ((l.filter fun e => e.i == i && e.j == j).map fun e => corrG cd (w i) (w j) (e.d / bohr)).sum

/-- `dG[i,j,:]`. -/
noncomputable def corrDMatrix (cd : ChargeDensity) (bohr : ℝ) (w : ℕ → ℝ) (l : List Nb)
    (i j : ℕ) : Vec :=
  ((l.filter fun e => e.i == i && e.j == j).map fun e =>
    corrDG cd (w i) (w j) (e.d / bohr) • e.n).sum

/-- `epsilon` of `set_dq`, `electrostatics.py:174-182`; `phi` is the solver's potential. -/
noncomputable def epsilonOf (N : ℕ) (G : ℕ → ℕ → ℝ) (bohr : ℝ) (phi dq : ℕ → ℝ) (i : ℕ) : ℝ :=
  (∑ j ∈ Finset.range N, G i j * dq j) + phi i * bohr

/-- `coulomb_energy`, `electrostatics.py:185-194`. -/
noncomputable def coulombEnergy (scc : Bool) (N : ℕ) (dq eps : ℕ → ℝ) : ℝ :=
  if scc then 0.5 * ∑ i ∈ Finset.range N, dq i * eps i else 0

/-- `gamma_forces`, `electrostatics.py:197-213`; `E` is the solver's field. -/
noncomputable def gammaForces (scc : Bool) (N : ℕ) (dG : ℕ → ℕ → Vec) (bohr : ℝ) (E : ℕ → Vec)
    (dq : ℕ → ℝ) (i : ℕ) : Vec :=
  if scc then dq i • ((∑ j ∈ Finset.range N, dq j • dG i j) + bohr ^ 2 • E i) else 0

/-- One assignment `aux[o1:o1+no,:] = v[i]` after the other, `electrostatics.py:225-227`: the last
block that contains the row wins. -/
def auxFill (v : ℕ → ℝ) : List (ℕ × ℕ) → ℕ → (ℕ → ℝ) → ℕ → ℝ
  | [], _, aux => aux
  | (o, n) :: bs, i, aux =>
    auxFill v bs (i + 1) fun m => if o ≤ m ∧ m < o + n then v i else aux m

open Classical in
/-- `construct_h1`, `electrostatics.py:216-238`: entry `(m, n)`; `N` atoms, `eps` the potentials,
`ext` the external potentials. -/
noncomputable def constructH1 (t : OrbTables) (N : ℕ) (eps ext : ℕ → ℝ) (m n : ℕ) : ℝ :=
  let aux := auxFill eps t.blocks 0 fun _ => 0
  let h1 := 0.5 * (aux m + aux n)
  if ∃ i < N, 1e-12 < |ext i| then
    let aux' := auxFill ext t.blocks 0 fun _ => 0
    h1 + 0.5 * (-1) * (aux' m + aux' n)
  else h1

/-- `get_gamma`, `electrostatics.py:272-273`: adding `None*Bohr` raises `TypeError`. -/
noncomputable def esGamma (G : ℕ → ℕ → ℝ) (bohr : ℝ) (s : DC) : Except Exn (ℕ → ℕ → ℝ) := do
  match ← dcGamma s with
  | none => .error .typeError
  | some g => .ok fun i j => G i j + g i j * bohr

end Hotbit
