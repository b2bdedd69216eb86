import Verif.Model.Density
import Verif.Model.Electrostatics
import Verif.Model.Eigen
import Verif.Model.Matrices
import Verif.Model.PairTerms
import Verif.Model.Occupations

/-!
# The total energy and the forces

Models `Hotbit.get_potential_energy` and `Hotbit.get_forces` (`hotbit/aseinterface.py:452-485`,
`582-595`) from the parts modelled elsewhere: matrices (`interactions.py:277-419`), density matrices
and band-structure energy and forces (`states.py:22-53,246-262,307-377`), electrostatics with the solver
`DirectCoulomb` (`electrostatics.py`), repulsion (`repulsion.py`).

Left out: pair potentials added by the user and the van der Waals correction (`pairpotential.py`,
zero unless asked for), external potentials (C108), and the caching of results (C25).
-/

namespace Hotbit

/-- Atom of orbital `x`, `elements.py:400`. -/
def OrbTables.atomAt (t : OrbTables) (x : ℕ) : ℕ := t.orb[x]?.elim 0 OrbRec.atom

/-- Number of orbital `x` within its atom, `elements.py:406`. -/
def OrbTables.numAt (t : OrbTables) (x : ℕ) : Fin 9 := Fin.ofNat 9 (t.orb[x]?.elim 0 OrbRec.atomindex)

/-- The `norb × norb` array made of the blocks of the pairs of atoms, `interactions.py:383-406`: block
`(i,j)` is `[o1i:o1i+noi, o1j:o1j+noj]`. -/
def OrbTables.flat (t : OrbTables) (X : BMat) : CMat t.norb :=
  Matrix.of fun x y => X (t.atomAt x) (t.atomAt y) (t.numAt x) (t.numAt y)

/-- What the calculator knows besides the positions: units, orbitals (`elements.py`), tables
(`interactions.py`), k-points with weights (`states.py:193`), width and number of electrons
(`occupations.py`), Hubbard parameters and charge densities (`electrostatics.py`), repulsion
(`repulsion.py`), tolerances. -/
structure ScfIn where
  bohr : ℝ
  hartree : ℝ
  scc : Bool
  t : OrbTables
  no : ℕ → ℕ
  eps : ℕ → Fin 9 → ℝ
  seps : ℝ
  tab : String → String → SkTable
  J : SkJunk
  cut : ℕ → ℕ → ℝ
  scan : List Op
  nk : ℕ
  kpt : Fin nk → Vec
  wk : Fin nk → ℝ
  width : ℝ
  nel : ℝ
  charge : ℝ
  tol : ℝ
  tolIm : ℝ
  val : List ℝ
  cd : ChargeDensity
  U : ℕ → ℝ
  w : ℕ → ℝ
  gcut : Option ℝ
  V : String → String → Pot
  rmax : ℝ
  efree : ℝ

/-- The input of `get_matrices()` for the atoms. -/
noncomputable def ScfIn.mat (P : ScfIn) (A : Atoms) : MatIn :=
  MatIn.ofAtoms A P.bohr P.no P.eps P.seps P.tab P.J P.cut P.scan

/-- The geometry that the repulsion sees. -/
noncomputable def ScfIn.geom (P : ScfIn) (A : Atoms) : Geom := Geom.ofAtoms A P.bohr P.cut P.scan

/-- What `States`, `Electrostatics` and `Occupations` hold after `solve()`: matrices with their
derivatives, energies, states, chemical potential, charges, `G`, `dG`, potentials and fields. -/
structure ScfRun (P : ScfIn) where
  st : Fin P.nk → MatSt
  e : Fin P.nk → Fin P.t.norb → ℝ
  wf : Fin P.nk → CMat P.t.norb
  mu : ℝ
  dq : List ℝ
  G : ℕ → ℕ → ℝ
  dG : ℕ → ℕ → Vec
  s : DC
  phi : List ℝ
  field : List Vec

namespace ScfRun

variable {P : ScfIn} (r : ScfRun P)

/-- `H0[ik]`. -/
def H0 (k : Fin P.nk) : CMat P.t.norb := P.t.flat (r.st k).H0

/-- `S[ik]`. -/
def S (k : Fin P.nk) : CMat P.t.norb := P.t.flat (r.st k).S

/-- `dH0[ik,:,:,c]`. -/
def dH0 (c : Fin 3) (k : Fin P.nk) : CMat P.t.norb := P.t.flat ((r.st k).dH0 c)

/-- `dS[ik,:,:,c]`. -/
def dS (c : Fin 3) (k : Fin P.nk) : CMat P.t.norb := P.t.flat ((r.st k).dS c)

/-- `f`, `occupations.py:30-40,94`. -/
noncomputable def f (k : Fin P.nk) (a : Fin P.t.norb) : ℝ := fermi P.width r.mu (r.e k a)

/-- `rho[ik]`, `states.py:237`. -/
noncomputable def rho (k : Fin P.nk) : CMat P.t.norb := computeRho (r.wf k) (r.f k)

/-- `rhoe[ik]`, `states.py:261`. -/
noncomputable def rhoe (k : Fin P.nk) : CMat P.t.norb := computeRhoe (r.wf k) (r.f k) (r.e k)

/-- `epsilon` of the electrostatics for the charges, `electrostatics.py:174-182`; `N` atoms. -/
noncomputable def epsilon (N : ℕ) : ℕ → ℝ :=
  epsilonOf N r.G P.bohr (fun i => r.phi.getD i 0) (chg r.dq)

/-- `h1`, which exists only with SCC, `solver.py:73-74`, `electrostatics.py:216-238`. -/
noncomputable def h1 (N : ℕ) : Option (Fin P.t.norb → Fin P.t.norb → ℝ) :=
  if P.scc then some fun x y => constructH1 P.t N (r.epsilon N) (fun _ => 0) x y else none

/-- `get_potential_energy()` without pair potentials, `aseinterface.py:459-463,582-595`. -/
noncomputable def energy (A : Atoms) : Except Exn ℝ := do
  let ebs ← bandEnergy P.wk r.rho r.H0 P.tolIm
  let ecoul := coulombEnergy P.scc A.positions.length (chg r.dq) (r.epsilon A.positions.length)
  let erep ← repEnergy (P.geom A) P.V P.rmax P.hartree
  .ok (ebs * P.hartree + ecoul * P.hartree + erep - P.efree * P.hartree)

/-- `get_forces()` without pair potentials, `aseinterface.py:478-483`: component `c` of the force on
atom `i`. -/
noncomputable def force (A : Atoms) (i : ℕ) (c : Fin 3) : ℝ :=
  let N := A.positions.length
  let fbs := (bandForces P.wk (fun k => dHfull (r.dH0 c k) (r.dS c k) (r.h1 N)) (r.dS c) r.rho r.rhoe
    P.t.blocks).getD i 0
  let frep := repForces (P.geom A) P.V P.rmax i c
  let fcoul := gammaForces P.scc N r.dG P.bohr (fun i => r.field.getD i 0) (chg r.dq) i c
  (fbs + frep + fcoul) * (P.hartree / P.bohr)

end ScfRun

end Hotbit
