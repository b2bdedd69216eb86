import Verif.Model.Atoms

/-!
# The calculator: caching of results, parameters, failures
(`hotbit/aseinterface.py`, `hotbit/elements.py`, `hotbit/states.py`)

The numerical work (matrices, SCC cycle, energies, forces) enters as functions of the data the code
reads: which structure the electronic variables, the matrices and the distance arrays were computed
for. A run-time failure (SCC out of iterations, insane charges, failed assertion …) can occur in any
call, at any of the `Point`s below; a call carries the point where it fails, if it is reached.
-/

namespace Hotbit

open Classical

/-- The distance arrays (`el.Rn`, `el.rijn`, `el.ntuples`): a structure and the ranges of symmetry
operations scanned for it. -/
abbrev Geo := Atoms × Ranges

/-- A k-point sampling: points and weights. -/
abbrev Sampling := List (Vec × ℝ)

/-- Wave functions, occupations, density matrix and charges (`st.e`, `st.wf`, `st.f`, `st.rho`,
`st.dq`, `st.es`): the geometry and k-points they were computed for and whether the SCC cycle had
converged. The converged solution is taken to be independent of the starting guess. -/
structure Wf where
  geo : Geo
  kpts : Sampling
  converged : Bool

/-- The numerical routines, as functions of the element symbols fixed at initialization, of the
electronic data and of the geometry they are evaluated with. `List ℕ` are the pair potentials added
so far. -/
structure Phys where
  /-- `st.setup_k_sampling` for the current atoms (see `KPoints` model), `states.py:79-173` -/
  kset : Atoms → Sampling
  /-- `st.get_band_structure_energy()`: density matrix and `H0`, `states.py:335-349` -/
  ebs : List String → Wf → Geo → ℝ
  /-- `st.es.coulomb_energy()`, `electrostatics.py:185-194` -/
  ecoul : List String → Wf → ℝ
  /-- `rep.get_repulsive_energy()`: reads `el.rijn`, `repulsion.py:86-107` -/
  erep : List String → Geo → ℝ
  /-- `pp.get_energy()`: reads `el.rijn`, `pairpotential.py:97-120` -/
  epp : List ℕ → List String → Geo → ℝ
  efree : List String → ℝ
  /-- `st.get_band_structure_forces()`: `rho`, `dS`, and `dH`, `rhoe`, `states.py:352-380` -/
  fbs : List String → Wf → Geo → Geo → ℕ → Vec
  frep : List String → Geo → ℕ → Vec
  fcoul : List String → Wf → ℕ → Vec
  fpp : List ℕ → List String → Geo → ℕ → Vec

/-- The quantities whose validity is recorded, `elements.py:77`. -/
inductive Quantity | groundState | energy | forces | ebs | ecoul
  deriving DecidableEq

/-- `el`: the current atoms, the ranges of symmetry operations (`el.ranges`, set in `set_atoms` only),
the distance arrays (none before the first `update_geometry`), the symbols read at construction and
the `solved` dictionary. -/
structure ElState where
  atoms : Atoms
  ranges : Ranges
  geom : Option Geo := none
  syms : List String
  solved : Quantity → Option Atoms := fun _ => none

/-- The analysis objects a calculator keeps, `aseinterface.py:430-434`. -/
inductive Kind | mulliken | dos | bonds
  deriving DecidableEq

/-- The grid of `set_grid`: spacing, cutoff and the cell it was made for, `grids.py:23-31`. -/
structure GridSpec where
  h : ℝ
  cutoff : ℝ
  cell : Mat

/-- The calculator. `ana` holds, for each analysis whose flag is set, the electronic structure its
object was created from; `grid` the grid if its flag is set. `running` are the labels of the running timers (`box/timing.py`; see `Timer`
model). Attributes that do not exist yet are `none`. -/
structure Calc where
  init : Bool := false
  el : Option ElState := none
  ana : Kind → Option (Wf × Geo) := fun _ => none
  grid : Option GridSpec := none
  nk : Option Sampling := none
  rho : Option Wf := none
  mats : Option Geo := none
  fin : Option Geo := none
  epot : Option ℝ := none
  f : Option (ℕ → Vec) := none
  ebs : Option ℝ := none
  ecoul : Option ℝ := none
  running : List String := []
  pp : List ℕ := []
  params : String → Option String

/-- Where a call can fail at run time. -/
inductive Point
  | init      -- in `_initialize` after `el` was built, `aseinterface.py:414-431`
  | geometry  -- inside `update_geometry`, `elements.py:176-265`
  | kpoints   -- in the k-point setup, `states.py:194-198`
  | matrices  -- in `get_matrices` etc. before the SCC cycle, `states.py:199-208`
  | scc       -- in the SCC cycle, `states.py:210`
  | mulliken  -- after the cycle: `check_mulliken_charges`, `states.py:212`
  | ebs       -- the assertion on the imaginary part, `states.py:347`
  deriving DecidableEq

/-- `A == B` for atoms objects, `atoms.py:243-244` (ASE: symbols, positions, cell, pbc). -/
noncomputable def aseEq (A B : Atoms) : Bool :=
  decide (A.atoms = B.atoms ∧ A.cell = B.cell ∧ A.pbc = B.pbc)

/-- `get_chemical_symbols()`. -/
def Atoms.symbols (A : Atoms) : List String := A.atoms.map Prod.fst

/-- A state transformer that may raise; the state changes made before are kept. -/
abbrev CM (α : Type) := Calc → Calc × Except Exn α

def CM.pure {α : Type} (a : α) : CM α := fun s => (s, .ok a)

def CM.bind {α β : Type} (m : CM α) (k : α → CM β) : CM β := fun s =>
  match m s with
  | (s', .ok a) => k a s'
  | (s', .error e) => (s', .error e)

instance : Monad CM where
  pure := CM.pure
  bind := CM.bind

def CM.raise {α : Type} (e : Exn) : CM α := fun s => (s, .error e)
def CM.get : CM Calc := fun s => (s, .ok s)
def CM.modify (g : Calc → Calc) : CM Unit := fun s => (g s, .ok ())

/-- Fail here if the call is to fail at point `p`. -/
def failAt (fp : Option Point) (p : Point) (e : Exn) : CM Unit :=
  if fp = some p then CM.raise e else CM.pure ()

/-- An attribute that may not exist yet. -/
def attr {α : Type} (x : Calc → Option α) : CM α := fun s =>
  match x s with
  | some a => (s, .ok a)
  | none => (s, .error .attributeError)

/-- `start_timing(label)`, `aseinterface.py:626-627`, `timing.py:106-123`: raises if running. -/
def startTiming (l : String) : CM Unit := fun s =>
  if l ∈ s.running then (s, .error .assertionError) else ({ s with running := l :: s.running }, .ok ())

/-- `stop_timing(label)`, `timing.py:125-138`. -/
def stopTiming (l : String) : CM Unit := fun s =>
  if l ∈ s.running then ({ s with running := s.running.erase l }, .ok ())
  else (s, .error .assertionError)

def setEl (g : ElState → ElState) : CM Unit :=
  CM.modify fun s => { s with el := s.el.map g }

/-- `el.calculation_required(atoms,[q])`, `elements.py:134-153`. -/
noncomputable def elRequired (el : ElState) (A : Atoms) (q : Quantity) : Bool :=
  match el.solved .groundState with
  | none => true
  | some _ =>
    match el.solved q with
    | none => true
    | some X => !aseEq X A

/-- `calculation_required`, `aseinterface.py:442-449`; `self.el` does not exist before the first
initialization. -/
noncomputable def calcRequired (A : Atoms) (q : Quantity) : CM Bool := do
  let el ← attr Calc.el
  return elRequired el A q

/-- `el.set_solved(q)`, `elements.py:156-161` (copies are taken to equal the original, see C09). -/
def setSolved (q : Quantity) : CM Unit :=
  setEl fun el => { el with solved := fun q' => if q' = q then some el.atoms else el.solved q' }

/-- `_initialize(atoms)`, `aseinterface.py:407-439`: on the first call the timer and `el`, `st`, `pp`
and the flags are created anew; `el.set_atoms` (`elements.py:108-130`) determines the ranges of operations. -/
noncomputable def initCalc (fp : Option Point) (A : Atoms) : CM Unit := do
  let s ← CM.get
  if !s.init then
    CM.modify fun s => { s with
      running := ["Hotbit"]
      el := some { atoms := A, ranges := A.ranges, syms := A.symbols }
      ana := fun _ => none, grid := none
      nk := none, rho := none, mats := none, fin := none, pp := [] }
    failAt fp .init .assertionError
  setEl fun el => { el with atoms := A, ranges := A.ranges }
  CM.modify fun s => { s with init := true }

/-- `el.update_geometry(atoms)`, `elements.py:176-265`: scans `el.ranges`, which it does not update. -/
def updateGeometry (fp : Option Point) (A : Atoms) : CM Unit := do
  startTiming "geometry"
  setEl fun el => { el with atoms := A }
  failAt fp .geometry .exception
  setEl fun el => { el with geom := some (A, el.ranges) }
  stopTiming "geometry"

/-- The k-point setup, done once, `states.py:194-198`. -/
def kSetup (P : Phys) (fp : Option Point) : CM Sampling := do
  let s ← CM.get
  match s.nk with
  | some k => return k
  | none =>
    failAt fp .kpoints .assertionError
    let el ← attr Calc.el
    CM.modify fun s => { s with nk := some (P.kset el.atoms) }
    return P.kset el.atoms

/-- `st.solve()`, `states.py:193-217`. -/
def stSolve (P : Phys) (fp : Option Point) : CM Unit := do
  let k ← kSetup P fp
  startTiming "solve"
  failAt fp .matrices .exception
  let geo ← attr fun s => s.el.bind ElState.geom
  CM.modify fun s => { s with mats := some geo, rho := some ⟨geo, k, false⟩ }
  failAt fp .scc .runtimeError
  CM.modify fun s => { s with rho := some ⟨geo, k, true⟩ }
  failAt fp .mulliken .exception
  CM.modify fun s => { s with fin := some geo }
  stopTiming "solve"

/-- `solve_ground_state(atoms)`, `aseinterface.py:383-404`: the flags of the analysis objects are reset,
the one of the grid is not. -/
noncomputable def solveGroundState (P : Phys) (fp : Option Point) (A : Atoms) : CM Unit := do
  let s ← CM.get
  if !s.init then initCalc fp A
  if ← calcRequired A .groundState then
    updateGeometry fp A
    stSolve P fp
    setSolved .groundState
    CM.modify fun s => { s with ana := fun _ => none }

/-- `get_band_structure_energy(atoms)`, `aseinterface.py:582-587`, `states.py:335-349` (units are part
of `Phys`). -/
noncomputable def getEbs (P : Phys) (fp : Option Point) (A : Atoms) : CM ℝ := do
  if ← calcRequired A .ebs then
    solveGroundState P fp A
    startTiming "e_bs"
    let el ← attr Calc.el
    let rho ← attr Calc.rho
    let mats ← attr Calc.mats
    failAt fp .ebs .assertionError
    stopTiming "e_bs"
    CM.modify fun s => { s with ebs := some (P.ebs el.syms rho mats) }
    setSolved .ebs
  attr Calc.ebs

/-- `get_coulomb_energy(atoms)`, `aseinterface.py:590-595`: the quantity is never marked solved. -/
noncomputable def getEcoul (P : Phys) (fp : Option Point) (A : Atoms) : CM ℝ := do
  if ← calcRequired A .ecoul then
    solveGroundState P fp A
    startTiming "ecoul"
    let el ← attr Calc.el
    let rho ← attr Calc.rho
    stopTiming "ecoul"
    CM.modify fun s => { s with ecoul := some (P.ecoul el.syms rho) }
  attr Calc.ecoul

/-- `get_potential_energy(atoms)`, `aseinterface.py:452-466`. -/
noncomputable def getEnergy (P : Phys) (fp : Option Point) (A : Atoms) : CM ℝ := do
  if ← calcRequired A .energy then
    solveGroundState P fp A
    startTiming "energy"
    let ebs ← getEbs P fp A
    let ecoul ← getEcoul P fp A
    let s ← CM.get
    let el ← attr Calc.el
    let geom ← attr fun s => s.el.bind ElState.geom
    CM.modify fun s' => { s' with epot := some (ebs + ecoul + P.erep el.syms geom +
      P.epp s.pp el.syms geom - P.efree el.syms) }
    stopTiming "energy"
    setSolved .energy
  attr Calc.epot

/-- `get_forces(atoms)`, `aseinterface.py:469-485`. -/
noncomputable def getForces (P : Phys) (fp : Option Point) (A : Atoms) : CM (ℕ → Vec) := do
  if ← calcRequired A .forces then
    solveGroundState P fp A
    startTiming "forces"
    let s ← CM.get
    let el ← attr Calc.el
    let rho ← attr Calc.rho
    let mats ← attr Calc.mats
    let fin ← attr Calc.fin
    let geom ← attr fun s => s.el.bind ElState.geom
    stopTiming "forces"
    CM.modify fun s' => { s' with f := some (fun i => P.fbs el.syms rho mats fin i +
      P.frep el.syms geom i + P.fcoul el.syms rho i + P.fpp s.pp el.syms geom i) }
    setSolved .forces
  attr Calc.f

/-- `set_atoms(atoms)`, `aseinterface.py:606-612`. -/
noncomputable def setAtoms (fp : Option Point) (A : Atoms) : CM Unit := do
  let s ← CM.get
  if s.init then
    let el ← attr Calc.el
    if A.symbols ≠ el.atoms.symbols then CM.raise .runtimeError
    else initCalc fp A
  else initCalc fp A

/-- `set(key,value)`, `aseinterface.py:267-273`; for `txt` the value stands for the opened stream. -/
noncomputable def setParam (key value : String) : CM Unit := do
  let s ← CM.get
  if key = "txt" then
    CM.modify fun s => { s with params := Function.update s.params "txt" (some value) }
  else if s.init ∧ key ≠ "charge" then CM.raise .assertionError
  else CM.modify fun s => { s with params := Function.update s.params key (some value) }

/-- `get(key)`, `aseinterface.py:349-358`. -/
def getParam (key : String) : CM String := fun s =>
  match s.params key with
  | some v => (s, .ok v)
  | none => (s, .error .keyError)

/-- `calc.pp.add_pair_potential(…)` (the potential gets a number), `pairpotential.py:38-74`. -/
def addPP (v : ℕ) : CM Unit := do
  let _ ← attr Calc.el
  CM.modify fun s => { s with pp := s.pp ++ [v] }

/-- One call of the public interface. -/
inductive Call
  | energy (A : Atoms)
  | forces (A : Atoms)
  | ebs (A : Atoms)
  | ecoul (A : Atoms)
  | solve (A : Atoms)
  | setAtoms (A : Atoms)
  | set (key value : String)
  | addPP (v : ℕ)

/-- What a call returns. -/
inductive Result
  | unit
  | num (x : ℝ)
  | vecs (f : ℕ → Vec)

/-- Execute a call that fails at `fp` if it gets there. -/
noncomputable def runCall (P : Phys) (c : Call) (fp : Option Point) : CM Result :=
  match c with
  | .energy A => do return .num (← getEnergy P fp A)
  | .forces A => do return .vecs (← getForces P fp A)
  | .ebs A => do return .num (← getEbs P fp A)
  | .ecoul A => do return .num (← getEcoul P fp A)
  | .solve A => do solveGroundState P fp A; return .unit
  | .setAtoms A => do Hotbit.setAtoms fp A; return .unit
  | .set k v => do setParam k v; return .unit
  | .addPP v => do Hotbit.addPP v; return .unit

/-- `Hotbit(...)`: a new calculator with the given parameters, `aseinterface.py:142-178`. -/
def newCalc (params : String → Option String) : Calc := { params := params }

end Hotbit
