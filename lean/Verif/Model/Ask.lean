import Verif.Model.Calculator

/-!
# Analysis objects, grids and charges of a calculator (`hotbit/aseinterface.py`)

The analysis objects take a copy of the electronic structure when they are created
(`analysis/mulliken.py:38-57`); what they are created from is recorded as the pair of electronic data
(`st.rho`, `st.wf`) and matrices (`st.S`). The calculator keeps them until the next ground state is
solved (`Calc.ana`; `none` is a flag that is `False`), the grid for ever (`Calc.grid`).
-/

namespace Hotbit

/-- A call of the analysis part of the interface. -/
inductive Ask
  /-- any of the `get_*_mulliken`, density of states, or bonding methods -/
  | analysis (k : Kind)
  /-- `set_grid(h, cutoff)` -/
  | setGrid (h cutoff : ℝ)
  /-- any of the `get_grid_*` methods -/
  | grid
  /-- `get_dq(atoms)`, `get_charges(atoms)` up to the sign -/
  | dq (A : Option Atoms)

/-- What such a call works with: the data of an analysis, the grid, the charges. -/
inductive Answer
  | unit
  | data (d : Wf × Geo)
  | grid (g : GridSpec) (rho : Wf)
  | charges (rho : Wf)

/-- `_init_mulliken`, `_init_DOS`, `_init_bonds`, `aseinterface.py:798-804, 912-918, 976-982`, and the
object the query is then put to. -/
noncomputable def analyse (k : Kind) : CM (Wf × Geo) := do
  let el ← attr Calc.el
  if ← calcRequired el.atoms .energy then CM.raise .assertionError
  else
    let s ← CM.get
    match s.ana k with
    | some d => return d
    | none =>
      let rho ← attr Calc.rho
      let mats ← attr Calc.mats
      CM.modify fun s => { s with ana := fun k' => if k' = k then some (rho, mats) else s.ana k' }
      return (rho, mats)

/-- `set_grid`, `aseinterface.py:705-710`; `Grids.__init__` (`grids.py:10-58`) takes the cell of the
current atoms. -/
noncomputable def setGrid (h cutoff : ℝ) : CM Unit := do
  let el ← attr Calc.el
  if ← calcRequired el.atoms .energy then CM.raise .assertionError
  else
    let s ← CM.get
    match s.grid with
    | some _ => return ()
    | none => CM.modify fun s => { s with grid := some ⟨h, cutoff, el.atoms.cell⟩ }

/-- `get_grid_*`, `aseinterface.py:713-792`: the grid is the stored one, the wave functions are read
when the query is made. `self.flags` does not exist before the initialization is complete. -/
def askGrid : CM (GridSpec × Wf) := do
  let s ← CM.get
  if !s.init then CM.raise .attributeError
  else
    match s.grid with
    | none => CM.raise .assertionError
    | some g =>
      let rho ← attr Calc.rho
      return (g, rho)

/-- `get_dq(atoms)`, `aseinterface.py:806-814`, `states.py:265-266`. Without atoms the structure solved
last is used (`aseinterface.py:385-389`). `st.dq` is set in self-consistent calculations only
(`states.py:238-242`). -/
noncomputable def askDq (P : Phys) (fp : Option Point) (A : Option Atoms) : CM Wf := do
  match A with
  | some A => solveGroundState P fp A
  | none =>
    let s ← CM.get
    if !s.init then CM.raise .assertionError
  let s ← CM.get
  if s.params "SCC" = some "False" then CM.raise .attributeError
  else attr Calc.rho

/-- Execute a call of the analysis part. -/
noncomputable def runAsk (P : Phys) (q : Ask) (fp : Option Point) : CM Answer :=
  match q with
  | .analysis k => do return .data (← analyse k)
  | .setGrid h c => do Hotbit.setGrid h c; return .unit
  | .grid => do
    let r ← askGrid
    return .grid r.1 r.2
  | .dq A => do return .charges (← askDq P fp A)

end Hotbit
