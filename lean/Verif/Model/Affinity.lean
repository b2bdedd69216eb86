import Verif.Model.Basic
import Mathlib.Data.Real.Basic
import Mathlib.Tactic

/-!
# Ionisation potential and electron affinity

Models `IP_EA`, `ionization_potential` and `electron_affinity`, `hotbit/parametrization/util.py:205-307`, with the
constructor arguments of `KSAllElectron` (`hotbit/parametrization/atom.py:27-42,100-106`).

The atom calculation itself is a parameter: the total energy for given occupations, or the error it ends
with.  The restart files only change the starting guess and are left out.  Numbers are real; division by
zero (a NaN in the code) is excluded in the theorems.
-/

namespace Hotbit

/-- A dictionary of occupations, `{'2s':2,'2p':2}`. -/
abbrev Occupancy := List (String × ℝ)

/-- `d[k] += x` for a dictionary, `KeyError` without the key. -/
noncomputable def occuAdd (d : Occupancy) (k : String) (x : ℝ) : Except Exn Occupancy :=
  if k ∈ d.map Prod.fst then .ok (d.map fun p => if p.1 = k then (p.1, p.2 + x) else p)
  else .error .keyError

/-- `d.update(e)`: values of `e` where it has the key, and the new keys at the end. -/
noncomputable def occuUpdate (d e : Occupancy) : Occupancy :=
  (d.map fun p => match e.lookup p.1 with | some x => (p.1, x) | none => p) ++
    e.filter fun p => p.1 ∉ d.map Prod.fst

/-- The constructor with `configuration` and further keyword arguments, `atom.py:27-42,101-105`: a keyword
given twice or unknown is a `TypeError`; the result are the occupations of the atom. -/
noncomputable def ksMake (base : Occupancy) (configuration : Occupancy) (given extra : List String) :
    Except Exn Occupancy :=
  let known := ["configuration", "valence", "confinement", "xc", "convergence", "scalarrel", "rmax", "nodegpts",
    "mix", "itmax", "timing", "verbose", "txt", "restart", "write"]
  if ∃ k ∈ extra, k ∈ given ∨ k ∉ known then .error .typeError
  else if ∃ k ∈ given, k ∉ known then .error .typeError
  else .ok (occuUpdate base configuration)

/-- `IP_EA(symb,remove_orb,add_orb,remove,add,add_args)`, `util.py:205-257`: ionisation potential and electron
affinity; `base` is the configuration of the neutral atom, `energy` the atom calculation (`run` and
`get_energy`), `args` the keywords in `add_args`. -/
noncomputable def ipEaCall (base : Occupancy) (energy : Occupancy → Except Exn ℝ) (removeOrb addOrb : String)
    (remove add : ℝ) (args : List String) : Except Exn (ℝ × ℝ) := do
  let atom ← ksMake base [] ["txt"] args
  let occuPlus ← occuAdd atom addOrb add
  let ea ← ksMake base occuPlus ["configuration", "restart", "write"] args
  let eEa ← energy ea
  let neutral ← ksMake base [] ["restart", "write"] args
  let e0 ← energy neutral
  let occuMinus ← occuAdd atom removeOrb (-remove)
  let ip ← ksMake base occuMinus ["configuration", "restart", "write"] args
  let eIp ← energy ip
  let en := eEa - e0
  let ep := eIp - e0
  let c2 := (en + ep * add / remove) / (add * (remove + add))
  let c1 := (c2 * remove ^ 2 - ep) / remove
  return (-c1 + c2, -(c1 + c2))

/-- The names defined in `box/data.py`. -/
def boxDataNames : List String := ["nan", "data", "valence_orbitals", "key", "aux", "configurations", "item",
  "el", "core", "occu", "config"]

/-- `from box.data import name`: `ImportError`, written as `Exn.exception`, for a name that is not defined
there. -/
def importFromBoxData (name : String) : Except Exn Unit :=
  if name ∈ boxDataNames then .ok () else .error .exception

/-- `ionization_potential(symb,remove,electrons)`, `util.py:260-283`. -/
noncomputable def ionizationPotential (base : Occupancy) (energy : Occupancy → Except Exn ℝ) (orb : String)
    (electrons : ℝ) : Except Exn ℝ := do
  importFromBoxData "atom_occupations"
  let atom ← ksMake base [] [] []
  let e0 ← energy atom
  let occu ← occuAdd base orb (-electrons)
  let ion ← ksMake base occu ["occu"] []
  let e1 ← energy ion
  return (e1 - e0) / electrons

/-- `electron_affinity(symb,add,electrons)`, `util.py:285-307`. -/
noncomputable def electronAffinity (base : Occupancy) (energy : Occupancy → Except Exn ℝ) (orb : String)
    (electrons : ℝ) : Except Exn ℝ := do
  importFromBoxData "atom_occupations"
  let atom ← ksMake base [] [] []
  let e0 ← energy atom
  let occu ← occuAdd base orb electrons
  let ion ← ksMake base occu ["occu"] []
  let e1 ← energy ion
  return (e0 - e1) / electrons

end Hotbit
