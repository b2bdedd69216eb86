import Verif.Model.ContainerSet
import Verif.Model.Helpers

/-!
# Graphene, ribbons and nanotubes (/repo/box/systems.py)

All atoms are of one element, so only positions, cell and periodic directions are kept. `atoms.rotate(axis, pi/2)` is a quarter turn.
Numbers of units are positive (ASE cannot centre an empty structure).
-/

namespace Hotbit

/-- An `ase.Atoms` object of equal atoms. -/
structure Struct where
  pos : List Vec
  cell : Fin 3 → Vec
  pbc : Fin 3 → Bool

/-- `a.min()` of a column. -/
noncomputable def colMin (l : List Vec) (a : Fin 3) : ℝ := (l.map fun p => p a).tail.foldl min ((l.map fun p => p a).headD 0)
/-- `a.max()` of a column. -/
noncomputable def colMax (l : List Vec) (a : Fin 3) : ℝ := (l.map fun p => p a).tail.foldl max ((l.map fun p => p a).headD 0)

/-- `atoms.translate(t)`. -/
def Struct.translate (s : Struct) (t : Vec) : Struct := { s with pos := s.pos.map fun p => p + t }
/-- `atoms.translate(-atoms.get_center_of_mass())` for atoms of equal masses. -/
noncomputable def Struct.toCenter (s : Struct) : Struct :=
  s.translate fun a => - ((s.pos.map fun p => p a).sum / s.pos.length)
/-- `atoms.rotate('z',np.pi/2)`. -/
def Struct.turnZ (s : Struct) : Struct := { s with pos := s.pos.map fun p => ![-p 1, p 0, p 2] }
/-- `atoms.rotate('x',np.pi/2)`. -/
def Struct.turnX (s : Struct) : Struct := { s with pos := s.pos.map fun p => ![p 0, -p 2, p 1] }
/-- `atoms.set_cell((a,b,c))`. -/
def Struct.setBox (s : Struct) (a b c : ℝ) : Struct := { s with cell := ![![a, 0, 0], ![0, b, 0], ![0, 0, c]] }
/-- `atoms.set_pbc`. -/
def Struct.setPbc (s : Struct) (x y z : Bool) : Struct := { s with pbc := ![x, y, z] }
/-- `atoms.center(vacuum=v,axis=a)` where the cell vector is along the axis and perpendicular to the others. -/
noncomputable def Struct.centerVacuum (s : Struct) (v : ℝ) (a : Fin 3) : Struct :=
  { s.translate (Pi.single a (v - colMin s.pos a)) with
    cell := Function.update s.cell a (Pi.single a (colMax s.pos a - colMin s.pos a + 2 * v)) }
/-- `atoms.center(axis=a)` in the same case. -/
noncomputable def Struct.center (s : Struct) (a : Fin 3) : Struct :=
  s.translate (Pi.single a (s.cell a a / 2 - (colMin s.pos a + colMax s.pos a) / 2))

/-- `ase_Atoms(...)` without cell. -/
def Struct.ofPos (l : List Vec) : Struct := ⟨l, fun _ _ => 0, fun _ => false⟩

/-- A number that is a Python float or not. -/
inductive PyNum
  | float (x : ℝ)
  | int (n : ℤ)

/-- The positions in `graphene`, lines 33-42. -/
noncomputable def graphenePos (n1 n2 : ℕ) (R : ℝ) : List Vec :=
  let a1 : Vec := ![R * Real.cos (Real.pi / 6) * 2, 0, 0]
  let a2 : Vec := (0.5 : ℝ) • a1 + ![0, 1.5 * R, 0]
  (List.range n1).flatMap fun i1 : ℕ => (List.range n2).flatMap fun i2 : ℕ =>
    let corner := (i1 : ℝ) • a1 + (i2 : ℝ) • a2
    [corner, corner + a1 + ![0, R, 0]]

/-- `graphene`, lines 18-48: a number which is no float is indexed. -/
noncomputable def graphene (n1 n2 : ℕ) (R : PyNum) (height : ℝ := 5.0) : Except Exn Struct :=
  match R with
  | .int _ => .error .typeError
  | .float R =>
    let a1 : Vec := ![R * Real.cos (Real.pi / 6) * 2, 0, 0]
    let a2 : Vec := (0.5 : ℝ) • a1 + ![0, 1.5 * R, 0]
    let s : Struct := { Struct.ofPos (graphenePos n1 n2 R) with
      cell := ![![n1 * a1 0, 0, 0], ![n2 * a2 0, n2 * a2 1, 0], ![0, 0, 10]] }
    .ok ((s.centerVacuum (height / 2) 2).setPbc true true false)

/-- Periodic direction given as text. -/
inductive Axis
  | x | z | other

/-- Copies of a unit along x, lines 71-75 and 113-117. -/
def copies (unit : List Vec) (period : ℝ) (units : ℕ) : List Vec :=
  unit ++ (List.range (units - 1)).flatMap fun i : ℕ => unit.map fun p => p + ![(i + 1) * period, 0, 0]

/-- The unit in `ZGNR`, lines 62-69. -/
noncomputable def zgnrUnit (n : ℕ) (R : ℝ) : List Vec :=
  (List.range n).flatMap fun i : ℕ =>
    let x : ℝ := if i % 2 = 1 then -1 else 1
    [![0, 3 * R * i / 2 + 3 * R / 4 - x * R / 4, 0], ![R * √3 / 2, 3 * R * i / 2 + 3 * R / 4 + x * R / 4, 0]]

/-- `ZGNR`, lines 50-88. -/
noncomputable def zgnr (n units : ℕ) (pbc : Axis := .z) (R : ℝ := 1.42) : Struct :=
  let a0 := R * √3
  let s := Struct.ofPos (copies (zgnrUnit n R) a0 units)
  match pbc with
  | .x => (((s.setPbc true false false).setBox (units * a0) 1 1).centerVacuum 6 1).centerVacuum 6 2
  | .z => (((s.setPbc false false true).turnZ.turnX.setBox (n * 3 * R / 2 * 1.2 / 2) 1 (units * a0)).toCenter).center 2
  | .other => s

/-- The unit in `AGNR`, lines 104-111. -/
noncomputable def agnrUnit (n : ℕ) (R : ℝ) : List Vec :=
  (List.range n).flatMap fun i : ℕ =>
    let x0 : ℝ := if i % 2 = 1 then 1.5 * R else 0
    [![x0 + 0, i * (R * √3) / 2, 0], ![x0 + R, i * (R * √3) / 2, 0]]

/-- `AGNR`, lines 92-129. -/
noncomputable def agnr (n units : ℕ) (pbc : Axis := .z) (R : ℝ := 1.42) : Struct :=
  let s := Struct.ofPos (copies (agnrUnit n R) (3 * R) units)
  match pbc with
  | .x => (((s.setPbc true false false).setBox (units * 3 * R) 1 1).centerVacuum 6 1).centerVacuum 6 2
  | .z => ((s.setPbc false false true).turnZ.turnX.setBox 1 1 (units * 3 * R)).toCenter
  | .other => s

/-- The moves common to the ribbons periodic along z, lines 163-169 and 206-212. -/
noncomputable def Struct.standUp (s : Struct) : Struct :=
  let s := ((s.toCenter.turnZ.turnX).centerVacuum 5 1).toCenter
  s.translate ![0, 0, - colMin s.pos 2]

/-- The positions in `armchair_ribbon`, lines 144-154. -/
noncomputable def armchairPos (n1 n2 : ℕ) (R : ℝ) : List Vec :=
  let a1 : Vec := ![3 * R, 0, 0]
  let a2 : Vec := ![0, 2 * R * Real.cos (Real.pi / 6), 0]
  (List.range n1).flatMap fun i1 : ℕ => (List.range n2).flatMap fun i2 : ℕ =>
    let corner := (i1 : ℝ) • a1 + (i2 : ℝ) • a2
    [corner, corner + ![R, 0, 0], corner + ![1.5 * R, R * Real.cos (Real.pi / 6), 0],
      corner + ![2.5 * R, R * Real.cos (Real.pi / 6), 0]]

/-- `armchair_ribbon`, lines 131-174. -/
noncomputable def armchairRibbon (n1 n2 : ℕ) (R : ℝ) (pbc : Axis := .z) : Except Exn Struct :=
  let s := Struct.ofPos (armchairPos n1 n2 R)
  match pbc with
  | .x => .ok ((((s.setBox (n1 * 3 * R) (n2 * 2 * R * Real.cos (Real.pi / 6)) 1).centerVacuum 5 2).centerVacuum 5 1).setPbc
      true false false)
  | .z => .ok ((s.standUp.setBox (n2 * 2 * R * Real.cos (Real.pi / 6)) 1 (n1 * 3 * R)).setPbc false false true)
  | .other => .error .notImplementedError

/-- The positions in `zigzag_ribbon`, lines 186-195. -/
noncomputable def zigzagPos (n1 n2 : ℕ) (R : ℝ) : List Vec :=
  let a1 : Vec := ![2 * R * Real.cos (Real.pi / 6), 0, 0]
  let a2 : Vec := ![0, 3 * R, 0]
  (List.range n1).flatMap fun i1 : ℕ => (List.range n2).flatMap fun i2 : ℕ =>
    let corner := (i1 : ℝ) • a1 + (i2 : ℝ) • a2
    [corner + ![R * Real.cos (Real.pi / 6), R / 2, 0], corner + ![0, R, 0], corner + ![0, 2 * R, 0],
      corner + ![R * Real.cos (Real.pi / 6), 2.5 * R, 0]]

/-- `zigzag_ribbon`, lines 181-217. -/
noncomputable def zigzagRibbon (n1 n2 : ℕ) (R : ℝ) (pbc : Axis := .z) : Except Exn Struct :=
  let s := (Struct.ofPos (zigzagPos n1 n2 R)).setBox (n1 * 2 * R * Real.cos (Real.pi / 6)) (n2 * 3 * R) 1
  match pbc with
  | .x => .ok ((((s.setBox (2 * R * Real.cos (Real.pi / 6)) (n1 * 3 * R) 1).centerVacuum 5 2).centerVacuum 5 1).setPbc
      true false false)
  | .z => .ok ((s.standUp.setBox (n2 * 2 * R * Real.cos (Real.pi / 6)) 1 (n1 * 3 * R)).setPbc false false true)
  | .other => .error .notImplementedError

end Hotbit
