import Verif.Model.Basic

/-!
# Containers (generalized unit cells) and `hotbit.Atoms`

Models `hotbit/containers/*.py` and `hotbit/atoms.py`.
The container parameters live in entries of the 3x3 cell matrix, exactly as in the code.
-/

namespace Hotbit

open Real Matrix

/-- Container types; the constructors are the class names in `hotbit/containers`.
`Saddle`, `Gaussian` and `ContainerTest1` are not modelled (they cannot be stored by
`container_magic`, `hotbit/atoms.py:16`). -/
inductive CType
  | bravais | wedge | chiral | doubleChiral | sphere | slab | chiralWedge
  | wedgeYAxis | twistAndTurn | chiralGeneral
  deriving DecidableEq, Repr

/-- A `hotbit.Atoms` object: list of (symbol, position), cell, pbc, container type and the only
container attribute that is not kept in the cell, `Slab.x` (`slab.py:27`). -/
structure Atoms where
  ctype : CType
  atoms : List (String × Vec)
  cell : Mat
  pbc : Fin 3 → Bool
  slabX : Fin 2 → ℝ := fun _ => 0

/-- Positions (`get_positions`). -/
def Atoms.positions (A : Atoms) : List Vec := A.atoms.map Prod.snd

/-- `R = [[cos,-sin,0],[sin,cos,0],[0,0,1]]`; `chiral.py:115`, `wedge.py:186`,
`chiralwedge.py:158`, `doublechiral.py:146`, `chiralgeneral.py:114`. -/
noncomputable def rotZ (a : ℝ) : Mat :=
  !![cos a, -sin a, 0; sin a, cos a, 0; 0, 0, 1]

/-- `R = [[cos,0,sin],[0,1,0],[-sin,0,cos]]`; `wedgeyaxis.py:183`. -/
noncomputable def rotY (a : ℝ) : Mat :=
  !![cos a, 0, sin a; 0, 1, 0; -sin a, 0, cos a]

/-- Euclidean norm, `np.linalg.norm`. -/
noncomputable def norm3 (v : Vec) : ℝ := √(v 0 ^ 2 + v 1 ^ 2 + v 2 ^ 2)

/-- `box/mix.py:221-229`, `rotation_matrix(axis,angle)` (division by a zero norm gives NaN in
Python; here `x/0=0`, theorems assume a non-zero axis). -/
noncomputable def rotationMatrix (axis : Vec) (angle : ℝ) : Mat :=
  let n1 := axis 0 / norm3 axis
  let n2 := axis 1 / norm3 axis
  let n3 := axis 2 / norm3 axis
  let c := cos angle
  let s := sin angle
  let cc := 1 - c
  !![n1^2*cc + c, n1*n2*cc - n3*s, n1*n3*cc + n2*s;
     n1*n2*cc + n3*s, n2^2*cc + c, n2*n3*cc - n1*s;
     n1*n3*cc - n2*s, n2*n3*cc + n1*s, n3^2*cc + c]

/-! ## Parameters (`self.par` tables and `get`) -/

/-- Wedge `angle` at `(2,0)`, `wedge.py:30,68`. -/
def Atoms.wedgeAngle (A : Atoms) : ℝ := A.cell 2 0
/-- Wedge `height` at `(1,0)`, `wedge.py:30,68`. -/
def Atoms.wedgeHeight (A : Atoms) : ℝ := A.cell 1 0
/-- Wedge `pbcz` is `pbc[2]`, `wedge.py:65-66`. -/
def Atoms.wedgePbcz (A : Atoms) : Bool := A.pbc 2
/-- WedgeYAxis `pbc` is `pbc[1]`, `wedgeyaxis.py:67-68`. -/
def Atoms.wedgeYPbc (A : Atoms) : Bool := A.pbc 1

/-- Sphere parameters, `sphere.py:37,54-66`. -/
def Atoms.sphereAngle1 (A : Atoms) : ℝ := A.cell 0 1
def Atoms.sphereAngle2 (A : Atoms) : ℝ := A.cell 0 2
def Atoms.sphereN1 (A : Atoms) : Vec := ![A.cell 1 0, A.cell 1 1, 0]
def Atoms.sphereN2 (A : Atoms) : Vec := ![A.cell 2 0, A.cell 2 1, 0]
noncomputable def Atoms.sphereMode (A : Atoms) : ℤ := pyInt (A.cell 1 2)

open Classical in
/-- TwistAndTurn `R`, `twistandturn.py:53-58`: the stored value, or the mean distance of the
atoms from the z axis if the stored one is (numerically) zero. -/
noncomputable def Atoms.tatR (A : Atoms) : ℝ :=
  if |A.cell 1 2| < 1e-16 then
    ((A.positions.map fun r => √(r 0 ^ 2 + r 1 ^ 2)).sum) / (A.positions.length : ℝ)
  else A.cell 1 2

/-! ## Ranges -/

/-- `M = int(round(2*pi/angle))`, `wedge.py:160`, `wedgeyaxis.py:156`, `chiralwedge.py:42`. -/
noncomputable def wedgeM (angle : ℝ) : ℤ := pyRound (2 * π / angle)

/-- The angular range: `i=M//2`; odd `[-i,i]`, even `[-i+1,i]`; `wedge.py:161-168`,
`wedgeyaxis.py:157-164`, `chiralwedge.py:139-144`. (`//` and `np.mod` are floor division.) -/
def angularRange (M : ℤ) : ℤ × ℤ :=
  let i := M / 2
  if M % 2 = 1 then (-i, i) else (-i + 1, i)

abbrev Ranges := Fin 3 → Bound × Bound

def rangeZero : Bound × Bound := (.fin 0, .fin 0)
def rangeInf : Bound × Bound := (.negInf, .posInf)
def rangeOf (p : ℤ × ℤ) : Bound × Bound := (.fin p.1, .fin p.2)

/-- `get_symmetry_operation_ranges` of each container: `bravais.py:61-71`, `wedge.py:158-169`,
`chiral.py:103-105`, `doublechiral.py:133-135`, `sphere.py:140-143`, `slab.py:96-98`,
`chiralwedge.py:136-145`, `wedgeyaxis.py:154-165`, `twistandturn.py:131-134`,
`chiralgeneral.py:97-101`. -/
noncomputable def Atoms.ranges (A : Atoms) : Ranges :=
  match A.ctype with
  | .bravais => fun i => if A.pbc i then rangeInf else rangeZero
  | .wedge => ![rangeOf (angularRange (wedgeM A.wedgeAngle)), rangeZero,
      if A.wedgePbcz then rangeInf else rangeZero]
  | .chiral => ![rangeZero, rangeZero, rangeInf]
  | .doubleChiral => ![(.fin 0, .fin 1), rangeZero, rangeInf]
  | .sphere => ![rangeInf, rangeInf, rangeZero]
  | .slab => ![rangeInf, rangeInf, (.fin 0, .fin 1)]
  | .chiralWedge => ![rangeOf (angularRange (wedgeM |A.wedgeAngle|)), rangeZero, rangeInf]
  | .wedgeYAxis => ![rangeOf (angularRange (wedgeM A.wedgeAngle)),
      if A.wedgeYPbc then rangeInf else rangeZero, rangeZero]
  | .twistAndTurn => ![rangeZero, rangeZero, rangeInf]
  | .chiralGeneral => ![rangeInf, rangeInf, rangeZero]

/-! ## Rotations -/

/-- `sphere.py:149-189` without `angles`. `self.mode` is the class attribute 4 (set in the
constructor, line 36, and never changed), so the test in line 156 is false; `mode` is the stored one. -/
noncomputable def sphereRotation (A : Atoms) (n : Op) : Mat :=
  if n 0 = n 1 ∧ n 1 = 0 then 1
  else
    let n1 := A.sphereN1
    let n2 := A.sphereN2
    if A.sphereMode = 3 then
      let R1 := rotationMatrix n1 ((n 0).sign * A.sphereAngle1)
      let R2 := rotationMatrix n2 ((n 1).sign * A.sphereAngle2)
      let m := min (n 0).natAbs (n 1).natAbs
      R2 ^ ((n 1).natAbs - m) * (R1 ^ ((n 0).natAbs - m) * (R2 * R1) ^ m)
    else
      let a1 := A.sphereAngle1 * n 0
      let a2 := A.sphereAngle2 * n 1
      rotationMatrix (fun i => A.sphereAngle1 * n 0 * n1 i + A.sphereAngle2 * n 1 * n2 i)
        √(a1 ^ 2 + a2 ^ 2 + 2 * a1 * a2 * (n1 0 * n2 0 + n1 1 * n2 1 + n1 2 * n2 2))

/-- `container.rotation(n)` of each container: `bravais.py:82-84`, `wedge.py:180-187`,
`chiral.py:112-116`, `doublechiral.py:143-147`, `sphere.py:149-189`, `slab.py:113-120`,
`chiralwedge.py:155-162`, `wedgeyaxis.py:176-184`, `twistandturn.py:157-188`,
`chiralgeneral.py:111-118`. -/
noncomputable def Atoms.rawRotation (A : Atoms) (n : Op) : Mat :=
  match A.ctype with
  | .bravais => 1
  | .wedge => rotZ (n 0 * A.wedgeAngle)
  | .chiral => rotZ (n 2 * A.cell 2 0)
  | .doubleChiral => rotZ (n 2 * A.cell 1 0 + n 0 * (π + A.cell 1 0 * A.cell 0 1))
  | .sphere => sphereRotation A n
  | .slab => if n 2 = 0 then 1 else !![1, 0, 0; 0, 1, 0; 0, 0, -1]
  | .chiralWedge => rotZ (n 0 * A.cell 2 0 + n 2 * A.cell 0 1)
  | .wedgeYAxis => rotY (n 0 * A.wedgeAngle)
  | .twistAndTurn =>
      if n 2 = 0 then 1 else
      let bend := A.cell 0 1
      let twist := A.cell 0 2
      rotationMatrix ![-sin (bend / 2), cos (bend / 2), 0] (n 2 * twist) *
        rotationMatrix ![0, 0, 1] (n 2 * bend)
  | .chiralGeneral => rotZ (n 0 * A.cell 2 0 + n 1 * A.cell 1 1)

/-! ## Transformations -/

/-- `np.cross`. -/
def cross3 (a b : Vec) : Vec :=
  ![a 1 * b 2 - a 2 * b 1, a 2 * b 0 - a 0 * b 2, a 0 * b 1 - a 1 * b 0]

/-- `twistandturn.py:136-147`, `transform_arbitrary`. -/
noncomputable def tatTransform (R : ℝ) (r : Vec) (bend twist : ℝ) : Vec :=
  let Rp : Vec := ![r 0, r 1, 0]
  let Rv : Vec := fun i => R * Rp i / norm3 Rp
  let rho : Vec := r - Rv
  let t := cross3 ![0, 0, 1] r
  (rotationMatrix ![0, 0, 1] bend).mulVec (Rv + (rotationMatrix t twist).mulVec rho)

/-- `slab.py:101-111`. -/
noncomputable def slabTransform (A : Atoms) (r : Vec) (n : Op) : Vec :=
  let r1 := r + (n 0 : ℝ) • A.cell 0
  let r2 := if n 2 = 1 then r1 + A.slabX 0 • A.cell 0 else r1
  let r3 := r2 + (n 1 : ℝ) • A.cell 1
  let r4 := if n 2 = 1 then r3 + A.slabX 1 • A.cell 1 else r3
  if n 2 = 1 then ![r4 0, r4 1, -r4 2] else r4

/-- `container.transform(r,n)` of each container: `bravais.py:74-80`, `wedge.py:172-178`,
`chiral.py:107-110`, `doublechiral.py:137-140`, `sphere.py:145-147`, `slab.py:101-111`,
`chiralwedge.py:148-153`, `wedgeyaxis.py:168-174`, `twistandturn.py:149-155`,
`chiralgeneral.py:104-109`. -/
noncomputable def Atoms.rawTransform (A : Atoms) (r : Vec) (n : Op) : Vec :=
  match A.ctype with
  | .bravais => r + (n 0 : ℝ) • A.cell 0 + (n 1 : ℝ) • A.cell 1 + (n 2 : ℝ) • A.cell 2
  | .wedge => (A.rawRotation n).mulVec r +
      (if A.wedgePbcz then (n 2 : ℝ) • ![0, 0, A.wedgeHeight] else 0)
  | .chiral => (A.rawRotation n).mulVec r + ![0, 0, n 2 * A.cell 1 0]
  | .doubleChiral => (A.rawRotation n).mulVec r +
      ![0, 0, (n 2 + n 0 * A.cell 0 1) * A.cell 2 0]
  | .sphere => (A.rawRotation n).mulVec r
  | .slab => slabTransform A r n
  | .chiralWedge => (A.rawRotation n).mulVec r + (n 2 : ℝ) • ![0, 0, A.cell 1 0]
  | .wedgeYAxis => (A.rawRotation n).mulVec r +
      (if A.wedgeYPbc then (n 1 : ℝ) • ![0, A.wedgeHeight, 0] else 0)
  | .twistAndTurn =>
      if n 2 = 0 then r else tatTransform A.tatR r (n 2 * A.cell 0 1) (n 2 * A.cell 0 2)
  | .chiralGeneral => (A.rawRotation n).mulVec r +
      ((n 0 : ℝ) • ![0, 0, A.cell 1 0] + (n 1 : ℝ) • ![0, 0, A.cell 0 1])

/-! ## Guarded API of `hotbit.Atoms` -/

/-- The loop `for i in range(3): if not a<=n[i]<=b: raise ValueError`, `atoms.py:134-138`. -/
noncomputable def Atoms.checkOp (A : Atoms) (n : Op) : Except Exn Unit := do
  let r := A.ranges
  for i in [0, 1, 2] do
    if !((r i).1.leInt (n i) && (r i).2.geInt (n i)) then
      throw Exn.valueError
  return ()

/-- `Atoms.transform`, `atoms.py:141-149`. -/
noncomputable def Atoms.transform (A : Atoms) (r : Vec) (n : Op) : Except Exn Vec := do
  A.checkOp n
  return A.rawTransform r n

/-- `Atoms.rotation(n)`, `atoms.py:178-183` (`angles=False`). -/
noncomputable def Atoms.rotation (A : Atoms) (n : Op) : Except Exn Mat := do
  A.checkOp n
  return A.rawRotation n

/-- `get_table` entry: number of operations (`none` = `np.Inf`) and the equivalent operation. -/
structure TableEntry where
  M : Option ℤ
  equivalent : Option Op := none

/-- `get_table`: `bravais.py:50-58`, `wedge.py:51-56`, `chiral.py:27-28`, `doublechiral.py:58-63`,
`sphere.py:51-52`, `slab.py:48-54` (Slab has no `get_table`, the attribute `table` is used here),
`chiralwedge.py:41-43`, `wedgeyaxis.py:53-58`, `twistandturn.py:39-40`, `chiralgeneral.py:39-41`. -/
noncomputable def Atoms.table (A : Atoms) : Fin 3 → TableEntry :=
  open Classical in
  match A.ctype with
  | .bravais => fun i => if A.pbc i then ⟨none, none⟩ else ⟨some 0, none⟩
  | .wedge => ![⟨some (wedgeM A.wedgeAngle), none⟩, ⟨some 1, none⟩,
      if A.wedgePbcz then ⟨none, none⟩ else ⟨some 1, none⟩]
  | .chiral => ![⟨some 1, none⟩, ⟨some 1, none⟩, ⟨none, none⟩]
  | .doubleChiral =>
      if 1e-12 < |A.cell 0 1| then
        ![⟨some 2, some ![0, 0, pyRound (2 * A.cell 0 1)]⟩, ⟨some 1, none⟩, ⟨none, none⟩]
      else ![⟨some 2, none⟩, ⟨some 1, none⟩, ⟨none, none⟩]
  | .sphere => ![⟨none, none⟩, ⟨none, none⟩, ⟨some 1, none⟩]
  | .slab =>
      if 1e-12 < |A.slabX 0| ∨ 1e-12 < |A.slabX 1| then
        ![⟨none, none⟩, ⟨none, none⟩,
          ⟨some 2, some ![pyRound (2 * A.slabX 0), pyRound (2 * A.slabX 1), 0]⟩]
      else ![⟨none, none⟩, ⟨none, none⟩, ⟨some 2, none⟩]
  | .chiralWedge => ![⟨some (wedgeM A.wedgeAngle), none⟩, ⟨some 1, none⟩, ⟨none, none⟩]
  | .wedgeYAxis => ![⟨some (wedgeM A.wedgeAngle), none⟩,
      (if A.wedgeYPbc then ⟨none, none⟩ else ⟨some 1, none⟩), ⟨some 1, none⟩]
  | .twistAndTurn => ![⟨some 1, none⟩, ⟨some 1, none⟩, ⟨none, none⟩]
  | .chiralGeneral => ![⟨none, none⟩, ⟨none, none⟩, ⟨some 1, none⟩]

/-- `Elements.get_number_of_transformations`, `elements.py:436-447` (`none` = `np.Inf`). -/
noncomputable def Atoms.numberOfTransformations (A : Atoms) : Fin 3 → Option ℤ := fun i =>
  match A.ranges i with
  | (.fin a, .fin b) => some (b - a + 1)
  | _ => none

/-- `is_cluster`, `atoms.py:121-125`. -/
noncomputable def Atoms.isCluster (A : Atoms) : Bool :=
  [0, 1, 2].all fun i : Fin 3 => match A.ranges i with
    | (.fin _, .fin _) => true
    | _ => false

end Hotbit
