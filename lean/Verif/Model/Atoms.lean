import Verif.Model.Containers
import Verif.Model.Mix

/-!
# `hotbit/atoms.py`: construction, container marker, parameters, copies
-/

namespace Hotbit

open Real Matrix

/-! ## `container_magic` -/

/-- `magic = -0.0123454321`, `atoms.py:17`. -/
noncomputable def magic : ℝ := -0.0123454321

/-- The list of container names, `atoms.py:16`. -/
def magicList : List CType :=
  [.wedge, .chiral, .doubleChiral, .sphere, .slab, .chiralWedge, .wedgeYAxis, .twistAndTurn,
   .chiralGeneral]

/-- Python list indexing `l[i]` with an int: negative indices count from the end, out of range
raises `IndexError`. -/
def pyIndex {α : Type} (l : List α) (i : ℤ) : Except Exn α :=
  let j := if i < 0 then i + l.length else i
  if j < 0 then .error .indexError
  else match l[j.toNat]? with
    | some x => .ok x
    | none => .error .indexError

open Classical in
/-- `container_magic(atoms)` without container argument, `atoms.py:18-25`. -/
noncomputable def readMagic (cell : Mat) : Except Exn CType :=
  let x := cell 0 0 / magic
  if |x| > 1e-10 ∧ |(pyRound x : ℝ) - x| < 1e-10 then pyIndex magicList (pyInt (x - 1))
  else .ok .bravais

/-- `lst.index(container)+1`, `atoms.py:28` (0 for Bravais, which is not in the list). -/
def magicNumber : CType → ℕ
  | .bravais => 0
  | .wedge => 1
  | .chiral => 2
  | .doubleChiral => 3
  | .sphere => 4
  | .slab => 5
  | .chiralWedge => 6
  | .wedgeYAxis => 7
  | .twistAndTurn => 8
  | .chiralGeneral => 9

/-- Writing one entry of the cell: `cell[i,j]=v; atoms.set_cell(cell)`. -/
def setEntry (cell : Mat) (i j : Fin 3) (v : ℝ) : Mat :=
  fun a b => if a = i ∧ b = j then v else cell a b

/-- `container_magic(atoms,container=type)`, `atoms.py:27-30`. -/
noncomputable def writeMagic (cell : Mat) (c : CType) : Mat :=
  if c = .bravais then cell else setEntry cell 0 0 (magicNumber c * magic)

/-! ## Construction -/

/-- What the container constructors do to `pbc`: `bravais.py:8-16` nothing, `chiral.py:22`,
`wedge.py:31`, `doublechiral.py:44`, `sphere.py:27-38` nothing, `slab.py:28`, `chiralwedge.py:24`,
`wedgeyaxis.py:33`, `twistandturn.py:26`, `chiralgeneral.py:24`. -/
def ctorPbc (c : CType) (pbc : Fin 3 → Bool) : Fin 3 → Bool :=
  match c with
  | .bravais => pbc
  | .sphere => pbc
  | .chiral => ![false, false, true]
  | .wedge => ![true, false, pbc 2]
  | .doubleChiral => ![true, false, true]
  | .slab => ![true, true, true]
  | .chiralWedge => ![true, false, true]
  | .wedgeYAxis => ![true, false, pbc 2]
  | .twistAndTurn => ![false, false, true]
  | .chiralGeneral => ![true, true, false]

/-- `Atoms(atoms=a, container=type)` for a given type, `atoms.py:65-84` with no further container
keywords. `Slab` starts with `x = 0`. -/
noncomputable def construct (c : CType) (atoms : List (String × Vec)) (cell : Mat)
    (pbc : Fin 3 → Bool) : Atoms where
  ctype := c
  atoms := atoms
  cell := writeMagic cell c
  pbc := ctorPbc c pbc
  slabX := fun _ => 0

/-- `Atoms.copy`, `atoms.py:251-254`. -/
noncomputable def Atoms.copy (A : Atoms) : Atoms := construct A.ctype A.atoms A.cell A.pbc

/-- `Elements._update_atoms` for a plain `ase.Atoms`, `elements.py:169-173`: the type is read from
the cell. -/
noncomputable def fromAse (atoms : List (String × Vec)) (cell : Mat) (pbc : Fin 3 → Bool) :
    Except Exn Atoms := do
  let c ← readMagic cell
  return (construct c atoms cell pbc).copy

/-! ## Container parameters -/

/-- Parameter names (keyword strings in the code). -/
inductive Key
  | height | angle | pbcz | physical | pbc | twist | x | trans1 | angle1 | trans2 | angle2
  | bendAngle | twistAngle | R | mode
  deriving DecidableEq, Repr

/-- `self.par`: `wedge.py:30`, `chiral.py:21`, `doublechiral.py:43`, `chiralwedge.py:23`,
`wedgeyaxis.py:32`, `twistandturn.py:24`, `chiralgeneral.py:23`, `sphere.py:37` (scalar
parameters only: n1, n2 are slices and not included here). -/
def par : CType → Key → Option (Fin 3 × Fin 3)
  | .wedge, .height => some (1, 0)
  | .wedge, .angle => some (2, 0)
  | .wedge, .pbcz => some (0, 1)
  | .wedge, .physical => some (1, 1)
  | .chiral, .height => some (1, 0)
  | .chiral, .angle => some (2, 0)
  | .doubleChiral, .angle => some (1, 0)
  | .doubleChiral, .height => some (2, 0)
  | .doubleChiral, .x => some (0, 1)
  | .chiralWedge, .height => some (1, 0)
  | .chiralWedge, .twist => some (0, 1)
  | .chiralWedge, .angle => some (2, 0)
  | .chiralWedge, .physical => some (1, 1)
  | .wedgeYAxis, .height => some (1, 0)
  | .wedgeYAxis, .angle => some (2, 0)
  | .wedgeYAxis, .pbc => some (0, 1)
  | .wedgeYAxis, .physical => some (1, 1)
  | .twistAndTurn, .bendAngle => some (0, 1)
  | .twistAndTurn, .twistAngle => some (0, 2)
  | .twistAndTurn, .R => some (1, 2)
  | .chiralGeneral, .trans1 => some (1, 0)
  | .chiralGeneral, .angle1 => some (2, 0)
  | .chiralGeneral, .trans2 => some (0, 1)
  | .chiralGeneral, .angle2 => some (1, 1)
  | .chiralGeneral, .physical => some (2, 1)
  | .sphere, .angle1 => some (0, 1)
  | .sphere, .angle2 => some (0, 2)
  | .sphere, .mode => some (1, 2)
  | _, _ => none

/-- A parameter value as `get` returns it. -/
inductive Val
  | real (x : ℝ)
  | bool (b : Bool)
  | int (z : ℤ)

/-- The exception of `get` for an unknown key: `AssertionError` in `chiral.py:50-51` and
`doublechiral.py:73-74`, `KeyError` from the dictionary elsewhere. Bravais and Slab have no `get`. -/
def getError : CType → Exn
  | .chiral => .assertionError
  | .doubleChiral => .assertionError
  | .bravais => .attributeError
  | .slab => .attributeError
  | .twistAndTurn => .unboundLocalError
  | _ => .keyError

/-- `container.get(key)`: `wedge.py:59-72`, `chiral.py:42-55`, `doublechiral.py:66-74`,
`chiralwedge.py:45-55`, `wedgeyaxis.py:61-74`, `twistandturn.py:42-59`, `chiralgeneral.py:43-53`,
`sphere.py:54-66`. -/
noncomputable def Atoms.getPar (A : Atoms) (k : Key) : Except Exn Val :=
  match par A.ctype k with
  | none => .error (getError A.ctype)
  | some (i, j) =>
    if A.ctype = .wedge ∧ k = .pbcz then .ok (.bool (A.pbc 2))
    else if A.ctype = .wedgeYAxis ∧ k = .pbc then .ok (.bool (A.pbc 1))
    else if A.ctype = .twistAndTurn ∧ k = .R then .ok (.real A.tatR)
    else if k = .physical then .ok (.bool (decide (pyRound (A.cell i j) ≠ 0)))
    else if k = .mode then .ok (.int (pyInt (A.cell i j)))
    else .ok (.real (A.cell i j))

open Classical in
/-- `container._set(key=v)`: `wedge.py:74-82`, `chiral.py:57-61`, `doublechiral.py:77-82`,
`chiralwedge.py:57-62`, `wedgeyaxis.py:76-84`, `twistandturn.py:61-69`, `chiralgeneral.py:55-60`,
`sphere.py:68-79`. Booleans are passed as floats. -/
noncomputable def Atoms.setPar (A : Atoms) (k : Key) (v : ℝ) : Except Exn Atoms :=
  if A.ctype = .wedge ∧ k = .pbcz then .ok { A with pbc := ![true, false, decide (v ≠ 0)] }
  else if A.ctype = .wedgeYAxis ∧ k = .pbc then
    .ok { A with pbc := ![true, decide (v ≠ 0), false] }
  else match par A.ctype k with
    | none => .error .keyError
    | some (i, j) => .ok { A with cell := setEntry A.cell i j v }

/-! ## `Wedge.set` in full -/

/-- A Python computation that mutates the atoms object and may raise: final state and outcome. -/
abbrev Eff := Atoms × Option Exn

/-- Keyword arguments of `Wedge.set`, `wedge.py:85` (without `container`). -/
structure WedgeArgs where
  angle : Option ℝ := none
  height : Option ℝ := none
  M : Option ℤ := none
  physical : Bool := true
  pbcz : Option Bool := none
  scaleAtoms : Bool := false

/-- `float(b)`. -/
noncomputable def boolFloat (b : Bool) : ℝ := if b then 1 else 0

/-- One wedge `_set` on an existing key (never fails), `wedge.py:79-82`. -/
noncomputable def wedgeWrite (A : Atoms) (i j : Fin 3) (v : ℝ) : Atoms :=
  { A with cell := setEntry A.cell i j v }

open Classical in
/-- Scaled position of one atom, `wedge.py:131-138`. -/
noncomputable def wedgeScale (old new : ℝ) (r : Vec) : Except Exn Vec := do
  let rad := √(r 0 ^ 2 + r 1 ^ 2)
  let phi0 ← phival (r 0) (r 1)
  let oldphi := if phi0 > π then phi0 - 2 * π else phi0
  let newphi := oldphi * (new / old)
  let rad2 := rad * old / new
  return ![rad2 * cos newphi, rad2 * sin newphi, r 2]

open Classical in
/-- Write the angle and determine `M`, `wedge.py:109-114`. -/
noncomputable def wedgeStep (A : Atoms) (a : WedgeArgs) : Except Exn (ℤ × Atoms) :=
  match a.M, a.angle with
  | some M, _ => if M = 0 then .error .zeroDivisionError
                 else .ok (M, wedgeWrite A 2 0 (2 * π / M))
  | none, some ang => if ang = 0 then .error .zeroDivisionError
                 else .ok (pyRound (2 * π / ang), wedgeWrite A 2 0 ang)
  | none, none => .ok (0, A)   -- not reached, see the guard in `wedgeSet`

open Classical in
/-- Checks and scaling after the angle was written, `wedge.py:117-139` (warnings are not modelled). -/
noncomputable def wedgeCheck (A2 : Atoms) (oldAngle : ℝ) (M : ℤ) (scaleAtoms : Bool) : Eff :=
  if A2.wedgeAngle < 1e-6 then (A2, some .warning)
  else if A2.wedgeAngle > π then (A2, some .assertionError)
  else if |(M : ℝ) - 2 * π / A2.wedgeAngle| > 1e-12 ∧ pyRound (A2.cell 1 1) ≠ 0 then
    (A2, some .assertionError)
  else if scaleAtoms = true then
    if |oldAngle| < 1e-10 then (A2, some .valueError)
    else match A2.atoms.mapM (fun p => do
        let r ← wedgeScale oldAngle A2.wedgeAngle p.2; return (p.1, r)) with
      | .error e => (A2, some e)
      | .ok l => ({ A2 with atoms := l }, none)
  else (A2, none)

/-- The `if angle!=None or M!=None` block, `wedge.py:105-139`. -/
noncomputable def wedgeSetAngle (A : Atoms) (a : WedgeArgs) : Eff :=
  if a.angle.isSome ∧ a.M.isSome then (A, some .assertionError)
  else match wedgeStep A a with
    | .error e => (A, some e)
    | .ok (M, A1) =>
      wedgeCheck (wedgeWrite A1 1 1 (boolFloat a.physical)) A.wedgeAngle M a.scaleAtoms

/-- `if height!=None` block, `wedge.py:141-146`. -/
noncomputable def wedgeSetHeight (A : Atoms) (a : WedgeArgs) : Atoms :=
  match a.height with
  | none => A
  | some h =>
    let A1 := if a.scaleAtoms then
        { A with atoms := A.atoms.map fun p =>
            (p.1, ![p.2 0, p.2 1, p.2 2 * h / A.wedgeHeight]) }
      else A
    wedgeWrite A1 1 0 h

/-- `Wedge.set(**kw)`, `wedge.py:85-149` (`container=None`). -/
noncomputable def wedgeSet (A : Atoms) (a : WedgeArgs) : Eff :=
  let s1 : Eff := if a.angle.isSome ∨ a.M.isSome then wedgeSetAngle A a else (A, none)
  match s1 with
  | (A1, some e) => (A1, some e)
  | (A1, none) =>
    let A2 := wedgeSetHeight A1 a
    match a.pbcz with
    | none => (A2, none)
    | some b => ({ A2 with pbc := ![true, false, b] }, none)

/-! ## `extended_copy` -/

/-- One component of a tuple request: an int count, a 2-tuple `(a,b)`, or something else. -/
inductive Extent
  | count (n : ℤ)
  | span (a b : ℤ)
  | other
  deriving DecidableEq

/-- The argument of `extended_copy`: a list of operations, a 3-tuple, or something else. -/
inductive Request
  | list (l : List Op)
  | tuple (e : Fin 3 → Extent)
  | other

/-- `np.arange(a,b)` for ints. -/
def arange (a b : ℤ) : List ℤ := (List.range (b - a).toNat).map fun k : ℕ => a + (k : ℤ)

/-- `atoms.py:204-216`: the operations of one direction; `none` when nothing is appended. -/
def extentOps (lo : Bound) : Extent → Except Exn (Option (List ℤ))
  | .span a b => .ok (some (arange a (b + 1)))
  | .count n =>
    if n ≤ 0 then .error .assertionError
    else match lo with
      | .negInf => .ok (some (arange 0 n))
      | .fin l => let start := max l (-n / 2); .ok (some (arange start (start + n)))
      | .posInf => .ok none -- cannot occur: lower ends are never +Inf
  | .other => .ok none

/-- `atoms.py:219-223`: the operations in lexicographic order. -/
def productOps (a b c : List ℤ) : List Op :=
  a.flatMap fun n1 => b.flatMap fun n2 => c.map fun n3 => ![n1, n2, n3]

/-- `atoms.py:199-223`: the list of operations asked for. -/
noncomputable def requestOps (A : Atoms) : Request → Except Exn (List Op)
  | .list l => .ok l
  | .other => .error .unboundLocalError
  | .tuple e => do
    let o0 ← extentOps (A.ranges 0).1 (e 0)
    let o1 ← extentOps (A.ranges 1).1 (e 1)
    let o2 ← extentOps (A.ranges 2).1 (e 2)
    match o0, o1, o2 with
    | some a, some b, some c => return productOps a b c
    | _, _, _ => throw .indexError

/-- `atoms.py:226-234`: accumulate the images, `none` as long as no operation was done. -/
noncomputable def extendLoop (A : Atoms) :
    List Op → Option (List (String × Vec)) → Except Exn (Option (List (String × Vec)))
  | [], acc => .ok acc
  | n :: ns, acc => do
    A.checkOp n
    let img ← A.atoms.mapM fun p => do
      let r ← A.transform p.2 n
      return (p.1, r)
    extendLoop A ns (some (match acc with | none => img | some l => l ++ img))

/-- `extended_copy`, `atoms.py:185-238`: atoms of the returned `ase.Atoms` (its pbc is False and its
cell the unit cell). With no operation at all, `None.set_pbc` raises `AttributeError`. -/
noncomputable def Atoms.extendedCopy (A : Atoms) (q : Request) :
    Except Exn (List (String × Vec)) := do
  let ops ← requestOps A q
  match ← extendLoop A ops none with
  | none => throw .attributeError
  | some l => return l

end Hotbit
