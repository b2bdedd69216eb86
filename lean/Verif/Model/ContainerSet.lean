import Verif.Model.Atoms

/-!
# `container.set` of the containers other than `Wedge`

`hotbit/containers/*.py` and `Atoms.set_container`, `hotbit/atoms.py:102-111`.

The argument `container` is an `Option Atoms`: the container object of these atoms. The test `container!=None` calls the container's
`__eq__`, which (except for `Slab`) looks for `None.atoms` and raises `AttributeError` (`chiral.py:100-101`, `doublechiral.py:130-131`,
`chiralwedge.py:132-133`, `wedgeyaxis.py:150-151`, `twistandturn.py:127-128`, `chiralgeneral.py:93-94`, `sphere.py:116-117`).
-/

namespace Hotbit

open Real Matrix

/-- `if v!=None: self._set(key=v)` for the key at `(i,j)`. -/
noncomputable def optWrite (A : Atoms) (i j : Fin 3) : Option ℝ → Atoms
  | none => A
  | some v => wedgeWrite A i j v

/-- New positions for all atoms, `self.atoms.set_positions(newr)`; nothing is changed when one of them cannot be calculated. -/
noncomputable def moveAll (A : Atoms) (f : Vec → Except Exn Vec) : Eff :=
  match A.atoms.mapM (fun p => do let r ← f p.2; return (p.1, r)) with
  | .error e => (A, some e)
  | .ok l => ({ A with atoms := l }, none)

/-- The new position of an atom when angle and height change, `chiral.py:90-97`, `doublechiral.py:120-127`. -/
noncomputable def helixMove (da oldH newH : ℝ) (r : Vec) : Except Exn Vec := do
  let rad := √(r 0 ^ 2 + r 1 ^ 2)
  let frac := r 2 / oldH
  let phi ← phival (r 0) (r 1)
  let newphi := phi + frac * da
  return ![rad * cos newphi, rad * sin newphi, frac * newH]

/-- `da`, `chiral.py:80-83`, `doublechiral.py:110-113`. -/
noncomputable def angleChange (old : ℝ) : Option ℝ → ℝ
  | none => 0
  | some v => v - old

/-- Arguments of `Chiral.set`. -/
structure ChiralArgs where
  angle : Option ℝ := none
  height : Option ℝ := none
  scaleAtoms : Bool := false
  container : Option Atoms := none

/-- `Chiral.set`, `chiral.py:64-98`. -/
noncomputable def chiralSet (A : Atoms) (a : ChiralArgs) : Eff :=
  if a.container.isSome then (A, some .attributeError)
  else if a.scaleAtoms = false then (optWrite (optWrite A 2 0 a.angle) 1 0 a.height, none)
  else
    let da := angleChange (A.cell 2 0) a.angle
    let A1 := optWrite A 2 0 a.angle
    let A2 := optWrite A1 1 0 a.height
    moveAll A2 (helixMove da (A1.cell 1 0) (A2.cell 1 0))

/-- Arguments of `DoubleChiral.set`. -/
structure DoubleChiralArgs where
  angle : Option ℝ := none
  height : Option ℝ := none
  x : Option ℝ := none
  scaleAtoms : Bool := false
  container : Option Atoms := none

/-- `abs(np.round(2*x)-2*x)<1E-15`, `doublechiral.py:101`. -/
noncomputable def halfInteger (x : ℝ) : Prop := |(pyRound (2 * x) : ℝ) - 2 * x| < 1e-15

open Classical in
/-- `DoubleChiral.set`, `doublechiral.py:85-128`. -/
noncomputable def doubleChiralSet (A : Atoms) (a : DoubleChiralArgs) : Eff :=
  if a.container.isSome then (A, some .attributeError)
  else if (∃ x, a.x = some x ∧ ¬ halfInteger x) then (A, some .assertionError)
  else if a.scaleAtoms = false then
    (optWrite (optWrite (optWrite A 1 0 a.angle) 2 0 a.height) 0 1 a.x, none)
  else if a.x.isSome then (A, some .assertionError)
  else
    let da := angleChange (A.cell 1 0) a.angle
    let A1 := optWrite A 1 0 a.angle
    let A2 := optWrite A1 2 0 a.height
    moveAll A2 (helixMove da (A1.cell 2 0) (A2.cell 2 0))

/-- Arguments of `ChiralWedge.set`. -/
structure ChiralWedgeArgs where
  angle : Option ℝ := none
  height : Option ℝ := none
  M : Option ℤ := none
  physical : Bool := true
  twist : Option ℝ := none
  scaleAtoms : Bool := false
  container : Option Atoms := none

/-- `chiralwedge.py:110-114`: the polar angle is scaled, the radius kept. -/
noncomputable def fanMove (old new : ℝ) (r : Vec) : Except Exn Vec := do
  let rad := √(r 0 ^ 2 + r 1 ^ 2)
  let phi ← phival (r 0) (r 1)
  let newphi := phi * (new / old)
  return ![rad * cos newphi, rad * sin newphi, r 2]

open Classical in
/-- `chiralwedge.py:88-93`: the new angle and `M`. -/
noncomputable def chiralWedgeStep (A : Atoms) (M : Option ℤ) (angle : Option ℝ) : Except Exn (ℤ × Atoms) :=
  match M, angle with
  | some M, _ => if M = 0 then .error .zeroDivisionError else .ok (M, wedgeWrite A 2 0 (2 * π / M))
  | none, some ang => if ang = 0 then .error .zeroDivisionError
                      else .ok (|pyRound (2 * π / ang)|, wedgeWrite A 2 0 ang)
  | none, none => .ok (0, A)   -- not reached

open Classical in
/-- `chiralwedge.py:97-115`, checks and scaling (warnings are not modelled). -/
noncomputable def chiralWedgeCheck (A : Atoms) (old : ℝ) (M : ℤ) (scaleAtoms : Bool) : Eff :=
  if |A.cell 2 0| < 1e-6 then (A, some .warning)
  else if A.cell 2 0 > π then (A, some .assertionError)
  else if abs ((M : ℝ) - 2 * π / abs (A.cell 2 0)) > 1e-12 ∧ pyRound (A.cell 1 1) ≠ 0 then (A, some .assertionError)
  else if scaleAtoms = true then
    if |old| < 1e-10 then (A, some .valueError) else moveAll A (fanMove old (A.cell 2 0))
  else (A, none)

/-- `chiralwedge.py:84-115`. -/
noncomputable def chiralWedgeAngle (A : Atoms) (a : ChiralWedgeArgs) : Eff :=
  if a.angle.isSome ∧ a.M.isSome then (A, some .assertionError)
  else match chiralWedgeStep A a.M a.angle with
    | .error e => (A, some e)
    | .ok (M, A1) => chiralWedgeCheck (wedgeWrite A1 1 1 (boolFloat a.physical)) (A.cell 2 0) M a.scaleAtoms

/-- One coordinate of all atoms multiplied by `height/self.get('height')` and the height set: `chiralwedge.py:117-122` (`c = 2`),
`wedgeyaxis.py:139-144` (`c = 1`). -/
noncomputable def stretchHeight (A : Atoms) (c : Fin 3) (scaleAtoms : Bool) : Option ℝ → Atoms
  | none => A
  | some h =>
    wedgeWrite (if scaleAtoms then
      { A with atoms := A.atoms.map fun p => (p.1, Function.update p.2 c (p.2 c * h / A.cell 1 0)) } else A) 1 0 h

/-- `ChiralWedge.set`, `chiralwedge.py:65-127`. -/
noncomputable def chiralWedgeSet (A : Atoms) (a : ChiralWedgeArgs) : Eff :=
  if a.container.isSome then (A, some .attributeError)
  else
    match (if a.angle.isSome ∨ a.M.isSome then chiralWedgeAngle A a else (A, none)) with
    | (A1, some e) => (A1, some e)
    | (A1, none) =>
      let A2 := stretchHeight A1 2 a.scaleAtoms a.height
      match a.twist with
      | none => (A2, none)
      | some t => if a.scaleAtoms then (A2, some .notImplementedError) else (wedgeWrite A2 0 1 t, none)

/-- Arguments of `WedgeYAxis.set`. -/
structure WedgeYArgs where
  angle : Option ℝ := none
  height : Option ℝ := none
  M : Option ℤ := none
  physical : Bool := true
  pbc : Option Bool := none
  scaleAtoms : Bool := false
  container : Option Atoms := none

/-- `wedgeyaxis.py:132-136`: the angle around the y axis, from z to x, is scaled. -/
noncomputable def fanMoveY (old new : ℝ) (r : Vec) : Except Exn Vec := do
  let rad := √(r 2 ^ 2 + r 0 ^ 2)
  let phi ← phival (r 2) (r 0)
  let newphi := phi * (new / old)
  return ![rad * sin newphi, r 1, rad * cos newphi]

open Classical in
/-- `wedgeyaxis.py:119-137`, checks and scaling (warnings are not modelled). -/
noncomputable def wedgeYCheck (A : Atoms) (old : ℝ) (M : ℤ) (scaleAtoms : Bool) : Eff :=
  if A.cell 2 0 < 1e-6 then (A, some .warning)
  else if A.cell 2 0 > π then (A, some .assertionError)
  else if |(M : ℝ) - 2 * π / A.cell 2 0| > 1e-12 ∧ pyRound (A.cell 1 1) ≠ 0 then (A, some .assertionError)
  else if scaleAtoms = true then
    if |old| < 1e-10 then (A, some .valueError) else moveAll A (fanMoveY old (A.cell 2 0))
  else (A, none)

open Classical in
/-- `wedgeyaxis.py:110-115`: the new angle and `M`. -/
noncomputable def wedgeYStep (A : Atoms) (M : Option ℤ) (angle : Option ℝ) : Except Exn (ℤ × Atoms) :=
  match M, angle with
  | some M, _ => if M = 0 then .error .zeroDivisionError else .ok (M, wedgeWrite A 2 0 (2 * π / M))
  | none, some ang => if ang = 0 then .error .zeroDivisionError else .ok (pyRound (2 * π / ang), wedgeWrite A 2 0 ang)
  | none, none => .ok (0, A)   -- not reached

/-- `wedgeyaxis.py:106-137`. -/
noncomputable def wedgeYAngle (A : Atoms) (a : WedgeYArgs) : Eff :=
  if a.angle.isSome ∧ a.M.isSome then (A, some .assertionError)
  else match wedgeYStep A a.M a.angle with
    | .error e => (A, some e)
    | .ok (M, A1) => wedgeYCheck (wedgeWrite A1 1 1 (boolFloat a.physical)) (A.cell 2 0) M a.scaleAtoms

/-- `WedgeYAxis.set`, `wedgeyaxis.py:87-147`. -/
noncomputable def wedgeYSet (A : Atoms) (a : WedgeYArgs) : Eff :=
  if a.container.isSome then (A, some .attributeError)
  else
    match (if a.angle.isSome ∨ a.M.isSome then wedgeYAngle A a else (A, none)) with
    | (A1, some e) => (A1, some e)
    | (A1, none) =>
      let A2 := stretchHeight A1 1 a.scaleAtoms a.height
      match a.pbc with
      | none => (A2, none)
      | some b => ({ A2 with pbc := ![true, b, false] }, none)

/-- Arguments of `TwistAndTurn.set`. -/
structure TatArgs where
  bendAngle : Option ℝ := none
  twistAngle : Option ℝ := none
  R : Option ℝ := none
  mode : Option ℝ := none
  scaleAtoms : Bool := false
  container : Option Atoms := none

/-- `np.arctan2(y,x)`. -/
noncomputable def arctan2 (y x : ℝ) : ℝ := Complex.arg ⟨x, y⟩

/-- `twistandturn.py:95-99`. -/
noncomputable def tatBendMove (ratio : ℝ) (r : Vec) : Vec :=
  let R0 := √(r 0 ^ 2 + r 1 ^ 2)
  let angle2 := ratio * arctan2 (r 1) (r 0)
  ![R0 * cos angle2, R0 * sin angle2, r 2]

/-- `twistandturn.py:104-108`. -/
noncomputable def tatTwistMove (R bend da : ℝ) (r : Vec) : Vec :=
  tatTransform R r 0 (da * (arctan2 (r 1) (r 0) / bend))

/-- `twistandturn.py:113-118`. -/
noncomputable def tatRadiusMove (dR : ℝ) (r : Vec) : Vec :=
  let R0 := √(r 0 ^ 2 + r 1 ^ 2)
  let angle := arctan2 (r 1) (r 0)
  ![(R0 + dR) * cos angle, (R0 + dR) * sin angle, r 2]

/-- All positions replaced. -/
def Atoms.mapPos (A : Atoms) (f : Vec → Vec) : Atoms := { A with atoms := A.atoms.map fun p => (p.1, f p.2) }

/-- `twistandturn.py:92-101`. -/
noncomputable def tatSetBend (A : Atoms) (scaleAtoms : Bool) : Option ℝ → Atoms
  | none => A
  | some b => wedgeWrite (if scaleAtoms then A.mapPos (tatBendMove (b / A.cell 0 1)) else A) 0 1 b

/-- `twistandturn.py:102-110`. -/
noncomputable def tatSetTwist (A : Atoms) (scaleAtoms : Bool) : Option ℝ → Atoms
  | none => A
  | some t => wedgeWrite (if scaleAtoms then A.mapPos (tatTwistMove A.tatR (A.cell 0 1) (t - A.cell 0 2)) else A) 0 2 t

/-- `twistandturn.py:111-120`. -/
noncomputable def tatSetR (A : Atoms) (scaleAtoms : Bool) : Option ℝ → Atoms
  | none => A
  | some R => wedgeWrite (if scaleAtoms then A.mapPos (tatRadiusMove (R - A.tatR)) else A) 1 2 R

/-- `TwistAndTurn.set`, `twistandturn.py:72-124`; `mode` has no place in the cell. -/
noncomputable def tatSet (A : Atoms) (a : TatArgs) : Eff :=
  if a.container.isSome then (A, some .attributeError)
  else
    let A3 := tatSetR (tatSetTwist (tatSetBend A a.scaleAtoms a.bendAngle) a.scaleAtoms a.twistAngle) a.scaleAtoms a.R
    if a.mode.isSome then (A3, some .keyError)
    else ({ A3 with pbc := ![false, false, true] }, none)

/-- Arguments of `ChiralGeneral.set`. -/
structure ChiralGeneralArgs where
  trans1 : Option ℝ := none
  angle1 : Option ℝ := none
  trans2 : Option ℝ := none
  angle2 : Option ℝ := none
  physical : Option Bool := some false
  scaleAtoms : Bool := false
  container : Option Atoms := none

/-- `ChiralGeneral.set`, `chiralgeneral.py:63-91`. -/
noncomputable def chiralGeneralSet (A : Atoms) (a : ChiralGeneralArgs) : Eff :=
  if a.container.isSome then (A, some .attributeError)
  else
    let A1 := optWrite (optWrite (optWrite (optWrite A 1 0 a.trans1) 2 0 a.angle1) 0 1 a.trans2) 1 1 a.angle2
    if a.physical = some true then (A1, some .notImplementedError)
    else
      let A2 := optWrite A1 2 1 (a.physical.map boolFloat)
      if a.scaleAtoms then (A2, some .notImplementedError) else (A2, none)

/-- `Slab.set`, `slab.py:57-75`: with a two component array `x!=None` is an array of two truth values, for which `if` raises
`ValueError`.  `container` leads to the same with its `x`. -/
def slabSet (A : Atoms) (container : Option Atoms) (x : Option (Fin 2 → ℝ)) : Eff :=
  match container, x with
  | some _, some _ => (A, some .valueError)   -- `x==None` in the assertion
  | some _, none => (A, some .valueError)
  | none, some _ => (A, some .valueError)
  | none, none => (A, none)

/-- Arguments of `Sphere.set`; the axes are tuples or lists (for arrays, `n1!=None` would raise). -/
structure SphereArgs where
  angle1 : Option ℝ := none
  angle2 : Option ℝ := none
  n1 : Option Vec := none
  n2 : Option Vec := none
  mode : Option ℝ := none
  container : Option Atoms := none

open Classical in
/-- `sphere.py:95-99` and `sphere.py:100-104`: `self.n1` and `self.n2` stay `None`, see `sphere.py:34-35`. -/
noncomputable def sphereAxis (A : Atoms) (i : Fin 3) : Option Vec → Except Exn Atoms
  | none => .ok A
  | some n => if |n 2| < 1e-10 then .ok (wedgeWrite (wedgeWrite A i 0 (n 0)) i 1 (n 1)) else .error .assertionError

/-- `Sphere.set`, `sphere.py:81-112`; the normalisation in lines 108-111 is not reached. -/
noncomputable def sphereSet (A : Atoms) (a : SphereArgs) : Eff :=
  if a.container.isSome then (A, some .attributeError)
  else
    let A1 := optWrite (optWrite A 0 1 a.angle1) 0 2 a.angle2
    match sphereAxis A1 1 a.n1 with
    | .error e => (A1, some e)
    | .ok A2 =>
      match sphereAxis A2 2 a.n2 with
      | .error e => (A2, some e)
      | .ok A3 => ({ optWrite A3 1 2 a.mode with pbc := ![true, true, false] }, none)

/-- `Bravais.set`, `bravais.py:35-37`. -/
def bravaisSet (A : Atoms) (anyArgument : Bool) : Eff :=
  if anyArgument then (A, some .notImplementedError) else (A, none)

/-- `Atoms.set_container(**cont)`, `atoms.py:102-111`: `set` is what the container's method does with the other arguments; it
accepts no argument `type`. -/
def setContainer (A : Atoms) (type : Option CType) (set : Atoms → Eff) : Eff :=
  match type with
  | none => set A
  | some t =>
    if t ≠ A.ctype then (A, some .assertionError)
    else if t = .bravais then (A, some .notImplementedError)
    else (A, some .typeError)

end Hotbit
