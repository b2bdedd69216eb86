import Verif.Model.Matrices

/-!
# Repulsion, pair potentials and van der Waals terms
(`hotbit/repulsion.py`, `hotbit/pairpotential.py`, `hotbit/vdw.py`, `hotbit/element.py`)

Energies and forces are in Hartree and Hartree/Bohr inside the sums, as in the code.  Timers and
messages are left out.
-/

namespace Hotbit

/-- What these terms read from the `el` object: number of atoms, symbols, list of images (identity
first), rotation of an image, image positions in Bohr (`el.Rn`),
/repo/hotbit/elements.py lines 176-265. -/
structure Geom where
  N : ℕ
  sym : ℕ → String
  ntuples : List Op
  rot : Op → Mat
  pos : Op → ℕ → Vec

/-- `rijn[n,i,j] = Rn[n,j]-Rn[0,i]`, /repo/hotbit/elements.py lines 230-238. -/
def Geom.rij (G : Geom) (n : Op) (i j : ℕ) : Vec := G.pos n j - G.pos 0 i

/-- The geometry of a system of atoms, with the image list selected by `update_geometry`
(see `MatIn.ofAtoms`). -/
noncomputable def Geom.ofAtoms (A : Atoms) (bohr : ℝ) (cut : ℕ → ℕ → ℝ) (scan : List Op) : Geom :=
  let pos : Op → ℕ → Vec := fun n j => bohr⁻¹ • A.rawTransform ((A.positions[j]?).getD 0) n
  { N := A.atoms.length
    sym := fun i => ((A.atoms[i]?).map Prod.fst).getD ""
    ntuples := selectImages A.atoms.length pos cut scan
    rot := A.rawRotation
    pos := pos }

/-- A radial function `v(r,der)`. -/
abbrev Pot := ℕ → ℝ → ℝ

/-! ### Repulsion -/

open Classical in
/-- `SplineFunction.__call__` for a number, /repo/box/interpolation.py lines 300-304, called through
`RepulsivePotential.__call__`, /repo/hotbit/repulsion.py lines 171-173; `s` is scipy's `splev`. -/
noncomputable def splineOrZero (a b : ℝ) (s : Pot) : Pot := fun der x =>
  if x < a ∨ x > b then 0 else s der x

/-- A repulsive potential: grid ends and the spline through the table,
/repo/hotbit/repulsion.py lines 157-180; `get_r_cut` is the last grid point. -/
structure RepPot where
  a : ℝ
  rcut : ℝ
  s : Pot

noncomputable def RepPot.call (v : RepPot) : Pot := splineOrZero v.a v.rcut v.s

/-- `self.rmax`, /repo/hotbit/repulsion.py lines 26-29. -/
noncomputable def repRmax (present : List String) (vrep : String → String → RepPot) : ℝ :=
  (allPairsOf present).foldl (fun m q => max m (vrep q.1 q.2).rcut) 0
where
  /-- The double loop over the elements. -/
  allPairsOf (present : List String) : List (String × String) :=
    present.flatMap fun a => present.map fun b => (a, b)

open Classical in
/-- Innermost body of `get_repulsive_energy`, /repo/hotbit/repulsion.py lines 95-105. -/
noncomputable def repStep (G : Geom) (V : String → String → Pot) (rmax : ℝ) (i j : ℕ) (e : ℝ)
    (im : Op × ℕ) : Except Exn ℝ :=
  if i = j ∧ im.2 = 0 then .ok e
  else
    let d := norm3 (G.rij im.1 i j)
    if d > rmax then .ok e
    else if ¬ d > 1e-10 then .error .assertionError
    else if i = j then .ok (e + 0.5 * V (G.sym i) (G.sym j) 0 d)
    else .ok (e + V (G.sym i) (G.sym j) 0 d)

/-- `get_repulsive_energy`, /repo/hotbit/repulsion.py lines 86-107 (in eV). -/
noncomputable def repEnergy (G : Geom) (V : String → String → Pot) (rmax hartree : ℝ) :
    Except Exn ℝ := do
  let e ← (List.range G.N).foldlM (fun e i =>
    (List.range' i (G.N - i)).foldlM (fun e j => G.ntuples.zipIdx.foldlM (repStep G V rmax i j) e) e) 0
  return e * hartree

open Classical in
/-- `get_pair_repulsive_energy`, /repo/hotbit/repulsion.py lines 110-130 (in Hartree). -/
noncomputable def repPairEnergy (G : Geom) (V : String → String → Pot) (rmax : ℝ) (i j : ℕ) : ℝ :=
  G.ntuples.zipIdx.foldl (fun e im =>
    if i = j ∧ im.2 = 0 then e
    else
      let d := norm3 (G.rij im.1 i j)
      if d > rmax then e
      else if i = j then e + 0.5 * V (G.sym i) (G.sym j) 0 d
      else e + V (G.sym i) (G.sym j) 0 d) 0

open Classical in
/-- Innermost body of the force loops, /repo/hotbit/repulsion.py lines 146-150,
/repo/hotbit/pairpotential.py lines 163-167. -/
noncomputable def forceStep (G : Geom) (V : Pot) (rmax : ℝ) (i j : ℕ) (f : Vec) (im : Op × ℕ) : Vec :=
  if i = j ∧ im.2 = 0 then f
  else
    let r := G.rij im.1 i j
    if norm3 r < rmax then f + (V 1 (norm3 r) / norm3 r) • r else f

/-- `get_repulsive_forces`, /repo/hotbit/repulsion.py lines 133-152: row `i`. -/
noncomputable def repForces (G : Geom) (V : String → String → Pot) (rmax : ℝ) (i : ℕ) : Vec :=
  (List.range G.N).foldl (fun f j =>
    G.ntuples.zipIdx.foldl (forceStep G (V (G.sym i) (G.sym j)) rmax i j) f) 0

open Classical in
/-- `get_repulsion_distances`, /repo/hotbit/repulsion.py lines 51-82; `rcut` and the result are in
Angstroms. -/
noncomputable def repDistances (G : Geom) (bohr : ℝ) (ela elb : String) (rcut : ℝ) : List ℝ :=
  (List.range G.N).flatMap fun i => (List.range' i (G.N - i)).flatMap fun j =>
    if ¬ ((G.sym i = ela ∧ G.sym j = elb) ∨ (G.sym j = ela ∧ G.sym i = elb)) then []
    else G.ntuples.zipIdx.filterMap fun im =>
      if i = j ∧ im.2 = 0 then none
      else if norm3 (G.rij im.1 i j) ≤ rcut / bohr then some (norm3 (G.rij im.1 i j) * bohr)
      else none

/-! ### Pair potentials -/

/-- Decimal digit. -/
def decDigit (d : ℕ) : Char := Char.ofNat (48 + d)

/-- `'%i' % n`. -/
def decStr (n : ℕ) : List Char :=
  if n < 10 then [decDigit n] else decStr (n / 10) ++ [decDigit (n % 10)]

/-- `'%04i' % n`: padded with zeros to at least four characters. -/
def pad4 (n : ℕ) : List Char := List.replicate (4 - (decStr n).length) '0' ++ decStr n

/-- `ij2s(i,j)`, /repo/hotbit/pairpotential.py lines 10-11. -/
def ij2s (i j : ℕ) : List Char := pad4 i ++ pad4 j

/-- Attributes of a `PairPotential`, /repo/hotbit/pairpotential.py lines 16-25. -/
structure PPState where
  atomv : List Char → Option Pot := fun _ => none
  elemv : List Char → Option Pot := fun _ => none
  rcut : ℝ := 0
  ex : Bool := false

/-- A potential given by the user: the function and `v(None)`, the range. -/
structure UserPot where
  v : Pot
  range : ℝ

/-- `v2`, /repo/hotbit/pairpotential.py lines 54-63 (`der` other than 0 and 1 returns `None`). -/
noncomputable def convertPot (bohr hartree : ℝ) (eVA : Bool) (p : UserPot) : UserPot :=
  if eVA then
    { range := p.range / bohr
      v := fun der r => match der with
        | 0 => p.v 0 (r / bohr) / hartree
        | 1 => p.v 1 (r / bohr) * bohr / hartree
        | _ => 0 }
  else p

/-- The arguments `i,j`. -/
inductive PPKey
  | atoms (i j : ℕ)
  | elements (a b : String)

/-- `d[k] = v`. -/
def setKey {α : Type} (d : List Char → Option α) (k : List Char) (v : α) : List Char → Option α :=
  fun k' => if k' = k then some v else d k'

/-- `add_pair_potential`, /repo/hotbit/pairpotential.py lines 38-74. -/
noncomputable def addPair (bohr hartree : ℝ) (st : PPState) (key : PPKey) (p : UserPot) (eVA : Bool) :
    PPState :=
  let v2 := convertPot bohr hartree eVA p
  match key with
  | .atoms i j => { st with
      atomv := setKey (setKey st.atomv (ij2s i j) v2.v) (ij2s j i) v2.v
      rcut := max st.rcut v2.range
      ex := true }
  | .elements a b => { st with
      elemv := setKey (setKey st.elemv (a.toList ++ b.toList) v2.v) (b.toList ++ a.toList) v2.v
      rcut := max st.rcut v2.range
      ex := true }

/-- `_get_full_v(i,j)`, /repo/hotbit/pairpotential.py lines 77-94. -/
noncomputable def fullV (st : PPState) (sym : ℕ → String) (i j : ℕ) : Pot := fun der r =>
  match st.atomv (ij2s i j), st.elemv ((sym i).toList ++ (sym j).toList) with
  | some a, some e => a der r + e der r
  | some a, none => a der r
  | none, some e => e der r
  | none, none => 0

open Classical in
/-- Innermost body of `get_energy` and `get_pair_energy`, /repo/hotbit/pairpotential.py
lines 112-120, 135-143. -/
noncomputable def ppStep (G : Geom) (st : PPState) (i j : ℕ) (e : ℝ) (im : Op × ℕ) : ℝ :=
  if i = j ∧ im.2 = 0 then e
  else
    let d := norm3 (G.rij im.1 i j)
    if d > st.rcut then e
    else if i = j then e + 0.5 * fullV st G.sym i j 0 d
    else e + fullV st G.sym i j 0 d

/-- `get_energy`, /repo/hotbit/pairpotential.py lines 97-122 (in eV). -/
noncomputable def ppEnergy (G : Geom) (st : PPState) (hartree : ℝ) : ℝ :=
  if !st.ex then 0
  else ((List.range G.N).foldl (fun e i =>
    (List.range' i (G.N - i)).foldl (fun e j => G.ntuples.zipIdx.foldl (ppStep G st i j) e) e) 0) * hartree

/-- `get_pair_energy`, /repo/hotbit/pairpotential.py lines 125-144 (in Hartree). -/
noncomputable def ppPairEnergy (G : Geom) (st : PPState) (i j : ℕ) : ℝ :=
  G.ntuples.zipIdx.foldl (ppStep G st i j) 0

/-- `get_forces`, /repo/hotbit/pairpotential.py lines 147-169: row `i` (the test `if not self.exists`
compares a bound method and never holds). -/
noncomputable def ppForces (G : Geom) (st : PPState) (i : ℕ) : Vec :=
  (List.range G.N).foldl (fun f j =>
    G.ntuples.zipIdx.foldl (forceStep G (fullV st G.sym i j) st.rcut i j) f) 0

/-! ### van der Waals corrections -/

/-- `C6_from_p`, /repo/hotbit/vdw.py lines 11-13. -/
noncomputable def c6FromP (p nvel : ℝ) : ℝ := 0.75 * √((1.17 + 0.33 * nvel) * p)

/-- `p_from_C6`, /repo/hotbit/vdw.py lines 16-18. -/
noncomputable def pFromC6 (c6 nvel : ℝ) : ℝ := (c6 / 0.75) ^ 2 / (1.17 + 0.33 * nvel)

/-- The arguments for one atom of `vdWPairCorrection`; `none` is `None`. -/
structure VdwAtom where
  c6 : Option ℝ
  p : Option ℝ
  nvel : ℝ
  r0 : ℝ

/-- Missing coefficients of one atom, /repo/hotbit/vdw.py lines 46-53: `none` for both raises
(`None` times a number, `TypeError`). -/
noncomputable def VdwAtom.complete (a : VdwAtom) : Except Exn (ℝ × ℝ) :=
  match a.c6, a.p with
  | none, none => .error .typeError
  | none, some p => .ok (c6FromP p a.nvel, p)
  | some c, none => .ok (c, pFromC6 c a.nvel)
  | some c, some p => .ok (c, p)

/-- A van der Waals pair: `C6ab`, `R0ab`, `d`, `N`, `M`, `Rmax`. -/
structure VdwPair where
  c6 : ℝ
  r0 : ℝ
  d : ℝ := 3
  n : ℕ := 7
  m : ℕ := 4
  rmax : ℝ := 10

/-- `C6ab`, /repo/hotbit/vdw.py line 56. -/
noncomputable def mixC6 (ca pa cb pb : ℝ) : ℝ := 2 * ca * cb * pa * pb / (pa ^ 2 * ca + pb ^ 2 * cb)

/-- `R0ab`, /repo/hotbit/vdw.py line 57. -/
noncomputable def mixR0 (ra rb : ℝ) : ℝ := (ra ^ 3 + rb ^ 3) / (ra ^ 2 + rb ^ 2)

/-- `vdWPairCorrection.__init__`, /repo/hotbit/vdw.py lines 23-57, for two given atoms. -/
noncomputable def vdwInit (a b : VdwAtom) : Except Exn VdwPair := do
  let (ca, pa) ← a.complete
  let (cb, pb) ← b.complete
  return { c6 := mixC6 ca pa cb pb, r0 := mixR0 a.r0 b.r0 }

/-- `vdWPairCorrection.__call__`, /repo/hotbit/vdw.py lines 60-76 (other `der` return `None`). -/
noncomputable def VdwPair.call (w : VdwPair) : Pot := fun der r =>
  let h2 := w.d / w.r0 ^ w.n
  let h1 := Real.exp (-h2 * r ^ w.n)
  let f := (1 - h1) ^ w.m
  let h3 := w.c6 / r ^ 6
  match der with
  | 0 => -f * h3
  | 1 =>
    let df := w.m * (1 - h1) ^ (w.m - 1) * h2 * w.n * r ^ (w.n - 1) * h1
    (6 * f / r - df) * h3
  | _ => 0

/-- The van der Waals data of an `Element`: entries of `self.data`; `some none` is a key with the value
`None`. -/
structure VdwData where
  c6 : Option ℝ
  p : Option ℝ
  r0 : Option ℝ
  valence : ℝ

/-- `update_vdw(p,R0)`, /repo/hotbit/element.py lines 210-213. -/
def VdwData.update (e : VdwData) (p r0 : ℝ) : VdwData := { e with p := some p, r0 := some r0, c6 := none }

/-- `float(self.data[key])`: `float(None)` raises, /repo/hotbit/element.py lines 140-149. -/
def floatOf : Option ℝ → Except Exn ℝ
  | some x => .ok x
  | none => .error .typeError

/-- The arguments `setup_vdw` passes for an element, /repo/hotbit/vdw.py lines 95-98. -/
def VdwData.args (e : VdwData) : Except Exn VdwAtom := do
  let c ← floatOf e.c6
  let p ← floatOf e.p
  let r ← floatOf e.r0
  return ⟨some c, some p, e.valence, r⟩

/-- Pairs `s1`, `s2` with `s2` not before `s1`, /repo/hotbit/vdw.py lines 87-88. -/
def upperPairs : List String → List (String × String)
  | [] => []
  | s :: l => (s :: l).map (fun b => (s, b)) ++ upperPairs l

/-- One pair of `setup_vdw`, /repo/hotbit/vdw.py lines 93-99. -/
noncomputable def vdwStep (bohr hartree : ℝ) (els : String → VdwData) (st : PPState)
    (q : String × String) : Except Exn PPState := do
  let a ← (els q.1).args
  let b ← (els q.2).args
  let w ← vdwInit a b
  return addPair bohr hartree st (.elements q.1 q.2) ⟨w.call, w.rmax⟩ false

/-- `setup_vdw(calc)`, /repo/hotbit/vdw.py lines 80-99. -/
noncomputable def setupVdw (bohr hartree : ℝ) (els : String → VdwData) (present : List String)
    (st : PPState) : Except Exn PPState :=
  (upperPairs present).foldlM (vdwStep bohr hartree els) st

/-- `el.update_vdw(vdw_parameters)`, /repo/hotbit/elements.py lines 586-588, for known elements. -/
def updateVdw (els : String → VdwData) (pars : List (String × ℝ × ℝ)) : String → VdwData :=
  pars.foldl (fun e q => Function.update e q.1 ((e q.1).update q.2.1 q.2.2)) els

end Hotbit
