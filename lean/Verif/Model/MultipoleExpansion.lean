import Verif.Model.Multipole
import Verif.Model.Coulomb

/-!
# The telescoped multipole expansion (`hotbit/coulomb/multipole_expansion.py`)

Timers are not modelled.  A division by zero (coinciding charges) gives `inf` in the code and `0` here.
-/

namespace Hotbit

/-- The arguments `n` and `k` of the constructor: an integer or a sequence of integers. -/
inductive IntArg
  | scalar (i : ℤ)
  | seq (l : List ℤ)

/-- `np.array([n]*3)` or `np.array(n)`, /repo/hotbit/coulomb/multipole_expansion.py lines 67-70, 87-90. -/
def IntArg.toList : IntArg → List ℤ
  | .scalar i => [i, i, i]
  | .seq l => l

/-- The attributes of a `MultipoleExpansion` object; `none` stands for an attribute that is `None` or
does not exist yet. -/
structure MP where
  lmax : ℕ
  n1 : Op
  n2 : Op
  m1 : Op
  m2 : Op
  k : Op
  r0v : Option Vec := none
  r : Option (List Vec) := none
  q : Option (List ℝ) := none
  M : List Moments := []
  r0 : List Vec := []
  L : Option Moments := none
  phi : Option (List ℝ) := none
  E : Option (List Vec) := none

/-- The constructor, /repo/hotbit/coulomb/multipole_expansion.py lines 44-107. -/
def mpInit (lmax : ℤ) (n k : IntArg) (r0 : Option Vec) : Except Exn MP :=
  if lmax < 1 then .error .valueError
  else if n.toList.any fun x => x < 1 then .error .valueError
  else if k.toList.any fun x => x < 1 then .error .valueError
  else if n.toList.length ≠ 3 then .error .typeError
  else if k.toList.length ≠ 3 then .error .typeError
  else
    let N : Op := fun d => n.toList.getD d 0
    .ok { lmax := lmax.toNat
          n1 := fun d => -((N d - 1) / 2)
          n2 := fun d => N d / 2
          m1 := fun d => -((N d ^ 2 - 1) / 2)
          m2 := fun d => N d ^ 2 / 2
          k := fun d => k.toList.getD d 0
          r0v := r0 }

/-- `n_from_ranges(s, n, m)` for one direction, /repo/hotbit/neighbors.py lines 33-42 (other infinite ends do
not occur, see `nFromRange`). -/
def nFromRanges2 (n m : ℤ) (b : Bound × Bound) : ℤ × ℤ :=
  (match b.1 with | .negInf => n | .fin a => a | .posInf => 0,
   match b.2 with | .posInf => m + 1 | .fin c => c + 1 | .negInf => 0)

/-- The operations of the triple loops over `range(*_n1)`, `range(*_n2)`, `range(*_n3)`. -/
def cellOps (r : Fin 3 → ℤ × ℤ) : List Op :=
  productOps (arange (r 0).1 (r 0).2) (arange (r 1).1 (r 1).2) (arange (r 2).1 (r 2).2)

/-- `[0,1]` instead of the range in the directions that are finished,
/repo/hotbit/coulomb/multipole_expansion.py lines 169-182 and 233-246. -/
def collapse (b : Fin 3 → Bool) (r : Fin 3 → ℤ × ℤ) : Fin 3 → ℤ × ℤ := fun d => if b d then (0, 1) else r d

/-- `x*level`. -/
def mulOp (x level : Op) : Op := fun d => x d * level d

/-- The state of the telescoping loop: `T0_l,T_L`, `self.r0[k]`, `level`, and the lists `self.M`, `self.r0`. -/
structure Tele where
  T : Moments
  c : Vec
  level : Op
  Ms : List Moments
  cs : List Vec

/-- The centre of gravity, /repo/hotbit/coulomb/multipole_expansion.py lines 184-193. -/
noncomputable def teleCentre (A : Atoms) (ops : List Op) (level : Op) (c : Vec) : Except Exn Vec := do
  let rs ← ops.mapM fun x => A.transform c (mulOp x level)
  return (1 / (ops.length : ℝ)) • rs.sum

/-- The summed moments of the images, /repo/hotbit/coulomb/multipole_expansion.py lines 163-167, 197-214. -/
noncomputable def teleSum (A : Atoms) (lmax : ℕ) (junk : Moments) (ops : List Op) (level : Op) (c : Vec)
    (M : Moments) : Except Exn Moments :=
  ops.foldlM (fun T x => do
    let r1 ← A.transform c (mulOp x level)
    let R ← A.rotation (mulOp x level)
    return m2m (r1 - c) lmax (transformMoments R lmax M) T junk) Moments.zero

/-- One pass of the telescoping loop, /repo/hotbit/coulomb/multipole_expansion.py lines 162-218. -/
noncomputable def teleStep (s : MP) (A : Atoms) (junk : Moments) (st : Tele) (k : ℕ) : Except Exn Tele := do
  let nr := fun d => nFromRanges2 (s.n1 d) (s.n2 d) (A.ranges d)
  let ops := cellOps (collapse (fun d => decide (s.k d - 2 ≤ k)) nr)
  let c ← teleCentre A ops st.level st.c
  let T ← teleSum A s.lmax junk ops st.level st.c st.T
  return { T := T, c := c, level := mulOp st.level (s.n2 - s.n1 + 1), Ms := st.Ms ++ [T], cs := st.cs ++ [c] }

/-- `np.max(self.k)`. -/
def MP.kMax (s : MP) : ℤ := max (s.k 0) (max (s.k 1) (s.k 2))

/-- The state of the loop for the local expansion: `L0_l,L_L`, `level`, `Mi`. -/
structure Loc where
  L : Moments
  level : Op
  Mi : ℤ

/-- The inner region, /repo/hotbit/coulomb/multipole_expansion.py line 256. -/
def innerCell (s : MP) (x : Op) : Bool := !(decide (∃ d, x d < s.n1 d) || decide (∃ d, s.n2 d < x d))

/-- One image, /repo/hotbit/coulomb/multipole_expansion.py lines 255-262. -/
noncomputable def locImage (s : MP) (A : Atoms) (junk : Moments) (level : Op) (c : Vec) (M : Moments)
    (L : Moments) (x : Op) : Except Exn Moments :=
  if innerCell s x then return L else do
    let r1 ← A.transform c (mulOp x level)
    let R ← A.rotation (mulOp x level)
    return m2l (-r1 + c) s.lmax (transformMoments R s.lmax M) L junk

/-- One pass of the loop, /repo/hotbit/coulomb/multipole_expansion.py lines 230-265. -/
noncomputable def locStep (s : MP) (A : Atoms) (junk : Moments) (Ms : List Moments) (cs : List Vec) (st : Loc)
    (k : ℕ) : Except Exn Loc := do
  let mr := fun d => nFromRanges2 (s.m1 d) (s.m2 d) (A.ranges d)
  let ops := cellOps (collapse (fun d => decide (s.k d - 1 ≤ k)) mr)
  let L ← ops.foldlM (locImage s A junk st.level (cs.getD st.Mi.toNat 0) (Ms.getD st.Mi.toNat Moments.zero)) st.L
  return { L := L, level := fun d => st.level d / (s.n2 d - s.n1 d + 1), Mi := st.Mi - 1 }

/-- Potential of a list of charges and positions, /repo/hotbit/coulomb/multipole_expansion.py lines 308-315. -/
noncomputable def pairPot (qr : List (ℝ × Vec)) (x : Vec) : ℝ := (qr.map fun a => a.1 / norm3 (x - a.2)).sum

/-- Field of a list of charges and positions, /repo/hotbit/coulomb/multipole_expansion.py lines 308-316. -/
noncomputable def pairField (qr : List (ℝ × Vec)) (x : Vec) : Vec :=
  (qr.map fun a => (a.1 / norm3 (x - a.2) ^ 3) • (x - a.2)).sum

/-- The image of all charges used in the near field, /repo/hotbit/coulomb/multipole_expansion.py lines 302-309. -/
noncomputable def nearImage (A : Atoms) (c : Vec) (qr : List (ℝ × Vec)) (x : Op) : Except Exn (List (ℝ × Vec)) := do
  let r1 ← A.transform c x
  let T ← A.rotation x
  return qr.map fun a => (a.1, r1 + T.mulVec (a.2 - c))

/-- The other charges of the unit cell, /repo/hotbit/coulomb/multipole_expansion.py lines 318-332. -/
def others (qr : List (ℝ × Vec)) (i : ℕ) : List (ℝ × Vec) := qr.eraseIdx i

/-- `a.get_volume()`: ASE's volume of the cell. -/
noncomputable def Atoms.volume (A : Atoms) : ℝ := |A.cell.det|

open Classical in
/-- The dipole correction, /repo/hotbit/coulomb/multipole_expansion.py lines 334-343; zero if some direction is
not periodic. -/
noncomputable def dipoleCorr (A : Atoms) (M : Moments) : Vec :=
  if (A.ranges 0).2 = .posInf ∧ (A.ranges 1).2 = .posInf ∧ (A.ranges 2).2 = .posInf then
    (4 * Real.pi / (3 * A.volume)) • ![-2 * (M.lm 0).re, 2 * (M.lm 0).im, M.l0 1]
  else 0

/-- What `_update` computes after the first moments `M0` about `c`,
/repo/hotbit/coulomb/multipole_expansion.py lines 151-345. -/
noncomputable def mpBody (s : MP) (A : Atoms) (junk : Moments) (qr : List (ℝ × Vec)) (c : Vec) (M0 : Moments) :
    Except Exn MP := do
  if ∃ d : Fin 3, (A.ranges d).2 ≠ .posInf ∧ s.k d ≠ 1 then throw Exn.valueError
  let t ← (List.range (s.kMax - 2).toNat).foldlM (teleStep s A junk) ⟨M0, c, 1, [M0], [c]⟩
  let l ← (List.range (s.kMax - 1).toNat).foldlM (locStep s A junk t.Ms t.cs)
    ⟨Moments.zero, t.level, (t.Ms.length : ℤ) - 1⟩
  let nr := fun d => nFromRanges2 (s.n1 d) (s.n2 d) (A.ranges d)
  let imgs ← ((cellOps nr).filter fun x => decide (x ≠ 0)).mapM (nearImage A c qr)
  let loc := fun r => l2l (r - c) s.lmax l.L 1 Moments.zero junk
  let dip := dipoleCorr A M0
  let phi := qr.zipIdx.map fun a =>
    (loc a.1.2).l0 0 + (imgs.map fun im => pairPot im a.1.2).sum + pairPot (others qr a.2) a.1.2
      - (a.1.2 - c) ⬝ᵥ dip
  let E := qr.zipIdx.map fun a =>
    ![-((loc a.1.2).lm 0).re, -((loc a.1.2).lm 0).im, (loc a.1.2).l0 1]
      + (imgs.map fun im => pairField im a.1.2).sum + pairField (others qr a.2) a.1.2 + dip
  return { s with M := t.Ms, r0 := t.cs, L := some l.L, phi := some phi, E := some E }

/-- The centre, /repo/hotbit/coulomb/multipole_expansion.py lines 141-144. -/
noncomputable def mpCentre (s : MP) (A : Atoms) : Vec :=
  match s.r0v with
  | none => (1 / (A.positions.length : ℝ)) • A.positions.sum
  | some v => v

/-- `_update(a,q)`, /repo/hotbit/coulomb/multipole_expansion.py lines 122-345.  The attributes `r_av`, `q_a`,
`M`, `r0` are assigned before the error for non-periodic directions is raised. -/
noncomputable def mpCompute (junk : Moments) (s : MP) (A : Atoms) (q : List ℝ) : MP × Except Exn Unit :=
  let c := mpCentre s A
  let M0 := getMoments s.lmax (q.zip A.positions) c
  let s' := { s with r := some A.positions, q := some q, M := [M0], r0 := [c] }
  match mpBody s' A junk (q.zip A.positions) c M0 with
  | .error e => (s', .error e)
  | .ok s'' => (s'', .ok ())

open Classical in
/-- `update(a,q)`, /repo/hotbit/coulomb/multipole_expansion.py lines 110-119. -/
noncomputable def mpUpdate (junk : Moments) (s : MP) (A : Atoms) (q : List ℝ) : MP × Except Exn Unit :=
  if s.r = none ∨ s.q = none then mpCompute junk s A q
  else if s.r ≠ some A.positions ∨ s.q ≠ some q then mpCompute junk s A q
  else (s, .ok ())

/-- `get_potential()`, /repo/hotbit/coulomb/multipole_expansion.py lines 362-369. -/
def mpPotential (s : MP) : Except Exn (List ℝ) :=
  match s.phi with | some p => .ok p | none => .error .attributeError

/-- `get_field()`, lines 372-379. -/
def mpField (s : MP) : Except Exn (List Vec) :=
  match s.E with | some p => .ok p | none => .error .attributeError

/-- `get_potential_energy()`, lines 395-402. -/
noncomputable def mpEnergy (s : MP) : Except Exn ℝ :=
  match s.q, s.phi with
  | some q, some phi => .ok ((List.zipWith (· * ·) q phi).sum / 2)
  | _, _ => .error .attributeError

/-- `get_forces()`, lines 404-411. -/
noncomputable def mpForces (s : MP) : Except Exn (List Vec) :=
  match s.q, s.E with
  | some q, some E => .ok (List.zipWith (fun a v => a • v) q E)
  | _, _ => .error .attributeError

end Hotbit
