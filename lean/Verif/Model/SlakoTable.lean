import Mathlib.Analysis.SpecialFunctions.Trigonometric.Inverse
import Verif.Model.KPoints
import Verif.Model.Timing

/-!
# `hotbit/parametrization/slako.py`: making Slater-Koster tables
-/

namespace Hotbit

open Real

/-! ### Angular functions and choice of integrals -/

/-- `integrals`, /repo/hotbit/parametrization/slako.py line 434. -/
def skIntegralNames : List (List Char) :=
  [['d','d','s'], ['d','d','p'], ['d','d','d'], ['p','d','s'], ['p','d','p'], ['p','p','s'], ['p','p','p'], ['s','d','s'],
    ['s','p','s'], ['s','s','s']]

/-- `g(t1,t2)`, /repo/hotbit/parametrization/slako.py lines 466-483. -/
noncomputable def gAngular (t1 t2 : ℝ) : Fin 10 → ℝ :=
  let c1 := cos t1
  let c2 := cos t2
  let s1 := sin t1
  let s2 := sin t2
  ![5 / 8 * (3 * c1 ^ 2 - 1) * (3 * c2 ^ 2 - 1),
    15 / 4 * s1 * c1 * s2 * c2,
    15 / 16 * s1 ^ 2 * s2 ^ 2,
    √15 / 4 * c1 * (3 * c2 ^ 2 - 1),
    √45 / 4 * s1 * s2 * c2,
    3 / 2 * c1 * c2,
    3 / 4 * s1 * s2,
    √5 / 4 * (3 * c2 ^ 2 - 1),
    √3 / 2 * c2,
    0.5]

/-- The letter of an orbital, `nl[1]`, for names with at least two characters. -/
def orbLetter (nl : List Char) : Char := nl.getD 1 ' '

/-- One of the two loops of `select_orbitals`, /repo/hotbit/parametrization/slako.py lines 443-445: the last orbital with
the letter. -/
def pickOrbital (letter : Char) (val : List (List Char)) : Option (List Char) :=
  val.foldl (fun acc nl => if orbLetter nl = letter then some nl else acc) none

/-- `select_orbitals(val1,val2,integral)`, lines 438-449. -/
def selectOrbitals (val1 val2 : List (List Char)) (integral : List Char) : Option (List Char) × Option (List Char) :=
  (pickOrbital (integral.getD 0 ' ') val1, pickOrbital (integral.getD 1 ' ') val2)

/-- `select_integrals(e1,e2)`, /repo/hotbit/parametrization/slako.py lines 452-462. -/
def selectIntegrals (val1 val2 : List (List Char)) : List (List Char × List Char × List Char) :=
  skIntegralNames.filterMap fun integral =>
    match selectOrbitals val1 val2 integral with
    | (some nl1, some nl2) => some (integral, nl1, nl2)
    | _ => none

/-! ### The grid -/

/-- `T=np.linspace(0,1,nt)**p*np.pi`, /repo/hotbit/parametrization/slako.py line 353. -/
noncomputable def polarT (nt p j : ℕ) : ℝ := (linspace 0 1 nt).getD j 0 ^ p * π

/-- `R=rmin+np.linspace(0,1,nr)**q*(rmax-rmin)`, lines 350-354, with `rmin=1E-7`. -/
noncomputable def polarR (rmax : ℝ) (nr q i : ℕ) : ℝ :=
  1 / 10 ^ 7 + (linspace 0 1 nr).getD i 0 ^ q * (rmax - 1 / 10 ^ 7)

open Classical in
/-- One element of the polar grid, /repo/hotbit/parametrization/slako.py lines 363-404: centre `r0`, `t0` and area `A`;
`none` is the case `A=-1`, in which `r0` and `t0` are not set. -/
noncomputable def polarCell (h Ra Rb Ta Tb : ℝ) : Except Exn (Option (ℝ × ℝ × ℝ)) :=
  let z1 := Rb * cos Ta
  let z2 := Ra * cos Ta
  let z3 := Ra * cos Tb
  let z4 := Rb * cos Tb
  let A0 := (Rb ^ 2 - Ra ^ 2) * (Tb - Ta) / 2
  if z1 ≤ h then .ok (some (0.5 * (Ra + Rb), 0.5 * (Ta + Tb), A0))
  else if z1 > h ∧ z2 ≤ h ∧ z4 ≤ h then
    let Th := arccos (h / Rb)
    .ok (some (0.5 * (Ra + Rb), 0.5 * (Th + Tb),
      A0 - (0.5 * Rb ^ 2 * (Th - Ta) - 0.5 * h ^ 2 * (tan Th - tan Ta))))
  else if z1 > h ∧ z2 > h ∧ z3 ≤ h ∧ z4 ≤ h then
    let Th1 := arccos (h / Ra)
    let Th2 := arccos (h / Rb)
    .ok (some (0.5 * (Ra + Rb), 0.5 * (Th2 + Tb),
      A0 - A0 * (Th1 - Ta) / (Tb - Ta) - (0.5 * Rb ^ 2 * (Th2 - Th1) - 0.5 * h ^ 2 * (tan Th2 - tan Th1))))
  else if z1 > h ∧ z2 > h ∧ z4 > h ∧ z3 ≤ h then
    let Th := arccos (h / Ra)
    .ok (some (0.5 * (Ra + h / cos Tb), 0.5 * (Th + Tb),
      0.5 * h ^ 2 * (tan Tb - tan Th) - 0.5 * Ra ^ 2 * (Tb - Th)))
  else if z1 > h ∧ z4 > h ∧ z2 ≤ h ∧ z3 ≤ h then
    .ok (some (0.5 * (Ra + h / cos Tb), 0.5 * (Ta + Tb),
      0.5 * h ^ 2 * (tan Tb - tan Ta) - 0.5 * Ra ^ 2 * (Tb - Ta)))
  else if z3 > h then .ok none
  else .error .runtimeError

open Classical in
/-- The loop over the elements, lines 360-408; `bound` says whether the names `r0`, `t0` are bound yet.  Points are
`((d,z),A)`. -/
noncomputable def polarLoop (Rz maxRange : ℝ) : List (ℝ × ℝ × ℝ × ℝ) → Bool → Except Exn (List ((ℝ × ℝ) × ℝ))
  | [], _ => .ok []
  | (Ra, Rb, Ta, Tb) :: cells, bound => do
    match ← polarCell (Rz / 2) Ra Rb Ta Tb with
    | none => if bound then polarLoop Rz maxRange cells bound else throw .unboundLocalError
    | some (r0, t0, A) =>
      let rest ← polarLoop Rz maxRange cells true
      let d := r0 * sin t0
      let z := r0 * cos t0
      if A > 0 ∧ √(d ^ 2 + z ^ 2) < maxRange ∧ √(d ^ 2 + (Rz - z) ^ 2) < maxRange then return ((d, z), A) :: rest
      else return rest

/-- The elements in the order of the loops, lines 360-361. -/
noncomputable def polarCells (rmax : ℝ) (nt nr p q : ℕ) : List (ℝ × ℝ × ℝ × ℝ) :=
  (List.range (nt - 1)).flatMap fun j => (List.range (nr - 1)).map fun i =>
    (polarR rmax nr q i, polarR rmax nr q (i + 1), polarT nt p j, polarT nt p (j + 1))

/-- Mirroring a point at the plane between the atoms, /repo/hotbit/parametrization/slako.py lines 414-418. -/
noncomputable def mirrorPoint (Rz : ℝ) (x : (ℝ × ℝ) × ℝ) : (ℝ × ℝ) × ℝ := ((x.1.1, -x.1.2 + 2 * (Rz / 2)), x.2)

/-- `make_grid(Rz,nt,nr,p,q)`, /repo/hotbit/parametrization/slako.py lines 303-429; `grid2[:,1]` of an array without
points raises `IndexError`. -/
noncomputable def makePolarGrid (wfRange Rz : ℝ) (nt nr p q : ℕ) : Except Exn (List ((ℝ × ℝ) × ℝ)) := do
  let pts ← polarLoop Rz wfRange (polarCells wfRange nt nr p q) false
  if pts.isEmpty then throw .indexError
  else return pts ++ pts.map (mirrorPoint Rz)

/-! ### The integrals -/

/-- What the table needs of an atom: radial functions `Rnl`, second derivatives of `unl`, effective and confining
potential and energies. -/
structure SKAtom where
  R : List Char → ℝ → ℝ
  ddu : List Char → ℝ → ℝ
  veff : ℝ → ℝ
  conf : ℝ → ℝ
  eps : List Char → ℝ

/-- `angular_momentum`, line 435. -/
def letterL (c : Char) : ℕ := if c = 's' then 0 else if c = 'p' then 1 else 2

/-- Distances and angles of a point, /repo/hotbit/parametrization/slako.py lines 271-272. -/
noncomputable def pointR1 (d z : ℝ) : ℝ := √(d ^ 2 + z ^ 2)
noncomputable def pointR2 (R d z : ℝ) : ℝ := √(d ^ 2 + (R - z) ^ 2)
noncomputable def pointT1 (d z : ℝ) : ℝ := arccos (z / pointR1 d z)
noncomputable def pointT2 (R d z : ℝ) : ℝ := arccos ((z - R) / pointR2 R d z)

/-- `v1` and `v2`, lines 275-276. -/
noncomputable def potV (e : SKAtom) (r : ℝ) : ℝ := e.veff r - e.conf r

/-- `S`, `H` and `H2` of one integral, /repo/hotbit/parametrization/slako.py lines 281-294. -/
noncomputable def melS (e1 e2 : SKAtom) (R : ℝ) (k : Fin 10) (nl1 nl2 : List Char) (grid : List ((ℝ × ℝ) × ℝ)) : ℝ :=
  (grid.map fun x =>
    let d := x.1.1
    let z := x.1.2
    let aux := gAngular (pointT1 d z) (pointT2 R d z) k * x.2 * d
    e1.R nl1 (pointR1 d z) * e2.R nl2 (pointR2 R d z) * aux).sum

noncomputable def melH (e1 e2 : SKAtom) (R : ℝ) (k : Fin 10) (nl1 nl2 : List Char) (grid : List ((ℝ × ℝ) × ℝ)) : ℝ :=
  (grid.map fun x =>
    let d := x.1.1
    let z := x.1.2
    let r1 := pointR1 d z
    let r2 := pointR2 R d z
    let l2 : ℝ := letterL (orbLetter nl2)
    let aux := gAngular (pointT1 d z) (pointT2 R d z) k * x.2 * d
    e1.R nl1 r1 * (-0.5 * e2.ddu nl2 r2 / r2
      + (potV e1 r1 + potV e2 r2 + l2 * (l2 + 1) / (2 * r2 ^ 2)) * e2.R nl2 r2) * aux).sum

noncomputable def melH2 (e1 e2 : SKAtom) (R : ℝ) (k : Fin 10) (nl1 nl2 : List Char) (grid : List ((ℝ × ℝ) × ℝ)) : ℝ :=
  (grid.map fun x =>
    let d := x.1.1
    let z := x.1.2
    let r1 := pointR1 d z
    let r2 := pointR2 R d z
    let aux := gAngular (pointT1 d z) (pointT2 R d z) k * x.2 * d
    e1.R nl1 r1 * e2.R nl2 r2 * aux * (potV e2 r2 - e1.conf r1)).sum + e1.eps nl1 * melS e1 e2 R k nl1 nl2 grid

/-- `calculate_mels`, /repo/hotbit/parametrization/slako.py lines 236-300: the arrays of `S`, `H` and `H2`. -/
noncomputable def calcMels (selected : List (List Char × List Char × List Char)) (e1 e2 : SKAtom) (R : ℝ)
    (grid : List ((ℝ × ℝ) × ℝ)) : (Fin 10 → ℝ) × (Fin 10 → ℝ) × (Fin 10 → ℝ) :=
  selected.foldl (fun acc s =>
    let k : Fin 10 := Fin.ofNat 10 (skIntegralNames.idxOf s.1)
    (Function.update acc.1 k (melS e1 e2 R k s.2.1 s.2.2 grid),
     Function.update acc.2.1 k (melH e1 e2 R k s.2.1 s.2.2 grid),
     Function.update acc.2.2 k (melH2 e1 e2 R k s.2.1 s.2.2 grid))) (fun _ => 0, fun _ => 0, fun _ => 0)

/-! ### The table -/

open Classical in
/-- `get_wf_range(nl,fractional_limit)`, /repo/hotbit/parametrization/atom.py lines 538-542: radius and value arrays as
one list; `none` is `None`. -/
noncomputable def wfRange (pts : List (ℝ × ℝ)) (limit : ℝ) : Option ℝ :=
  let wfmax := (pts.map fun x => |x.2|).foldl max 0
  (pts.reverse.find? fun x => decide (|x.2| > limit * wfmax)).map Prod.fst

/-- One element in `get_range`, /repo/hotbit/parametrization/slako.py lines 170-173 (`max` of an empty list raises
`ValueError`). -/
noncomputable def rangeStep (w : ℝ) : List ℝ → Except Exn ℝ
  | [] => .error .valueError
  | r :: rs => .ok (max (rs.foldl max r) w)

open Classical in
/-- `get_range`, /repo/hotbit/parametrization/slako.py lines 166-177; `els` are the ranges of the valence orbitals of
each element. -/
noncomputable def skRange (els : List (List ℝ)) : Except Exn ℝ := do
  let wf ← els.foldlM rangeStep (0 : ℝ)
  if wf > 20 then throw .assertionError else return wf

open Classical in
/-- The rows of the tables, `run`, /repo/hotbit/parametrization/slako.py lines 206-224: for every distance up to twice
the range the integrals of every pair of elements, zero after the first larger one.  `pairs` are the elements with
their valence orbitals. -/
noncomputable def skRows (pairs : List ((SKAtom × List (List Char)) × (SKAtom × List (List Char)))) (wf : ℝ)
    (nt nr : ℕ) : List ℝ → Except Exn (List (List ((Fin 10 → ℝ) × (Fin 10 → ℝ))))
  | [] => .ok []
  | R :: Rs => do
    if R > 2 * wf then return (R :: Rs).map fun _ => pairs.map fun _ => (fun _ => 0, fun _ => 0)
    else
      let grid ← makePolarGrid wf R nt nr 2 2
      let row := pairs.map fun pr =>
        let m := calcMels (selectIntegrals pr.1.2 pr.2.2) pr.1.1 pr.2.1 R grid
        (m.2.1, m.1)
      let rest ← skRows pairs wf nt nr Rs
      return row :: rest

open Classical in
/-- `run(R1,R2,N,ntheta,nr,wflimit)`, /repo/hotbit/parametrization/slako.py lines 180-231, without output and timing:
distances and rows, in a row for each pair `H` and `S`.  When no distance is within twice the range, `dH/Hmax` divides
two Python zeros. -/
noncomputable def skRun (pairs : List ((SKAtom × List (List Char)) × (SKAtom × List (List Char)))) (els : List (List ℝ))
    (R1 R2 : ℝ) (N nt nr : ℕ) : Except Exn (List ℝ × List (List ((Fin 10 → ℝ) × (Fin 10 → ℝ)))) := do
  if R1 < 1 / 10 ^ 3 then throw .assertionError
  let wf ← skRange els
  let grid := linspace R1 R2 N
  let rows ← skRows pairs wf nt nr grid
  match grid with
  | [] => throw .zeroDivisionError
  | R :: _ => if R > 2 * wf then throw .zeroDivisionError else return (grid, rows)

/-- The calls of the timer in `run`, lines 195, 168 and 229 (those in between are started and stopped in pairs);
`a`, `b`, `c` are readings of the clock. -/
def skRunTimer (a b c : ℝ) : List TEvent :=
  [.start "calculate tables" a, .start "define ranges" b, .stop "calculate tables" c]

end Hotbit
