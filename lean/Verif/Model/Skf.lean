import Verif.Model.Text
import Verif.Model.Splines
import Verif.Model.KPoints

/-!
# The DFTB `.skf` file format: reader and writer

`float(s)` is the parameter `pf`, and the number formats of the writer are the parameter `fmt`.
A file is the list of its lines.  Arrays with rows of different lengths raise `ValueError`
(numpy 1.24 and later).
-/

namespace Hotbit

/-! ### Writer -/

/-- State of the table writer: the running count of zeros, the pending text for them and the text
written so far, /repo/hotbit/io/hb2skf.py line 228. -/
structure RowState where
  ct : ℕ
  pending : List Char
  text : List Char
  deriving DecidableEq

/-- `str(ct) + '*0.0 '`, /repo/hotbit/io/hb2skf.py line 233. -/
def zerosText (ct : ℕ) : List Char := decStr ct ++ "*0.0 ".toList

/-- One entry of a row, /repo/hotbit/io/hb2skf.py lines 231-238; `fmt` is `'{0: 1.12e}  '.format`. -/
def writeEntry {α : Type} [Zero α] [DecidableEq α] (fmt : α → List Char) (s : RowState) (v : α) :
    RowState :=
  if v = 0 then { s with ct := s.ct + 1, pending := zerosText (s.ct + 1) }
  else { ct := 0, pending := [], text := s.text ++ s.pending ++ fmt v }

/-- One row, /repo/hotbit/io/hb2skf.py lines 230-244: when zeros are pending at the end of the row
they are written, and then the last entry `pardat[1][i][j]` once more. -/
def writeRow {α : Type} [Zero α] [DecidableEq α] (fmt : α → List Char) (s : RowState)
    (row : List α) : RowState :=
  let s := row.foldl (writeEntry fmt) s
  let s := if s.pending ≠ [] then
      { ct := 0, pending := [], text := s.text ++ s.pending ++ fmt (row.getLast?.getD 0) }
    else s
  { s with text := s.text ++ ['\n'] }

/-- The lines the writer makes of a table, /repo/hotbit/io/hb2skf.py lines 228-244 (the text of each
row is kept apart, as `readline` will return it). -/
def writeTable {α : Type} [Zero α] [DecidableEq α] (fmt : α → List Char) :
    RowState → List (List α) → List (List Char)
  | _, [] => []
  | s, row :: rows =>
    let s' := writeRow fmt { s with text := [] } row
    s'.text :: writeTable fmt s' rows

/-- The number of rows of ones written before the table, /repo/hotbit/io/hb2skf.py lines 225-226. -/
noncomputable def padRows (x0 x1 : ℝ) : ℕ :=
  if x0 ≠ 0 then (pyInt (x0 / (x1 - x0))).toNat else 0

/-- `generate_DFTBplus_header` for two different elements (no line of atomic data),
/repo/hotbit/io/hb2skf.py lines 173-246: first line, mass line, rows of ones, table.  `fmtDx` is
`'%.12f'` and `fmtMass` is `'%.2f'`. -/
noncomputable def writeSkf (fmt fmtDx fmtMass : ℝ → List Char) (mass : ℝ) (x : List ℝ)
    (table : List (List ℝ)) : List (List Char) :=
  let x0 := x.getD 0 0
  let x1 := x.getD 1 0
  haveI : DecidableEq ℝ := Classical.decEq ℝ
  [fmtDx (x1 - x0) ++ ", ".toList ++ decStr (table.length + (pyInt (x0 / (x1 - x0))).toNat) ++ ['\n'],
   fmtMass mass ++ ", 19*1.0,\n".toList] ++
  List.replicate (padRows x0 x1) (decStr ((table.getD 0 []).length) ++ "*1.0,\n".toList) ++
  writeTable fmt ⟨0, [], []⟩ table

/-! ### Reader of the tables -/

/-- The next line: what `readline` returns and what is left. -/
def nextLine : List (List Char) → List Char × List (List Char)
  | [] => ([], [])
  | l :: ls => (l, ls)

/-- `l.strip() != 'Spline'`. -/
def notSpline (l : List Char) : Bool := stripWs l ≠ "Spline".toList

/-- `read_HS_from_skf`, /repo/hotbit/io/dftb.py lines 73-127; `homo` is `symboli == symbolj`.
(`int(n)` is not used afterwards.) -/
noncomputable def readHSSkf (pf : List Char → Option ℝ) (homo : Bool) (file : List (List Char)) :
    Except Exn (List ℝ × List (List ℝ)) := do
  let (l, file) := nextLine file
  let v ← fortranReadline pf l
  let (dx, file) ← if homo then
      match v with
      | dx :: _ :: _ => .ok (dx, (nextLine file).2)
      | _ => .error .indexError
    else match v with
      | [dx, _] => .ok (dx, file)
      | _ => .error .valueError
  let hs ← (file.takeWhile notSpline).mapM (fortranReadline pf)
  if rectangular hs then
    return ((List.range hs.length).map (fun i : ℕ => dx * (i : ℝ)), hs)
  else throw .valueError

/-- `read_skf_table`, /repo/hotbit/parametrization/util.py lines 141-154. -/
noncomputable def readSkfTable (pf : List Char → Option ℝ) (homo : Bool) (file : List (List Char)) :
    Except Exn (List ℝ × List (List ℝ)) := do
  let (l, file) := nextLine file
  let v ← fortranReadline pf l
  match v with
  | [dx, n] =>
    let file := (nextLine file).2
    let file := if homo then (nextLine file).2 else file
    let n := (pyInt n)
    let rows ← (file.take n.toNat).mapM (fortranReadline pf)
    let table := rows.filter (fun r => 0 < r.length)
    if rectangular table then
      return ((List.range (n - 1).toNat).map (fun i : ℕ => dx * (i : ℝ)), table)
    else throw .valueError
  | _ => throw .valueError

/-! ### Reader of the repulsion -/

/-- One cubic of the spline: `x1 x2 c1 c2 c3 c4`. -/
structure Seg where
  x1 : ℝ
  x2 : ℝ
  c1 : ℝ
  c2 : ℝ
  c3 : ℝ
  c4 : ℝ

/-- The last piece of the spline, a polynomial of fifth order. -/
structure LastSeg where
  x1 : ℝ
  x2 : ℝ
  c1 : ℝ
  c2 : ℝ
  c3 : ℝ
  c4 : ℝ
  c5 : ℝ
  c6 : ℝ

/-- Lines 187-191 of /repo/hotbit/io/dftb.py. -/
noncomputable def Seg.eval (s : Seg) (x : ℝ) : ℝ :=
  s.c1 + s.c2 * (x - s.x1) + s.c3 * (x - s.x1) ^ 2 + s.c4 * (x - s.x1) ^ 3

/-- Lines 200-206 of /repo/hotbit/io/dftb.py. -/
noncomputable def LastSeg.eval (s : LastSeg) (x : ℝ) : ℝ :=
  s.c1 + s.c2 * (x - s.x1) + s.c3 * (x - s.x1) ^ 2 + s.c4 * (x - s.x1) ^ 3 +
    s.c5 * (x - s.x1) ^ 4 + s.c6 * (x - s.x1) ^ 5

/-- `x1, x2, splc1, splc2, splc3, splc4 = fortran_readline(fileobj)`. -/
def readSeg (pf : List Char → Option ℝ) (file : List (List Char)) :
    Except Exn (Seg × List (List Char)) := do
  let (l, file) := nextLine file
  match ← fortranReadline pf l with
  | [x1, x2, c1, c2, c3, c4] => return (⟨x1, x2, c1, c2, c3, c4⟩, file)
  | _ => throw .valueError

/-- `x1, x2, splc1, …, splc6 = fortran_readline(fileobj)`. -/
def readLastSeg (pf : List Char → Option ℝ) (file : List (List Char)) : Except Exn LastSeg := do
  let (l, _) := nextLine file
  match ← fortranReadline pf l with
  | [x1, x2, c1, c2, c3, c4, c5, c6] => return ⟨x1, x2, c1, c2, c3, c4, c5, c6⟩
  | _ => throw .valueError

/-- `y[i0:i1] = p(x[i0:i1])`. -/
def setSlice (x y : ℕ → ℝ) (i0 i1 : ℕ) (p : ℝ → ℝ) : ℕ → ℝ :=
  fun i => if i0 ≤ i ∧ i < i1 then p (x i) else y i

open Classical in
/-- The loop of lines 181-192 of /repo/hotbit/io/dftb.py with `k+1` turns: the current piece is
entered into the table, then the next one is read.  Returns `x2`, `i0`, the table and what is left
of the file. -/
noncomputable def splineLoop (pf : List Char → Option ℝ) (N : ℕ) (x : ℕ → ℝ) :
    ℕ → Seg → List (List Char) → ℕ → (ℕ → ℝ) → Except Exn (ℝ × ℕ × (ℕ → ℝ) × List (List Char))
  | 0, s, file, i0, y =>
    let i1 := searchSorted N x s.x2 + 1
    .ok (s.x2, i1, setSlice x y i0 i1 s.eval, file)
  | k + 1, s, file, i0, y => do
    let i1 := searchSorted N x s.x2 + 1
    let y := setSlice x y i0 i1 s.eval
    let (s', file) ← readSeg pf file
    if s'.x1 = s.x2 then splineLoop pf N x k s' file i1 y else throw .assertionError

/-- The number of grid points, `int((cutoff-rep_x0)/rep_dx)+1`; `np.linspace` raises `ValueError`
for a negative number. -/
noncomputable def gridCount (x0 dx cutoff : ℝ) : Except Exn ℕ :=
  let n := pyInt ((cutoff - x0) / dx) + 1
  if n < 0 then .error .valueError else .ok n.toNat

open Classical in
/-- The branch with a spline, /repo/hotbit/io/dftb.py lines 169-206; `file` is what follows the line
`Spline`. -/
noncomputable def readSpline (pf : List Char → Option ℝ) (rx0 rdx : ℝ) (file : List (List Char)) :
    Except Exn (List ℝ × List ℝ) := do
  let (l, file) := nextLine file
  match ← fortranReadline pf l with
  | [n, cutoff] =>
    let (l, file) := nextLine file
    match ← fortranReadline pf l with
    | [c1, c2, c3] =>
      let (s, file) ← readSeg pf file
      let N ← gridCount rx0 rdx cutoff
      let xs := linspace rx0 cutoff N
      let x := fun i => xs.getD i 0
      let y := fun i => c3 + Real.exp (c2 - c1 * x i)
      let i0 := searchSorted N x s.x1 + 1
      let turns := (pyInt n - 1).toNat
      let (x2, i0, y, file) ← match turns with
        | 0 => .ok (s.x2, i0, y, file)
        | k + 1 => splineLoop pf N x k s file i0 y
      let e ← readLastSeg pf file
      if e.x1 = x2 then
        let i1 := searchSorted N x e.x2 + 1
        let y := setSlice x y i0 i1 e.eval
        return (xs, (List.range N).map y)
      else throw .assertionError
    | _ => throw .valueError
  | _ => throw .valueError

/-- The branch without a spline, /repo/hotbit/io/dftb.py lines 153-163. -/
noncomputable def readPolynomial (pf : List Char → Option ℝ) (rx0 rdx : ℝ)
    (file : List (List Char)) : Except Exn (List ℝ × List ℝ) := do
  let (l, file) := nextLine file
  match ← fortranReadline pf l with
  | [_, _] =>
    let (l, file) := nextLine file
    let items ← fortranReadline pf l
    let items ← if items.length < 20 then fortranReadline pf (nextLine file).1 else .ok items
    match items[9]? with
    | none => throw .indexError
    | some cutoff =>
      let c := [0, 0] ++ (items.drop 1).take 8
      let N ← gridCount rx0 rdx cutoff
      let xs := linspace rx0 cutoff N
      let y := fun t : ℝ => (List.range' 2 8).foldl
        (fun (y : ℝ) i => y + c.getD i 0 * (cutoff - t) ^ i) 0
      return (xs, xs.map y)
  | _ => throw .valueError

/-- `read_repulsion_from_skf`, /repo/hotbit/io/dftb.py lines 131-208. -/
noncomputable def readRepulsionSkf (pf : List Char → Option ℝ) (rx0 rdx : ℝ)
    (file : List (List Char)) : Except Exn (List ℝ × List ℝ) :=
  match file.dropWhile notSpline with
  | [] => readPolynomial pf rx0 rdx file
  | _ :: rest => readSpline pf rx0 rdx rest

end Hotbit
