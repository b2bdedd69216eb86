import Mathlib.Data.Int.Log
import Mathlib.Algebra.Order.Round
import Mathlib.Data.Real.Archimedean
import Verif.Model.Text
import Verif.Model.PairTerms
import Verif.Model.ParamUtil

/-!
# Decimal numbers as text, and the writer of `.par` files
-/

namespace Hotbit

/-! ### Python's `float` and `'%.6e'` -/

/-- A number without sign and exponent part, times a power of ten. -/
noncomputable def mantOfStr (m : List Char) (e : ℤ) : Option ℝ :=
  match splitChar '.' m with
  | [a] => (natOfStr a).map fun n : ℕ => (n : ℝ) * 10 ^ e
  | [a, b] => (natOfStr (a ++ b)).map fun n : ℕ => (n : ℝ) * 10 ^ (e - b.length)
  | _ => none

/-- A number without sign. -/
noncomputable def unsignedOfStr (s : List Char) : Option ℝ :=
  match splitChar 'e' s with
  | [m] => mantOfStr m 0
  | [m, x] => (intOfStr x).bind (mantOfStr m)
  | _ => none

/-- Python's `float(s)` for words (no blanks) with decimal digits, as a real number; without `E` for `e`,
underscores, `inf` and `nan`. -/
noncomputable def floatOfStr : List Char → Option ℝ
  | '-' :: s => (unsignedOfStr s).map fun x => -x
  | '+' :: s => unsignedOfStr s
  | s => unsignedOfStr s

open Classical in
/-- Digits and exponent of `'%.ke'`: `k+1` digits, the first not zero unless the number is (a tie between two numbers
goes up). -/
noncomputable def sciParts (k : ℕ) (x : ℝ) : ℕ × ℤ :=
  if x = 0 then (0, 0)
  else
    let e := Int.log 10 |x|
    let m := (round (|x| * 10 ^ ((k : ℤ) - e))).toNat
    if m = 10 ^ (k + 1) then (10 ^ k, e + 1) else (m, e)

/-- `'%0ji' % n`. -/
def padTo (j n : ℕ) : List Char := List.replicate (j - (decStr n).length) '0' ++ decStr n

open Classical in
/-- `'%.ke' % x` of Python (C's `printf`), for `k ≥ 1`. -/
noncomputable def fmtE (k : ℕ) (x : ℝ) : List Char :=
  let p := sciParts k x
  let ds := padTo (k + 1) p.1
  (if x < 0 then ['-'] else []) ++ ds.take 1 ++ '.' :: ds.drop 1 ++
    'e' :: (if p.2 < 0 then '-' else '+') :: padTo 2 p.2.natAbs

/-! ### The writer -/

/-- A table: number of the distance and of the column (0-9 Hamiltonian, 10-19 overlap) to the value. -/
abbrev ParTable := ℕ → Fin 20 → ℝ

/-- `smooth_tails` for one pair, /repo/hotbit/parametrization/slako.py lines 67-68. -/
noncomputable def smoothTable (N : ℕ) (x : ℕ → ℝ) (T : ParTable) : Except Exn ParTable := do
  let cols ← (List.finRange 20).mapM fun i => tailSmoothening N x fun r => T r i
  return fun r i => cols.getD i (fun _ => 0) r

open Classical in
/-- One entry, /repo/hotbit/parametrization/slako.py lines 84-88. -/
noncomputable def parEntry (x : ℝ) : List Char := if |x| < 1 / 10 ^ 90 then "0.".toList else fmtE 6 x

/-- One row, lines 82-89. -/
noncomputable def parRow (R : ℝ) (row : List ℝ) : List Char :=
  ((fmtE 6 R :: row.map parEntry).flatMap fun w => w ++ [' ']) ++ ['\n']

/-- The lines of one pair, lines 80-90. -/
noncomputable def parTableLines (N : ℕ) (x : ℕ → ℝ) (s1 s2 : List Char) (T : ParTable) : List (List Char) :=
  (s1 ++ ['_'] ++ s2 ++ "_table".toList ++ "=\n".toList) ::
    ((List.range N).map fun i => parRow (x i) ((List.finRange 20).map (T i))) ++ [['\n'], ['\n'], ['\n']]

/-- The comment and its end, line 78: the lines of the comment, a blank after the last, two empty lines. -/
def commentLines (comment : List Char) : List (List Char) :=
  let ls := splitChar '\n' comment
  (ls.dropLast.map fun l => l ++ ['\n']) ++ [ls.getLastD [] ++ " \n".toList, ['\n'], ['\n']]

/-- `write(filename)`, /repo/hotbit/parametrization/slako.py lines 71-91: the tables of the pairs (with the symbols)
are smoothed in place, and the lines are written. -/
noncomputable def writePar (comment : List Char) (N : ℕ) (x : ℕ → ℝ)
    (tables : List (List Char × List Char × ParTable)) :
    Except Exn (List (List Char) × List (List Char × List Char × ParTable)) := do
  let tables' ← tables.mapM fun t => do return (t.1, t.2.1, ← smoothTable N x t.2.2)
  return ("slako_comment=\n".toList :: commentLines comment ++
    tables'.flatMap fun t => parTableLines N x t.1 t.2.1 t.2.2, tables')

end Hotbit
