import Verif.Model.Basic
import Verif.Model.PairTerms

/-!
# Text files: the words of a line, Fortran records, `key=value` files

Strings are lists of characters, a file is the list of its lines (`readline` at the end of the file
returns the empty string).  `float(s)` is a parameter `pf`: it returns `none` where Python raises
`ValueError`.  Lower-casing and white space are those of ASCII.
-/

namespace Hotbit

/-- White space of `str.split()` and `str.strip()` (the ASCII part). -/
def isWs (c : Char) : Bool :=
  c = ' ' || c = '\t' || c = '\n' || c = '\r' || c.toNat = 11 || c.toNat = 12 ||
    (28 ≤ c.toNat && c.toNat ≤ 31)

/-- `s.split()` where `acc` is the word being read. -/
def splitWsAux : List Char → List Char → List (List Char)
  | acc, [] => if acc = [] then [] else [acc]
  | acc, c :: cs =>
    if isWs c then (if acc = [] then splitWsAux [] cs else acc :: splitWsAux [] cs)
    else splitWsAux (acc ++ [c]) cs

/-- `s.split()`. -/
def splitWs (s : List Char) : List (List Char) := splitWsAux [] s

/-- `s.strip()`. -/
def stripWs (s : List Char) : List Char :=
  ((s.dropWhile isWs).reverse.dropWhile isWs).reverse

/-- `s.split(c)` for one character. -/
def splitChar (c : Char) : List Char → List (List Char)
  | [] => [[]]
  | d :: ds =>
    if d = c then [] :: splitChar c ds
    else match splitChar c ds with
      | [] => [[d]]
      | w :: ws => (d :: w) :: ws

/-- `s.lower()` (ASCII). -/
def lowerStr (s : List Char) : List Char := s.map Char.toLower

/-- `int(s)` on unsigned digits (no underscores). -/
def natOfStr (s : List Char) : Option ℕ :=
  if s ≠ [] ∧ ∀ c ∈ s, 48 ≤ c.toNat ∧ c.toNat ≤ 57 then
    some (s.foldl (fun v c => 10 * v + (c.toNat - 48)) 0)
  else none

/-- `int(s)` for a word: optional sign and digits; `none` is `ValueError`. -/
def intOfStr : List Char → Option ℤ
  | '-' :: s => (natOfStr s).map (fun n : ℕ => -(n : ℤ))
  | '+' :: s => (natOfStr s).map (fun n : ℕ => (n : ℤ))
  | s => (natOfStr s).map (fun n : ℕ => (n : ℤ))

/-- `dtype(s)`: `ValueError` where the conversion fails. -/
def conv {α : Type} (pf : List Char → Option α) (s : List Char) : Except Exn α :=
  match pf s with
  | some v => .ok v
  | none => .error .valueError

/-- One word of a Fortran record, /repo/hotbit/io/fortran.py lines 21-29: the text before the first
`*` is a repeat count (`[v]*n` is empty for a negative one). -/
def fortranWord {α : Type} (pf : List Char → Option α) (e : List Char) : Except Exn (List α) :=
  if '*' ∈ e then
    match intOfStr (e.takeWhile (· ≠ '*')) with
    | none => .error .valueError
    | some n => do
      let v ← conv pf ((e.dropWhile (· ≠ '*')).tail)
      return List.replicate n.toNat v
  else do
    let v ← conv pf e
    return [v]

/-- `l.replace('d','e').replace(',',' ')`, /repo/hotbit/io/fortran.py line 17. -/
def fortranChar (c : Char) : Char :=
  let c := if c = 'd' then 'e' else c
  if c = ',' then ' ' else c

/-- `fortran_readline`, /repo/hotbit/io/fortran.py lines 5-31, on a line. -/
def fortranReadline {α : Type} (pf : List Char → Option α) (l : List Char) :
    Except Exn (List α) :=
  (splitWs (l.map fortranChar)).foldlM (fun r e => do
    let v ← fortranWord pf e
    return r ++ v) []

/-! ### File types -/

/-- File formats known to `filetype`. -/
inductive Format
  | elm | par | skf | other
  deriving DecidableEq, Repr

/-- `filetype`, /repo/hotbit/io/__init__.py lines 81-89.  The last test reads the attribute
`endswith` of the method `lower` itself, which raises `AttributeError`. -/
def filetype (name : List Char) : Except Exn Format :=
  if ".elm".toList.isSuffixOf (lowerStr name) then .ok .elm
  else if ".par".toList.isSuffixOf (lowerStr name) then .ok .par
  else if ".skf".toList.isSuffixOf (lowerStr name) then .ok .skf
  else .error .attributeError

/-- Which reader a call ends in. -/
inductive Reader
  | elmElement | skfElement | parHS | skfHS | parRepulsion | skfRepulsion
  deriving DecidableEq, Repr

/-- `format is None` → `filetype(filename)`. -/
def formatOf (name : List Char) (format : Option Format) : Except Exn Format :=
  match format with
  | some f => .ok f
  | none => filetype name

/-- `read_element`, /repo/hotbit/io/__init__.py lines 6-27 (which reader is called). -/
def readElementWith (name : List Char) (format : Option Format) : Except Exn Reader := do
  let f ← formatOf name format
  match f with
  | .elm => return .elmElement
  | .skf => return .skfElement
  | _ => throw .runtimeError

/-- `read_HS`, /repo/hotbit/io/__init__.py lines 31-53 (which reader is called). -/
def readHSWith (name : List Char) (format : Option Format) : Except Exn Reader := do
  let f ← formatOf name format
  match f with
  | .par => return .parHS
  | .skf => return .skfHS
  | _ => throw .runtimeError

/-- `read_repulsion`, /repo/hotbit/io/__init__.py lines 57-77 (which reader is called). -/
def readRepulsionWith (name : List Char) (format : Option Format) : Except Exn Reader := do
  let f ← formatOf name format
  match f with
  | .par => return .parRepulsion
  | .skf => return .skfRepulsion
  | _ => throw .runtimeError

/-! ### `key=value` files -/

/-- `true_false`, /repo/box/mix.py lines 516-526. -/
def trueFalse (s : List Char) : Except Exn Bool :=
  let s2 := stripWs (lowerStr s)
  if s2 = "true".toList ∨ s2 = "t".toList ∨ s2 = "yes".toList ∨ s2 = "y".toList then .ok true
  else if s2 = "false".toList ∨ s2 = "f".toList ∨ s2 = "no".toList ∨ s2 = "n".toList then .ok false
  else .error .runtimeError

/-- The lines of the next data set, as `read` takes them (/repo/box/mix.py lines 709-728): stripped,
leading blank lines skipped, lines beginning with `#` skipped, up to the next blank line.
`start` is true until a data line was read. -/
def dataLines : Bool → List (List Char) → List (List Char)
  | _, [] => []
  | start, l :: ls =>
    let line := stripWs l
    if line = [] then (if start then dataLines start ls else [])
    else if line.head? = some '#' then dataLines start ls
    else line :: dataLines false ls

/-- `read(f,fmt='string')`, /repo/box/mix.py lines 691-736: `None` if there is no data. -/
def readStrings (ls : List (List Char)) : Option (List (List Char)) :=
  let r := dataLines true ls
  if r = [] then none else some r

/-- All rows have as many entries as the first. -/
def rectangular {α : Type} (rows : List (List α)) : Bool :=
  match rows with
  | [] => true
  | r :: rs => rs.all (fun s => s.length = r.length)

/-- `read(f)`, /repo/box/mix.py lines 691-736: the data set as an array; `ValueError` for words that
are no numbers and for rows of different lengths (numpy 1.24 and later). -/
def readArray {α : Type} (pf : List Char → Option α) (ls : List (List Char)) :
    Except Exn (Option (List (List α))) := do
  let r ← (dataLines true ls).mapM (fun line => (splitWs line).mapM (conv pf))
  if r = [] then return none
  if rectangular r then return some r else throw .valueError

/-- Formats of `find_value`. -/
inductive ValFmt
  | default | all | onestr | matrix | strings | bool | test
  deriving DecidableEq, Repr

/-- What `find_value` returns. -/
inductive FileVal (α : Type)
  | str (s : List Char)
  | words (w : List (List Char))
  | matrix (m : List (List α))
  | strings (s : List (List Char))
  | bool (b : Bool)

/-- Does this line hold the key?  /repo/box/mix.py lines 581-583. -/
def lineHasKey (key line : List Char) : Bool :=
  stripWs ((splitChar '=' line).headD []) = stripWs key ∧ '=' ∈ line

/-- The first line with the key and the lines after it, /repo/box/mix.py lines 577-592 (reading past
the end of the file finds nothing). -/
def findKey (key : List Char) : List (List Char) → Option (List Char × List (List Char))
  | [] => none
  | l :: ls => if lineHasKey key l then some (l, ls) else findKey key ls

/-- What `find_value` assigns to `ret` at the line with the key, /repo/box/mix.py lines 584-591
(`none` is Python's `None`). -/
def valueAt {α : Type} (pf : List Char → Option α) (fmt : ValFmt) (line : List Char)
    (rest : List (List Char)) : Except Exn (Option (FileVal α)) :=
  let hlp1 := ((splitChar '=' line).drop 1).headD []
  match fmt with
  | .test => .ok (some (.bool true))
  | .bool => do return some (.bool (← trueFalse hlp1))
  | .matrix => do return (← readArray pf rest).map .matrix
  | .strings => .ok ((readStrings rest).map .strings)
  | .default =>
    match splitWs hlp1 with
    | [] => .error .indexError
    | w :: _ => .ok (some (.str w))
  | .onestr => .ok (some (.str hlp1.dropLast))
  | .all => .ok (some (.words (splitWs hlp1)))

/-- `find_value`, /repo/box/mix.py lines 543-603, searching from the start of the file. -/
def findValue {α : Type} (pf : List Char → Option α) (file : List (List Char)) (key : List Char)
    (fmt : ValFmt) (dflt : Option (FileVal α)) : Except Exn (FileVal α) := do
  let ret ← match findKey key file with
    | none => .ok none
    | some (l, rest) => valueAt pf fmt l rest
  match fmt, ret, dflt with
  | .test, none, _ => return .bool false
  | _, some v, _ => return v
  | _, none, some d => return d
  | _, none, none => throw .runtimeError

end Hotbit
