import Verif.Model.Splines
import Verif.Model.Matrices

/-!
# Slater-Koster tables: choice of files and reading

Dictionaries with keys `e1+e2` are modelled as functions of the two symbols (the concatenation can be
taken apart again, property C36).  A file is its contents: whether it has an `X_X_table`, and its tables.
-/

namespace Hotbit

/-! ### Choice of the files -/

/-- The parameter `tables`: entries for element pairs (`None` for the value switches the interaction
off) and the value of `rest`. -/
structure TablesArg where
  entries : List ((String × String) × Option String)
  rest : Option String

/-- What the file system and the environment provide. -/
structure TabEnv where
  /-- `HOTBIT_PARAMETERS` -/
  default : Option String
  isfile : String → Bool
  abspath : String → String

/-- The dictionary `files`. -/
abbrev Files := String → String → Option String

/-- `files[e1+e2] = file`. -/
def Files.set (f : Files) (e1 e2 : String) (v : String) : Files :=
  fun a b => if a = e1 ∧ b = e2 then some v else f a b

/-- `path.join(default, e1_e2.par)`. -/
def defaultPar (dir e1 e2 : String) : String := dir ++ "/" ++ e1 ++ "_" ++ e2 ++ ".par"

/-- The key `e1+e2` is in `tables`. -/
def TablesArg.has (T : TablesArg) (e1 e2 : String) : Bool := T.entries.any fun p => p.1 == (e1, e2)

/-- One customised file, /repo/hotbit/interactions.py lines 57-70. -/
def customStep (E : TabEnv) (dir : String) (T : TablesArg) (f : Files)
    (p : (String × String) × Option String) : Except Exn Files :=
  let file := p.2.getD (dir ++ "/" ++ "null.par")
  if ¬ E.isfile file then .error .runtimeError
  else
    let f1 := f.set p.1.1 p.1.2 (E.abspath file)
    .ok (if T.has p.1.2 p.1.1 then f1 else f1.set p.1.2 p.1.1 (E.abspath file))

/-- One pair in the default branch, /repo/hotbit/interactions.py lines 76-91. -/
def defaultStep (E : TabEnv) (dir : String) (f : Files) (q : String × String) : Except Exn Files :=
  if f q.1 q.2 ≠ none then .ok f
  else if E.isfile (defaultPar dir q.1 q.2) then
    .ok ((f.set q.1 q.2 (E.abspath (defaultPar dir q.1 q.2))).set q.2 q.1 (E.abspath (defaultPar dir q.1 q.2)))
  else if E.isfile (defaultPar dir q.2 q.1) then
    .ok ((f.set q.1 q.2 (E.abspath (defaultPar dir q.2 q.1))).set q.2 q.1 (E.abspath (defaultPar dir q.2 q.1)))
  else .error .runtimeError

/-- All pairs in the order of the double loop. -/
def allPairs (present : List String) : List (String × String) :=
  present.flatMap fun a => present.map fun b => (a, b)

/-- `tables==None or tables!=None and 'rest' in tables and tables['rest']=='default'`, line 74. -/
def defaultAllowed : Option TablesArg → Bool
  | none => true
  | some T => T.rest == some "default"

/-- The customised files, /repo/hotbit/interactions.py lines 49-70. -/
def customFiles (E : TabEnv) (dir : String) (tables : Option TablesArg) : Except Exn Files :=
  match tables with
  | none => .ok fun _ _ => none
  | some T => T.entries.foldlM (customStep E dir T) fun _ _ => none

/-- `Interactions.__init__`, /repo/hotbit/interactions.py lines 33-92.  Without `HOTBIT_PARAMETERS`
`path.join(None,...)` raises `TypeError`. -/
def chooseFiles (E : TabEnv) (tables : Option TablesArg) (present : List String) : Except Exn Files :=
  match E.default with
  | none => .error .typeError
  | some dir => do
    let f ← customFiles E dir tables
    if defaultAllowed tables then (allPairs present).foldlM (defaultStep E dir) f else pure f

/-! ### Reading the tables -/

/-- A table: `n` rows, distances `x`, and the columns after the distance (ten for H, ten for S). -/
structure HsTable where
  n : ℕ
  x : ℕ → ℝ
  col : ℕ → ℕ → ℝ

/-- A `.par` file. -/
structure ParFile where
  xx : Bool
  table : String → String → Option HsTable

/-- `read_HS_from_par`, /repo/hotbit/io/native.py lines 93-113.  In a file with an `X_X_table`
(`null.par`) the format operator has too many arguments and raises; a table that is not there makes
`find_value` raise. -/
def readHS (F : ParFile) (si sj : String) : Except Exn HsTable :=
  if F.xx then .error .typeError
  else match F.table si sj with
    | some t => .ok t
    | none => .error .runtimeError

/-- One function added to the two splines of a pair. -/
structure SkFun where
  idx : Fin 14
  len : ℕ
  h : ℕ → ℝ
  s : ℕ → ℝ

/-- Types `ps`, `ds`, `dp`: tabulated in the other table. -/
def isSwapped (li lj : ℕ) : Bool := (li == 1 && lj == 0) || (li == 2 && lj == 0) || (li == 2 && lj == 1)

/-- The functions added for one integral type, /repo/hotbit/interactions.py lines 164-175. -/
noncomputable def skFun (tij tji : HsTable) (li lj : ℕ) (m : Fin 3) : SkFun :=
  if isSwapped li lj then
    { idx := skIntegralIndex li lj m
      len := tji.n
      h := fun r => tji.col (skIntegralIndex lj li m) r * (-1) ^ (li + lj)
      s := fun r => tji.col ((skIntegralIndex lj li m).val + 10) r * (-1) ^ (li + lj) }
  else
    { idx := skIntegralIndex li lj m
      len := tij.n
      h := tij.col (skIntegralIndex li lj m)
      s := tij.col ((skIntegralIndex li lj m).val + 10) }

/-- The dictionary `itypes`: sigma; and pi, delta if both angular momenta allow, lines 22-23. -/
def bondTypes (li lj : ℕ) : List (Fin 3) := [0, 1, 2].filter fun m => decide (m.val ≤ min li lj)

/-- `self.h[pair]` and `self.s[pair]`: grid of the Hamiltonian spline, grid of the overlap spline,
functions. -/
structure PairTables where
  hn : ℕ
  hx : ℕ → ℝ
  sn : ℕ
  sx : ℕ → ℝ
  funs : List SkFun

/-- The splines of one pair of elements, /repo/hotbit/interactions.py lines 156-175; `vi`, `vj` are the
angular momenta of the valence orbitals. -/
noncomputable def pairTables (tij tji : HsTable) (vi vj : List ℕ) : PairTables where
  hn := tij.n
  hx := tij.x
  sn := tji.n
  sx := tji.x
  funs := vi.flatMap fun li => vj.flatMap fun lj => (bondTypes li lj).map (skFun tij tji li lj)

/-- State of `read_tables`. -/
structure TabSt where
  cut : String → String → Option ℝ
  maxCut : ℝ
  tab : String → String → Option PairTables

/-- Update of a dictionary keyed by pairs. -/
def set2 {α : Type} (f : String → String → Option α) (a b : String) (v : α) : String → String → Option α :=
  fun x y => if x = a ∧ y = b then some v else f x y

/-- Body of the double loop, /repo/hotbit/interactions.py lines 138-175.  `par` gives the file chosen for
a pair. -/
noncomputable def readPair (par : String → String → Option ParFile) (val : String → List ℕ) (st : TabSt)
    (q : String × String) : Except Exn TabSt :=
  match par q.1 q.2, par q.2 q.1 with
  | some Fij, some Fji => do
    let tij ← readHS Fij q.1 q.2
    let tji ← readHS Fji q.2 q.1
    pure { cut := set2 (set2 st.cut q.1 q.2 (tij.x (tij.n - 1))) q.2 q.1 (tji.x (tji.n - 1))
           maxCut := max st.maxCut (if q.1 = q.2 then tji.x (tji.n - 1) else tij.x (tij.n - 1))
           tab := set2 st.tab q.1 q.2 (pairTables tij tji (val q.1) (val q.2)) }
  | _, _ => .error .runtimeError

/-- `read_tables`, /repo/hotbit/interactions.py lines 127-175. -/
noncomputable def readTables (present : List String) (par : String → String → Option ParFile)
    (val : String → List ℕ) : Except Exn TabSt :=
  (allPairs present).foldlM (readPair par val) ⟨fun _ _ => none, 0, fun _ _ => none⟩

/-- First use of the splines: `_initialize` refuses tables of another length than the grid,
/repo/box/interpolation.py lines 69-99, called at /repo/hotbit/interactions.py lines 356-357. -/
def PairTables.init (P : PairTables) : Except Exn Unit := do
  P.funs.forM fun f => multiInit P.hn f.len
  P.funs.forM fun f => multiInit P.sn f.len

/-- The entry with index `m` of the array filled by `h.fill(0)`, `h[indices] = hij`,
/repo/hotbit/interactions.py lines 339-361: the last function with that index, zero if there is none. -/
def PairTables.last (P : PairTables) (m : Fin 14) : Option SkFun :=
  (P.funs.filter fun f => f.idx = m).getLast?

/-- Interpolated value (`der=0`) or derivative (`der=1`) of a Hamiltonian integral. -/
noncomputable def PairTables.hval (P : PairTables) (der : ℕ) (d : ℝ) (m : Fin 14) : ℝ :=
  match P.last m with
  | none => 0
  | some f => (multiCall P.hn P.hx f.h d der).getD 0

/-- Interpolated value or derivative of an overlap integral. -/
noncomputable def PairTables.sval (P : PairTables) (der : ℕ) (d : ℝ) (m : Fin 14) : ℝ :=
  match P.last m with
  | none => 0
  | some f => (multiCall P.sn P.sx f.s d der).getD 0

/-- The table as used in the construction of the matrices (`get_range` is that of the Hamiltonian). -/
noncomputable def PairTables.toSk (P : PairTables) : SkTable where
  r1 := P.hx 0
  r2 := P.hx (P.hn - 1)
  h := P.hval 0
  s := P.sval 0
  dh := P.hval 1
  ds := P.sval 1

end Hotbit
