import Verif.Model.Native

/-!
# Which files the element data are read from

`Element.__init__` (`hotbit/element.py`), `Elements.__init__` (`hotbit/elements.py`) and the parameter
`parameters` of the calculator (`hotbit/aseinterface.py`), which is kept in the environment of the
process.  Strings are lists of characters; `islower` is the ASCII one.
-/

namespace Hotbit

/-- What the file system and the environment provide; `read file symbol` is `read_element` (the readers
are modelled in `Verif.Model.Native`). -/
structure ElmWorld (ρ : Type) where
  /-- `HOTBIT_PARAMETERS` -/
  params : Option (List Char)
  isfile : List Char → Bool
  abspath : List Char → List Char
  read : List Char → List Char → Except Exn ρ

/-- An `Element` object: `data['file']`, the symbol it was read with, and the data. -/
structure ElmObj (ρ : Type) where
  file : List Char
  symbol : List Char
  data : ρ

/-- `element[element.rfind('/')+1:]`. -/
def baseName (name : List Char) : List Char := (name.reverse.takeWhile (· ≠ '/')).reverse

/-- `'.elm'`. -/
def elmExt : List Char := ['.', 'e', 'l', 'm']

/-- Symbol and file name from the argument of `Element`, /repo/hotbit/element.py lines 19-34: one or two
characters at the start of the base name, if there is a `.` anywhere. -/
def elmSymbol (name : List Char) : Except Exn (List Char × List Char) :=
  if '.' ∈ name then
    match baseName name with
    | [] => .error .indexError
    | [_] => .error .indexError
    | c :: d :: _ => .ok (if d.isLower then [c, d] else [c], name)
  else .ok (name, name ++ elmExt)

/-- `'%s/%s' %(hbp,filename)`, /repo/hotbit/element.py lines 37-38. -/
def elmDefault (hbp : Option (List Char)) (filename : List Char) : List Char :=
  hbp.getD ['N', 'o', 'n', 'e'] ++ '/' :: filename

/-- `Element.__init__`, /repo/hotbit/element.py lines 13-48. -/
def loadElement {ρ : Type} (W : ElmWorld ρ) (name : List Char) : Except Exn (ElmObj ρ) := do
  let (symbol, filename) ← elmSymbol name
  let file ←
    if W.isfile filename then .ok filename
    else if W.isfile (elmDefault W.params filename) then .ok (elmDefault W.params filename)
    else .error .assertionError
  let data ← W.read file symbol
  .ok ⟨file, symbol, data⟩

/-- A value in the dictionary `elements`: a file name or an `Element` object. -/
inductive ElmVal (ρ : Type)
  | path (p : List Char)
  | obj (e : ElmObj ρ)

/-- The key `'rest'`. -/
def restKey : List Char := ['r', 'e', 's', 't']

/-- The value `'default'`. -/
def restDefault : List Char := ['d', 'e', 'f', 'a', 'u', 'l', 't']

/-- `path.join(dir, file)` for a relative `file`. -/
def joinPath (dir file : List Char) : List Char :=
  if dir = [] ∨ dir.getLast? = some '/' then dir ++ file else dir ++ '/' :: file

/-- One entry of `elements`, /repo/hotbit/elements.py lines 57-64; `path.isfile` of an object that is
not a path raises `TypeError`. -/
def elmCustomStep {ρ : Type} (W : ElmWorld ρ) (f : List Char → Option (List Char))
    (p : List Char × ElmVal ρ) : Except Exn (List Char → Option (List Char)) :=
  if p.1 = restKey then .ok f
  else match p.2 with
    | .obj _ => .error .typeError
    | .path q => if W.isfile q then .ok (Function.update f p.1 (some (W.abspath q)))
      else .error .runtimeError

/-- One atom in the default branch, /repo/hotbit/elements.py lines 68-74; `path.join(None,…)` raises
`TypeError`. -/
def elmDefaultStep {ρ : Type} (W : ElmWorld ρ) (f : List Char → Option (List Char)) (s : List Char) :
    Except Exn (List Char → Option (List Char)) :=
  if f s ≠ none then .ok f
  else match W.params with
    | none => .error .typeError
    | some dir => if W.isfile (joinPath dir (s ++ elmExt)) then
        .ok (Function.update f s (some (joinPath dir (s ++ elmExt))))
      else .error .runtimeError

/-- `elements['rest']=='default'`. -/
def restIsDefault {ρ : Type} (D : List (List Char × ElmVal ρ)) : Bool :=
  D.any fun p => p.1 == restKey && (match p.2 with | .path q => q == restDefault | .obj _ => false)

/-- The dictionary `self.files`, /repo/hotbit/elements.py lines 49-74. -/
def elmFiles {ρ : Type} (W : ElmWorld ρ) (E : Option (List (List Char × ElmVal ρ)))
    (symbols : List (List Char)) : Except Exn (List Char → Option (List Char)) :=
  match E with
  | none => symbols.foldlM (elmDefaultStep W) fun _ => none
  | some D => do
    let f ← D.foldlM (elmCustomStep W) fun _ => none
    if restIsDefault D then symbols.foldlM (elmDefaultStep W) f else .ok f

/-- `self.present`, /repo/hotbit/elements.py lines 41-44. -/
def presentSymbols (symbols : List (List Char)) : List (List Char) :=
  symbols.foldl (fun l s => if s ∈ l then l else l ++ [s]) []

/-- One turn of the loop over the present elements, /repo/hotbit/elements.py lines 367-375. -/
def elmLoad {ρ : Type} (W : ElmWorld ρ) (f : List Char → Option (List Char)) (s : List Char) :
    Except Exn (List Char × ElmObj ρ) :=
  match f s with
  | none => .error .keyError
  | some p => do
    let e ← loadElement W p
    .ok (s, e)

/-- The dictionary `self.elements`, /repo/hotbit/elements.py lines 24-76 and 366-375. -/
def elementsInit {ρ : Type} (W : ElmWorld ρ) (E : Option (List (List Char × ElmVal ρ)))
    (symbols : List (List Char)) : Except Exn (List (List Char × ElmObj ρ)) := do
  let f ← elmFiles W E symbols
  (presentSymbols symbols).mapM (elmLoad W f)

/-! ### The directory of the parameters -/

/-- A calculator: the argument `parameters`, and the directory its files were searched in
(`none`: not initialised). -/
structure DirCalc where
  given : Option (List Char)
  used : Option (Option (List Char))

/-- The process: the environment variable `HOTBIT_PARAMETERS` and the calculators. -/
structure DirProc where
  env : Option (List Char)
  calcs : List DirCalc

/-- What happens in a process. -/
inductive DirEvent
  /-- `Hotbit(parameters=p)` -/
  | new (p : Option (List Char))
  /-- a method of calculator number `i` that needs a solution -/
  | use (i : ℕ)
  /-- the user sets the environment variable -/
  | setenv (d : List Char)

/-- One event: the constructor sets the variable (/repo/hotbit/aseinterface.py lines 163-164), the
variable is read at the first use (`_initialize`, lines 407-439; /repo/hotbit/elements.py line 55,
/repo/hotbit/interactions.py line 47, /repo/hotbit/element.py line 37). -/
def dirStep (S : DirProc) : DirEvent → DirProc
  | .new p => { env := match p with | none => S.env | some d => some d
                calcs := S.calcs ++ [⟨p, none⟩] }
  | .use i => { S with calcs := S.calcs.modify i fun c =>
      match c.used with
      | none => { c with used := some S.env }
      | some _ => c }
  | .setenv d => { S with env := some d }

/-- A history. -/
def dirRun (S : DirProc) (h : List DirEvent) : DirProc := h.foldl dirStep S

end Hotbit
