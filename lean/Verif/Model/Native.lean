import Verif.Model.Text
import Verif.Model.Skf
import Verif.Model.Elements

/-!
# Element data and native hotbit files (`.elm`, `.par`)

`float(s)` is the parameter `pf`.  The radial functions of an `.elm` file are not modelled.
-/

namespace Hotbit

/-- `orbital_list`, /repo/hotbit/element.py line 10, as lists of characters. -/
def orbitalNames : List (List Char) := orbitalList.map String.toList

/-- `Element.get_orbital_types`, /repo/hotbit/element.py lines 122-125. -/
def orbitalTypes (no : ℕ) : List (List Char) := orbitalNames.take no

/-- The letter of a shell by the chain `'s' in orbital`, `'p' in orbital`, `'d' in orbital`. -/
def shellLetter (orb : List Char) : Option Char :=
  if 's' ∈ orb then some 's' else if 'p' ∈ orb then some 'p' else if 'd' ∈ orb then some 'd' else none

/-- The energies of the orbitals from an `.skf` file, /repo/hotbit/io/dftb.py lines 42-49; `none` for
an orbital that gets none. -/
def skfEpsilon {α : Type} (ed ep es : α) (orb : List Char) : Option α :=
  match shellLetter orb with
  | some 's' => some es
  | some 'p' => some ep
  | some 'd' => some ed
  | _ => none

/-- `onsite_energies` from an `.skf` file, /repo/hotbit/io/dftb.py lines 55-63: `KeyError` for an
orbital without energy. -/
def skfOnsite {α : Type} (ed ep es : α) (valence : List (List Char)) : Except Exn (List α) := do
  let r ← valence.foldlM (fun (s : List α × List α × List α) orb =>
    match skfEpsilon ed ep es orb with
    | none => Except.error Exn.keyError
    | some eps =>
      if 's' ∈ orb then .ok ([eps], s.2.1, s.2.2)
      else if 'p' ∈ orb then .ok (s.1, List.replicate 3 eps, s.2.2)
      else if 'd' ∈ orb then .ok (s.1, s.2.1, List.replicate 5 eps)
      else .ok s) ([], [], [])
  return r.1 ++ r.2.1 ++ r.2.2

/-- `onsite_energies` from an `.elm` file, /repo/hotbit/io/native.py lines 45-52; `n` keeps its value
from the previous orbital for a shell that is none of s, p, d (`UnboundLocalError` at the first). -/
def elmOnsite {α : Type} (eps : List Char → α) (valence : List (List Char)) : Except Exn (List α) := do
  let r ← valence.foldlM (fun (s : List α × Option ℕ) orb =>
    let n := if 's' ∈ orb then some 1 else if 'p' ∈ orb then some 3 else if 'd' ∈ orb then some 5
      else s.2
    match n with
    | none => Except.error Exn.unboundLocalError
    | some n => .ok (s.1 ++ List.replicate n (eps orb), some n)) ([], none)
  return r.1

/-- Valence orbitals of the element data base, /repo/box/data.py lines 49-78. -/
def valenceOrbitals : List (String × List String) :=
  [("H", ["1s"]), ("He", ["1s"]), ("Li", ["2s", "2p"]), ("Be", ["2s", "2p"]), ("B", ["2s", "2p"]),
   ("C", ["2s", "2p"]), ("N", ["2s", "2p"]), ("O", ["2s", "2p"]), ("F", ["2s", "2p"]),
   ("Ne", ["2s", "2p"]), ("Na", ["3s", "3p"]), ("Mg", ["3s", "3p"]), ("Si", ["3s", "3p"]),
   ("P", ["3s", "3p"]), ("S", ["3s", "3p"]), ("Cl", ["3s", "3p"]), ("Ar", []), ("K", ["4s", "4p"]),
   ("Ti", ["3d", "4s", "4p"]), ("Fe", ["3d", "4s", "4p"]), ("Ni", ["3d", "4s", "4p"]), ("Kr", []),
   ("Sr", ["5s", "5p", "4d"]), ("Mo", ["5s", "5p", "4d"]), ("Pd", ["5s", "5p", "4d"]),
   ("Sn", ["5s", "5p"]), ("Xe", []), ("Pt", ["6s", "6p", "5d"]), ("Au", ["6s", "6p", "5d"])]

/-- Nuclear charges, /repo/box/data.py lines 17-46 (`Z`). -/
def nuclearCharge : List (String × ℕ) :=
  [("H", 1), ("He", 2), ("Li", 3), ("Be", 4), ("B", 5), ("C", 6), ("N", 7), ("O", 8), ("F", 9),
   ("Ne", 10), ("Na", 11), ("Mg", 12), ("Si", 14), ("P", 15), ("S", 16), ("Cl", 17), ("Ar", 18),
   ("K", 19), ("Ti", 22), ("Fe", 26), ("Ni", 28), ("Kr", 36), ("Sr", 38), ("Mo", 42), ("Pd", 46),
   ("Sn", 50), ("Xe", 54), ("Pt", 78), ("Au", 79)]

/-- The list `aux` of cores and occupations, /repo/box/data.py lines 86-119. -/
def configAux : List (String × String × List (String × ℕ)) :=
  [("H", "", [("1s", 1)]), ("He", "", [("1s", 2)]),
   ("Li", "He", [("2s", 1), ("2p", 0)]), ("Be", "He", [("2s", 2), ("2p", 0)]),
   ("B", "He", [("2s", 2), ("2p", 1)]), ("C", "He", [("2s", 2), ("2p", 2)]),
   ("N", "He", [("2s", 2), ("2p", 3)]), ("O", "He", [("2s", 2), ("2p", 4)]),
   ("F", "He", [("2s", 2), ("2p", 5)]), ("Ne", "He", [("2s", 2), ("2p", 6)]),
   ("Na", "Ne", [("3s", 1), ("3p", 0)]), ("Mg", "Ne", [("3s", 2), ("3p", 0)]),
   ("Si", "Ne", [("3s", 2), ("3p", 2)]), ("P", "Ne", [("3s", 2), ("3p", 3)]),
   ("S", "Ne", [("3s", 2), ("3p", 4)]), ("Cl", "Ne", [("3s", 2), ("3p", 5)]),
   ("Ar", "Ne", [("3s", 2), ("3p", 6)]),
   ("K", "Ar", [("4s", 1), ("4p", 0)]), ("Ti", "Ar", [("3d", 2), ("4s", 2), ("4p", 0)]),
   ("Fe", "Ar", [("3d", 6), ("4s", 2), ("4p", 0)]), ("Ni", "Ar", [("3d", 8), ("4s", 2), ("4p", 0)]),
   ("Kr", "Ar", [("3d", 10), ("4s", 2), ("4p", 6)]),
   ("Sr", "Kr", [("5s", 2), ("4d", 0), ("5p", 0)]), ("Mo", "Kr", [("4d", 5), ("5s", 1), ("5p", 0)]),
   ("Sn", "Kr", [("4d", 10), ("5s", 2), ("5p", 2)]), ("Pd", "Kr", [("4d", 10), ("5s", 0), ("5p", 0)]),
   ("Xe", "Kr", [("4d", 10), ("5s", 2), ("5p", 6)]),
   ("Pt", "Xe", [("4f", 14), ("5d", 9), ("6s", 1), ("6p", 0)]),
   ("Au", "Xe", [("4f", 14), ("5d", 10), ("6s", 1), ("6p", 0)])]

/-- `d.update(…)` for one key of a dictionary kept as a list. -/
def dictSet (d : List (String × ℕ)) (k : String) (v : ℕ) : List (String × ℕ) :=
  if d.any (fun p => p.1 = k) then d.map (fun p => if p.1 = k then (k, v) else p) else d ++ [(k, v)]

/-- The loop of /repo/box/data.py lines 121-128: the configuration of each element is its core's with
the given occupations (`KeyError` if the core was not set before). -/
def buildConfigs : List (String × String × List (String × ℕ)) →
    List (String × List (String × ℕ)) → Except Exn (List (String × List (String × ℕ)))
  | [], acc => .ok acc
  | (el, core, occu) :: rest, acc =>
    if core = "" then buildConfigs rest (acc ++ [(el, occu.foldl (fun d p => dictSet d p.1 p.2) [])])
    else match acc.lookup core with
      | none => .error .keyError
      | some c => buildConfigs rest (acc ++ [(el, occu.foldl (fun d p => dictSet d p.1 p.2) c)])

/-- `valence_number`, /repo/box/data.py line 132: `KeyError` for an orbital not in the
configuration. -/
def valenceNumber (config : List (String × ℕ)) (valence : List String) : Except Exn ℕ := do
  let l ← valence.mapM (fun o => match config.lookup o with
    | some n => Except.ok n
    | none => .error .keyError)
  return l.sum

/-! ### `.par` files -/

/-- Rows of a table as first column and the rest, `table[:,0], table[:,1:]`. -/
def splitColumns {α : Type} [Inhabited α] (m : List (List α)) : List α × List (List α) :=
  (m.map (fun r => r.headD default), m.map List.tail)

/-- `read_HS_from_par`, /repo/hotbit/io/native.py lines 93-113: if the file has a key `X_X_table`,
the format operator raises `TypeError` (there is nothing to replace in the string). -/
noncomputable def readHSPar (pf : List Char → Option ℝ) (file : List (List Char))
    (si sj : List Char) : Except Exn (List ℝ × List (List ℝ)) := do
  match ← findValue pf file "X_X_table".toList .test none with
  | .bool true => throw .typeError
  | _ =>
    match ← findValue pf file (si ++ ['_'] ++ sj ++ "_table".toList) .matrix none with
    | .matrix m => return splitColumns m
    | _ => throw .typeError

/-- `read_repulsion_from_par`, /repo/hotbit/io/native.py lines 117-131: any exception is replaced by
a table of zeros; `v[:,1]` raises `IndexError` if there is only one column. -/
noncomputable def readRepulsionPar (pf : List Char → Option ℝ) (file : List (List Char)) :
    Except Exn (List ℝ × List ℝ) :=
  let v : List (List ℝ) := match findValue pf file "repulsion".toList .matrix none with
    | .ok (.matrix m) => m
    | _ => [[0, 0], [1, 0], [2, 0], [3, 0]]
  if v.all (fun r => 2 ≤ r.length) then
    .ok (v.map (fun r => r.getD 0 0), v.map (fun r => r.getD 1 0))
  else .error .indexError

/-! ### `.elm` files -/

/-- The data of an element taken from an `.elm` file. -/
structure ElmData where
  U : ℝ
  FWHM : ℝ
  epsilon : List (List Char × ℝ)
  onsite : List ℝ
  C6 : Option (List Char)
  p : Option (List Char)
  R0 : Option (List Char)

/-- `float(find_value(fileobj, key))`. -/
def findFloat (pf : List Char → Option ℝ) (file : List (List Char)) (key : List Char) :
    Except Exn ℝ := do
  match ← findValue pf file key .default none with
  | .str s => conv pf s
  | _ => throw .typeError

/-- `find_value(fileobj, key, default=-1.0)`: `none` stands for the number -1.0, a found value is kept
as text. -/
def findOptional (pf : List Char → Option ℝ) (file : List (List Char)) (key : List Char) :
    Except Exn (Option (List Char)) :=
  match findKey key file with
  | none => .ok none
  | some _ => do
    match ← findValue pf file key .default none with
    | .str s => return some s
    | _ => throw .typeError

/-- `read_element_from_elm`, /repo/hotbit/io/native.py lines 14-61, for an element of the data base
with the given valence orbitals (`none`: not in the data base, `KeyError`).  Comment and radial
functions are not modelled. -/
noncomputable def readElementElm (pf : List Char → Option ℝ) (file : List (List Char))
    (symbol : List Char) (valence : Option (List (List Char))) : Except Exn ElmData := do
  match ← findValue pf file "symbol".toList .default none with
  | .str s =>
    if stripWs s ≠ symbol then throw .assertionError
    match valence with
    | none => throw .keyError
    | some valence =>
      let U ← findFloat pf file "U".toList
      let fwhm ← findFloat pf file "FWHM".toList
      let eps ← valence.mapM (fun o => do
        let e ← findFloat pf file ("epsilon_".toList ++ o)
        return (o, e))
      let onsite ← elmOnsite (fun o => (eps.lookup o).getD 0) valence
      let c6 ← findOptional pf file "C6".toList
      let p ← findOptional pf file "p".toList
      let r0 ← findOptional pf file "R0".toList
      return ⟨U, fwhm, eps, onsite, c6, p, r0⟩
  | _ => throw .typeError

/-- The data of an element taken from an `.skf` file. -/
structure SkfElement where
  U : ℝ
  FWHM : ℝ
  epsilon : List (List Char × Option ℝ)
  onsite : List ℝ

/-- `read_element_from_skf`, /repo/hotbit/io/dftb.py lines 16-70: ten numbers in the second line
(`ValueError` otherwise); `KeyError` if the element is not in the data base.  A value 0 for `U` raises
`ZeroDivisionError`. -/
noncomputable def readElementSkf (pf : List Char → Option ℝ) (file : List (List Char))
    (valence : Option (List (List Char))) : Except Exn SkfElement := do
  let (_, file) := nextLine file
  let (l, _) := nextLine file
  match ← fortranReadline pf l with
  | [ed, ep, es, _, _, _, U, _, _, _] =>
    match valence with
    | none => throw .keyError
    | some valence =>
      if @decide (U = 0) (Classical.dec _) then throw .zeroDivisionError
      let onsite ← skfOnsite ed ep es valence
      return ⟨U, Real.sqrt (8 * Real.log 2 / Real.pi) / U,
        valence.map (fun o => (o, skfEpsilon ed ep es o)), onsite⟩
  | _ => throw .valueError

end Hotbit
