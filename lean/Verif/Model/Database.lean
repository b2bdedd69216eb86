import Verif.Model.Basic
import Verif.Model.Helpers
import Mathlib.Logic.Function.Basic

/-!
# Searching a directory for parameter files: `database_from_path`

/repo/hotbit/aseinterface.py lines 1122-1178.  Texts are lists of characters.  The file system is given
by the results of `glob.glob` for the two patterns used (in whatever order the system lists the files)
and by `os.path.exists`.  Python dictionaries are functions to optional values.
-/

namespace Hotbit

/-- A Python dictionary with texts as keys and values. -/
abbrev TextDict := List Char → Option (List Char)

/-- `d[k] = v`. -/
def TextDict.set (d : TextDict) (k v : List Char) : TextDict := Function.update d k (some v)

/-- A slice index: negative indices count from the end, indices beyond the ends are cut. -/
def sliceIndex (n : ℕ) (i : ℤ) : ℕ := if i < 0 then n - i.natAbs else min i.toNat n

/-- `s[a:b]`. -/
def pySlice (s : List Char) (a b : ℤ) : List Char :=
  (s.take (sliceIndex s.length b)).drop (sliceIndex s.length a)

/-- What `database_from_path` sees of the file system: `glob.glob('%s/*.elm' % p)`,
`glob.glob('%s/*-*.skf' % p)` and `os.path.exists`. -/
structure FileSystem where
  globElm : List Char → List (List Char)
  globSkf : List Char → List (List Char)
  pathExists : List Char → Bool

/-- `'%s/%s_%s.par' % (p, a, b)`. -/
def parPath (p a b : List Char) : List Char := p ++ '/' :: a ++ '_' :: b ++ ['.', 'p', 'a', 'r']

/-- One turn of the loop over `path`, /repo/hotbit/aseinterface.py lines 1149-1156. -/
def tableStep (fs : FileSystem) (el1 el2 : List Char) (tables : TextDict) (p : List Char) : TextDict :=
  if fs.pathExists (parPath p el1 el2) then tables.set (el1 ++ el2) (parPath p el1 el2)
  else if fs.pathExists (parPath p el2 el1) then tables.set (el1 ++ el2) (parPath p el2 el1)
  else tables

/-- One turn of the loop over `fn2`, /repo/hotbit/aseinterface.py lines 1144-1156; the slice of `fn2` is
taken with the indices of `fn` (lines 1145 and 1146). -/
def pairFileStep (fs : FileSystem) (path : List (List Char)) (fn el1 : List Char) (tables : TextDict)
    (fn2 : List Char) : TextDict :=
  let i0 := rfind '/' fn
  let i1 := rfind '.' fn
  let el2 := pySlice fn2 (i0 + 1) i1
  path.foldl (tableStep fs el1 el2) tables

/-- One turn of the loop over `fn`, /repo/hotbit/aseinterface.py lines 1137-1156. -/
def elmStep (fs : FileSystem) (path fns : List (List Char)) (s : TextDict × TextDict)
    (fn : List Char) : TextDict × TextDict :=
  let i0 := rfind '/' fn
  let i1 := rfind '.' fn
  let el1 := pySlice fn (i0 + 1) i1
  (s.1.set el1 fn, fns.foldl (pairFileStep fs path fn el1) s.2)

/-- One turn of the loop over the skf files, /repo/hotbit/aseinterface.py lines 1164-1173. -/
def skfStep (s : TextDict × TextDict) (fn : List Char) : TextDict × TextDict :=
  let i0 := rfind '/' fn
  let i1 := rfind '-' fn
  let i2 := rfind '.' fn
  let el1 := pySlice fn (i0 + 1) i1
  let el2 := pySlice fn (i1 + 1) i2
  (if el1 = el2 then s.1.set el1 fn else s.1, s.2.set (el1 ++ el2) fn)

/-- `database_from_path(path)` for a list of directories, /repo/hotbit/aseinterface.py lines 1129-1178;
the result is the pair of the dictionaries `elements` and `tables`.  (The files are collected with `+=`
for `.elm`, but with `=` for `.skf`, line 1161.) -/
def databaseFromList (fs : FileSystem) (path : List (List Char)) : Except Exn (TextDict × TextDict) :=
  let fns := path.foldl (fun fns p => fns ++ fs.globElm p) []
  if 0 < fns.length then
    .ok (fns.foldl (elmStep fs path fns) (fun _ => none, fun _ => none))
  else
    let fns := path.foldl (fun _ p => fs.globSkf p) []
    if 0 < fns.length then .ok (fns.foldl skfStep (fun _ => none, fun _ => none))
    else .error .runtimeError

/-- `database_from_path(path)`, /repo/hotbit/aseinterface.py lines 1122-1127: `None` is the current
directory (`inl none`), a single directory becomes a list. -/
def databaseFromPath (fs : FileSystem) (path : Option (List Char) ⊕ List (List Char)) :
    Except Exn (TextDict × TextDict) :=
  match path with
  | .inl none => databaseFromList fs [['.']]
  | .inl (some p) => databaseFromList fs [p]
  | .inr ps => databaseFromList fs ps

end Hotbit
