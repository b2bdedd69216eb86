import Verif.Model.Basic

/-!
# Orbital tables: `Elements._elements_initialization` and its accessors, `hotbit/elements.py`
-/

namespace Hotbit

/-- The data of an `Element` object used here: orbital names, onsite energies, number of valence
electrons, occupation of the outermost s shell, free-atom energy (`hotbit/element.py`). -/
structure ElementData where
  orbitals : List String
  energies : List ℝ
  valence : ℝ
  sOcc : ℝ
  eFree : ℝ

/-- `orbital_list`, `hotbit/element.py:10`; `get_orbital_types` (`element.py:122-125`) returns its
first `nr_basis_orbitals` entries. -/
def orbitalList : List String :=
  ["s", "px", "py", "pz", "dxy", "dyz", "dzx", "dx2-y2", "d3z2-r2"]

/-- A record of `self.orb`, `elements.py:397-403` (the radial function is not modelled). -/
structure OrbRec where
  atom : ℕ
  symbol : String
  orbital : String
  angmom : ℕ
  index : ℕ
  energy : ℝ
  atomindex : ℕ

/-- `ls.index(ao[0])` with `ls = ['s','p','d']`, `elements.py:386,395`. -/
def angmomOf (ao : String) : Except Exn ℕ :=
  match ao.toList.head? with
  | none => .error .indexError
  | some 's' => .ok 0
  | some 'p' => .ok 1
  | some 'd' => .ok 2
  | some _ => .error .valueError

/-- The orbital tables, `elements.py:376-413`. -/
structure OrbTables where
  orb : List OrbRec := []
  atomorb : List (List OrbRec) := []
  nrOrbitals : List ℕ := []
  firstOrbitals : List ℕ := []
  orbitalAtoms : List ℕ := []
  norb : ℕ := 0

/-- The inner loop over the orbitals of atom `i`, `elements.py:391-410`: records for orbitals number
`k, k+1, …` of the atom, when `norb` orbitals were counted before. -/
def atomOrbs (i : ℕ) (symb : String) (norb : ℕ) :
    ℕ → List (String × ℝ) → Except Exn (List OrbRec)
  | _, [] => .ok []
  | k, (ao, e) :: rest => do
    let l ← angmomOf ao
    let tl ← atomOrbs i symb (norb + 1) (k + 1) rest
    .ok (⟨i, symb, ao, l, norb, e, k⟩ :: tl)

/-- One turn of the loop over atoms, `elements.py:387-413`. -/
def orbStep (t : OrbTables) (i : ℕ) (symb : String) (el : ElementData) : Except Exn OrbTables := do
  let ao ← atomOrbs i symb t.norb 0 (el.orbitals.zip el.energies)
  .ok { orb := t.orb ++ ao
        atomorb := t.atomorb ++ [ao]
        nrOrbitals := t.nrOrbitals ++ [ao.length]
        firstOrbitals := t.firstOrbitals ++ [t.norb]
        orbitalAtoms := t.orbitalAtoms ++ List.replicate ao.length i
        norb := t.norb + ao.length }

/-- The loop over atoms from number `i` on. -/
def orbLoop : OrbTables → ℕ → List (String × ElementData) → Except Exn OrbTables
  | t, _, [] => .ok t
  | t, i, (s, el) :: rest => do
    let t' ← orbStep t i s el
    orbLoop t' (i + 1) rest

/-- `_elements_initialization`, `elements.py:359-433`, for the atoms' symbols and elements;
`elements` is the dictionary of loaded elements (`none`: no file, `KeyError`). The table
`atom_orb_indices2` has room for nine orbitals per atom; more raise `ValueError`. -/
def orbInit (elements : String → Option ElementData) (symbols : List String) :
    Except Exn OrbTables := do
  let atoms ← symbols.mapM fun s => match elements s with
    | some e => .ok (s, e)
    | none => .error Exn.keyError
  let t ← orbLoop {} 0 atoms
  if t.nrOrbitals.all (· ≤ 9) then .ok t else .error .valueError

/-- `orbitals(i,atom=True)`, `elements.py:513`. -/
def OrbTables.atomOf (t : OrbTables) (i : ℕ) : Except Exn ℕ :=
  match t.orbitalAtoms[i]? with | some a => .ok a | none => .error .indexError

/-- `orbitals(i,indices=True)`, `elements.py:515,427`. -/
def OrbTables.indicesOf (t : OrbTables) (a : ℕ) : Except Exn (List ℕ) :=
  match (t.atomorb.map fun l => l.map OrbRec.index)[a]? with
  | some l => .ok l | none => .error .indexError

/-- `orbitals(i,number=True)`, `elements.py:517`. -/
def OrbTables.numberOf (t : OrbTables) (a : ℕ) : Except Exn ℕ :=
  match t.nrOrbitals[a]? with | some a => .ok a | none => .error .indexError

/-- `orbitals(i,basis=True)`, `elements.py:519`. -/
def OrbTables.basis (t : OrbTables) (i : ℕ) : Except Exn OrbRec :=
  match t.orb[i]? with | some a => .ok a | none => .error .indexError

/-- `get_property_lists(['o1','no'])`, `elements.py:530-544`. -/
def OrbTables.blocks (t : OrbTables) : List (ℕ × ℕ) := t.firstOrbitals.zip t.nrOrbitals

/-- `get_free_population(m)`, `elements.py:556-573`; `val`, `socc` are the arrays
`nr_of_valences` and `s_occupations`. -/
def freePopulation (t : OrbTables) (val socc : ℕ → ℝ) (m : ℕ) : Except Exn ℝ :=
  match t.orb[m]? with
  | none => .error .indexError
  | some orb =>
    if orb.orbital = "s" then .ok (socc orb.atom)
    else
      let nel := val orb.atom + (2 - socc orb.atom)
      let hasD := t.orb.any fun o => o.atom = orb.atom && o.orbital.toList.head? = some 'd'
      let ai : ℤ := if hasD then
          (if orb.orbital.toList.head? = some 'p' then (orb.atomindex : ℤ) + 5
            else (orb.atomindex : ℤ) - 3)
        else orb.atomindex
      .ok (max 0 (min 2 (nel - 2 * (ai : ℝ))))

end Hotbit
