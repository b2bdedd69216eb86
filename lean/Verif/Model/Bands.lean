import Verif.Model.Eigen
import Verif.Model.Matrices
import Verif.Model.KPoints

/-!
# Band energies

Models `Hotbit.get_band_energies` (`hotbit/aseinterface.py:488-513`), `States.get_band_energies`
(`hotbit/states.py:273-282`) and the flat matrices of `Interactions.get_matrices`
(`hotbit/interactions.py:277-419`, by blocks in `getMatrices`).
-/

namespace Hotbit

/-- `el.orbitals()`: the orbitals in the order of the atoms, `elements.py:389-416`; an orbital is
an atom and a number. -/
def MatIn.orbitals (I : MatIn) : List (ℕ × Fin 9) :=
  (List.range I.N).flatMap fun i =>
    ((List.finRange 9).filter fun p => decide (p.val < I.no i)).map (Prod.mk i)

/-- `norb`, `interactions.py:287`. -/
abbrev MatIn.norb (I : MatIn) : ℕ := I.orbitals.length

/-- The matrix made of the blocks, rows and columns in the order of the orbitals. -/
def MatIn.flat (I : MatIn) (X : BMat) : CMat I.norb :=
  Matrix.of fun x y => X I.orbitals[x].1 I.orbitals[y].1 I.orbitals[x].2 I.orbitals[y].2

/-- `H0[ik]` and `S[ik]` of `get_matrices([k])`, `interactions.py:277-419`. -/
noncomputable def matricesAt (I : MatIn) (k : Vec) : Except Exn (CMat I.norb × CMat I.norb) :=
  (getMatrices I k).map fun st => (I.flat st.H0, I.flat st.S)

/-- `phases[n][ik]`, `interactions.py:308-317`. -/
noncomputable def phasesAt (I : MatIn) (ks : List Vec) : List (List ℂ) :=
  I.ntuples.map fun n => ks.map fun k => blochPhase k n

/-- What the calculator keeps of a solved system: k-points, eigenvalues, the electrostatic part
(`es.h1`, which exists only with SCC: `electrostatics.py:216-243` is called in `solver.py:73-74` only),
the chemical potential and `ia.phases`. -/
structure BandSt (I : MatIn) where
  ks : List Vec
  e : List (Fin I.norb → ℝ)
  h1 : Option (Fin I.norb → Fin I.norb → ℝ)
  mu : ℝ
  phases : List (List ℂ)

/-- `get_matrices(kpts)` for a list of points: `interactions.py:277-419`.  Whether it raises does not
depend on the points, so the order of the points does not matter; for no point nothing is built
(not modelled: it may raise then, too). -/
noncomputable def matricesList (I : MatIn) (ks : List Vec) :
    Except Exn (List (CMat I.norb × CMat I.norb)) :=
  ks.mapM (matricesAt I)

/-- The last iteration of `get_states`, `solver.py:71-76`, within `States.solve`, `states.py:190-212`:
`H1` is the electrostatic part of the last iteration, nothing without SCC. `mu` is what
`occu.occupy(e)` found. -/
noncomputable def solveBands {I : MatIn} (L : Lapack I.norb) (tol : ℝ) (ks : List Vec)
    (H1 : Option (Fin I.norb → Fin I.norb → ℝ)) (mu : ℝ) : Except Exn (BandSt I) := do
  let Ms ← matricesList I ks
  let r ← solveAll L tol H1 Ms
  .ok { ks := ks, e := r.map Prod.fst, h1 := H1, mu := mu, phases := phasesAt I ks }

/-- `States.get_band_energies(kpts,h1)`, `states.py:273-282`, with the state afterwards: the phases
are replaced, `interactions.py:317`, once the orbital rotations are found. -/
noncomputable def stBandEnergies {I : MatIn} (L : Lapack I.norb) (tol : ℝ) (b : BandSt I)
    (ks : List Vec) (h1 : Bool) : Except Exn (List (Fin I.norb → ℝ)) × BandSt I :=
  (do
    let Ms ← matricesList I ks
    let H1 ← if h1 then (match b.h1 with | some h => .ok (some h) | none => .error .attributeError)
      else .ok none
    let r ← solveAll L tol H1 Ms
    .ok (r.map Prod.fst),
  match I.transforms with
  | .ok _ => { b with phases := phasesAt I ks }
  | .error _ => b)

/-- `get_phases()[:,ik]`, `interactions.py:269-274`, as read when a state of the k-point number `ik`
is drawn (`grids.py:146,190`); an index beyond the points raises `IndexError`. -/
def BandSt.phaseColumn {I : MatIn} (b : BandSt I) (ik : ℕ) : Except Exn (List ℂ) :=
  b.phases.mapM fun row => row[ik]?.elim (.error .indexError) .ok

/-- The parameter `rs`. -/
inductive RecSpace
  | k
  | kappa
  | other

/-- `Hotbit.get_band_energies(kpts,shift,rs,h1)`, `aseinterface.py:488-513`, with the state
afterwards; `A` are the atoms of the calculator. -/
noncomputable def bandEnergies {I : MatIn} (L : Lapack I.norb) (tol hartree : ℝ) (A : Atoms)
    (b : BandSt I) (kpts : Option (List Vec)) (shift : Bool) (rs : RecSpace) (h1 : Bool) :
    Except Exn (List (Fin I.norb → ℝ)) × BandSt I :=
  let fin : List (Fin I.norb → ℝ) → List (Fin I.norb → ℝ) := fun l =>
    l.map fun e a => if shift then e a * hartree - b.mu * hartree else e a * hartree
  match kpts with
  | none => (.ok (fin b.e), b)
  | some ks =>
    let klist : Except Exn (List Vec) := match rs with
      | .k => kToKappa A ks
      | .kappa => .ok ks
      | .other => .error .unboundLocalError
    match klist with
    | .error x => (.error x, b)
    | .ok kl =>
      let r := stBandEnergies L tol b kl h1
      (r.1.map fin, r.2)

end Hotbit
