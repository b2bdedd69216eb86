import Verif.Model.Neighbors
import Mathlib.MeasureTheory.Integral.IntervalIntegral.Basic

/-!
# Direct summation of the Coulomb interaction (`hotbit/coulomb/direct_coulomb.py`)
-/

namespace Hotbit

open Real

/-- `scipy.special.erfc`, by its defining integral. -/
noncomputable def erfc (x : ℝ) : ℝ := 1 - 2 / √π * ∫ t in (0 : ℝ)..x, exp (-t ^ 2)

/-- Potential of a unit charge at distance `d`: `phi`, `direct_coulomb.py:90-98`; also the summand of
`get_gamma`, `direct_coulomb.py:164-168`. -/
noncomputable def coulPot (cutoff : Option ℝ) (d : ℝ) : ℝ :=
  match cutoff with
  | none => 1 / d
  | some c => erfc (d / c) / d

/-- Field of a unit charge at distance `d` along the neighbour vector: `E`,
`direct_coulomb.py:91-100`. -/
noncomputable def coulField (cutoff : Option ℝ) (d : ℝ) : ℝ :=
  match cutoff with
  | none => 1 / d ^ 2
  | some c => (2 / √π * exp (-(d / c) ^ 2) / c + erfc (d / c) / d) / d

/-- Element `j` of the charge array. -/
def chg (q : List ℝ) (j : ℕ) : ℝ := q.getD j 0

/-- `phi[il == i].sum()`, `direct_coulomb.py:107-109`; zero if no neighbours were found. -/
noncomputable def dcPhi (cutoff : Option ℝ) (q : List ℝ) (nb : Option (List Nb)) (i : ℕ) : ℝ :=
  (((nb.getD []).filter fun e => e.i == i).map fun e => chg q e.j * coulPot cutoff e.d).sum

/-- `E[il == i].sum(axis=0)`, `direct_coulomb.py:110`. -/
noncomputable def dcField (cutoff : Option ℝ) (q : List ℝ) (nb : Option (List Nb)) (i : ℕ) : Vec :=
  (((nb.getD []).filter fun e => e.i == i).map fun e =>
    (chg q e.j * coulField cutoff e.d) • e.n).sum

/-- The attributes of a `DirectCoulomb` object (`direct_coulomb.py:36-56,80-110`). `phi`, `E` and `a`
are missing (`none`) until the first completed/started `_update`. -/
structure DC where
  cutoff : Option ℝ
  r : Option (List Vec) := none
  q : Option (List ℝ) := none
  a : Option Atoms := none
  phi : Option (List ℝ) := none
  E : Option (List Vec) := none

/-- `_update`, `direct_coulomb.py:71-112`. The attributes `a`, `r_av`, `q_a` are assigned before
`get_neighbors` may raise. (Timers are not modelled here.) -/
noncomputable def dcCompute (s : DC) (A : Atoms) (q : List ℝ) : DC × Except Exn Unit :=
  let s' := { s with r := some A.positions, q := some q, a := some A }
  match getNeighbors A s.cutoff with
  | .error e => (s', .error e)
  | .ok nb =>
    ({ s' with
        phi := some ((List.range A.positions.length).map (dcPhi s.cutoff q nb))
        E := some ((List.range A.positions.length).map (dcField s.cutoff q nb)) }, .ok ())

open Classical in
/-- `update(a, q)`, `direct_coulomb.py:59-68`, with explicit charges. -/
noncomputable def dcUpdate (s : DC) (A : Atoms) (q : List ℝ) : DC × Except Exn Unit :=
  if s.r = none ∨ s.q = none then dcCompute s A q
  else if s.r ≠ some A.positions ∨ s.q ≠ some q then dcCompute s A q
  else (s, .ok ())

/-- `get_potential()`, `direct_coulomb.py:115-122` without argument. -/
def dcPotential (s : DC) : Except Exn (List ℝ) :=
  match s.phi with | some p => .ok p | none => .error .attributeError

/-- `get_field()`, `direct_coulomb.py:125-132` without argument. -/
def dcGetField (s : DC) : Except Exn (List Vec) :=
  match s.E with | some p => .ok p | none => .error .attributeError

/-- `G[i, j]` accumulated in `get_gamma`, `direct_coulomb.py:156-168`. -/
noncomputable def gammaEntry (cutoff : Option ℝ) (l : List Nb) (i j : ℕ) : ℝ :=
  ((l.filter fun e => e.i == i && e.j == j).map fun e => coulPot cutoff e.d).sum

/-- `get_gamma()`, `direct_coulomb.py:146-171` without argument; the result `none` is Python's
`None`. -/
noncomputable def dcGamma (s : DC) : Except Exn (Option (ℕ → ℕ → ℝ)) :=
  match s.a with
  | none => .error .attributeError
  | some A => do
    let nb ← getNeighbors A s.cutoff
    return nb.map (gammaEntry s.cutoff)

/-- `get_potential_energy()`, `direct_coulomb.py:176-183`. -/
noncomputable def dcEnergy (s : DC) : Except Exn ℝ :=
  match s.q, s.phi with
  | some q, some phi => .ok ((List.zipWith (· * ·) q phi).sum / 2)
  | _, _ => .error .attributeError

/-- `get_forces()`, `direct_coulomb.py:185-192`. -/
noncomputable def dcForces (s : DC) : Except Exn (List Vec) :=
  match s.q, s.E with
  | some q, some E => .ok (List.zipWith (fun a v => a • v) q E)
  | _, _ => .error .attributeError

end Hotbit
