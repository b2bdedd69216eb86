import Verif.Model.Containers
import Verif.Model.Atoms

/-!
# Neighbour lists (`hotbit/neighbors.py`)
-/

namespace Hotbit

/-- One entry of the four parallel arrays `i, j, d, n` returned by `get_neighbors`
(`neighbors.py:135`). The field `op` records the operation of the loop iteration that produced the
entry; the code does not return it. -/
structure Nb where
  i : ℕ
  j : ℕ
  d : ℝ
  n : Vec
  op : Op

/-- `n_from_ranges(s, n)` for one direction and scalar `n` (`neighbors.py:21-44` with `m=None`).
Only `(finite, finite)` and `(-Inf, Inf)` ranges are produced by the containers; for other infinite
ends `int(inf)` would raise `OverflowError`, modelled by an arbitrary value. -/
def nFromRange (N : ℤ) (b : Bound × Bound) : ℤ × ℤ :=
  (match b.1 with | .negInf => -N | .fin a => a | .posInf => 0,
   match b.2 with | .posInf => N + 1 | .fin c => c + 1 | .negInf => 0)

/-- The triple loop over the operations, `neighbors.py:81-104`; `N = 5` with a cutoff. Without a
cutoff the code passes `np.Inf`, which is only reached for clusters and then not used. -/
noncomputable def scanOps (A : Atoms) : List Op :=
  let r := fun k => nFromRange 5 (A.ranges k)
  (arange (r 0).1 (r 0).2).flatMap fun x1 =>
    (arange (r 1).1 (r 1).2).flatMap fun x2 =>
      (arange (r 2).1 (r 2).2).map fun x3 => ![x1, x2, x3]

/-- Row `i` of `a.get_positions()`. -/
def Atoms.pos (A : Atoms) (i : ℕ) : Vec := A.positions.getD i 0

/-- The element `[i, j]` of the array `dr`, `neighbors.py:106-111`, for given `r1` and `T`. -/
def drOf (A : Atoms) (r1 : Vec) (T : Mat) (i j : ℕ) : Vec :=
  A.pos i - (r1 + T.mulVec (A.pos j))

/-- `mask[i, j]`, `neighbors.py:113-120`. -/
def maskOf (cutoff : Option ℝ) (x : Op) (dr : Vec) (i j : ℕ) : Prop :=
  (match cutoff with | none => True | some c => norm3 dr < c) ∧ ¬ (x = 0 ∧ i = j)

open Classical in
/-- The entries appended in one iteration, `neighbors.py:113-133` (row-major order). -/
noncomputable def nbBlock (A : Atoms) (cutoff : Option ℝ) (x : Op) (r1 : Vec) (T : Mat) : List Nb :=
  (List.range A.positions.length).flatMap fun i =>
    (List.range A.positions.length).filterMap fun j =>
      let dr := drOf A r1 T i j
      if maskOf cutoff x dr i j then
        some ⟨i, j, norm3 dr, (norm3 dr)⁻¹ • dr, x⟩
      else none

/-- One iteration of the triple loop, `neighbors.py:105-133`. -/
noncomputable def nbStep (A : Atoms) (cutoff : Option ℝ) (x : Op) : Except Exn (List Nb) := do
  let r1 ← A.transform 0 x
  let T ← A.rotation x
  return nbBlock A cutoff x r1 T

/-- `get_neighbors`, `neighbors.py:56-135`. `none` stands for the result `None, None, None, None`
when no pair was found. -/
noncomputable def getNeighbors (A : Atoms) (cutoff : Option ℝ) : Except Exn (Option (List Nb)) :=
  if cutoff.isNone && !A.isCluster then .error .runtimeError
  else do
    let blocks ← (scanOps A).mapM (nbStep A cutoff)
    let l := blocks.flatten
    return if l.isEmpty then none else some l

end Hotbit
