import Verif.Model.Containers

/-!
# Trilinear interpolation and interpolated paths, `box/interpolation.py`
-/

namespace Hotbit

/-- Index `z` into an axis of length `n` (negative indices count from the end). -/
def axisIndex (n : ℕ) (z : ℤ) : Except Exn ℕ :=
  if 0 ≤ z ∧ z < n then .ok z.toNat
  else if z < 0 ∧ 0 ≤ z + n then .ok (z + n).toNat
  else .error .indexError

/-- The data of a `TrilinearInterpolation`: array `a` of shape `n`, and one grid per axis,
/repo/box/interpolation.py lines 768-774. -/
structure TriData where
  n : Fin 3 → ℕ
  a : ℕ → ℕ → ℕ → ℝ
  grid : Fin 3 → ℕ → ℝ

/-- `self.dg`, line 774. -/
def TriData.dg (T : TriData) (p : Fin 3) : ℝ := T.grid p 1 - T.grid p 0

/-- Lower index on axis `p`: `int(min(floor(r/dg),n-2))`, lines 781-784. -/
noncomputable def TriData.lower (T : TriData) (r : Vec) (p : Fin 3) : ℤ :=
  min ⌊r p / T.dg p⌋ ((T.n p : ℤ) - 2)

/-- The interpolation formula, lines 788-795, for data `c i j k` at the eight corners. -/
def triFormula (c : ℕ → ℕ → ℕ → ℝ) (dx dy dz : ℝ) : ℝ :=
  let i1 := c 0 0 0 * (1 - dz) + c 0 0 1 * dz
  let i2 := c 0 1 0 * (1 - dz) + c 0 1 1 * dz
  let j1 := c 1 0 0 * (1 - dz) + c 1 0 1 * dz
  let j2 := c 1 1 0 * (1 - dz) + c 1 1 1 * dz
  let w1 := i1 * (1 - dy) + i2 * dy
  let w2 := j1 * (1 - dy) + j2 * dy
  w1 * (1 - dx) + w2 * dx

/-- `a[i+b,...]` for `b` 0 or 1 on one axis. -/
def TriData.pair (T : TriData) (p : Fin 3) (z : ℤ) : Except Exn (ℕ × ℕ) := do
  let lo ← axisIndex (T.n p) z
  let hi ← axisIndex (T.n p) (z + 1)
  pure (lo, hi)

/-- Choose the lower or upper index. -/
def pick (q : ℕ × ℕ) (b : ℕ) : ℕ := if b = 0 then q.1 else q.2

open Classical in
/-- `TrilinearInterpolation.__call__`, /repo/box/interpolation.py lines 776-795. -/
noncomputable def TriData.call (T : TriData) (r : Vec) : Except Exn ℝ :=
  if ¬ ∀ p, T.grid p 0 ≤ r p ∧ r p ≤ T.grid p (T.n p - 1) then .error .assertionError
  else do
    let qx ← T.pair 0 (T.lower r 0)
    let qy ← T.pair 1 (T.lower r 1)
    let qz ← T.pair 2 (T.lower r 2)
    pure (triFormula (fun b c d => T.a (pick qx b) (pick qy c) (pick qz d))
      ((r 0 - T.grid 0 qx.1) / T.dg 0) ((r 1 - T.grid 1 qy.1) / T.dg 1) ((r 2 - T.grid 2 qz.1) / T.dg 2))

/-! ### Paths -/

/-- Number of points on one part of the path, /repo/box/interpolation.py lines 857-860. -/
noncomputable def segCount (dk l : ℝ) : ℤ :=
  let m := pyRound (l / dk) + 1
  if (m : ℝ) * dk < l then m + 1 else m

/-- `np.linspace(A,B,m)[1:]` for the three coordinates, lines 864-868 (`m ≥ 1` here because lengths are
not negative). -/
noncomputable def linspaceTail (A B : Vec) (m : ℤ) : List Vec :=
  (List.range (m.toNat - 1)).map fun (k : ℕ) i => A i + ((k : ℝ) + 1) * ((B i - A i) / ((m : ℝ) - 1))

/-- The path after its first point, lines 861-868. -/
noncomputable def pathTail (dk : ℝ) : Vec → List Vec → List Vec
  | _, [] => []
  | A, B :: ps => linspaceTail A B (segCount dk (norm3 (B - A))) ++ pathTail dk B ps

/-- Distances along the path, lines 869-871. -/
noncomputable def cumDist : ℝ → Vec → List Vec → List ℝ
  | _, _, [] => []
  | d, A, v :: l => (d + norm3 (v - A)) :: cumDist (d + norm3 (v - A)) v l

/-- Lengths of the parts, line 850. -/
noncomputable def segLengths : Vec → List Vec → List ℝ
  | _, [] => []
  | A, B :: ps => norm3 (B - A) :: segLengths B ps

/-- `interpolate_path`, /repo/box/interpolation.py lines 836-872, for `N ≥ 2`; returns path, distances and
label points.  If all points coincide `lengths/dk` is not a number and `round` raises. -/
noncomputable def interpolatePath (points : List Vec) (N : ℕ) :
    Except Exn (List Vec × List ℝ × List ℝ) :=
  match points with
  | [] => .error .indexError
  | A :: ps =>
    let lengths := segLengths A ps
    let labels := (List.range (A :: ps).length).map fun i => (lengths.take i).sum
    let dk := lengths.sum / ((N : ℝ) - 1)
    if ps ≠ [] ∧ dk = 0 then .error .valueError
    else
      let path := pathTail dk A ps
      .ok (A :: path, 0 :: cumDist 0 A path, labels)

end Hotbit
