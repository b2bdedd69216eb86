import Verif.Model.Basic
import Mathlib.Analysis.SpecialFunctions.Pow.Real

/-!
# Cubic splines of `box/interpolation.py`

Arrays are modelled as functions of the index together with the length `n`; numpy's negative index
`-1` is the index `n-1`.  Arrays hold real numbers (numpy would truncate in `FastSplineFunction` if
the caller passed an integer array `y`, because of `zeros_like(y)`).
-/

namespace Hotbit

/-- Forward sweep of the tridiagonal solver: the entries `(d2[i],u[i])` after the loop
`for i in range(1,n-1)`, /repo/box/interpolation.py lines 88-93 and 210-215. -/
noncomputable def splineFwd (x y : ℕ → ℝ) : ℕ → ℝ × ℝ
  | 0 => (0, 0)
  | i + 1 =>
    let sig := (x (i + 1) - x i) / (x (i + 2) - x i)
    let p := sig * (splineFwd x y i).1 + 2
    ((sig - 1) / p,
     (6 * ((y (i + 2) - y (i + 1)) / (x (i + 2) - x (i + 1)) - (y (i + 1) - y i) / (x (i + 1) - x i))
        / (x (i + 2) - x i) - sig * (splineFwd x y i).2) / p)

/-- Backward sweep: `m` steps down from the last index `n-1`, where `d2[n-1]=0` (`qn=un=0`),
/repo/box/interpolation.py lines 95-97 and 217-219. -/
noncomputable def splineBack (n : ℕ) (x y : ℕ → ℝ) : ℕ → ℝ
  | 0 => 0
  | m + 1 => (splineFwd x y (n - 2 - m)).1 * splineBack n x y m + (splineFwd x y (n - 2 - m)).2

/-- The array of second derivatives `d2[i]`. -/
noncomputable def splineD2 (n : ℕ) (x y : ℕ → ℝ) (i : ℕ) : ℝ := splineBack n x y (n - 1 - i)

/-- The three formulas (value, first and second derivative) between nodes `lo` and `hi`:
/repo/box/interpolation.py lines 164-181 and 248-260 (another `der` returns `None`). -/
noncomputable def splineFormula (xlo xhi h ylo yhi dlo dhi x : ℝ) (der : ℕ) : Option ℝ :=
  let a := (xhi - x) / h
  let b := (x - xlo) / h
  match der with
  | 0 => some (a * ylo + b * yhi + ((a ^ 3 - a) * dlo + (b ^ 3 - b) * dhi) * h ^ 2 / 6)
  | 1 => some ((yhi - ylo) / h - (3 * a ^ 2 - 1) / 6 * h * dlo + (3 * b ^ 2 - 1) / 6 * h * dhi)
  | 2 => some (a * dlo + b * dhi)
  | _ => none

/-- Grid kind of `FastSplineFunction`, lines 224-229. -/
inductive GridKind
  | linear
  | power (p : ℝ)

/-- `find_lower_index_linear/power`, /repo/box/interpolation.py lines 234-240; `int` truncates
towards zero, which is the floor for `x ≥ xmin`. -/
noncomputable def findLower (g : GridKind) (n : ℕ) (x : ℕ → ℝ) (t : ℝ) : ℕ :=
  match g with
  | .linear => ⌊(t - x 0) / (x (n - 1) - x 0) * ((n : ℝ) - 1)⌋₊
  | .power p => ⌊((t - x 0) / (x (n - 1) - x 0)) ^ (1 / p) * ((n : ℝ) - 1)⌋₊

open Classical in
/-- `FastSplineFunction.__call__`, /repo/box/interpolation.py lines 242-260. -/
noncomputable def fastCall (g : GridKind) (n : ℕ) (x y : ℕ → ℝ) (t : ℝ) (der : ℕ) :
    Except Exn (Option ℝ) :=
  if t < x 0 ∨ t ≥ x (n - 1) then .ok (some 0)
  else
    let lo := findLower g n x t
    if ¬ (x lo ≤ t ∧ t < x (lo + 1)) then .error .assertionError
    else .ok (splineFormula (x lo) (x (lo + 1)) (x (lo + 1) - x lo) (y lo) (y (lo + 1))
      (splineD2 n x y lo) (splineD2 n x y (lo + 1)) t der)

open Classical in
/-- `np.searchsorted(x,t)`: how many grid points are below `t`. -/
noncomputable def searchSorted (n : ℕ) (x : ℕ → ℝ) (t : ℝ) : ℕ :=
  ((List.range n).filter fun i => decide (x i < t)).length

/-- The indices `lo`, `hi` of `MultipleSplineFunction.__call__`, lines 152-162; `lo=-1` is the last
index. -/
noncomputable def multiBin (n : ℕ) (x : ℕ → ℝ) (t : ℝ) : ℕ × ℕ :=
  let hi := searchSorted n x t
  (if hi = 0 then n - 1 else hi - 1, if hi = n then n - 1 else hi)

/-- `MultipleSplineFunction.__call__` for one of the functions (for `der=None` the values for 0 and 1
are returned together), /repo/box/interpolation.py lines 131-181. -/
noncomputable def multiCall (n : ℕ) (x y : ℕ → ℝ) (t : ℝ) (der : ℕ) : Option ℝ :=
  let b := multiBin n x t
  splineFormula (x b.1) (x b.2) (x 1 - x 0) (y b.1) (y b.2) (splineD2 n x y b.1) (splineD2 n x y b.2) t der

/-- `_initialize`: a function whose table has another length than the grid is refused,
/repo/box/interpolation.py lines 83-86. -/
def multiInit (nx ny : ℕ) : Except Exn Unit := if nx ≠ ny then .error .runtimeError else .ok ()

end Hotbit
