import Verif.Spec.Multipole
import Verif.Model.Containers
import Mathlib.Data.Pi.Interval
import Mathlib.Data.Int.Interval

/-!
# The charges a telescoped multipole expansion is supposed to sum over
-/

namespace Hotbit

/-- Every direction either has all integer powers of its operation or none. -/
def PureRanges (A : Atoms) : Prop := ∀ d, A.ranges d = rangeInf ∨ A.ranges d = rangeZero

open Classical in
/-- The `n^K` cells around the origin in every infinite direction reach to `±(n^K-1)/2`. -/
noncomputable def halfWidth (A : Atoms) (n : Op) (K : ℕ) : Op :=
  fun d => if A.ranges d = rangeInf then (n d ^ K - 1) / 2 else 0

/-- The block of `n^K` cells in every infinite direction around the origin. -/
noncomputable def imageBox (A : Atoms) (n : Op) (K : ℕ) : Finset Op :=
  Finset.Icc (-halfWidth A n K) (halfWidth A n K)

/-- The image of the charges in cell `z`. -/
noncomputable def imageCharges (A : Atoms) (qr : List (ℝ × Vec)) (z : Op) : List (ℝ × Vec) :=
  qr.map fun a => (a.1, A.rawTransform a.2 z)

/-- All charges in the block of `n^K` cells. -/
noncomputable def blockCharges (A : Atoms) (n : Op) (K : ℕ) (qr : List (ℝ × Vec)) : List (ℝ × Vec) :=
  (imageBox A n K).toList.flatMap (imageCharges A qr)

/-- Potential at the place `x` of charge `i`: all charges of the unit cell but this one, and all charges of
the other `n^K-1` cells. -/
noncomputable def latticePot (A : Atoms) (n : Op) (K : ℕ) (qr : List (ℝ × Vec)) (i : ℕ) (x : Vec) : ℝ :=
  chargePot (qr.eraseIdx i) x + ∑ z ∈ imageBox A n K \ {0}, chargePot (imageCharges A qr z) x

/-- The centre lies half-way between its images under opposite operations (in the infinite directions). -/
def CentreSymmetric (A : Atoms) (c : Vec) : Prop :=
  ∀ z : Op, (∀ d, A.ranges d = rangeZero → z d = 0) → A.rawTransform c z + A.rawTransform c (-z) = (2 : ℝ) • c

/-- Operation `x` on a block of `n^j` cells. -/
def blockOp (n : Op) (j : ℕ) (x : Op) : Op := fun d => x d * n d ^ j

open Classical in
/-- The dipole field of the surface of a large sphere: `4π/(3V) Σ q (r-c)` if all directions are infinite. -/
noncomputable def surfaceDipole (A : Atoms) (qr : List (ℝ × Vec)) (c : Vec) : Vec :=
  if ∀ d, A.ranges d = rangeInf then
    (4 * Real.pi / (3 * |A.cell.det|)) • (qr.map fun a => a.1 • (a.2 - c)).sum else 0

/-- The sum of the error bounds over all blocks that are treated through their moments. -/
noncomputable def farBound (A : Atoms) (n : Op) (K p : ℕ) (qr : List (ℝ × Vec)) (c x : Vec) : ℝ :=
  ∑ j ∈ Finset.range (K - 1), ∑ w ∈ imageBox A n 2 \ imageBox A n 1,
    farSum p (blockCharges A n j qr) c (norm3 (x - c)) (norm3 (A.rawTransform c (blockOp n j w) - c))

/-- The place `x` and the charges of each block lie inside spheres that do not reach each other. -/
def Separated (A : Atoms) (n : Op) (K : ℕ) (qr : List (ℝ × Vec)) (c x : Vec) : Prop :=
  ∀ j < K - 1, ∀ w ∈ imageBox A n 2 \ imageBox A n 1, ∀ a ∈ blockCharges A n j qr,
    norm3 (x - c) + norm3 (a.2 - c) < norm3 (A.rawTransform c (blockOp n j w) - c)

/-- The point the moments are taken about: given by the user, or the mean of the positions. -/
noncomputable def chargeCentre (r0 : Option Vec) (A : Atoms) : Vec :=
  r0.getD ((1 / (A.positions.length : ℝ)) • A.positions.sum)

end Hotbit
