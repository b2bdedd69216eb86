import Verif.Model.Skf

/-!
# The repulsive potential an `.skf` file describes

Below the first knot `exp(-a1*r+a2)+a3`; between knots the cubics of the file; on the last interval
the polynomial of fifth order; zero beyond.
-/

namespace Hotbit

/-- The value at `r` of the piece in force at `s`, among the given cubics and the last piece. -/
noncomputable def pieceAt : List Seg → LastSeg → ℝ → ℝ → ℝ
  | [], e, s, r =>
    if s ≤ e.x2 then
      e.c1 + e.c2 * (r - e.x1) + e.c3 * (r - e.x1) ^ 2 + e.c4 * (r - e.x1) ^ 3 +
        e.c5 * (r - e.x1) ^ 4 + e.c6 * (r - e.x1) ^ 5
    else 0
  | g :: gs, e, s, r =>
    if s < g.x2 then
      g.c1 + g.c2 * (r - g.x1) + g.c3 * (r - g.x1) ^ 2 + g.c4 * (r - g.x1) ^ 3
    else pieceAt gs e s r

/-- A spline section of an `.skf` file. -/
structure SplineSection where
  a1 : ℝ
  a2 : ℝ
  a3 : ℝ
  first : Seg
  more : List Seg
  last : LastSeg

/-- The value at `r` of the piece in force at `s`. -/
noncomputable def SplineSection.at (P : SplineSection) (s r : ℝ) : ℝ :=
  if s < P.first.x1 then Real.exp (-P.a1 * r + P.a2) + P.a3
  else pieceAt (P.first :: P.more) P.last s r

/-- The potential of the file. -/
noncomputable def SplineSection.V (P : SplineSection) (r : ℝ) : ℝ := P.at r r

/-- The pieces follow each other: every interval is nonempty and ends where the next begins. -/
def Chained : Seg → List Seg → LastSeg → Prop
  | g, [], e => g.x1 < g.x2 ∧ e.x1 = g.x2 ∧ e.x1 < e.x2
  | g, h :: gs, e => g.x1 < g.x2 ∧ h.x1 = g.x2 ∧ Chained h gs e

end Hotbit
