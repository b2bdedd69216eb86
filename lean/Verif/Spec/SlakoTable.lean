import Mathlib.Analysis.SpecialFunctions.Trigonometric.Basic
import Mathlib.MeasureTheory.Integral.IntervalIntegral.Basic

/-!
# What a Slater-Koster table should contain
-/

namespace Hotbit

open Real

/-- Orbitals by angular momentum `l ≤ 2` and magnetic quantum number; `m > 0` has `cos mφ`, `m < 0` has `sin |m|φ`. -/
inductive AngOrb
  | s | pz | px | py | dz2 | dxz | dyz | dx2y2 | dxy
  deriving DecidableEq

/-- Real spherical harmonics. -/
noncomputable def realY (θ φ : ℝ) : AngOrb → ℝ
  | .s => √(1 / (4 * π))
  | .pz => √(3 / (4 * π)) * cos θ
  | .px => √(3 / (4 * π)) * sin θ * cos φ
  | .py => √(3 / (4 * π)) * sin θ * sin φ
  | .dz2 => √(5 / (16 * π)) * (3 * cos θ ^ 2 - 1)
  | .dxz => √(15 / (4 * π)) * sin θ * cos θ * cos φ
  | .dyz => √(15 / (4 * π)) * sin θ * cos θ * sin φ
  | .dx2y2 => √(15 / (16 * π)) * sin θ ^ 2 * cos (2 * φ)
  | .dxy => √(15 / (16 * π)) * sin θ ^ 2 * sin (2 * φ)

/-- The Slater-Koster integral of two orbitals, the one of smaller `l` first: `ddσ`, `ddπ`, `ddδ`, `pdσ`, `pdπ`, `ppσ`, `ppπ`,
`sdσ`, `spσ`, `ssσ` are numbered from 0 to 9. -/
def skKind : AngOrb → AngOrb → Option (Fin 10)
  | .dz2, .dz2 => some 0
  | .dxz, .dxz | .dyz, .dyz => some 1
  | .dx2y2, .dx2y2 | .dxy, .dxy => some 2
  | .pz, .dz2 => some 3
  | .px, .dxz | .py, .dyz => some 4
  | .pz, .pz => some 5
  | .px, .px | .py, .py => some 6
  | .s, .dz2 => some 7
  | .s, .pz => some 8
  | .s, .s => some 9
  | _, _ => none

/-- Angular momentum of an orbital. -/
def AngOrb.l : AngOrb → ℕ
  | .s => 0
  | .pz | .px | .py => 1
  | _ => 2

/-- Area, in polar coordinates, of the part below the line `z = h` of the ring segment between the radii `ra`, `rb` and
the angles `ta`, `tb`. -/
noncomputable def segmentArea (h ra rb ta tb : ℝ) : ℝ :=
  ∫ θ in ta..tb, ∫ r in ra..rb, haveI := Classical.dec (r * cos θ ≤ h); if r * cos θ ≤ h then r else 0

end Hotbit
