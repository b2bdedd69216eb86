import Verif.Model.Nanotube
import Verif.Spec.Systems

/-!
# Rolled up honeycombs
-/

namespace Hotbit

open Real

/-- Length of a vector of the plane. -/
noncomputable def len2 (p : ℝ × ℝ) : ℝ := √(dot2 p p)

/-- The plane rolled up to a cylinder around the z axis, with the vector `C` once around: distances along `C` become arc lengths,
distances across `C` become heights. -/
noncomputable def rollUp (C p : ℝ × ℝ) : Vec :=
  let radius := len2 C / (2 * π)
  let arc := dot2 p C / len2 C
  ![radius * cos (arc / radius), radius * sin (arc / radius), (p.1 * C.2 - p.2 * C.1) / len2 C]

/-- Primitive vectors of a honeycomb with bond length `R`, 60 degrees apart. -/
def Primitive (R : ℝ) (e1 e2 : ℝ × ℝ) : Prop := dot2 e1 e1 = 3 * R ^ 2 ∧ dot2 e2 e2 = 3 * R ^ 2 ∧ dot2 e1 e2 = 1.5 * R ^ 2

/-- The chiral vector `n e1 + m e2`. -/
noncomputable def chiralVec (e1 e2 : ℝ × ℝ) (n m : ℤ) : ℝ × ℝ := (n : ℝ) • e1 + (m : ℝ) • e2

/-- `S` is an endless `(n,m)` nanotube with bond length `R`, somewhere in space parallel to z. -/
def IsNanotube (R : ℝ) (n m : ℕ) (S : Set Vec) : Prop :=
  ∃ (H : Set (ℝ × ℝ)) (e1 e2 : ℝ × ℝ) (t : Vec), Honeycomb R H ∧ Primitive R e1 e2 ∧ (∀ p, p + e1 ∈ H ↔ p ∈ H) ∧ (∀ p, p + e2 ∈ H ↔ p ∈ H) ∧
    S = (fun p => rollUp (chiralVec e1 e2 n m) p + t) '' H

/-- The positions of all images of all atoms that the container allows. -/
def Atoms.allSites (A : Atoms) : Set Vec := {q | ∃ p ∈ A.positions, ∃ n, A.transform p n = .ok q}

/-- Different images of atoms are at different places. -/
def Atoms.NoOverlap (A : Atoms) : Prop :=
  A.positions.Nodup ∧ ∀ p ∈ A.positions, ∀ q ∈ A.positions, ∀ k l r, A.transform p k = .ok r → A.transform q l = .ok r → p = q ∧ k = l

end Hotbit
