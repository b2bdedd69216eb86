import Verif.Model.Systems

/-!
# Honeycomb lattices and periodic structures
-/

namespace Hotbit

/-- Squared distance of points of the plane. -/
def d2 (p q : ℝ × ℝ) : ℝ := (p.1 - q.1) ^ 2 + (p.2 - q.2) ^ 2

/-- A honeycomb lattice with bond length `R`: no two points are closer than `R`, and every point has exactly three neighbours at the
distance `R`, which are pairwise `√3 R` apart. -/
def Honeycomb (R : ℝ) (H : Set (ℝ × ℝ)) : Prop :=
  H.Nonempty ∧ ∀ p ∈ H, (∀ q ∈ H, q ≠ p → R ^ 2 ≤ d2 p q) ∧
    ∃ a b c, {q ∈ H | d2 p q = R ^ 2} = {a, b, c} ∧ d2 a b = 3 * R ^ 2 ∧ d2 b c = 3 * R ^ 2 ∧ d2 a c = 3 * R ^ 2

/-- The positions of all periodic images of all atoms. -/
def Struct.sites (s : Struct) : Set Vec :=
  {q | ∃ p ∈ s.pos, ∃ k : Fin 3 → ℤ, (∀ a, s.pbc a = false → k a = 0) ∧ q = p + ∑ a, (k a : ℝ) • s.cell a}

/-- Different images of atoms are at different places. -/
def Struct.Simple (s : Struct) : Prop :=
  s.pos.Nodup ∧ ∀ p ∈ s.pos, ∀ q ∈ s.pos, ∀ k : Fin 3 → ℤ, (∀ a, s.pbc a = false → k a = 0) →
    q = p + ∑ a, (k a : ℝ) • s.cell a → q = p ∧ ∀ a, k a = 0

/-- The periodic structure is the part `P` of the plane, put somewhere in space without changing distances. -/
def Struct.IsSheet (s : Struct) (P : Set (ℝ × ℝ)) : Prop :=
  ∃ f : ℝ × ℝ → Vec, (∀ p q, ∑ a, (f p a - f q a) ^ 2 = d2 p q) ∧ s.sites = f '' P

/-- A strip of a honeycomb along the first axis. -/
def stripOf (H : Set (ℝ × ℝ)) (lo hi : ℝ) : Set (ℝ × ℝ) := {p ∈ H | lo ≤ p.2 ∧ p.2 ≤ hi}

/-- A ribbon of `n` rows of atoms along the first axis with armchair edges: one bond of every atom is along the ribbon, the rows are
`√3 R/2` apart. -/
def ArmchairRibbon (R : ℝ) (n : ℕ) (P : Set (ℝ × ℝ)) : Prop :=
  ∃ H lo, Honeycomb R H ∧ (∀ p ∈ H, (p.1 + R, p.2) ∈ H ∨ (p.1 - R, p.2) ∈ H) ∧ (∃ p ∈ H, p.2 = lo) ∧
    P = stripOf H lo (lo + ((n : ℝ) - 1) * (√3 * R / 2))

/-- A ribbon of `n` zigzag rows along the first axis: one bond of every atom is across the ribbon; the bonds cut at the edges are those
across the ribbon. -/
def ZigzagRibbon (R : ℝ) (n : ℕ) (P : Set (ℝ × ℝ)) : Prop :=
  ∃ H lo, Honeycomb R H ∧ (∀ p ∈ H, (p.1, p.2 + R) ∈ H ∨ (p.1, p.2 - R) ∈ H) ∧ (∃ p ∈ H, p.2 = lo ∧ (p.1, p.2 - R) ∈ H) ∧
    P = stripOf H lo (lo + (((n : ℝ) - 1) * (1.5 * R) + R / 2))

end Hotbit
