import Mathlib.Analysis.SpecialFunctions.Trigonometric.Basic
import Mathlib.Analysis.SpecialFunctions.Sqrt

/-!
# Specification: a density of states
-/

namespace Hotbit

/-- The normalized Gaussian of standard deviation `w` centred at `c`. -/
noncomputable def gaussAt (w c z : ℝ) : ℝ := Real.exp (-(z - c) ^ 2 / (2 * w ^ 2)) / (√(2 * Real.pi) * w)

open Classical in
/-- The density of the states with energies `e` in the set `W`, state `(k,a)` counted with the weight `g k a`. -/
noncomputable def densityAt {nk n : ℕ} (e g : Fin nk → Fin n → ℝ) (W : Set ℝ) (w z : ℝ) : ℝ :=
  ∑ k, ∑ a, if e k a ∈ W then g k a * gaussAt w (e k a) z else 0

/-- The ends of the energy axis: the window if there is one, else the lowest and the highest energy. -/
def GridEnds {nk n : ℕ} (e : Fin nk → Fin n → ℝ) (window : Option (ℝ × ℝ)) (mn mx : ℝ) : Prop :=
  match window with
  | some w => w = (mn, mx)
  | none => IsLeast {x | ∃ k a, e k a = x} mn ∧ IsGreatest {x | ∃ k a, e k a = x} mx

end Hotbit
