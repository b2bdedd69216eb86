import Verif.Model.Basic
import Mathlib.Analysis.SpecialFunctions.Trigonometric.Arctan

/-!
# Helpers from `box/mix.py` needed by the containers
-/

namespace Hotbit

open Real

open Classical in
/-- `phival(x,y)`, `box/mix.py:257-280`, the nine branches in order, with a tolerance parameter
`e` (1e-16 in the code). -/
noncomputable def phivalE (e x y : ℝ) : Except Exn ℝ :=
  if x > e ∧ y > e then .ok (arctan (y / x))
  else if x < -e ∧ y > e then .ok (arctan (y / x) + π)
  else if x < -e ∧ y < -e then .ok (arctan (y / x) + π)
  else if x > e ∧ y < -e then .ok (arctan (y / x) + 2 * π)
  else if |x| ≤ e ∧ |y| ≤ e then .ok 0
  else if x > e ∧ |y| ≤ e then .ok 0
  else if y > e ∧ |x| ≤ e then .ok (π / 2)
  else if x < -e ∧ |y| ≤ e then .ok π
  else if y < -e ∧ |x| ≤ e then .ok (3 * π / 2)
  else .error .runtimeError

/-- `phival(x,y)` with the tolerance of the code (`box/mix.py:259`). -/
noncomputable def phival (x y : ℝ) : Except Exn ℝ := phivalE 1e-16 x y

end Hotbit
