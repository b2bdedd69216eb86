import Verif.Model.Mix
import Mathlib.Analysis.SpecialFunctions.Trigonometric.Inverse
import Mathlib.Analysis.Complex.Trigonometric

/-!
# Angular functions: `hotbit/analysis/wavefunctions.py`
-/

namespace Hotbit

open Real

open Classical in
/-- `to_spherical_coordinates(vec)`, `wavefunctions.py:22-36`. -/
noncomputable def toSpherical (v : Vec) : Except Exn (ℝ × ℝ × ℝ) := do
  let r := √(v 0 ^ 2 + v 1 ^ 2 + v 2 ^ 2)
  let (r, theta, phi) ←
    if r < 1e-6 then pure (0, 0, 0)
    else do
      let phi ← phival (v 0) (v 1)
      pure (r, arccos (v 2 / r), phi)
  if ¬ (0 ≤ theta ∧ theta ≤ π) then .error .assertionError
  else if ¬ (0 ≤ phi ∧ phi ≤ 2 * π) then .error .assertionError
  else .ok (r, theta, phi)

/-- `np.sign(-m)` as a complex number. -/
noncomputable def signNeg (m : ℤ) : ℂ := ((Int.sign (-m) : ℤ) : ℂ)

/-- `exp(m*1j*phi)`. -/
noncomputable def phase (m : ℤ) (φ : ℝ) : ℂ := Complex.exp (m * Complex.I * φ)

/-- A real number in the product of a spherical harmonic. -/
noncomputable abbrev re (x : ℝ) : ℂ := (x : ℂ)

/-- `Ylm(l, m)`, `wavefunctions.py:46-192`: the function of `(theta, phi)`; `ret` is unbound when no branch applies. -/
noncomputable def Ylm (l m : ℤ) : Except Exn (ℝ → ℝ → ℂ) :=
  let ok (f : ℝ → ℝ → ℂ) : Except Exn (ℝ → ℝ → ℂ) := .ok f
  let none : Except Exn (ℝ → ℝ → ℂ) := .error .unboundLocalError
  if l = 0 then
    if m = 0 then ok fun _ _ => re (0.5 * √(1 / π))
    else none
  else if l = 1 then
    if m = -1 then ok fun θ φ => re (0.5 * √(3 / (2 * π))) * phase (-1) φ * re (sin θ)
    else if m = 0 then ok fun θ _ => re (0.5 * √(3 / π) * cos θ)
    else if m = 1 then ok fun θ φ => re (-0.5 * √(3 / (2 * π))) * phase 1 φ * re (sin θ)
    else none
  else if l = 2 then
    if m = -2 then ok fun θ φ => re (0.25 * √(15 / (2 * π))) * phase (-2) φ * re (sin θ ^ 2)
    else if m = -1 then ok fun θ φ => re (0.5 * √(15 / (2 * π))) * phase (-1) φ * re (sin θ * cos θ)
    else if m = 0 then ok fun θ _ => re (0.25 * √(5 / π) * (3 * cos θ ^ 2 - 1))
    else if m = 1 then ok fun θ φ => re (-0.5 * √(15 / (2 * π))) * phase 1 φ * re (sin θ * cos θ)
    else if m = 2 then ok fun θ φ => re (0.25 * √(15 / (2 * π))) * phase 2 φ * re (sin θ ^ 2)
    else none
  else if l = 3 then
    if m = -3 then ok fun θ φ => re (0.125 * √(35 / π)) * phase (-3) φ * re (sin θ ^ 3)
    else if m = -2 then ok fun θ φ => re (0.25 * √(105 / (2 * π))) * phase (-2) φ * re (sin θ ^ 2 * cos θ)
    else if m = -1 then ok fun θ φ =>
      re (0.125 * √(21 / π)) * phase (-1) φ * re (sin θ * (5 * cos θ ^ 2 - 1))
    else if m = 0 then ok fun θ _ => re (0.25 * √(7 / π) * (5 * cos θ ^ 3 - 3 * cos θ))
    else if m = 1 then ok fun θ φ =>
      re (-0.125 * √(21 / π)) * phase 1 φ * re (sin θ * (5 * cos θ ^ 2 - 1))
    else if m = 2 then ok fun θ φ => re (0.25 * √(105 / (2 * π))) * phase 2 φ * re (sin θ ^ 2 * cos θ)
    else if m = 3 then ok fun θ φ => re (-0.125 * √(35 / π)) * phase 3 φ * re (sin θ ^ 3)
    else none
  else if l = 4 then
    if |m| = 4 then ok fun θ φ => re (3 / 16 * √(35 / (2 * π))) * phase m φ * re (sin θ ^ 4)
    else if |m| = 3 then ok fun θ φ =>
      signNeg m * re (3 / 8 * √(35 / π)) * phase m φ * re (sin θ ^ 3 * cos θ)
    else if |m| = 2 then ok fun θ φ =>
      re (3 / 8 * √(5 / (2 * π))) * phase m φ * re (sin θ ^ 2 * (7 * cos θ ^ 2 - 1))
    else if |m| = 1 then ok fun θ φ =>
      signNeg m * re (3 / 8 * √(5 / π)) * phase m φ * re (sin θ * (7 * cos θ ^ 3 - 3 * cos θ))
    else if m = 0 then ok fun θ _ => re (3 / 16 * √(1 / π) * (35 * cos θ ^ 4 - 30 * cos θ ^ 2 + 3))
    else none
  else if l = 5 then
    if |m| = 5 then ok fun θ φ => signNeg m * re (3 / 32 * √(77 / π)) * phase m φ * re (sin θ ^ 5)
    else if |m| = 4 then ok fun θ φ =>
      re (3 / 16 * √(385 / (2 * π))) * phase m φ * re (sin θ ^ 4 * cos θ)
    else if |m| = 3 then ok fun θ φ =>
      signNeg m * re (1 / 32 * √(385 / π)) * phase m φ * re (sin θ ^ 3 * (9 * cos θ ^ 2 - 1))
    else if |m| = 2 then ok fun θ φ =>
      re (0.125 * √(1155 / (2 * π))) * phase m φ * re (sin θ ^ 2 * (3 * cos θ ^ 3 - cos θ))
    else if |m| = 1 then ok fun θ φ =>
      signNeg m * re (1 / 16 * √(165 / (2 * π))) * phase m φ
        * re (sin θ * (21 * cos θ ^ 4 - 14 * cos θ ^ 2 + 1))
    else if m = 0 then ok fun θ _ =>
      re (1 / 16 * √(11 / π) * (63 * cos θ ^ 5 - 70 * cos θ ^ 3 + 15 * cos θ))
    else none
  else if l = 6 then
    if |m| = 6 then ok fun θ φ => re (1 / 64 * √(3003 / π)) * phase m φ * re (sin θ ^ 6)
    else if |m| = 5 then ok fun θ φ =>
      signNeg m * re (3 / 32 * √(1001 / π)) * phase m φ * re (sin θ ^ 5 * cos θ)
    else if |m| = 4 then ok fun θ φ =>
      re (3 / 32 * √(91 / (2 * π))) * phase m φ * re (sin θ ^ 4 * (11 * cos θ ^ 2 - 1))
    else if |m| = 3 then ok fun θ φ =>
      signNeg m * re (1 / 32 * √(1365 / π)) * phase m φ * re (sin θ ^ 3 * (11 * cos θ ^ 3 - 3 * cos θ))
    else if |m| = 2 then ok fun θ φ =>
      re (1 / 64 * √(1365 / π)) * phase m φ * re (sin θ ^ 2 * (33 * cos θ ^ 4 - 18 * cos θ ^ 2 + 1))
    else if |m| = 1 then ok fun θ φ =>
      signNeg m * re (1 / 16 * √(273 / (2 * π))) * phase m φ
        * re (sin θ * (33 * cos θ ^ 5 - 30 * cos θ ^ 3 + 5 * cos θ))
    else if m = 0 then ok fun θ _ =>
      re (1 / 32 * √(13 / π) * (231 * cos θ ^ 6 - 315 * cos θ ^ 4 + 105 * cos θ ^ 2 - 5))
    else none
  else none

/-- `states`, `wavefunctions.py:195`. -/
def angularStates : List String := ["s", "px", "py", "pz", "dxy", "dyz", "dzx", "dx2-y2", "d3z2-r2"]

/-- The second argument of `angular`: an index or a name. -/
inductive AngArg
  | idx (i : ℤ)
  | name (s : String)

open Classical in
/-- `angular(r, wf)`, `wavefunctions.py:196-224`; the result `none` is Python's `None`, returned for an index that no branch handles. -/
noncomputable def angular (r : Vec) (wf : AngArg) : Except Exn (Option ℝ) := do
  let R := √(r 0 ^ 2 + r 1 ^ 2 + r 2 ^ 2)
  if R < 1e-14 then .ok (some 0)
  else
    let θ := arccos (r 2 / R)
    let φ ← phival (r 0) (r 1)
    let i ← match wf with
      | .idx i => pure i
      | .name s => match angularStates.findIdx? (· == s) with
        | some i => pure (i : ℤ)
        | none => .error .valueError
    .ok <|
      if i = 0 then some (1 / √(4 * π))
      else if i = 1 then some (√(3 / (4 * π)) * sin θ * cos φ)
      else if i = 2 then some (√(3 / (4 * π)) * sin θ * sin φ)
      else if i = 3 then some (√(3 / (4 * π)) * cos θ)
      else if i = 4 then some (√(15 / (4 * π)) * sin θ ^ 2 * cos φ * sin φ)
      else if i = 5 then some (√(15 / (4 * π)) * sin θ * cos θ * sin φ)
      else if i = 6 then some (√(15 / (4 * π)) * sin θ * cos θ * cos φ)
      else if i = 7 then some (0.5 * √(15 / (4 * π)) * sin θ ^ 2 * cos (2 * φ))
      else if i = 8 then some (0.5 * √(5 / (4 * π)) * (3 * cos θ ^ 2 - 1))
      else none

end Hotbit
