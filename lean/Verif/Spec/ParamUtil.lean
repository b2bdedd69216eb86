import Mathlib.Data.Real.Basic

/-!
# What a smooth tail and a quadratic energy are
-/

namespace Hotbit

/-- A polynomial that vanishes at `xmax` at least twice (value and slope zero there):
`(xmax-t)^m (c2 + c3 (xmax-t))` with `m ≥ 2`. -/
def VanishingPoly (xmax : ℝ) (g : ℝ → ℝ) : Prop :=
  ∃ (m : ℕ) (c2 c3 : ℝ), 2 ≤ m ∧ ∀ t, g t = (xmax - t) ^ m * (c2 + c3 * (xmax - t))

/-- `z` is `y` with a smooth tail beginning at the points `k` and `k+1`: nothing changes up to there,
and from there on all values lie on one curve that vanishes smoothly at the last point. -/
def SmoothTail (N : ℕ) (x y z : ℕ → ℝ) (k : ℕ) : Prop :=
  (∀ i, i ≤ k + 1 → z i = y i) ∧
    ∃ g : ℝ → ℝ, VanishingPoly (x (N - 1)) g ∧ ∀ i, k ≤ i → i < N → z i = g (x i)

/-- The values from `k` on have the sign of the `k`-th one (or are zero). -/
def KeepsSign (N : ℕ) (z : ℕ → ℝ) (k : ℕ) : Prop :=
  ∀ i, k ≤ i → i < N → (0 < z k → 0 ≤ z i) ∧ (z k < 0 → z i ≤ 0)

end Hotbit
