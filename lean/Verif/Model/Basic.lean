import Mathlib.Analysis.SpecialFunctions.Trigonometric.Basic
import Mathlib.LinearAlgebra.Matrix.Notation
import Mathlib.LinearAlgebra.Matrix.Determinant.Basic
import Mathlib.Tactic.FinCases

/-!
# Shared vocabulary of the model

Python exceptions as values, Python rounding, extended integer range ends,
3-vectors and 3x3 matrices over the reals (floats are modelled as exact reals).
-/

namespace Hotbit

/-- Names of the Python exception classes the modelled code raises. -/
inductive Exn
  | valueError | assertionError | warning | notImplementedError | keyError
  | indexError | typeError | attributeError | runtimeError | unboundLocalError
  | zeroDivisionError | exception | nameError | systemExit
  deriving DecidableEq, Repr

/-- A position vector (numpy array of shape (3,)). -/
abbrev Vec := Fin 3 → ℝ
/-- A 3x3 float array. -/
abbrev Mat := Matrix (Fin 3) (Fin 3) ℝ
/-- A symmetry operation `n`, a 3-tuple of Python ints. -/
abbrev Op := Fin 3 → ℤ

/-- An end of a symmetry-operation range: `-np.Inf`, an integer, or `np.Inf`. -/
inductive Bound
  | negInf
  | fin (z : ℤ)
  | posInf
  deriving DecidableEq, Repr

/-- `a <= n` for a range end `a` and an integer `n` (Python comparison with `np.Inf`). -/
def Bound.leInt : Bound → ℤ → Bool
  | .negInf, _ => true
  | .fin a, n => decide (a ≤ n)
  | .posInf, _ => false

/-- `n <= b` for an integer `n` and a range end `b`. -/
def Bound.geInt : Bound → ℤ → Bool
  | .negInf, _ => false
  | .fin b, n => decide (n ≤ b)
  | .posInf, _ => true

open Classical in
/-- Python 3 `int(round(x))` for a float: nearest integer, ties to the even one. -/
noncomputable def pyRound (x : ℝ) : ℤ :=
  if x - ⌊x⌋ < 1 / 2 then ⌊x⌋
  else if 1 / 2 < x - ⌊x⌋ then ⌊x⌋ + 1
  else if Even ⌊x⌋ then ⌊x⌋ else ⌊x⌋ + 1

/-- Python `int(x)` for a float: truncation towards zero. -/
noncomputable def pyInt (x : ℝ) : ℤ := if 0 ≤ x then ⌊x⌋ else ⌈x⌉

theorem pyRound_intCast (z : ℤ) : pyRound (z : ℝ) = z := by
  unfold pyRound; simp

theorem pyInt_intCast (z : ℤ) : pyInt (z : ℝ) = z := by
  unfold pyInt; split <;> simp

/-- Rounding moves by at most one half. -/
theorem abs_pyRound_sub_le (x : ℝ) : |(pyRound x : ℝ) - x| ≤ 1 / 2 := by
  have h1 := Int.floor_le x
  have h2 := Int.lt_floor_add_one x
  unfold pyRound
  rw [abs_le]
  split_ifs <;> push_cast <;> constructor <;> linarith

/-- The only integer within less than one half of `x` is the rounded value. -/
theorem pyRound_eq_of_abs_lt {x : ℝ} {z : ℤ} (h : |x - z| < 1 / 2) : pyRound x = z := by
  have h1 := abs_pyRound_sub_le x
  rw [abs_le] at h1; rw [abs_lt] at h
  have a : (pyRound x : ℝ) < z + 1 := by linarith
  have b : (z : ℝ) < pyRound x + 1 := by linarith
  have a' : pyRound x < z + 1 := by exact_mod_cast a
  have b' : z < pyRound x + 1 := by exact_mod_cast b
  omega

end Hotbit
