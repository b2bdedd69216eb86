import Verif.Model.Basic

/-!
# Helpers of the parametrization: smooth tails, ionization potential and electron affinity
-/

namespace Hotbit

/-- Does the straight line through the points `i` and `i+1` vanish before `xmax`?
/repo/hotbit/parametrization/util.py lines 176-177.  For equal values the slope is zero and numpy's
`y/0` is plus infinity, minus infinity or no number according to the sign of `y`. -/
noncomputable def lineVanishes (x y : ℕ → ℝ) (xmax : ℝ) (i : ℕ) : Bool :=
  haveI : Decidable (y (i + 1) = y i) := Classical.dec _
  haveI : Decidable (0 < y i) := Classical.dec _
  haveI : Decidable (x i - y i / ((y (i + 1) - y i) / (x (i + 1) - x i)) < xmax) := Classical.dec _
  if y (i + 1) = y i then decide (0 < y i)
  else decide (x i - y i / ((y (i + 1) - y i) / (x (i + 1) - x i)) < xmax)

/-- The loop over `i` from the given value down to 2,
/repo/hotbit/parametrization/util.py lines 175-179. -/
def findTail (test : ℕ → Bool) : ℕ → Option ℕ
  | 0 => none
  | i + 1 => if i + 1 < 2 then none else if test (i + 1) then some (i + 1) else findTail test i

/-- `c3` of the fit with exponent `m`; `d = xmax-x[k]`, `e = xmax-x[k+1]`,
/repo/hotbit/parametrization/util.py lines 192-194. -/
noncomputable def tailC3 (m : ℕ) (d e yk yk1 : ℝ) : ℝ :=
  (yk - d ^ m * yk1 / e ^ m) / (d ^ (m + 1) - d ^ m * e ^ (m + 1) / e ^ m)

/-- `c2` of the fit, /repo/hotbit/parametrization/util.py line 195. -/
noncomputable def tailC2 (m : ℕ) (d e yk yk1 : ℝ) : ℝ :=
  (yk - d ^ (m + 1) * tailC3 m d e yk yk1) / d ^ m

/-- The array after one turn with exponent `m`,
/repo/hotbit/parametrization/util.py lines 192-198 (the exponents 2 and 3 in the assignment do not
depend on `m`). -/
noncomputable def tailTry (N : ℕ) (x y : ℕ → ℝ) (k m : ℕ) : ℕ → ℝ := fun i =>
  let xmax := x (N - 1)
  let d := xmax - x k
  let e := xmax - x (k + 1)
  if i + 1 = N then 0
  else if k + 2 ≤ i ∧ i < N then
    tailC2 m d e (y k) (y (k + 1)) * (xmax - x i) ^ 2 +
      tailC3 m d e (y k) (y (k + 1)) * (xmax - x i) ^ 3
  else y i

/-- The loop over `m`, /repo/hotbit/parametrization/util.py lines 191-202; the first argument counts
the turns left after this one.  (`y[k]`, `y[k+1]` do not change, and every turn sets all later
values anew.) -/
noncomputable def tailLoop (N : ℕ) (x y : ℕ → ℝ) (k : ℕ) : ℕ → ℕ → Except Exn (ℕ → ℝ)
  | left, m =>
    let y' := tailTry N x y k m
    haveI : Decidable (∀ i, k ≤ i → i < N → 0 ≤ y' i * SignType.sign (y k)) := Classical.dec _
    if ∀ i, k ≤ i → i < N → 0 ≤ y' i * SignType.sign (y k) then .ok y'
    else match left with
      | 0 => .error .runtimeError
      | left + 1 => tailLoop N x y k left (m + 1)

/-- `tail_smoothening`, /repo/hotbit/parametrization/util.py lines 157-203, for arrays of length `N`
(values of `y` at `N` and beyond are not looked at). -/
noncomputable def tailSmoothening (N : ℕ) (x y : ℕ → ℝ) : Except Exn (ℕ → ℝ) :=
  haveI : Decidable (∀ i < N, |y i| < 1 / 10 ^ 10) := Classical.dec _
  haveI : ∀ k : ℕ, Decidable ((k : ℝ) < (N : ℝ) / 4) := fun _ => Classical.dec _
  if ∀ i < N, |y i| < 1 / 10 ^ 10 then .ok y
  else match findTail (lineVanishes x y (x (N - 1))) (N - 3) with
    | none => .error .unboundLocalError
    | some k =>
      if (k : ℝ) < (N : ℝ) / 4 then .error .runtimeError
      else if k + 3 = N then .ok (Function.update y (N - 1) 0)
      else tailLoop N x y k 7 2

/-- The total energy of an atom as a function of the occupations of its orbitals. -/
abbrev AtomEnergy := (String → ℝ) → ℝ

/-- `occu[orb] += n`. -/
noncomputable def addElectrons (occu : String → ℝ) (orb : String) (n : ℝ) : String → ℝ :=
  Function.update occu orb (occu orb + n)

/-- `IP_EA`, /repo/hotbit/parametrization/util.py lines 205-257 (the atom program is the function
`energy`, which is not modelled here; the third result, the neutral atom, is left out).  A division
by zero, which gives a NaN for numpy's numbers, is written as an exception. -/
noncomputable def ipEa (energy : AtomEnergy) (occu : String → ℝ) (removeOrb addOrb : String)
    (remove add : ℝ) : Except Exn (ℝ × ℝ) :=
  haveI : Decidable (remove = 0) := Classical.dec _
  haveI : Decidable (add * (remove + add) = 0) := Classical.dec _
  let e0 := energy occu
  let en := energy (addElectrons occu addOrb add) - e0
  let ep := energy (addElectrons occu removeOrb (-remove)) - e0
  if remove = 0 then .error .zeroDivisionError
  else if add * (remove + add) = 0 then .error .zeroDivisionError
  else
    let c2 := (en + ep * add / remove) / (add * (remove + add))
    let c1 := (c2 * remove ^ 2 - ep) / remove
    .ok (-c1 + c2, -(c1 + c2))

end Hotbit
