import Verif.Model.Basic
import Mathlib.Analysis.SpecialFunctions.Log.Basic
import Mathlib.Algebra.BigOperators.Fin
import Mathlib.Data.List.Sort

/-!
# Occupations: `hotbit/occupations.py`
-/

namespace Hotbit

open Real

/-- `MAX_EXP_ARGUMENT = np.log(sys.float_info.max)`, `occupations.py:4-7`. -/
noncomputable def maxExpArg : ℝ := Real.log (2 ^ 1024 - 2 ^ 971)

open Classical in
/-- One element of `Occupations.fermi(mu)`, `occupations.py:30-40`: arguments not below the largest
one `exp` can take become infinite, i.e. occupation `2/(inf+1) = 0`. -/
noncomputable def fermi (width mu e : ℝ) : ℝ :=
  if (e - mu) / width < maxExpArg then 2 / (exp ((e - mu) / width) + 1) else 0

/-- `Occupations.fermi_function(e)`, `occupations.py:43-48`. -/
noncomputable def fermiFunction (width mu e : ℝ) : ℝ := 1 / (exp ((e - mu) / width) + 1)

/-- The data of an `Occupations` object with energies `e[k,a]` (`occupations.py:11-22,69`). -/
structure Occ (nk norb : ℕ) where
  nel : ℝ
  width : ℝ
  wk : Fin nk → ℝ
  e : Fin nk → Fin norb → ℝ

variable {nk norb : ℕ}

/-- `root_function(mu)`, `occupations.py:51-56`. -/
noncomputable def Occ.root (o : Occ nk norb) (mu : ℝ) : ℝ :=
  (∑ k, ∑ a, o.wk k * fermi o.width mu (o.e k a)) - o.nel

/-- `e.flatten()`, row by row. -/
def Occ.flat (o : Occ nk norb) : List ℝ :=
  (List.finRange nk).flatMap fun k => (List.finRange norb).map fun a => o.e k a

open Classical in
/-- `e_sorted`, `occupations.py:70-72`. -/
noncomputable def Occ.sorted (o : Occ nk norb) : List ℝ :=
  o.flat.mergeSort (fun x y => decide (x ≤ y))

open Classical in
/-- `occupy(e)`, `occupations.py:59-94`. The expression `e_sorted(ifermi)` in the `try` block calls
an array and raises `TypeError` whenever it is reached (an `IndexError` may come first), so the
bare `except` branch is always taken; it is the only one modelled. `brentq f a b` is scipy's root
finder. Returns the chemical potential and the occupations. -/
noncomputable def Occ.occupy (o : Occ nk norb)
    (brentq : (ℝ → ℝ) → ℝ → ℝ → Except Exn ℝ) :
    Except Exn (ℝ × (Fin nk → Fin norb → ℝ)) :=
  match o.sorted.head?, o.sorted.getLast? with
  | some lo, some hi =>
    match brentq o.root (lo - o.width) (hi + o.width) with
    | .error x => .error x
    | .ok mu =>
      if 1e-10 < |o.root mu| then .error .runtimeError
      else .ok (mu, fun k a => fermi o.width mu (o.e k a))
  | _, _ => .error .indexError

end Hotbit
