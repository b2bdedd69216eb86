import Verif.Model.Density
import Mathlib.Analysis.Complex.Norm
import Mathlib.Analysis.SpecialFunctions.Sqrt
import Mathlib.Order.Monotone.Basic

/-!
# Solving the states at the k-points

Models `Solver.diagonalize` and `Solver.get_eigenvalues_and_wavefunctions`
(`hotbit/solver.py:41-58,103-143`) with the C routine `geig` (`hotbit/c/geig.c:88-223`).
LAPACK's `zhegvd` itself is not modelled; `Lapack` stands for what it returns, `Lapack.Ok` for what
its documentation promises.
-/

namespace Hotbit

open Matrix
open scoped ComplexOrder

/-- `zhegvd` for `n` orbitals (`geig.c:145-147`): eigenvalues and, in the columns of the array `A`,
eigenvectors; `none` if the factorization of `B` could not be completed (`info > 0`).
`junk` is what the freshly allocated array of the eigenvalues holds (`geig.c:198`). -/
structure Lapack (n : ℕ) where
  run : CMat n → CMat n → Option ((Fin n → ℝ) × CMat n)
  junk : Fin n → ℝ

/-- What the documentation of `zhegvd` promises for `itype = 1`, `jobz = 'V'`: ascending
eigenvalues of `A x = λ B x` with `Zᴴ B Z = 1` if `B` is positive definite, `info > 0` if not. -/
structure Lapack.Ok {n : ℕ} (L : Lapack n) : Prop where
  solves : ∀ H S : CMat n, H.IsHermitian → S.PosDef → ∃ e Z, L.run H S = some (e, Z) ∧
    Monotone e ∧ Zᴴ * S * Z = 1 ∧ H * Z = S * Z * diagonal fun a => (e a : ℂ)
  refuses : ∀ H S : CMat n, H.IsHermitian → S.IsHermitian → ¬ S.PosDef → L.run H S = none

/-- `py_geig(A,B)`, `geig.c:156-223`; the second component is the caller's array `B` afterwards.
The error code of `zhegvd` is ignored (`geig.c:204-212`); the array of the vectors is then the copy
of `A` made in line 199.  `zhegvd` overwrites its array `B` with the Cholesky factor.  This array
is a copy (line 190) unless the caller's array is already in Fortran order, as is an array with a
single entry. -/
noncomputable def geig {n : ℕ} (L : Lapack n) (H S : CMat n) :
    ((Fin n → ℝ) × CMat n) × CMat n :=
  ((L.run H S).getD (L.junk, H),
    if n = 1 ∧ (L.run H S).isSome then fun i j => (√(S i j).re : ℝ) else S)

/-- `norms`, `solver.py:115`. -/
noncomputable def stateNorm {n : ℕ} (wf S : CMat n) (a : Fin n) : ℂ :=
  ∑ j, (∑ i, (starRingEnd ℂ) (wf a i) * S i j) * wf a j

open Classical in
/-- `Solver.diagonalize(H,S)`, `solver.py:103-143` (the branch `if True`); the second component is
the array `S` afterwards.  `max()` of no numbers raises `ValueError`.  Not modelled: NaN. -/
noncomputable def diagonalize {n : ℕ} (L : Lapack n) (tol : ℝ) (H S : CMat n) :
    Except Exn ((Fin n → ℝ) × CMat n) × CMat n :=
  let r := geig L H S
  let wf := r.1.2ᵀ
  if n = 0 then (.error .valueError, r.2)
  else if ∃ a, tol < ‖stateNorm wf r.2 a - 1‖ then (.error .assertionError, r.2)
  else (.ok (r.1.1, wf), r.2)

/-- The Hamiltonian at a k-point, `solver.py:52-55`. -/
def scfHamiltonian {n : ℕ} (H1 : Option (Fin n → Fin n → ℝ)) (H0 S : CMat n) : CMat n :=
  match H1 with
  | none => H0
  | some h => H0 + Matrix.of fun i j => (h i j : ℂ) * S i j

/-- `get_eigenvalues_and_wavefunctions(H0,S,H1)`, `solver.py:41-58`, for the list of the matrices of
the k-points (`get_HS_shape` asserts equal shapes, here a matter of types). -/
noncomputable def solveAll {n : ℕ} (L : Lapack n) (tol : ℝ) (H1 : Option (Fin n → Fin n → ℝ)) :
    List (CMat n × CMat n) → Except Exn (List ((Fin n → ℝ) × CMat n))
  | [] => .ok []
  | M :: Ms => do
    let x ← (diagonalize L tol (scfHamiltonian H1 M.1 M.2) M.2).1
    let xs ← solveAll L tol H1 Ms
    .ok (x :: xs)

end Hotbit
