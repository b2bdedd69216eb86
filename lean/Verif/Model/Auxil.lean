import Verif.Model.Atoms
import Mathlib.LinearAlgebra.Matrix.ConjTranspose
import Mathlib.Analysis.Complex.Basic
import Mathlib.Order.WithBot

/-!
# `hotbit/auxil.py`, energy gap and frontier states
-/

namespace Hotbit

open Matrix

/-- `separate_symbols(string)`, `auxil.py:21-26`. Strings are lists of characters; `islower` is the
ASCII one. -/
def separateSymbols (s : List Char) : Except Exn (List Char × List Char) :=
  match s[1]? with
  | none => .error .indexError
  | some c => if c.isLower then .ok (s.take 2, s.drop 2) else .ok (s.take 1, s.drop 1)

/-- `make_hermitian(H)`, `auxil.py:29-32`; `H.diagonal()*np.identity(n)` multiplies column `j` of the
identity by `H[j,j]`. -/
noncomputable def makeHermitian {n : ℕ} (H : Matrix (Fin n) (Fin n) ℂ) : Matrix (Fin n) (Fin n) ℂ :=
  (H + Hᴴ) - Matrix.of fun i j => H j j * (1 : Matrix (Fin n) (Fin n) ℂ) i j

/-- `make_derivative_antihermitian(dH)`, `auxil.py:35-40`, one matrix for each direction. -/
noncomputable def makeDerivativeAntihermitian {n : ℕ} (dH : Fin 3 → Matrix (Fin n) (Fin n) ℂ) :
    Fin 3 → Matrix (Fin n) (Fin n) ℂ :=
  fun a => dH a - (dH a)ᴴ

/-- `A.flatten()`, row by row. -/
def flattenM {m n : ℕ} (A : Matrix (Fin m) (Fin n) ℂ) : List ℂ :=
  (List.finRange m).flatMap fun i => (List.finRange n).map fun j => A i j

open Classical in
/-- `same_matrix(M1,M2,tol)`, `auxil.py:47-48`, for arrays with the same number of elements. -/
noncomputable def sameMatrix {m n m' n' : ℕ} (A : Matrix (Fin m) (Fin n) ℂ)
    (B : Matrix (Fin m') (Fin n') ℂ) (tol : ℝ) : Bool :=
  (List.zipWith (fun a b : ℂ => decide (‖a - b‖ < tol)) (flattenM A) (flattenM B)).all id

/-- `matrix_has_property(A,property,tol)`, `auxil.py:51-78`; the property name is already in lower case. -/
noncomputable def matrixHasProperty {m n : ℕ} (A : Matrix (Fin m) (Fin n) ℂ) (property : String)
    (tol : ℝ) : Except Exn Bool :=
  if property = "square" then .ok (decide (m = n))
  else if property = "hermitian" then .ok (sameMatrix A Aᴴ tol)
  else if property = "symmetric" then .ok (sameMatrix A Aᵀ tol)
  else if property = "orthogonal" then .ok (sameMatrix (A * Aᵀ) (1 : Matrix (Fin m) (Fin m) ℂ) tol)
  else if property = "unitary" then .ok (sameMatrix (A * Aᴴ) (1 : Matrix (Fin m) (Fin m) ℂ) tol)
  else .error .notImplementedError

/-! ## Gap and frontier states -/

/-- The variables of the loop in `get_energy_gap`. -/
structure GapState where
  elo : ℝ
  ehi : ℝ
  flo : Option ℝ
  fhi : Option ℝ

open Classical in
/-- One step of the loop, `aseinterface.py:548-554`. -/
noncomputable def gapStep (s : GapState) (p : ℝ × ℝ) : GapState :=
  if s.elo < p.1 ∧ p.1 ≤ 0 then { s with elo := p.1, flo := some p.2 }
  else if 0 < p.1 ∧ p.1 < s.ehi then { s with ehi := p.1, fhi := some p.2 }
  else s

/-- `get_energy_gap`, `aseinterface.py:536-555`; the levels are relative to the Fermi level and paired
with their occupations. -/
noncomputable def energyGap (levels : List (ℝ × ℝ)) : Except Exn (ℝ × ℝ) :=
  let s := levels.foldl gapStep ⟨-1e10, 1e10, none, none⟩
  match s.flo, s.fhi with
  | some flo, some fhi => .ok (s.ehi - s.elo, (flo - fhi) / 2)
  | _, _ => .error .unboundLocalError

open Classical in
/-- `States.get_homo(occu)`, `states.py:289-296`: `f k i` is the occupation of band `i` at k-point `k`. -/
noncomputable def getHomo {nk norb : ℕ} (f : Fin nk → Fin norb → ℝ) (occu : ℝ) : Option (Fin norb) :=
  (List.finRange norb).reverse.find? fun i => decide (∃ k, occu < f k i)

open Classical in
/-- `States.get_lumo(occu)`, `states.py:299-306`. -/
noncomputable def getLumo {nk norb : ℕ} (f : Fin nk → Fin norb → ℝ) (occu : ℝ) : Option (Fin norb) :=
  (List.finRange norb).find? fun i => decide (∃ k, f k i < occu)

open Classical in
/-- Index of the first maximum, `argmax`; `⊥` stands for masked entries. `i` is the index of the head and
`(b, v)` the best so far. -/
noncomputable def argmaxFrom : List (WithBot ℝ) → ℕ → ℕ → WithBot ℝ → ℕ
  | [], _, b, _ => b
  | x :: xs, i, b, v => if v < x then argmaxFrom xs (i + 1) i x else argmaxFrom xs (i + 1) b v

open Classical in
/-- `get_state_indices(state)`, `aseinterface.py:558-574`: (k, band). Masked entries are never better
than unmasked ones; if all are masked the first index is returned. -/
noncomputable def stateIndices (norb : ℕ) (levels : List ℝ) (state : String) : Except Exn (ℕ × ℕ) :=
  if state = "HOMO" then
    let i := argmaxFrom (levels.map fun e : ℝ => if 0 < e then ⊥ else (e : WithBot ℝ)) 0 0 ⊥
    .ok (i / norb, i % norb)
  else if state = "LUMO" then
    let i := argmaxFrom (levels.map fun e : ℝ => if e < 0 then ⊥ else ((-e : ℝ) : WithBot ℝ)) 0 0 ⊥
    .ok (i / norb, i % norb)
  else .error .unboundLocalError

end Hotbit
