import Verif.Model.Analysis
import Mathlib.Analysis.InnerProductSpace.PiL2

/-!
# Model of hotbit/analysis/lr.py
-/

namespace Hotbit

open Matrix

variable {n : ℕ}

/-- What a `LinearResponse` object keeps of the calculator, /repo/hotbit/analysis/lr.py lines 33-56: eigenvalues, occupations, wave functions
(`wf a i` is the coefficient of basis function `i` in state `a`) and overlap of the first k-point, atomic positions, the
electrostatic matrix, and the cutoff in Hartree. -/
structure LRData (n : ℕ) where
  t : OrbTables
  e : Fin n → ℝ
  f : Fin n → ℝ
  wf : Fin n → Fin n → ℝ
  S : Fin n → Fin n → ℝ
  r : ℕ → Vec
  gamma : ℕ → ℕ → ℝ
  scc : Bool
  cut : ℝ

open Classical in
/-- The constructor, /repo/hotbit/analysis/lr.py lines 33-56: `wfs` are the wave functions of all k-points, `S` the overlap
of the first k-point, `pbc` whether some direction is periodic. -/
noncomputable def lrInit {nk : ℕ} (hk : 0 < nk) (t : OrbTables) (e f : Fin nk → Fin n → ℝ) (wfs : Fin nk → CMat n)
    (S : Fin nk → CMat n) (r : ℕ → Vec) (gamma : ℕ → ℕ → ℝ) (scc pbc : Bool) (energyCut hartree : ℝ) :
    Except Exn (LRData n) :=
  if ∃ k a i, |(wfs k a i).im| > 1e-10 then .error .valueError
  else if pbc then .error .assertionError
  else .ok ⟨t, e ⟨0, hk⟩, f ⟨0, hk⟩, fun a i => (wfs ⟨0, hk⟩ a i).re, fun i j => (S ⟨0, hk⟩ i j).re, r, gamma, scc,
    energyCut / hartree⟩

/-- `self.Swf`, line 75. -/
def LRData.Swf (D : LRData n) (i a : Fin n) : ℝ := ∑ j, D.S i j * D.wf a j

/-- `mulliken_transfer(k,l)`, /repo/hotbit/analysis/lr.py lines 84-91. -/
noncomputable def LRData.transfer (D : LRData n) (k l : Fin n) : List ℝ :=
  D.t.blocks.map fun b => sliceSum (fun a => D.wf k a * D.Swf a l + D.wf l a * D.Swf a k) b / 2

/-- A particle-hole excitation. -/
structure PH (n : ℕ) where
  i : Fin n
  j : Fin n
  de : ℝ
  df : ℝ

/-- The pairs `i<j` in the order of the loops of lines 109-110. -/
def statePairs (n : ℕ) : List (Fin n × Fin n) :=
  (List.finRange n).flatMap fun i => ((List.finRange n).filter fun j => i < j).map fun j => (i, j)

open Classical in
/-- The selection of the particle-hole pairs, /repo/hotbit/analysis/lr.py lines 109-117. -/
noncomputable def LRData.select (D : LRData n) : List (Fin n × Fin n) → Except Exn (List (PH n))
  | [] => .ok []
  | (i, j) :: l =>
    let energy := D.e j - D.e i
    let occup := (D.f i - D.f j) / 2
    if energy < D.cut ∧ occup > 1e-6 then
      if energy > 0 ∧ occup > 0 then do
        let rest ← D.select l
        return ⟨i, j, energy, occup⟩ :: rest
      else .error .assertionError
    else D.select l

/-- `dot(a,b)` for the charges of the atoms. -/
def dotList (a b : List ℝ) : ℝ := (List.zipWith (· * ·) a b).sum

/-- `dot(gamma,q)`. -/
def gammaDot (gamma : ℕ → ℕ → ℝ) (q : List ℝ) : List ℝ :=
  (List.range q.length).map fun I => ((List.range q.length).map fun J => gamma I J * q.getD J 0).sum

/-- The coupling matrix, /repo/hotbit/analysis/lr.py lines 134-147. -/
noncomputable def LRData.matrix (D : LRData n) (ph : List (PH n)) : Matrix (Fin ph.length) (Fin ph.length) ℝ :=
  Matrix.of fun k1 k2 =>
    let p := ph[k1]
    let q := ph[k2]
    (if k1 = k2 then p.de ^ 2 else 0) + (if D.scc then
      2 * √(p.df * p.de * q.de * q.df) * dotList (D.transfer p.i p.j) (gammaDot D.gamma (D.transfer q.i q.j)) else 0)

/-- `rv[p,i]`, line 132. -/
noncomputable def LRData.rv (D : LRData n) (p : PH n) (i : Fin 3) : ℝ :=
  ((List.range (D.transfer p.i p.j).length).map fun I => (D.transfer p.i p.j).getD I 0 * D.r I i).sum

/-- What `run` stores, in Hartree. -/
structure LRResult (n : ℕ) where
  ph : List (PH n)
  omega : List ℝ
  F : List ℝ
  collectivity : List ℝ

/-- One component of the transition dipole, line 169. -/
noncomputable def LRData.vComp (D : LRData n) (ph : List (PH n)) (eigv : Fin ph.length → Fin ph.length → ℝ) (omega : ℝ)
    (ex : Fin ph.length) (i : Fin 3) : ℝ :=
  (∑ p, D.rv ph[p] i * √(ph[p].df * ph[p].de) * eigv p ex) / √omega * 2

/-- Frequency, oscillator strength and collectivity of one excitation, lines 159-171.  Roots of negative numbers
(`nan` in numpy) are zero here; the theorems about them assume positive eigenvalues. -/
noncomputable def LRData.strength (D : LRData n) (ph : List (PH n)) (omega2 : Fin ph.length → ℝ)
    (eigv : Fin ph.length → Fin ph.length → ℝ) (ex : Fin ph.length) : ℝ :=
  √(omega2 ex) * (∑ i, D.vComp ph eigv √(omega2 ex) ex i * D.vComp ph eigv √(omega2 ex) ex i) * 2 / 3

open Classical in
/-- `run`, /repo/hotbit/analysis/lr.py lines 93-183; `done` tells whether it has been run before, and the function `eigh` is
numpy's, giving eigenvalues and eigenvectors (`eigv p ex`) of a matrix. -/
noncomputable def LRData.run (D : LRData n)
    (eigh : ∀ d : ℕ, Matrix (Fin d) (Fin d) ℝ → (Fin d → ℝ) × (Fin d → Fin d → ℝ)) (done : Bool) :
    Except Exn (LRResult n) := do
  if done then throw Exn.assertionError
  let ph ← D.select (statePairs n)
  if ¬ (0 < ph.length ∧ ph.length < 100000) then throw Exn.runtimeError
  let s := eigh ph.length (D.matrix ph)
  return ⟨ph, List.ofFn fun ex => √(s.1 ex), List.ofFn fun ex => D.strength ph s.1 s.2 ex,
    List.ofFn fun ex => 1 / ∑ p, s.2 p ex ^ 4⟩

/-- `get_linear_response`, lines 79-81; before `run` the attributes do not exist. -/
noncomputable def lrSpectrum (hartree : ℝ) : Option (LRResult n) → Except Exn (List ℝ × List ℝ)
  | none => .error .attributeError
  | some R => .ok (R.omega.map (· * hartree), R.F)

open Classical in
/-- The loop of `get_excitation`, lines 207-211. -/
noncomputable def findExcitation (hartree cut : ℝ) (i : ℤ) : ℤ → List (ℝ × ℝ) → Option (ℝ × ℝ)
  | _, [] => none
  | p, (om, F) :: l =>
    let p' := if F ≥ cut then p + 1 else p
    if p' = i then some (om * hartree, F) else findExcitation hartree cut i p' l

/-- `get_excitation(i)`, lines 199-211; `none` is Python's `None`. -/
noncomputable def getExcitation (hartree cut : ℝ) (R : LRResult n) (i : ℤ) : Option (ℝ × ℝ) :=
  findExcitation hartree cut i (-1) (R.omega.zip R.F)

/-- `'%10.5f'` read back. -/
noncomputable def fmt5 (x : ℝ) : ℝ := (round (x * 100000) : ℝ) / 100000

/-- `write_spectrum` followed by `read_spectrum`, lines 214-231: the new `omega` and `F`. -/
noncomputable def rereadSpectrum (hartree : ℝ) (R : LRResult n) : List ℝ × List ℝ :=
  (R.omega.map fun x => fmt5 (x * hartree), R.F.map fmt5)

end Hotbit
