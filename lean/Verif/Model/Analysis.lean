import Verif.Model.Density
import Verif.Model.KPoints
import Mathlib.Analysis.SpecialFunctions.Sqrt
import Mathlib.Analysis.SpecialFunctions.Trigonometric.Basic
import Mathlib.Data.List.FinRange

/-!
# Mulliken analysis, densities of states and bond energies
(`hotbit/analysis/mulliken.py`, `broaden` of `box/mix.py`)

Arrays indexed by k-points, states and orbitals are functions on `Fin nk` and `Fin n`.
-/

namespace Hotbit

open Matrix

variable {nk n : ℕ}

/-- Element `i` of an array. -/
def atIdx {M : Type} (v : Fin n → M) (i : ℕ) : Except Exn M :=
  if h : i < n then .ok (v ⟨i, h⟩) else .error .indexError

/-! ### Populations -/

/-- `aux[k,a,mu]`, /repo/hotbit/analysis/mulliken.py lines 52-57, for one k-point. -/
noncomputable def auxPop (wf S : CMat n) (a mu : Fin n) : ℝ :=
  ((starRingEnd ℂ) (wf a mu) * ∑ nu, wf a nu * Sᵀ nu mu).re

/-- `trace_I`, /repo/hotbit/analysis/mulliken.py lines 60-66, for a complex matrix. -/
noncomputable def traceI (t : OrbTables) (I : ℕ) (A : CMat n) : Except Exn ℂ := do
  let o ← t.indicesOf I
  let l ← o.mapM fun i => atIdx (fun j => A j j) i
  return l.sum

/-- `get_atoms_mulliken`, /repo/hotbit/analysis/mulliken.py lines 69-74; `diag` is `self.diag`
(`mullikenDiag`, lines 47-50). -/
def atomsMulliken (t : OrbTables) (diag : Fin n → ℝ) (val : List ℝ) : List ℝ :=
  List.zipWith (· - ·) (t.blocks.map (sliceSum diag)) val

/-- `get_atom_mulliken`, /repo/hotbit/analysis/mulliken.py lines 77-86. -/
def atomMulliken (t : OrbTables) (diag : Fin n → ℝ) (I : ℕ) : Except Exn ℝ := do
  let o ← t.indicesOf I
  let l ← o.mapM (atIdx diag)
  return l.sum

/-- `get_basis_mulliken`, /repo/hotbit/analysis/mulliken.py lines 89-97. -/
def basisMulliken (diag : Fin n → ℝ) (mu : ℕ) : Except Exn ℝ := atIdx diag mu

/-- `pop`, /repo/hotbit/analysis/mulliken.py lines 104-109 and 180-185: sums over s, p and d orbitals. -/
def angmomPop (all : List ℝ) : Except Exn (List ℝ) :=
  match all with
  | [] => .error .indexError
  | s :: rest => .ok [s, if 1 < all.length then (rest.take 3).sum else 0,
      if 4 < all.length then (rest.drop 3).sum else 0]

/-- `get_atom_all_angmom_mulliken`, /repo/hotbit/analysis/mulliken.py lines 100-109. -/
def atomAngmom (t : OrbTables) (diag : Fin n → ℝ) (I : ℕ) : Except Exn (List ℝ) := do
  let o ← t.indicesOf I
  let l ← o.mapM (atIdx diag)
  angmomPop l

/-- The factor `w`, /repo/hotbit/analysis/mulliken.py lines 123-124. -/
def wFactor (wk : Fin nk → ℝ) (k : Fin nk) (useW : Bool) : ℝ := if useW then wk k else 1

/-- `get_basis_wf_mulliken`, /repo/hotbit/analysis/mulliken.py lines 112-125; `aux` is `self.aux`. -/
def basisWf (wk : Fin nk → ℝ) (aux : Fin nk → Fin n → Fin n → ℝ) (mu : ℕ) (k : Fin nk) (a : Fin n) (useW : Bool) :
    Except Exn ℝ := do
  let x ← atIdx (aux k a) mu
  return wFactor wk k useW * x

/-- `get_atom_wf_mulliken` for an atom, /repo/hotbit/analysis/mulliken.py lines 128-144. -/
def atomWf (t : OrbTables) (wk : Fin nk → ℝ) (aux : Fin nk → Fin n → Fin n → ℝ) (I : ℕ) (k : Fin nk) (a : Fin n)
    (useW : Bool) : Except Exn ℝ := do
  let o ← t.indicesOf I
  let l ← o.mapM (atIdx (aux k a))
  return wFactor wk k useW * l.sum

/-- `get_atom_wf_mulliken` with `I=None`, /repo/hotbit/analysis/mulliken.py lines 141-142. -/
def atomsWf (t : OrbTables) (wk : Fin nk → ℝ) (aux : Fin nk → Fin n → Fin n → ℝ) (k : Fin nk) (a : Fin n)
    (useW : Bool) : Except Exn (List ℝ) :=
  (List.range t.blocks.length).mapM fun I => atomWf t wk aux I k a useW

/-- `get_atom_wf_all_orbital_mulliken`, /repo/hotbit/analysis/mulliken.py lines 147-164. -/
def atomWfOrbitals (t : OrbTables) (wk : Fin nk → ℝ) (aux : Fin nk → Fin n → Fin n → ℝ) (I : ℕ) (k : Fin nk)
    (a : Fin n) (useW : Bool) : Except Exn (List ℝ) := do
  let o ← t.indicesOf I
  o.mapM fun mu => basisWf wk aux mu k a useW

/-- `get_atom_wf_all_angmom_mulliken`, /repo/hotbit/analysis/mulliken.py lines 167-185. -/
def atomWfAngmom (t : OrbTables) (wk : Fin nk → ℝ) (aux : Fin nk → Fin n → Fin n → ℝ) (I : ℕ) (k : Fin nk)
    (a : Fin n) (useW : Bool) : Except Exn (List ℝ) := do
  let all ← atomWfOrbitals t wk aux I k a useW
  angmomPop all

/-! ### Broadening -/

/-- The argument `function` of `broaden`. -/
inductive BroadFn
  | gaussian
  | lorentzian
  | other

/-- One broadened peak, /repo/box/mix.py lines 501-504. -/
noncomputable def peak (width xi x : ℝ) : BroadFn → ℝ
  | .lorentzian => (width / Real.pi) / ((x - xi) ^ 2 + width ^ 2)
  | .gaussian => Real.exp (-(x - xi) ^ 2 / (2 * width ^ 2)) / (√(2 * Real.pi) * width)
  | .other => 0

/-- `min(x)-dx` or `a`: /repo/box/mix.py lines 484-492. -/
noncomputable def lowEnd (x : List ℝ) (dx : ℝ) : Option ℝ → Except Exn ℝ
  | some a => .ok a
  | none => match x.min? with | some m => .ok (m - dx) | none => .error .valueError

/-- `max(x)+dx` or `b`. -/
noncomputable def highEnd (x : List ℝ) (dx : ℝ) : Option ℝ → Except Exn ℝ
  | some b => .ok b
  | none => match x.max? with | some m => .ok (m + dx) | none => .error .valueError

/-- The broadened distribution at one point. -/
noncomputable def broadAt (fn : BroadFn) (width : ℝ) (xy : List (ℝ × ℝ)) (x : ℝ) : ℝ :=
  (xy.map fun p => p.2 * peak width p.1 x fn).sum

/-- `broaden`, /repo/box/mix.py lines 464-506.  With an unknown `function` the name `w` is unbound at the first
peak. -/
noncomputable def broaden (x : List ℝ) (y : Option (List ℝ)) (width : ℝ) (fn : BroadFn) (ext : Bool) (N : ℕ)
    (a b : Option ℝ) (xgrid : Option (List ℝ)) : Except Exn (List ℝ × List ℝ) := do
  let ys := y.getD (List.replicate x.length 1)
  let dx := if ext then 4 * width else 0
  let mn ← lowEnd x dx a
  let mx ← highEnd x dx b
  let g := xgrid.getD (linspace mn mx N)
  match fn, x.zip ys with
  | .other, _ :: _ => .error .unboundLocalError
  | fn, xy => .ok (g, g.map (broadAt fn width xy))

/-! ### Densities of states -/

/-- What a `DensityOfStates` object holds: tables, weights, populations of the states, energies with respect to
the Fermi level in eV, occupations, /repo/hotbit/analysis/mulliken.py lines 189-203. -/
structure DosData (nk n : ℕ) where
  t : OrbTables
  wk : Fin nk → ℝ
  aux : Fin nk → Fin n → Fin n → ℝ
  e : Fin nk → Fin n → ℝ
  f : Fin nk → Fin n → ℝ

/-- All states, in the order of the loops of /repo/hotbit/analysis/mulliken.py lines 286-287. -/
def allStates (nk n : ℕ) : List (Fin nk × Fin n) :=
  (List.finRange nk).flatMap fun k => (List.finRange n).map fun a => (k, a)

/-- `emin, emax` or the window, /repo/hotbit/analysis/mulliken.py lines 203, 238-240, 280-282; there is no minimum of an empty array. -/
noncomputable def DosData.limits (D : DosData nk n) (window : Option (ℝ × ℝ)) : Except Exn (ℝ × ℝ) :=
  let es := (allStates nk n).map fun s => D.e s.1 s.2
  match es.min?, es.max? with
  | some mn, some mx => .ok (window.getD (mn, mx))
  | _, _ => .error .valueError

open Classical in
/-- The states in the window, /repo/hotbit/analysis/mulliken.py lines 284-291. -/
noncomputable def DosData.inWindow (D : DosData nk n) (mn mx : ℝ) : List (Fin nk × Fin n) :=
  (allStates nk n).filter fun s => decide (mn ≤ D.e s.1 s.2 ∧ D.e s.1 s.2 ≤ mx)

/-- The local density of one atom, /repo/hotbit/analysis/mulliken.py lines 297-298. -/
noncomputable def DosData.ldosAtom (D : DosData nk n) (width mn mx : ℝ) (npts I : ℕ) :
    Except Exn (List ℝ × List ℝ) := do
  let st := D.inWindow mn mx
  let q ← st.mapM fun s => atomWf D.t D.wk D.aux I s.1 s.2 true
  broaden (st.map fun s => D.e s.1 s.2) (some q) width .gaussian false npts (some mn) (some mx) none

/-- The local density of one atom and angular momentum, /repo/hotbit/analysis/mulliken.py lines 299-302; an empty list of states has no column. -/
noncomputable def DosData.pldosAtom (D : DosData nk n) (width mn mx : ℝ) (npts I l : ℕ) :
    Except Exn (List ℝ) := do
  let st := D.inWindow mn mx
  let q ← st.mapM fun s => atomWfAngmom D.t D.wk D.aux I s.1 s.2 true
  if q = [] then throw Exn.indexError
  let r ← broaden (st.map fun s => D.e s.1 s.2) (some (q.map fun p => p.getD l 0)) width .gaussian false npts
    (some mn) (some mx) none
  return r.2

/-- Elementwise sum of rows. -/
def addRows (a b : List ℝ) : List ℝ := List.zipWith (· + ·) a b

/-- The rows of one atom, without the check of line 305. -/
noncomputable def DosData.ldosChecked (D : DosData nk n) (width mn mx : ℝ) (npts I : ℕ) :
    Except Exn (List ℝ × List (List ℝ)) := do
  let r ← D.ldosAtom width mn mx npts I
  let p ← (List.range 3).mapM fun l => D.pldosAtom width mn mx npts I l
  return (r.2, p)

open Classical in
/-- `get_local_density_of_states(projected=True)`, /repo/hotbit/analysis/mulliken.py lines 260-306: grid, rows of atoms, rows of atoms and angular
momenta. -/
noncomputable def DosData.localDosProj (D : DosData nk n) (width : ℝ) (window : Option (ℝ × ℝ)) (npts : ℕ) :
    Except Exn (List ℝ × List (List ℝ) × List (List (List ℝ))) := do
  let w ← D.limits window
  if D.t.blocks = [] then throw Exn.unboundLocalError
  let rows ← (List.range D.t.blocks.length).mapM fun I => D.ldosChecked width w.1 w.2 npts I
  if ∃ r ∈ rows, ∃ i < npts, ¬ |r.1.getD i 0 - (r.2.map fun p => p.getD i 0).sum| < 1e-6 then
    throw Exn.assertionError
  return (linspace w.1 w.2 npts, rows.map Prod.fst, rows.map Prod.snd)

/-- `get_local_density_of_states()`, /repo/hotbit/analysis/mulliken.py lines 260-298, 307-308. -/
noncomputable def DosData.localDos (D : DosData nk n) (width : ℝ) (window : Option (ℝ × ℝ)) (npts : ℕ) :
    Except Exn (List ℝ × List (List ℝ)) := do
  let w ← D.limits window
  if D.t.blocks = [] then throw Exn.unboundLocalError
  let rows ← (List.range D.t.blocks.length).mapM fun I => D.ldosAtom width w.1 w.2 npts I
  return (linspace w.1 w.2 npts, rows.map Prod.snd)

/-- The peaks of the total density, /repo/hotbit/analysis/mulliken.py lines 242-249. -/
def DosData.peaks (D : DosData nk n) : List (ℝ × ℝ) :=
  (List.finRange n).flatMap fun a => (List.finRange nk).map fun k => (D.e k a, D.wk k)

/-- The occupations in the same order. -/
def DosData.occs (D : DosData nk n) : List ℝ :=
  (List.finRange n).flatMap fun a => (List.finRange nk).map fun k => D.f k a

/-- What `get_density_of_states` returns. -/
structure DosResult where
  e : List ℝ
  dos : List ℝ
  pdos : Option (List (List ℝ)) := none
  occ : Option (List ℝ) := none

/-- Sum over the atoms, `sum(axis=0)`, of rows of length `m`. -/
def sumRows (m : ℕ) (rows : List (List ℝ)) : List ℝ := rows.foldl addRows (List.replicate m 0)

/-- `get_density_of_states`, /repo/hotbit/analysis/mulliken.py lines 206-257. -/
noncomputable def DosData.dos (D : DosData nk n) (br projected occu : Bool) (width : ℝ) (window : Option (ℝ × ℝ))
    (npts : ℕ) : Except Exn DosResult := do
  if (br && occu) || (projected && occu) then throw Exn.assertionError
  if projected then
    let r ← D.localDosProj width window npts
    return { e := r.1, dos := sumRows npts r.2.1
             pdos := some ((List.range 3).map fun l => sumRows npts (r.2.2.map fun p => p.getD l [])) }
  else
    let w ← D.limits window
    let xy := D.peaks
    let ed ← (if br then
        broaden (xy.map Prod.fst) (some (xy.map Prod.snd)) width .gaussian false npts (some w.1) (some w.2) none
      else pure (xy.map Prod.fst, xy.map Prod.snd))
    return { e := ed.1, dos := ed.2, occ := if occu then some D.occs else none }

/-! ### Bond analysis -/

/-- What a `MullikenBondAnalysis` object reads: /repo/hotbit/analysis/mulliken.py lines 313-339.  `rep` and `pp`
are the pair energies of the repulsion and the pair potentials (Hartree), `G` the electrostatic matrix, `phi`
the potential of the `DirectCoulomb` solver made in `get_atom_energy`, `q0` the free populations. -/
structure BondData (nk n : ℕ) where
  t : OrbTables
  wk : Fin nk → ℝ
  rho : Fin nk → CMat n
  S : Fin nk → CMat n
  H0 : Fin nk → CMat n
  wf : Fin nk → CMat n
  eps : Fin n → ℝ
  q0 : Fin n → ℝ
  scc : Bool
  G : ℕ → ℕ → ℝ
  dq : ℕ → ℝ
  phi : ℕ → ℝ
  rep : ℕ → ℕ → ℝ
  pp : ℕ → ℕ → ℝ
  bohr : ℝ
  hartree : ℝ

/-- `HS[k] = H0 - S*eps` with the mean of the two orbital energies, /repo/hotbit/analysis/mulliken.py lines 323-333. -/
noncomputable def BondData.HS (B : BondData nk n) (k : Fin nk) : CMat n :=
  Matrix.of fun i j => B.H0 k i j - B.S k i j * ((0.5 * (B.eps i + B.eps j) : ℝ) : ℂ)

/-- `rhoM[k]`, /repo/hotbit/analysis/mulliken.py lines 334. -/
noncomputable def BondData.rhoM (B : BondData nk n) (k : Fin nk) (i j : Fin n) : ℂ := B.rho k i j * (B.HS k)ᵀ i j

/-- `rhoSk[k]`, /repo/hotbit/analysis/mulliken.py line 332. -/
def BondData.rhoS (B : BondData nk n) (k : Fin nk) (i j : Fin n) : ℂ := (B.rho k * B.S k) i j

/-- `self.diag`. -/
noncomputable def BondData.diag (B : BondData nk n) : Fin n → ℝ := mullikenDiag B.wk B.rho B.S

/-- `np.sum(M[o1i:o1i+noi,o1j:o1j+noj])`. -/
def orbBlockSum {M : Type} [AddCommMonoid M] (A : Fin n → Fin n → M) (bi bj : ℕ × ℕ) : M :=
  sliceSum (fun i => sliceSum (A i) bj) bi

open Classical in
/-- `get_mayer_bond_order`, /repo/hotbit/analysis/mulliken.py lines 342-364. -/
noncomputable def BondData.mayer (B : BondData nk n) (i j : ℕ) : Except Exn ℝ := do
  let oi ← B.t.indicesOf i
  let oj ← B.t.indicesOf j
  let ms ← (List.finRange nk).mapM fun k => oi.mapM fun mu => oj.mapM fun nu => do
    let x ← atIdx (B.rhoS k) mu
    let y ← atIdx (B.rhoS k) nu
    let a ← atIdx x nu
    let b ← atIdx y mu
    return (B.wk k : ℂ) * a * b
  let M := (ms.map fun l => (l.map List.sum).sum).sum
  if |M.im| < 1e-12 then return M.re else throw Exn.assertionError

/-- `get_promotion_energy(I)`, /repo/hotbit/analysis/mulliken.py lines 405-428. -/
noncomputable def BondData.promotion (B : BondData nk n) (I : ℕ) : Except Exn ℝ := do
  let o ← B.t.indicesOf I
  let l ← o.mapM fun mu => do
    let q ← atIdx B.diag mu
    let q0 ← atIdx B.q0 mu
    let e ← atIdx B.eps mu
    return (q - q0) * e
  return l.sum * B.hartree

/-- The block of an atom, `get_property_lists(['o1','no'])[I]`. -/
def blockOf (t : OrbTables) (I : ℕ) : Except Exn (ℕ × ℕ) :=
  match t.blocks[I]? with | some b => .ok b | none => .error .indexError

open Classical in
/-- `get_atom_energy(I)`, /repo/hotbit/analysis/mulliken.py lines 367-402. -/
noncomputable def BondData.atomEnergy (B : BondData nk n) (I : ℕ) : Except Exn ℝ := do
  let coul : ℝ := if B.scc then 0.5 * B.G I I * B.dq I ^ 2 + 0.5 * B.dq I * B.phi I * B.bohr else 0
  let b ← blockOf B.t I
  let eorb : ℂ := ∑ k, (B.wk k : ℂ) * orbBlockSum (B.rhoM k) b b
  let pr ← B.promotion I
  let A : ℂ := (((coul + B.rep I I + B.pp I I : ℝ) : ℂ) + eorb) * (B.hartree : ℂ) + (pr : ℂ)
  if |A.im| < 1e-12 then return A.re else throw Exn.assertionError

/-- `get_bond_energy(i,j)`, /repo/hotbit/analysis/mulliken.py lines 431-455. -/
noncomputable def BondData.bondEnergy (B : BondData nk n) (i j : ℕ) : Except Exn ℝ := do
  let coul : ℝ := if B.scc then B.G i j * B.dq i * B.dq j else 0
  let bi ← blockOf B.t i
  let bj ← blockOf B.t j
  let ebs : ℝ := ∑ k, 2 * B.wk k * orbBlockSum (fun a b => (B.rhoM k a b).re) bi bj
  return (B.rep i j + B.pp i j + coul + ebs) * B.hartree

/-- `get_atom_and_bond_energy(i)`, /repo/hotbit/analysis/mulliken.py lines 458-478. -/
noncomputable def BondData.atomAndBond (B : BondData nk n) (i : ℕ) : Except Exn ℝ := do
  let ea ← B.atomEnergy i
  let eb ← ((List.range B.t.blocks.length).filter fun j => j ≠ i).mapM fun j => B.bondEnergy i j
  return ea + (eb.map fun x => 0.5 * x).sum

/-! ### Covalent energies -/

/-- The argument `mode` with `i` and `j`. -/
inductive CovMode
  | total
  | orbitals (i j : ℕ)
  | atoms (i j : ℕ)
  | angmom (i j : ℕ)
  | other

/-- `wf[k,a,m]*wf[k,a,n].conj()*HS[k,n,m]`. -/
noncomputable def BondData.covPair (B : BondData nk n) (k : Fin nk) (a m n' : Fin n) : ℂ :=
  B.wf k a m * (starRingEnd ℂ) (B.wf k a n') * B.HS k n' m

/-- The orbitals of angular momentum `l`, /repo/hotbit/analysis/mulliken.py lines 521-525. -/
def BondData.lorbs (B : BondData nk n) (l : ℕ) : List (Fin n) :=
  (List.finRange n).filter fun m => (B.t.orb[m.val]?).map OrbRec.angmom == some l

/-- The covalent energy of state `a` at `k`, /repo/hotbit/analysis/mulliken.py lines 534-564.  In mode `angmom` an empty index array `oj` is
refused by numpy, and the sum over no orbital is a Python float without `conj`; `lorbs` has three entries. -/
noncomputable def BondData.covState (B : BondData nk n) (mode : CovMode) (k : Fin nk) (a : Fin n) : Except Exn ℂ :=
  let w : ℂ := (B.wk k : ℂ)
  match mode with
  | .total => .ok (∑ m, w * ∑ n', B.covPair k a m n')
  | .orbitals i j => do
    let x ← atIdx (B.covPair k a) i
    let z ← atIdx x j
    if i ≠ j then return ((B.wk k * 2 * z.re : ℝ) : ℂ) else return w * z
  | .atoms i j => do
    let bi ← blockOf B.t i
    let bj ← blockOf B.t j
    if i ≠ j then return orbBlockSum (fun m n' => ((B.wk k * 2 * (B.covPair k a m n').re : ℝ) : ℂ)) bi bj
    else return orbBlockSum (fun m n' => w * B.covPair k a m n') bi bj
  | .angmom i j =>
    if 3 ≤ i ∨ 3 ≤ j then .error .indexError
    else match B.lorbs i, B.lorbs j with
      | [], _ => if i ≠ j then .error .attributeError else .ok 0
      | _ :: _, [] => .error .indexError
      | oi, oj =>
        let e := (oi.map fun m => w * (oj.map fun n' => B.covPair k a m n').sum).sum
        .ok (if i ≠ j then e + (starRingEnd ℂ) e else e)
  | .other => .error .notImplementedError

/-- What is looked up before the loop over the states, /repo/hotbit/analysis/mulliken.py lines 520-528. -/
def BondData.covPre (B : BondData nk n) : CovMode → Except Exn Unit
  | .angmom i j => if 3 ≤ i ∨ 3 ≤ j then .error .indexError else .ok ()
  | .atoms i j => do
    let _ ← blockOf B.t i
    let _ ← blockOf B.t j
    return ()
  | _ => .ok ()

open Classical in
/-- `get_covalent_energy`, /repo/hotbit/analysis/mulliken.py lines 481-577; `e` are the eigenvalues and `mu` the chemical potential in Hartree. -/
noncomputable def BondData.covalent (B : BondData nk n) (e : Fin nk → Fin n → ℝ) (mu : ℝ) (mode : CovMode)
    (width : Option ℝ) (window : Option (ℝ × ℝ)) (npts : ℕ) : Except Exn (List ℝ × List ℝ) := do
  let en : Fin nk × Fin n → ℝ := fun s => e s.1 s.2 - mu
  let w ← (match window with
    | some w => .ok (w.1 / B.hartree, w.2 / B.hartree)
    | none => match ((allStates nk n).map en).min?, ((allStates nk n).map en).max? with
      | some mn, some mx => .ok (mn - 1e-6, mx + 1e-6)
      | _, _ => .error .valueError)
  B.covPre mode
  let st := (allStates nk n).filter fun s => decide (w.1 ≤ en s ∧ en s ≤ w.2)
  let ys ← st.mapM fun s => B.covState mode s.1 s.2
  if ∃ y ∈ ys, ¬ |y.im| < 1e-12 then throw Exn.assertionError
  match width with
  | none => return (st.map fun s => en s * B.hartree, ys.map fun y => y.re * B.hartree)
  | some wd =>
    let r ← broaden (st.map en) (some (ys.map Complex.re)) (wd / B.hartree) .gaussian false npts (some w.1) (some w.2)
      none
    return (r.1.map (· * B.hartree), r.2.map (· * B.hartree))

end Hotbit
