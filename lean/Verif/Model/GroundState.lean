import Verif.Model.TotalEnergy
import Verif.Model.Solver

/-!
# From the atoms to energy and forces

Models the whole calculation for a geometry: `States.solve` (`hotbit/states.py:190-213`) with the
matrices, the self-consistency loop `Solver.get_states` (`hotbit/solver.py:61-100`), `States.update`
(`states.py:230-243`), `check_mulliken_charges` (`states.py:216-227`), and then
`Hotbit.get_potential_energy` and `Hotbit.get_forces` (`hotbit/aseinterface.py:452-485`).

Left out: pair potentials added by the user and the van der Waals correction, external potentials
(C108), caching (C25), the overwritten overlap of a single orbital (C121), timers and messages.
The Coulomb solver is `DirectCoulomb`, whose stored sums are those of the current charges (C43).
-/

namespace Hotbit

/-- What the solution needs besides `ScfIn`: LAPACK and the tolerance of its norms (`solver.py:103-117`),
scipy's root finder (`occupations.py:87`), the mixer after `reset()` (`solver.py:65-66,83`), the largest
number of iterations, the charges to start from (`states.py:178-187`) and the atomic numbers
(`states.py:222`). -/
structure ScfTools (P : ScfIn) (Mx : Type) where
  L : Lapack P.t.norb
  tolNorm : ℝ
  brentq : (ℝ → ℝ) → ℝ → ℝ → Except Exn ℝ
  mix : Mx → List ℝ → List ℝ → Bool × List ℝ × Mx
  mx : Mx
  maxiter : ℕ
  guess : List ℝ
  Z : List ℕ

/-- What is computed once for a geometry: the matrices at the k-points and, with SCC, the neighbours of
the charge corrections and of the Coulomb sums, `states.py:204-207`. -/
structure Setup (P : ScfIn) where
  st : Fin P.nk → MatSt
  nb : List Nb

namespace Setup

variable {P : ScfIn} (x : Setup P)

/-- `H0[ik]`. -/
def H0 (k : Fin P.nk) : CMat P.t.norb := P.t.flat (x.st k).H0

/-- `S[ik]`. -/
def S (k : Fin P.nk) : CMat P.t.norb := P.t.flat (x.st k).S

/-- `dH0[ik,:,:,c]`. -/
def dH0 (c : Fin 3) (k : Fin P.nk) : CMat P.t.norb := P.t.flat ((x.st k).dH0 c)

/-- `dS[ik,:,:,c]`. -/
def dS (c : Fin 3) (k : Fin P.nk) : CMat P.t.norb := P.t.flat ((x.st k).dS c)

/-- `epsilon` after `set_dq(dq)`, `electrostatics.py:174-182`; `N` atoms. -/
noncomputable def epsilon (N : ℕ) (dq : List ℝ) : ℕ → ℝ :=
  epsilonOf N (corrMatrix P.cd P.bohr P.U P.w x.nb) P.bohr (dcPhi P.gcut dq (some x.nb)) (chg dq)

end Setup

/-- The matrices and neighbours of the atoms, `states.py:204-207`, `electrostatics.py:246-268`,
`direct_coulomb.py:80-100`. -/
noncomputable def setupOf (P : ScfIn) (A : Atoms) : Except Exn (Setup P) := do
  let l ← (List.finRange P.nk).mapM fun k => getMatrices (P.mat A) (P.kpt k)
  let nb ← if P.scc then getNeighbors A P.gcut else .ok none
  return ⟨fun k => l.getD k MatSt.zero, nb.getD []⟩

/-- What `States` and `Electrostatics` hold after one diagonalisation: energies, states, chemical
potential, charges and the `h1` that was diagonalised. -/
structure Pass (P : ScfIn) where
  e : Fin P.nk → Fin P.t.norb → ℝ
  wf : Fin P.nk → CMat P.t.norb
  mu : ℝ
  dq : List ℝ
  h1 : Option (Fin P.t.norb → Fin P.t.norb → ℝ)

namespace Pass

variable {P : ScfIn} (p : Pass P)

/-- `f`, `occupations.py:30-40,92`. -/
noncomputable def f (k : Fin P.nk) (a : Fin P.t.norb) : ℝ := fermi P.width p.mu (p.e k a)

/-- `rho[ik]`, `states.py:237`. -/
noncomputable def rho (k : Fin P.nk) : CMat P.t.norb := computeRho (p.wf k) (p.f k)

/-- `rhoe[ik]`, `states.py:261`. -/
noncomputable def rhoe (k : Fin P.nk) : CMat P.t.norb := computeRhoe (p.wf k) (p.f k) (p.e k)

end Pass

/-- One iteration, `solver.py:73-76` with `states.py:230-243`; no charges without SCC. -/
noncomputable def onePass {P : ScfIn} {Mx : Type} (T : ScfTools P Mx) (x : Setup P) (N : ℕ)
    (dq : Option (List ℝ)) : Except Exn (Pass P) := do
  let h1 : Option (Fin P.t.norb → Fin P.t.norb → ℝ) :=
    dq.map fun q a b => constructH1 P.t N (x.epsilon N q) (fun _ => 0) a b
  let sol ← solveAll T.L T.tolNorm h1 (List.ofFn fun k => (x.H0 k, x.S k))
  let e : Fin P.nk → Fin P.t.norb → ℝ := fun k => (sol.getD k (0, 0)).1
  let wf : Fin P.nk → CMat P.t.norb := fun k => (sol.getD k (0, 0)).2
  let o ← Occ.occupy ⟨P.nel, P.width, P.wk, e⟩ T.brentq
  let dq' ← if dq.isSome then
      mulliken P.wk (fun k => computeRho (wf k) (o.2 k)) x.S P.t.blocks P.val P.charge P.tol
    else .ok []
  return ⟨e, wf, o.1, dq', h1⟩

/-- The environment of the loop `get_states`. -/
noncomputable def scfEnv {P : ScfIn} {Mx : Type} (T : ScfTools P Mx) (x : Setup P) (N : ℕ) :
    ScfEnv (Option (Pass P)) (List ℝ) Mx where
  solve dq := (onePass T x N dq).map some
  dqOut p := p.elim [] Pass.dq
  mix := T.mix

/-- `States.solve()`, `states.py:190-213`.  With `maxiter = 0` the states do not exist and
`get_states` raises `AttributeError` (`solver.py:100`). -/
noncomputable def groundState {P : ScfIn} {Mx : Type} (T : ScfTools P Mx) (A : Atoms) :
    Except Exn (Setup P × Pass P) := do
  let x ← setupOf P A
  let r ← getStates (scfEnv T x A.positions.length) P.scc T.maxiter none T.mx T.guess
  match r.states with
  | none => .error .attributeError
  | some p => do
    let q ← mulliken P.wk p.rho x.S P.t.blocks P.val P.charge P.tol
    checkMulliken q T.Z
    return (x, p)

/-- `get_potential_energy(atoms)`, `aseinterface.py:452-466,582-595`, in eV. -/
noncomputable def potentialEnergy {P : ScfIn} {Mx : Type} (T : ScfTools P Mx) (A : Atoms) :
    Except Exn ℝ := do
  let g ← groundState T A
  let ebs ← bandEnergy P.wk g.2.rho g.1.H0 P.tolIm
  let N := A.positions.length
  let ecoul := coulombEnergy P.scc N (chg g.2.dq) (g.1.epsilon N g.2.dq)
  let erep ← repEnergy (P.geom A) P.V P.rmax P.hartree
  return ebs * P.hartree + ecoul * P.hartree + erep - P.efree * P.hartree

/-- `get_forces(atoms)`, `aseinterface.py:469-485`: the force on every atom, in eV/Ångström. -/
noncomputable def atomForces {P : ScfIn} {Mx : Type} (T : ScfTools P Mx) (A : Atoms) :
    Except Exn (List Vec) := do
  let g ← groundState T A
  let N := A.positions.length
  let fbs : Fin 3 → List ℝ := fun c => bandForces P.wk
    (fun k => dHfull (g.1.dH0 c k) (g.1.dS c k) g.2.h1) (g.1.dS c) g.2.rho g.2.rhoe P.t.blocks
  let dG := corrDMatrix P.cd P.bohr P.w g.1.nb
  let fcoul := gammaForces P.scc N dG P.bohr (dcField P.gcut g.2.dq (some g.1.nb)) (chg g.2.dq)
  return (List.range N).map fun i => fun c =>
    ((fbs c).getD i 0 + repForces (P.geom A) P.V P.rmax i c + fcoul i c) * (P.hartree / P.bohr)

end Hotbit
